import Verif.Linalg.Eckart
import Mathlib.Analysis.InnerProductSpace.SingularValues
import Mathlib.Analysis.Matrix.Spectrum

/-!
# Existence of the singular value decomposition

Used to show that the contract assumed of `np.linalg.svd` can be met for every matrix.
-/

set_option autoImplicit false

namespace Sporco.Linalg

open Finset

theorem ortho_of_basis {p : ℕ} (b : OrthonormalBasis (Fin p) ℝ (EuclideanSpace ℝ (Fin p))) :
    OrthoFam fun r i => b r i := by
  intro r s
  have h := (orthonormal_iff_ite.1 b.orthonormal) r s
  rw [← h, PiLp.inner_apply]
  exact sum_congr rfl fun i _ => by simp [mul_comm]

theorem svd_exists (p q : ℕ) (M : Fin p → Fin q → ℝ) :
    ∃ (σ : ℕ → ℝ) (u : Fin p → Fin p → ℝ) (v : Fin q → Fin q → ℝ), Antitone σ ∧ (∀ r, 0 ≤ σ r) ∧
      OrthoFam u ∧ OrthoFam v ∧ ∀ i j, M i j = ∑ r : Fin (min p q),
        σ r * u ⟨r, lt_of_lt_of_le r.2 (min_le_left _ _)⟩ i *
          v ⟨r, lt_of_lt_of_le r.2 (min_le_right _ _)⟩ j := by
  classical
  let L := Matrix.toEuclideanLin (Matrix.of M)
  have hq : Module.finrank ℝ (EuclideanSpace ℝ (Fin q)) = q := by simp
  let V := L.isSymmetric_adjoint_comp_self.eigenvectorBasis hq
  let σ : ℕ → ℝ := L.singularValues
  have hσ0 : ∀ r, q ≤ r → σ r = 0 := fun r hr =>
    L.singularValues_of_finrank_le (by rw [hq]; exact hr)
  have hσp : ∀ r, p ≤ r → σ r = 0 := by
    intro r hr
    refine L.singularValues_eq_zero_iff_le_finrank_range.2 (le_trans ?_ hr)
    have := Submodule.finrank_le (LinearMap.range L)
    simpa using this
  have hin : ∀ r s : Fin q, inner ℝ (L (V r)) (L (V s)) = if r = s then σ r ^ 2 else 0 := by
    intro r s
    have h1 : inner ℝ (L (V r)) (L (V s)) = inner ℝ (V r) ((L.adjoint ∘ₗ L) (V s)) := by
      rw [LinearMap.comp_apply, LinearMap.adjoint_inner_right]
    have h2 := L.isSymmetric_adjoint_comp_self.apply_eigenvectorBasis hq s
    have h3 := L.sq_singularValues_fin hq s
    rw [h1, h2, inner_smul_right, orthonormal_iff_ite.1 V.orthonormal r s]
    by_cases h : r = s
    · subst h
      rw [if_pos rfl, if_pos rfl]
      simpa using h3.symm
    · rw [if_neg h, if_neg h, mul_zero]
  let u0 : Fin p → EuclideanSpace ℝ (Fin p) := fun r =>
    if h : r.val < q then (σ r)⁻¹ • L (V ⟨r, h⟩) else 0
  let s : Set (Fin p) := {r | σ r ≠ 0}
  have hlt : ∀ r : Fin p, r ∈ s → r.val < q := fun r hr => by
    by_contra h
    exact hr (hσ0 r (not_lt.1 h))
  have hu0 : Orthonormal ℝ (s.domRestrict u0) := by
    rw [orthonormal_iff_ite]
    rintro ⟨r, hr⟩ ⟨t, ht⟩
    have e1 : s.domRestrict u0 ⟨r, hr⟩ = (σ r)⁻¹ • L (V ⟨r, hlt r hr⟩) := dif_pos (hlt r hr)
    have e2 : s.domRestrict u0 ⟨t, ht⟩ = (σ t)⁻¹ • L (V ⟨t, hlt t ht⟩) := dif_pos (hlt t ht)
    rw [e1, e2, inner_smul_left, inner_smul_right, hin]
    have hr' : σ r ≠ 0 := hr
    by_cases h : r = t
    · subst h
      simp only [if_true]
      simp
      field_simp
    · have h' : ¬ r.val = t.val := fun e => h (Fin.ext e)
      simp [h, h', Fin.mk.injEq]
  obtain ⟨b, hb⟩ := hu0.exists_orthonormalBasis_extension_of_card_eq (by simp)
  refine ⟨σ, fun r i => b r i, fun r j => V r j, L.singularValues_antitone,
    L.singularValues_nonneg, ortho_of_basis b, ortho_of_basis V, ?_⟩
  have hz : ∀ r : Fin q, σ r = 0 → L (V r) = 0 := by
    intro r h
    have := hin r r
    rw [if_pos rfl, h] at this
    simpa using this
  intro i j
  have hL : M i j = (L (EuclideanSpace.single j 1)) i := by
    simp [L, Matrix.toLpLin_apply]
  have he : (EuclideanSpace.single j 1 : EuclideanSpace ℝ (Fin q)) = ∑ r, V r j • V r := by
    conv_lhs => rw [← V.sum_repr (EuclideanSpace.single j 1)]
    refine sum_congr rfl fun r _ => ?_
    rw [V.repr_apply_apply, EuclideanSpace.inner_single_right]
    simp
  let g : ℕ → ℝ := fun r => if h : r < p ∧ r < q then σ r * b ⟨r, h.1⟩ i * V ⟨r, h.2⟩ j else 0
  have hg : ∀ r : Fin q, (V r j • L (V r)) i = g r := by
    intro r
    by_cases h : r.val < p
    · have hgr : g r = σ r * b ⟨r, h⟩ i * V r j := dif_pos ⟨h, r.2⟩
      rw [hgr]
      by_cases h0 : σ r = 0
      · rw [hz r h0, h0]; simp
      · have hbr := hb ⟨r, h⟩ h0
        have hu : u0 ⟨r, h⟩ = (σ r)⁻¹ • L (V r) := dif_pos r.2
        rw [hbr, hu]
        simp only [PiLp.smul_apply, smul_eq_mul]
        field_simp
    · have hgr : g r = 0 := dif_neg (fun hh => h hh.1)
      rw [hgr, hz r (hσp r (not_lt.1 h))]
      simp
  rw [hL, he, map_sum]
  have h1 : (∑ r, L (V r j • V r)) i = ∑ r : Fin q, g r := by
    rw [WithLp.ofLp_sum, Finset.sum_apply]
    refine sum_congr rfl fun r _ => ?_
    rw [map_smul, ← hg r]
  rw [h1, ← sum_range g]
  have h2 : ∑ r : Fin (min p q), σ r * b ⟨r, lt_of_lt_of_le r.2 (min_le_left _ _)⟩ i *
      V ⟨r, lt_of_lt_of_le r.2 (min_le_right _ _)⟩ j = ∑ r ∈ range (min p q), g r := by
    rw [sum_range]
    refine sum_congr rfl fun r _ => ?_
    have hr : r.val < p ∧ r.val < q := lt_min_iff.1 r.2
    change _ = g r
    simp only [g]
    rw [dif_pos hr]
  rw [h2]
  symm
  refine sum_subset (range_mono (min_le_right _ _)) fun r hr hn => ?_
  refine dif_neg fun h => hn ?_
  rw [mem_range, lt_min_iff]
  exact h

end Sporco.Linalg
