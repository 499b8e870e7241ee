import Verif.Tv.DeconvL1

/-!
# TV deconvolution: where the documented claims fail, and concrete instances
-/

set_option autoImplicit false
set_option linter.unusedSectionVars false

namespace Sporco.Tv.Dec

open Finset ComplexConjugate Sporco.Conv Sporco.Admm Sporco.Signal Filter Topology
open Sporco.Prox (IsUniqueMin)

variable {d : ℕ} {N Nd : Fin d → ℕ} [∀ k, NeZero (N k)] {a : Fin d} {γ χ : Type*} [Fintype γ] [Fintype χ]

/-- **C40 refuted for kernels with zero sum.** The x update of `TVL2Deconv` is documented to minimise the
augmented Lagrangian, which has a minimiser here (the zero image, for a zero signal and zero Y and U), but
the update divides zero by zero. -/
theorem C40_deconv_singular_refuted :
    ∃ (A : Fin 1 × Fin 1 → NArr (fun _ : Fin 1 => 2) ℝ) (S : Fin 1 × Fin 1 → Grid (fun _ : Fin 1 => 4) → ℝ)
      (rho : ℝ), 0 < rho ∧ xstepNaN (init A S : Attr (Fin 1) (Fin 1) (fun _ : Fin 1 => 4) 0) rho ∧
      ∀ z, augL2 A S rho 0 0 (fun _ _ => 0) ≤ augL2 A S rho 0 0 z := by
  refine ⟨fun _ j => if j 0 = 0 then 1 else -1, fun _ _ => 0, 1, one_pos, ?_, fun z => ?_⟩
  · rw [(C40_deconv_nan (fun _ => by norm_num) (fun _ => by norm_num) _ _ 1 one_pos).1]
    refine ⟨(0, 0), ?_⟩
    rw [← (Equiv.funUnique (Fin 1) (Fin 2)).symm.sum_comp]
    simp [Equiv.funUnique, uniqueElim]
  · have h0 : augL2 (N := fun _ : Fin 1 => 4) (fun _ : Fin 1 × Fin 1 => fun j : (k : Fin 1) → Fin 2 =>
        if j 0 = 0 then (1 : ℝ) else -1) (fun _ _ => 0) 1 0 0 (fun _ _ => 0) = 0 := by
      unfold augL2 filt cdiff
      simp
    rw [h0]
    unfold augL2
    have h1 : ∀ i p, 0 ≤ (filt (fun j : (k : Fin 1) → Fin 2 => if j 0 = 0 then (1 : ℝ) else -1) (z i) p -
      (fun _ _ => 0 : Fin 1 × Fin 1 → Grid (fun _ : Fin 1 => 4) → ℝ) i p) ^ 2 := fun i p => sq_nonneg _
    have h2 : 0 ≤ ∑ i, ∑ p, (filt (fun j : (k : Fin 1) → Fin 2 => if j 0 = 0 then (1 : ℝ) else -1) (z i) p -
      (fun _ _ => 0 : Fin 1 × Fin 1 → Grid (fun _ : Fin 1 => 4) → ℝ) i p) ^ 2 :=
      sum_nonneg fun i _ => sum_nonneg fun p _ => h1 i p
    have h3 : 0 ≤ ∑ i, ∑ k, ∑ p, (cdiff k (z i) p - (0 : Fin 1 × Fin 1 → Fin 1 → Grid (fun _ : Fin 1 => 4) → ℝ) i k p +
      (0 : Fin 1 × Fin 1 → Fin 1 → Grid (fun _ : Fin 1 => 4) → ℝ) i k p) ^ 2 :=
      sum_nonneg fun i _ => sum_nonneg fun k _ => sum_nonneg fun p _ => sq_nonneg _
    linarith

/-! ## Weights with a channel axis -/

/-- `np.sum(Wtv * G)` for `Wtv` of shape (m, n, 1) and `G` of shape (m, n), which is what
`np.sum(self.Wtv * np.sqrt(np.sum(gv**2, axis=self.saxes)))` computes for an image of shape (m, n, C) with
`caxis=2` and a weight matrix with the singleton channel axis that the Y update needs
(`tvl2.py` 294, 649, `tvl1.py` 303-304, 687-688): shapes are aligned at the end, so (m, n, 1)
meets (1, m, n); `none` if they are not compatible (numpy raises `ValueError`). -/
noncomputable def regCaxis {m n : ℕ} (w : Fin m → Fin n → ℝ) (G : Fin m → Fin n → ℝ) : Option ℝ :=
  if h : m = n then some (∑ i, ∑ j, ∑ k, w i j * G (Fin.cast h.symm j) k)
  else if h : n = 1 then some (∑ i : Fin m, ∑ j : Fin m, w i (Fin.cast h.symm 0) * G j (Fin.cast h.symm 0))
  else if h : m = 1 then some (∑ j : Fin n, ∑ k : Fin n, w (Fin.cast h.symm 0) j * G (Fin.cast h.symm 0) k)
  else none

/-- **C59 refuted for TV weights.** With a channel axis and an array of weights the recorded regularisation
term is not the weighted sum: for square images and weights all equal to one it is the side length times
too large, and images that are not square (nor of side one) raise an error. -/
theorem C59_tvweight_caxis_refuted (m n : ℕ) (G : Fin m → Fin n → ℝ) :
    (m = n → regCaxis (fun _ _ => 1) G = some (n * ∑ i, ∑ j, G i j)) ∧
    (m ≠ n → n ≠ 1 → m ≠ 1 → ∀ w, regCaxis w G = none) ∧
    (m = n → 2 ≤ n → (∃ i j, 0 < G i j) → (∀ i j, 0 ≤ G i j) →
      regCaxis (fun _ _ => 1) G ≠ some (∑ i, ∑ j, (1 : ℝ) * G i j)) := by
  have h1 : m = n → regCaxis (fun _ _ => 1) G = some (n * ∑ i, ∑ j, G i j) := by
    intro h
    subst h
    unfold regCaxis
    rw [dif_pos rfl]
    simp only [one_mul, Fin.cast_eq_self, sum_const, card_univ, Fintype.card_fin, nsmul_eq_mul]
  refine ⟨h1, fun h h2 h3 w => ?_, fun h h2 ⟨i, j, hij⟩ h0 e => ?_⟩
  · unfold regCaxis
    rw [dif_neg h, dif_neg h2, dif_neg h3]
  · rw [h1 h] at e
    have e := Option.some.inj e
    simp only [one_mul] at e
    have hpos : 0 < ∑ i, ∑ j, G i j :=
      sum_pos' (fun i _ => sum_nonneg fun j _ => h0 i j) ⟨i, mem_univ _, sum_pos' (fun j _ => h0 i j) ⟨j, mem_univ _, hij⟩⟩
    have hn : (2 : ℝ) ≤ n := by exact_mod_cast h2
    nlinarith

/-! ## Instances -/

/-- The hypotheses of the theorems on TV deconvolution are met by a kernel of two samples with sum 3, an image
of side 4, and the solution of the problem is not among the trivial ones: the zero image is not optimal. -/
example : let A : Fin 1 × Fin 1 → NArr (fun _ : Fin 1 => 2) ℝ := fun _ j => if j 0 = 0 then 2 else 1
    let S : Fin 1 × Fin 1 → Grid (fun _ : Fin 1 => 4) → ℝ := fun _ _ => 3
    (∀ i, ∑ j, A i j ≠ 0) ∧ tvL2 A S 1 (fun _ _ => 1) (fun _ _ => 1) < tvL2 A S 1 (fun _ _ => 1) (fun _ _ => 0) ∧
    tvL1 A S 1 (fun _ _ => 1) (fun _ _ => 1) (fun _ _ => 1) < tvL1 A S 1 (fun _ _ => 1) (fun _ _ => 1) (fun _ _ => 0) := by
  intro A S
  have hs : ∀ i, ∑ j, A i j = 3 := by
    intro i
    rw [← (Equiv.funUnique (Fin 1) (Fin 2)).symm.sum_comp]
    simp [A, Equiv.funUnique, uniqueElim]
    norm_num
  have hf : ∀ i p, filt (N := fun _ : Fin 1 => 4) (A i) (fun _ => 1) p = 3 := by
    intro i p
    unfold filt
    simp only [mul_one]
    exact hs i
  have hf0 : ∀ i p, filt (N := fun _ : Fin 1 => 4) (A i) (fun _ => 0) p = 0 := by
    intro i p
    unfold filt
    simp
  refine ⟨fun i => by rw [hs i]; norm_num, ?_, ?_⟩
  · unfold tvL2 tv cdiff
    simp only [hf, hf0]
    simp [S, Grid, Fintype.card_pi]
  · unfold tvL1 tv cdiff
    simp only [hf, hf0]
    simp [S, Grid, Fintype.card_pi]

end Sporco.Tv.Dec
