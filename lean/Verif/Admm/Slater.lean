import Mathlib.Analysis.LocallyConvex.Separation
import Mathlib.Analysis.Convex.Continuous
import Mathlib.Analysis.Convex.Topology
import Mathlib.Analysis.InnerProductSpace.Dual
import Mathlib.Analysis.InnerProductSpace.PiL2

/-!
# Existence of Lagrange multipliers

For `min f(x) + g(y)` subject to `A x - y = c` with convex `f`, `g` and a point `x ∈ dom f` with
`A x - c` in the interior of `dom g`.  Used for the convergence theorems (C39) of the solvers with
constraints.
-/

set_option autoImplicit false

namespace Sporco.Admm

open scoped RealInnerProductSpace
open Set Topology

variable {E F : Type*} [NormedAddCommGroup E] [InnerProductSpace ℝ E] [NormedAddCommGroup F]
  [InnerProductSpace ℝ F] [FiniteDimensional ℝ F]

/-- Perturbation set of the problem. -/
def pertSet (A : E →L[ℝ] F) (c : F) (f : E → ℝ) (Df : Set E) (g : F → ℝ) (Dg : Set F) (p : ℝ) :
    Set (F × ℝ) :=
  {v | ∃ x ∈ Df, ∃ y ∈ Dg, v.1 = A x - y - c ∧ f x + g y - p ≤ v.2}

theorem convex_pertSet (A : E →L[ℝ] F) (c : F) (f : E → ℝ) (Df : Set E) (g : F → ℝ) (Dg : Set F)
    (hf : ConvexOn ℝ Df f) (hg : ConvexOn ℝ Dg g) (p : ℝ) : Convex ℝ (pertSet A c f Df g Dg p) := by
  rintro ⟨u, r⟩ ⟨x, hx, y, hy, h1, h2⟩ ⟨u', r'⟩ ⟨x', hx', y', hy', h1', h2'⟩ s t hs ht hst
  refine ⟨s • x + t • x', hf.1 hx hx' hs ht hst, s • y + t • y', hg.1 hy hy' hs ht hst, ?_, ?_⟩
  · simp only at h1 h1'
    change s • u + t • u' = _
    rw [h1, h1', map_add, map_smul, map_smul]
    have : c = (s + t) • c := by rw [hst, one_smul]
    nth_rw 3 [this]
    module
  · have e1 := hf.2 hx hx' hs ht hst
    have e2 := hg.2 hy hy' hs ht hst
    simp only [smul_eq_mul] at e1 e2 h2 h2'
    change _ ≤ s * r + t * r'
    have a1 := mul_le_mul_of_nonneg_left h2 hs
    have a2 := mul_le_mul_of_nonneg_left h2' ht
    have : p = (s + t) * p := by rw [hst, one_mul]
    nlinarith

/-- A multiplier exists when some point is strictly inside the domain of `g`. -/
theorem exists_multiplier (A : E →L[ℝ] F) (c : F) (f : E → ℝ) (Df : Set E) (g : F → ℝ) (Dg : Set F)
    (hf : ConvexOn ℝ Df f) (hg : ConvexOn ℝ Dg g) (p : ℝ)
    (hp : ∀ x ∈ Df, A x - c ∈ Dg → p ≤ f x + g (A x - c))
    (xb : E) (hxb : xb ∈ Df) (hsl : A xb - c ∈ interior Dg) :
    ∃ l : F, ∀ x ∈ Df, ∀ y ∈ Dg, p ≤ f x + g y + ⟪l, A x - y - c⟫ := by
  set V := pertSet A c f Df g Dg p with hV
  have hconv : Convex ℝ V := convex_pertSet A c f Df g Dg hf hg p
  set yb := A xb - c with hyb
  -- near the strictly feasible point the perturbation set contains a box
  have hcont : ContinuousAt g yb := (hg.continuousOn_interior).continuousAt (isOpen_interior.mem_nhds hsl)
  have hbox : ∀ᶠ y in 𝓝 yb, y ∈ Dg ∧ g y < g yb + 1 :=
    (Filter.eventually_of_mem (isOpen_interior.mem_nhds hsl) fun y hy => interior_subset hy).and
      (hcont.eventually_lt_const (by linarith))
  set R := f xb + g yb + 1 - p with hR
  have hin : ∀ r, R < r → ((0 : F), r) ∈ interior V := by
    intro r hr
    rw [mem_interior_iff_mem_nhds]
    have hc : Filter.Tendsto (fun v : F × ℝ => yb - v.1) (𝓝 ((0 : F), r)) (𝓝 yb) := by
      have : Continuous fun v : F × ℝ => yb - v.1 := by fun_prop
      simpa using this.tendsto ((0 : F), r)
    have h2 : ∀ᶠ v : F × ℝ in 𝓝 ((0 : F), r), R < v.2 :=
      (continuous_snd.tendsto ((0 : F), r)).eventually (lt_mem_nhds hr)
    filter_upwards [hc.eventually hbox, h2] with v hv hv2
    refine ⟨xb, hxb, yb - v.1, hv.1, by rw [hyb]; abel, ?_⟩
    have := hv.2
    linarith
  have hneV : (interior V).Nonempty := ⟨_, hin (R + 1) (by linarith)⟩
  have h0 : ((0 : F), (0 : ℝ)) ∉ interior V := by
    intro h
    have hcont : Filter.Tendsto (fun r : ℝ => ((0 : F), r)) (𝓝 0) (𝓝 ((0 : F), (0 : ℝ))) :=
      (Continuous.prodMk_right (0 : F)).tendsto 0
    have hev := hcont.eventually (mem_interior_iff_mem_nhds.1 h)
    obtain ⟨ε, hε, hb⟩ := Metric.eventually_nhds_iff.1 hev
    obtain ⟨x, hx, y, hy, h1, h2⟩ := hb (y := -(ε / 2)) (by
      rw [Real.dist_eq, sub_zero, abs_neg, abs_of_pos (by linarith)]; linarith)
    simp only at h1 h2
    have e : A x - c = y := by
      have := h1.symm
      rw [sub_eq_zero, sub_eq_iff_eq_add] at this
      rw [this]; abel
    have := hp x hx (by rw [e]; exact hy)
    rw [e] at this
    linarith
  obtain ⟨φ, hφ⟩ := geometric_hahn_banach_open_point hconv.interior isOpen_interior h0
  have hφ0 : φ ((0 : F), (0 : ℝ)) = 0 := by
    have : ((0 : F), (0 : ℝ)) = 0 := rfl
    rw [this, map_zero]
  rw [hφ0] at hφ
  have hle : ∀ v ∈ V, φ v ≤ 0 := by
    intro v hv
    have hcl : v ∈ closure (interior V) := by
      rw [hconv.closure_interior_eq_closure_of_nonempty_interior hneV]
      exact subset_closure hv
    have : closure (interior V) ⊆ {v | φ v ≤ 0} :=
      closure_minimal (fun a ha => (hφ a ha).le) (isClosed_le φ.continuous continuous_const)
    exact this hcl
  -- the functional as an inner product and a number
  set t := -φ ((0 : F), (1 : ℝ)) with ht
  have hsplit : ∀ v : F × ℝ, φ v = φ (v.1, 0) - t * v.2 := by
    intro v
    have e : v = (v.1, (0 : ℝ)) + v.2 • ((0 : F), (1 : ℝ)) := by
      ext <;> simp
    conv_lhs => rw [e]
    rw [map_add, map_smul, ht]
    simp only [smul_eq_mul]
    ring
  set ψ : F →L[ℝ] ℝ := φ.comp (ContinuousLinearMap.inl ℝ F ℝ) with hψ
  have hψv : ∀ u, φ (u, (0 : ℝ)) = ψ u := fun u => rfl
  -- the vertical component is positive
  have ht0 : 0 < t := by
    rcases lt_trichotomy t 0 with h | h | h
    · exfalso
      have hr := hφ _ (hin (max R 0 + 1) (by have := le_max_left R 0; linarith))
      rw [hsplit, hψv] at hr
      simp only [map_zero] at hr
      have : 0 < max R 0 + 1 := by have := le_max_right R 0; linarith
      nlinarith
    · exfalso
      have hr := hφ _ (hin (R + 1) (by linarith))
      rw [hsplit, hψv, h] at hr
      simp at hr
    · exact h
  refine ⟨(InnerProductSpace.toDual ℝ F).symm (-(t⁻¹ • ψ)), fun x hx y hy => ?_⟩
  rw [InnerProductSpace.toDual_symm_apply]
  have := hle (A x - y - c, f x + g y - p) ⟨x, hx, y, hy, rfl, le_rfl⟩
  rw [hsplit, hψv] at this
  simp only at this
  have e : (-(t⁻¹ • ψ)) (A x - y - c) = -(t⁻¹ * ψ (A x - y - c)) := rfl
  rw [e]
  have h1 : ψ (A x - y - c) ≤ t * (f x + g y - p) := by linarith
  have h2 := mul_le_mul_of_nonneg_left h1 (inv_nonneg.2 ht0.le)
  rw [← mul_assoc, inv_mul_cancel₀ ht0.ne', one_mul] at h2
  linarith

end Sporco.Admm
