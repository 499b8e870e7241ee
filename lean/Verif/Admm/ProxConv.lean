import Mathlib.Analysis.InnerProductSpace.Continuous
import Mathlib.Analysis.SpecificLimits.Basic
import Mathlib.LinearAlgebra.BilinearForm.Properties
import Mathlib.Tactic.Module

/-!
# Convergence of ADMM whose X update has a proximal term

The X update is exact for the augmented Lagrangian plus a positive semidefinite quadratic form of the
displacement.  Used for the solvers whose X update is an even number of Jacobi passes.
-/

set_option autoImplicit false

namespace Sporco.Admm

open Filter Topology
open scoped RealInnerProductSpace

variable {E G : Type*} [AddCommGroup E] [Module ℝ E] [NormedAddCommGroup G] [InnerProductSpace ℝ G]

/-- The updates, as variational inequalities. -/
structure ProxRun (A : E →ₗ[ℝ] G) (Q : LinearMap.BilinForm ℝ E) (f : E → ℝ) (g : G → ℝ) (ρ α : ℝ) (X : ℕ → E)
    (Y U : ℕ → G) : Prop where
  x : ∀ n z, f (X (n + 1)) + ρ * ⟪A (X (n + 1)) - Y n + U n, A (X (n + 1)) - A z⟫ +
    Q (X (n + 1) - X n) (X (n + 1) - z) ≤ f z
  y : ∀ n z, g (Y (n + 1)) + ρ * ⟪U (n + 1), z - Y (n + 1)⟫ ≤ g z
  u : ∀ n, U (n + 1) = U n + (α • A (X (n + 1)) + (1 - α) • Y n) - Y (n + 1)

theorem psd_cauchy (Q : LinearMap.BilinForm ℝ E) (hs : ∀ a b, Q a b = Q b a) (h0 : ∀ a, 0 ≤ Q a a) (a b : E) :
    |Q a b| ≤ Real.sqrt (Q a a) * Real.sqrt (Q b b) := by
  rw [← Real.sqrt_mul (h0 a)]
  refine Real.abs_le_sqrt ?_
  exact LinearMap.BilinForm.apply_sq_le_of_symm Q h0 ⟨hs⟩ a b

variable {A : E →ₗ[ℝ] G} {Q : LinearMap.BilinForm ℝ E} {f : E → ℝ} {g : G → ℝ} {ρ α : ℝ} {X : ℕ → E} {Y U : ℕ → G}

/-- The Lyapunov function. -/
noncomputable def proxV (A : E →ₗ[ℝ] G) (Q : LinearMap.BilinForm ℝ E) (ρ α : ℝ) (X : ℕ → E) (Y U : ℕ → G) (xs : E)
    (us : G) (n : ℕ) : ℝ :=
  ρ * ‖Y n + U n - (A xs + us)‖ ^ 2 + α * Q (X n - xs) (X n - xs)

theorem ProxRun.upper (h : ProxRun A Q f g ρ α X Y U) (xs : E) (n : ℕ) :
    f (X (n + 2)) + g (Y (n + 1)) - (f xs + g (A xs)) ≤
      -(ρ * (‖A (X (n + 2)) - Y (n + 1)‖ ^ 2 + ⟪A (X (n + 2)) - Y (n + 1), Y (n + 1) + U (n + 1) - A xs⟫)) -
        Q (X (n + 2) - X (n + 1)) (X (n + 2) - xs) := by
  have h1 := h.x (n + 1) xs
  have h2 := h.y n (A xs)
  generalize hd : A (X (n + 1 + 1)) - Y (n + 1) = d at *
  have e1 : A (X (n + 1 + 1)) - A xs = d + (Y (n + 1) - A xs) := by rw [← hd]; abel
  rw [e1] at h1
  have e2 : ⟪d + U (n + 1), d + (Y (n + 1) - A xs)⟫ = ‖d‖ ^ 2 + ⟪d, Y (n + 1) + U (n + 1) - A xs⟫ +
      ⟪U (n + 1), Y (n + 1) - A xs⟫ := by
    rw [inner_add_left, inner_add_right, inner_add_right, real_inner_self_eq_norm_sq, real_inner_comm d (U (n + 1))]
    have : Y (n + 1) + U (n + 1) - A xs = (Y (n + 1) - A xs) + U (n + 1) := by abel
    rw [this, inner_add_right]; ring
  rw [e2] at h1
  have e3 : ⟪U (n + 1), A xs - Y (n + 1)⟫ = -⟪U (n + 1), Y (n + 1) - A xs⟫ := by
    rw [← inner_neg_right]; congr 1; abel
  rw [e3] at h2
  change f (X (n + 1 + 1)) + g (Y (n + 1)) - (f xs + g (A xs)) ≤
      -(ρ * (‖d‖ ^ 2 + ⟪d, Y (n + 1) + U (n + 1) - A xs⟫)) - Q (X (n + 1 + 1) - X (n + 1)) (X (n + 1 + 1) - xs)
  linarith

theorem ProxRun.decrease (h : ProxRun A Q f g ρ α X Y U) (hs : ∀ a b, Q a b = Q b a) (hα : 0 < α) (xs : E) (us : G)
    (hsad : ∀ x y, f xs + g (A xs) ≤ f x + g y + ρ * ⟪us, A x - y⟫) (n : ℕ) :
    proxV A Q ρ α X Y U xs us (n + 2) + ρ * (α * (2 - α)) * ‖A (X (n + 2)) - Y (n + 1)‖ ^ 2 +
      α * Q (X (n + 2) - X (n + 1)) (X (n + 2) - X (n + 1)) ≤ proxV A Q ρ α X Y U xs us (n + 1) := by
  have h1 := h.upper xs n
  have h2 := hsad (X (n + 2)) (Y (n + 1))
  have h3 := h.u (n + 1)
  generalize hd : A (X (n + 2)) - Y (n + 1) = d at *
  have e1 : Y (n + 2) + U (n + 2) - (A xs + us) = (Y (n + 1) + U (n + 1) - (A xs + us)) + α • d := by
    change Y (n + 1 + 1) + U (n + 1 + 1) - _ = _
    rw [h3, ← hd]
    change Y (n + 2) + (U (n + 1) + (α • A (X (n + 2)) + (1 - α) • Y (n + 1)) - Y (n + 2)) - (A xs + us) = _
    module
  have e2 : ‖Y (n + 2) + U (n + 2) - (A xs + us)‖ ^ 2 = ‖Y (n + 1) + U (n + 1) - (A xs + us)‖ ^ 2 +
      2 * α * ⟪d, Y (n + 1) + U (n + 1) - (A xs + us)⟫ + α ^ 2 * ‖d‖ ^ 2 := by
    rw [e1, norm_add_sq_real, inner_smul_right, norm_smul, mul_pow, Real.norm_eq_abs, sq_abs, real_inner_comm]; ring
  have e3 : ⟪d, Y (n + 1) + U (n + 1) - A xs⟫ = ⟪d, Y (n + 1) + U (n + 1) - (A xs + us)⟫ + ⟪us, d⟫ := by
    rw [real_inner_comm d us, ← inner_add_right]; congr 1; abel
  rw [e3] at h1
  have e4 : Q (X (n + 1) - xs) (X (n + 1) - xs) = Q (X (n + 2) - xs) (X (n + 2) - xs) +
      Q (X (n + 2) - X (n + 1)) (X (n + 2) - X (n + 1)) - 2 * Q (X (n + 2) - X (n + 1)) (X (n + 2) - xs) := by
    have : X (n + 1) - xs = (X (n + 2) - xs) - (X (n + 2) - X (n + 1)) := by abel
    rw [this]
    generalize X (n + 2) - xs = a
    generalize X (n + 2) - X (n + 1) = b
    simp only [map_sub, LinearMap.sub_apply, hs a b]; ring
  unfold proxV
  rw [e2, e4]
  have h4 : ρ * ⟪d, Y (n + 1) + U (n + 1) - (A xs + us)⟫ + ρ * ‖d‖ ^ 2 +
      Q (X (n + 2) - X (n + 1)) (X (n + 2) - xs) ≤ 0 := by linarith
  have h5 := mul_le_mul_of_nonneg_left h4 hα.le
  rw [mul_zero] at h5
  nlinarith

theorem shift {β : Type*} {u : ℕ → β} {l : Filter β} (h : Tendsto (fun n => u (n + 1)) atTop l) : Tendsto u atTop l :=
  (tendsto_add_atTop_iff_nat 1).1 h

/-- Residuals and objective of a run with proximal term. -/
theorem ProxRun.convergence (h : ProxRun A Q f g ρ α X Y U) (hs : ∀ a b, Q a b = Q b a) (h0 : ∀ a, 0 ≤ Q a a)
    (hρ : 0 < ρ) (hα : 0 < α) (hα2 : α < 2) (xs : E) (us : G)
    (hsad : ∀ x y, f xs + g (A xs) ≤ f x + g y + ρ * ⟪us, A x - y⟫) :
    Tendsto (fun n => A (X (n + 1)) - Y n) atTop (𝓝 0) ∧ Tendsto (fun n => Y (n + 1) - Y n) atTop (𝓝 0) ∧
    Tendsto (fun n => Q (X (n + 1) - X n) (X (n + 1) - X n)) atTop (𝓝 0) ∧
    Tendsto (fun n => f (X (n + 1)) + g (Y n)) atTop (𝓝 (f xs + g (A xs))) := by
  set V := proxV A Q ρ α X Y U xs us with hV
  have hdec := fun n => h.decrease hs hα xs us hsad n
  rw [← hV] at hdec
  have hc : 0 < ρ * (α * (2 - α)) := mul_pos hρ (mul_pos hα (by linarith))
  have hV0 : ∀ n, 0 ≤ V n := fun n => add_nonneg (mul_nonneg hρ.le (sq_nonneg _)) (mul_nonneg hα.le (h0 _))
  have hanti : Antitone fun n => V (n + 1) := by
    refine antitone_nat_of_succ_le fun n => ?_
    have := hdec n
    have h1 := mul_nonneg hc.le (sq_nonneg ‖A (X (n + 2)) - Y (n + 1)‖)
    have h2 := mul_nonneg hα.le (h0 (X (n + 2) - X (n + 1)))
    change V (n + 2) ≤ V (n + 1)
    linarith
  have hlim := tendsto_atTop_ciInf hanti ⟨0, by rintro _ ⟨n, rfl⟩; exact hV0 _⟩
  have hdiff : Tendsto (fun n => V (n + 1) - V (n + 2)) atTop (𝓝 0) := by
    have := hlim.sub (hlim.comp (tendsto_add_atTop_nat 1))
    rw [sub_self] at this
    exact this
  have hd2 : Tendsto (fun n => ‖A (X (n + 2)) - Y (n + 1)‖ ^ 2) atTop (𝓝 0) := by
    have ht := hdiff.const_mul (ρ * (α * (2 - α)))⁻¹
    rw [mul_zero] at ht
    refine squeeze_zero (fun n => sq_nonneg _) (fun n => ?_) ht
    have h2 := mul_nonneg hα.le (h0 (X (n + 2) - X (n + 1)))
    rw [← div_eq_inv_mul, le_div_iff₀ hc]
    have := hdec n
    linarith
  have hq : Tendsto (fun n => Q (X (n + 2) - X (n + 1)) (X (n + 2) - X (n + 1))) atTop (𝓝 0) := by
    have ht := hdiff.const_mul α⁻¹
    rw [mul_zero] at ht
    refine squeeze_zero (fun n => h0 _) (fun n => ?_) ht
    have h2 := mul_nonneg hc.le (sq_nonneg ‖A (X (n + 2)) - Y (n + 1)‖)
    rw [← div_eq_inv_mul, le_div_iff₀ hα]
    have := hdec n
    linarith
  have hdn : Tendsto (fun n => ‖A (X (n + 2)) - Y (n + 1)‖) atTop (𝓝 0) := by
    have := (Real.continuous_sqrt.tendsto 0).comp hd2
    rw [Real.sqrt_zero] at this
    refine this.congr fun n => ?_
    simp only [Function.comp, Real.sqrt_sq (norm_nonneg _)]
  have hd : Tendsto (fun n => A (X (n + 2)) - Y (n + 1)) atTop (𝓝 0) := tendsto_zero_iff_norm_tendsto_zero.2 hdn
  have hb : ∀ n, V (n + 1) ≤ V 1 := fun n => hanti (Nat.zero_le n)
  -- bounds
  have hsb : ∀ n, ‖Y (n + 1) + U (n + 1) - (A xs + us)‖ ≤ Real.sqrt (V 1 / ρ) := by
    intro n
    refine Real.le_sqrt_of_sq_le ?_
    rw [le_div_iff₀ hρ]
    have h1 := hb n
    have h2 := mul_nonneg hα.le (h0 (X (n + 1) - xs))
    have h3 : V (n + 1) = ρ * ‖Y (n + 1) + U (n + 1) - (A xs + us)‖ ^ 2 + α * Q (X (n + 1) - xs) (X (n + 1) - xs) := rfl
    nlinarith
  have hxb : ∀ n, Real.sqrt (Q (X (n + 2) - xs) (X (n + 2) - xs)) ≤ Real.sqrt (V 1 / α) := by
    intro n
    refine Real.sqrt_le_sqrt ?_
    rw [le_div_iff₀ hα]
    have h1 := hb (n + 1)
    have h2 := mul_nonneg hρ.le (sq_nonneg ‖Y (n + 2) + U (n + 2) - (A xs + us)‖)
    have h3 : V (n + 1 + 1) = ρ * ‖Y (n + 2) + U (n + 2) - (A xs + us)‖ ^ 2 + α * Q (X (n + 2) - xs) (X (n + 2) - xs) := rfl
    linarith
  refine ⟨shift hd, ?_, shift hq, ?_⟩
  · refine shift ?_
    rw [tendsto_zero_iff_norm_tendsto_zero]
    refine squeeze_zero (fun n => norm_nonneg _) (fun n => ?_) (by simpa using hdn.const_mul α)
    have h1 := h.y n (Y (n + 2))
    have h2 := h.y (n + 1) (Y (n + 1))
    have h3 := h.u (n + 1)
    change g (Y (n + 2)) + ρ * ⟪U (n + 2), Y (n + 1) - Y (n + 2)⟫ ≤ g (Y (n + 1)) at h2
    change U (n + 2) = U (n + 1) + (α • A (X (n + 2)) + (1 - α) • Y (n + 1)) - Y (n + 2) at h3
    change ‖Y (n + 2) - Y (n + 1)‖ ≤ α * ‖A (X (n + 2)) - Y (n + 1)‖
    have e1 : ⟪U (n + 2), Y (n + 1) - Y (n + 2)⟫ = -⟪U (n + 2), Y (n + 2) - Y (n + 1)⟫ := by
      rw [← inner_neg_right]; congr 1; abel
    rw [e1] at h2
    have h4 : 0 ≤ ρ * (⟪U (n + 2), Y (n + 2) - Y (n + 1)⟫ - ⟪U (n + 1), Y (n + 2) - Y (n + 1)⟫) := by linarith
    have h5 := nonneg_of_mul_nonneg_right h4 hρ
    rw [← inner_sub_left, h3] at h5
    set d := A (X (n + 2)) - Y (n + 1) with hdd
    set w := Y (n + 2) - Y (n + 1) with hw
    have e2 : U (n + 1) + (α • A (X (n + 2)) + (1 - α) • Y (n + 1)) - Y (n + 2) - U (n + 1) = α • d - w := by
      rw [hdd, hw]; module
    rw [e2, inner_sub_left, real_inner_self_eq_norm_sq, inner_smul_left] at h5
    have h6 := real_inner_le_norm d w
    simp only [conj_trivial] at h5
    have h7 : ‖w‖ * ‖w‖ ≤ (α * ‖d‖) * ‖w‖ := by nlinarith
    rcases (norm_nonneg w).eq_or_lt with h8 | h8
    · rw [← h8]; positivity
    · exact le_of_mul_le_mul_right h7 h8
  · refine shift ?_
    change Tendsto (fun n => f (X (n + 2)) + g (Y (n + 1))) atTop _
    rw [← tendsto_sub_nhds_zero_iff]
    set Cs := Real.sqrt (V 1 / ρ) + ‖us‖
    have hup : Tendsto (fun n => ρ * (‖A (X (n + 2)) - Y (n + 1)‖ * Cs) +
        Real.sqrt (Q (X (n + 2) - X (n + 1)) (X (n + 2) - X (n + 1))) * Real.sqrt (V 1 / α)) atTop (𝓝 0) := by
      have h1 := (hdn.mul_const Cs).const_mul ρ
      have h2 := ((Real.continuous_sqrt.tendsto 0).comp hq).mul_const (Real.sqrt (V 1 / α))
      rw [Real.sqrt_zero, zero_mul] at h2
      have := h1.add h2
      simpa using this
    have hlo : Tendsto (fun n => -(ρ * ⟪us, A (X (n + 2)) - Y (n + 1)⟫)) atTop (𝓝 0) := by
      have := ((Filter.Tendsto.inner (𝕜 := ℝ) (tendsto_const_nhds (x := us)) hd).const_mul ρ).neg
      simpa using this
    refine tendsto_of_tendsto_of_tendsto_of_le_of_le hlo hup (fun n => ?_) fun n => ?_
    · have := hsad (X (n + 2)) (Y (n + 1))
      change -(ρ * ⟪us, A (X (n + 2)) - Y (n + 1)⟫) ≤ f (X (n + 2)) + g (Y (n + 1)) - (f xs + g (A xs))
      linarith
    · have h1 := h.upper xs n
      refine h1.trans ?_
      set d := A (X (n + 2)) - Y (n + 1) with hdd
      have h2 := abs_le.1 (abs_real_inner_le_norm d (Y (n + 1) + U (n + 1) - A xs))
      have h3 : ‖Y (n + 1) + U (n + 1) - A xs‖ ≤ Cs := by
        have : Y (n + 1) + U (n + 1) - A xs = (Y (n + 1) + U (n + 1) - (A xs + us)) + us := by abel
        rw [this]
        exact (norm_add_le _ _).trans (add_le_add (hsb n) le_rfl)
      have h4 := abs_le.1 (psd_cauchy Q hs h0 (X (n + 2) - X (n + 1)) (X (n + 2) - xs))
      have h5 := mul_le_mul_of_nonneg_left (hxb n) (Real.sqrt_nonneg (Q (X (n + 2) - X (n + 1)) (X (n + 2) - X (n + 1))))
      have h6 := mul_le_mul_of_nonneg_left h3 (norm_nonneg d)
      have h7 : -(‖d‖ ^ 2 + ⟪d, Y (n + 1) + U (n + 1) - A xs⟫) ≤ ‖d‖ * Cs := by
        have := sq_nonneg ‖d‖
        linarith [h2.1]
      have h8 := mul_le_mul_of_nonneg_left h7 hρ.le
      linarith [h4.1]

end Sporco.Admm
