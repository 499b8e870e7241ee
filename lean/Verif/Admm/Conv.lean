import Mathlib.Analysis.InnerProductSpace.Basic
import Mathlib.Analysis.Convex.Function
import Mathlib.Analysis.Normed.Operator.ContinuousLinearMap
import Mathlib.Topology.Algebra.InfiniteSum.Real
import Mathlib.Topology.Algebra.InfiniteSum.Order
import Mathlib.Topology.Algebra.Order.LiminfLimsup
import Mathlib.Tactic.Linarith
import Mathlib.Tactic.Module
import Mathlib.Tactic.LinearCombination

/-!
# Convergence of relaxed ADMM, on abstract sequences

Douglas-Rachford style Lyapunov argument: with `b = B y - c`, the quantity
`‖(u - b) - (u* - b*)‖²` decreases by `α (2 - α) ‖A x + B y - c‖²` per iteration.
-/

set_option linter.unusedSectionVars false

namespace Sporco.Admm

open scoped RealInnerProductSpace
open Filter Topology

section Subgrad
variable {E G : Type*} [NormedAddCommGroup E] [NormedSpace ℝ E] [NormedAddCommGroup G]
  [InnerProductSpace ℝ G]

theorem nonneg_of_forall_small {a b : ℝ} (h : ∀ t : ℝ, 0 < t → t ≤ 1 → 0 ≤ a + t * b) : 0 ≤ a := by
  by_contra ha
  push Not at ha
  rcases le_or_gt b 0 with hb | hb
  · have := h 1 one_pos le_rfl; linarith
  · have ht : 0 < min 1 (-a / (2 * b)) := by
      refine lt_min one_pos (div_pos (by linarith) (by linarith))
    have h1 := h _ ht (min_le_left _ _)
    have h2 : min 1 (-a / (2 * b)) * b ≤ -a / 2 := by
      calc min 1 (-a / (2 * b)) * b ≤ -a / (2 * b) * b := mul_le_mul_of_nonneg_right (min_le_right _ _) hb.le
        _ = -a / 2 := by field_simp
    linarith

/-- First-order optimality: a minimiser of `f + (ρ/2)‖A · + w‖²` over a convex set, with
`f` convex on it, gives a subgradient inequality for `f`. -/
theorem subgrad_of_min {D : Set E} {f : E → ℝ} (hf : ConvexOn ℝ D f) (A : E →ₗ[ℝ] G) (w : G)
    (rho : ℝ) {x : E} (hx : x ∈ D)
    (hmin : ∀ z ∈ D, f x + rho / 2 * ‖A x + w‖ ^ 2 ≤ f z + rho / 2 * ‖A z + w‖ ^ 2) {z : E}
    (hz : z ∈ D) : f x - rho * ⟪A x + w, A z - A x⟫ ≤ f z := by
  have key : 0 ≤ (f z - f x + rho * ⟪A x + w, A z - A x⟫) := by
    apply nonneg_of_forall_small (b := rho / 2 * ‖A z - A x‖ ^ 2)
    intro t ht ht1
    have hmem : (1 - t) • x + t • z ∈ D := hf.1 hx hz (by linarith) ht.le (by ring)
    have h1 := hmin _ hmem
    have h2 := hf.2 hx hz (by linarith : 0 ≤ 1 - t) ht.le (by ring)
    have h3 : A ((1 - t) • x + t • z) + w = (A x + w) + t • (A z - A x) := by
      rw [map_add, map_smul, map_smul]; module
    rw [h3, norm_add_sq_real (A x + w) (t • (A z - A x)), real_inner_smul_right, norm_smul, mul_pow, Real.norm_eq_abs, sq_abs] at h1
    simp only [smul_eq_mul] at h2
    have h4 : 0 ≤ t * (f z - f x + rho * ⟪A x + w, A z - A x⟫ + t * (rho / 2 * ‖A z - A x‖ ^ 2)) := by
      nlinarith
    exact nonneg_of_mul_nonneg_right h4 ht
  linarith

end Subgrad

section Seq

theorem tendsto_of_descent {V D : ℕ → ℝ} {c : ℝ} (hc : 0 < c) (hV : ∀ n, 0 ≤ V n)
    (hD : ∀ n, 0 ≤ D n) (h : ∀ n, V (n + 1) ≤ V n - c * D n) : Tendsto D atTop (𝓝 0) := by
  have hsum : ∀ n, c * ∑ i ∈ Finset.range n, D i ≤ V 0 - V n := by
    intro n
    induction n with
    | zero => simp
    | succ n ih => rw [Finset.sum_range_succ, mul_add]; have := h n; linarith
  have : Summable D := by
    apply summable_of_sum_range_le (c := V 0 / c) hD
    intro n
    rw [le_div_iff₀ hc]
    have := hsum n; have := hV n; linarith
  exact this.tendsto_atTop_zero

theorem antitone_bound {V D : ℕ → ℝ} {c : ℝ} (hc : 0 < c) (hD : ∀ n, 0 ≤ D n)
    (h : ∀ n, V (n + 1) ≤ V n - c * D n) (n : ℕ) : V n ≤ V 0 := by
  induction n with
  | zero => exact le_rfl
  | succ n ih => have := h n; have := mul_nonneg hc.le (hD n); linarith

variable {E F G : Type*} [NormedAddCommGroup G] [InnerProductSpace ℝ G]

/-- The facts about one run that the argument needs: `a n = A x_{n+1}`, `b n = B y_n - c`,
`u n` the scaled dual, `fx n = f(x_{n+1})`, `gy n = g(y_n)`; the starred quantities belong
to a saddle point.  Index 0 may be an arbitrary start. -/
structure Run (a b u : ℕ → G) (fx gy : ℕ → ℝ) (as bs us : G) (fs gs alpha rho : ℝ) : Prop where
  rhoPos : 0 < rho
  alphaMem : 0 < alpha ∧ alpha < 2
  ustep : ∀ n, u (n + 1) = u n + (alpha • a n - (1 - alpha) • b n) + b (n + 1)
  feas : as + bs = 0
  /-- x-optimality, compared with the saddle point and with itself -/
  xs : ∀ n, fx n - rho * ⟪a n + b n + u n, as - a n⟫ ≤ fs
  ys : ∀ n, gy (n + 1) - rho * ⟪u (n + 1), bs - b (n + 1)⟫ ≤ gs
  yy : ∀ n, gy (n + 1) - rho * ⟪u (n + 1), b (n + 2) - b (n + 1)⟫ ≤ gy (n + 2)
  yy' : ∀ n, gy (n + 2) - rho * ⟪u (n + 2), b (n + 1) - b (n + 2)⟫ ≤ gy (n + 1)
  sx : ∀ n, fs - rho * ⟪us, a n - as⟫ ≤ fx n
  sy : ∀ n, gs - rho * ⟪us, b (n + 1) - bs⟫ ≤ gy (n + 1)

variable {a b u : ℕ → G} {fx gy : ℕ → ℝ} {as bs us : G} {fs gs alpha rho : ℝ}

namespace Run

/-- Progress of the fixed-point variable `v = u - b`. -/
theorem v_succ (h : Run a b u fx gy as bs us fs gs alpha rho) (n : ℕ) :
    u (n + 1) - b (n + 1) = (u n - b n) + alpha • (a n + b n) := by
  rw [h.ustep]; module

theorem mono_star (h : Run a b u fx gy as bs us fs gs alpha rho) (n : ℕ) :
    ⟪u (n + 1) - us, b (n + 1) - bs⟫ ≤ 0 := by
  have h1 := h.ys n
  have h2 := h.sy n
  have hr := h.rhoPos
  have e : ⟪u (n + 1), bs - b (n + 1)⟫ = -⟪u (n + 1), b (n + 1) - bs⟫ := by
    rw [← inner_neg_right, neg_sub]
  rw [e] at h1
  rw [inner_sub_left]
  have : rho * (⟪u (n + 1), b (n + 1) - bs⟫ - ⟪us, b (n + 1) - bs⟫) ≤ 0 := by nlinarith
  exact nonpos_of_mul_nonpos_right this hr

theorem mono_succ (h : Run a b u fx gy as bs us fs gs alpha rho) (n : ℕ) :
    ⟪u (n + 2) - u (n + 1), b (n + 2) - b (n + 1)⟫ ≤ 0 := by
  have h1 := h.yy n
  have h2 := h.yy' n
  have hr := h.rhoPos
  have e : ⟪u (n + 2), b (n + 1) - b (n + 2)⟫ = -⟪u (n + 2), b (n + 2) - b (n + 1)⟫ := by
    rw [← inner_neg_right, neg_sub]
  rw [e] at h2
  rw [inner_sub_left]
  have : rho * (⟪u (n + 2), b (n + 2) - b (n + 1)⟫ - ⟪u (n + 1), b (n + 2) - b (n + 1)⟫) ≤ 0 := by
    nlinarith
  exact nonpos_of_mul_nonpos_right this hr

theorem descent_inner (h : Run a b u fx gy as bs us fs gs alpha rho) (n : ℕ) :
    ⟪(u (n + 1) - b (n + 1)) - (us - bs), a (n + 1) + b (n + 1)⟫ ≤ -‖a (n + 1) + b (n + 1)‖ ^ 2 := by
  have hm := h.mono_star n
  have hx := h.xs (n + 1)
  have hsx := h.sx (n + 1)
  have hr := h.rhoPos
  have e : ⟪a (n + 1) + b (n + 1) + u (n + 1), as - a (n + 1)⟫ =
      -⟪a (n + 1) + b (n + 1) + u (n + 1), a (n + 1) - as⟫ := by rw [← inner_neg_right, neg_sub]
  rw [e] at hx
  have hx' : ⟪a (n + 1) + b (n + 1) + u (n + 1) - us, a (n + 1) - as⟫ ≤ 0 := by
    rw [inner_sub_left]
    have : rho * (⟪a (n + 1) + b (n + 1) + u (n + 1), a (n + 1) - as⟫ - ⟪us, a (n + 1) - as⟫) ≤ 0 := by
      nlinarith
    exact nonpos_of_mul_nonpos_right this hr
  set d := a (n + 1) + b (n + 1) with hd
  have e2 : a (n + 1) - as = d - (b (n + 1) - bs) := by
    have : as = -bs := eq_neg_of_add_eq_zero_left h.feas
    rw [this, hd]; abel
  have e3 : d + u (n + 1) - us = d + (u (n + 1) - us) := by abel
  rw [e2, e3, inner_add_left, inner_sub_right d d, inner_sub_right (u (n + 1) - us) d,
    real_inner_self_eq_norm_sq] at hx'
  have e4 : (u (n + 1) - b (n + 1)) - (us - bs) = (u (n + 1) - us) - (b (n + 1) - bs) := by abel
  rw [e4, inner_sub_left]
  have e5 : ⟪d, b (n + 1) - bs⟫ = ⟪b (n + 1) - bs, d⟫ := real_inner_comm _ _
  rw [e5] at hx'
  linarith

theorem descent (h : Run a b u fx gy as bs us fs gs alpha rho) (n : ℕ) :
    ‖(u (n + 2) - b (n + 2)) - (us - bs)‖ ^ 2 ≤ ‖(u (n + 1) - b (n + 1)) - (us - bs)‖ ^ 2 -
      alpha * (2 - alpha) * ‖a (n + 1) + b (n + 1)‖ ^ 2 := by
  have hv := h.v_succ (n + 1)
  have e : (u (n + 2) - b (n + 2)) - (us - bs) =
      ((u (n + 1) - b (n + 1)) - (us - bs)) + alpha • (a (n + 1) + b (n + 1)) := by
    rw [hv]; abel
  rw [e, norm_add_sq_real, real_inner_smul_right, norm_smul, mul_pow, Real.norm_eq_abs, sq_abs]
  have hi := h.descent_inner n
  have ha := h.alphaMem.1
  nlinarith

theorem ab_tendsto (h : Run a b u fx gy as bs us fs gs alpha rho) :
    Tendsto (fun n => a n + b n) atTop (𝓝 0) := by
  have hc : 0 < alpha * (2 - alpha) := mul_pos h.alphaMem.1 (by linarith [h.alphaMem.2])
  have h1 := tendsto_of_descent (V := fun n => ‖(u (n + 1) - b (n + 1)) - (us - bs)‖ ^ 2)
    (D := fun n => ‖a (n + 1) + b (n + 1)‖ ^ 2) hc (fun _ => sq_nonneg _) (fun _ => sq_nonneg _)
    (fun n => h.descent n)
  have h2 : Tendsto (fun n => ‖a (n + 1) + b (n + 1)‖) atTop (𝓝 0) := by
    have := (Real.continuous_sqrt.tendsto 0).comp h1
    simpa [Function.comp_def, Real.sqrt_sq (norm_nonneg _)] using this
  exact (tendsto_add_atTop_iff_nat 1).1 (tendsto_zero_iff_norm_tendsto_zero.2 h2)

theorem step_bound (h : Run a b u fx gy as bs us fs gs alpha rho) (n : ℕ) :
    ‖u (n + 2) - u (n + 1)‖ ^ 2 + ‖b (n + 2) - b (n + 1)‖ ^ 2 ≤
      (alpha * ‖a (n + 1) + b (n + 1)‖) ^ 2 := by
  have hv := h.v_succ (n + 1)
  have e : (u (n + 2) - u (n + 1)) - (b (n + 2) - b (n + 1)) = alpha • (a (n + 1) + b (n + 1)) := by
    have : (u (n + 2) - u (n + 1)) - (b (n + 2) - b (n + 1)) =
      (u (n + 2) - b (n + 2)) - (u (n + 1) - b (n + 1)) := by abel
    rw [this, hv]; abel
  have h1 := norm_sub_sq_real (u (n + 2) - u (n + 1)) (b (n + 2) - b (n + 1))
  rw [e, norm_smul, Real.norm_eq_abs, abs_of_pos h.alphaMem.1] at h1
  have := h.mono_succ n
  linarith

theorem delta_tendsto (h : Run a b u fx gy as bs us fs gs alpha rho) :
    Tendsto (fun n => b (n + 1) - b n) atTop (𝓝 0) ∧ Tendsto (fun n => u (n + 1) - u n) atTop (𝓝 0) := by
  have h0 : Tendsto (fun n => alpha * ‖a (n + 1) + b (n + 1)‖) atTop (𝓝 0) := by
    have := ((tendsto_add_atTop_iff_nat 1).2 (tendsto_zero_iff_norm_tendsto_zero.1 h.ab_tendsto)).const_mul alpha
    simpa using this
  have hle : ∀ {x y z : ℝ}, 0 ≤ z → x ^ 2 + y ^ 2 ≤ z ^ 2 → x ≤ z ∧ y ≤ z := by
    intro x y z hz hxy
    exact ⟨abs_le_of_sq_le_sq' (by nlinarith [sq_nonneg y]) hz |>.2,
      abs_le_of_sq_le_sq' (by nlinarith [sq_nonneg x]) hz |>.2⟩
  have hpos : ∀ n, 0 ≤ alpha * ‖a (n + 1) + b (n + 1)‖ := fun n =>
    mul_nonneg h.alphaMem.1.le (norm_nonneg _)
  constructor
  · refine (tendsto_add_atTop_iff_nat 1).1 (tendsto_zero_iff_norm_tendsto_zero.2 ?_)
    exact squeeze_zero (fun _ => norm_nonneg _) (fun n => (hle (hpos n) (h.step_bound n)).2) h0
  · refine (tendsto_add_atTop_iff_nat 1).1 (tendsto_zero_iff_norm_tendsto_zero.2 ?_)
    exact squeeze_zero (fun _ => norm_nonneg _) (fun n => (hle (hpos n) (h.step_bound n)).1) h0

/-- The primal residual `A x_{n+1} + B y_{n+1} - c` tends to zero. -/
theorem primal_tendsto (h : Run a b u fx gy as bs us fs gs alpha rho) :
    Tendsto (fun n => a n + b (n + 1)) atTop (𝓝 0) := by
  have := h.ab_tendsto.add h.delta_tendsto.1
  rw [add_zero] at this
  refine this.congr fun n => ?_
  abel

theorem bounded (h : Run a b u fx gy as bs us fs gs alpha rho) :
    ∃ K, ∀ n, ‖u (n + 1) - us‖ ≤ K ∧ ‖b (n + 1) - bs‖ ≤ K := by
  have hc : 0 < alpha * (2 - alpha) := mul_pos h.alphaMem.1 (by linarith [h.alphaMem.2])
  refine ⟨‖(u 1 - b 1) - (us - bs)‖, fun n => ?_⟩
  have h1 := antitone_bound (V := fun n => ‖(u (n + 1) - b (n + 1)) - (us - bs)‖ ^ 2)
    (D := fun n => ‖a (n + 1) + b (n + 1)‖ ^ 2) hc (fun _ => sq_nonneg _) (fun n => h.descent n) n
  have h2 := norm_sub_sq_real (u (n + 1) - us) (b (n + 1) - bs)
  have h3 := h.mono_star n
  have e : (u (n + 1) - us) - (b (n + 1) - bs) = (u (n + 1) - b (n + 1)) - (us - bs) := by abel
  rw [e] at h2
  have h1' : ‖(u (n + 1) - b (n + 1)) - (us - bs)‖ ^ 2 ≤ ‖(u 1 - b 1) - (us - bs)‖ ^ 2 := h1
  exact ⟨(abs_le_of_sq_le_sq' (by nlinarith [sq_nonneg ‖b (n + 1) - bs‖]) (norm_nonneg _)).2,
    (abs_le_of_sq_le_sq' (by nlinarith [sq_nonneg ‖u (n + 1) - us‖]) (norm_nonneg _)).2⟩

/-- The objective tends to the optimal value. -/
theorem obj_tendsto (h : Run a b u fx gy as bs us fs gs alpha rho) :
    Tendsto (fun n => fx n + gy (n + 1)) atTop (𝓝 (fs + gs)) := by
  obtain ⟨K, hK⟩ := h.bounded
  have hK0 : 0 ≤ K := (norm_nonneg _).trans (hK 0).1
  have hr := h.rhoPos
  have hN : Tendsto (fun n => ‖a n + b n‖) atTop (𝓝 0) := tendsto_zero_iff_norm_tendsto_zero.1 h.ab_tendsto
  have hR : Tendsto (fun n => ‖a n + b (n + 1)‖) atTop (𝓝 0) :=
    tendsto_zero_iff_norm_tendsto_zero.1 h.primal_tendsto
  have hU : Tendsto (fun n => ‖u (n + 1) - u n‖) atTop (𝓝 0) :=
    tendsto_zero_iff_norm_tendsto_zero.1 h.delta_tendsto.2
  refine (tendsto_add_atTop_iff_nat 1).1 ?_
  -- error bound
  let e : ℕ → ℝ := fun n => rho * ((‖a n + b n‖ + (K + ‖us‖)) * ‖a n + b (n + 1)‖ +
    (‖u (n + 1) - u n‖ + ‖a n + b n‖) * K + ‖us‖ * ‖a n + b (n + 1)‖)
  have he : Tendsto e atTop (𝓝 0) := by
    have : Tendsto e atTop (𝓝 (rho * ((0 + (K + ‖us‖)) * 0 + (0 + 0) * K + ‖us‖ * 0))) :=
      ((((hN.add_const _).mul hR).add ((hU.add hN).mul_const K)).add (hR.const_mul _)).const_mul rho
    simpa using this
  have hbound : ∀ n, |fx (n + 1) + gy (n + 2) - (fs + gs)| ≤ e (n + 1) := by
    intro n
    set r := a (n + 1) + b (n + 2) with hrd
    set d := a (n + 1) + b (n + 1) with hdd
    have hx := h.xs (n + 1)
    have hy := h.ys (n + 1)
    have hsx := h.sx (n + 1)
    have hsy := h.sy (n + 1)
    simp only [← hdd] at hx
    have hbs : as = -bs := eq_neg_of_add_eq_zero_left h.feas
    have e1 : as - a (n + 1) = (b (n + 2) - bs) - r := by rw [hbs, hrd]; abel
    have e2 : bs - b (n + 2) = -(b (n + 2) - bs) := by abel
    have e3 : a (n + 1) - as = r - (b (n + 2) - bs) := by rw [hbs, hrd]; abel
    have hy' : gy (n + 2) - rho * ⟪u (n + 2), bs - b (n + 2)⟫ ≤ gs := hy
    have hsy' : gs - rho * ⟪us, b (n + 2) - bs⟫ ≤ gy (n + 2) := hsy
    rw [e1, inner_sub_right] at hx
    rw [e2, inner_neg_right] at hy'
    rw [e3, inner_sub_right] at hsx
    have e4 : u (n + 2) - (d + u (n + 1)) = (u (n + 2) - u (n + 1)) - d := by abel
    have c1 : |⟪d + u (n + 1), r⟫| ≤ (‖d‖ + (K + ‖us‖)) * ‖r‖ := by
      refine (abs_real_inner_le_norm _ _).trans (mul_le_mul_of_nonneg_right ?_ (norm_nonneg _))
      refine (norm_add_le _ _).trans (by
        have := norm_le_norm_add_norm_sub' (u (n + 1)) us
        have := (hK n).1
        linarith)
    have c2 : |⟪u (n + 2) - (d + u (n + 1)), b (n + 2) - bs⟫| ≤ (‖u (n + 2) - u (n + 1)‖ + ‖d‖) * K := by
      refine (abs_real_inner_le_norm _ _).trans ?_
      rw [e4]
      exact mul_le_mul (norm_sub_le _ _) (hK (n + 1)).2 (norm_nonneg _) (by positivity)
    have c3 : |⟪us, r⟫| ≤ ‖us‖ * ‖r‖ := abs_real_inner_le_norm _ _
    rw [inner_sub_left] at c2
    have c1' := abs_le.1 c1
    have c2' := abs_le.1 c2
    have c3' := abs_le.1 c3
    have p1 := mul_le_mul_of_nonneg_left c1'.1 hr.le
    have p2 := mul_le_mul_of_nonneg_left c2'.1 hr.le
    have p3 := mul_le_mul_of_nonneg_left c3'.2 hr.le
    have q1 : 0 ≤ (‖d‖ + (K + ‖us‖)) * ‖r‖ := by positivity
    have q2 : 0 ≤ (‖u (n + 2) - u (n + 1)‖ + ‖d‖) * K := by positivity
    have q3 : 0 ≤ ‖us‖ * ‖r‖ := by positivity
    have Q1 := mul_nonneg hr.le q1
    have Q2 := mul_nonneg hr.le q2
    have Q3 := mul_nonneg hr.le q3
    have : e (n + 1) = rho * ((‖d‖ + (K + ‖us‖)) * ‖r‖) +
      rho * ((‖u (n + 2) - u (n + 1)‖ + ‖d‖) * K) + rho * (‖us‖ * ‖r‖) := by
      simp only [e, ← hrd, ← hdd]; ring
    rw [this, abs_le]
    constructor <;> linarith
  rw [tendsto_iff_norm_sub_tendsto_zero]
  refine squeeze_zero (fun _ => norm_nonneg _) (fun n => ?_) ((tendsto_add_atTop_iff_nat 1).2 he)
  rw [Real.norm_eq_abs]
  exact hbound n

end Run
end Seq

end Sporco.Admm
