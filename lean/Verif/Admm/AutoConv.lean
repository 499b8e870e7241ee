import Verif.Admm.Optimal
import Mathlib.Analysis.SpecialFunctions.Log.Basic

/-!
# Convergence with a changing penalty parameter (C88)

The Lyapunov argument of `Conv.lean` with a penalty parameter that changes between iterations, stated for the unscaled dual
variable `w = rho u`, which `update_rho` leaves unchanged (C36).
-/

set_option linter.unusedSectionVars false
set_option autoImplicit false

namespace Sporco.Admm

open scoped RealInnerProductSpace
open Filter Topology

variable {E F G H : Type*} [NormedAddCommGroup E] [InnerProductSpace ℝ E] [NormedAddCommGroup F]
  [InnerProductSpace ℝ F] [NormedAddCommGroup G] [InnerProductSpace ℝ G]

/-- The facts about one run that the argument needs, with `p n` the penalty parameter of the iteration that leads to index
`n + 1`. -/
structure RunV (a b w : ℕ → G) (fx gy p : ℕ → ℝ) (as bs ws : G) (fs gs alpha : ℝ) : Prop where
  pPos : ∀ n, 0 < p n
  summ : Summable fun n => |Real.log (p (n + 1)) - Real.log (p n)|
  alphaMem : 0 < alpha ∧ alpha < 2
  wstep : ∀ n, w (n + 1) = w n + p n • (alpha • a n - (1 - alpha) • b n + b (n + 1))
  feas : as + bs = 0
  xs : ∀ n, fx n - ⟪p n • (a n + b n) + w n, as - a n⟫ ≤ fs
  ys : ∀ n, gy (n + 1) - ⟪w (n + 1), bs - b (n + 1)⟫ ≤ gs
  yy : ∀ n, gy (n + 1) - ⟪w (n + 1), b (n + 2) - b (n + 1)⟫ ≤ gy (n + 2)
  yy' : ∀ n, gy (n + 2) - ⟪w (n + 2), b (n + 1) - b (n + 2)⟫ ≤ gy (n + 1)
  sx : ∀ n, fs - ⟪ws, a n - as⟫ ≤ fx n
  sy : ∀ n, gs - ⟪ws, b (n + 1) - bs⟫ ≤ gy (n + 1)

theorem rescale {e d : G} {p p' m : ℝ} (hed : ⟪e, d⟫ ≤ 0) (hp : 0 < p) (hp' : 0 < p') (hm : 1 ≤ m) (hpm : p' ≤ m * p) :
    ‖e - p' • d‖ ^ 2 ≤ m ^ 2 * ‖e - p • d‖ ^ 2 := by
  rw [norm_sub_sq_real, norm_sub_sq_real, real_inner_smul_right, real_inner_smul_right, norm_smul, norm_smul,
    Real.norm_eq_abs, Real.norm_eq_abs, abs_of_pos hp, abs_of_pos hp', mul_pow, mul_pow]
  have hm2 : (1 : ℝ) ≤ m ^ 2 := one_le_pow₀ hm
  have h1 : p' ^ 2 ≤ m ^ 2 * p ^ 2 := by
    rw [← mul_pow]; exact pow_le_pow_left₀ hp'.le hpm 2
  have h2 : p' ≤ m ^ 2 * p := hpm.trans (mul_le_mul_of_nonneg_right (by nlinarith) hp.le)
  have h3 := mul_le_mul_of_nonneg_right hm2 (sq_nonneg ‖e‖)
  have h4 := mul_le_mul_of_nonneg_right h1 (sq_nonneg ‖d‖)
  have h5 : p' * -⟪e, d⟫ ≤ m ^ 2 * p * -⟪e, d⟫ := mul_le_mul_of_nonneg_right h2 (by linarith)
  nlinarith

variable {a b w : ℕ → G} {fx gy p : ℕ → ℝ} {as bs ws : G} {fs gs alpha : ℝ}

namespace RunV

/-- The bound for the product of all changes of rho. -/
noncomputable def big (p : ℕ → ℝ) : ℝ := Real.exp (∑' n, |Real.log (p (n + 1)) - Real.log (p n)|)

/-- The product of the changes of rho so far. -/
noncomputable def part (p : ℕ → ℝ) (n : ℕ) : ℝ :=
  Real.exp (∑ i ∈ Finset.range n, |Real.log (p (i + 1)) - Real.log (p i)|)

theorem part_pos (p : ℕ → ℝ) (n : ℕ) : 0 < part p n := Real.exp_pos _

theorem part_succ (p : ℕ → ℝ) (n : ℕ) :
    part p (n + 1) = part p n * Real.exp |Real.log (p (n + 1)) - Real.log (p n)| := by
  unfold part
  rw [Finset.sum_range_succ, Real.exp_add]

theorem part_le (h : RunV a b w fx gy p as bs ws fs gs alpha) (n : ℕ) : part p n ≤ big p := by
  unfold part big
  exact Real.exp_le_exp.mpr (h.summ.sum_le_tsum _ (fun _ _ => abs_nonneg _))

theorem one_le_part (p : ℕ → ℝ) (n : ℕ) : 1 ≤ part p n :=
  Real.one_le_exp (Finset.sum_nonneg fun _ _ => abs_nonneg _)

theorem p_le (h : RunV a b w fx gy p as bs ws fs gs alpha) (n : ℕ) :
    p (n + 1) ≤ Real.exp |Real.log (p (n + 1)) - Real.log (p n)| * p n ∧
    p n ≤ Real.exp |Real.log (p (n + 1)) - Real.log (p n)| * p (n + 1) := by
  have h0 := h.pPos n
  have h1 := h.pPos (n + 1)
  constructor
  · rw [← Real.log_le_log_iff h1 (mul_pos (Real.exp_pos _) h0), Real.log_mul (Real.exp_pos _).ne' h0.ne', Real.log_exp]
    have := le_abs_self (Real.log (p (n + 1)) - Real.log (p n))
    linarith
  · rw [← Real.log_le_log_iff h0 (mul_pos (Real.exp_pos _) h1), Real.log_mul (Real.exp_pos _).ne' h1.ne', Real.log_exp]
    have := neg_abs_le (Real.log (p (n + 1)) - Real.log (p n))
    linarith

theorem p_bounds (h : RunV a b w fx gy p as bs ws fs gs alpha) (n : ℕ) :
    p n ≤ part p n * p 0 ∧ p 0 ≤ part p n * p n := by
  induction n with
  | zero => simp [part]
  | succ n ih =>
    obtain ⟨h1, h2⟩ := h.p_le n
    have hp := part_pos p n
    have he := Real.exp_pos |Real.log (p (n + 1)) - Real.log (p n)|
    rw [part_succ]
    constructor
    · have := mul_le_mul_of_nonneg_left ih.1 he.le
      nlinarith
    · have := mul_le_mul_of_nonneg_left h2 hp.le
      nlinarith

theorem p_upper (h : RunV a b w fx gy p as bs ws fs gs alpha) (n : ℕ) : p n ≤ big p * p 0 :=
  (h.p_bounds n).1.trans (mul_le_mul_of_nonneg_right (h.part_le n) (h.pPos 0).le)

theorem p_lower (h : RunV a b w fx gy p as bs ws fs gs alpha) (n : ℕ) : p 0 ≤ big p * p n :=
  (h.p_bounds n).2.trans (mul_le_mul_of_nonneg_right (h.part_le n) (h.pPos n).le)

theorem big_pos (p : ℕ → ℝ) : 0 < big p := Real.exp_pos _

theorem mono_star (h : RunV a b w fx gy p as bs ws fs gs alpha) (n : ℕ) :
    ⟪w (n + 1) - ws, b (n + 1) - bs⟫ ≤ 0 := by
  have h1 := h.ys n
  have h2 := h.sy n
  have e : ⟪w (n + 1), bs - b (n + 1)⟫ = -⟪w (n + 1), b (n + 1) - bs⟫ := by
    rw [← inner_neg_right, neg_sub]
  rw [e] at h1
  rw [inner_sub_left]
  linarith

theorem mono_succ (h : RunV a b w fx gy p as bs ws fs gs alpha) (n : ℕ) :
    ⟪w (n + 2) - w (n + 1), b (n + 2) - b (n + 1)⟫ ≤ 0 := by
  have h1 := h.yy n
  have h2 := h.yy' n
  have e : ⟪w (n + 2), b (n + 1) - b (n + 2)⟫ = -⟪w (n + 2), b (n + 2) - b (n + 1)⟫ := by
    rw [← inner_neg_right, neg_sub]
  rw [e] at h2
  rw [inner_sub_left]
  linarith

theorem descent_inner (h : RunV a b w fx gy p as bs ws fs gs alpha) (n : ℕ) :
    ⟪(w (n + 1) - ws) - p (n + 1) • (b (n + 1) - bs), a (n + 1) + b (n + 1)⟫ ≤
      -(p (n + 1) * ‖a (n + 1) + b (n + 1)‖ ^ 2) := by
  have hm := h.mono_star n
  have hx := h.xs (n + 1)
  have hsx := h.sx (n + 1)
  set d := a (n + 1) + b (n + 1) with hd
  have e : ⟪p (n + 1) • d + w (n + 1), as - a (n + 1)⟫ = -⟪p (n + 1) • d + w (n + 1), a (n + 1) - as⟫ := by
    rw [← inner_neg_right, neg_sub]
  rw [e] at hx
  have hx' : ⟪p (n + 1) • d + (w (n + 1) - ws), a (n + 1) - as⟫ ≤ 0 := by
    rw [show p (n + 1) • d + (w (n + 1) - ws) = (p (n + 1) • d + w (n + 1)) - ws by abel, inner_sub_left]
    linarith
  have e2 : a (n + 1) - as = d - (b (n + 1) - bs) := by
    have : as = -bs := eq_neg_of_add_eq_zero_left h.feas
    rw [this, hd]; abel
  rw [e2, inner_add_left, inner_sub_right (p (n + 1) • d), inner_sub_right (w (n + 1) - ws), real_inner_smul_left,
    real_inner_smul_left, real_inner_self_eq_norm_sq] at hx'
  rw [inner_sub_left, real_inner_smul_left]
  have e5 : ⟪d, b (n + 1) - bs⟫ = ⟪b (n + 1) - bs, d⟫ := real_inner_comm _ _
  rw [e5] at hx'
  linarith

theorem step_eq (h : RunV a b w fx gy p as bs ws fs gs alpha) (n : ℕ) :
    (w (n + 1) - ws) - p n • (b (n + 1) - bs) = ((w n - ws) - p n • (b n - bs)) + (alpha * p n) • (a n + b n) := by
  rw [h.wstep]; module

theorem descent (h : RunV a b w fx gy p as bs ws fs gs alpha) (n : ℕ) :
    ‖(w (n + 2) - ws) - p (n + 1) • (b (n + 2) - bs)‖ ^ 2 ≤
      ‖(w (n + 1) - ws) - p (n + 1) • (b (n + 1) - bs)‖ ^ 2 -
      alpha * (2 - alpha) * (p (n + 1) * ‖a (n + 1) + b (n + 1)‖) ^ 2 := by
  rw [h.step_eq (n + 1), norm_add_sq_real, real_inner_smul_right, norm_smul, mul_pow, Real.norm_eq_abs, sq_abs]
  have hi := mul_le_mul_of_nonneg_left (h.descent_inner n) (mul_pos h.alphaMem.1 (h.pPos (n + 1))).le
  nlinarith

/-- The Lyapunov function, divided by the product of the changes so far. -/
noncomputable def lyap (b w : ℕ → G) (p : ℕ → ℝ) (bs ws : G) (n : ℕ) : ℝ :=
  ‖(w (n + 1) - ws) - p (n + 1) • (b (n + 1) - bs)‖ ^ 2 / part p (n + 1) ^ 2

theorem lyap_succ (h : RunV a b w fx gy p as bs ws fs gs alpha) (n : ℕ) :
    lyap b w p bs ws (n + 1) ≤ lyap b w p bs ws n -
      alpha * (2 - alpha) * (p 0 / big p ^ 2) ^ 2 * ‖a (n + 1) + b (n + 1)‖ ^ 2 := by
  unfold lyap
  have hm : 1 ≤ Real.exp |Real.log (p (n + 2)) - Real.log (p (n + 1))| := Real.one_le_exp (abs_nonneg _)
  have h1 := rescale (h.mono_star (n + 1)) (h.pPos (n + 1)) (h.pPos (n + 2)) hm (h.p_le (n + 1)).1
  have h2 := h.descent n
  have hq := part_pos p (n + 1)
  have hc : 0 < alpha * (2 - alpha) := mul_pos h.alphaMem.1 (by linarith [h.alphaMem.2])
  rw [part_succ p (n + 1), mul_pow, div_le_iff₀ (by positivity)]
  refine h1.trans ?_
  set m := Real.exp |Real.log (p (n + 2)) - Real.log (p (n + 1))|
  set Q := part p (n + 1)
  have h3 : p 0 / big p ^ 2 ≤ p (n + 1) / Q := by
    have hb := big_pos p
    rw [div_le_div_iff₀ (by positivity) hq]
    have := h.p_lower (n + 1)
    have h5 := h.part_le (n + 1)
    calc p 0 * Q ≤ big p * p (n + 1) * Q := mul_le_mul_of_nonneg_right this hq.le
      _ ≤ big p * p (n + 1) * big p := mul_le_mul_of_nonneg_left h5 (mul_pos hb (h.pPos _)).le
      _ = p (n + 1) * big p ^ 2 := by ring
  have h4 : (p 0 / big p ^ 2) ^ 2 ≤ (p (n + 1) / Q) ^ 2 :=
    pow_le_pow_left₀ (div_pos (h.pPos 0) (pow_pos (big_pos p) 2)).le h3 2
  have h5 : alpha * (2 - alpha) * (p 0 / big p ^ 2) ^ 2 * ‖a (n + 1) + b (n + 1)‖ ^ 2 ≤
      alpha * (2 - alpha) * (p (n + 1) / Q) ^ 2 * ‖a (n + 1) + b (n + 1)‖ ^ 2 := by gcongr
  have h6 : (‖(w (n + 1) - ws) - p (n + 1) • (b (n + 1) - bs)‖ ^ 2 / Q ^ 2 -
      alpha * (2 - alpha) * (p (n + 1) / Q) ^ 2 * ‖a (n + 1) + b (n + 1)‖ ^ 2) * (Q ^ 2 * m ^ 2) =
      m ^ 2 * (‖(w (n + 1) - ws) - p (n + 1) • (b (n + 1) - bs)‖ ^ 2 -
      alpha * (2 - alpha) * (p (n + 1) * ‖a (n + 1) + b (n + 1)‖) ^ 2) := by
    field_simp
  calc _ ≤ m ^ 2 * (‖(w (n + 1) - ws) - p (n + 1) • (b (n + 1) - bs)‖ ^ 2 -
      alpha * (2 - alpha) * (p (n + 1) * ‖a (n + 1) + b (n + 1)‖) ^ 2) := mul_le_mul_of_nonneg_left h2 (sq_nonneg _)
    _ ≤ _ := by
      rw [← h6]
      exact mul_le_mul_of_nonneg_right (by linarith) (by positivity)

theorem ab_tendsto (h : RunV a b w fx gy p as bs ws fs gs alpha) :
    Tendsto (fun n => a n + b n) atTop (𝓝 0) := by
  have hc : 0 < alpha * (2 - alpha) * (p 0 / big p ^ 2) ^ 2 :=
    mul_pos (mul_pos h.alphaMem.1 (by linarith [h.alphaMem.2])) (pow_pos (div_pos (h.pPos 0) (pow_pos (big_pos p) 2)) 2)
  have h1 := tendsto_of_descent (V := lyap b w p bs ws) (D := fun n => ‖a (n + 1) + b (n + 1)‖ ^ 2) hc
    (fun _ => div_nonneg (sq_nonneg _) (sq_nonneg _)) (fun _ => sq_nonneg _) h.lyap_succ
  have h2 : Tendsto (fun n => ‖a (n + 1) + b (n + 1)‖) atTop (𝓝 0) := by
    have := (Real.continuous_sqrt.tendsto 0).comp h1
    simpa [Function.comp_def, Real.sqrt_sq (norm_nonneg _)] using this
  exact (tendsto_add_atTop_iff_nat 1).1 (tendsto_zero_iff_norm_tendsto_zero.2 h2)

theorem step_bound (h : RunV a b w fx gy p as bs ws fs gs alpha) (n : ℕ) :
    ‖w (n + 2) - w (n + 1)‖ ^ 2 + (p (n + 1) * ‖b (n + 2) - b (n + 1)‖) ^ 2 ≤
      (alpha * (p (n + 1) * ‖a (n + 1) + b (n + 1)‖)) ^ 2 := by
  have hp := h.pPos (n + 1)
  have e : (w (n + 2) - w (n + 1)) - p (n + 1) • (b (n + 2) - b (n + 1)) =
      (alpha * p (n + 1)) • (a (n + 1) + b (n + 1)) := by
    rw [h.wstep (n + 1)]; module
  have h1 := norm_sub_sq_real (w (n + 2) - w (n + 1)) (p (n + 1) • (b (n + 2) - b (n + 1)))
  rw [e, norm_smul, norm_smul, Real.norm_eq_abs, Real.norm_eq_abs, abs_of_pos hp,
    abs_of_pos (mul_pos h.alphaMem.1 hp), real_inner_smul_right] at h1
  have := mul_nonneg hp.le (neg_nonneg.mpr (h.mono_succ n))
  nlinarith

theorem delta_tendsto (h : RunV a b w fx gy p as bs ws fs gs alpha) :
    Tendsto (fun n => b (n + 1) - b n) atTop (𝓝 0) ∧ Tendsto (fun n => w (n + 1) - w n) atTop (𝓝 0) := by
  have hn := (tendsto_add_atTop_iff_nat 1).2 (tendsto_zero_iff_norm_tendsto_zero.1 h.ab_tendsto)
  have h0 : Tendsto (fun n => alpha * ‖a (n + 1) + b (n + 1)‖) atTop (𝓝 0) := by
    simpa using hn.const_mul alpha
  have h0' : Tendsto (fun n => alpha * ((big p * p 0) * ‖a (n + 1) + b (n + 1)‖)) atTop (𝓝 0) := by
    simpa using (hn.const_mul (big p * p 0)).const_mul alpha
  have hle : ∀ {x y z : ℝ}, 0 ≤ z → x ^ 2 + y ^ 2 ≤ z ^ 2 → x ≤ z ∧ y ≤ z := by
    intro x y z hz hxy
    exact ⟨abs_le_of_sq_le_sq' (by nlinarith [sq_nonneg y]) hz |>.2,
      abs_le_of_sq_le_sq' (by nlinarith [sq_nonneg x]) hz |>.2⟩
  have hpos : ∀ n, 0 ≤ alpha * (p (n + 1) * ‖a (n + 1) + b (n + 1)‖) := fun n =>
    mul_nonneg h.alphaMem.1.le (mul_nonneg (h.pPos _).le (norm_nonneg _))
  constructor
  · refine (tendsto_add_atTop_iff_nat 1).1 (tendsto_zero_iff_norm_tendsto_zero.2 ?_)
    refine squeeze_zero (fun _ => norm_nonneg _) (fun n => ?_) h0
    have h1 := (hle (hpos n) (h.step_bound n)).2
    have : p (n + 1) * ‖b (n + 2) - b (n + 1)‖ ≤ p (n + 1) * (alpha * ‖a (n + 1) + b (n + 1)‖) := by
      calc _ ≤ _ := h1
        _ = _ := by ring
    exact le_of_mul_le_mul_left this (h.pPos _)
  · refine (tendsto_add_atTop_iff_nat 1).1 (tendsto_zero_iff_norm_tendsto_zero.2 ?_)
    refine squeeze_zero (fun _ => norm_nonneg _) (fun n => ?_) h0'
    refine ((hle (hpos n) (h.step_bound n)).1).trans ?_
    exact mul_le_mul_of_nonneg_left (mul_le_mul_of_nonneg_right (h.p_upper _) (norm_nonneg _)) h.alphaMem.1.le

/-- The primal residual tends to zero. -/
theorem primal_tendsto (h : RunV a b w fx gy p as bs ws fs gs alpha) :
    Tendsto (fun n => a n + b (n + 1)) atTop (𝓝 0) := by
  have := h.ab_tendsto.add h.delta_tendsto.1
  rw [add_zero] at this
  refine this.congr fun n => ?_
  abel

theorem bounded (h : RunV a b w fx gy p as bs ws fs gs alpha) :
    ∃ K, ∀ n, ‖w (n + 1) - ws‖ ≤ K ∧ ‖b (n + 1) - bs‖ ≤ K := by
  have hc : 0 < alpha * (2 - alpha) * (p 0 / big p ^ 2) ^ 2 :=
    mul_pos (mul_pos h.alphaMem.1 (by linarith [h.alphaMem.2])) (pow_pos (div_pos (h.pPos 0) (pow_pos (big_pos p) 2)) 2)
  have h0 : 0 ≤ lyap b w p bs ws 0 := div_nonneg (sq_nonneg _) (sq_nonneg _)
  set L := Real.sqrt (lyap b w p bs ws 0) with hL
  have hL2 : L ^ 2 = lyap b w p bs ws 0 := Real.sq_sqrt h0
  have hLn : 0 ≤ L := Real.sqrt_nonneg _
  have hb := big_pos p
  have hp0 := h.pPos 0
  have key : ∀ n, ‖w (n + 1) - ws‖ ≤ L * big p ∧ p (n + 1) * ‖b (n + 1) - bs‖ ≤ L * big p := by
    intro n
    have h1 := antitone_bound (V := lyap b w p bs ws) (D := fun n => ‖a (n + 1) + b (n + 1)‖ ^ 2) hc
      (fun _ => sq_nonneg _) h.lyap_succ n
    have hq := part_pos p (n + 1)
    unfold lyap at h1
    rw [div_le_iff₀ (by positivity)] at h1
    change _ ≤ lyap b w p bs ws 0 * _ at h1
    rw [← hL2, ← mul_pow] at h1
    have h2 := norm_sub_sq_real (w (n + 1) - ws) (p (n + 1) • (b (n + 1) - bs))
    rw [real_inner_smul_right, norm_smul, Real.norm_eq_abs, abs_of_pos (h.pPos (n + 1))] at h2
    have h3 := mul_nonneg (h.pPos (n + 1)).le (neg_nonneg.mpr (h.mono_star n))
    have h4 : L * part p (n + 1) ≤ L * big p := mul_le_mul_of_nonneg_left (h.part_le _) hLn
    have h5 : 0 ≤ L * part p (n + 1) := mul_nonneg hLn hq.le
    exact ⟨(abs_le_of_sq_le_sq' (by nlinarith [sq_nonneg (p (n + 1) * ‖b (n + 1) - bs‖)]) h5).2.trans h4,
      (abs_le_of_sq_le_sq' (by nlinarith [sq_nonneg ‖w (n + 1) - ws‖]) h5).2.trans h4⟩
  refine ⟨max (L * big p) (L * big p ^ 2 / p 0), fun n => ⟨(key n).1.trans (le_max_left _ _), ?_⟩⟩
  refine le_trans ?_ (le_max_right _ _)
  rw [le_div_iff₀ hp0]
  have h1 := h.p_lower (n + 1)
  have h2 := (key n).2
  calc ‖b (n + 1) - bs‖ * p 0 ≤ ‖b (n + 1) - bs‖ * (big p * p (n + 1)) := mul_le_mul_of_nonneg_left h1 (norm_nonneg _)
    _ = big p * (p (n + 1) * ‖b (n + 1) - bs‖) := by ring
    _ ≤ big p * (L * big p) := mul_le_mul_of_nonneg_left h2 hb.le
    _ = L * big p ^ 2 := by ring

/-- The objective tends to the optimal value. -/
theorem obj_tendsto (h : RunV a b w fx gy p as bs ws fs gs alpha) :
    Tendsto (fun n => fx n + gy (n + 1)) atTop (𝓝 (fs + gs)) := by
  obtain ⟨K, hK⟩ := h.bounded
  have hK0 : 0 ≤ K := (norm_nonneg _).trans (hK 0).1
  have hN : Tendsto (fun n => ‖a n + b n‖) atTop (𝓝 0) := tendsto_zero_iff_norm_tendsto_zero.1 h.ab_tendsto
  have hR : Tendsto (fun n => ‖a n + b (n + 1)‖) atTop (𝓝 0) :=
    tendsto_zero_iff_norm_tendsto_zero.1 h.primal_tendsto
  have hU : Tendsto (fun n => ‖w (n + 1) - w n‖) atTop (𝓝 0) :=
    tendsto_zero_iff_norm_tendsto_zero.1 h.delta_tendsto.2
  refine (tendsto_add_atTop_iff_nat 1).1 ?_
  set B := big p * p 0 with hB
  let e : ℕ → ℝ := fun n => (B * ‖a n + b n‖ + (K + ‖ws‖)) * ‖a n + b (n + 1)‖ +
    (‖w (n + 1) - w n‖ + B * ‖a n + b n‖) * K + ‖ws‖ * ‖a n + b (n + 1)‖
  have he : Tendsto e atTop (𝓝 0) := by
    have : Tendsto e atTop (𝓝 ((B * 0 + (K + ‖ws‖)) * 0 + (0 + B * 0) * K + ‖ws‖ * 0)) :=
      ((((hN.const_mul B).add_const _).mul hR).add ((hU.add (hN.const_mul B)).mul_const K)).add (hR.const_mul _)
    simpa using this
  have hbound : ∀ n, |fx (n + 1) + gy (n + 2) - (fs + gs)| ≤ e (n + 1) := by
    intro n
    set r := a (n + 1) + b (n + 2) with hrd
    set d := a (n + 1) + b (n + 1) with hdd
    have hx := h.xs (n + 1)
    have hy : gy (n + 2) - ⟪w (n + 2), bs - b (n + 2)⟫ ≤ gs := h.ys (n + 1)
    have hsx := h.sx (n + 1)
    have hsy : gs - ⟪ws, b (n + 2) - bs⟫ ≤ gy (n + 2) := h.sy (n + 1)
    simp only [← hdd] at hx
    have hbs : as = -bs := eq_neg_of_add_eq_zero_left h.feas
    have e1 : as - a (n + 1) = (b (n + 2) - bs) - r := by rw [hbs, hrd]; abel
    have e2 : bs - b (n + 2) = -(b (n + 2) - bs) := by abel
    have e3 : a (n + 1) - as = r - (b (n + 2) - bs) := by rw [hbs, hrd]; abel
    rw [e1, inner_sub_right] at hx
    rw [e2, inner_neg_right] at hy
    rw [e3, inner_sub_right] at hsx
    set g := p (n + 1) • d with hg
    have hgn : ‖g‖ ≤ B * ‖d‖ := by
      rw [hg, norm_smul, Real.norm_eq_abs, abs_of_pos (h.pPos _)]
      exact mul_le_mul_of_nonneg_right (h.p_upper _) (norm_nonneg _)
    have c1 : |⟪g + w (n + 1), r⟫| ≤ (B * ‖d‖ + (K + ‖ws‖)) * ‖r‖ := by
      refine (abs_real_inner_le_norm _ _).trans (mul_le_mul_of_nonneg_right ?_ (norm_nonneg _))
      refine (norm_add_le _ _).trans (by
        have := norm_le_norm_add_norm_sub' (w (n + 1)) ws
        have := (hK n).1
        linarith)
    have c2 : |⟪w (n + 2) - (g + w (n + 1)), b (n + 2) - bs⟫| ≤ (‖w (n + 2) - w (n + 1)‖ + B * ‖d‖) * K := by
      refine (abs_real_inner_le_norm _ _).trans ?_
      rw [show w (n + 2) - (g + w (n + 1)) = (w (n + 2) - w (n + 1)) - g by abel]
      exact mul_le_mul ((norm_sub_le _ _).trans (by linarith)) (hK (n + 1)).2 (norm_nonneg _)
        (add_nonneg (norm_nonneg _) ((norm_nonneg _).trans hgn))
    have c3 : |⟪ws, r⟫| ≤ ‖ws‖ * ‖r‖ := abs_real_inner_le_norm _ _
    rw [inner_sub_left] at c2
    have c1' := abs_le.1 c1
    have c2' := abs_le.1 c2
    have c3' := abs_le.1 c3
    have q1 : 0 ≤ (B * ‖d‖ + (K + ‖ws‖)) * ‖r‖ := (abs_nonneg _).trans c1
    have q2 : 0 ≤ (‖w (n + 2) - w (n + 1)‖ + B * ‖d‖) * K := (abs_nonneg _).trans c2
    have q3 : 0 ≤ ‖ws‖ * ‖r‖ := by positivity
    have : e (n + 1) = (B * ‖d‖ + (K + ‖ws‖)) * ‖r‖ +
      (‖w (n + 2) - w (n + 1)‖ + B * ‖d‖) * K + ‖ws‖ * ‖r‖ := by
      simp only [e, ← hrd, ← hdd]
    rw [this, abs_le]
    constructor <;> linarith
  rw [tendsto_iff_norm_sub_tendsto_zero]
  refine squeeze_zero (fun _ => norm_nonneg _) (fun n => ?_) ((tendsto_add_atTop_iff_nat 1).2 he)
  rw [Real.norm_eq_abs]
  exact hbound n

end RunV

/-! ## Runs of a solver -/

/-- One pass through the loop, whatever happens to rho: X, Y, `A X` and the previous Y are as the steps computed them, and
so is the product of rho and U. -/
theorem oneIter_auto (C : Cls E F G H) (o : Opts) (cb) (s : St E F G H) (hf : 0 < (oneIter C o cb s).rho) :
    (oneIter C o cb s).X = (steps C o s).X ∧ (oneIter C o cb s).Y = (steps C o s).Y ∧
    (oneIter C o cb s).rho • (oneIter C o cb s).U = s.rho • (steps C o s).U ∧
    (oneIter C o cb s).AXnr = (steps C o s).AXnr ∧ (oneIter C o cb s).Yprev = s.Y := by
  have hu : ∀ (k : ℕ) (r t : ℝ) (st : St E F G H), (updateRho C o k r t st).X = st.X ∧ (updateRho C o k r t st).Y = st.Y ∧
      ((updateRho C o k r t st).rho ≠ 0 → (updateRho C o k r t st).rho • (updateRho C o k r t st).U = st.rho • st.U) ∧
      (updateRho C o k r t st).AXnr = st.AXnr ∧ (updateRho C o k r t st).Yprev = st.Yprev := by
    intro k r t st
    unfold updateRho
    simp only
    split_ifs with h1 h2
    · refine ⟨by trivial, by trivial, fun h => ?_, by trivial, by trivial⟩
      have : rsf o r t ≠ 0 := right_ne_zero_of_mul h
      simp only [smul_smul]
      rw [mul_assoc, mul_inv_cancel₀ this, mul_one]
    · refine ⟨by trivial, by trivial, fun h => ?_, by trivial, by trivial⟩
      have : rsf o r t ≠ 0 := right_ne_zero_of_mul h
      simp only [smul_smul]
      rw [mul_assoc, mul_inv_cancel₀ this, mul_one]
    · exact ⟨rfl, rfl, fun _ => rfl, rfl, rfl⟩
  have hne := hf.ne'
  clear hf
  revert hne
  unfold oneIter body
  cases o.fastSolve <;> cases o.withRsdl <;>
    simp only [Bool.false_eq_true, if_false, if_true]
  · intro _; exact ⟨by trivial, by trivial, rfl, by trivial, rfl⟩
  · intro hne
    obtain ⟨a1, a2, a3, a4, a5⟩ := hu s.k _ _ _
    exact ⟨a1, a2, a3 hne, a4, a5⟩
  · intro _; exact ⟨by trivial, by trivial, rfl, by trivial, rfl⟩
  · intro hne
    obtain ⟨a1, a2, a3, a4, a5⟩ := hu s.k _ _ _
    exact ⟨a1, a2, a3 hne, a4, a5⟩

/-- A trajectory satisfies the hypotheses of the abstract convergence argument. -/
theorem runV_of_traj {C : Cls E F G H} {P : Problem E F G} {Inv : ℝ → H → Prop}
    (hC : Implements C P Inv) (o : Opts) (ho : o.autoRho = true → o.RhoOk) (hrlx : 0 < o.rlx ∧ o.rlx < 2) (cb)
    (hcb : CallbackKeeps Inv cb) (s : St E F G H) (hp : 0 < s.rho) (hI : Inv s.rho s.extra)
    (hsum : Summable fun n => |Real.log (traj C o cb s (n + 1)).rho - Real.log (traj C o cb s n).rho|)
    {xs : E} {ys : F} {l : G} (hsad : P.Saddle xs ys l) :
    let T := traj C o cb s
    RunV (fun n => P.A (T (n + 1)).X) (fun n => P.B (T n).Y - P.c) (fun n => (T n).rho • (T n).U)
      (fun n => P.f (T (n + 1)).X) (fun n => P.g (T n).Y) (fun n => (T n).rho) (P.A xs) (P.B ys - P.c) l
      (P.f xs) (P.g ys) o.rlx := by
  simp only
  set T := traj C o cb s with hT
  have hinv := fun n => traj_inv hC o ho cb hcb s hp hI n
  have hstep : ∀ n, (T (n + 1)).X = (steps C o (T n)).X ∧ (T (n + 1)).Y = (steps C o (T n)).Y ∧
      (T (n + 1)).rho • (T (n + 1)).U = (T n).rho • (steps C o (T n)).U := by
    intro n
    have h1 := (hinv (n + 1)).1
    rw [traj_succ] at h1
    have := oneIter_auto C o cb (T n) h1
    rw [hT, traj_succ]
    exact ⟨this.1, this.2.1, this.2.2.1⟩
  have hspec := fun n => steps_spec hC o (T n) (hinv n).1 (hinv n).2
  have hxmem : ∀ n, (T (n + 1)).X ∈ P.Df := fun n => by rw [(hstep n).1]; exact (hspec n).2.2.2.1
  have hymem : ∀ n, (T (n + 1)).Y ∈ P.Dg := fun n => by rw [(hstep n).2.1]; exact (hspec n).2.2.2.2.1
  have hx : ∀ n, ∀ z ∈ P.Df, P.f (T (n + 1)).X -
      ⟪(T n).rho • (P.A (T (n + 1)).X + (P.B (T n).Y - P.c)) + (T n).rho • (T n).U, P.A z - P.A (T (n + 1)).X⟫ ≤ P.f z := by
    intro n z hz
    have := (hspec n).2.2.2.2.2.2.1 z hz
    rw [← smul_add, real_inner_smul_left, (hstep n).1]; exact this
  have hy : ∀ n, ∀ v ∈ P.Dg, P.g (T (n + 1)).Y - ⟪(T (n + 1)).rho • (T (n + 1)).U, P.B v - P.B (T (n + 1)).Y⟫ ≤ P.g v := by
    intro n v hv
    have := (hspec n).2.2.2.2.2.2.2 v hv
    rw [(hstep n).2.2, real_inner_smul_left, (hstep n).2.1]; exact this
  have hsub : ∀ v v' : F, (P.B v - P.c) - (P.B v' - P.c) = P.B v - P.B v' := by intro v v'; abel
  refine ⟨fun n => (hinv n).1, hsum, hrlx, ?_, ?_, ?_, ?_, ?_, ?_, ?_, ?_⟩
  · intro n
    have := (hspec n).2.2.2.2.2.1
    rw [(hstep n).2.2, this, (hstep n).1, (hstep n).2.1]
    module
  · have := hsad.feas
    rw [show P.A xs + (P.B ys - P.c) = P.A xs + P.B ys - P.c by abel, this, sub_self]
  · intro n; exact hx n xs hsad.xmem
  · intro n; rw [hsub]; exact hy n ys hsad.ymem
  · intro n; rw [hsub]; exact hy n _ (hymem (n + 1))
  · intro n; rw [hsub]; exact hy (n + 1) _ (hymem n)
  · intro n
    have := hsad.xmin _ (hxmem n)
    rw [inner_sub_right]
    linarith
  · intro n
    have := hsad.ymin _ (hymem n)
    rw [hsub, inner_sub_right]
    linarith

/-- **C88, positive part.** With or without automatic changes of rho, if the total variation of log rho along the run is
finite, the norms of the primal and dual residuals computed in each iteration tend to zero and the objective tends to the
optimal value, from any start. -/
theorem C88_convergence_partial (C : Cls E F G H) (P : Problem E F G) (Inv : ℝ → H → Prop)
    (hC : Implements C P Inv) (o : Opts) (ho : o.autoRho = true → o.RhoOk) (hrlx : 0 < o.rlx ∧ o.rlx < 2) (cb)
    (hcb : CallbackKeeps Inv cb) (s : St E F G H) (hp : 0 < s.rho) (hI : Inv s.rho s.extra)
    (hsum : Summable fun n => |Real.log (traj C o cb s (n + 1)).rho - Real.log (traj C o cb s n).rho|)
    (xs : E) (ys : F) (l : G) (hsad : P.Saddle xs ys l) :
    let T := traj C o cb s
    Tendsto (fun n => C.nrmR (steps C o (T n)).AXnr (steps C o (T n)).Y) atTop (𝓝 0) ∧
    Tendsto (fun n => C.nrmS (T n).rho (T n).Y (steps C o (T n)).Y (steps C o (T n)).U) atTop (𝓝 0) ∧
    Tendsto (fun n => P.f (T n).X + P.g (T n).Y) atTop (𝓝 (P.f xs + P.g ys)) := by
  have hrun := runV_of_traj hC o ho hrlx cb hcb s hp hI hsum hsad
  simp only at hrun ⊢
  set T := traj C o cb s with hT
  have hinv := fun n => traj_inv hC o ho cb hcb s hp hI n
  have hone : ∀ n, _ := fun n => oneIter_auto C o cb (T n) (by have h1 := (hinv (n + 1)).1; rw [traj_succ] at h1; exact h1)
  have hstep : ∀ n, (steps C o (T n)).AXnr = P.A (T (n + 1)).X ∧ (steps C o (T n)).Y = (T (n + 1)).Y := by
    intro n
    have h1 := hone n
    have h2 := steps_spec hC o (T n) (hinv n).1 (hinv n).2
    rw [hT, traj_succ]
    refine ⟨?_, h1.2.1.symm⟩
    rw [h1.1]; exact h2.2.2.1
  have hB : ∀ n, (T n).rho ≤ RunV.big (fun n => (T n).rho) * s.rho := fun n => hrun.p_upper n
  set B := RunV.big (fun n => (T n).rho) * s.rho with hBd
  refine ⟨?_, ?_, ?_⟩
  · have := (tendsto_zero_iff_norm_tendsto_zero.1 hrun.primal_tendsto)
    refine this.congr fun n => ?_
    rw [hC.nrmR, (hstep n).1, (hstep n).2]
    unfold rsdlR
    congr 1
    abel
  · have h1 := hrun.delta_tendsto.1
    have h2 : Tendsto (fun n => P.AT ((P.B (T (n + 1)).Y - P.c) - (P.B (T n).Y - P.c))) atTop (𝓝 0) := by
      have := (P.AT.continuous.tendsto 0).comp h1
      simpa [Function.comp_def] using this
    rcases hC.nrmS with hk | ⟨hf, hD, hk⟩
    · have h3 : Tendsto (fun n => B * ‖P.AT ((P.B (T (n + 1)).Y - P.c) - (P.B (T n).Y - P.c))‖) atTop (𝓝 0) := by
        simpa using (tendsto_zero_iff_norm_tendsto_zero.1 h2).const_mul B
      refine squeeze_zero (fun n => by rw [hk]; exact norm_nonneg _) (fun n => ?_) h3
      rw [hk, (hstep n).2]
      unfold rsdlS
      rw [norm_smul, Real.norm_eq_abs, abs_of_pos (hinv n).1, map_sub P.B,
        show P.B (T (n + 1)).Y - P.B (T n).Y = (P.B (T (n + 1)).Y - P.c) - (P.B (T n).Y - P.c) by abel]
      exact mul_le_mul_of_nonneg_right (hB _) (norm_nonneg _)
    · have h3 : Tendsto (fun n => (o.rlx - 1) • P.AT ((P.A (T (n + 1)).X + (P.B (T (n + 1)).Y - P.c)) -
          ((P.B (T (n + 1)).Y - P.c) - (P.B (T n).Y - P.c)))) atTop (𝓝 0) := by
        have := ((P.AT.continuous.tendsto 0).comp
          (by simpa using hrun.primal_tendsto.sub h1)).const_smul (o.rlx - 1)
        simpa [Function.comp_def] using this
      have h4 := h2.add h3
      rw [add_zero] at h4
      have h5 := (tendsto_zero_iff_norm_tendsto_zero.1 h4).const_mul B
      rw [mul_zero] at h5
      refine squeeze_zero (fun n => by rw [hk]; exact norm_nonneg _) (fun n => ?_) h5
      have hA := steps_ATU hC o (T n) (hinv n).1 (hinv n).2 hf hD
      have h6 := hone n
      have e1 : (T (n + 1)).X = (steps C o (T n)).X := by rw [hT, traj_succ]; exact h6.1
      have e2 : (T (n + 1)).Y = (steps C o (T n)).Y := by rw [hT, traj_succ]; exact h6.2.1
      rw [hk, hA, norm_smul, Real.norm_eq_abs, abs_of_pos (hinv n).1]
      refine mul_le_mul (hB n) (le_of_eq ?_) (norm_nonneg _) ((hinv n).1.le.trans (hB n))
      rw [e1, e2]
      congr 2
      · congr 1
        rw [map_sub]; abel
      · congr 2
        abel
  · refine (tendsto_add_atTop_iff_nat 1).1 ?_
    exact hrun.obj_tendsto

/-- In particular if rho changes finitely often. -/
theorem C88_finite_changes_partial (C : Cls E F G H) (P : Problem E F G) (Inv : ℝ → H → Prop)
    (hC : Implements C P Inv) (o : Opts) (ho : o.autoRho = true → o.RhoOk) (hrlx : 0 < o.rlx ∧ o.rlx < 2) (cb)
    (hcb : CallbackKeeps Inv cb) (s : St E F G H) (hp : 0 < s.rho) (hI : Inv s.rho s.extra)
    (hfin : ∃ N, ∀ n, N ≤ n → (traj C o cb s (n + 1)).rho = (traj C o cb s n).rho)
    (xs : E) (ys : F) (l : G) (hsad : P.Saddle xs ys l) :
    let T := traj C o cb s
    Tendsto (fun n => C.nrmR (steps C o (T n)).AXnr (steps C o (T n)).Y) atTop (𝓝 0) ∧
    Tendsto (fun n => C.nrmS (T n).rho (T n).Y (steps C o (T n)).Y (steps C o (T n)).U) atTop (𝓝 0) ∧
    Tendsto (fun n => P.f (T n).X + P.g (T n).Y) atTop (𝓝 (P.f xs + P.g ys)) := by
  refine C88_convergence_partial C P Inv hC o ho hrlx cb hcb s hp hI ?_ xs ys l hsad
  obtain ⟨N, hN⟩ := hfin
  refine summable_of_ne_finset_zero (s := Finset.range N) fun n hn => ?_
  rw [Finset.mem_range, not_lt] at hn
  rw [hN n hn, sub_self, abs_zero]

/-- **C88, termination.** Under the same condition the loop ends by itself for every positive absolute tolerance. -/
theorem C88_terminates_partial (C : Cls E F G H) (P : Problem E F G) (Inv : ℝ → H → Prop)
    (hC : Implements C P Inv) (o : Opts) (ho : o.autoRho = true → o.RhoOk)
    (hf : o.autoRho = true ∨ o.fastSolve = false) (hrlx : 0 < o.rlx ∧ o.rlx < 2)
    (habs : 0 < o.absStopTol) (hrel : 0 ≤ o.relStopTol) (hNx : 0 < o.Nx) (hNc : 0 < o.Nc)
    (cb) (hcb : CallbackKeeps Inv cb) (s : St E F G H) (hp : 0 < s.rho) (hI : Inv s.rho s.extra)
    (hsum : Summable fun n => |Real.log (traj C o cb s (n + 1)).rho - Real.log (traj C o cb s n).rho|)
    (xs : E) (ys : F) (l : G) (hsad : P.Saddle xs ys l) :
    ∃ N, ∀ M, N < M → (solve C { o with maxMainIter := M } cb s).k ≤ s.k + N ∧
      ∃ n, n < N ∧ solve C { o with maxMainIter := M } cb s = traj C o cb s (n + 1) ∧
        StopsAfter C o cb (traj C o cb s n) := by
  obtain ⟨h1, h2, -⟩ := C88_convergence_partial C P Inv hC o ho hrlx cb hcb s hp hI hsum xs ys l hsad
  have e1 : 0 < Real.sqrt o.Nc * o.absStopTol :=
    mul_pos (Real.sqrt_pos.2 (Nat.cast_pos.2 hNc)) habs
  have e2 : 0 < Real.sqrt o.Nx * o.absStopTol :=
    mul_pos (Real.sqrt_pos.2 (Nat.cast_pos.2 hNx)) habs
  have hev := ((h1.eventually_lt_const e1).and (h2.eventually_lt_const e2))
  obtain ⟨N0, hN0⟩ := hev.exists_forall_of_atTop
  have hstop : StopsAfter C o cb (traj C o cb s N0) := by
    rw [C35_stop_condition]
    right
    refine ⟨hf, ?_⟩
    obtain ⟨q1, q2⟩ := hN0 N0 le_rfl
    exact below_of_small C o (steps C o { traj C o cb s N0 with k := (traj C o cb s N0).k })
      (hC.rn _ _) (hC.sn _ _ (traj_inv hC o ho cb hcb s hp hI N0).1.le) hrel q1 q2
  refine ⟨N0 + 1, fun M hM => ?_⟩
  obtain ⟨n, a1, a2, a3, a4, a5, a6⟩ :=
    C35_solve_partial C { o with maxMainIter := M } cb s (by change 1 ≤ M; omega)
  rw [traj_max] at a3 a5 a6
  rw [StopsAfter_max] at a5 a6
  have hn : n ≤ N0 + 1 := by
    by_contra hcon
    exact a5 N0 (by omega) hstop
  refine ⟨by rw [a4]; omega, n - 1, by omega, ?_, ?_⟩
  · rw [a3]; congr 1; omega
  · exact a6 (by change n < M; omega)

end Sporco.Admm
