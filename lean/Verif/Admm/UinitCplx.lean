import Mathlib.Analysis.SpecialFunctions.Pow.Real
import Mathlib.Analysis.SpecialFunctions.Pow.Complex
import Mathlib.Analysis.Complex.Basic
import Mathlib.Algebra.Order.BigOperators.Ring.Finset
import Mathlib.Tactic.FieldSimp
import Mathlib.Tactic.Linarith

/-!
# C42 for complex images in `TVL2Denoise` and `TVL2Deconv`

The modules `admm.tvl1` and `admm.tvl2` are documented to support complex arrays. `uinit` divides
the initial `Y` by the square root of the sum of the squares, not of the squared moduli.
-/

set_option autoImplicit false

namespace Sporco.Admm.UinitCplx

variable {ι : Type} [Fintype ι]

/-- `np.sqrt` of a complex number: the principal square root. -/
noncomputable def csqrt (w : ℂ) : ℂ := w ^ (((2 : ℕ) : ℂ)⁻¹)

open Classical in
/-- `zdivide` (/repo/sporco/array.py line 136, the quotient with zero for a zero divisor), complex entries. -/
noncomputable def zdivide (a b : ℂ) : ℂ := if b = 0 then 0 else a / b

/-- `TVL2Denoise.uinit` (/repo/sporco/admm/tvl2.py lines 232-233) and `TVL2Deconv.uinit` (lines
589-590) at one pixel of a complex image: `ι` indexes the gradient components. -/
noncomputable def uinit (lmbda rho : ℝ) (Y : ι → ℂ) : ι → ℂ :=
  fun i => (lmbda / rho : ℝ) * zdivide (Y i) (csqrt (∑ j, Y j ^ 2))

/-- Specification: the norm of the gradient at a pixel, the square root of the sum of the squared
moduli; it is the term of the functional that `eval_objfn` computes for complex images. -/
noncomputable def nrm (z : ι → ℂ) : ℝ := Real.sqrt (∑ i, Complex.normSq (z i))

/-- Specification: the real inner product of complex vectors. -/
noncomputable def ip (u z : ι → ℂ) : ℝ := ∑ i, (star (u i) * z i).re

/-- Specification: the dual optimality criterion, `rho U` is a subgradient of `lmbda ‖·‖` at `Y`. -/
def DualOptimal (lmbda rho : ℝ) (Y U : ι → ℂ) : Prop :=
  ∀ z : ι → ℂ, lmbda * nrm Y + rho * ip U (fun i => z i - Y i) ≤ lmbda * nrm z

theorem csqrt_sq (w : ℂ) : csqrt w ^ 2 = w := Complex.cpow_nat_inv_pow w two_ne_zero

theorem csqrt_ofReal (x : ℝ) (hx : 0 ≤ x) : csqrt (x : ℂ) = (Real.sqrt x : ℝ) := by
  unfold csqrt
  rw [Real.sqrt_eq_rpow, Complex.ofReal_cpow hx]
  norm_num

/-- **C42 for real gradients.** If the initial `Y` is real at a pixel, the criterion holds there
against all complex vectors. -/
theorem C42_tv_cplx_real (lmbda rho : ℝ) (hl : 0 ≤ lmbda) (hr : 0 < rho) (y : ι → ℝ) :
    DualOptimal lmbda rho (fun i => (y i : ℂ)) (uinit lmbda rho fun i => (y i : ℂ)) := by
  intro z
  have hn : nrm (fun i => (y i : ℂ)) = Real.sqrt (∑ i, y i ^ 2) := by
    unfold nrm
    simp only [Complex.normSq_ofReal, sq]
  have hs : csqrt (∑ j, (y j : ℂ) ^ 2) = (Real.sqrt (∑ i, y i ^ 2) : ℝ) := by
    rw [← csqrt_ofReal _ (Finset.sum_nonneg fun i _ => sq_nonneg (y i))]
    push_cast
    rfl
  have hq0 : 0 ≤ ∑ i, y i ^ 2 := Finset.sum_nonneg fun i _ => sq_nonneg (y i)
  rw [hn]
  set n := Real.sqrt (∑ i, y i ^ 2) with hnd
  have hn0 : 0 ≤ n := Real.sqrt_nonneg _
  have hz0 : 0 ≤ nrm z := Real.sqrt_nonneg _
  by_cases h0 : n = 0
  · have hu : (uinit lmbda rho fun i => (y i : ℂ)) = fun _ => 0 := by
      funext i
      simp [uinit, hs, h0, zdivide]
    rw [hu, h0]
    simp only [ip, star_zero, zero_mul, Complex.zero_re, Finset.sum_const_zero, mul_zero, add_zero]
    exact mul_nonneg hl hz0
  · have hpos : 0 < n := lt_of_le_of_ne hn0 (Ne.symm h0)
    have hu : ∀ i, uinit lmbda rho (fun i => (y i : ℂ)) i = ((lmbda / rho * (y i / n) : ℝ) : ℂ) := by
      intro i
      unfold uinit zdivide
      rw [hs, if_neg (by exact_mod_cast h0)]
      push_cast
      rfl
    have hip : ip (uinit lmbda rho fun i => (y i : ℂ)) (fun i => z i - y i) =
        lmbda / rho / n * ((∑ i, y i * (z i).re) - n ^ 2) := by
      rw [hnd, Real.sq_sqrt hq0, ← hnd, ← Finset.sum_sub_distrib, Finset.mul_sum]
      refine Finset.sum_congr rfl fun i _ => ?_
      rw [hu, Complex.star_def, Complex.conj_ofReal, Complex.re_ofReal_mul, Complex.sub_re, Complex.ofReal_re]
      field_simp
    have hcs : ∑ i, y i * (z i).re ≤ n * nrm z := by
      have h1 := Finset.sum_mul_sq_le_sq_mul_sq Finset.univ y fun i => (z i).re
      have h2 : ∑ i, (z i).re ^ 2 ≤ ∑ i, Complex.normSq (z i) := by
        refine Finset.sum_le_sum fun i _ => ?_
        rw [Complex.normSq_apply]
        nlinarith [mul_self_nonneg (z i).im]
      have h3 : (∑ i, y i * (z i).re) ^ 2 ≤ (n * nrm z) ^ 2 := by
        rw [mul_pow, hnd, Real.sq_sqrt hq0, nrm,
          Real.sq_sqrt (Finset.sum_nonneg fun i _ => Complex.normSq_nonneg (z i))]
        exact h1.trans (mul_le_mul_of_nonneg_left h2 hq0)
      exact le_of_sq_le_sq h3 (mul_nonneg hn0 hz0)
    rw [hip]
    have e : lmbda * n + rho * (lmbda / rho / n * ((∑ i, y i * (z i).re) - n ^ 2)) =
        lmbda * ((∑ i, y i * (z i).re) / n) := by
      field_simp
      ring
    rw [e]
    refine mul_le_mul_of_nonneg_left ?_ hl
    rw [div_le_iff₀ hpos, mul_comm]
    exact hcs

/-- **C42, refuted for complex images.** With one gradient component the criterion holds exactly at
the real entries of the initial `Y`: `U` is `± lmbda / rho` whatever the phase of `Y`. -/
theorem C42_tv_cplx_refuted (lmbda rho : ℝ) (hl : 0 < lmbda) (hr : 0 < rho) (Y : Fin 1 → ℂ) :
    DualOptimal lmbda rho Y (uinit lmbda rho Y) ↔ (Y 0).im = 0 := by
  constructor
  · intro h
    by_contra him
    have hY : Y 0 ≠ 0 := fun e => him (by rw [e]; rfl)
    have hc := csqrt_sq (∑ j, Y j ^ 2)
    have hsum : ∑ j, Y j ^ 2 = Y 0 ^ 2 := by simp
    rw [hsum] at hc
    have hU : uinit lmbda rho Y 0 = (lmbda / rho : ℝ) ∨ uinit lmbda rho Y 0 = ((-(lmbda / rho) : ℝ) : ℂ) := by
      unfold uinit zdivide
      rw [hsum]
      rcases sq_eq_sq_iff_eq_or_eq_neg.1 hc with e | e
      · left
        rw [e, if_neg hY, div_self hY, mul_one]
      · right
        rw [e, if_neg (neg_ne_zero.2 hY), div_neg, div_self hY]
        push_cast
        ring
    have h0 := h (fun _ => 0)
    have hn0 : nrm (fun _ : Fin 1 => (0 : ℂ)) = 0 := by simp [nrm]
    have hn : |(Y 0).re| < nrm Y := by
      unfold nrm
      rw [Fin.sum_univ_one, Complex.normSq_apply]
      refine Real.lt_sqrt_of_sq_lt ?_
      rw [sq_abs]
      nlinarith [mul_self_pos.2 him]
    have hip : -|lmbda * (Y 0).re| ≤ rho * ip (uinit lmbda rho Y) (fun i => 0 - Y i) := by
      unfold ip
      rw [Fin.sum_univ_one]
      rcases hU with e | e <;>
        rw [e, Complex.star_def, Complex.conj_ofReal, Complex.re_ofReal_mul, Complex.sub_re, Complex.zero_re]
      · have : rho * (lmbda / rho * (0 - (Y 0).re)) = -(lmbda * (Y 0).re) := by
          field_simp
          ring
        rw [this]
        exact neg_le_neg (le_abs_self _)
      · have : rho * (-(lmbda / rho) * (0 - (Y 0).re)) = lmbda * (Y 0).re := by
          field_simp
          ring
        rw [this]
        exact neg_abs_le _
    rw [hn0, mul_zero] at h0
    rw [abs_mul, abs_of_pos hl] at hip
    nlinarith [mul_lt_mul_of_pos_left hn hl]
  · intro h
    have : Y = fun i => (((Y i).re : ℝ) : ℂ) := by
      funext i
      rw [Subsingleton.elim i 0]
      exact Complex.ext (by simp) (by simp [h])
    rw [this]
    exact C42_tv_cplx_real lmbda rho hl.le hr _

/-- Two gradient components: `Y = (1, i)` has norm `√2` and gets `U = 0`, the value for `Y = 0`. -/
theorem C42_tv_cplx_zero (lmbda rho : ℝ) :
    uinit lmbda rho ![1, Complex.I] = fun _ => 0 := by
  have : ∑ j, (![1, Complex.I] : Fin 2 → ℂ) j ^ 2 = 0 := by simp
  have hc := csqrt_sq 0
  funext i
  unfold uinit zdivide
  rw [this, if_pos (pow_eq_zero_iff two_ne_zero |>.1 hc), mul_zero]

/-- The hypotheses are met: a purely imaginary gradient. -/
example : ¬ DualOptimal 1 1 (fun _ : Fin 1 => Complex.I) (uinit 1 1 fun _ => Complex.I) := by
  rw [C42_tv_cplx_refuted 1 1 one_pos one_pos]
  simp

end Sporco.Admm.UinitCplx
