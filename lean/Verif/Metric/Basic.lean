import Mathlib.Analysis.SpecialFunctions.Log.Base
import Mathlib.Analysis.Complex.Norm
import Mathlib.Data.EReal.Operations
import Mathlib.Algebra.Order.BigOperators.Ring.Finset
import Mathlib.Algebra.Order.Chebyshev
import Mathlib.Algebra.BigOperators.Field
import Mathlib.Tactic.FieldSimp

/-!
# Model of `metric.py`, C56

An image is a function on a finite set of pixels.  Data are exact numbers; integer images are
covered where the code converts to float before computing.  Results that can be NaN or infinite
are `Option EReal`, with `none` for NaN.
-/

set_option autoImplicit false
set_option linter.unusedSectionVars false

namespace Sporco.Metric

open Finset

variable {ι : Type} [Fintype ι] [Nonempty ι]

/-- `np.mean` of a real array. -/
noncomputable def mean (f : ι → ℝ) : ℝ := (∑ i, f i) / Fintype.card ι

/-- `mae(vref, vcmp)` (`metric.py` 37-60). -/
noncomputable def mae (r c : ι → ℂ) : ℝ := mean fun i => ‖r i - c i‖

/-- `mse(vref, vcmp)` (`metric.py` 64-87). -/
noncomputable def mse (r c : ι → ℂ) : ℝ := mean fun i => ‖r i - c i‖ ^ 2

/-- `np.var` of an array, real or complex. -/
noncomputable def var (f : ι → ℂ) : ℝ := mean fun i => ‖f i - (∑ j, f j) / Fintype.card ι‖ ^ 2

/-- Division of non-negative floats: `a / 0` is `inf`, `0 / 0` is NaN. -/
noncomputable def fdiv (a b : ℝ) : Option EReal :=
  if b = 0 then if a = 0 then none else some ⊤ else some ((a / b : ℝ) : EReal)

/-- `10 * np.log10(x)` of a non-negative float: `-inf` at 0, `inf` at `inf`. -/
noncomputable def dB : Option EReal → Option EReal
  | none => none
  | some x => if x = ⊤ then some ⊤ else if x = 0 then some ⊥
      else some ((10 * Real.logb 10 x.toReal : ℝ) : EReal)

/-- `snr(vref, vcmp)` (`metric.py` 91-111). -/
noncomputable def snr (r c : ι → ℂ) : Option EReal := dB (fdiv (var r) (mse r c))

/-- `psnr(vref, vcmp, rng)` (`metric.py` 115-144) with the dynamic range given. -/
noncomputable def psnrRng (r c : ι → ℂ) (rng : ℝ) : Option EReal := dB (fdiv (rng ^ 2) (mse r c))

/-- The default dynamic range (`metric.py` 139-140) of a real image. -/
noncomputable def dynRange (r : ι → ℝ) : ℝ :=
  |univ.sup' univ_nonempty r - univ.inf' univ_nonempty r|

/-- `psnr(vref, vcmp)` for real images (`metric.py` 115-144). -/
noncomputable def psnr (r c : ι → ℝ) : Option EReal :=
  psnrRng (fun i => (r i : ℂ)) (fun i => (c i : ℂ)) (dynRange r)

/-- `isnr(vref, vdeg, vrst)` (`metric.py` 148-172). -/
noncomputable def isnr (r d s : ι → ℂ) : Option EReal := dB (fdiv (mse r d) (mse r s))

/-- `bsnr(vblr, vnsy)` (`metric.py` 176-198), float images. -/
noncomputable def bsnr (b n : ι → ℂ) : Option EReal :=
  dB (fdiv (var b) (var fun i => n i - b i))

/-- Rescaling factor `255.0 / vref.max()` (`metric.py` 232, 271): NaN or infinite (`none`) if the
maximum is zero. -/
noncomputable def scale255 (r : ι → ℝ) : Option ℝ :=
  if univ.sup' univ_nonempty r = 0 then none else some (255 / univ.sup' univ_nonempty r)

/-- `pamse(vref, vcmp, rescale)` (`metric.py` 202-236).  The Gaussian filter of the library is any
linear map `G`.  With an infinite factor the zeros of the error become NaN and so does the score;
it is taken as NaN (`none`) in every case where the factor is infinite. -/
noncomputable def pamse (G : (ι → ℝ) →ₗ[ℝ] (ι → ℝ)) (rescale : Bool) (r c : ι → ℝ) : Option ℝ :=
  match (if rescale then scale255 r else some 1) with
  | none => none
  | some s => some (mean fun i => (G (fun j => s * (r j - c j)) i) ^ 2)

/-- The quality map of `gmsd` (`metric.py` 275-294) from the two gradient maps; `T = 170`. -/
noncomputable def qualityMap {κ : Type} (g1 g2 : κ → ℝ) (i : κ) : ℝ :=
  (2 * g1 i * g2 i + 170) / (g1 i ^ 2 + g2 i ^ 2 + 170)

/-- `np.std`. -/
noncomputable def std {κ : Type} [Fintype κ] (f : κ → ℝ) : ℝ :=
  Real.sqrt (mean fun i => (f i - mean f) ^ 2)

/-- `gmsd(vref, vcmp, rescale)` (`metric.py` 240-300).  The averaging, subsampling and derivative
filters (lines 277-291) are any maps `dx`, `dy` from the rescaled image to the subsampled one. -/
noncomputable def gmsd {κ : Type} [Fintype κ] (dx dy : (ι → ℝ) → κ → ℝ) (rescale : Bool)
    (r c : ι → ℝ) : Option (ℝ × (κ → ℝ)) :=
  match (if rescale then scale255 r else some 1) with
  | none => none
  | some s =>
    let g (v : ι → ℝ) (i : κ) := Real.sqrt (dx (fun j => s * v j) i ^ 2 + dy (fun j => s * v j) i ^ 2)
    let q := qualityMap (g r) (g c)
    some (std q, q)

/-! ## Specification -/

/-- Subtraction of floats: `inf - inf` is NaN. -/
noncomputable def fsub : Option EReal → Option EReal → Option EReal
  | some a, some b => if (a = ⊤ ∧ b = ⊤) ∨ (a = ⊥ ∧ b = ⊥) then none else some (a - b)
  | _, _ => none

/-! ## Theorems -/

omit [Nonempty ι] in
theorem mean_nonneg {f : ι → ℝ} (h : ∀ i, 0 ≤ f i) : 0 ≤ mean f :=
  div_nonneg (sum_nonneg fun i _ => h i) (Nat.cast_nonneg _)

theorem card_pos' : (0 : ℝ) < Fintype.card ι := by exact_mod_cast Fintype.card_pos

theorem mean_eq_zero {f : ι → ℝ} (h : ∀ i, 0 ≤ f i) : mean f = 0 ↔ ∀ i, f i = 0 := by
  unfold mean
  rw [div_eq_zero_iff, or_iff_left card_pos'.ne', sum_eq_zero_iff_of_nonneg fun i _ => h i]
  simp

/-- **C56.** `mae` and `mse` are non-negative and zero exactly for equal images. -/
theorem C56_zero_iff_equal (r c : ι → ℂ) :
    (0 ≤ mae r c ∧ (mae r c = 0 ↔ r = c)) ∧ (0 ≤ mse r c ∧ (mse r c = 0 ↔ r = c)) := by
  refine ⟨⟨mean_nonneg fun i => norm_nonneg _, ?_⟩, ⟨mean_nonneg fun i => by positivity, ?_⟩⟩
  · unfold mae
    rw [mean_eq_zero fun i => norm_nonneg _]
    simp only [norm_eq_zero, sub_eq_zero]
    exact funext_iff.symm
  · unfold mse
    rw [mean_eq_zero fun i => by positivity]
    simp only [pow_eq_zero_iff two_ne_zero, norm_eq_zero, sub_eq_zero]
    exact funext_iff.symm

/-- **C56.** Both are symmetric, `mae` satisfies the triangle inequality, and `mae² ≤ mse`. -/
theorem C56_metric_laws (r c d : ι → ℂ) :
    mae r c = mae c r ∧ mse r c = mse c r ∧ mae r d ≤ mae r c + mae c d ∧ mae r c ^ 2 ≤ mse r c := by
  refine ⟨?_, ?_, ?_, ?_⟩
  · unfold mae; simp only [norm_sub_rev]
  · unfold mse; simp only [norm_sub_rev]
  · unfold mae mean
    rw [← add_div, ← sum_add_distrib]
    refine div_le_div_of_nonneg_right (sum_le_sum fun i _ => ?_) card_pos'.le
    have := norm_add_le (r i - c i) (c i - d i)
    simpa using this
  · unfold mae mse mean
    have := sq_sum_le_card_mul_sum_sq (s := univ) (f := fun i => ‖r i - c i‖)
    rw [card_univ] at this
    rw [div_pow, div_le_div_iff₀ (by have := card_pos' (ι := ι); positivity) card_pos']
    have hc := card_pos' (ι := ι)
    nlinarith

omit [Nonempty ι] in
theorem mse_smul (k : ℂ) (r c : ι → ℂ) : mse (fun i => k * r i) (fun i => k * c i) =
    ‖k‖ ^ 2 * mse r c := by
  unfold mse mean
  rw [mul_div_assoc', mul_sum]
  congr 1
  refine sum_congr rfl fun i _ => ?_
  simp only
  rw [← mul_sub, norm_mul, mul_pow]

omit [Nonempty ι] in
theorem var_smul (k : ℂ) (r : ι → ℂ) : var (fun i => k * r i) = ‖k‖ ^ 2 * var r := by
  unfold var mean
  rw [mul_div_assoc', mul_sum]
  congr 1
  refine sum_congr rfl fun i _ => ?_
  simp only
  rw [← mul_sum, mul_div_assoc, ← mul_sub, norm_mul, mul_pow]

theorem fdiv_smul {k : ℝ} (hk : k ≠ 0) (a b : ℝ) : fdiv (k * a) (k * b) = fdiv a b := by
  unfold fdiv
  simp only [mul_eq_zero, hk, false_or, mul_div_mul_left a b hk]

/-- **C56.** `snr` does not change when both images are multiplied by the same non-zero number, nor
when the same number is added to both. -/
theorem C56_snr_invariant (k t : ℂ) (hk : k ≠ 0) (r c : ι → ℂ) :
    snr (fun i => k * r i + t) (fun i => k * c i + t) = snr r c := by
  have h1 : var (fun i => k * r i + t) = ‖k‖ ^ 2 * var r := by
    rw [← var_smul]
    unfold var
    congr 1
    funext i
    rw [sum_add_distrib, sum_const, card_univ, nsmul_eq_mul, add_div]
    have : (Fintype.card ι : ℂ) ≠ 0 := by exact_mod_cast Fintype.card_ne_zero
    rw [mul_div_cancel_left₀ _ this]
    congr 2
    ring
  have h2 : mse (fun i => k * r i + t) (fun i => k * c i + t) = ‖k‖ ^ 2 * mse r c := by
    rw [← mse_smul]
    unfold mse
    congr 1
    funext i
    congr 2
    ring
  unfold snr
  rw [h1, h2, fdiv_smul (by simpa using hk)]

/-- **C56.** `psnr` does not change when both images and the range are multiplied by the same
non-zero number. -/
theorem C56_psnr_invariant (k : ℝ) (hk : k ≠ 0) (r c : ι → ℂ) (rng : ℝ) :
    psnrRng (fun i => k * r i) (fun i => k * c i) (k * rng) = psnrRng r c rng := by
  unfold psnrRng
  rw [mse_smul, mul_pow, Complex.norm_real, Real.norm_eq_abs, sq_abs,
    fdiv_smul (pow_ne_zero 2 hk)]

theorem dynRange_affine (k t : ℝ) (r : ι → ℝ) : dynRange (fun i => k * r i + t) = |k| * dynRange r := by
  obtain ⟨a, _, ha⟩ := exists_mem_eq_sup' (univ_nonempty (α := ι)) r
  obtain ⟨b, _, hb⟩ := exists_mem_eq_inf' (univ_nonempty (α := ι)) r
  have ha' : ∀ i, r i ≤ r a := fun i => by rw [← ha]; exact le_sup' r (mem_univ i)
  have hb' : ∀ i, r b ≤ r i := fun i => by rw [← hb]; exact inf'_le r (mem_univ i)
  unfold dynRange
  rcases le_total 0 k with h | h
  · have e1 : univ.sup' univ_nonempty (fun i => k * r i + t) = k * r a + t :=
      le_antisymm (sup'_le _ _ fun i _ => by nlinarith [ha' i])
        (le_sup' (fun i => k * r i + t) (mem_univ a))
    have e2 : univ.inf' univ_nonempty (fun i => k * r i + t) = k * r b + t :=
      le_antisymm (inf'_le (fun i => k * r i + t) (mem_univ b))
        (le_inf' _ _ fun i _ => by nlinarith [hb' i])
    rw [e1, e2, ha, hb, ← abs_mul]; congr 1; ring
  · have e1 : univ.sup' univ_nonempty (fun i => k * r i + t) = k * r b + t :=
      le_antisymm (sup'_le _ _ fun i _ => by nlinarith [hb' i])
        (le_sup' (fun i => k * r i + t) (mem_univ b))
    have e2 : univ.inf' univ_nonempty (fun i => k * r i + t) = k * r a + t :=
      le_antisymm (inf'_le (fun i => k * r i + t) (mem_univ a))
        (le_inf' _ _ fun i _ => by nlinarith [ha' i])
    rw [e1, e2, ha, hb, ← abs_mul, abs_sub_comm]; congr 1; ring

/-- **C56.** With the default range `psnr` does not change under any common non-constant affine map
of the two images. -/
theorem C56_psnr_default_invariant (k t : ℝ) (hk : k ≠ 0) (r c : ι → ℝ) :
    psnr (fun i => k * r i + t) (fun i => k * c i + t) = psnr r c := by
  have h2 : mse (fun i => ((k * r i + t : ℝ) : ℂ)) (fun i => ((k * c i + t : ℝ) : ℂ)) =
      k ^ 2 * mse (fun i => (r i : ℂ)) (fun i => (c i : ℂ)) := by
    have := mse_smul (k : ℂ) (fun i => (r i : ℂ)) (fun i => (c i : ℂ))
    rw [Complex.norm_real, Real.norm_eq_abs, sq_abs] at this
    rw [← this]
    unfold mse
    congr 1
    funext i
    congr 2
    push_cast
    ring
  unfold psnr psnrRng
  rw [h2, dynRange_affine, mul_pow, sq_abs, fdiv_smul (pow_ne_zero 2 hk)]

theorem dB_coe {x : ℝ} (hx : 0 < x) : dB (some (x : EReal)) = some ((10 * Real.logb 10 x : ℝ) : EReal) := by
  unfold dB
  have : (x : EReal) ≠ 0 := by exact_mod_cast hx.ne'
  simp [this]

theorem dB_fdiv_pos {a b : ℝ} (ha : 0 < a) (hb : 0 < b) :
    dB (fdiv a b) = some ((10 * (Real.logb 10 a - Real.logb 10 b) : ℝ) : EReal) := by
  unfold fdiv
  rw [if_neg hb.ne', dB_coe (div_pos ha hb), Real.logb_div ha.ne' hb.ne']

theorem dB_fdiv_zero {a : ℝ} (ha : 0 < a) : dB (fdiv a 0) = some ⊤ := by
  simp [fdiv, ha.ne', dB]

theorem dB_zero_fdiv {b : ℝ} (hb : 0 < b) : dB (fdiv 0 b) = some ⊥ := by
  simp [fdiv, hb.ne', dB]

theorem dB_zero_zero : dB (fdiv 0 0) = none := by simp [fdiv, dB]

/-- **C56.** For every reference image that is not constant, `isnr` is the `snr` of the restored
image minus the `snr` of the degraded image, also where these are infinite or NaN. -/
theorem C56_isnr (r d s : ι → ℂ) (hv : ¬ ∃ t, ∀ i, r i = t) :
    isnr r d s = fsub (snr r s) (snr r d) := by
  have hv' : 0 < var r := by
    refine lt_of_le_of_ne (mean_nonneg fun i => by positivity) fun h => hv ?_
    unfold var at h
    rw [eq_comm, mean_eq_zero fun i => by positivity] at h
    exact ⟨_, fun i => by
      have := h i
      rw [pow_eq_zero_iff two_ne_zero, norm_eq_zero, sub_eq_zero] at this
      exact this⟩
  have hd : 0 ≤ mse r d := mean_nonneg fun i => by positivity
  have hs : 0 ≤ mse r s := mean_nonneg fun i => by positivity
  unfold isnr snr
  rcases hd.eq_or_lt with hd | hd <;> rcases hs.eq_or_lt with hs | hs
  · rw [← hd, ← hs, dB_zero_zero, dB_fdiv_zero hv']; simp [fsub]
  · rw [← hd, dB_zero_fdiv hs, dB_fdiv_zero hv', dB_fdiv_pos hv' hs]
    generalize 10 * (Real.logb 10 (var r) - Real.logb 10 (mse r s)) = q
    simp [fsub]
  · rw [← hs, dB_fdiv_zero hd, dB_fdiv_zero hv', dB_fdiv_pos hv' hd]
    generalize 10 * (Real.logb 10 (var r) - Real.logb 10 (mse r d)) = q
    simp [fsub]
  · rw [dB_fdiv_pos hd hs, dB_fdiv_pos hv' hs, dB_fdiv_pos hv' hd]
    unfold fsub
    simp only [EReal.coe_ne_top, EReal.coe_ne_bot, false_and, or_self, if_false]
    rw [← EReal.coe_sub]
    congr 2
    ring

/-- **C56**: for a constant reference image the difference of the `snr` values of two other images
is undefined, although `isnr` is a number. -/
theorem C56_isnr_constant (t : ℂ) (d s : ι → ℂ) (hd : d ≠ fun _ => t) (hs : s ≠ fun _ => t) :
    fsub (snr (fun _ => t) s) (snr (fun _ => t) d) = none ∧ isnr (fun _ => t) d s ≠ none := by
  have hv : var (fun _ : ι => t) = 0 := by
    unfold var mean
    have : (Fintype.card ι : ℂ) ≠ 0 := by exact_mod_cast Fintype.card_ne_zero
    simp [this]
  have h1 : 0 < mse (fun _ => t) d := lt_of_le_of_ne (C56_zero_iff_equal _ _).2.1
    fun h => hd ((C56_zero_iff_equal _ _).2.2.1 h.symm).symm
  have h2 : 0 < mse (fun _ => t) s := lt_of_le_of_ne (C56_zero_iff_equal _ _).2.1
    fun h => hs ((C56_zero_iff_equal _ _).2.2.1 h.symm).symm
  unfold snr isnr
  rw [hv, dB_zero_fdiv h1, dB_zero_fdiv h2, dB_fdiv_pos h1 h2]
  simp [fsub]

/-- **C56.** A smaller mean squared error gives a larger `psnr`. -/
theorem C56_psnr_antitone (r c d : ι → ℂ) (rng : ℝ) (hr : rng ≠ 0) (h : mse r c < mse r d)
    (h0 : 0 < mse r c) :
    ∃ a b : ℝ, psnrRng r c rng = some (a : EReal) ∧ psnrRng r d rng = some (b : EReal) ∧ b < a := by
  have hp : 0 < rng ^ 2 := by positivity
  refine ⟨_, _, dB_fdiv_pos hp h0, dB_fdiv_pos hp (h0.trans h), ?_⟩
  have := Real.logb_lt_logb (b := 10) (by norm_num) h0 h
  linarith

/-- **C56.** `bsnr` is invariant under a common scaling and the addition of constants. -/
theorem C56_bsnr_invariant (k s t : ℂ) (hk : k ≠ 0) (b n : ι → ℂ) :
    bsnr (fun i => k * b i + s) (fun i => k * n i + t) = bsnr b n := by
  have h1 : ∀ (f : ι → ℂ) (u : ℂ), var (fun i => k * f i + u) = ‖k‖ ^ 2 * var f := by
    intro f u
    rw [← var_smul]
    unfold var
    congr 1
    funext i
    rw [sum_add_distrib, sum_const, card_univ, nsmul_eq_mul, add_div]
    have : (Fintype.card ι : ℂ) ≠ 0 := by exact_mod_cast Fintype.card_ne_zero
    rw [mul_div_cancel_left₀ _ this]
    congr 2
    ring
  unfold bsnr
  have h2 : (fun i => k * n i + t - (k * b i + s)) = fun i => k * (n i - b i) + (t - s) := by
    funext i; ring
  rw [h2, h1, h1, fdiv_smul (by simpa using hk)]

omit [Nonempty ι] in
/-- **C56.** `pamse` is zero for identical images, for every filter, without rescaling and for
every image whose maximum is not zero. -/
theorem C56_pamse_identical_partial [Nonempty ι] (G : (ι → ℝ) →ₗ[ℝ] (ι → ℝ)) (rescale : Bool)
    (r : ι → ℝ) (h : rescale = true → univ.sup' univ_nonempty r ≠ 0) :
    pamse G rescale r r = some 0 := by
  have key : ∀ s : ℝ, (mean fun i => (G (fun j => s * (r j - r j)) i) ^ 2) = 0 := by
    intro s
    have : (fun j => s * (r j - r j)) = (0 : ι → ℝ) := by funext j; simp
    rw [this, map_zero]
    simp [mean]
  unfold pamse
  cases rescale
  · simp only [Bool.false_eq_true, if_false, key]
  · simp only [if_true, scale255]
    rw [if_neg (h rfl)]
    simp only [key]

/-- **C56.** `gmsd` is zero for identical images under the same condition, and its map is 1
everywhere. -/
theorem C56_gmsd_identical_partial {κ : Type} [Fintype κ] (dx dy : (ι → ℝ) → κ → ℝ) (rescale : Bool)
    (r : ι → ℝ) (h : rescale = true → univ.sup' univ_nonempty r ≠ 0) :
    gmsd dx dy rescale r r = some (0, fun _ => 1) := by
  have hq : ∀ g : κ → ℝ, qualityMap g g = fun _ => 1 := by
    intro g; funext i
    unfold qualityMap
    rw [div_eq_one_iff_eq (by positivity)]; ring
  have hs : std (fun _ : κ => (1 : ℝ)) = 0 := by
    unfold std
    have hm : ∀ i : κ, (1 - mean fun _ : κ => (1 : ℝ)) = 0 := by
      intro i
      have : (Fintype.card κ : ℝ) ≠ 0 := by
        have : Nonempty κ := ⟨i⟩
        exact_mod_cast Fintype.card_ne_zero
      simp [mean, this]
    have : (mean fun i : κ => ((1 : ℝ) - mean fun _ : κ => (1 : ℝ)) ^ 2) = 0 := by
      unfold mean
      rw [sum_eq_zero, zero_div]
      intro i _
      have := hm i
      unfold mean at this
      rw [this]; ring
    rw [this, Real.sqrt_zero]
  unfold gmsd
  cases rescale
  · simp [hq, hs]
  · simp only [if_true, scale255]
    rw [if_neg (h rfl)]
    simp only [hq, hs]

/-- **C56.** The values of the quality map of `gmsd` are in `(0, 1]` for every pair of gradient
maps (which are non-negative). -/
theorem C56_quality_map {κ : Type} (g1 g2 : κ → ℝ) (h1 : ∀ i, 0 ≤ g1 i) (h2 : ∀ i, 0 ≤ g2 i) (i : κ) :
    0 < qualityMap g1 g2 i ∧ qualityMap g1 g2 i ≤ 1 := by
  unfold qualityMap
  have a := h1 i
  have b := h2 i
  constructor
  · positivity
  · rw [div_le_one (by positivity)]; nlinarith [sq_nonneg (g1 i - g2 i)]

/-- **C56**, missing above: with the default rescaling, an image whose maximum is 0, such as the
zero image, does not give zero when compared to itself. -/
theorem C56_zero_image_refuted (G : (ι → ℝ) →ₗ[ℝ] (ι → ℝ)) {κ : Type} [Fintype κ]
    (dx dy : (ι → ℝ) → κ → ℝ) :
    pamse G true (fun _ => 0) (fun _ => 0) = none ∧ gmsd dx dy true (fun _ => 0) (fun _ => 0) = none := by
  have : univ.sup' univ_nonempty (fun _ : ι => (0 : ℝ)) = 0 := by
    rw [sup'_const]
  simp [pamse, gmsd, scale255, this]

/-- A non-constant image, so that the hypotheses hold. -/
example : ¬ ∃ t : ℂ, ∀ i : Fin 2, (![0, 1] : Fin 2 → ℂ) i = t := by
  rintro ⟨t, h⟩
  have h0 := h 0
  have h1 := h 1
  simp at h0 h1
  rw [← h0] at h1
  exact one_ne_zero h1

end Sporco.Metric
