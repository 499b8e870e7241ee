import Mathlib.MeasureTheory.Measure.Lebesgue.Basic
import Mathlib.Tactic.Linarith
import Mathlib.Tactic.NormNum
import Mathlib.Tactic.Positivity

/-!
# Salt and pepper noise, random masks, conversion to grey (C78)

Model of `spnoise`, `rndmask` and `rgb2gray` (`sporco/signal.py` 42-111), entry by entry. A draw of
`np.random.uniform(-1, 1)` is a number `u` with `-1 ≤ u < 1`; its distribution is uniform, so that
the probability of an event is half its length. Simplification: exact arithmetic (the `float`
types); the integer and boolean types are modelled by their casts.
-/

set_option autoImplicit false

namespace Sporco.Signal.Noise

open MeasureTheory Set

/-! ## Model -/

/-- `spnoise` (`signal.py` 62-66) for a pixel `s` and its draw `u`: two masked assignments. -/
noncomputable def spnoise (frc smn smx s u : ℝ) : ℝ :=
  let sn := if u < frc - 1 then smn else s
  if u > 1 - frc then smx else sn

/-- The kinds of data type. -/
inductive Dtype
  | float | int | bool

/-- Conversion to a data type: integer types truncate towards zero, the boolean type tests for
nonzero. -/
noncomputable def Dtype.cast : Dtype → ℝ → ℝ
  | .float, x => x
  | .int, x => if 0 ≤ x then (⌊x⌋ : ℝ) else (⌈x⌉ : ℝ)
  | .bool, x => if x = 0 then 0 else 1

/-- `rndmask` (`signal.py` 88-91) for an entry with draw `u`. -/
noncomputable def rndmask (t : Dtype) (frc u : ℝ) : ℝ :=
  let msk := t.cast u
  let msk := if |msk| > frc then t.cast 1 else msk
  if |msk| < frc then t.cast 0 else msk

/-- `rgb2gray` (`signal.py` 109-111) for a pixel: the weights are converted to the type of the
image. -/
noncomputable def rgb2gray (t : Dtype) (rgb : Fin 3 → ℝ) : ℝ :=
  ∑ c, t.cast (![0.299, 0.587, 0.114] c) * rgb c

/-! ## Proofs -/

/-- **C78, salt and pepper noise.** For a fraction `frc` between 0 and 1, whatever is drawn, a pixel
becomes `smn`, becomes `smx` or keeps its value. If these three values are different, it becomes
`smn` with probability `frc/2`, `smx` with probability `frc/2`, and keeps its value with probability
`1 - frc`. -/
theorem C78_spnoise (frc smn smx s : ℝ) (h0 : 0 ≤ frc) (h1 : frc ≤ 1) :
    (∀ u, spnoise frc smn smx s u = smn ∨ spnoise frc smn smx s u = smx ∨
      spnoise frc smn smx s u = s) ∧
    (smn ≠ smx → s ≠ smn → s ≠ smx →
      volume {u ∈ Ico (-1 : ℝ) 1 | spnoise frc smn smx s u = smn} / 2 = ENNReal.ofReal (frc / 2) ∧
      volume {u ∈ Ico (-1 : ℝ) 1 | spnoise frc smn smx s u = smx} / 2 = ENNReal.ofReal (frc / 2) ∧
      volume {u ∈ Ico (-1 : ℝ) 1 | spnoise frc smn smx s u = s} / 2 = ENNReal.ofReal (1 - frc)) := by
  have half : ∀ x : ℝ, ENNReal.ofReal x / 2 = ENNReal.ofReal (x / 2) := by
    intro x
    rw [ENNReal.ofReal_div_of_pos two_pos, ENNReal.ofReal_ofNat]
  constructor
  · intro u
    simp only [spnoise]
    split_ifs
    · exact .inr (.inl rfl)
    · exact .inl rfl
    · exact .inr (.inr rfl)
  · intro hne hs1 hs2
    have e1 : {u ∈ Ico (-1 : ℝ) 1 | spnoise frc smn smx s u = smn} = Ico (-1) (frc - 1) := by
      ext u
      simp only [spnoise, mem_ofPred_eq, mem_Ico]
      constructor
      · rintro ⟨⟨a, b⟩, h⟩
        split_ifs at h with c1 c2
        · exact absurd h.symm hne
        · exact ⟨a, c2⟩
        · exact absurd h hs1
      · rintro ⟨a, b⟩
        refine ⟨⟨a, by linarith⟩, ?_⟩
        rw [if_neg (by linarith), if_pos b]
    have e2 : {u ∈ Ico (-1 : ℝ) 1 | spnoise frc smn smx s u = smx} = Ioo (1 - frc) 1 := by
      ext u
      simp only [spnoise, mem_ofPred_eq, mem_Ico, mem_Ioo]
      constructor
      · rintro ⟨⟨a, b⟩, h⟩
        split_ifs at h with c1 c2
        · exact ⟨c1, b⟩
        · exact absurd h hne
        · exact absurd h hs2
      · rintro ⟨a, b⟩
        exact ⟨⟨by linarith, b⟩, by rw [if_pos a]⟩
    have e3 : {u ∈ Ico (-1 : ℝ) 1 | spnoise frc smn smx s u = s} =
        Icc (frc - 1) (1 - frc) ∩ Ico (-1) 1 := by
      ext u
      simp only [spnoise, mem_ofPred_eq, mem_Ico, mem_inter_iff, mem_Icc]
      constructor
      · rintro ⟨⟨a, b⟩, h⟩
        split_ifs at h with c1 c2
        · exact absurd h.symm hs2
        · exact absurd h.symm hs1
        · exact ⟨⟨not_lt.1 c2, not_lt.1 c1⟩, a, b⟩
      · rintro ⟨⟨a, b⟩, c, d⟩
        exact ⟨⟨c, d⟩, by rw [if_neg (not_lt.2 b), if_neg (not_lt.2 a)]⟩
    have v3 : volume (Icc (frc - 1) (1 - frc) ∩ Ico (-1 : ℝ) 1) = ENNReal.ofReal (2 - 2 * frc) := by
      refine le_antisymm ?_ ?_
      · refine (measure_mono inter_subset_left).trans ?_
        rw [Real.volume_Icc]
        exact le_of_eq (by congr 1; ring)
      · have : Ioo (frc - 1) (1 - frc) ⊆ Icc (frc - 1) (1 - frc) ∩ Ico (-1 : ℝ) 1 := by
          rintro u ⟨a, b⟩
          exact ⟨⟨a.le, b.le⟩, by linarith, by linarith⟩
        refine le_trans ?_ (measure_mono this)
        rw [Real.volume_Ioo]
        exact le_of_eq (by congr 1; ring)
    rw [e1, e2, e3, v3, Real.volume_Ico, Real.volume_Ioo, half, half, half]
    refine ⟨?_, ?_, ?_⟩ <;> congr 1 <;> ring

/-- **C78, random masks.** With a floating point type and a fraction `frc` between 0 and 1, an entry
is 0 if `|u| < frc` and 1 if `|u| > frc`; it is 0 with probability `frc`, and 1 with probability
`1 - frc`. Missing from the property: the draws `u = ± frc`, of probability zero, and other data
types (`C78_rndmask_refuted`). -/
theorem C78_rndmask_partial (frc : ℝ) (h0 : 0 < frc) (h1 : frc < 1) :
    (∀ u, (|u| < frc → rndmask .float frc u = 0) ∧ (frc < |u| → rndmask .float frc u = 1)) ∧
    volume {u ∈ Ico (-1 : ℝ) 1 | rndmask .float frc u = 0} / 2 = ENNReal.ofReal frc ∧
    volume {u ∈ Ico (-1 : ℝ) 1 | rndmask .float frc u = 1} / 2 = ENNReal.ofReal (1 - frc) := by
  have half : ∀ x : ℝ, ENNReal.ofReal x / 2 = ENNReal.ofReal (x / 2) := by
    intro x
    rw [ENNReal.ofReal_div_of_pos two_pos, ENNReal.ofReal_ofNat]
  have key : ∀ u, rndmask .float frc u = if |u| < frc then 0 else if frc < |u| then 1 else u := by
    intro u
    have hc : ∀ x, Dtype.float.cast x = x := fun _ => rfl
    simp only [rndmask, hc, gt_iff_lt]
    by_cases a : frc < |u|
    · have b : ¬ |u| < frc := by linarith
      have c : ¬ (1 : ℝ) < frc := by linarith
      simp only [if_pos a, abs_one, if_neg b, if_neg c]
    · by_cases b : |u| < frc
      · simp only [if_neg a, if_pos b]
      · simp only [if_neg a, if_neg b]
  refine ⟨fun u => ⟨fun h => by rw [key, if_pos h], fun h => by rw [key, if_neg (by linarith), if_pos h]⟩,
    ?_, ?_⟩
  · have e : {u ∈ Ico (-1 : ℝ) 1 | rndmask .float frc u = 0} = Ioo (-frc) frc := by
      ext u
      simp only [mem_ofPred_eq, mem_Ico, mem_Ioo, key, ← abs_lt]
      constructor
      · rintro ⟨-, h⟩
        split_ifs at h with a b
        · exact a
        · exact absurd h one_ne_zero
        · exact absurd (by rw [h, abs_zero]; exact h0) a
      · intro h
        have := abs_lt.1 h
        exact ⟨⟨by linarith, by linarith⟩, by rw [if_pos h]⟩
    rw [e, Real.volume_Ioo, half]
    congr 1; ring
  · have e : {u ∈ Ico (-1 : ℝ) 1 | rndmask .float frc u = 1} = Ico (-1) (-frc) ∪ Ioo frc 1 := by
      ext u
      simp only [mem_ofPred_eq, mem_Ico, mem_union, mem_Ioo, key]
      constructor
      · rintro ⟨⟨a, b⟩, h⟩
        split_ifs at h with c d
        · exact absurd h zero_ne_one
        · rcases lt_abs.1 d with d | d
          · exact .inr ⟨d, b⟩
          · exact .inl ⟨a, by linarith⟩
        · linarith
      · rintro (⟨a, b⟩ | ⟨a, b⟩)
        · have : frc < |u| := lt_abs.2 (.inr (by linarith))
          exact ⟨⟨a, by linarith⟩, by rw [if_neg (by linarith), if_pos this]⟩
        · have : frc < |u| := lt_abs.2 (.inl a)
          exact ⟨⟨by linarith, b⟩, by rw [if_neg (by linarith), if_pos this]⟩
    rw [e, measure_union _ measurableSet_Ioo, Real.volume_Ico, Real.volume_Ioo,
      ← ENNReal.ofReal_add (by linarith) (by linarith), half]
    · congr 1; ring
    · rw [Set.disjoint_left]
      rintro u ⟨a, b⟩ ⟨c, d⟩
      linarith

/-- **C78, refutation.** An entry drawn as `frc` itself is neither 0 nor 1. With an integer data type
every entry is 0 for every draw in the interior (if `frc > 0`), and with the boolean type every
entry with a nonzero draw is 1 (if `frc < 1`), whatever the fraction. -/
theorem C78_rndmask_refuted :
    (rndmask .float (1 / 2) (1 / 2) ≠ 0 ∧ rndmask .float (1 / 2) (1 / 2) ≠ 1) ∧
    (∀ frc u, 0 < frc → |u| < 1 → rndmask .int frc u = 0) ∧
    (∀ frc u, frc < 1 → u ≠ 0 → rndmask .bool frc u = 1) := by
  refine ⟨?_, fun frc u h0 hu => ?_, fun frc u h1 hu => ?_⟩
  · have : rndmask .float (1 / 2) (1 / 2) = 1 / 2 := by
      have hc : ∀ x, Dtype.float.cast x = x := fun _ => rfl
      simp only [rndmask, hc, abs_of_pos (by norm_num : (0 : ℝ) < 1 / 2), gt_iff_lt, lt_irrefl,
        if_false]
    rw [this]; norm_num
  · have hc : Dtype.int.cast u = 0 := by
      obtain ⟨a, b⟩ := abs_lt.1 hu
      simp only [Dtype.cast]
      split_ifs with h
      · rw [Int.floor_eq_zero_iff.2 ⟨h, b⟩, Int.cast_zero]
      · rw [Int.ceil_eq_zero_iff.2 ⟨a, (not_le.1 h).le⟩, Int.cast_zero]
    have hz : Dtype.int.cast 0 = 0 := by simp [Dtype.cast]
    simp only [rndmask, hc, hz, abs_zero, gt_iff_lt, if_neg (not_lt.2 h0.le), if_pos h0]
  · have hc : Dtype.bool.cast u = 1 := by simp [Dtype.cast, hu]
    have h1' : Dtype.bool.cast 1 = 1 := by simp [Dtype.cast]
    simp only [rndmask, hc, h1', abs_one, gt_iff_lt, if_pos h1, if_neg (not_lt.2 h1.le)]

/-- **C78, conversion to grey.** For floating point images, the value lies between the smallest and
the largest channel; in particular a grey pixel keeps its value. Missing from the property: integer
images (`C78_rgb2gray_refuted`). -/
theorem C78_rgb2gray_partial (rgb : Fin 3 → ℝ) (lo hi : ℝ) (h : ∀ c, lo ≤ rgb c ∧ rgb c ≤ hi) :
    lo ≤ rgb2gray .float rgb ∧ rgb2gray .float rgb ≤ hi := by
  have h0 := h 0
  have h1 := h 1
  have h2 := h 2
  simp only [rgb2gray, Dtype.cast, Fin.sum_univ_three, Matrix.cons_val_zero, Matrix.cons_val_one,
    Matrix.cons_val_two]
  norm_num
  constructor <;> linarith

/-- **C78, refutation.** The result for an integer image (for example an 8 bit one) is zero at every
pixel: the weights are truncated to zero. -/
theorem C78_rgb2gray_refuted (rgb : Fin 3 → ℝ) : rgb2gray .int rgb = 0 := by
  have hc : ∀ x : ℝ, 0 ≤ x → x < 1 → Dtype.int.cast x = 0 := by
    intro x a b
    simp only [Dtype.cast, if_pos a]
    rw [Int.floor_eq_zero_iff.2 ⟨a, b⟩, Int.cast_zero]
  simp only [rgb2gray, Fin.sum_univ_three, Matrix.cons_val_zero, Matrix.cons_val_one,
    Matrix.cons_val_two]
  rw [hc _ (by norm_num) (by norm_num), hc _ (by norm_num) (by norm_num),
    hc _ (by norm_num) (by norm_num)]
  ring

/-- The hypotheses are met by a pixel of value one half and the default extremes. -/
example : (0 : ℝ) ≠ 1 ∧ (1 / 2 : ℝ) ≠ 0 ∧ (1 / 2 : ℝ) ≠ 1 ∧ (0 : ℝ) ≤ 0.1 ∧ (0.1 : ℝ) ≤ 1 := by norm_num

end Sporco.Signal.Noise
