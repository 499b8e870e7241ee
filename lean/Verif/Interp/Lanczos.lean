import Verif.Interp.LanczosModel
import Mathlib.Analysis.Convex.SpecificFunctions.Deriv
import Mathlib.Analysis.SpecialFunctions.Trigonometric.Sinc
import Mathlib.Algebra.BigOperators.Field
import Mathlib.Tactic.Linarith
import Mathlib.Tactic.Positivity
import Mathlib.Tactic.FieldSimp
import Mathlib.Tactic.NormNum

/-!
# Lanczos interpolation filters (C74)
-/

set_option autoImplicit false

namespace Sporco.Interp

open Finset Real

/-! ## Specification -/

/-- The Lanczos kernel `sinc(x) sinc(x/a)` for `|x| < a`, zero elsewhere, with `sinc` the normalised one. -/
noncomputable def lanczos (a : ℕ) (x : ℝ) : ℝ := open Classical in
  if |x| < a then Real.sinc (π * x) * Real.sinc (π * (x / a)) else 0

/-! ## The kernel -/

theorem npSinc_eq (x : ℝ) : npSinc x = Real.sinc (π * x) := by
  unfold npSinc
  by_cases h : x = 0
  · rw [if_pos h, h, mul_zero, Real.sinc_zero]
  · rw [if_neg h, Real.sinc_of_ne_zero (mul_ne_zero pi_ne_zero h)]

/-- **C74.** `lanczos_kernel` is the documented function. -/
theorem C74_kernel (a : ℕ) (x : ℝ) : lanczosKernel x a = lanczos a x := by
  unfold lanczosKernel lanczos
  have h : (x > -a ∧ x < a) ↔ |x| < (a : ℝ) := by rw [abs_lt]
  by_cases hx : |x| < (a : ℝ)
  · rw [if_pos (h.2 hx), if_pos hx, one_mul, npSinc_eq, npSinc_eq]
  · rw [if_neg (fun k => hx (h.1 k)), if_neg hx, zero_mul, zero_mul]

theorem lanczos_neg (a : ℕ) (x : ℝ) : lanczos a (-x) = lanczos a x := by
  unfold lanczos
  rw [abs_neg, mul_neg, Real.sinc_neg, neg_div, mul_neg, Real.sinc_neg]

theorem lanczos_zero {a : ℕ} (ha : 0 < a) : lanczos a 0 = 1 := by
  unfold lanczos
  rw [if_pos (by rw [abs_zero]; exact_mod_cast ha)]
  simp

theorem lanczos_int {a : ℕ} (k : ℤ) (hk : k ≠ 0) : lanczos a k = 0 := by
  unfold lanczos
  split_ifs
  · have h0 : (k : ℝ) ≠ 0 := by exact_mod_cast hk
    rw [Real.sinc_of_ne_zero (mul_ne_zero pi_ne_zero h0), mul_comm π, Real.sin_int_mul_pi, zero_div, zero_mul]
  · rfl

theorem lanczos_ge {a : ℕ} {x : ℝ} (h : (a : ℝ) ≤ x) : lanczos a x = 0 := by
  unfold lanczos
  rw [if_neg (by rw [not_lt]; exact h.trans (le_abs_self x))]

/-! ## The normalisation -/

theorem sin_div_sq_anti {s t : ℝ} (hs : 0 < s) (hst : s < t) (ht : t < π) : sin t / t ^ 2 < sin s / s ^ 2 := by
  have ht0 : 0 < t := hs.trans hst
  have m0 : (0 : ℝ) ∈ Set.Icc 0 π := ⟨le_rfl, pi_pos.le⟩
  have mt : t ∈ Set.Icc 0 π := ⟨ht0.le, ht.le⟩
  have c1 : 0 ≤ 1 - s / t := by rw [sub_nonneg, div_le_one ht0]; exact hst.le
  have c2 : 0 ≤ s / t := by positivity
  have h1 := strictConcaveOn_sin_Icc.concaveOn.2 m0 mt c1 c2 (by ring)
  simp only [smul_eq_mul, mul_zero, zero_add, sin_zero] at h1
  rw [div_mul_cancel₀ _ ht0.ne'] at h1
  have h2 : 0 < sin t := sin_pos_of_pos_of_lt_pi ht0 ht
  have h3 : s * sin t ≤ sin s * t := by
    rw [div_mul_eq_mul_div, div_le_iff₀ ht0] at h1
    exact h1
  rw [div_lt_div_iff₀ (by positivity) (by positivity)]
  have h4 : 0 < s * sin t := by positivity
  nlinarith

theorem alternating_pos (u : ℕ → ℝ) : ∀ n, 0 < n → (∀ i < n, 0 < u i) → (∀ i, i + 1 < n → u (i + 1) < u i) →
    0 < ∑ i ∈ range n, (-1) ^ i * u i := by
  intro n
  induction n using Nat.strong_induction_on generalizing u with
  | _ n ih =>
    intro hn hp hd
    match n, hn, ih, hp, hd with
    | 1, _, _, hp, _ => simpa using hp 0 one_pos
    | m + 2, _, ih, hp, hd =>
      have e : ∑ i ∈ range (m + 2), (-1) ^ i * u i = (u 0 - u 1) + ∑ i ∈ range m, (-1) ^ i * u (i + 2) := by
        rw [sum_range_succ', sum_range_succ']
        have : ∑ i ∈ range m, (-1 : ℝ) ^ (i + 1 + 1) * u (i + 1 + 1) = ∑ i ∈ range m, (-1) ^ i * u (i + 2) :=
          sum_congr rfl fun i _ => by rw [pow_succ, pow_succ]; ring_nf
        rw [this]
        norm_num
        ring
      rw [e]
      have h1 := hd 0 (by omega)
      rcases Nat.eq_zero_or_pos m with hm | hm
      · subst hm
        simp only [range_zero, sum_empty, add_zero]
        linarith
      · have h2 := ih m (by omega) (fun i => u (i + 2)) hm (fun i hi => hp _ (by omega)) fun i hi => hd (i + 2) (by omega)
        linarith

/-- The sum of the kernel over the points `y, y+1, …, y+a-1`. -/
theorem half_sum_pos {a : ℕ} (ha : 0 < a) {y : ℝ} (h0 : 0 < y) (h1 : y < 1) : 0 < ∑ i ∈ range a, lanczos a (i + y) := by
  have ha' : (0 : ℝ) < a := by exact_mod_cast ha
  have hsin : 0 < sin (π * y) := sin_pos_of_pos_of_lt_pi (by positivity) (by nlinarith [pi_pos])
  have e : ∀ i ∈ range a, lanczos a (i + y) =
      (sin (π * y) * (π / a) ^ 2 * (a / π ^ 2)) *
        ((-1) ^ i * (sin (π * ((i + y) / a)) / (π * ((i + y) / a)) ^ 2)) := by
    intro i hi
    have hi' : ((i : ℝ) + 1) ≤ a := by exact_mod_cast mem_range.1 hi
    have hpos : (0 : ℝ) < i + y := by positivity
    unfold lanczos
    rw [if_pos (by rw [abs_of_pos hpos]; linarith), Real.sinc_of_ne_zero (by positivity),
      Real.sinc_of_ne_zero (by positivity)]
    have hs : sin (π * (i + y)) = (-1) ^ i * sin (π * y) := by
      rw [mul_add, add_comm, mul_comm π (i : ℝ), Real.sin_add_nat_mul_pi]
    rw [hs]
    have hpi := pi_pos
    field_simp
  rw [sum_congr rfl e, ← mul_sum]
  have hpi := pi_pos
  refine mul_pos (by positivity) (alternating_pos (fun i => sin (π * ((i + y) / a)) / (π * ((i + y) / a)) ^ 2) a ha
    (fun i hi => ?_) fun i hi => ?_)
  · have hi' : ((i : ℝ) + 1) ≤ a := by exact_mod_cast hi
    have : (0 : ℝ) < (i + y) / a := by positivity
    have h2 : ((i : ℝ) + y) / a < 1 := by rw [div_lt_one ha']; linarith
    refine div_pos (sin_pos_of_pos_of_lt_pi (by positivity) (by nlinarith)) (by positivity)
  · have hi' : (((i + 1 : ℕ) : ℝ) + 1) ≤ a := by exact_mod_cast hi
    refine sin_div_sq_anti (by positivity) ?_ ?_
    · refine mul_lt_mul_of_pos_left ?_ hpi
      rw [div_lt_div_iff_of_pos_right ha']
      push_cast
      linarith
    · have h2 : (((i + 1 : ℕ) : ℝ) + y) / a < 1 := by rw [div_lt_one ha']; linarith
      nlinarith

/-- The sum over all entries of the filter. -/
theorem total_sum (a : ℕ) (x : ℝ) (hx : 0 ≤ x) : ∑ j : Fin (2 * a + 1), lanczos a (((j : ℕ) : ℝ) - a + x) =
    ∑ i ∈ range a, lanczos a (i + x) + ∑ i ∈ range a, lanczos a (i + (1 - x)) := by
  rw [Fin.sum_univ_eq_sum_range (fun j => lanczos a ((j : ℝ) - a + x)), show 2 * a + 1 = a + (a + 1) by ring,
    sum_range_add, sum_range_succ (fun i => lanczos a (((a + i : ℕ) : ℝ) - a + x))]
  have e1 : lanczos a (((a + a : ℕ) : ℝ) - a + x) = 0 := lanczos_ge (by push_cast; linarith)
  have e2 : ∑ i ∈ range a, lanczos a (((a + i : ℕ) : ℝ) - a + x) = ∑ i ∈ range a, lanczos a (i + x) :=
    sum_congr rfl fun i _ => by congr 1; push_cast; ring
  have e3 : ∑ i ∈ range a, lanczos a ((i : ℝ) - a + x) = ∑ i ∈ range a, lanczos a (i + (1 - x)) := by
    rw [← sum_range_reflect]
    refine sum_congr rfl fun i hi => ?_
    rw [← lanczos_neg]
    congr 1
    have := mem_range.1 hi
    rw [Nat.sub_sub, Nat.cast_sub (by omega)]
    push_cast
    ring
  rw [e1, e2, e3]
  ring

theorem sum_neg (a : ℕ) (x : ℝ) : ∑ j : Fin (2 * a + 1), lanczos a (((j : ℕ) : ℝ) - a + -x) =
    ∑ j : Fin (2 * a + 1), lanczos a (((j : ℕ) : ℝ) - a + x) := by
  rw [← Equiv.sum_comp Fin.revPerm]
  refine sum_congr rfl fun j _ => ?_
  rw [← lanczos_neg]
  congr 1
  have h : ((Fin.revPerm j : Fin (2 * a + 1)) : ℕ) = 2 * a - j := by
    rw [Fin.revPerm_apply, Fin.val_rev]; omega
  rw [h, Nat.cast_sub (by have := j.2; omega)]
  push_cast
  ring

theorem sum_pos_of_mem {a : ℕ} (ha : 0 < a) {x : ℝ} (h0 : 0 ≤ x) (h1 : x ≤ 1) :
    0 < ∑ j : Fin (2 * a + 1), lanczos a (((j : ℕ) : ℝ) - a + x) := by
  rw [total_sum a x h0]
  have key : ∀ y : ℝ, 0 ≤ y → y ≤ 1 → (y = 0 → ∑ i ∈ range a, lanczos a (i + y) = 1) ∧
      (y = 1 → ∑ i ∈ range a, lanczos a (i + y) = 0) := by
    intro y _ _
    refine ⟨?_, ?_⟩ <;> rintro rfl
    · obtain ⟨b, rfl⟩ := Nat.exists_eq_add_of_lt ha
      rw [show 0 + b + 1 = b + 1 by omega, sum_range_succ']
      have : ∑ i ∈ range b, lanczos (b + 1) (((i + 1 : ℕ) : ℝ) + 0) = 0 := sum_eq_zero fun i _ => by
        rw [add_zero]; exact_mod_cast lanczos_int (a := b + 1) ((i + 1 : ℕ) : ℤ) (by omega)
      rw [this, zero_add, Nat.cast_zero, add_zero, lanczos_zero (by omega)]
    · refine sum_eq_zero fun i _ => ?_
      have := lanczos_int (a := a) ((i + 1 : ℕ) : ℤ) (by omega)
      push_cast at this
      exact this
  rcases h0.eq_or_lt with h | h
  · subst h
    rw [(key 0 le_rfl zero_le_one).1 rfl, (key (1 - 0) (by norm_num) (by norm_num)).2 (by norm_num)]
    norm_num
  rcases h1.eq_or_lt with h' | h'
  · subst h'
    rw [(key 1 zero_le_one le_rfl).2 rfl, (key (1 - 1) (by norm_num) (by norm_num)).1 (by norm_num)]
    norm_num
  · exact add_pos (half_sum_pos ha h h') (half_sum_pos ha (by linarith) (by linarith))

/-- **C74.** For every kernel size and every resampling point in [-1, 1] the divisor of the normalisation is positive. -/
theorem C74_divisor {a : ℕ} (ha : 0 < a) {x : ℝ} (hx : |x| ≤ 1) :
    0 < ∑ j : Fin (2 * a + 1), lanczosKernel (((j : ℕ) : ℝ) - a + x) a := by
  simp only [C74_kernel]
  rcases abs_le.1 hx with ⟨h1, h2⟩
  rcases le_total 0 x with h | h
  · exact sum_pos_of_mem ha h h2
  · rw [← sum_neg a x]
    exact sum_pos_of_mem ha (by linarith) (by linarith)

/-- **C74.** The entries of a filter add up to one, so resampling a constant signal gives the same constant. -/
theorem C74_filter_sum {a : ℕ} (ha : 0 < a) {x : ℝ} (hx : |x| ≤ 1) : ∑ k, hn a x k = 1 := by
  unfold hn
  rw [← Finset.sum_div]
  exact div_self (C74_divisor ha hx).ne'

/-- **C74.** The filter for the resampling point `-x` is the mirror image of that for `x`. -/
theorem C74_filter_mirror (a : ℕ) (x : ℝ) (k : Fin (2 * a + 1)) : hn a (-x) k = hn a x k.rev := by
  unfold hn
  simp only [C74_kernel]
  rw [sum_neg, ← lanczos_neg]
  congr 2
  rw [Fin.val_rev, Nat.cast_sub (by have := k.2; omega)]
  push_cast
  ring

/-- **C74.** At the resampling points 0, 1 and -1, which are sampling points, the filter has a single non-zero entry,
which is one: resampling returns the sample. -/
theorem C74_filter_sample {a : ℕ} (ha : 0 < a) (x : ℤ) (hx : |(x : ℝ)| ≤ 1) (k : Fin (2 * a + 1)) :
    hn a x k = if (k : ℤ) = a - x then 1 else 0 := by
  have hker : ∀ j : Fin (2 * a + 1), lanczosKernel (((j : ℕ) : ℝ) - a + x) a = if (j : ℤ) = a - x then 1 else 0 := by
    intro j
    rw [C74_kernel]
    have e : (((j : ℕ) : ℝ) - a + x) = (((j : ℕ) : ℤ) - a + x : ℤ) := by push_cast; ring
    rw [e]
    by_cases h : ((j : ℕ) : ℤ) = a - x
    · rw [if_pos h, h, show (a : ℤ) - x - a + x = 0 by ring, Int.cast_zero, lanczos_zero ha]
    · rw [if_neg h, lanczos_int _ (by omega)]
  have h1 := C74_divisor ha hx
  have hsum : ∑ j : Fin (2 * a + 1), lanczosKernel (((j : ℕ) : ℝ) - a + x) a = 1 := by
    have hx' : |x| ≤ 1 := by exact_mod_cast hx
    obtain ⟨hl, hr⟩ := abs_le.1 hx'
    have hlt : (a - x).toNat < 2 * a + 1 := by omega
    rw [sum_eq_single ⟨(a - x).toNat, hlt⟩, hker, if_pos (by simp only; omega)]
    · intro j _ hj
      rw [hker, if_neg]
      intro h
      exact hj (Fin.ext (by simp only; omega))
    · intro h; exact absurd (mem_univ _) h
  unfold hn
  rw [hsum, div_one, hker]

/-! ## Points -/

theorem mem_arange {lo hi k : ℤ} : k ∈ arange lo hi ↔ lo ≤ k ∧ k < hi := by
  unfold arange
  simp only [List.mem_map, List.mem_range]
  constructor
  · rintro ⟨i, hi, rfl⟩; omega
  · rintro ⟨h1, h2⟩; exact ⟨(k - lo).toNat, by omega, by omega⟩

theorem arange_length (lo hi : ℤ) : (arange lo hi).length = (hi - lo).toNat := by simp [arange]

theorem arange_getElem (lo hi : ℤ) (i : ℕ) (h : i < (arange lo hi).length) : (arange lo hi)[i] = lo + i := by
  simp [arange]

theorem arange_split {lo mid hi : ℤ} (h1 : lo ≤ mid) (h2 : mid ≤ hi) : arange lo hi = arange lo mid ++ arange mid hi := by
  refine List.ext_getElem (by simp only [arange_length, List.length_append]; omega) fun i a b => ?_
  rw [arange_getElem, List.getElem_append]
  split_ifs with h
  · rw [arange_getElem]
  · rw [arange_getElem]
    rw [arange_length] at h ⊢
    omega

/-- **C74.** `interpolation_points(N)` returns `N` points with spacing `1/N`, all in (-1/2, 1/2], one of them zero. -/
theorem C74_points {N : ℤ} (hN : 0 < N) :
    let l := interpolationPoints N true
    (l.length : ℤ) = N ∧ (∀ t ∈ l, -(1 / 2) < t ∧ t ≤ 1 / 2) ∧ 0 ∈ l ∧
      ∀ i (h : i + 1 < l.length), l[i + 1] - l[i] = 1 / N := by
  intro l
  have hN' : (0 : ℝ) < N := by exact_mod_cast hN
  have hl : l = (arange (-((N - 1) / 2)) (N / 2 + 1)).map fun k : ℤ => (k : ℝ) / N := rfl
  refine ⟨?_, fun t ht => ?_, ?_, fun i h => ?_⟩
  · rw [hl, List.length_map, arange_length]; omega
  · rw [hl, List.mem_map] at ht
    obtain ⟨k, hk, rfl⟩ := ht
    rw [mem_arange] at hk
    have h1 : -N < 2 * k := by omega
    have h2 : 2 * k ≤ N := by omega
    have h1' : -(N : ℝ) < 2 * k := by exact_mod_cast h1
    have h2' : 2 * (k : ℝ) ≤ N := by exact_mod_cast h2
    rw [lt_div_iff₀ hN', div_le_iff₀ hN']
    constructor <;> linarith
  · rw [hl, List.mem_map]
    exact ⟨0, mem_arange.2 (by omega), by simp⟩
  · simp only [hl, List.getElem_map, arange_getElem]
    push_cast
    field_simp
    ring

/-- **C74.** Without zero, the points are those of `N + 1` points with zero removed. -/
theorem C74_points_nozero {N : ℤ} (hN : 0 ≤ N) :
    (interpolationPoints N false).length = N ∧
      interpolationPoints N false = (interpolationPoints (N + 1) true).filter fun t => decide (t ≠ 0) := by
  have hN' : (0 : ℝ) < (N : ℝ) + 1 := by exact_mod_cast (by omega : 0 < N + 1)
  have e1 : interpolationPoints N false = (arange (-(N / 2)) 0 ++ arange 1 ((N + 1) / 2 + 1)).map
    fun k : ℤ => (k : ℝ) / (N + 1) := rfl
  have e2 : interpolationPoints (N + 1) true = (arange (-((N + 1 - 1) / 2)) ((N + 1) / 2 + 1)).map
    fun k : ℤ => (k : ℝ) / (N + 1 : ℤ) := rfl
  have e3 : arange (-((N + 1 - 1) / 2)) ((N + 1) / 2 + 1) = arange (-(N / 2)) 0 ++ (0 :: arange 1 ((N + 1) / 2 + 1)) := by
    rw [show N + 1 - 1 = N by ring, arange_split (mid := 0) (by omega) (by omega), arange_split (lo := 0) (mid := 1)
      (by omega) (by omega)]
    rfl
  have hne : ∀ k : ℤ, k ≠ 0 → decide ((k : ℝ) / (N + 1) ≠ 0) = true := fun k hk =>
    decide_eq_true (div_ne_zero (by exact_mod_cast hk) hN'.ne')
  refine ⟨?_, ?_⟩
  · rw [e1, List.length_map, List.length_append, arange_length, arange_length]
    omega
  · rw [e1, e2, e3]
    push_cast
    rw [List.map_append, List.map_append, List.filter_append, List.map_cons, List.filter_cons]
    rw [List.filter_eq_self.2, List.filter_eq_self.2]
    · simp
    · intro t ht
      obtain ⟨k, hk, rfl⟩ := List.mem_map.1 ht
      exact hne k (by have := mem_arange.1 hk; omega)
    · intro t ht
      obtain ⟨k, hk, rfl⟩ := List.mem_map.1 ht
      exact hne k (by have := mem_arange.1 hk; omega)

/-! ## Multi-dimensional filters -/

theorem hprod_eq {d : ℕ} (a : ℕ) (x : Fin d → List ℝ) (k : Fin d → Fin (2 * a + 1)) (m : ∀ i, Fin (x i).length) :
    hprod a x k m = ∏ i, hn a ((x i).get (m i)) (k i) := by
  have key : ∀ (l : List (Fin d)) (c : ℝ), l.foldl (fun h i => h * hn a ((x i).get (m i)) (k i)) c =
      c * (l.map fun i => hn a ((x i).get (m i)) (k i)).prod := by
    intro l
    induction l with
    | nil => intro c; simp
    | cons i l ih => intro c; rw [List.foldl_cons, ih, List.map_cons, List.prod_cons, mul_assoc]
  unfold hprod
  rw [key, one_mul, Fin.prod_univ_def]

theorem points_mem {e : Entry} {x : List ℝ} (h : points e = some x) : ∀ t ∈ x, |t| ≤ 1 := by
  intro t ht
  cases e with
  | int N =>
    have hx : interpolationPoints N true = x := Option.some.inj h
    subst hx
    by_cases hN : 0 < N
    · obtain ⟨h1, h2⟩ := (C74_points hN).2.1 t ht
      exact abs_le.2 ⟨by linarith, by linarith⟩
    · exfalso
      have : interpolationPoints N true = (arange (-((N - 1) / 2)) (N / 2 + 1)).map fun k : ℤ => (k : ℝ) / N := rfl
      rw [this, List.mem_map] at ht
      obtain ⟨k, hk, -⟩ := ht
      have := mem_arange.1 hk
      omega
  | arr y =>
    simp only [points] at h
    by_cases h1 : y = []
    · rw [if_pos h1] at h; cases h
    · rw [if_neg h1] at h
      by_cases h2 : (∃ t ∈ y, t < -1) ∨ ∃ t ∈ y, 1 < t
      · rw [if_pos h2] at h; cases h
      · rw [if_neg h2] at h
        cases h
        push Not at h2
        exact abs_le.2 ⟨h2.1 t ht, h2.2 t ht⟩
  | nd => cases h

/-- **C74.** When `lanczos_filters` returns, each of its filters, of any dimension, is the product over the axes of the
normalised one-dimensional filters of the requested points, and its entries add up to one.  The call raises an exception
only if an entry of the tuple is an empty array, not one-dimensional or has a point outside [-1, 1]. -/
theorem C74_filters {d : ℕ} (sz : Fin d → Entry) {a : ℕ} (ha : 0 < a) :
    (∀ r, lanczosFilters sz a = some r →
      (∀ i, points (sz i) = some (r.1 i)) ∧ (∀ i, ∀ t ∈ r.1 i, |t| ≤ 1) ∧
      (∀ k m, r.2 k m = ∏ i, lanczos a ((k i : ℕ) - a + (r.1 i).get (m i)) /
        ∑ j : Fin (2 * a + 1), lanczos a (((j : ℕ) : ℝ) - a + (r.1 i).get (m i))) ∧
      ∀ m, ∑ k, r.2 k m = 1) ∧
    (lanczosFilters sz a = none ↔ ∃ i, sz i = .nd ∨ sz i = .arr [] ∨ ∃ x, sz i = .arr x ∧ ∃ t ∈ x, 1 < |t|) := by
  refine ⟨fun r hr => ?_, ?_⟩
  · unfold lanczosFilters at hr
    by_cases h : ∀ i, (points (sz i)).isSome
    · rw [dif_pos h] at hr
      have hr' := Option.some.inj hr
      subst hr'
      have hp : ∀ i, points (sz i) = some ((points (sz i)).get (h i)) := fun i => by simp
      refine ⟨hp, fun i => points_mem (hp i), fun k m => ?_, fun m => ?_⟩
      · simp only [hprod_eq, hn, C74_kernel]
      · simp only [hprod_eq]
        rw [← Fintype.prod_sum (fun i k => hn a (((points (sz i)).get (h i)).get (m i)) k)]
        exact prod_eq_one fun i _ => C74_filter_sum ha (points_mem (hp i) _ (List.get_mem _ _))
    · rw [dif_neg h] at hr; cases hr
  · have h1 : lanczosFilters sz a = none ↔ ∃ i, points (sz i) = none := by
      unfold lanczosFilters
      by_cases h : ∀ i, (points (sz i)).isSome
      · rw [dif_pos h]
        constructor
        · intro k; cases k
        · rintro ⟨i, hi⟩
          have := h i
          rw [hi] at this
          cases this
      · rw [dif_neg h]
        push Not at h
        obtain ⟨i, hi⟩ := h
        exact ⟨fun _ => ⟨i, by simpa using hi⟩, fun _ => rfl⟩
    rw [h1]
    refine exists_congr fun i => ?_
    cases hz : sz i with
    | int N => simp [points]
    | arr x =>
      simp only [points, reduceCtorEq, false_or, Entry.arr.injEq]
      by_cases hx : x = []
      · simp [hx]
      · rw [if_neg hx]
        by_cases h2 : (∃ t ∈ x, t < -1) ∨ ∃ t ∈ x, 1 < t
        · rw [if_pos h2]
          refine ⟨fun _ => Or.inr ⟨x, rfl, ?_⟩, fun _ => rfl⟩
          rcases h2 with ⟨t, ht, h⟩ | ⟨t, ht, h⟩
          · exact ⟨t, ht, lt_abs.2 (Or.inr (by linarith))⟩
          · exact ⟨t, ht, lt_abs.2 (Or.inl h)⟩
        · rw [if_neg h2]
          refine ⟨fun h => (by cases h), ?_⟩
          rintro (h | ⟨y, rfl, t, ht, h⟩)
          · exact absurd h hx
          · exfalso
            refine h2 ?_
            rcases lt_abs.1 h with h | h
            · exact Or.inr ⟨t, ht, h⟩
            · exact Or.inl ⟨t, ht, by linarith⟩
    | nd => simp [points]

/-- **C74, `collapse_axes`.** Each index of the collapsed axis belongs to exactly one combination of resampling points. -/
theorem C74_collapse : ∀ {d : ℕ} (s : Fin d → ℕ),
    (∀ m, collapse s m < ∏ i, s i) ∧ ∀ j < ∏ i, s i, ∃! m : ∀ i, Fin (s i), collapse s m = j := by
  intro d
  induction d with
  | zero =>
    intro s
    refine ⟨fun m => by simp [collapse], fun j hj => ⟨fun i => i.elim0, ?_, fun m _ => funext fun i => i.elim0⟩⟩
    have : j = 0 := by simpa using hj
    rw [this]; rfl
  | succ d ih =>
    intro s
    obtain ⟨h1, h2⟩ := ih fun i => s i.succ
    rw [Fin.prod_univ_succ]
    set P := ∏ i, s (Fin.succ i) with hP
    refine ⟨fun m => ?_, fun j hj => ?_⟩
    · have a1 := h1 fun i => m i.succ
      have a2 := (m 0).2
      change (m 0 : ℕ) * P + collapse _ _ < s 0 * P
      calc (m 0 : ℕ) * P + collapse (fun i => s i.succ) (fun i => m i.succ) < (m 0 : ℕ) * P + P := by omega
        _ = ((m 0 : ℕ) + 1) * P := by ring
        _ ≤ s 0 * P := Nat.mul_le_mul_right _ a2
    · have hP0 : 0 < P := Nat.pos_of_ne_zero fun h => by rw [h, mul_zero] at hj; omega
      obtain ⟨m', hm', hu⟩ := h2 (j % P) (Nat.mod_lt _ hP0)
      have hq : j / P < s 0 := by rw [Nat.div_lt_iff_lt_mul hP0]; exact hj
      refine ⟨Fin.cons ⟨j / P, hq⟩ m', ?_, fun m hm => ?_⟩
      · change (j / P) * P + collapse (fun i => s i.succ) (fun i => m' i) = j
        rw [hm', mul_comm, Nat.div_add_mod]
      · have a1 := h1 fun i => m i.succ
        have hm0 : (m 0 : ℕ) * P + collapse (fun i => s i.succ) (fun i => m i.succ) = j := hm
        have b1 : (m 0 : ℕ) = j / P := by
          rw [← hm0, mul_comm, Nat.mul_add_div hP0, Nat.div_eq_of_lt a1, add_zero]
        have b2 : collapse (fun i => s i.succ) (fun i => m i.succ) = j % P := by
          rw [← hm0, mul_comm, Nat.mul_add_mod, Nat.mod_eq_of_lt a1]
        have b3 := hu _ b2
        funext i
        refine Fin.cases ?_ (fun i => ?_) i
        · exact Fin.ext b1
        · exact congrFun b3 i

/-! ## Concrete cases -/

example : ∑ k, hn 3 (1 / 2) k = 1 := C74_filter_sum (by norm_num) (by rw [abs_of_pos] <;> norm_num)

example (k : Fin 7) : hn 3 (0 : ℤ) k = if (k : ℤ) = 3 then 1 else 0 := by
  have := C74_filter_sample (a := 3) (by norm_num) 0 (by norm_num) k
  rw [this]
  norm_num

/-- Two axes with two equispaced points and three given points. -/
example : ∃ r, lanczosFilters (d := 2) ![.int 2, .arr [-1, 0, 1 / 2]] 3 = some r := by
  refine Option.ne_none_iff_exists'.1 fun h => ?_
  obtain ⟨i, hi⟩ := (C74_filters _ (by norm_num)).2.1 h
  fin_cases i
  · simp at hi
  · simp only [Fin.mk_one, Matrix.cons_val_one, Matrix.cons_val_fin_one, reduceCtorEq, Entry.arr.injEq,
      List.cons_ne_nil, false_or, exists_eq_left'] at hi
    obtain ⟨t, ht, h1⟩ := hi
    simp only [List.mem_cons, List.not_mem_nil, or_false] at ht
    rcases ht with rfl | rfl | rfl
    · norm_num at h1
    · norm_num at h1
    · rw [abs_of_pos (by norm_num)] at h1; norm_num at h1

end Sporco.Interp
