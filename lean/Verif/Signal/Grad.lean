import Mathlib.Algebra.BigOperators.Intervals
import Mathlib.Algebra.BigOperators.Fin
import Mathlib.Algebra.Star.BigOperators
import Mathlib.Data.Complex.Basic
import Mathlib.Tactic.Ring
import Mathlib.Tactic.FinCases

/-!
# Model of `signal.grad` and `signal.gradT` (`signal.py` 115-200), C29

An array is a function of the index along the axis of differentiation and of the tuple `o` of the
other indices.
-/

set_option autoImplicit false

namespace Sporco.Signal

open Finset

variable {R ι : Type}

/-- `np.roll(x, s, axis)` for the axis of length `n`; `s` is taken modulo `n`. -/
def roll {n : ℕ} (s : ℤ) (x : ι → Fin n → R) (o : ι) (i : Fin n) : R :=
  x o ⟨((i - s) % n).toNat, by
    have h : (0 : ℤ) < n := by have := i.2; omega
    have h1 := Int.emod_nonneg ((i : ℤ) - s) h.ne'
    have h2 := Int.emod_lt_of_pos ((i : ℤ) - s) h
    omega⟩

/-- `grad(x, axis)` with `zero_pad=False` and `axis >= 0` (`signal.py` 165-168): the assignment
`xg[slc] = 0.0` clears the last position along the axis. -/
def grad [CommRing R] {n : ℕ} (x : ι → Fin n → R) (o : ι) (i : Fin n) : R :=
  if (i : ℕ) + 1 = n then 0 else roll (-1) x o i - x o i

/-- `gradT(x, axis)` with `zero_pad=False` and `axis >= 0` (`signal.py` 196-200).  For an axis of
length 1 the assignment at line 199 has an empty right-hand side and raises an exception. -/
def gradT [CommRing R] {n : ℕ} (x : ι → Fin n → R) : Option (ι → Fin n → R) :=
  if n = 1 then none
  else some fun o i =>
    if h : (i : ℕ) + 1 = n then x o ⟨n - 2, by omega⟩
    else if (i : ℕ) = 0 then - x o i
    else roll 1 x o i - x o i

/-- `grad(x, axis, zero_pad=True)` (`signal.py` 163): differences of the array with a zero at
either end. -/
def gradPad [CommRing R] {n : ℕ} (x : ι → Fin n → R) (o : ι) (i : Fin (n + 1)) : R :=
  (if h : (i : ℕ) < n then x o ⟨i, h⟩ else 0) -
    (if h : 0 < (i : ℕ) then x o ⟨i - 1, by omega⟩ else 0)

/-- `gradT(x, axis, zero_pad=True)` (`signal.py` 194). -/
def gradTPad [CommRing R] {n : ℕ} (x : ι → Fin (n + 1) → R) (o : ι) (i : Fin n) : R :=
  - (x o i.succ - x o i.castSucc)

/-- `grad(x, axis)` for a negative axis of an array with more than one axis, `zero_pad=False`:
`(slice(None),)*axis` is then the empty tuple, so that the last position along the *first* axis is
cleared (`signal.py` 165-167).  Two axes, `axis = -1`. -/
def gradNeg [CommRing R] {m n : ℕ} (x : Fin m → Fin n → R) (o : Fin m) (i : Fin n) : R :=
  if (o : ℕ) + 1 = m then 0 else roll (-1) x o i - x o i

/-- `gradT(x, -1)` for two axes, the first of length at least 2 (`signal.py` 196-199): the two
assignments are made along the first axis. -/
def gradTNeg [CommRing R] {m n : ℕ} (x : Fin (m + 2) → Fin n → R) (o : Fin (m + 2)) (i : Fin n) :
    R :=
  if (o : ℕ) + 1 = m + 2 then x ⟨m, by omega⟩ i
  else if (o : ℕ) = 0 then - x o i
  else roll 1 x o i - x o i

/-! ## Theorems -/

section

variable [CommRing R]

theorem roll_neg_one {n : ℕ} (x : ι → Fin n → R) (o : ι) (i : Fin n) (h : (i : ℕ) + 1 < n) :
    roll (-1) x o i = x o ⟨i + 1, h⟩ := by
  unfold roll
  congr 1
  ext
  simp only
  have : ((i : ℤ) - -1) % n = i + 1 := by
    rw [sub_neg_eq_add]; exact Int.emod_eq_of_lt (by omega) (by omega)
  rw [this]; omega

theorem roll_one {n : ℕ} (x : ι → Fin n → R) (o : ι) (i : Fin n) (h : 0 < (i : ℕ)) :
    roll 1 x o i = x o ⟨i - 1, by omega⟩ := by
  unfold roll
  congr 1
  ext
  simp only
  have : ((i : ℤ) - 1) % n = i - 1 := by
    exact Int.emod_eq_of_lt (by omega) (by omega)
  rw [this]; omega

theorem fin_sum_ext {n : ℕ} (f : Fin n → R) (g : ℕ → R) (h : ∀ i : Fin n, f i = g i) :
    ∑ i, f i = ∑ i ∈ range n, g i := by
  rw [← Fin.sum_univ_eq_sum_range]
  exact sum_congr rfl fun i _ => h i

theorem adj_range (X Y : ℕ → R) (m : ℕ) :
    ∑ i ∈ range (m + 1), (X (i + 1) - X i) * Y i =
      X 0 * (-Y 0) + ∑ i ∈ range m, X (i + 1) * (Y i - Y (i + 1)) + X (m + 1) * Y m := by
  induction m with
  | zero => simp; ring
  | succ m ih => rw [sum_range_succ, ih, sum_range_succ _ m]; ring

theorem adj_bilinear {n : ℕ} (x y gx gy : Fin n → R) (hn : n ≠ 1)
    (hgx : ∀ i : Fin n, gx i = if h : (i : ℕ) + 1 < n then x ⟨i + 1, h⟩ - x i else 0)
    (hgy : ∀ i : Fin n, gy i = if h : (i : ℕ) + 1 = n then y ⟨n - 2, by omega⟩
      else if h : (i : ℕ) = 0 then - y i else y ⟨i - 1, by omega⟩ - y i) :
    ∑ i, gx i * y i = ∑ i, x i * gy i := by
  rcases n with _ | _ | m
  · simp
  · exact absurd rfl hn
  · let X : ℕ → R := fun k => if h : k < m + 2 then x ⟨k, h⟩ else 0
    let Y : ℕ → R := fun k => if h : k < m + 2 then y ⟨k, h⟩ else 0
    have hX : ∀ k (h : k < m + 2), X k = x ⟨k, h⟩ := fun k h => dif_pos h
    have hY : ∀ k (h : k < m + 2), Y k = y ⟨k, h⟩ := fun k h => dif_pos h
    rw [fin_sum_ext _ (fun i => if i < m + 1 then (X (i + 1) - X i) * Y i else 0)]
    · rw [sum_range_succ, if_neg (by omega), add_zero,
        sum_congr rfl (g := fun i => (X (i + 1) - X i) * Y i) (fun i hi => by
          rw [mem_range] at hi; rw [if_pos hi]), adj_range,
        fin_sum_ext _ (fun i => if i = m + 1 then X (m + 1) * Y m else if i = 0 then X 0 * (-Y 0)
          else X i * (Y (i - 1) - Y i))]
      · rw [sum_range_succ, sum_range_succ', if_pos rfl, if_neg (by omega), if_pos rfl, add_comm
          (X 0 * -Y 0)]
        congr 1; congr 1
        refine sum_congr rfl fun i hi => ?_
        rw [mem_range] at hi
        rw [if_neg (by omega), if_neg (by omega)]; simp
      · intro i
        rw [hgy i]
        have hi := i.2
        by_cases h1 : (i : ℕ) + 1 = m + 1 + 1
        · rw [dif_pos h1, if_pos (by omega), hX (m + 1) (by omega), hY m (by omega)]
          congr 2
          ext; simp; omega
        · rw [dif_neg h1, if_neg (by omega)]
          by_cases h3 : (i : ℕ) = 0
          · rw [dif_pos h3, if_pos h3, hX 0 (by omega), hY 0 (by omega)]
            congr 3 <;> (ext; simp [h3])
          · rw [dif_neg h3, if_neg h3, hX i hi, hY i hi, hY (i - 1) (by omega)]
    · intro i
      rw [hgx i]
      by_cases h : (i : ℕ) < m + 1
      · rw [dif_pos (by omega), if_pos h, hX (i + 1) (by omega), hX i i.2, hY i i.2]
      · rw [dif_neg (by omega), if_neg h, zero_mul]

variable [StarRing R] [Fintype ι]

/-- **C29.** Without padding, for every axis given by a non-negative number and of length other
than 1: `⟨grad x, y⟩ = ⟨x, gradT y⟩`, for real and for complex arrays of every size. -/
theorem C29_adjoint_partial {n : ℕ} (hn : n ≠ 1) (x y : ι → Fin n → R) :
    ∃ z, gradT y = some z ∧
      ∑ o, ∑ i, star (grad x o i) * y o i = ∑ o, ∑ i, star (x o i) * z o i := by
  unfold gradT
  rw [if_neg hn]
  refine ⟨_, rfl, sum_congr rfl fun o _ => ?_⟩
  refine adj_bilinear (fun i => star (x o i)) (y o) _ _ hn ?_ ?_
  · intro i
    unfold grad
    by_cases h : (i : ℕ) + 1 = n
    · rw [if_pos h, dif_neg (by omega), star_zero]
    · have := i.2
      rw [if_neg h, dif_pos (by omega), roll_neg_one _ _ _ (by omega), star_sub]
  · intro i
    by_cases h : (i : ℕ) + 1 = n
    · rw [dif_pos h, dif_pos h]
    · rw [dif_neg h, dif_neg h]
      by_cases h0 : (i : ℕ) = 0
      · rw [if_pos h0, dif_pos h0]
      · rw [if_neg h0, dif_neg h0, roll_one _ _ _ (by omega)]

/-- **C29.** With zero padding the functions are adjoint for every axis and length. -/
theorem C29_adjoint_zero_pad {n : ℕ} (x : ι → Fin n → R) (y : ι → Fin (n + 1) → R) :
    ∑ o, ∑ i, star (gradPad x o i) * y o i = ∑ o, ∑ i, star (x o i) * gradTPad y o i := by
  refine sum_congr rfl fun o _ => ?_
  have h1 : ∑ i : Fin (n + 1), star (if h : (i : ℕ) < n then x o ⟨i, h⟩ else 0) * y o i =
      ∑ i : Fin n, star (x o i) * y o i.castSucc := by
    rw [Fin.sum_univ_castSucc]; simp
  have h2 : ∑ i : Fin (n + 1), star (if h : 0 < (i : ℕ) then x o ⟨i - 1, by omega⟩ else 0) * y o i =
      ∑ i : Fin n, star (x o i) * y o i.succ := by
    rw [Fin.sum_univ_succ]; simp
  simp only [gradPad, gradTPad, star_sub, sub_mul, sum_sub_distrib, h1, h2]
  rw [← sum_sub_distrib]
  refine sum_congr rfl fun i _ => ?_
  ring

/-- Differences of `(1, 4, 9)`. -/
example : (grad (fun (_ : Unit) (i : Fin 3) => (![1, 4, 9] : Fin 3 → ℤ) i)) () = ![3, 5, 0] := by
  funext i; fin_cases i <;> rfl

end

/-- **C29**, missing in `C29_adjoint_partial`: for an axis of length 1, which `grad` accepts,
`gradT` raises an exception. -/
theorem C29_length_one_refuted [CommRing R] (y : ι → Fin 1 → R) : gradT y = none := by
  simp [gradT]

/-- **C29**, missing in `C29_adjoint_partial`: for a negative axis, which `np.roll` accepts, the
two functions are not adjoint. -/
theorem C29_negative_axis_refuted : ∃ x y : Fin 2 → Fin 2 → ℤ,
    ∑ o, ∑ i, gradNeg x o i * y o i ≠ ∑ o, ∑ i, x o i * gradTNeg (m := 0) y o i := by
  refine ⟨fun o i => if o = 1 then 1 else 0, fun o i => if o = 0 then 1 else 0, ?_⟩
  decide

end Sporco.Signal
