import Mathlib.Analysis.SpecialFunctions.Trigonometric.Basic
import Mathlib.Analysis.Real.Sqrt
import Mathlib.Algebra.BigOperators.Field
import Mathlib.LinearAlgebra.Matrix.NonsingularInverse
import Mathlib.Tactic.LinearCombination

/-!
# The DCT-II pair and the second difference operator (C33)

`fft.py` 318-372 (`dctii`, `idctii`): the transforms of `scipy.fftpack` at their documented
definition, in exact arithmetic, applied to one axis after the other.
-/

set_option autoImplicit false

namespace Sporco.Spline

open Finset

/-! ## Model -/

/-- `cos(π k (2 j + 1) / (2 N))` -/
noncomputable def cosv (N k j : ℕ) : ℝ := Real.cos (Real.pi * k * (2 * j + 1) / (2 * N))

/-- Scaling factor of `scipy.fftpack.dct` with `norm='ortho'`. -/
noncomputable def fac (N k : ℕ) : ℝ := if k = 0 then Real.sqrt (1 / N) else Real.sqrt (2 / N)

/-- `scipy.fftpack.dct(type=2, norm='ortho')` as a matrix:
`y[k] = 2 f[k] ∑ⱼ x[j] cos(π k (2 j + 1) / (2 N))` with `f[0] = sqrt(1/(4N))`,
`f[k] = sqrt(1/(2N))`. -/
noncomputable def dctM (N : ℕ) : Matrix (Fin N) (Fin N) ℝ :=
  Matrix.of fun k j => fac N k.val * cosv N k.val j.val

/-- `scipy.fftpack.idct(type=2, norm='ortho')` as a matrix: the DCT-III with `norm='ortho'`,
`x[j] = y[0] / sqrt(N) + sqrt(2/N) ∑_{k ≥ 1} y[k] cos(π k (2 j + 1) / (2 N))`. -/
noncomputable def idctM (N : ℕ) : Matrix (Fin N) (Fin N) ℝ :=
  Matrix.of fun j k => if k.val = 0 then 1 / Real.sqrt N else Real.sqrt (2 / N) * cosv N k.val j.val

variable {d : ℕ} {n : Fin d → ℕ}

/-- Arrays with `d` axes of lengths `n`. -/
abbrev Arr (n : Fin d → ℕ) : Type := ((k : Fin d) → Fin (n k)) → ℝ

/-- A matrix applied along axis `a`. -/
def along (a : Fin d) (M : Matrix (Fin (n a)) (Fin (n a)) ℝ) (x : Arr n) : Arr n :=
  fun i => ∑ j, M (i a) j * x (Function.update i a j)

/-- `dctii(x, axes)` (`fft.py` 339-343) -/
noncomputable def dctii (axes : List (Fin d)) (x : Arr n) : Arr n :=
  axes.foldl (fun x ax => along ax (dctM (n ax)) x) x

/-- `idctii(x, axes)` (`fft.py` 368-372) -/
noncomputable def idctii (axes : List (Fin d)) (x : Arr n) : Arr n :=
  axes.reverse.foldl (fun x ax => along ax (idctM (n ax)) x) x

/-! ## One dimension -/

theorem sum_cos (N : ℕ) (m : ℤ) (hm : ¬ (2 * N : ℤ) ∣ m) :
    ∑ j : Fin N, Real.cos (Real.pi * m * (2 * j.val + 1) / (2 * N)) = 0 := by
  rcases Nat.eq_zero_or_pos N with rfl | hN
  · simp
  have hN' : (N : ℝ) ≠ 0 := by positivity
  set φ : ℝ := Real.pi * m / (2 * N) with hφ
  have hs : Real.sin φ ≠ 0 := by
    intro h
    obtain ⟨k, hk⟩ := Real.sin_eq_zero_iff.1 h
    apply hm
    have h1 : (m : ℝ) = 2 * N * k := by
      rw [hφ] at hk
      have := Real.pi_ne_zero
      field_simp at hk
      linarith
    exact ⟨k, by exact_mod_cast h1⟩
  have h1 : ∀ K : ℕ, 2 * Real.sin φ * ∑ j ∈ range K, Real.cos (Real.pi * m * (2 * j + 1) / (2 * N)) =
      Real.sin (2 * K * φ) := by
    intro K
    induction K with
    | zero => simp
    | succ K ih =>
      rw [sum_range_succ, mul_add, ih]
      have e : Real.pi * m * (2 * K + 1) / (2 * N) = (2 * K + 1) * φ := by rw [hφ]; ring
      rw [e]
      have e2 : 2 * ((K + 1 : ℕ) : ℝ) * φ = (2 * K + 1) * φ + φ := by push_cast; ring
      have e3 : 2 * (K : ℝ) * φ = (2 * K + 1) * φ - φ := by ring
      rw [e2, e3, Real.sin_add, Real.sin_sub]
      ring
  have h2 := h1 N
  have e : 2 * (N : ℝ) * φ = m * Real.pi := by rw [hφ]; field_simp
  rw [e, Real.sin_int_mul_pi] at h2
  rw [← Fin.sum_univ_eq_sum_range fun j => Real.cos (Real.pi * m * (2 * (j : ℝ) + 1) / (2 * N))] at h2
  have h3 : 2 * Real.sin φ ≠ 0 := mul_ne_zero two_ne_zero hs
  exact (mul_eq_zero.1 h2).resolve_left h3

theorem cos_mul_cos' (x y : ℝ) :
    Real.cos x * Real.cos y = (Real.cos (x - y) + Real.cos (x + y)) / 2 := by
  rw [Real.cos_add, Real.cos_sub]; ring

theorem cosv_inner (N : ℕ) (k l : Fin N) :
    ∑ j : Fin N, cosv N k.val j.val * cosv N l.val j.val =
      if k = l then (if k.val = 0 then (N : ℝ) else N / 2) else 0 := by
  have hN : 0 < N := k.pos
  have hN' : (N : ℝ) ≠ 0 := by positivity
  have e : ∀ j : Fin N, cosv N k.val j.val * cosv N l.val j.val =
      (Real.cos (Real.pi * ((k.val : ℤ) - l.val : ℤ) * (2 * j.val + 1) / (2 * N)) +
        Real.cos (Real.pi * ((k.val : ℤ) + l.val : ℤ) * (2 * j.val + 1) / (2 * N))) / 2 := by
    intro j
    unfold cosv
    rw [cos_mul_cos']
    push_cast
    congr 3 <;> ring
  simp only [e]
  rw [← sum_div, sum_add_distrib]
  have hk := k.2
  have hl := l.2
  by_cases hkl : k = l
  · subst hkl
    rw [if_pos rfl]
    by_cases h0 : k.val = 0
    · rw [if_pos h0, h0]
      simp
    · rw [if_neg h0, sum_cos N ((k.val : ℤ) + k.val) (fun ⟨c, hc⟩ => by
        rcases lt_trichotomy c 0 with h | h | h
        · have : (N : ℤ) * c < 0 := mul_neg_of_pos_of_neg (by omega) h
          nlinarith
        · subst h; omega
        · have : (N : ℤ) * 1 ≤ N * c := mul_le_mul_of_nonneg_left (by omega) (by omega)
          nlinarith)]
      simp
  · rw [if_neg hkl]
    have hne : (k.val : ℤ) ≠ l.val := fun h => hkl (Fin.ext (by omega))
    rw [sum_cos N ((k.val : ℤ) - l.val) (fun ⟨c, hc⟩ => by
        rcases lt_trichotomy c 0 with h | h | h
        · have : (N : ℤ) * c ≤ N * (-1) := mul_le_mul_of_nonneg_left (by omega) (by omega)
          nlinarith
        · subst h; omega
        · have : (N : ℤ) * 1 ≤ N * c := mul_le_mul_of_nonneg_left (by omega) (by omega)
          nlinarith),
      sum_cos N ((k.val : ℤ) + l.val) (fun ⟨c, hc⟩ => by
        rcases lt_trichotomy c 0 with h | h | h
        · have : (N : ℤ) * c < 0 := mul_neg_of_pos_of_neg (by omega) h
          nlinarith
        · subst h; omega
        · have : (N : ℤ) * 1 ≤ N * c := mul_le_mul_of_nonneg_left (by omega) (by omega)
          nlinarith)]
    simp

theorem idctM_eq (N : ℕ) : idctM N = (dctM N).transpose := by
  ext j k
  simp only [idctM, dctM, Matrix.transpose_apply, Matrix.of_apply, fac]
  split
  · rename_i h
    rw [h]
    simp [cosv, Real.sqrt_div]
  · rfl

theorem dctM_mul_transpose (N : ℕ) : dctM N * (dctM N).transpose = 1 := by
  ext k l
  rw [Matrix.mul_apply]
  simp only [dctM, Matrix.transpose_apply, Matrix.of_apply]
  have hN : 0 < N := k.pos
  have hN' : (0 : ℝ) < N := by positivity
  have e : ∀ j : Fin N, fac N k.val * cosv N k.val j.val * (fac N l.val * cosv N l.val j.val) =
      fac N k.val * fac N l.val * (cosv N k.val j.val * cosv N l.val j.val) := fun j => by ring
  simp only [e]
  rw [← mul_sum, cosv_inner]
  by_cases hkl : k = l
  · subst hkl
    rw [if_pos rfl, Matrix.one_apply_eq]
    unfold fac
    by_cases h0 : k.val = 0
    · rw [if_pos h0, if_pos h0, Real.mul_self_sqrt (by positivity)]
      field_simp
    · rw [if_neg h0, if_neg h0, Real.mul_self_sqrt (by positivity)]
      field_simp
  · rw [if_neg hkl, mul_zero, Matrix.one_apply_ne hkl]

theorem dctM_mul_idctM (N : ℕ) : dctM N * idctM N = 1 := by
  rw [idctM_eq]; exact dctM_mul_transpose N

theorem idctM_mul_dctM (N : ℕ) : idctM N * dctM N = 1 := mul_eq_one_comm.1 (dctM_mul_idctM N)

/-! ## Several dimensions -/

theorem along_along (a : Fin d) (M M' : Matrix (Fin (n a)) (Fin (n a)) ℝ) (x : Arr n) :
    along a M (along a M' x) = along a (M * M') x := by
  funext i
  simp only [along, Function.update_self, Function.update_idem, Matrix.mul_apply, mul_sum, sum_mul]
  rw [sum_comm]
  exact sum_congr rfl fun _ _ => sum_congr rfl fun _ _ => by ring

theorem along_one (a : Fin d) (x : Arr n) : along a 1 x = x := by
  funext i
  simp only [along, Matrix.one_apply, ite_mul, one_mul, zero_mul]
  rw [sum_ite_eq univ, if_pos (mem_univ _), Function.update_eq_self]

theorem along_comm {a b : Fin d} (h : a ≠ b) (M : Matrix (Fin (n a)) (Fin (n a)) ℝ)
    (M' : Matrix (Fin (n b)) (Fin (n b)) ℝ) (x : Arr n) :
    along a M (along b M' x) = along b M' (along a M x) := by
  funext i
  simp only [along, mul_sum]
  rw [sum_comm]
  refine sum_congr rfl fun j _ => sum_congr rfl fun l _ => ?_
  rw [Function.update_of_ne h.symm, Function.update_of_ne h, Function.update_comm h.symm]
  ring

theorem along_add (a : Fin d) (M : Matrix (Fin (n a)) (Fin (n a)) ℝ) (x y : Arr n) :
    along a M (fun i => x i + y i) = fun i => along a M x i + along a M y i := by
  funext i
  simp only [along, mul_add, sum_add_distrib]

theorem along_smul (a : Fin d) (M : Matrix (Fin (n a)) (Fin (n a)) ℝ) (c : ℝ) (x : Arr n) :
    along a M (fun i => c * x i) = fun i => c * along a M x i := by
  funext i
  simp only [along, mul_sum]
  exact sum_congr rfl fun j _ => by ring

/-- Sum over the array as a sum over lines along `a`. -/
theorem sum_update (a : Fin d) (g : Arr n) (j : Fin (n a)) :
    ∑ i, g i = ∑ i : (k : Fin d) → Fin (n k), if i a = j then ∑ l, g (Function.update i a l)
      else 0 := by
  classical
  rw [← sum_filter]
  rw [← Finset.sum_fiberwise_of_maps_to (s := univ)
    (t := univ.filter fun i : (k : Fin d) → Fin (n k) => i a = j)
    (g := fun i => Function.update i a j) (fun i _ => by simp) g]
  refine sum_congr rfl fun i hi => ?_
  have hia : i a = j := by simpa using hi
  symm
  refine sum_bij' (fun l _ => Function.update i a l) (fun i' _ => i' a) ?_ ?_ ?_ ?_ ?_
  · intro l _
    simp only [mem_filter, mem_univ, true_and, Function.update_idem]
    rw [← hia, Function.update_eq_self]
  · intro _ _; exact mem_univ _
  · intro l _; simp
  · intro i' hi'
    have h1 : Function.update i' a j = i := by simpa using hi'
    rw [← h1, Function.update_idem, Function.update_eq_self]
  · intro _ _; rfl

/-- Adjoint along an axis. -/
theorem along_adjoint (a : Fin d) (M : Matrix (Fin (n a)) (Fin (n a)) ℝ) (x y : Arr n) :
    ∑ i, along a M x i * y i = ∑ i, x i * along a M.transpose y i := by
  rcases isEmpty_or_nonempty (Fin (n a)) with h | ⟨⟨j0⟩⟩
  · have : IsEmpty ((k : Fin d) → Fin (n k)) := ⟨fun i => h.false (i a)⟩
    simp
  rw [sum_update a (fun i => along a M x i * y i) j0,
    sum_update a (fun i => x i * along a M.transpose y i) j0]
  refine sum_congr rfl fun i _ => ?_
  split
  · simp only [along, Function.update_self, Function.update_idem, sum_mul, mul_sum,
      Matrix.transpose_apply]
    rw [sum_comm]
    exact sum_congr rfl fun _ _ => sum_congr rfl fun _ _ => by ring
  · rfl

/-- `idctii` inverts `dctii`, for any list of axes. -/
theorem idctii_dctii (axes : List (Fin d)) (x : Arr n) : idctii axes (dctii axes x) = x := by
  unfold idctii dctii
  induction axes generalizing x with
  | nil => rfl
  | cons a l ih =>
    rw [List.reverse_cons, List.foldl_append, List.foldl_cons, List.foldl_cons, ih, List.foldl_nil,
      along_along, idctM_mul_dctM, along_one]

theorem dctii_idctii (axes : List (Fin d)) (x : Arr n) : dctii axes (idctii axes x) = x := by
  unfold idctii dctii
  induction axes generalizing x with
  | nil => rfl
  | cons a l ih =>
    rw [List.reverse_cons, List.foldl_append, List.foldl_cons, List.foldl_cons, List.foldl_nil,
      along_along, dctM_mul_idctM, along_one, ih]

theorem dctii_add (axes : List (Fin d)) (x y : Arr n) :
    dctii axes (fun i => x i + y i) = fun i => dctii axes x i + dctii axes y i := by
  unfold dctii
  induction axes generalizing x y with
  | nil => rfl
  | cons a l ih => simp only [List.foldl_cons]; rw [along_add]; exact ih _ _

theorem dctii_smul (axes : List (Fin d)) (c : ℝ) (x : Arr n) :
    dctii axes (fun i => c * x i) = fun i => c * dctii axes x i := by
  unfold dctii
  induction axes generalizing x with
  | nil => rfl
  | cons a l ih => simp only [List.foldl_cons]; rw [along_smul]; exact ih _

theorem dctii_sub (axes : List (Fin d)) (x y : Arr n) :
    dctii axes (fun i => x i - y i) = fun i => dctii axes x i - dctii axes y i := by
  have e : (fun i => x i - y i) = fun i => x i + (-1) * y i := funext fun i => by ring
  rw [e, dctii_add, dctii_smul]
  funext i; ring

/-- Parseval's identity for `dctii`. -/
theorem dctii_inner (axes : List (Fin d)) (x y : Arr n) :
    ∑ i, dctii axes x i * dctii axes y i = ∑ i, x i * y i := by
  unfold dctii
  induction axes generalizing x y with
  | nil => rfl
  | cons a l ih =>
    simp only [List.foldl_cons]
    rw [ih, along_adjoint, along_along, ← idctM_eq, idctM_mul_dctM, along_one]

theorem dctii_norm (axes : List (Fin d)) (x : Arr n) :
    ∑ i, dctii axes x i ^ 2 = ∑ i, x i ^ 2 := by
  simp only [sq]; exact dctii_inner axes x x

/-- A matrix along an axis that is not transformed commutes with the transform. -/
theorem dctii_along_not_mem (axes : List (Fin d)) (a : Fin d) (h : a ∉ axes)
    (M : Matrix (Fin (n a)) (Fin (n a)) ℝ) (x : Arr n) :
    dctii axes (along a M x) = along a M (dctii axes x) := by
  unfold dctii
  induction axes generalizing x with
  | nil => rfl
  | cons b l ih =>
    simp only [List.foldl_cons]
    rw [along_comm (fun hab => h (by rw [hab]; exact List.mem_cons_self)), ih fun hm => h (List.mem_cons_of_mem _ hm)]

/-- A matrix along a transformed axis that the transform turns into another. -/
theorem dctii_along_mem (axes : List (Fin d)) (hnd : axes.Nodup) (a : Fin d) (h : a ∈ axes)
    (M M' : Matrix (Fin (n a)) (Fin (n a)) ℝ) (hM : dctM (n a) * M = M' * dctM (n a)) (x : Arr n) :
    dctii axes (along a M x) = along a M' (dctii axes x) := by
  induction axes generalizing x with
  | nil => cases h
  | cons b l ih =>
    have hnd' := List.nodup_cons.1 hnd
    have e : ∀ z : Arr n, dctii (b :: l) z = dctii l (along b (dctM (n b)) z) := fun z => rfl
    rw [e, e]
    by_cases hab : a = b
    · subst hab
      rw [along_along, hM, ← along_along, dctii_along_not_mem l a hnd'.1]
    · rw [← along_comm hab, ih hnd'.2 ((List.mem_cons.1 h).resolve_left hab)]

end Sporco.Spline
