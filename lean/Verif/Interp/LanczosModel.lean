import Mathlib.Analysis.SpecialFunctions.Trigonometric.Basic
import Mathlib.Data.Fintype.BigOperators
import Mathlib.Algebra.BigOperators.Fin
import Mathlib.Data.List.FinRange
import Mathlib.Algebra.Order.Archimedean.Real.Basic

/-!
# Model of the Lanczos interpolation filters (`interp.py` 198-305)

Floating point numbers are real numbers; `a` is an integer, as documented.
-/

set_option autoImplicit false

namespace Sporco.Interp

open Finset

open Classical in
/-- `np.sinc` (called at `interp.py` 224): `sin(πx)/(πx)`, one at zero. -/
noncomputable def npSinc (x : ℝ) : ℝ := if x = 0 then 1 else Real.sin (Real.pi * x) / (Real.pi * x)

open Classical in
/-- `lanczos_kernel(x, a)` (`interp.py` 224). -/
noncomputable def lanczosKernel (x : ℝ) (a : ℕ) : ℝ :=
  (if x > -a ∧ x < a then 1 else 0) * npSinc x * npSinc (x / a)

/-- `np.arange(lo, hi)`. -/
def arange (lo hi : ℤ) : List ℤ := (List.range (hi - lo).toNat).map fun i : ℕ => lo + i

/-- `interpolation_points(N, include_zero)` (`interp.py` 247-251); `//` is the floor division of integers. -/
noncomputable def interpolationPoints (N : ℤ) (includeZero : Bool) : List ℝ :=
  if includeZero then (arange (-((N - 1) / 2)) (N / 2 + 1)).map fun k : ℤ => (k : ℝ) / N
  else (arange (-(N / 2)) 0 ++ arange 1 ((N + 1) / 2 + 1)).map fun k : ℤ => (k : ℝ) / (N + 1)

/-- An entry of the tuple `sz`: an integer, a one-dimensional array, or an array with another number of dimensions. -/
inductive Entry where
  | int (N : ℤ)
  | arr (x : List ℝ)
  | nd

open Classical in
/-- The resampling points of an entry (`interp.py` 287-294); `none` is an exception, also that of `min()` of an empty
array. -/
noncomputable def points : Entry → Option (List ℝ)
  | .int N => some (interpolationPoints N true)
  | .arr x => if x = [] then none else if (∃ t ∈ x, t < -1) ∨ ∃ t ∈ x, 1 < t then none else some x
  | .nd => none

/-- `hn` (`interp.py` 295-297): entry `k` of the filter for the resampling point `x`. -/
noncomputable def hn (a : ℕ) (x : ℝ) (k : Fin (2 * a + 1)) : ℝ :=
  lanczosKernel (((k : ℕ) : ℝ) - a + x) a / ∑ j : Fin (2 * a + 1), lanczosKernel (((j : ℕ) : ℝ) - a + x) a

/-- The loop over the axes (`interp.py` 285-300), with the points of all axes known: the entry of `h` at the index `k` on
the filter axes and `m` on the axes of resampling points. -/
noncomputable def hprod {d : ℕ} (a : ℕ) (x : Fin d → List ℝ) (k : Fin d → Fin (2 * a + 1))
    (m : ∀ i, Fin (x i).length) : ℝ :=
  (List.finRange d).foldl (fun h i => h * hn a ((x i).get (m i)) (k i)) 1

/-- The index on the collapsed axis (`interp.py` 302-303): the last axis varies fastest. -/
def collapse : {d : ℕ} → (s : Fin d → ℕ) → (∀ i, Fin (s i)) → ℕ
  | 0, _, _ => 0
  | _ + 1, s, m => (m 0 : ℕ) * ∏ i, s (Fin.succ i) + collapse (fun i => s i.succ) fun i => m i.succ

/-- `lanczos_filters(sz, a, collapse_axes=False)` (`interp.py` 282-305) for a tuple `sz` of length `d`: the points of each
axis and the array; `none` is an exception. -/
noncomputable def lanczosFilters {d : ℕ} (sz : Fin d → Entry) (a : ℕ) :
    Option (Σ x : Fin d → List ℝ, (Fin d → Fin (2 * a + 1)) → (∀ i, Fin (x i).length) → ℝ) :=
  if h : ∀ i, (points (sz i)).isSome then
    let x := fun i => (points (sz i)).get (h i)
    some ⟨x, hprod a x⟩
  else none

end Sporco.Interp
