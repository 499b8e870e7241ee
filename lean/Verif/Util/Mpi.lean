import Verif.Util.Grid
import Mathlib.Algebra.BigOperators.Intervals
import Mathlib.Algebra.Order.BigOperators.Group.Finset

/-!
# Model of `mpiutil.grid_search` (`mpiutil.py` 28-175), C09
-/

set_option autoImplicit false

namespace Sporco.Util

open Finset

variable {α β : Type}

/-- `ranklen` (`mpiutil.py` 53-55).  `int(arrlen / size)` is taken as integer division: the
float quotient is exact enough below `2^53`. -/
def rankLen (n size rank : ℕ) : ℕ := n / size + if rank < n % size then 1 else 0

/-- `end` (`mpiutil.py` 58): inclusive prefix sum over the ranks. -/
def rankEnd (n size rank : ℕ) : ℕ := ∑ r ∈ range (rank + 1), rankLen n size r

/-- `begin` (`mpiutil.py` 59). -/
def rankBegin (n size rank : ℕ) : ℕ := rankEnd n size rank - rankLen n size rank

/-- `afprm[begin:end, :]` (`mpiutil.py` 130-131). -/
def rankGrid (pts : List α) (size rank : ℕ) : List α :=
  (pts.take (rankEnd pts.length size rank)).drop (rankBegin pts.length size rank)

/-- `Allgatherv` of one-dimensional buffers: what every rank holds afterwards.  The receive
counts the library derives from the length of the receive buffer split it evenly, the first
ranks taking one more; if a rank sends another number of items the call fails. -/
def allgatherv (n size : ℕ) (send : ℕ → List β) : Option (List β) :=
  if ∀ r < size, (send r).length = n / size + (if r < n % size then 1 else 0) then
    some ((List.range size).flatMap send) else none

/-- The gathered values for a function with scalar values (`mpiutil.py` 128-136), the same on
every rank.  Rows of the array of points are passed to the function instead of tuples. -/
def mpiValues (size : ℕ) (fn : α → β) (pts : List α) : Option (List β) :=
  allgatherv pts.length size fun r => (rankGrid pts size r).map fn

/-- `mpiutil.grid_search` for scalar values (`mpiutil.py` 116-175) on a communicator of `size`
processes. -/
noncomputable def mpiGridSearch (size : ℕ) (fmin : Bool) (fn : List α → Option EReal)
    (grd : List (List α)) : Option (GridResult α (Option EReal)) := do
  let fval ← mpiValues size fn (product grd)
  gridSelect fmin grd fval

/-- The number of dimensions of `rankfval` (`mpiutil.py` 132) for a function whose values are
vectors: an empty list of vectors becomes an array with one dimension. -/
def rankNdim (rows : List (List β)) : ℕ := if rows = [] then 1 else 2

/-- The collective calls a rank makes (`mpiutil.py` 134-151). -/
inductive Collective where
  | allgather
  | allgatherv
  deriving DecidableEq

/-- Sequence of collective calls of one rank, by `rankfval.ndim`. -/
def calls (ndim : ℕ) : List Collective :=
  if ndim = 1 then [.allgatherv] else [.allgather, .allgatherv]

/-- The gathered values for a function with vector values (`mpiutil.py` 137-151): the sizes are
gathered first, then the flat data, each rank's at the offset given by the sizes before it.  The
ranks must make the same sequence of collective calls; otherwise the program is erroneous.
The gathered rows are given as a list of rows. -/
def mpiValuesVec (size : ℕ) (fn : α → List β) (pts : List α) : Option (List (List β)) :=
  let rows := fun r => (rankGrid pts size r).map fn
  if ∀ r < size, calls (rankNdim (rows r)) = [.allgather, .allgatherv] then
    some ((List.range size).flatMap rows) else none

/-! ## Theorems -/

theorem rankEnd_eq (n size : ℕ) (hs : 0 < size) : rankEnd n size (size - 1) = n := by
  unfold rankEnd rankLen
  rw [Nat.sub_add_cancel hs, Finset.sum_add_distrib, Finset.sum_const, card_range, smul_eq_mul,
    ← Finset.sum_filter, Finset.sum_const, smul_eq_mul, mul_one]
  have : (range size).filter (fun r => r < n % size) = range (n % size) := by
    ext r
    have := Nat.mod_lt n hs
    simp only [mem_filter, mem_range]; omega
  rw [this, card_range]
  exact Nat.div_add_mod n size

/-- **C09.** The chunks of the ranks cover the points in order without gap or overlap: the first
begins at 0, each begins where the one before ends, the last ends at the number of points; and
the sizes of two chunks differ by at most one. -/
theorem C09_chunks (n size : ℕ) (hs : 0 < size) :
    rankBegin n size 0 = 0 ∧ (∀ r, rankBegin n size (r + 1) = rankEnd n size r) ∧
    rankEnd n size (size - 1) = n ∧ (∀ r, rankBegin n size r ≤ rankEnd n size r) ∧
    ∀ r s, rankEnd n size r - rankBegin n size r ≤ rankEnd n size s - rankBegin n size s + 1 := by
  have hd : ∀ r, rankEnd n size r - rankBegin n size r = rankLen n size r := by
    intro r
    have : rankLen n size r ≤ rankEnd n size r := by
      unfold rankEnd; rw [sum_range_succ]; omega
    unfold rankBegin; omega
  refine ⟨by simp [rankBegin, rankEnd], ?_, rankEnd_eq n size hs, fun r => Nat.sub_le _ _, ?_⟩
  · intro r
    have : rankEnd n size (r + 1) = rankEnd n size r + rankLen n size (r + 1) := by
      unfold rankEnd; rw [sum_range_succ]
    unfold rankBegin; omega
  · intro r s
    rw [hd, hd]
    unfold rankLen
    split <;> split <;> omega

theorem chunks_concat (size : ℕ) (pts : List α) : ∀ k,
    (List.range k).flatMap (rankGrid pts size) =
      pts.take (∑ r ∈ range k, rankLen pts.length size r) := by
  intro k
  induction k with
  | zero => simp
  | succ k ih =>
    rw [List.range_succ, List.flatMap_append, ih, sum_range_succ, List.flatMap_singleton]
    unfold rankGrid rankBegin rankEnd
    rw [sum_range_succ, Nat.add_sub_cancel]
    rw [List.take_add, List.drop_append]
    rw [List.drop_eq_nil_of_le (by simp)]
    rw [List.nil_append]
    congr 1
    rcases Nat.le_total (∑ r ∈ range k, rankLen pts.length size r) pts.length with h | h
    · rw [List.length_take, Nat.min_eq_left h, Nat.sub_self, List.drop_zero]
    · rw [List.drop_eq_nil_of_le h]; simp

theorem rankGrid_length (size : ℕ) (hs : 0 < size) (pts : List α) (r : ℕ) (hr : r < size) :
    (rankGrid pts size r).length = rankLen pts.length size r := by
  have hle : rankEnd pts.length size r ≤ pts.length := by
    conv_rhs => rw [← rankEnd_eq pts.length size hs]
    unfold rankEnd
    exact sum_le_sum_of_subset (by intro x; simp only [mem_range]; omega)
  have : rankLen pts.length size r ≤ rankEnd pts.length size r := by
    unfold rankEnd; rw [sum_range_succ]; omega
  unfold rankGrid
  rw [List.length_drop, List.length_take, Nat.min_eq_left hle]
  unfold rankBegin; omega

/-- **C09.** Every process ends with the value of every point, in the order of the serial
computation, whatever the number of processes. -/
theorem C09_values (size : ℕ) (hs : 0 < size) (fn : α → β) (pts : List α) :
    mpiValues size fn pts = some (pts.map fn) := by
  unfold mpiValues allgatherv
  rw [if_pos]
  · congr 1
    have h := chunks_concat size pts size
    have h2 := rankEnd_eq pts.length size hs
    unfold rankEnd at h2
    rw [Nat.sub_add_cancel hs] at h2
    rw [h2, List.take_length] at h
    conv_rhs => rw [← h]
    rw [List.map_flatMap]
  · intro r hr
    rw [List.length_map, rankGrid_length size hs pts r hr, rankLen]

/-- **C09.** The distributed search returns what the serial search returns. -/
theorem C09_same_as_serial (size : ℕ) (hs : 0 < size) (fmin : Bool) (fn : List α → Option EReal)
    (grd : List (List α)) : mpiGridSearch size fmin fn grd = gridSearch fmin fn grd := by
  unfold mpiGridSearch gridSearch
  rw [C09_values size hs]
  rfl

theorem rankGrid_ne_nil (size : ℕ) (hs : 0 < size) (pts : List α) (r : ℕ) (hr : r < size) :
    rankGrid pts size r ≠ [] ↔ 0 < rankLen pts.length size r := by
  rw [← rankGrid_length size hs pts r hr, List.length_pos_iff]

/-- **C09**, functions with several values, when there are at least as many points as
processes. -/
theorem C09_vector_partial (size : ℕ) (hs : 0 < size) (fn : α → List β) (pts : List α)
    (hn : size ≤ pts.length) : mpiValuesVec size fn pts = some (pts.map fn) := by
  unfold mpiValuesVec
  simp only
  rw [if_pos]
  · congr 1
    have h := chunks_concat size pts size
    have h2 := rankEnd_eq pts.length size hs
    unfold rankEnd at h2
    rw [Nat.sub_add_cancel hs] at h2
    rw [h2, List.take_length] at h
    conv_rhs => rw [← h]
    rw [List.map_flatMap]
  · intro r hr
    have : rankGrid pts size r ≠ [] := by
      rw [rankGrid_ne_nil size hs pts r hr]
      have := Nat.div_pos hn hs
      unfold rankLen; omega
    simp [calls, rankNdim, this]

/-- **C09**, functions with several values: with more processes than points the ranks without a
point make other collective calls than the rest, so the program is erroneous. -/
theorem C09_vector_refuted (size : ℕ) (fn : α → List β) (pts : List α)
    (hn : pts.length < size) : mpiValuesVec size fn pts = none := by
  unfold mpiValuesVec
  simp only
  rw [if_neg]
  intro h
  have hs : 0 < size := by omega
  have h1 := h (size - 1) (by omega)
  have : rankGrid pts size (size - 1) = [] := by
    by_contra hc
    have := (rankGrid_ne_nil size hs pts (size - 1) (by omega)).1 hc
    unfold rankLen at this
    rw [Nat.div_eq_of_lt hn, Nat.mod_eq_of_lt hn, if_neg (by omega)] at this
    omega
  rw [this] at h1
  simp [calls, rankNdim] at h1

/-- Seven points on three processes: chunks of 3, 2 and 2 points. -/
example : (List.range 3).map (rankGrid [10, 11, 12, 13, 14, 15, 16] 3) =
    [[10, 11, 12], [13, 14], [15, 16]] := by rfl

end Sporco.Util
