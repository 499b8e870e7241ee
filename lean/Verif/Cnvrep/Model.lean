import Mathlib.Analysis.Real.Sqrt
import Mathlib.Algebra.BigOperators.Group.Finset.Basic
import Mathlib.Data.Fintype.Pi
import Mathlib.Data.Fintype.BigOperators
import Mathlib.Data.List.GetD

/-!
# Model of the filter functions of `cnvrep.py` (`zeromean`, `normalise`, `zpad`, `bcrop`,
`Pcn`, `getPcn`; `cnvrep.py` 609-1074)

An array with `n + 1` axes is its shape and its entries; only entries at indices inside the
shape are meaningful.  The last axis enumerates the filters.  Entries are real (the code
also accepts complex arrays).
-/

set_option autoImplicit false

namespace Sporco.Cnvrep

/-- A NumPy array with `n` axes. -/
structure Arr (n : ℕ) where
  sh : Fin n → ℕ
  get : (Fin n → ℕ) → ℝ

variable {n : ℕ}

/-- A valid index. -/
def Arr.In (v : Arr n) (p : Fin n → ℕ) : Prop := ∀ i, p i < v.sh i

/-- The same array: equal shapes and entries. -/
def Arr.Same (v w : Arr n) : Prop := v.sh = w.sh ∧ ∀ p, v.In p → v.get p = w.get p

/-- All valid indices of an array of shape `sh`. -/
def box (sh : Fin n → ℕ) : Finset (Fin n → ℕ) := Fintype.piFinset fun i => Finset.range (sh i)

/-- The valid indices that agree with `p` on all axes from `q` on: the range of a reduction
over the axes `0, …, q-1`. -/
def fib (sh : Fin n → ℕ) (q : ℕ) (p : Fin n → ℕ) : Finset (Fin n → ℕ) :=
  (box sh).filter fun r => ∀ i : Fin n, q ≤ i.val → r i = p i

/-- An entry of a multi-scale size specification (`cnvrep.py` 729-818, docstring of `bcrop`):
one tuple for all channels of a block of filters, or a tuple of tuples, one per block of
channels. -/
inductive Blk where
  | whole (l : List ℕ)
  | chans (ls : List (List ℕ))

/-- The `dsz` argument: a tuple of integers or a tuple of blocks. -/
inductive Dsz where
  | single (l : List ℕ)
  | multi (bs : List Blk)

/-- A slice of an array, as the set of indices it selects. -/
abbrev Slc (n : ℕ) := (Fin n → ℕ) → Prop

/-- `tuple([slice(0, x) for x in l]) + (Ellipsis,)`: the first `len(l)` axes are cut. -/
def leadSlc (l : List ℕ) : Slc n := fun p => ∀ (i : Fin n) (h : i.val < l.length), p i < l[i.val]

/-- `cbslc` (`cnvrep.py` 649-651, 846-848). -/
def cbSlc (dimN : ℕ) (l : List ℕ) (c0 c1 m0 m1 : ℕ) : Slc (n + 1) := fun p =>
  leadSlc (l.take dimN) p ∧ (∀ i : Fin (n + 1), i.val = dimN → c0 ≤ p i ∧ p i < c1) ∧
    m0 ≤ p (Fin.last n) ∧ p (Fin.last n) < m1

/-- `mbslc` (`cnvrep.py` 659-660, 856-857). -/
def mbSlc (l : List ℕ) (m0 m1 : ℕ) : Slc (n + 1) := fun p =>
  leadSlc l.dropLast p ∧ m0 ≤ p (Fin.last n) ∧ p (Fin.last n) < m1

/-- The slices visited by the inner loop over channel blocks (`cnvrep.py` 643-653, 840-850). -/
def chSlices (dimN m0 m1 : ℕ) : ℕ → List (List ℕ) → List (Slc (n + 1))
  | _, [] => []
  | c0, l :: ls =>
    let c1 := c0 + l.dropLast.getLastD 0
    cbSlc dimN l c0 c1 m0 m1 :: chSlices dimN m0 m1 c1 ls

/-- The slices visited by the outer loop over filter blocks (`cnvrep.py` 637-662, 834-859),
in order. -/
def blkSlices (dimN : ℕ) : ℕ → List Blk → List (Slc (n + 1))
  | _, [] => []
  | m0, .whole l :: bs =>
    let m1 := m0 + l.getLastD 0
    mbSlc l m0 m1 :: blkSlices dimN m1 bs
  | m0, .chans ls :: bs =>
    let m1 := m0 + (ls.headD []).getLastD 0
    chSlices dimN m0 m1 0 ls ++ blkSlices dimN m1 bs

/-- `maxsz` on one axis (`cnvrep.py` 824-831). -/
def maxsz (bs : List Blk) (i : ℕ) : ℕ :=
  bs.foldl (fun a b => match b with
    | .whole l => max a (l.getD i 0)
    | .chans ls => ls.foldl (fun a l => max a (l.getD i 0)) a) 0

open Classical in
/-- `vc[slc] = v[slc]` for a sequence of slices. -/
noncomputable def copySlices (v : (Fin n → ℕ) → ℝ) (ss : List (Slc n)) (vc : (Fin n → ℕ) → ℝ) :
    (Fin n → ℕ) → ℝ :=
  ss.foldl (fun vc s p => if s p then v p else vc p) vc

open Classical in
/-- `bcrop` (`cnvrep.py` 822-864).  In the multi-scale case NumPy raises an error if a
declared size exceeds the size of the array; the model is meant for arrays that are large
enough. -/
noncomputable def bcrop (v : Arr (n + 1)) (dsz : Dsz) (dimN : ℕ) : Arr (n + 1) :=
  match dsz with
  | .multi bs =>
    { sh := fun i => if i.val < dimN then maxsz bs i.val else v.sh i
      get := copySlices v.get (blkSlices dimN 0 bs) fun _ => 0 }
  | .single l =>
    { sh := fun i => if h : i.val < (l.take dimN).length then min (l.take dimN)[i.val] (v.sh i)
        else v.sh i
      get := v.get }

open Classical in
/-- `np.mean(v[slc], axisN)` at the position of `p`. -/
noncomputable def sliceMean (v : Arr n) (dimN : ℕ) (s : Slc n) (p : Fin n → ℕ) : ℝ :=
  (∑ r ∈ (fib v.sh dimN p).filter s, v.get r) / ((fib v.sh dimN p).filter s).card

/-- The slices visited by `zeromean` (`cnvrep.py` 634-667). -/
def visited (dsz : Dsz) (dimN : ℕ) : List (Slc (n + 1)) :=
  match dsz with
  | .multi bs => blkSlices dimN 0 bs
  | .single l => [leadSlc (l.take dimN)]

open Classical in
/-- `zeromean` (`cnvrep.py` 609-669). -/
noncomputable def zeromean (v : Arr (n + 1)) (dsz : Dsz) (dimN : ℕ) : Arr (n + 1) :=
  { v with
    get := (visited dsz dimN).foldl
        (fun vz s p => if s p then vz p - sliceMean v dimN s p else vz p) v.get }

open Classical in
/-- `normalise` (`cnvrep.py` 673-700). -/
noncomputable def normalise (v : Arr n) (dimN : ℕ) : Arr n :=
  { v with
    get := fun p =>
      let vn := Real.sqrt (∑ r ∈ fib v.sh dimN p, v.get r ^ 2)
      let vn := if vn = 0 then 1 else vn
      v.get p / vn }

open Classical in
/-- `zpad` (`cnvrep.py` 704-725); `none` is the `ValueError` raised if the array does not fit. -/
noncomputable def zpad (v : Arr n) (Nv : List ℕ) : Option (Arr n) :=
  if ∀ (i : Fin n) (h : i.val < Nv.length), v.sh i ≤ Nv[i.val] then
    some { sh := fun i => if h : i.val < Nv.length then Nv[i.val] else v.sh i
           get := fun p => if v.In p then v.get p else 0 }
  else none

/-- `Pcn` (`cnvrep.py` 868-912). -/
noncomputable def Pcn (x : Arr (n + 1)) (dsz : Dsz) (Nv : List ℕ) (dimN dimC : ℕ)
    (crp zm : Bool) : Option (Arr (n + 1)) :=
  let zpadfn := fun x => if crp then some x else zpad x Nv
  let zmeanfn := fun x => if zm then zeromean x dsz dimN else x
  (zpadfn (bcrop x dsz dimN)).map fun y => normalise (zmeanfn y) (dimN + dimC)

/-- `_Pcn`, `_Pcn_zm`, `_Pcn_crp`, `_Pcn_zm_crp` (`cnvrep.py` 953-1074) as selected by
`getPcn` (944-949).  `_Pcn_zm` does not pass `dimN` to `zeromean`, whose default is 2. -/
noncomputable def getPcn (dsz : Dsz) (Nv : List ℕ) (dimN dimC : ℕ) (crp zm : Bool)
    (x : Arr (n + 1)) : Option (Arr (n + 1)) :=
  match crp, zm with
  | false, false => (zpad (bcrop x dsz dimN) Nv).map fun y => normalise y (dimN + dimC)
  | false, true => (zpad (bcrop x dsz dimN) Nv).map fun y =>
      normalise (zeromean y dsz 2) (dimN + dimC)
  | true, false => some (normalise (bcrop x dsz dimN) (dimN + dimC))
  | true, true => some (normalise (zeromean (bcrop x dsz dimN) dsz dimN) (dimN + dimC))

/-! ## Specification -/

/-- The channel of an index: its value on axis `dimN`, if that is not the filter axis. -/
def chan (dimN : ℕ) (p : Fin (n + 1) → ℕ) : ℕ := if h : dimN < n then p ⟨dimN, by omega⟩ else 0

/-- The sizes declared by one block, listed filter by filter: for each channel the spatial
size, if that channel is covered. -/
def Blk.sizes (dimN : ℕ) : Blk → List (ℕ → Option (List ℕ))
  | .whole l => List.replicate (l.getLastD 0) fun c =>
      if l.length = dimN + 2 ∧ l.getD dimN 0 ≤ c then none else some (l.take dimN)
  | .chans ls => List.replicate ((ls.headD []).getLastD 0) fun c =>
      (ls.flatMap fun l => List.replicate (l.getD dimN 0) (l.take dimN))[c]?

/-- The spatial size declared for channel `c` of filter `m`. -/
def Dsz.size (dimN : ℕ) (dsz : Dsz) (m c : ℕ) : Option (List ℕ) :=
  match dsz with
  | .single l => some (l.take dimN)
  | .multi bs => ((bs.flatMap (Blk.sizes dimN))[m]?).bind fun f => f c

/-- The index lies in the declared support of its filter and channel. -/
def Support (dimN : ℕ) (dsz : Dsz) (p : Fin (n + 1) → ℕ) : Prop :=
  ∃ sz, dsz.size dimN (p (Fin.last n)) (chan dimN p) = some sz ∧
    ∀ (i : Fin (n + 1)) (h : i.val < sz.length), p i < sz[i.val]

/-- A block as described in the documentation: `dimN` spatial sizes, possibly a number of
channels, and a number of filters, the same for all channel blocks. -/
def Blk.WF (n dimN : ℕ) : Blk → Prop
  | .whole l => l.length = dimN + 1 ∨ (l.length = dimN + 2 ∧ dimN < n)
  | .chans ls => dimN < n ∧ ls ≠ [] ∧ ∀ l ∈ ls, l.length = dimN + 2

/-- A well-formed size specification for arrays with `n + 1` axes, `dimN` of them spatial. -/
def Dsz.WF (n dimN : ℕ) : Dsz → Prop
  | .single l => dimN ≤ n ∧ dimN ≤ l.length
  | .multi bs => dimN ≤ n ∧ ∀ b ∈ bs, b.WF n dimN

/-- The constraint set of dictionary learning: filters vanish outside their declared
support, have zero mean over the spatial axes if requested (in each channel), and unit norm
over the first `q` axes unless they are zero. -/
structure Feasible (dimN q : ℕ) (dsz : Dsz) (zm : Bool) (y : Arr (n + 1)) : Prop where
  supp : ∀ p, y.In p → ¬ Support dimN dsz p → y.get p = 0
  mean : zm = true → ∀ p, y.In p → ∑ r ∈ fib y.sh dimN p, y.get r = 0
  norm : ∀ p, y.In p → (∑ r ∈ fib y.sh q p, y.get r ^ 2 = 1 ∨ ∀ r ∈ fib y.sh q p, y.get r = 0)

end Sporco.Cnvrep
