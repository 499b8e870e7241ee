import Verif.Util.Grid
import Mathlib.Data.Real.Basic
import Mathlib.Algebra.Order.Ring.Int

/-!
# Model of `array.py` and `prox/_util.py`

A strided NumPy array is a memory, a shape and strides (here counted in elements, from the
address of the first element); a logical array is a shape and its entries by multi-index.
-/

set_option autoImplicit false

namespace Sporco.Array

open Sporco.Util

variable {α : Type}

/-- A logical array; entries at indices outside the shape are meaningless. -/
structure ND (α : Type) where
  shape : List ℕ
  get : List ℕ → α

/-- A strided array. -/
structure View (α : Type) where
  mem : ℤ → α
  shape : List ℕ
  strides : List ℤ

/-- Address of an index. -/
def addr : List ℤ → List ℕ → ℤ
  | s :: ss, i :: is => s * i + addr ss is
  | _, _ => 0

/-- The logical array shown by a strided one. -/
def View.nd (v : View α) : ND α := ⟨v.shape, fun idx => v.mem (addr v.strides idx)⟩

/-- `np.lib.stride_tricks.as_strided`. -/
def asStrided (v : View α) (shape : List ℕ) (strides : List ℤ) : View α :=
  { v with shape, strides }

/-- `np.reshape` in C order to a shape with the same number of elements. -/
def reshape (x : ND α) (shape : List ℕ) : ND α :=
  ⟨shape, fun idx => x.get (unravel x.shape (ravel shape idx))⟩

/-- `np.ndindex(shape)`. -/
def ndindex (shape : List ℕ) : List (List ℕ) := product (shape.map List.range)

/-! ## `extract_blocks`, `average_blocks`, `combine_blocks` -/

/-- `int(np.floor((a - b) / c) + 1)` (`array.py` 367, 414, 458).  A negative count, an error in
NumPy, is read as zero. -/
def numBlk (a b c : ℕ) : ℕ := (((a : ℤ) - b) / c + 1).toNat

/-- `numblocks` (`array.py` 367-368, 414-415, 458-459): `zip_longest` with fill value 1, for
block and step tuples no longer than the shape. -/
def numBlocks : List ℕ → List ℕ → List ℕ → List ℕ
  | [], _, _ => []
  | a :: as, bs, cs => numBlk a (bs.headD 1) (cs.headD 1) :: numBlocks as bs.tail cs.tail

/-- `blockstrides` (`array.py` 371-372). -/
def blockStrides : List ℤ → List ℕ → List ℤ
  | [], _ => []
  | s :: ss, cs => s * (cs.headD 1) :: blockStrides ss cs.tail

/-- `extract_blocks` (`array.py` 338-379) for an array argument. -/
def extractBlocks (img : View α) (blksz stpsz : List ℕ) : ND α :=
  let nb := numBlocks img.shape blksz stpsz
  reshape (asStrided img (blksz ++ nb)
    (img.strides.take blksz.length ++ blockStrides img.strides stpsz)).nd (blksz ++ [nb.prod])

/-- The entry `p` of the image belongs to the region
`imgs[slices + pos[len(blksz):]]` (`array.py` 422-424), or, with the same meaning, to
`imgs[slices]` of `combine_blocks` (`array.py` 478-480). -/
def inBlk : List ℕ → List ℕ → List ℕ → List ℕ → Prop
  | b :: bs, c :: cs, a :: as, x :: xs => a * c ≤ x ∧ x < a * c + b ∧ inBlk bs cs as xs
  | [], _, as, xs => xs = as
  | _, _, _, _ => False

/-- Position of entry `p` within that region. -/
def offs : List ℕ → List ℕ → List ℕ → List ℕ → List ℕ
  | _ :: bs, c :: cs, a :: as, x :: xs => (x - a * c) :: offs bs cs as xs
  | _, _, _, _ => []

open Classical in
/-- `average_blocks` (`array.py` 383-428) in real arithmetic; `none` is `np.nan`. -/
noncomputable def averageBlocks (blks : ND ℝ) (imgsz stpsz : List ℕ) : ND (Option ℝ) :=
  let blksz := blks.shape.dropLast
  let nb := numBlocks imgsz blksz stpsz
  let blks := reshape blks (blksz ++ nb)
  let st := (ndindex nb).foldl (fun (st : (List ℕ → ℝ) × (List ℕ → ℝ)) pos =>
    (fun p => if inBlk blksz stpsz pos p then
        st.1 p + blks.get (offs blksz stpsz pos p ++ pos) else st.1 p,
      fun p => if inBlk blksz stpsz pos p then st.2 p + 1 else st.2 p))
    (fun _ => 0, fun _ => 0)
  ⟨imgsz, fun p => if 0 < st.2 p then some (st.1 p / st.2 p) else none⟩

open Classical in
/-- `combine_blocks` (`array.py` 432-482): every cell collects a list of values, to which `fn`
is applied. -/
noncomputable def combineBlocks (fn : List α → α) (blks : ND α) (imgsz stpsz : List ℕ) : ND α :=
  let blksz := blks.shape.dropLast
  let nb := numBlocks imgsz blksz stpsz
  let blks := reshape blks (blksz ++ nb)
  let imgs := (ndindex nb).foldl (fun (imgs : List ℕ → List α) pos p =>
    if inBlk blksz stpsz pos p then imgs p ++ [blks.get (offs blksz stpsz pos p ++ pos)]
    else imgs p) (fun _ => [])
  ⟨imgsz, fun p => fn (imgs p)⟩

/-! ## `rolling_window`, `subsample_array`, `split` -/

/-- `rolling_window` (`array.py` 247-289) with the default number of shifts. -/
def rollingWindow (x : View α) (wsz : List ℕ) : View α :=
  asStrided x (wsz ++ List.zipWith (fun a b => a - b + 1) x.shape wsz) (x.strides ++ x.strides)

/-- `subsample_array` (`array.py` 293-334) without padding; `none` is the `ValueError`. -/
def subsampleArray (x : View α) (step : List ℕ) : Option (View α) :=
  if List.Forall₂ (· < ·) step x.shape then
    some (asStrided x (step ++ List.zipWith (· / ·) x.shape step)
      (x.strides ++ List.zipWith (fun (s : ℕ) (t : ℤ) => (s : ℤ) * t) step x.strides))
  else none

/-- `split` (`array.py` 216-243) for a non-negative axis. -/
def split (u : ND α) (axis : ℕ) : List (ND α) :=
  (List.range (u.shape.getD axis 0)).map fun k =>
    ⟨u.shape.eraseIdx axis, fun idx => u.get (idx.take axis ++ k :: idx.drop axis)⟩

/-! ## Named tuples -/

/-- A `collections.namedtuple` object. -/
structure NTuple (α : Type) where
  name : String
  fields : List String
  vals : List α

/-- `transpose_ntpl_list` (`array.py` 69-91); outer `none` is an `IndexError`, inner `none` is the
result `None`. -/
def transposeNtplList (lst : List (NTuple α)) : Option (Option (NTuple (List α))) :=
  match lst with
  | [] => some none
  | t :: _ =>
    ((List.range t.vals.length).mapM fun l => lst.mapM fun u => u.vals[l]?).map fun v =>
      some ⟨t.name, t.fields, v⟩

/-- A field of a named tuple: a scalar or a sequence. -/
inductive Col (α : Type) where
  | scalar (a : α)
  | seq (l : List α)

/-- The entries a column contributes to `np.hstack`. -/
def Col.flat : Col α → List α
  | .scalar a => [a]
  | .seq l => l

/-- `ntpl2array` (`array.py` 22-41): the object array `(hstack of columns, fields, name)`.  The
conversion of all entries to a common type by `np.hstack` is not modelled. -/
def ntpl2array (t : NTuple (Col α)) : List α × List String × String :=
  (t.vals.flatMap Col.flat, t.fields, t.name)

/-- `array2ntpl` (`array.py` 45-65); `none` is the `TypeError` for a wrong number of arguments. -/
def array2ntpl (a : List α × List String × String) : Option (NTuple (Col α)) :=
  if a.1.length = a.2.1.length then some ⟨a.2.2, a.2.1, a.1.map .scalar⟩ else none

/-! ## `prox/_util.py` -/

/-- `np.transpose(x, prm)` for a permutation `prm` of the axes. -/
def transpose (x : ND α) (prm : List ℕ) : ND α :=
  ⟨prm.map fun k => x.shape.getD k 0,
    fun idx => x.get ((List.range prm.length).map fun j => idx.getD (prm.idxOf j) 0)⟩

/-- `np.argsort(prm)` for a permutation: its inverse. -/
def argsort (prm : List ℕ) : List ℕ := (List.range prm.length).map fun j => prm.idxOf j

/-- `axis` with negative entries resolved (`prox/_util.py` 50). -/
def normAxes (ndim : ℕ) (axis : List ℤ) : List ℕ :=
  axis.map fun k => (if 0 ≤ k then k else (ndim : ℤ) + k : ℤ).toNat

/-- `ndto2d` (`prox/_util.py` 20-66).  Iterating over a set of small integers is taken to give
them in increasing order. -/
def ndto2d (x : ND α) (axis : List ℤ) : ND α × (List ℕ × List ℕ) :=
  let ax := normAxes x.shape.length axis
  let caxis := (List.range x.shape.length).filter fun k => k ∉ ax
  let prm := caxis ++ ax
  let xt := transpose x prm
  let xts := xt.shape
  (reshape xt [(xts.take caxis.length).prod, (xts.drop caxis.length).prod], (xts, prm))

/-- `ndfrom2d` (`prox/_util.py` 70-97). -/
def ndfrom2d (xtr : ND α) (rsi : List ℕ × List ℕ) : ND α :=
  transpose (reshape xtr rsi.1) (argsort rsi.2)

end Sporco.Array
