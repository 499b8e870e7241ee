import Mathlib.Data.EReal.Basic
import Mathlib.Algebra.BigOperators.Group.List.Basic
import Mathlib.Data.List.Forall2
import Mathlib.Tactic.Linarith
import Mathlib.Tactic.Ring

/-!
# Model of `util.grid_search` (`util.py` 80-167), C08
-/

set_option autoImplicit false

namespace Sporco.Util

variable {α : Type}

/-! ## Library functions -/

/-- `itertools.product(*grd)` (`util.py` 143), last axis fastest. -/
def product : List (List α) → List (List α)
  | [] => [[]]
  | a :: as => a.flatMap fun x => (product as).map (x :: ·)

/-- `np.unravel_index(i, shape)` in C order (`util.py` 157, 163). -/
def unravel : List ℕ → ℕ → List ℕ
  | [], _ => []
  | _ :: ns, i => (i / ns.prod) :: unravel ns (i % ns.prod)

/-- Position of a multi-index in the flat C-ordered data of an array. -/
def ravel : List ℕ → List ℕ → ℕ
  | _ :: ns, i :: is => i * ns.prod + ravel ns is
  | _, _ => 0

/-- `np.argmin` or `np.argmax` over a list, first winner kept: index of the current element, best
index, best value. -/
def argFold (better : EReal → EReal → Prop) [∀ a b, Decidable (better a b)] :
    List EReal → ℕ → ℕ → EReal → ℕ
  | [], _, b, _ => b
  | x :: xs, i, b, v => if better x v then argFold better xs (i + 1) i x
      else argFold better xs (i + 1) b v

/-- `a` is strictly better than `b` when minimising (`fmin = true`) or maximising. -/
def Better (fmin : Bool) (a b : EReal) : Prop := if fmin then a < b else b < a

noncomputable instance (fmin : Bool) (a b : EReal) : Decidable (Better fmin a b) := by
  unfold Better; infer_instance

/-- The value by which `np.nanargmin`, `np.nanargmax` replace a NaN. -/
noncomputable def fill (fmin : Bool) : EReal := if fmin then ⊤ else ⊥

/-- `np.nanargmin` / `np.nanargmax` (`util.py` 139-142) of a list of values; `none` is a NaN.
An empty or all-NaN input raises `ValueError` (outer `none`). -/
noncomputable def nanarg (fmin : Bool) (l : List (Option EReal)) : Option ℕ :=
  if l.all (·.isNone) then none
  else match l.map (·.getD (fill fmin)) with
    | [] => none
    | x :: xs => some (argFold (Better fmin) xs 1 0 x)

/-! ## The function -/

/-- Results of `grid_search`: `sprm`, `sfvl`, `fvmx` (shape and flat data), `sidx`. -/
structure GridResult (α β : Type) where
  sprm : List α
  sfvl : β
  shape : List ℕ
  data : List β
  sidx : List ℕ

/-- `fvmx[idx]`. -/
def GridResult.at? {β : Type} (r : GridResult α β) (idx : List ℕ) : Option β :=
  r.data[ravel r.shape idx]?

/-- `[grd[k][sidx[k]] for k in range(len(grd))]` (`util.py` 159, 164). -/
def pick : List (List α) → List ℕ → Option (List α)
  | [], _ => some []
  | _ :: _, [] => none
  | a :: as, i :: is => do
    let x ← a[i]?
    let xs ← pick as is
    return x :: xs

/-- Second half of `grid_search` for scalar values (`util.py` 161-165), from the list `fval` of
values in grid order; also `mpiutil.py` 169-173.  `none` is an exception. -/
noncomputable def gridSelect (fmin : Bool) (grd : List (List α)) (fval : List (Option EReal)) :
    Option (GridResult α (Option EReal)) := do
  let shape := grd.map List.length
  let i ← nanarg fmin fval
  let sidx := unravel shape i
  let sprm ← pick grd sidx
  let sfvl ← fval[ravel shape sidx]?
  return ⟨sprm, sfvl, shape, fval, sidx⟩

/-- `grid_search(fn, grd, fmin)` for a function with scalar values (`util.py` 139-167).
`Pool.map` returns the values in the order of its input, as `map` does: this is the library
contract.  The values of `fn` are extended reals or NaN. -/
noncomputable def gridSearch (fmin : Bool) (fn : List α → Option EReal) (grd : List (List α)) :
    Option (GridResult α (Option EReal)) :=
  gridSelect fmin grd ((product grd).map fn)

/-- `grid_search` for a function returning `m` values (`util.py` 153-160): each column of the
matrix of values is searched by itself.  The result is given column by column: `sprm[:, j]`,
`sfvl[j]`, `fvmx[..., j]`, `sidx[:-1]` at `j`.  An exception in one column is an exception. -/
noncomputable def gridSearchVec (fmin : Bool) (m : ℕ) (fn : List α → Fin m → Option EReal)
    (grd : List (List α)) : Option (Fin m → GridResult α (Option EReal)) :=
  let col (j : Fin m) := gridSelect fmin grd (((product grd).map fn).map (· j))
  if h : ∀ j, (col j).isSome then some fun j => (col j).get (h j) else none

/-- `Pool.map(fn, fprm)` (`util.py` 150): the points are cut into chunks of `c` consecutive points;
whenever a worker is done with a chunk, in whatever order `sched` that happens, the values of the
chunk are stored at the places of its points.  (This is the documented contract of the library,
whose code is not part of the repository.)  `none` is a place not yet written. -/
def poolMap {γ β : Type} (fn : γ → β) (pts : List γ) (c : ℕ) (sched : List ℕ) : List (Option β) :=
  let res : ℕ → Option β := sched.foldl
    (fun (res : ℕ → Option β) (i k : ℕ) => if k / c = i then pts[k]?.map fn else res k)
    (fun _ => none)
  (List.range pts.length).map res

/-! ## Specification -/

/-- `p` is the grid point with index `idx`. -/
def PointAt (grd : List (List α)) (idx : List ℕ) (p : List α) : Prop :=
  idx.length = grd.length ∧ p.length = grd.length ∧
    ∀ k (hk : k < grd.length), ∃ (i : ℕ) (x : α), idx[k]? = some i ∧ p[k]? = some x ∧
      grd[k][i]? = some x

/-- `v` is at least as good as `w`. -/
def GoodAs (fmin : Bool) (v w : EReal) : Prop := if fmin then v ≤ w else w ≤ v

/-- What the result of a search must satisfy. -/
structure Found (fmin : Bool) (fn : List α → Option EReal) (grd : List (List α))
    (r : GridResult α (Option EReal)) (v : EReal) : Prop where
  /-- the parameters are those of the returned index -/
  point : PointAt grd r.sidx r.sprm
  /-- the value is that of the function there, and a number -/
  value : fn r.sprm = some v ∧ r.sfvl = some v
  /-- no grid point has a better value -/
  best : ∀ idx p w, PointAt grd idx p → fn p = some w → GoodAs fmin v w
  /-- of equally good points the first in lexicographic order of the index is returned -/
  first : ∀ idx p, PointAt grd idx p → List.Lex (· < ·) idx r.sidx → fn p ≠ some v
  /-- the returned array holds the value of the function at every grid point -/
  table : ∀ idx p, PointAt grd idx p → r.at? idx = some (fn p)

/-! ## Proofs -/

theorem pointAt_nil (idx : List ℕ) (p : List α) : PointAt ([] : List (List α)) idx p ↔
    idx = [] ∧ p = [] := by
  simp [PointAt]

theorem pointAt_cons (a : List α) (grd : List (List α)) (idx : List ℕ) (p : List α) :
    PointAt (a :: grd) idx p ↔ ∃ i is x xs, idx = i :: is ∧ p = x :: xs ∧ a[i]? = some x ∧
      PointAt grd is xs := by
  constructor
  · rintro ⟨h1, h2, h3⟩
    obtain ⟨i, is, rfl⟩ : ∃ i is, idx = i :: is := by
      cases idx with
      | nil => simp at h1
      | cons i is => exact ⟨i, is, rfl⟩
    obtain ⟨x, xs, rfl⟩ : ∃ i is, p = i :: is := by
      cases p with
      | nil => simp at h2
      | cons i is => exact ⟨i, is, rfl⟩
    refine ⟨i, is, x, xs, rfl, rfl, ?_, by simpa using h1, by simpa using h2, ?_⟩
    · obtain ⟨i', x', hi, hx, ha⟩ := h3 0 (by simp)
      simp at hi hx ha
      subst hi hx; exact ha
    · intro k hk
      obtain ⟨i', x', hi, hx, ha⟩ := h3 (k + 1) (by simpa using hk)
      exact ⟨i', x', by simpa using hi, by simpa using hx, by simpa using ha⟩
  · rintro ⟨i, is, x, xs, rfl, rfl, ha, h1, h2, h3⟩
    refine ⟨by simp [h1], by simp [h2], ?_⟩
    intro k hk
    cases k with
    | zero => exact ⟨i, x, by simp, by simp, by simpa using ha⟩
    | succ k =>
      obtain ⟨i', x', hi, hx, ha⟩ := h3 k (by simpa using hk)
      exact ⟨i', x', by simpa using hi, by simpa using hx, by simpa using ha⟩

theorem product_length (grd : List (List α)) :
    (product grd).length = (grd.map List.length).prod := by
  induction grd with
  | nil => rfl
  | cons a as ih =>
    simp only [product, List.length_flatMap, List.length_map, List.map_cons, List.prod_cons, ih]
    simp

theorem flatMap_get {β γ : Type} (f : β → List γ) (m : ℕ) (hf : ∀ x, (f x).length = m)
    (a : List β) (i j : ℕ) (hj : j < m) :
    (a.flatMap f)[i * m + j]? = (a[i]?).bind fun x => (f x)[j]? := by
  induction a generalizing i with
  | nil => simp
  | cons x xs ih =>
    rw [List.flatMap_cons]
    cases i with
    | zero =>
      simp only [zero_mul, zero_add, List.getElem?_cons_zero, Option.bind_some]
      rw [List.getElem?_append_left (by rw [hf]; exact hj)]
    | succ i =>
      rw [List.getElem?_append_right (by rw [hf]; nlinarith), hf]
      have : (i + 1) * m + j - m = i * m + j := by
        rw [Nat.add_mul, one_mul]; omega
      rw [this, ih]
      simp

/-- Indices within the shape. -/
def Valid (shape idx : List ℕ) : Prop := List.Forall₂ (· < ·) idx shape

theorem ravel_lt : ∀ (shape idx : List ℕ), Valid shape idx → ravel shape idx < shape.prod := by
  intro shape
  induction shape with
  | nil => intro idx h; simp [ravel]
  | cons n ns ih =>
    intro idx h
    cases h with
    | cons hi ht =>
      simp only [ravel, List.prod_cons]
      have := ih _ ht
      nlinarith

theorem pointAt_valid (grd : List (List α)) : ∀ idx p, PointAt grd idx p →
    Valid (grd.map List.length) idx := by
  induction grd with
  | nil => intro idx p h; rw [pointAt_nil] at h; rw [h.1]; exact List.Forall₂.nil
  | cons a as ih =>
    intro idx p h
    rw [pointAt_cons] at h
    obtain ⟨i, is, x, xs, rfl, rfl, ha, h⟩ := h
    exact List.Forall₂.cons (List.getElem?_eq_some_iff.1 ha).1 (ih _ _ h)

theorem pointAt_of_valid (grd : List (List α)) : ∀ idx, Valid (grd.map List.length) idx →
    ∃ p, PointAt grd idx p := by
  induction grd with
  | nil => intro idx h; cases h; exact ⟨[], (pointAt_nil _ _).2 ⟨rfl, rfl⟩⟩
  | cons a as ih =>
    intro idx h
    cases h with
    | cons hi ht =>
      obtain ⟨p, hp⟩ := ih _ ht
      exact ⟨a[_] :: p, (pointAt_cons _ _ _ _).2 ⟨_, _, _, _, rfl, rfl,
        List.getElem?_eq_getElem hi, hp⟩⟩

theorem pick_pointAt (grd : List (List α)) : ∀ idx p, PointAt grd idx p → pick grd idx = some p := by
  induction grd with
  | nil => intro idx p h; rw [pointAt_nil] at h; rw [h.1, h.2]; rfl
  | cons a as ih =>
    intro idx p h
    rw [pointAt_cons] at h
    obtain ⟨i, is, x, xs, rfl, rfl, ha, h⟩ := h
    simp [pick, ha, ih _ _ h]

theorem product_get (grd : List (List α)) : ∀ idx p, PointAt grd idx p →
    (product grd)[ravel (grd.map List.length) idx]? = some p := by
  induction grd with
  | nil => intro idx p h; rw [pointAt_nil] at h; rw [h.1, h.2]; rfl
  | cons a as ih =>
    intro idx p h
    rw [pointAt_cons] at h
    obtain ⟨i, is, x, xs, rfl, rfl, ha, h⟩ := h
    have hv := ravel_lt _ _ (pointAt_valid _ _ _ h)
    simp only [product, List.map_cons, ravel]
    rw [flatMap_get _ (as.map List.length).prod (fun x => by rw [List.length_map, product_length])
      _ _ _ hv, ha]
    simp [ih _ _ h]

theorem unravel_valid : ∀ (shape : List ℕ) (i : ℕ), i < shape.prod →
    Valid shape (unravel shape i) ∧ ravel shape (unravel shape i) = i := by
  intro shape
  induction shape with
  | nil => intro i h; simp at h; subst h; exact ⟨List.Forall₂.nil, rfl⟩
  | cons n ns ih =>
    intro i h
    rw [List.prod_cons] at h
    have hp : 0 < ns.prod := by
      rcases Nat.eq_zero_or_pos ns.prod with h0 | h0
      · rw [h0] at h; simp at h
      · exact h0
    obtain ⟨h1, h2⟩ := ih (i % ns.prod) (Nat.mod_lt _ hp)
    refine ⟨List.Forall₂.cons (Nat.div_lt_of_lt_mul (by rwa [mul_comm] at h)) h1, ?_⟩
    simp only [unravel, ravel, h2]
    rw [mul_comm]
    exact Nat.div_add_mod i ns.prod

theorem ravel_lex : ∀ (shape a b : List ℕ), Valid shape a → Valid shape b →
    List.Lex (· < ·) a b → ravel shape a < ravel shape b := by
  intro shape
  induction shape with
  | nil => intro a b ha hb h; cases ha; cases hb; cases h
  | cons n ns ih =>
    intro a b ha hb h
    cases ha with
    | cons ha1 ha2 =>
      cases hb with
      | cons hb1 hb2 =>
        simp only [ravel]
        cases h with
        | cons h => have := ih _ _ ha2 hb2 h; omega
        | rel h =>
          have := ravel_lt _ _ ha2
          nlinarith

section ArgFold

variable (better : EReal → EReal → Prop) [∀ a b, Decidable (better a b)]

/-- The fold returns the first index whose value nothing beats. -/
theorem argFold_spec (hirr : ∀ a, ¬ better a a)
    (htr : ∀ a b c, better a b → better b c → better a c)
    (hneg : ∀ a b c, ¬ better b a → ¬ better c b → ¬ better c a) :
    ∀ (xs pre : List EReal) (b : ℕ) (v : EReal), pre[b]? = some v →
      (∀ (j : ℕ) w, pre[j]? = some w → ¬ better w v) → (∀ (j : ℕ) w, j < b → pre[j]? = some w → better v w) →
      ∃ u, (pre ++ xs)[argFold better xs pre.length b v]? = some u ∧
        (∀ (j : ℕ) w, (pre ++ xs)[j]? = some w → ¬ better w u) ∧
        (∀ (j : ℕ) w, j < argFold better xs pre.length b v → (pre ++ xs)[j]? = some w → better u w) := by
  intro xs
  induction xs with
  | nil => intro pre b v h1 h2 h3; exact ⟨v, by simpa [argFold] using h1, by simpa using h2,
      by simpa [argFold] using h3⟩
  | cons x xs ih =>
    intro pre b v h1 h2 h3
    simp only [argFold]
    have hb : b < pre.length := (List.getElem?_eq_some_iff.1 h1).1
    split
    · rename_i hx
      have := ih (pre ++ [x]) pre.length x (by simp) (by
        intro j w hj
        rcases Nat.lt_trichotomy j pre.length with h | h | h
        · rw [List.getElem?_append_left h] at hj
          intro hw; exact h2 j w hj (htr _ _ _ hw hx)
        · subst h; simp at hj; subst hj; exact hirr _
        · rw [List.getElem?_eq_none (by simp; omega)] at hj; cases hj) (by
        intro j w h hj
        rw [List.getElem?_append_left h] at hj
        by_contra hc
        exact hneg _ _ _ (h2 j w hj) hc hx)
      simpa using this
    · rename_i hx
      have := ih (pre ++ [x]) b v (by rw [List.getElem?_append_left hb]; exact h1) (by
        intro j w hj
        rcases Nat.lt_trichotomy j pre.length with h | h | h
        · rw [List.getElem?_append_left h] at hj; exact h2 j w hj
        · subst h; simp at hj; subst hj; exact hx
        · rw [List.getElem?_eq_none (by simp; omega)] at hj; cases hj) (by
        intro j w h hj
        rw [List.getElem?_append_left (by omega)] at hj
        exact h3 j w h hj)
      simpa using this

end ArgFold

theorem nanarg_spec (fmin : Bool) (l : List (Option EReal)) (v0 : EReal) (hv : some v0 ∈ l) :
    ∃ (i : ℕ) (u : EReal), nanarg fmin l = some i ∧ l[i]?.map (·.getD (fill fmin)) = some u ∧
      (∀ (j : ℕ) (w : EReal), l[j]?.map (·.getD (fill fmin)) = some w → ¬ Better fmin w u) ∧
      (∀ (j : ℕ) (w : EReal), j < i → l[j]?.map (·.getD (fill fmin)) = some w → Better fmin u w) := by
  unfold nanarg
  rw [if_neg (by
    simp only [List.all_eq_true, not_forall]
    exact ⟨some v0, hv, by simp⟩)]
  rcases hl : l.map (·.getD (fill fmin)) with _ | ⟨x, xs⟩
  · rw [List.map_eq_nil_iff] at hl; subst hl; cases hv
  · have := argFold_spec (Better fmin) (by intro a; unfold Better; split <;> simp)
      (by intro a b c; unfold Better; split
          · exact lt_trans
          · exact fun h1 h2 => lt_trans h2 h1)
      (by intro a b c; unfold Better; split
          · simp only [not_lt]; exact le_trans
          · simp only [not_lt]; exact fun h1 h2 => le_trans h2 h1) xs [x] 0 x (by simp)
      (by intro j w hj
          rcases j with _ | j
          · simp at hj; subst hj; unfold Better; split <;> simp
          · simp at hj) (by simp)
    obtain ⟨u, h1, h2, h3⟩ := this
    simp only [List.singleton_append, List.length_singleton, ← hl, List.getElem?_map] at h1 h2 h3
    exact ⟨_, u, by rw [hl], h1, h2, h3⟩

theorem gridSelect_spec (fmin : Bool) (fn : List α → Option EReal) (grd : List (List α))
    (hex : ∃ idx p w, PointAt grd idx p ∧ fn p = some w ∧ w ≠ fill fmin) :
    ∃ r v, gridSelect fmin grd ((product grd).map fn) = some r ∧ Found fmin fn grd r v := by
  obtain ⟨idx0, p0, w0, hp0, hw0, hne⟩ := hex
  have hget : ∀ idx p, PointAt grd idx p →
      ((product grd).map fn)[ravel (grd.map List.length) idx]? = some (fn p) := by
    intro idx p h
    rw [List.getElem?_map, product_get _ _ _ h]; rfl
  obtain ⟨i, u, hi, hu, hbest, hfirst⟩ := nanarg_spec fmin ((product grd).map fn) w0
    (by rw [← hw0]; exact List.mem_of_getElem? (hget _ _ hp0))
  have hilt : i < (grd.map List.length).prod := by
    rw [← product_length]
    by_contra hc
    rw [List.getElem?_eq_none (by simpa using hc)] at hu
    cases hu
  obtain ⟨hval, hrav⟩ := unravel_valid _ _ hilt
  obtain ⟨p, hp⟩ := pointAt_of_valid _ _ hval
  have hgp := hget _ _ hp
  rw [hrav] at hgp
  rw [hgp] at hu
  simp only [Option.map_some, Option.some.injEq] at hu
  have hu0 := hbest _ w0 (by rw [hget _ _ hp0, hw0]; rfl)
  have hufill : u ≠ fill fmin := by
    rintro rfl
    unfold Better fill at hu0
    unfold fill at hne
    cases fmin
    · simp only [Bool.false_eq_true, if_false, not_lt, le_bot_iff] at hu0 hne
      exact hne hu0
    · simp only [if_true, not_lt, top_le_iff] at hu0 hne
      exact hne hu0
  have hfp : fn p = some u := by
    rcases h : fn p with _ | x
    · rw [h] at hu; exact absurd hu.symm hufill
    · rw [h] at hu; simp at hu; rw [hu]
  refine ⟨⟨p, fn p, grd.map List.length, (product grd).map fn, unravel (grd.map List.length) i⟩, u,
    ?_, hp, ⟨hfp, hfp⟩, ?_, ?_, fun idx q hq => hget _ _ hq⟩
  · unfold gridSelect
    simp only [hi, pick_pointAt _ _ _ hp, hrav, hgp, Option.bind_eq_bind, Option.bind_some]
    rfl
  · intro idx q w hq hw
    have := hbest _ w (by rw [hget _ _ hq, hw]; rfl)
    unfold Better at this
    unfold GoodAs
    cases fmin <;> simpa using this
  · intro idx q hq hlex hw
    have hlt := ravel_lex _ _ _ (pointAt_valid _ _ _ hq) hval hlex
    rw [hrav] at hlt
    have := hfirst _ u hlt (by rw [hget _ _ hq, hw]; rfl)
    unfold Better at this
    cases fmin <;> simp at this

/-- **C08.** For every function, every grid and both directions: if at some grid point the
function is a number other than the worst one (`+inf` when minimising), the search returns the
parameters and the index of a grid point and the value there, no other grid point has a better
value, ties go to the lexicographically first index, and the returned array holds the value of
every grid point.  NaN values are never selected. -/
theorem C08_grid_search_partial (fmin : Bool) (fn : List α → Option EReal) (grd : List (List α))
    (hex : ∃ idx p w, PointAt grd idx p ∧ fn p = some w ∧ w ≠ fill fmin) :
    ∃ r v, gridSearch fmin fn grd = some r ∧ Found fmin fn grd r v :=
  gridSelect_spec fmin fn grd hex

/-- **C08**, functions with several values: each value is searched by itself, and the results
do not depend on the other values. -/
theorem C08_vector_partial (fmin : Bool) (m : ℕ) (fn : List α → Fin m → Option EReal)
    (grd : List (List α))
    (hex : ∀ j, ∃ idx p w, PointAt grd idx p ∧ fn p j = some w ∧ w ≠ fill fmin) :
    ∃ r, gridSearchVec fmin m fn grd = some r ∧
      ∀ j, ∃ v, Found fmin (fun p => fn p j) grd (r j) v := by
  have h : ∀ j, ∃ r v, gridSelect fmin grd (((product grd).map fn).map (· j)) = some r ∧
      Found fmin (fun p => fn p j) grd r v := by
    intro j
    rw [List.map_map]
    exact gridSelect_spec fmin (fun p => fn p j) grd (hex j)
  choose r v hr hf using h
  refine ⟨r, ?_, fun j => ⟨v j, hf j⟩⟩
  unfold gridSearchVec
  simp only [hr, Option.isSome_some, implies_true, dite_true, Option.get_some]

/-- **C08.** The values do not depend on the number of worker processes: for every chunk size and
every order in which all chunks are completed, the values are those of the serial computation. -/
theorem C08_pool {γ β : Type} (fn : γ → β) (pts : List γ) (c : ℕ) (sched : List ℕ)
    (hall : ∀ k < pts.length, k / c ∈ sched) :
    poolMap fn pts c sched = (pts.map fn).map some := by
  have key : ∀ (sched : List ℕ) (res : ℕ → Option β) (k : ℕ),
      (k / c ∈ sched ∨ res k = pts[k]?.map fn) →
      sched.foldl (fun (res : ℕ → Option β) (i k : ℕ) => if k / c = i then pts[k]?.map fn else res k)
        res k = pts[k]?.map fn := by
    intro sched
    induction sched with
    | nil => intro res k h; simpa using h
    | cons i is ih =>
      intro res k h
      rw [List.foldl_cons]
      apply ih
      rcases h with h | h
      · rcases List.mem_cons.1 h with h | h
        · right; simp [h]
        · left; exact h
      · right; split <;> simp [h]
  unfold poolMap
  apply List.ext_getElem
  · simp
  · intro k h1 h2
    simp only [List.length_map, List.length_range] at h1
    simp only [List.getElem_map, List.getElem_range]
    rw [key sched _ k (Or.inl (hall k h1)), List.getElem?_eq_getElem h1]
    rfl

/-- **C08.** An exception is raised when the grid is empty or every value is NaN. -/
theorem C08_all_nan (fmin : Bool) (fn : List α → Option EReal) (grd : List (List α))
    (h : ∀ idx p, PointAt grd idx p → fn p = none) : gridSearch fmin fn grd = none := by
  unfold gridSearch gridSelect nanarg
  rw [if_pos]
  · rfl
  · rw [List.all_eq_true]
    intro x hx
    obtain ⟨i, hi, rfl⟩ := List.getElem_of_mem hx
    rw [List.length_map, product_length] at hi
    obtain ⟨hv, hr⟩ := unravel_valid _ _ hi
    obtain ⟨p, hp⟩ := pointAt_of_valid _ _ hv
    have := product_get _ _ _ hp
    rw [hr] at this
    obtain ⟨h1, h2⟩ := List.getElem?_eq_some_iff.1 this
    rw [List.getElem_map, h2, h _ _ hp]
    rfl

/-- **C08**, what is missing in the theorems above: when the only numbers on the grid are
`+inf`, a search for the minimum can return a point where the value is NaN although another
point has a number. -/
theorem C08_refuted : ∃ (fn : List ℕ → Option EReal) (grd : List (List ℕ)),
    (∃ idx p w, PointAt grd idx p ∧ fn p = some w) ∧
    ∃ r, gridSearch true fn grd = some r ∧ r.sfvl = none := by
  refine ⟨fun p => if p = [1] then some ⊤ else none, [[0, 1]], ⟨[1], [1], ⊤, ?_, by simp⟩, ?_⟩
  · rw [pointAt_cons]; exact ⟨1, [], 1, [], rfl, rfl, rfl, (pointAt_nil _ _).2 ⟨rfl, rfl⟩⟩
  · refine ⟨⟨[0], none, [2], [none, some ⊤], [0]⟩, ?_, rfl⟩
    have h1 : (product [[0, 1]] : List (List ℕ)) = [[0], [1]] := rfl
    unfold gridSearch gridSelect nanarg
    rw [h1]
    simp [argFold, Better, fill, unravel, pick, ravel]

/-- A two-axis grid on which the hypothesis of the theorems holds. -/
example : ∃ idx p w, PointAt [[1, 2, 3], [10, 20]] idx p ∧
    (fun p : List ℕ => if p = [2, 20] then some ((5 : ℝ) : EReal) else none) p = some w ∧
    w ≠ fill true := by
  refine ⟨[1, 1], [2, 20], ((5 : ℝ) : EReal), ?_, by simp, by simp [fill]⟩
  rw [pointAt_cons]
  refine ⟨1, [1], 2, [20], rfl, rfl, rfl, ?_⟩
  rw [pointAt_cons]
  exact ⟨1, [], 20, [], rfl, rfl, rfl, (pointAt_nil _ _).2 ⟨rfl, rfl⟩⟩

end Sporco.Util
