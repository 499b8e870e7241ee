import Verif.Array.Model
import Mathlib.Algebra.BigOperators.Intervals
import Mathlib.Tactic.Ring
import Mathlib.Tactic.NormNum

/-!
# `linalg.inner` and `linalg.dot`

Arrays are shapes with a value for every index list (`Sporco.Array.ND`); arithmetic on two arrays follows the
broadcasting rule of NumPy, in which shapes are aligned at their last axes.
-/

set_option autoImplicit false

namespace Sporco.Linalg.Inner

open Sporco.Array Finset

variable {R : Type} [CommRing R]

/-- Common length of two axes: equal, or one of them is one. -/
def bdim (a b : ℕ) : Option ℕ := if a = b then some a else if a = 1 then some b else if b = 1 then some a else none

/-- Broadcasting of shapes of the same rank. -/
def bsame : List ℕ → List ℕ → Option (List ℕ)
  | [], [] => some []
  | a :: as, b :: bs => (bdim a b).bind fun c => (bsame as bs).map (c :: ·)
  | _, _ => none

/-- Shape `s` with leading axes of length one up to rank `r`. -/
def lead (r : ℕ) (s : List ℕ) : List ℕ := List.replicate (r - s.length) 1 ++ s

/-- NumPy broadcasting of two shapes. -/
def bshape (s t : List ℕ) : Option (List ℕ) :=
  bsame (lead (max s.length t.length) s) (lead (max s.length t.length) t)

/-- Element of an array at an index of the broadcast array: missing leading axes are dropped, axes of length one are
read at 0. -/
def bget (x : ND R) (idx : List ℕ) : R :=
  x.get (List.zipWith (fun n i => if n = 1 then 0 else i) x.shape (idx.drop (idx.length - x.shape.length)))

/-- `np.moveaxis(x, a, 0)`. -/
def toFront (x : ND R) (a : ℕ) : Option (ND R) :=
  if a < x.shape.length then
    some ⟨x.shape.getD a 0 :: x.shape.eraseIdx a, fun idx => x.get (idx.tail.insertIdx a (idx.headD 0))⟩
  else none

/-- `np.moveaxis(x, 0, a)`. -/
def fromFront (x : ND R) (a : ℕ) : Option (ND R) :=
  if a < x.shape.length then
    some ⟨x.shape.tail.insertIdx a (x.shape.headD 0), fun idx => x.get (idx.getD a 0 :: idx.eraseIdx a)⟩
  else none

/-- `np.einsum(x, [0, Ellipsis], y, [0, Ellipsis])[np.newaxis, ...]`: the first axes are summed (lengths equal or one),
the others are broadcast. -/
def einsum0 (x y : ND R) : Option (ND R) :=
  match x.shape, y.shape with
  | n :: xs, m :: ys =>
    (bdim n m).bind fun l => (bshape xs ys).map fun sh =>
      ⟨1 :: sh, fun idx => ∑ k ∈ range l,
        bget (⟨xs, fun i => x.get ((if n = 1 then 0 else k) :: i)⟩ : ND R) idx.tail *
        bget (⟨ys, fun i => y.get ((if m = 1 then 0 else k) :: i)⟩ : ND R) idx.tail⟩
  | _, _ => none

/-- `sporco/linalg.py` 41-90 `inner`; `none` is an exception. An axis number out of range is taken as an exception
(the code accepts some of them because `moveaxis` allows negative numbers too). -/
def inner (x y : ND R) (axis : ℤ) : Option (ND R) :=
  let axis := if axis < 0 then x.shape.length + axis else axis
  if axis < 0 then none
  else if axis = 0 then einsum0 x y
  else (toFront x axis.toNat).bind fun xr => (toFront y axis.toNat).bind fun yr =>
    (einsum0 xr yr).bind fun ip => fromFront ip axis.toNat

/-- `np.expand_dims(b, a)` -/
def expandDims (b : ND R) (a : ℕ) : ND R := ⟨b.shape.insertIdx a 1, fun idx => b.get (idx.eraseIdx a)⟩

/-- Broadcast product of two arrays. -/
def bmul (x y : ND R) : Option (ND R) := (bshape x.shape y.shape).map fun s => ⟨s, fun i => bget x i * bget y i⟩

/-- `np.sum(x, axis=a, keepdims=True)` -/
def sumAxis (x : ND R) (a : ℕ) : ND R :=
  ⟨x.shape.set a 1, fun idx => ∑ k ∈ range (x.shape.getD a 0), x.get (idx.set a k)⟩

/-- Indexing with 0 on axis `a` and `:` on the others. -/
def takeFirst (x : ND R) (a : ℕ) : ND R := ⟨x.shape.eraseIdx a, fun idx => x.get (idx.insertIdx a 0)⟩

/-- `sporco/linalg.py` 92-144 `dot`; `none` is an exception. The reshaped `a` has its two axes at positions `axis` and
`axis + 1`. -/
def dot (a b : ND R) (axis : ℤ) : Option (ND R) :=
  let axis := if axis < 0 then b.shape.length + axis else axis
  if axis < 0 ∨ (b.shape.length : ℤ) ≤ axis then none
  else match a.shape with
    | [m0, m1] =>
      let k := axis.toNat
      let bx := expandDims b k
      let ax : ND R := ⟨List.replicate k 1 ++ m0 :: m1 :: List.replicate (b.shape.length - k - 1) 1,
        fun idx => a.get [idx.getD k 0, idx.getD (k + 1) 0]⟩
      (bmul ax bx).map fun p => takeFirst (sumAxis p (k + 1)) (k + 1)
    | _ => none

/-! ## Specification -/

/-- `idx` is a valid index for shape `s`. -/
def Valid (s idx : List ℕ) : Prop := List.Forall₂ (· < ·) idx s

/-- `z` is `np.sum(x * y, axis=a, keepdims=True)` for an axis number `0 ≤ a` of the broadcast product. -/
def IsSumProd (x y : ND R) (a : ℕ) (z : ND R) : Prop :=
  ∃ s, bshape x.shape y.shape = some s ∧ a < s.length ∧ z.shape = s.set a 1 ∧
    ∀ idx, Valid (s.set a 1) idx →
      z.get idx = ∑ k ∈ range (s.getD a 0), bget x (idx.set a k) * bget y (idx.set a k)

/-! ## Lemmas -/

theorem bsame_length : ∀ {s t u : List ℕ}, bsame s t = some u → s.length = u.length ∧ t.length = u.length
  | [], [], u, h => by simp only [bsame, Option.some.injEq] at h; subst h; simp
  | a :: as, b :: bs, u, h => by
    simp only [bsame, Option.bind_eq_some_iff, Option.map_eq_some_iff] at h
    obtain ⟨c, -, v, hv, rfl⟩ := h
    have := bsame_length hv
    simp only [List.length_cons]; omega
  | [], _ :: _, u, h => by simp [bsame] at h
  | _ :: _, [], u, h => by simp [bsame] at h

theorem bsame_erase : ∀ {s t u : List ℕ} (a : ℕ), bsame s t = some u → a < u.length →
    bdim (s.getD a 0) (t.getD a 0) = some (u.getD a 0) ∧
      bsame (s.eraseIdx a) (t.eraseIdx a) = some (u.eraseIdx a)
  | [], [], u, a, h, ha => by simp only [bsame, Option.some.injEq] at h; subst h; simp at ha
  | x :: xs, y :: ys, u, a, h, ha => by
    simp only [bsame, Option.bind_eq_some_iff, Option.map_eq_some_iff] at h
    obtain ⟨c, hc, v, hv, rfl⟩ := h
    cases a with
    | zero => simpa using ⟨hc, hv⟩
    | succ a =>
      obtain ⟨h1, h2⟩ := bsame_erase a hv (by simpa using ha)
      refine ⟨by simpa using h1, ?_⟩
      simp [bsame, hc, h2]
  | [], _ :: _, u, _, h, _ => by simp [bsame] at h
  | _ :: _, [], u, _, h, _ => by simp [bsame] at h

theorem zipWith_set (f : ℕ → ℕ → ℕ) (k : ℕ) : ∀ (s idx : List ℕ) (a : ℕ), s.length = idx.length → a < s.length →
    List.zipWith f s (idx.set a k) =
      (List.zipWith f (s.eraseIdx a) (idx.eraseIdx a)).insertIdx a (f (s.getD a 0) k)
  | [], _, _, _, ha => by simp at ha
  | _ :: _, [], _, h, _ => by simp at h
  | x :: xs, i :: is, a, h, ha => by
    cases a with
    | zero => simp
    | succ a =>
      have := zipWith_set f k xs is a (by simpa using h) (by simpa using ha)
      simp [this]

theorem insert_erase (x : ℕ) : ∀ (u : List ℕ) (a : ℕ), a < u.length → (u.eraseIdx a).insertIdx a x = u.set a x
  | [], _, h => by simp at h
  | y :: ys, a, h => by
    cases a with
    | zero => simp
    | succ a => simp [insert_erase x ys a (by simpa using h)]

theorem bshape_same {s t : List ℕ} (h : s.length = t.length) : bshape s t = bsame s t := by
  simp [bshape, lead, h]

theorem bget_full (x : ND R) (idx : List ℕ) (h : idx.length = x.shape.length) :
    bget x idx = x.get (List.zipWith (fun n i => if n = 1 then 0 else i) x.shape idx) := by
  simp [bget, h]

/-- `inner` computes `np.sum(x * y, axis, keepdims=True)` for arrays of the same rank with shapes that broadcast and
every axis number in range, negative ones included. Missing: arrays of different ranks, see
`C58_inner_refuted`. -/
theorem C58_inner_partial (x y : ND R) (axis : ℤ) (u : List ℕ) (hr : x.shape.length = y.shape.length)
    (hu : bshape x.shape y.shape = some u)
    (hax : -(x.shape.length : ℤ) ≤ axis ∧ axis < x.shape.length) :
    ∃ z, inner x y axis = some z ∧
      IsSumProd x y (if axis < 0 then x.shape.length + axis else axis).toNat z := by
  have hu' := hu
  rw [bshape_same hr] at hu'
  obtain ⟨hlx, hly⟩ := bsame_length hu'
  obtain ⟨b, hb, hbl⟩ : ∃ b : ℕ, (if axis < 0 then (x.shape.length : ℤ) + axis else axis) = b ∧
      b < x.shape.length := by
    split_ifs with h
    · exact ⟨(x.shape.length + axis).toNat, by omega, by omega⟩
    · exact ⟨axis.toNat, by omega, by omega⟩
  have hbu : b < u.length := by omega
  obtain ⟨h1, h2⟩ := bsame_erase b hu' hbu
  have hes : bshape (x.shape.eraseIdx b) (y.shape.eraseIdx b) = some (u.eraseIdx b) := by
    rw [bshape_same, h2]
    rw [List.length_eraseIdx_of_lt hbl, List.length_eraseIdx_of_lt (by omega), hr]
  -- the value of the summed product
  have key : ∀ (v : ND R) (hv : v.shape.length = u.length) (idx : List ℕ) (k : ℕ), idx.length = u.length →
      bget v (idx.set b k) = bget (⟨v.shape.eraseIdx b, fun i => v.get (i.insertIdx b
        (if v.shape.getD b 0 = 1 then 0 else k))⟩ : ND R) (idx.eraseIdx b) := by
    intro v hv idx k hi
    rw [bget_full _ _ (by simp; omega), bget_full]
    · dsimp only
      rw [zipWith_set _ _ _ _ _ (by omega) (by omega)]
    · dsimp only
      rw [List.length_eraseIdx_of_lt (by omega), List.length_eraseIdx_of_lt (by omega)]; omega
  have hval : ∀ idx, Valid (u.set b 1) idx → idx.length = u.length := by
    intro idx h
    have := h.length_eq
    simpa using this
  by_cases h0 : b = 0
  · subst h0
    obtain ⟨n, xs, hx⟩ := List.exists_cons_of_length_pos hbl
    obtain ⟨m, ys, hy⟩ := List.exists_cons_of_length_pos (show 0 < y.shape.length by omega)
    rw [hx, hy] at hes h1
    simp only [List.getD_cons_zero, List.eraseIdx_cons_zero] at hes h1
    have he : ∃ z, einsum0 x y = some z ∧ z.shape = 1 :: u.eraseIdx 0 ∧ ∀ idx, z.get idx =
        ∑ k ∈ range (u.getD 0 0),
        bget (⟨xs, fun i => x.get ((if n = 1 then 0 else k) :: i)⟩ : ND R) idx.tail *
        bget (⟨ys, fun i => y.get ((if m = 1 then 0 else k) :: i)⟩ : ND R) idx.tail := by
      unfold einsum0
      simp only [hx, hy, h1, Option.bind_some, hes, Option.map_some]
      exact ⟨_, rfl, rfl, fun _ => rfl⟩
    obtain ⟨z, hz, hzs, hzg⟩ := he
    refine ⟨z, by unfold inner; simp only [hb]; simpa using hz, u, hu, ?_, ?_, ?_⟩
    · rw [hb]; simpa using hbu
    · rw [hb, hzs]
      simp only [Nat.cast_zero, Int.toNat_zero]
      obtain ⟨c, us, rfl⟩ := List.exists_cons_of_length_pos hbu
      simp
    · rw [hb]
      simp only [Nat.cast_zero, Int.toNat_zero]
      intro idx hidx
      rw [hzg]
      refine sum_congr rfl fun k _ => ?_
      rw [key x hlx idx k (hval idx hidx), key y hly idx k (hval idx hidx)]
      simp only [hx, hy, List.eraseIdx_cons_zero, List.getD_cons_zero, List.insertIdx_zero]
      cases idx <;> rfl
  · have he : ∃ z, einsum0 (⟨x.shape.getD b 0 :: x.shape.eraseIdx b,
          fun idx => x.get (idx.tail.insertIdx b (idx.headD 0))⟩ : ND R)
        (⟨y.shape.getD b 0 :: y.shape.eraseIdx b,
          fun idx => y.get (idx.tail.insertIdx b (idx.headD 0))⟩ : ND R) = some z ∧
        z.shape = 1 :: u.eraseIdx b ∧ ∀ idx, z.get idx =
        ∑ k ∈ range (u.getD b 0),
        bget (⟨x.shape.eraseIdx b, fun i => x.get (i.insertIdx b (if x.shape.getD b 0 = 1 then 0 else k))⟩ : ND R)
          idx.tail *
        bget (⟨y.shape.eraseIdx b, fun i => y.get (i.insertIdx b (if y.shape.getD b 0 = 1 then 0 else k))⟩ : ND R)
          idx.tail := by
      unfold einsum0
      simp only [h1, Option.bind_some, hes, Option.map_some]
      exact ⟨_, rfl, rfl, fun _ => rfl⟩
    obtain ⟨z, hz, hzs, hzg⟩ := he
    have hel : (u.eraseIdx b).length + 1 = u.length := by
      rw [List.length_eraseIdx_of_lt hbu]; omega
    refine ⟨⟨(u.eraseIdx b).insertIdx b 1, fun idx => z.get (idx.getD b 0 :: idx.eraseIdx b)⟩, ?_, u, hu, ?_, ?_, ?_⟩
    · have hby : b < y.shape.length := by omega
      unfold inner toFront
      simp only [hb]
      rw [if_neg (by omega), if_neg (by omega)]
      simp only [Int.toNat_natCast, hbl, hby, if_true, Option.bind_some]
      rw [hz]
      simp only [Option.bind_some, fromFront, hzs, List.length_cons, hel, hbu, if_true, List.tail_cons,
        List.headD_cons]
    · rw [hb]; simpa using hbu
    · rw [hb]; simp only [Int.toNat_natCast]
      exact insert_erase 1 u b hbu
    · rw [hb]; simp only [Int.toNat_natCast]
      intro idx hidx
      rw [hzg]
      refine sum_congr rfl fun k _ => ?_
      rw [key x hlx idx k (hval idx hidx), key y hly idx k (hval idx hidx)]
      rfl

theorem insertIdx_app (x : ℕ) (i : ℕ) : ∀ p q : List ℕ,
    (p ++ q).insertIdx (p.length + i) x = p ++ q.insertIdx i x
  | [], q => by simp
  | y :: ys, q => by
    rw [List.length_cons, show ys.length + 1 + i = ys.length + i + 1 by omega, List.cons_append,
      List.insertIdx_succ_cons, insertIdx_app x i ys q, List.cons_append]

theorem bdim_self (n : ℕ) : bdim n n = some n := by simp [bdim]
theorem bdim_one (n : ℕ) : bdim 1 n = some n := by simp only [bdim]; split_ifs with h <;> simp [*]
theorem bdim_one' (n : ℕ) : bdim n 1 = some n := by simp only [bdim]; split_ifs with h <;> simp [*]

theorem bsame_ones : ∀ p : List ℕ, bsame (List.replicate p.length 1) p = some p
  | [] => rfl
  | x :: xs => by simp [bsame, List.replicate_succ, bdim_one, bsame_ones xs]

theorem bsame_append : ∀ {s t u : List ℕ} {s' t' u' : List ℕ}, bsame s t = some u → bsame s' t' = some u' →
    bsame (s ++ s') (t ++ t') = some (u ++ u')
  | [], [], u, s', t', u', h, h' => by
    simp only [bsame, Option.some.injEq] at h; subst h; simpa using h'
  | a :: as, b :: bs, u, s', t', u', h, h' => by
    simp only [bsame, Option.bind_eq_some_iff, Option.map_eq_some_iff] at h
    obtain ⟨c, hc, v, hv, rfl⟩ := h
    simp [bsame, hc, bsame_append hv h']
  | [], _ :: _, u, _, _, _, h, _ => by simp [bsame] at h
  | _ :: _, [], u, _, _, _, h, _ => by simp [bsame] at h

theorem clamp_valid : ∀ {s i : List ℕ}, Valid s i →
    List.zipWith (fun n i => if n = 1 then 0 else i) s i = i
  | [], [], _ => rfl
  | n :: s, i :: is, h => by
    obtain ⟨h1, h2⟩ := List.forall₂_cons.1 h
    simp only [List.zipWith_cons_cons, clamp_valid h2, List.cons.injEq, and_true]
    split_ifs with hn
    · omega
    · rfl
  | [], _ :: _, h => by cases h
  | _ :: _, [], h => by cases h

/-- `dot` is the matrix product of `a` with the chosen axis of `b`: that axis of length `m1` becomes one of length
`m0`, and every fibre of `b` along it is multiplied by `a`. All shapes, all axis numbers in range. -/
theorem C58_dot (a b : ND R) (m0 m1 : ℕ) (axis : ℤ) (k : ℕ) (ha : a.shape = [m0, m1])
    (hk : (if axis < 0 then b.shape.length + axis else axis) = k) (hkb : b.shape[k]? = some m1) :
    ∃ z, dot a b axis = some z ∧ z.shape = b.shape.set k m0 ∧
      ∀ idx, Valid z.shape idx → z.get idx = ∑ j ∈ range m1, a.get [idx.getD k 0, j] * b.get (idx.set k j) := by
  obtain ⟨hkl, hkv⟩ := List.getElem?_eq_some_iff.1 hkb
  obtain ⟨p, q, hb, hp⟩ : ∃ p q, b.shape = p ++ m1 :: q ∧ p.length = k :=
    ⟨b.shape.take k, b.shape.drop (k + 1), by rw [← hkv]; simp, by simp; omega⟩
  have hins : b.shape.insertIdx k 1 = p ++ 1 :: m1 :: q := by
    rw [hb, ← hp]; exact insertIdx_app 1 0 p (m1 :: q)
  have hlen : b.shape.length - k - 1 = q.length := by rw [hb]; simp; omega
  have hbs : bsame (List.replicate k 1 ++ m0 :: m1 :: List.replicate (b.shape.length - k - 1) 1)
      (b.shape.insertIdx k 1) = some (p ++ m0 :: m1 :: q) := by
    rw [hins, hlen, ← hp]
    refine bsame_append (bsame_ones p) ?_
    simp [bsame, bdim_one', bdim_self, bsame_ones q]
  have hlen2 : (List.replicate k 1 ++ m0 :: m1 :: List.replicate (b.shape.length - k - 1) 1).length =
      (b.shape.insertIdx k 1).length := by
    obtain ⟨h1, h2⟩ := bsame_length hbs
    omega
  have hdot : ∃ z, dot a b axis = some z ∧ z.shape = p ++ m0 :: q ∧ ∀ idx, z.get idx =
      ∑ j ∈ range m1,
        bget (⟨List.replicate k 1 ++ m0 :: m1 :: List.replicate (b.shape.length - k - 1) 1,
          fun idx => a.get [idx.getD k 0, idx.getD (k + 1) 0]⟩ : ND R) ((idx.insertIdx (k + 1) 0).set (k + 1) j) *
        bget (expandDims b k) ((idx.insertIdx (k + 1) 0).set (k + 1) j) := by
    unfold dot
    simp only [hk]
    rw [if_neg (by omega)]
    simp only [ha, Int.toNat_natCast]
    unfold bmul
    rw [show (expandDims b k).shape = b.shape.insertIdx k 1 from rfl, bshape_same hlen2, hbs]
    refine ⟨_, rfl, ?_, ?_⟩
    · simp only [takeFirst, sumAxis]
      subst hp
      simp [List.set_append_right, List.eraseIdx_append_of_length_le]
    · intro idx
      simp only [takeFirst, sumAxis]
      refine sum_congr ?_ fun j _ => rfl
      congr 1
      subst hp
      simp [List.getD_eq_getElem?_getD]
  obtain ⟨z, hz, hzs, hzg⟩ := hdot
  have hset : b.shape.set k m0 = p ++ m0 :: q := by rw [hb, ← hp]; simp [List.set_append_right]
  refine ⟨z, hz, by rw [hset, hzs], fun idx hidx => ?_⟩
  rw [hzs] at hidx
  obtain ⟨ip, i0, iq, rfl, hip, hi0, hiq⟩ : ∃ ip i0 iq, idx = ip ++ i0 :: iq ∧ Valid p ip ∧ i0 < m0 ∧ Valid q iq := by
    have h1 := List.forall₂_take_append _ _ _ hidx
    have h2 := List.forall₂_drop_append _ _ _ hidx
    obtain ⟨i0, iq, h3, h4, h5⟩ := List.forall₂_cons_right_iff.1 h2
    exact ⟨idx.take p.length, i0, iq, by rw [← h5, List.take_append_drop], h1, h3, h4⟩
  have hipl : ip.length = k := by rw [← hp]; exact hip.length_eq
  have hiql : iq.length = q.length := hiq.length_eq
  rw [hzg]
  refine sum_congr rfl fun j hj => ?_
  have hj := mem_range.1 hj
  have hI : (((ip ++ i0 :: iq).insertIdx (k + 1) 0).set (k + 1) j) = ip ++ i0 :: j :: iq := by
    subst hipl
    rw [insertIdx_app 0 1 ip (i0 :: iq)]
    simp [List.set_append_right]
  rw [hI]
  congr 1
  · rw [bget_full _ _ (by rw [hlen]; simp [hipl, hiql])]
    dsimp only
    have hzip : List.zipWith (fun n i => if n = 1 then 0 else i)
        (List.replicate k 1 ++ m0 :: m1 :: List.replicate (b.shape.length - k - 1) 1) (ip ++ i0 :: j :: iq) =
        List.zipWith (fun n i => if n = 1 then 0 else i) (List.replicate k 1) ip ++ i0 :: j ::
        List.zipWith (fun n i => if n = 1 then 0 else i) (List.replicate (b.shape.length - k - 1) 1) iq := by
      rw [List.zipWith_append (by simp [hipl])]
      simp only [List.zipWith_cons_cons]
      rw [show (if m0 = 1 then 0 else i0) = i0 by split_ifs <;> omega,
        show (if m1 = 1 then 0 else j) = j by split_ifs <;> omega]
    rw [hzip]
    have hl : (List.zipWith (fun n i => if n = 1 then 0 else i) (List.replicate k 1) ip).length = k := by
      simp [hipl]
    congr 1
    simp [List.getD_eq_getElem?_getD, hl, hipl]
  · rw [bget_full _ _ (by
      change _ = (b.shape.insertIdx k 1).length
      rw [hins]; simp [hipl, hiql, hp])]
    change b.get ((List.zipWith _ (b.shape.insertIdx k 1) _).eraseIdx k) = _
    rw [hins, List.zipWith_append (by rw [hipl, hp])]
    congr 1
    rw [clamp_valid hip]
    simp only [List.zipWith_cons_cons, clamp_valid hiq]
    rw [show (if m1 = 1 then 0 else j) = j by split_ifs <;> omega]
    subst hipl
    simp [List.eraseIdx_append_of_length_le, List.set_append_right]

/-- A product along the middle axis. -/
example : ∃ z, dot (⟨[2, 3], fun i => (i.getD 0 0 + i.getD 1 0 : ℤ)⟩) ⟨[5, 3, 4], fun i => (i.getD 2 0 : ℤ)⟩ (-2) =
    some z ∧ z.shape = [5, 2, 4] ∧ z.get [0, 1, 3] = 18 := by
  obtain ⟨z, h1, h2, h3⟩ := C58_dot (⟨[2, 3], fun i => (i.getD 0 0 + i.getD 1 0 : ℤ)⟩)
    ⟨[5, 3, 4], fun i => (i.getD 2 0 : ℤ)⟩ 2 3 (-2) 1 rfl (by norm_num) rfl
  refine ⟨z, h1, h2, ?_⟩
  rw [h3 _ (by rw [h2]; simp [Valid])]
  simp [sum_range_succ]

/-- An inner product over the second of three axes, with broadcasting of the first. -/
example : ∃ z, inner (⟨[2, 3, 4], fun i => (i.getD 1 0 : ℤ)⟩) ⟨[1, 3, 4], fun _ => (1 : ℤ)⟩ (-2) = some z ∧
    z.shape = [2, 1, 4] ∧ z.get [1, 0, 3] = 3 := by
  obtain ⟨z, h1, s, h2, h3, h4, h5⟩ := C58_inner_partial (⟨[2, 3, 4], fun i => (i.getD 1 0 : ℤ)⟩)
    ⟨[1, 3, 4], fun _ => (1 : ℤ)⟩ (-2) [2, 3, 4] rfl (by decide) (by simp)
  have hs : s = [2, 3, 4] := Option.some_injective _ (h2.symm.trans (by decide))
  subst hs
  refine ⟨z, h1, h4, ?_⟩
  rw [h5 _ (by simp [Valid])]
  simp [sum_range_succ, bget]

/-- `inner` is documented as equivalent to `np.sum(x * y, axis=axis, keepdims=True)`. With arrays of different ranks,
which NumPy aligns at the last axis, it returns a different result without an error. -/
theorem C58_inner_refuted : ∃ x y z : ND ℤ, (bshape x.shape y.shape).isSome ∧ inner x y 0 = some z ∧
    ¬ IsSumProd x y 0 z := by
  refine ⟨⟨[2, 2, 2], fun _ => 1⟩, ⟨[2, 2], fun i => i.getD 0 0⟩, _, by decide, rfl, ?_⟩
  rintro ⟨s, hs, -, -, h⟩
  have hs : s = [2, 2, 2] := Option.some_injective _ (hs.symm.trans (by decide))
  subst hs
  have := h [0, 0, 0] (by simp [Valid])
  simp [sum_range_succ, bget] at this

end Sporco.Linalg.Inner
