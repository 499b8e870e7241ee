import Verif.Cnvrep.Pcn
import Verif.Array.Blocks

/-!
# Model of the dimension inference of `cnvrep.py` (C14) and of the shapes of weight arrays (C59)

Arrays are represented by their shapes, lists of sizes.  `none` is an exception.
-/

set_option autoImplicit false

namespace Sporco.Cnvrep

open Sporco.Util Sporco.Array

/-! ## Model -/

/-- Indexing of a tuple by a Python integer. -/
def pyGet (l : List ℕ) (i : ℤ) : Option ℕ :=
  if 0 ≤ i then l[i.toNat]? else if 0 ≤ i + l.length then l[(i + l.length).toNat]? else none

/-- The attributes of the indexing objects. -/
structure Cri where
  dimN : ℕ
  dimCd : ℤ
  dimC : ℤ
  dimK : ℤ
  Cd : ℕ
  C : ℕ
  Cx : ℕ
  K : ℕ
  M : ℕ
  shpD : List ℕ
  shpS : List ℕ
  shpX : List ℕ
deriving DecidableEq

/-- `(dimC, dimK)` (`cnvrep.py` 145-157, 405-415); `sdim` is `S.ndim`. -/
def dims (sdim : ℕ) (dimN : ℕ) (dimCd : ℤ) (dimK : Option ℤ) : ℤ × ℤ :=
  match dimK with
  | none =>
    let rdim : ℤ := sdim - dimN
    if rdim = 0 then (0, 0)
    else if rdim = 1 then (dimCd, sdim - dimN - dimCd)
    else (1, 1)
  | some k => (sdim - dimN - k, k)

/-- `CSC_ConvRepIndexing.__init__` (`cnvrep.py` 134-198); `D` and `S` are the shapes of the
arguments.  `Cx = C - Cd + 1` is a natural number, as the line is followed by the test that
`C = Cd` if `Cd > 1`. -/
def csc (D S : List ℕ) (dimK : Option ℤ) (dimN : ℕ) : Option Cri :=
  let dimCd : ℤ := D.length - (dimN + 1)
  (if dimCd = 0 then some 1 else pyGet D (-2)).bind fun Cd =>
  let dd := dims S.length dimN dimCd dimK
  (if dd.1 = 1 then pyGet S dimN else some 1).bind fun C =>
  let Cx := C + 1 - Cd
  if Cd > 1 ∧ C ≠ Cd then none else
  (if dd.2 = 1 then pyGet S (dimN + dd.1) else some 1).bind fun K =>
  (pyGet D (-1)).bind fun M =>
  let Nv := S.take dimN
  some ⟨dimN, dimCd, dd.1, dd.2, Cd, C, Cx, K, M, D.take dimN ++ [Cd] ++ [1] ++ [M],
    Nv ++ [C] ++ [K] ++ [1], Nv ++ [Cx] ++ [K] ++ [M]⟩

/-- The attributes of `DictionarySize`. -/
structure DSize where
  ndim : ℕ
  nchn : ℕ
  nflt : ℕ
  mxsz : List ℕ

/-- `DictionarySize.__init__` (`cnvrep.py` 232-264). -/
def dictionarySize (dsz : Dsz) (dimN : ℕ) : DSize :=
  match dsz with
  | .multi bs =>
    let nn : ℕ × ℕ := match bs.headD (.whole []) with
      | .chans ls => ((ls.headD []).length, ls.foldl (fun a l => a + l.dropLast.getLastD 0) 0)
      | .whole l => (l.length, if l.length = dimN + 1 then 1 else l.dropLast.getLastD 0)
    { ndim := nn.1
      nchn := nn.2
      nflt := bs.foldl (fun a b => match b with
        | .chans ls => a + (ls.headD []).getLastD 0
        | .whole l => a + l.getLastD 0) 0
      mxsz := (List.range dimN).map (maxsz bs) }
  | .single l =>
    { ndim := l.length
      mxsz := l.take dimN
      nflt := l.getLastD 0
      nchn := if l.length = dimN + 1 then 1 else l.dropLast.getLastD 0 }

/-- `CDU_ConvRepIndexing.__init__` (`cnvrep.py` 393-454). -/
def cdu (dsz : Dsz) (S : List ℕ) (dimK : Option ℤ) (dimN : ℕ) : Option Cri :=
  let ds := dictionarySize dsz dimN
  let dimCd : ℤ := ds.ndim - dimN - 1
  let Cd := ds.nchn
  let M := ds.nflt
  let dd := dims S.length dimN dimCd dimK
  (if dd.1 = 1 then pyGet S dimN else some 1).bind fun C =>
  let Cx := C + 1 - Cd
  if Cd > 1 ∧ C ≠ Cd then none else
  (if dd.2 = 1 then pyGet S (dimN + dd.1) else some 1).bind fun K =>
  let Nv := S.take dimN
  some ⟨dimN, dimCd, dd.1, dd.2, Cd, C, Cx, K, M, Nv ++ [Cd] ++ [1] ++ [M],
    Nv ++ [C] ++ [K] ++ [1], Nv ++ [Cx] ++ [K] ++ [M]⟩

/-- `(1,) * k` -/
def ones (k : ℤ) : List ℕ := List.replicate k.toNat 1

/-- `l1Wshape` (`cnvrep.py` 525-550). -/
def l1Wshape (W : List ℕ) (cri : Cri) : Option (List ℕ) :=
  let sdim : ℤ := cri.dimN + cri.dimC + cri.dimK
  if (W.length : ℤ) < sdim then
    if W.prod = 1 then some (ones (cri.dimN + 3)) else none
  else if (W.length : ℤ) = sdim then some (W ++ ones (3 - cri.dimC - cri.dimK))
  else if W.length = cri.dimN + 3 then some W
  else some (W.dropLast ++ ones (2 - cri.dimC - cri.dimK) ++ [W.getLastD 0])

/-- `mskWshape` (`cnvrep.py` 584-605). -/
def mskWshape (W : List ℕ) (cri : Cri) : Option (List ℕ) :=
  let ckdim : ℤ := W.length - cri.dimN
  if ckdim ≥ 2 then some (if ckdim = 2 then W ++ [1] else W)
  else if ckdim = 1 then
    (pyGet W cri.dimN).map fun w =>
      if cri.C = 1 ∧ cri.K > 1 then W.take cri.dimN ++ [1, w] ++ [1]
      else if cri.C > 1 ∧ cri.K = 1 then W.take cri.dimN ++ [w, 1] ++ [1]
      else W.take cri.dimN ++ [w, 1] ++ [1]
  else some (W ++ ones (3 - ckdim))

/-! ## Specification -/

/-- The documented rule for the roles of the axes of the signal (`cnvrep.py` 47-79): the signal
has shape `Nv` followed by a channel axis, if `C` is given, and a signal axis, if `K` is given.
If `dimK` is given it is the number of signal axes.  Otherwise a single additional axis is the
channel axis exactly if the dictionary has a channel axis. -/
def Roles (dimK : Option ℤ) (dictChn : Bool) (C K : Option ℕ) : Prop :=
  match dimK with
  | some k => k = (K.toList.length : ℤ)
  | none => C.isSome ≠ K.isSome → C.isSome = dictChn

/-- NumPy's broadcasting rule for one axis. -/
def bcast1 (a b : ℕ) : Option ℕ :=
  if a = b then some a else if a = 1 then some b else if b = 1 then some a else none

/-- The shape of a product of two arrays with the same number of axes. -/
def bcast : List ℕ → List ℕ → Option (List ℕ)
  | [], [] => some []
  | a :: as, b :: bs => (bcast1 a b).bind fun c => (bcast as bs).map (c :: ·)
  | _, _ => none

theorem bcast_self (l : List ℕ) : bcast l l = some l := by
  induction l with
  | nil => rfl
  | cons a l ih => simp [bcast, bcast1, ih]

theorem bcast_append {a b c : List ℕ} (h : bcast a b = some c) (a' b' : List ℕ) :
    bcast (a ++ a') (b ++ b') = (bcast a' b').map (c ++ ·) := by
  induction a generalizing b c with
  | nil =>
    cases b with
    | nil => simp only [bcast, Option.some.injEq] at h; subst h; simp
    | cons _ _ => simp [bcast] at h
  | cons x a ih =>
    cases b with
    | nil => simp [bcast] at h
    | cons y b =>
      simp only [bcast] at h
      cases h1 : bcast1 x y with
      | none => rw [h1] at h; simp at h
      | some z =>
        rw [h1] at h
        cases h2 : bcast a b with
        | none => rw [h2] at h; simp at h
        | some w =>
          rw [h2] at h
          simp only [Option.bind_some, Option.map_some, Option.some.injEq] at h
          subst h
          simp only [List.cons_append, bcast, h1, ih h2, Option.bind_some, Option.map_map]
          rfl

/-- What a user relies on: the internal arrays have `dimN + 3` axes; the product of the padded
dictionary and the coefficient maps has one entry per sample, channel, signal and filter, so that
the sum over the filters has the shape of the internal signal. -/
structure Consistent (r : Cri) (Nv : List ℕ) (C K M : ℕ) : Prop where
  rankD : r.shpD.length = r.dimN + 3
  rankS : r.shpS.length = r.dimN + 3
  rankX : r.shpX.length = r.dimN + 3
  shpS : r.shpS = Nv ++ [C, K, 1]
  prod : bcast (Nv ++ r.shpD.drop r.dimN) r.shpX = some (Nv ++ [C, K, M])
  /-- the maps have one channel for multi-channel dictionaries, those of the signal otherwise -/
  chn : r.shpX = Nv ++ [if r.Cd > 1 then 1 else C, K, M]

/-! ## Proofs -/

theorem pyGet_nat (l : List ℕ) (i : ℕ) : pyGet l i = l[i]? := by
  unfold pyGet
  rw [if_pos (by omega)]
  rfl

theorem pyGet_app (a : List ℕ) (i x : ℕ) (b : List ℕ) (h : a.length = i) :
    pyGet (a ++ x :: b) (i : ℤ) = some x := by
  rw [pyGet_nat, List.getElem?_append_right (by omega)]
  simp [h]

theorem pyGet_neg (l : List ℕ) (k : ℕ) (h : k < l.length) :
    pyGet l (-((k : ℤ) + 1)) = l[l.length - 1 - k]? := by
  unfold pyGet
  rw [if_neg (by omega), if_pos (by omega)]
  congr 1
  omega

theorem dims_eq (Nv : List ℕ) (dimN : ℕ) (hN : Nv.length = dimN) (C K : Option ℕ)
    (dimK : Option ℤ) (dictChn : Bool) (hr : Roles dimK dictChn C K) :
    dims (Nv ++ C.toList ++ K.toList).length dimN (if dictChn then 1 else 0) dimK =
      ((C.toList.length : ℤ), (K.toList.length : ℤ)) := by
  subst hN
  unfold dims
  cases dimK with
  | some k =>
    simp only [Roles] at hr
    subst hr
    simp only [List.length_append, Prod.mk.injEq, and_true]
    push_cast; ring
  | none =>
    simp only [Roles] at hr
    cases C <;> cases K <;> cases dictChn <;> simp_all <;> omega

theorem getD_one (C : Option ℕ) (Nv t : List ℕ) (dimN : ℕ) (hN : Nv.length = dimN) :
    (if (C.toList.length : ℤ) = 1 then pyGet (Nv ++ C.toList ++ t) dimN else some 1) =
      some (C.getD 1) := by
  cases C with
  | none => simp
  | some c =>
    simp only [Option.toList_some, List.length_singleton, Nat.cast_one, if_true, Option.getD_some,
      List.append_assoc, List.singleton_append]
    exact pyGet_app _ _ _ _ hN

theorem getK_one (C K : Option ℕ) (Nv : List ℕ) (dimN : ℕ) (hN : Nv.length = dimN) :
    (if (K.toList.length : ℤ) = 1 then
      pyGet (Nv ++ C.toList ++ K.toList) (dimN + (C.toList.length : ℤ)) else some 1) =
      some (K.getD 1) := by
  cases K with
  | none => simp
  | some k =>
    simp only [Option.toList_some, List.length_singleton, Nat.cast_one, if_true, Option.getD_some]
    have := pyGet_app (Nv ++ C.toList) (dimN + C.toList.length) k [] (by simp [hN])
    push_cast at this
    exact this

theorem consistent_of (r : Cri) (Nv : List ℕ) (C K M Cd : ℕ) (Dv : List ℕ)
    (hN : Nv.length = r.dimN) (hD : Dv.length = r.dimN) (hpos : 0 < Cd)
    (hacc : ¬ (Cd > 1 ∧ C ≠ Cd)) (h1 : r.shpD = Dv ++ [Cd] ++ [1] ++ [M])
    (h2 : r.shpS = Nv ++ [C] ++ [K] ++ [1]) (h3 : r.shpX = Nv ++ [C + 1 - Cd] ++ [K] ++ [M])
    (h4 : r.Cd = Cd) : Consistent r Nv C K M := by
  have hx : C + 1 - Cd = if Cd > 1 then 1 else C := by split_ifs <;> omega
  refine ⟨by simp [h1, hD], by simp [h2, hN], by simp [h3, hN], by simp [h2], ?_, ?_⟩
  · have hd : r.shpD.drop r.dimN = [Cd, 1, M] := by
      rw [h1, List.append_assoc, List.append_assoc, List.drop_left' hD]; rfl
    rw [hd, h3]
    simp only [List.append_assoc]
    rw [bcast_append (bcast_self Nv)]
    have h5 : bcast1 Cd (C + 1 - Cd) = some C := by
      rw [hx]
      unfold bcast1
      by_cases h : Cd > 1
      · rw [if_pos h]
        have : C = Cd := by by_contra h'; exact hacc ⟨h, h'⟩
        rw [if_neg (by omega), if_neg (by omega), if_pos rfl, this]
      · rw [if_neg h]
        have : Cd = 1 := by omega
        subst this
        split_ifs with h' <;> first | rfl | (simp_all; done)
    have h6 : bcast1 1 K = some K := by
      unfold bcast1
      split_ifs with h <;> first | rfl | (simp_all; done)
    have h7 : bcast1 M M = some M := by simp [bcast1]
    simp only [List.singleton_append, bcast, h5, h6, h7, Option.bind_some, Option.map_some]
  · rw [h3, h4, hx]; simp

/-- **C14, `CSC_ConvRepIndexing`.** For all documented shapes of dictionary (`Dv`, perhaps a
channel axis, `M`) and signal (`Nv`, perhaps a channel axis, perhaps a signal axis): the
constructor fails exactly if a multi-channel dictionary meets a signal with another number of
channels; otherwise the inferred roles are the documented ones, the internal shapes are
consistent and have as many entries as the input arrays. -/
theorem C14_csc (dimN : ℕ) (Dv Nv : List ℕ) (hD : Dv.length = dimN) (hN : Nv.length = dimN)
    (Cd C K : Option ℕ) (M : ℕ) (dimK : Option ℤ) (hr : Roles dimK Cd.isSome C K)
    (hpos : ∀ c ∈ Cd, 0 < c) :
    let D := Dv ++ Cd.toList ++ [M]
    let S := Nv ++ C.toList ++ K.toList
    (csc D S dimK dimN = none ↔ Cd.getD 1 > 1 ∧ C.getD 1 ≠ Cd.getD 1) ∧
    ∀ r, csc D S dimK dimN = some r →
      r.dimN = dimN ∧ r.dimC = C.toList.length ∧ r.dimK = K.toList.length ∧
      r.Cd = Cd.getD 1 ∧ r.C = C.getD 1 ∧ r.K = K.getD 1 ∧ r.M = M ∧
      Consistent r Nv (C.getD 1) (K.getD 1) M ∧
      r.shpD.prod = D.prod ∧ r.shpS.prod = S.prod := by
  intro D S
  have hCd : ((D.length : ℤ) - ((dimN : ℤ) + 1)) = if Cd.isSome then 1 else 0 := by
    cases Cd <;> simp [D, hD]
  have hCd2 : (if ((D.length : ℤ) - ((dimN : ℤ) + 1)) = 0 then some 1 else pyGet D (-2)) =
      some (Cd.getD 1) := by
    rw [hCd]
    cases Cd with
    | none => simp
    | some c =>
      simp only [Option.isSome_some, if_true, one_ne_zero, if_false, Option.getD_some]
      have := pyGet_neg D 1 (by simp [D])
      norm_num at this
      rw [this]
      simp [D]
  have hM : pyGet D (-1) = some M := by
    have := pyGet_neg D 0 (by simp [D])
    norm_num at this
    rw [this]
    simp [D]
  have hdims := dims_eq Nv dimN hN C K dimK Cd.isSome hr
  have hDt : D.take dimN = Dv := by
    simp only [D, List.append_assoc]; exact List.take_left' hD
  have hSt : S.take dimN = Nv := by
    simp only [S, List.append_assoc]; exact List.take_left' hN
  have hC := getD_one C Nv K.toList dimN hN
  have hK := getK_one C K Nv dimN hN
  have hp : 0 < Cd.getD 1 := by
    cases Cd with
    | none => simp
    | some c => exact hpos c (by simp)
  have key : csc D S dimK dimN = if Cd.getD 1 > 1 ∧ C.getD 1 ≠ Cd.getD 1 then none else
      some ⟨dimN, if Cd.isSome then 1 else 0, C.toList.length, K.toList.length, Cd.getD 1,
        C.getD 1, C.getD 1 + 1 - Cd.getD 1, K.getD 1, M, Dv ++ [Cd.getD 1] ++ [1] ++ [M],
        Nv ++ [C.getD 1] ++ [K.getD 1] ++ [1],
        Nv ++ [C.getD 1 + 1 - Cd.getD 1] ++ [K.getD 1] ++ [M]⟩ := by
    unfold csc
    simp only
    rw [hCd2, hCd]
    simp only [Option.bind_some]
    rw [show dims S.length dimN (if Cd.isSome then 1 else 0) dimK = _ from hdims]
    simp only
    rw [show (if (C.toList.length : ℤ) = 1 then pyGet S dimN else some 1) = _ from hC,
      show (if (K.toList.length : ℤ) = 1 then pyGet S (dimN + (C.toList.length : ℤ)) else some 1)
        = _ from hK, hM, hDt, hSt]
    simp only [Option.bind_some]
  rw [key]
  constructor
  · by_cases h : Cd.getD 1 > 1 ∧ C.getD 1 ≠ Cd.getD 1
    · rw [if_pos h]; exact ⟨fun _ => h, fun _ => rfl⟩
    · rw [if_neg h]; exact ⟨fun h' => (by cases h'), fun h' => absurd h' h⟩
  · intro r hr'
    by_cases h : Cd.getD 1 > 1 ∧ C.getD 1 ≠ Cd.getD 1
    · rw [if_pos h] at hr'; cases hr'
    rw [if_neg h, Option.some.injEq] at hr'
    subst hr'
    refine ⟨rfl, rfl, rfl, rfl, rfl, rfl, rfl, consistent_of _ _ _ _ _ (Cd.getD 1) Dv hN hD hp h rfl rfl rfl rfl, ?_, ?_⟩
    · cases Cd <;> simp [D]
    · cases C <;> cases K <;> simp [S]

/-- **C14, every documented number of axes is covered**: a dictionary with `dimN + 1` or `dimN + 2`
axes and a signal with `dimN` to `dimN + 2` axes, and `dimK` either `None` or a number of signal
axes compatible with at most one channel axis, determine the roles of the axes. -/
theorem C14_roles (dimN : ℕ) (D S : List ℕ) (dimK : Option ℤ)
    (hD : D.length = dimN + 1 ∨ D.length = dimN + 2)
    (hS : dimN ≤ S.length ∧ S.length ≤ dimN + 2)
    (hk : ∀ k ∈ dimK, (k = 0 ∨ k = 1) ∧ 0 ≤ (S.length : ℤ) - dimN - k ∧
      (S.length : ℤ) - dimN - k ≤ 1) :
    ∃ (Dv Nv : List ℕ) (Cd C K : Option ℕ) (M : ℕ), Dv.length = dimN ∧ Nv.length = dimN ∧
      D = Dv ++ Cd.toList ++ [M] ∧ S = Nv ++ C.toList ++ K.toList ∧
      Roles dimK Cd.isSome C K := by
  have hd : ∃ (Dv : List ℕ) (Cd : Option ℕ) (M : ℕ), Dv.length = dimN ∧
      D = Dv ++ Cd.toList ++ [M] := by
    refine ⟨D.take dimN, ?_⟩
    have hl : (D.take dimN).length = dimN := by rw [List.length_take]; omega
    have hsplit := (List.take_append_drop dimN D).symm
    rcases hD with hD | hD
    · have : (D.drop dimN).length = 1 := by rw [List.length_drop]; omega
      obtain ⟨m, hm⟩ := List.length_eq_one_iff.1 this
      exact ⟨none, m, hl, by rw [hm] at hsplit; simpa using hsplit⟩
    · have : (D.drop dimN).length = 2 := by rw [List.length_drop]; omega
      obtain ⟨c, m, hm⟩ := List.length_eq_two.1 this
      exact ⟨some c, m, hl, by rw [hm] at hsplit; simpa using hsplit⟩
  obtain ⟨Dv, Cd, M, hDl, hDe⟩ := hd
  have hl : (S.take dimN).length = dimN := by rw [List.length_take]; omega
  have hsplit := (List.take_append_drop dimN S).symm
  have hcase : S.length = dimN ∨ S.length = dimN + 1 ∨ S.length = dimN + 2 := by omega
  rcases hcase with h | h | h
  · have h0 : S.drop dimN = [] := List.drop_eq_nil_of_le (by omega)
    rw [h0] at hsplit
    refine ⟨Dv, S.take dimN, Cd, none, none, M, hDl, hl, hDe, by simpa using hsplit, ?_⟩
    cases dimK with
    | none => simp [Roles]
    | some k => have := hk k rfl; simp only [Roles, Option.toList_none, List.length_nil]; omega
  · have : (S.drop dimN).length = 1 := by rw [List.length_drop]; omega
    obtain ⟨c, hc⟩ := List.length_eq_one_iff.1 this
    rw [hc] at hsplit
    cases dimK with
    | none =>
      cases hb : Cd.isSome with
      | true =>
        exact ⟨Dv, S.take dimN, Cd, some c, none, M, hDl, hl, hDe, by simpa using hsplit,
          by simp [Roles, hb]⟩
      | false =>
        exact ⟨Dv, S.take dimN, Cd, none, some c, M, hDl, hl, hDe, by simpa using hsplit,
          by simp [Roles, hb]⟩
    | some k =>
      have := hk k rfl
      rcases this.1 with h0 | h0
      · exact ⟨Dv, S.take dimN, Cd, some c, none, M, hDl, hl, hDe, by simpa using hsplit,
          by simp [Roles, h0]⟩
      · exact ⟨Dv, S.take dimN, Cd, none, some c, M, hDl, hl, hDe, by simpa using hsplit,
          by simp [Roles, h0]⟩
  · have : (S.drop dimN).length = 2 := by rw [List.length_drop]; omega
    obtain ⟨c, k, hc⟩ := List.length_eq_two.1 this
    rw [hc] at hsplit
    refine ⟨Dv, S.take dimN, Cd, some c, some k, M, hDl, hl, hDe, by simpa using hsplit, ?_⟩
    cases dimK with
    | none => simp [Roles]
    | some k' => have := hk k' rfl; simp only [Roles, Option.toList_some, List.length_singleton]; omega

/-- **C14, the internal signal.** `S.reshape(shpS)` finds the entry for sample `x`, channel `c` and
signal `k` at index `(x, c, k, 0)`. -/
theorem C14_internal_signal {α : Type} (s : ND α) (Nv : List ℕ) (C K : Option ℕ)
    (hs : s.shape = Nv ++ C.toList ++ K.toList) (x c k : List ℕ) (hx : Valid Nv x)
    (hc : Valid C.toList c) (hk : Valid K.toList k) :
    (reshape s (Nv ++ [C.getD 1, K.getD 1, 1])).get (x ++ [c.getD 0 0, k.getD 0 0, 0]) =
      s.get (x ++ c ++ k) := by
  apply reshape_get
  · rw [hs]; exact valid_append (valid_append hx hc) hk
  · rw [hs, List.append_assoc, List.append_assoc, ravel_append hx, ravel_append hx]
    cases C with
    | none =>
      cases hc
      cases K with
      | none => cases hk; simp [ravel]
      | some k' =>
        simp only [Option.toList_some] at hk
        cases hk with
        | cons h1 h2 => cases h2; simp [ravel]
    | some c' =>
      simp only [Option.toList_some] at hc
      cases hc with
      | cons h1 h2 =>
        cases h2
        cases K with
        | none => cases hk; simp [ravel]
        | some k' =>
          simp only [Option.toList_some] at hk
          cases hk with
          | cons h3 h4 => cases h4; simp [ravel]

/-! ### Dictionary sizes -/

/-- The number of channels declared by a block. -/
def Blk.nchan (dimN : ℕ) : Blk → ℕ
  | .whole l => if l.length = dimN + 2 then l.getD dimN 0 else 1
  | .chans ls => (ls.map fun l => l.getD dimN 0).sum

/-- The sizes have `dimN + 2` axes, one of them for the channels, or `dimN + 1` axes. -/
def Dsz.HasChn (dimN : ℕ) (chn : Bool) : Dsz → Prop
  | .single l => l.length = dimN + (if chn then 2 else 1)
  | .multi bs => bs ≠ [] ∧ ∀ b ∈ bs, match b with
      | .whole l => l.length = dimN + (if chn then 2 else 1)
      | .chans ls => chn = true ∧ ls ≠ [] ∧ ∀ l ∈ ls, l.length = dimN + 2

/-- All blocks declare `C` channels. -/
def Dsz.Chns (dimN C : ℕ) : Dsz → Prop
  | .single l => (if l.length = dimN + 2 then l.getD dimN 0 else 1) = C
  | .multi bs => ∀ b ∈ bs, b.nchan dimN = C

/-- The number of filters: the length of the list of declared sizes. -/
def Dsz.filters (dimN : ℕ) : Dsz → ℕ
  | .single l => l.getLastD 0
  | .multi bs => (bs.flatMap (Blk.sizes dimN)).length

theorem foldl_add_sum {α : Type} (f : α → ℕ) (l : List α) (a : ℕ) :
    l.foldl (fun a x => a + f x) a = a + (l.map f).sum := by
  induction l generalizing a with
  | nil => simp
  | cons x l ih => simp only [List.foldl_cons, ih, List.map_cons, List.sum_cons]; ring

/-- **C14, `DictionarySize`.** The inferred number of axes, filters and channels, and the smallest
spatial size containing all filters, are those declared. -/
theorem C14_dictionarySize (dsz : Dsz) (dimN C : ℕ) (chn : Bool) (h1 : dsz.HasChn dimN chn)
    (h2 : dsz.Chns dimN C) :
    (dictionarySize dsz dimN).ndim = dimN + (if chn then 2 else 1) ∧
    (dictionarySize dsz dimN).nchn = C ∧
    (dictionarySize dsz dimN).nflt = dsz.filters dimN ∧
    (dictionarySize dsz dimN).mxsz = (List.range dimN).map fun i => dsz.extent i := by
  have hdl : ∀ l : List ℕ, l.length = dimN + (if chn then 2 else 1) →
      (if l.length = dimN + 1 then 1 else l.dropLast.getLastD 0) =
        if l.length = dimN + 2 then l.getD dimN 0 else 1 := by
    intro l hl
    cases chn
    · simp only [Bool.false_eq_true, if_false] at hl
      rw [if_pos hl, if_neg (by omega)]
    · simp only [if_true] at hl
      rw [if_neg (by omega), if_pos hl, dropLast_getLastD hl]
  cases dsz with
  | single l =>
    simp only [Dsz.HasChn] at h1
    simp only [Dsz.Chns] at h2
    refine ⟨h1, ?_, rfl, ?_⟩
    · simp only [dictionarySize]
      rw [hdl l h1, h2]
    · simp only [dictionarySize, Dsz.extent]
      apply List.ext_getElem
      · simp only [List.length_take, List.length_map, List.length_range]
        split_ifs at h1 <;> omega
      · intro i hi1 hi2
        simp only [List.length_map, List.length_range] at hi2
        have : i < l.length := by split_ifs at h1 <;> omega
        simp only [List.getElem_take, List.getElem_map, List.getElem_range]
        rw [List.getD_eq_getElem _ _ this]
  | multi bs =>
    obtain ⟨hne, hb⟩ := h1
    simp only [Dsz.Chns] at h2
    cases bs with
    | nil => exact absurd rfl hne
    | cons b bs =>
      have hb0 := hb b (by simp)
      have hc0 := h2 b (by simp)
      refine ⟨?_, ?_, ?_, ?_⟩
      · cases b with
        | whole l => simpa only [dictionarySize, List.headD_cons] using hb0
        | chans ls =>
          obtain ⟨hc, hl0, hl⟩ := hb0
          cases ls with
          | nil => exact absurd rfl hl0
          | cons l ls =>
            simp only [dictionarySize, List.headD_cons, hc, if_true]
            exact hl l (by simp)
      · cases b with
        | whole l =>
          simp only [dictionarySize, List.headD_cons]
          rw [hdl l hb0, ← hc0, Blk.nchan]
        | chans ls =>
          simp only [dictionarySize, List.headD_cons]
          rw [foldl_add_sum, zero_add, ← hc0, Blk.nchan]
          congr 1
          apply List.map_congr_left
          intro l hl
          exact dropLast_getLastD (hb0.2.2 l hl)
      · simp only [dictionarySize, Dsz.filters]
        rw [List.length_flatMap]
        have : (fun (a : ℕ) (b : Blk) => match b with
            | .chans ls => a + (ls.headD []).getLastD 0
            | .whole l => a + l.getLastD 0) =
            fun a b => a + (Blk.sizes dimN b).length := by
          funext a b
          cases b <;> simp [Blk.sizes]
        rw [this, foldl_add_sum, zero_add]
      · simp only [dictionarySize]
        apply List.map_congr_left
        intro i _
        exact maxsz_eq _ _

/-- **C14, `CDU_ConvRepIndexing`.** As `C14_csc`, for dictionaries given by their (single- or
multi-scale) size. -/
theorem C14_cdu (dimN : ℕ) (dsz : Dsz) (Nv : List ℕ) (hN : Nv.length = dimN) (Cd : ℕ) (chn : Bool)
    (h1 : dsz.HasChn dimN chn) (h2 : dsz.Chns dimN Cd) (hpos : 0 < Cd)
    (C K : Option ℕ) (dimK : Option ℤ) (hr : Roles dimK chn C K) :
    let S := Nv ++ C.toList ++ K.toList
    (cdu dsz S dimK dimN = none ↔ Cd > 1 ∧ C.getD 1 ≠ Cd) ∧
    ∀ r, cdu dsz S dimK dimN = some r →
      r.dimN = dimN ∧ r.dimC = C.toList.length ∧ r.dimK = K.toList.length ∧
      r.Cd = Cd ∧ r.C = C.getD 1 ∧ r.K = K.getD 1 ∧ r.M = dsz.filters dimN ∧
      Consistent r Nv (C.getD 1) (K.getD 1) (dsz.filters dimN) ∧
      r.shpD = Nv ++ [Cd, 1, dsz.filters dimN] ∧ r.shpS.prod = S.prod := by
  intro S
  obtain ⟨e1, e2, e3, -⟩ := C14_dictionarySize dsz dimN Cd chn h1 h2
  have hCd : (((dictionarySize dsz dimN).ndim : ℤ) - (dimN : ℤ) - 1) = if chn then 1 else 0 := by
    rw [e1]; cases chn <;> simp
  have hdims := dims_eq Nv dimN hN C K dimK chn hr
  have hSt : S.take dimN = Nv := by
    simp only [S, List.append_assoc]; exact List.take_left' hN
  have hC := getD_one C Nv K.toList dimN hN
  have hK := getK_one C K Nv dimN hN
  have key : cdu dsz S dimK dimN = if Cd > 1 ∧ C.getD 1 ≠ Cd then none else
      some ⟨dimN, if chn then 1 else 0, C.toList.length, K.toList.length, Cd,
        C.getD 1, C.getD 1 + 1 - Cd, K.getD 1, dsz.filters dimN,
        Nv ++ [Cd] ++ [1] ++ [dsz.filters dimN],
        Nv ++ [C.getD 1] ++ [K.getD 1] ++ [1],
        Nv ++ [C.getD 1 + 1 - Cd] ++ [K.getD 1] ++ [dsz.filters dimN]⟩ := by
    unfold cdu
    simp only
    rw [hCd, e2, e3, show dims S.length dimN (if chn then 1 else 0) dimK = _ from hdims]
    simp only
    rw [show (if (C.toList.length : ℤ) = 1 then pyGet S dimN else some 1) = _ from hC,
      show (if (K.toList.length : ℤ) = 1 then pyGet S (dimN + (C.toList.length : ℤ)) else some 1)
        = _ from hK, hSt]
    simp only [Option.bind_some]
  rw [key]
  constructor
  · by_cases h : Cd > 1 ∧ C.getD 1 ≠ Cd
    · rw [if_pos h]; exact ⟨fun _ => h, fun _ => rfl⟩
    · rw [if_neg h]; exact ⟨fun h' => (by cases h'), fun h' => absurd h' h⟩
  · intro r hr'
    by_cases h : Cd > 1 ∧ C.getD 1 ≠ Cd
    · rw [if_pos h] at hr'; cases hr'
    rw [if_neg h, Option.some.injEq] at hr'
    subst hr'
    refine ⟨rfl, rfl, rfl, rfl, rfl, rfl, rfl, consistent_of _ _ _ _ _ Cd Nv hN hN hpos h rfl rfl rfl rfl, by simp, ?_⟩
    cases C <;> cases K <;> simp [S]

/-- Concrete cases: an RGB image with a single-channel dictionary; a greyscale sequence; a
multi-channel dictionary with a mismatched signal. -/
example : (csc [8, 8, 32] [64, 64, 3] (some 0) 2).map (fun r => (r.shpD, r.shpS, r.shpX)) =
    some ([8, 8, 1, 1, 32], [64, 64, 3, 1, 1], [64, 64, 3, 1, 32]) := by decide
example : (csc [8, 8, 32] [64, 64, 5] none 2).map (fun r => (r.shpD, r.shpS, r.shpX)) =
    some ([8, 8, 1, 1, 32], [64, 64, 1, 5, 1], [64, 64, 1, 5, 32]) := by decide
example : csc [8, 8, 3, 32] [64, 64, 2] none 2 = none := by decide
example : Roles none true (some 3) none ∧ Roles none false none (some 5) := by simp [Roles]
example : (cdu (.multi [.whole [8, 8, 16], .whole [12, 12, 16]]) [64, 64, 5] none 2).map
    (fun r => (r.shpD, r.shpS, r.shpX)) =
    some ([64, 64, 1, 1, 32], [64, 64, 1, 5, 1], [64, 64, 1, 5, 32]) := by decide
example : (Dsz.multi [.whole [8, 8, 16], .whole [12, 12, 16]]).HasChn 2 false ∧
    (Dsz.multi [.whole [8, 8, 16], .whole [12, 12, 16]]).Chns 2 1 := by
  refine ⟨⟨by simp, ?_⟩, ?_⟩
  · intro b hb
    simp only [List.mem_cons, List.not_mem_nil, or_false] at hb
    rcases hb with rfl | rfl <;> rfl
  · intro b hb
    simp only [List.mem_cons, List.not_mem_nil, or_false] at hb
    rcases hb with rfl | rfl <;> rfl

/-! ## Weight and mask arrays (C59) -/

/-- A size that is singleton or that of the corresponding axis. -/
def Sub1 (w s : ℕ) : Prop := w = 1 ∨ w = s

/-- Sizes on the same axes, each singleton or full. -/
def SubL : List ℕ → List ℕ → Prop := List.Forall₂ Sub1

/-- An array of this shape can be multiplied with one of shape `s` without changing it. -/
def Compat (w s : List ℕ) : Prop := bcast w s = some s

theorem compat_iff (w s : List ℕ) : SubL w s → Compat w s := by
  intro h
  unfold Compat
  induction h with
  | nil => rfl
  | @cons a b as bs h1 h2 ih =>
    have : bcast1 a b = some b := by
      unfold bcast1
      rcases h1 with h1 | h1 <;> subst h1 <;> simp
    simp [bcast, this, ih]

/-- An optional axis of a weight array: present exactly if it is in the signal. -/
inductive SubO : Option ℕ → Option ℕ → Prop
  | none : SubO none none
  | some {w s : ℕ} (h : Sub1 w s) : SubO (some w) (some s)

theorem SubO.getD {w s : Option ℕ} (h : SubO w s) : Sub1 (w.getD 1) (s.getD 1) := by
  cases h with
  | none => exact .inl rfl
  | some h => exact h

theorem SubL.length {w s : List ℕ} (h : SubL w s) : w.length = s.length := List.Forall₂.length_eq h

theorem subL_app {a b c d : List ℕ} (h : SubL a b) (h' : SubL c d) : SubL (a ++ c) (b ++ d) := by
  induction h with
  | nil => exact h'
  | cons h1 _ ih => exact List.Forall₂.cons h1 ih

theorem l1W_eq (r : Cri) (dimN : ℕ) (e1 : r.dimN = dimN) (C K Wc Wk : Option ℕ)
    (e2 : r.dimC = C.toList.length) (e3 : r.dimK = K.toList.length) (Wv : List ℕ)
    (hlen : Wv.length = dimN) (hwc : SubO Wc C) (hwk : SubO Wk K) (hcase : K.isSome → C.isSome) :
    (∀ Wm, l1Wshape (Wv ++ Wc.toList ++ Wk.toList ++ [Wm]) r =
      some (Wv ++ [Wc.getD 1, Wk.getD 1, Wm])) ∧
    l1Wshape (Wv ++ Wc.toList ++ Wk.toList) r = some (Wv ++ [Wc.getD 1, Wk.getD 1, 1]) := by
  constructor
  · intro Wm
    unfold l1Wshape
    rw [e1, e2, e3]
    cases hwc with
    | none =>
      cases hwk with
      | none => simp [ones, hlen]
      | some h => simp at hcase
    | some h =>
      cases hwk with
      | none => simp [ones, hlen]
      | some h' =>
        simp only [Option.toList_some, List.length_append, List.length_singleton, hlen]
        rw [if_neg (by simp), if_neg (by simp), if_pos (by simp)]
        simp
  · unfold l1Wshape
    rw [e1, e2, e3]
    cases hwc with
    | none =>
      cases hwk with
      | none => simp [ones, hlen]
      | some h => simp at hcase
    | some h =>
      cases hwk with
      | none => simp [ones, hlen]
      | some h' =>
        simp only [Option.toList_some, List.length_append, List.length_singleton, hlen]
        rw [if_neg (by simp), if_pos (by simp)]
        simp [ones]

/-- **C59, `l1Wshape`.** A weight array of the documented shape, `S.shape + (M,)` where sizes may be
replaced by one (or `S.shape`, for weights that are the same for all filters), is given an
internal shape in which each axis has its role, and which is compatible with the coefficient
maps.  Missing: signals with a signal axis but no channel axis, and multi-channel dictionaries
with weights varying over channels; there the claim is false (`C59_l1_signal_refuted`,
`C59_l1_channel_refuted`). -/
theorem C59_l1_partial (dimN : ℕ) (Dv Nv Wv : List ℕ) (hD : Dv.length = dimN) (hN : Nv.length = dimN)
    (Cd C K Wc Wk : Option ℕ) (M Wm : ℕ) (dimK : Option ℤ) (hr : Roles dimK Cd.isSome C K)
    (hpos : ∀ c ∈ Cd, 0 < c) (r : Cri)
    (hacc : csc (Dv ++ Cd.toList ++ [M]) (Nv ++ C.toList ++ K.toList) dimK dimN = some r)
    (hwv : SubL Wv Nv) (hwc : SubO Wc C) (hwk : SubO Wk K) (hwm : Sub1 Wm M)
    (hcase : K.isSome → C.isSome) (hch : Cd.getD 1 > 1 → Wc.getD 1 = 1) :
    (l1Wshape (Wv ++ Wc.toList ++ Wk.toList ++ [Wm]) r = some (Wv ++ [Wc.getD 1, Wk.getD 1, Wm]) ∧
      Compat (Wv ++ [Wc.getD 1, Wk.getD 1, Wm]) r.shpX) ∧
    (l1Wshape (Wv ++ Wc.toList ++ Wk.toList) r = some (Wv ++ [Wc.getD 1, Wk.getD 1, 1]) ∧
      Compat (Wv ++ [Wc.getD 1, Wk.getD 1, 1]) r.shpX) := by
  obtain ⟨e1, e2, e3, e4, -, -, -, hcon, -, -⟩ :=
    (C14_csc dimN Dv Nv hD hN Cd C K M dimK hr hpos).2 r hacc
  have hc : Sub1 (Wc.getD 1) (if r.Cd > 1 then 1 else C.getD 1) := by
    rw [e4]
    split_ifs with h
    · exact .inl (hch h)
    · exact hwc.getD
  obtain ⟨w1, w2⟩ := l1W_eq r dimN e1 C K Wc Wk e2 e3 Wv (hwv.length.trans hN) hwc hwk hcase
  refine ⟨⟨w1 Wm, ?_⟩, ⟨w2, ?_⟩⟩
  · apply compat_iff
    rw [hcon.chn]
    exact subL_app hwv (.cons hc (.cons hwk.getD (.cons hwm .nil)))
  · apply compat_iff
    rw [hcon.chn]
    exact subL_app hwv (.cons hc (.cons hwk.getD (.cons (.inl rfl) .nil)))

/-- A scalar weight (an array with one entry and fewer axes than the signal) is always usable. -/
theorem C59_l1_scalar (W : List ℕ) (r : Cri) (hW : W.prod = 1) (Nv : List ℕ) (C K M : ℕ)
    (hl : (W.length : ℤ) < r.dimN + r.dimC + r.dimK) (hcon : Consistent r Nv C K M) :
    ∃ s, l1Wshape W r = some s ∧ Compat s r.shpX := by
  refine ⟨ones (r.dimN + 3), ?_, ?_⟩
  · unfold l1Wshape
    rw [if_pos hl, if_pos hW]
  · apply compat_iff
    have : ones (r.dimN + 3) = List.replicate r.shpX.length 1 := by
      rw [hcon.rankX]; rfl
    rw [this]
    generalize r.shpX = l
    induction l with
    | nil => exact .nil
    | cons a l ih => exact .cons (.inl rfl) ih

/-- **C59 is false for single-channel sequences**: if the signal has a signal axis and no channel
axis, a weight array of the documented shape `S.shape + (M,)` is given a shape with the signals on
the channel axis; its product with the coefficient maps has `K * K` slices instead of `K`. -/
theorem C59_l1_signal_refuted (dimN : ℕ) (Dv Nv : List ℕ) (hD : Dv.length = dimN)
    (hN : Nv.length = dimN) (K M : ℕ) (hK : 1 < K) :
    ∃ r, csc (Dv ++ [M]) (Nv ++ [K]) none dimN = some r ∧ r.shpX = Nv ++ [1, K, M] ∧
      l1Wshape (Nv ++ [K] ++ [M]) r = some (Nv ++ [K, 1, M]) ∧
      bcast (Nv ++ [K, 1, M]) r.shpX = some (Nv ++ [K, K, M]) ∧
      ¬ Compat (Nv ++ [K, 1, M]) r.shpX := by
  have h := C14_csc dimN Dv Nv hD hN none none (some K) M none (by simp [Roles]) (by simp)
  simp only [Option.toList_none, List.append_nil, Option.toList_some, Option.getD_none,
    Option.getD_some, gt_iff_lt, lt_self_iff_false, false_and, iff_false] at h
  obtain ⟨h1, h2⟩ := h
  obtain ⟨r, hr⟩ := Option.ne_none_iff_exists'.1 h1
  obtain ⟨e1, e2, e3, e4, -, -, -, hcon, -, -⟩ := h2 r hr
  have hx : r.shpX = Nv ++ [1, K, M] := by rw [hcon.chn, e4]; simp
  have hb : bcast (Nv ++ [K, 1, M]) r.shpX = some (Nv ++ [K, K, M]) := by
    rw [hx, bcast_append (bcast_self Nv)]
    have a1 : bcast1 K 1 = some K := by
      unfold bcast1; rw [if_neg (by omega), if_neg (by omega), if_pos rfl]
    have a2 : bcast1 1 K = some K := by
      unfold bcast1; rw [if_neg (by omega), if_pos rfl]
    simp only [bcast, a1, a2, Option.bind_some, Option.map_some]
    simp [bcast1]
  refine ⟨r, hr, hx, ?_, hb, ?_⟩
  · unfold l1Wshape
    rw [e1, e2, e3]
    simp [ones, hN]
  · unfold Compat
    rw [hb, hx]
    simp
    omega

/-- **C59 is false for multi-channel dictionaries**: the maps have no channels, and a weight array
of the documented shape `S.shape + (M,)` is not compatible with them. -/
theorem C59_l1_channel_refuted (dimN : ℕ) (Dv Nv : List ℕ) (hD : Dv.length = dimN)
    (hN : Nv.length = dimN) (C M : ℕ) (hC : 1 < C) :
    ∃ r, csc (Dv ++ [C] ++ [M]) (Nv ++ [C]) none dimN = some r ∧ r.shpX = Nv ++ [1, 1, M] ∧
      l1Wshape (Nv ++ [C] ++ [M]) r = some (Nv ++ [C, 1, M]) ∧
      ¬ Compat (Nv ++ [C, 1, M]) r.shpX := by
  have h := C14_csc dimN Dv Nv hD hN (some C) (some C) none M none (by simp [Roles])
    (by simp; omega)
  simp only [Option.toList_none, List.append_nil, Option.toList_some, Option.getD_none,
    Option.getD_some, ne_eq, not_true_eq_false, and_false, iff_false] at h
  obtain ⟨h1, h2⟩ := h
  obtain ⟨r, hr⟩ := Option.ne_none_iff_exists'.1 h1
  obtain ⟨e1, e2, e3, e4, -, -, -, hcon, -, -⟩ := h2 r hr
  have hx : r.shpX = Nv ++ [1, 1, M] := by rw [hcon.chn, e4]; simp [hC]
  refine ⟨r, hr, hx, ?_, ?_⟩
  · unfold l1Wshape
    rw [e1, e2, e3]
    simp [ones, hN]
  · unfold Compat
    rw [hx, bcast_append (bcast_self Nv)]
    have a1 : bcast1 C 1 = some C := by
      unfold bcast1; rw [if_neg (by omega), if_neg (by omega), if_pos rfl]
    have a2 : ∀ x, bcast1 x x = some x := by intro x; simp [bcast1]
    simp only [bcast, a1, a2, Option.bind_some, Option.map_some]
    simp
    omega

/-- **C59, `mskWshape`.** A mask of the shape of the signal, where sizes may be replaced by one, is
given an internal shape in which each axis has its role and which is compatible with the
internal signal. -/
theorem C59_mask (r : Cri) (Nv Wv : List ℕ) (C K Wc Wk : Option ℕ) (M : ℕ)
    (hN : Nv.length = r.dimN) (hC : r.C = C.getD 1) (hK : r.K = K.getD 1)
    (hcon : Consistent r Nv (C.getD 1) (K.getD 1) M)
    (hwv : SubL Wv Nv) (hwc : SubO Wc C) (hwk : SubO Wk K) (hk0 : ∀ k ∈ K, 0 < k) :
    mskWshape (Wv ++ Wc.toList ++ Wk.toList) r = some (Wv ++ [Wc.getD 1, Wk.getD 1, 1]) ∧
      Compat (Wv ++ [Wc.getD 1, Wk.getD 1, 1]) r.shpS := by
  have hlen : Wv.length = r.dimN := hwv.length.trans hN
  constructor
  · unfold mskWshape
    cases hwc with
    | none =>
      cases hwk with
      | none => simp [ones, hlen]
      | @some w k h =>
        have hk := hk0 k rfl
        simp only [Option.getD_none, Option.getD_some] at hC hK
        simp only [Option.toList_none, Option.toList_some, List.append_nil, List.length_append,
          List.length_singleton, hlen]
        rw [if_neg (by push_cast; omega), if_pos (by push_cast; omega),
          pyGet_app _ _ _ _ hlen, hC, hK, List.take_left' hlen]
        by_cases h1 : k > 1
        · rw [Option.map_some, if_pos ⟨rfl, h1⟩]; simp
        · have hw : w = 1 := by rcases h with h | h <;> omega
          subst hw
          simp [h1]
    | @some w c h =>
      cases hwk with
      | none =>
        simp only [Option.getD_none, Option.getD_some] at hC hK
        simp only [Option.toList_none, Option.toList_some, List.append_nil, List.length_append,
          List.length_singleton, hlen]
        rw [if_neg (by push_cast; omega), if_pos (by push_cast; omega),
          pyGet_app _ _ _ _ hlen, hC, hK, List.take_left' hlen]
        simp
      | @some w' k h' =>
        simp only [Option.toList_some, List.length_append, List.length_singleton, hlen]
        rw [if_pos (by push_cast; omega), if_pos (by push_cast; omega)]
        simp
  · apply compat_iff
    rw [hcon.shpS]
    exact subL_app hwv (.cons hwc.getD (.cons hwk.getD (.cons (.inl rfl) .nil)))

/-- **C59, masks with one additional axis for signals with both.**  The axis is the channel axis,
unless the signal has one channel. -/
theorem C59_mask_one (r : Cri) (Nv Wv : List ℕ) (C K w M : ℕ)
    (hN : Nv.length = r.dimN) (hC : r.C = C) (hK : r.K = K) (hcon : Consistent r Nv C K M)
    (hwv : SubL Wv Nv) (hw : if C = 1 ∧ K > 1 then Sub1 w K else Sub1 w C) :
    ∃ s, mskWshape (Wv ++ [w]) r = some s ∧ Compat s r.shpS ∧
      s = Wv ++ (if C = 1 ∧ K > 1 then [1, w, 1] else [w, 1, 1]) := by
  have hlen : Wv.length = r.dimN := hwv.length.trans hN
  refine ⟨_, ?_, ?_, rfl⟩
  · unfold mskWshape
    simp only [List.length_append, List.length_singleton, hlen]
    rw [if_neg (by push_cast; omega), if_pos (by push_cast; omega),
          pyGet_app _ _ _ _ hlen, hC, hK, List.take_left' hlen]
    simp only [Option.map_some, ite_self]
    split_ifs <;> simp
  · apply compat_iff
    rw [hcon.shpS]
    split_ifs at hw ⊢ with h
    · exact subL_app hwv (.cons (.inl rfl) (.cons hw (.cons (.inl rfl) .nil)))
    · exact subL_app hwv (.cons hw (.cons (.inl rfl) (.cons (.inl rfl) .nil)))

/-- Concrete cases. -/
example : (csc [8, 8, 32] [64, 64, 3, 5] none 2).bind (l1Wshape [64, 64, 3, 5, 32]) =
    some [64, 64, 3, 5, 32] := by decide
example : (csc [8, 8, 32] [64, 64] none 2).bind (l1Wshape [1, 1, 32]) =
    some [1, 1, 1, 1, 32] := by decide
example : (csc [8, 8, 32] [64, 64, 5] none 2).bind (mskWshape [64, 64, 5]) =
    some [64, 64, 1, 5, 1] := by decide

end Sporco.Cnvrep
