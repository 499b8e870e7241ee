import Verif.Cnvrep.Shape

/-!
# The shapes passed to the sparse coding solver by online dictionary learning (C80)

`OnlineConvBPDNDictLearn.xstep` and `OnlineConvBPDNMaskDictLearn.xstep` give the solver the dictionary without its
axes of size one; the solver infers the roles of the axes again.
-/

set_option autoImplicit false

namespace Sporco.Cnvrep

/-! ## Model -/

/-- Shape of `a.squeeze()` (NumPy). -/
def squeeze (sh : List ℕ) : List ℕ := sh.filter (· ≠ 1)

/-- The indexing of the solver built by `xstep` (`onlinecdl.py` 281-283, 563-565; the constructors of the solvers
begin with `CSC_ConvRepIndexing`, `cbpdn.py` 574, 1562): `D` is the shape of `self.D`, `S` that of the training
array. -/
def codeCri (D S : List ℕ) (dimK : Option ℤ) (dimN : ℕ) : Option Cri := csc (squeeze D) S dimK dimN

/-! ## Specification -/

/-- Two indexing objects describe the same problem: roles, numbers of channels, signals and filters, and shapes of
the signal and of the coefficient maps. -/
def SameRoles (r t : Cri) : Prop :=
  r.dimN = t.dimN ∧ r.dimC = t.dimC ∧ r.dimK = t.dimK ∧ r.Cd = t.Cd ∧ r.C = t.C ∧ r.K = t.K ∧ r.M = t.M ∧
    r.shpS = t.shpS ∧ r.shpX = t.shpX

/-! ## Proofs -/

theorem squeeze_full (Dv : List ℕ) (Cd M : ℕ) (hD : ∀ n ∈ Dv, n ≠ 1) (hM : M ≠ 1) :
    squeeze (Dv ++ [Cd, 1, M]) = Dv ++ (if Cd = 1 then none else some Cd : Option ℕ).toList ++ [M] := by
  unfold squeeze
  rw [List.filter_append, List.filter_eq_self.2 (by simpa using hD)]
  by_cases h : Cd = 1
  · simp [h, hM]
  · simp [h, hM]

theorem chns_false {dsz : Dsz} {dimN Cd : ℕ} (h1 : dsz.HasChn dimN false) (h2 : dsz.Chns dimN Cd) : Cd = 1 := by
  cases dsz with
  | single l =>
    have h1 : l.length = dimN + 1 := h1
    simp only [Dsz.Chns] at h2
    rw [if_neg (by omega)] at h2
    exact h2.symm
  | multi bs =>
    obtain ⟨hne, hb⟩ := h1
    obtain ⟨b, hbm⟩ := List.exists_mem_of_ne_nil bs hne
    have h3 := hb b hbm
    have h4 := h2 b hbm
    cases b with
    | whole l =>
      have h3 : l.length = dimN + 1 := h3
      simp only [Blk.nchan] at h4
      rw [if_neg (by omega)] at h4
      exact h4.symm
    | chans ls => exact absurd h3.1 (by simp)

/-- **C80, the solver is given the same problem** (partial: no axis of the filters and not the number of filters is
one, and a dictionary with one channel is declared without channel axis or the roles do not depend on it).  For all
dictionary sizes of one or several scales, training arrays and settings of `dimK`: the solver refuses the training
array exactly if the learning object does, and otherwise both have the same roles of the axes, numbers of channels,
signals and filters, and shapes of signal and coefficient maps. -/
theorem C80_roles_partial (dimN : ℕ) (dsz : Dsz) (Dv Nv : List ℕ) (hD : Dv.length = dimN) (hN : Nv.length = dimN)
    (Cd : ℕ) (chn : Bool) (h1 : dsz.HasChn dimN chn) (h2 : dsz.Chns dimN Cd) (hpos : 0 < Cd) (C K : Option ℕ)
    (dimK : Option ℤ) (hr : Roles dimK chn C K) (hDv : ∀ n ∈ Dv, n ≠ 1) (hM : dsz.filters dimN ≠ 1)
    (hc : Cd = 1 → chn = false ∨ dimK.isSome ∨ C.isSome = K.isSome) :
    let S := Nv ++ C.toList ++ K.toList
    let D := Dv ++ [Cd, 1, dsz.filters dimN]
    (codeCri D S dimK dimN = none ↔ cdu dsz S dimK dimN = none) ∧
    ∀ r t, codeCri D S dimK dimN = some r → cdu dsz S dimK dimN = some t → SameRoles r t := by
  intro S D
  set Cd' : Option ℕ := if Cd = 1 then none else some Cd with hCd'
  have hg : Cd'.getD 1 = Cd := by
    rw [hCd']; split_ifs with h <;> simp [h]
  have hr' : Roles dimK Cd'.isSome C K := by
    unfold Roles at hr ⊢
    cases dimK with
    | some k => exact hr
    | none =>
      simp only at hr ⊢
      intro hn
      by_cases h : Cd = 1
      · rcases hc h with h' | h' | h'
        · rw [hr hn, h', hCd', if_pos h]; rfl
        · cases h'
        · exact absurd h' hn
      · have hchn : chn = true := by
          by_contra hb
          have hb : chn = false := by simpa using hb
          subst hb
          apply h
          exact chns_false h1 h2
        rw [hr hn, hchn, hCd', if_neg h]; rfl
  have e : codeCri D S dimK dimN = csc (Dv ++ Cd'.toList ++ [dsz.filters dimN]) S dimK dimN := by
    unfold codeCri
    rw [squeeze_full Dv Cd _ hDv hM]
  obtain ⟨a1, a2⟩ := C14_csc dimN Dv Nv hD hN Cd' C K (dsz.filters dimN) dimK hr' (by
    intro c hc'
    rw [hCd'] at hc'
    split_ifs at hc'
    · cases hc'
    · obtain rfl := Option.some.inj hc'; exact hpos)
  obtain ⟨b1, b2⟩ := C14_cdu dimN dsz Nv hN Cd chn h1 h2 hpos C K dimK hr
  rw [hg] at a1 a2
  rw [e]
  refine ⟨a1.trans b1.symm, fun r t hr1 ht1 => ?_⟩
  obtain ⟨r1, r2, r3, r4, r5, r6, r7, r8, -⟩ := a2 r hr1
  obtain ⟨t1, t2, t3, t4, t5, t6, t7, t8, -⟩ := b2 t ht1
  refine ⟨r1.trans t1.symm, r2.trans t2.symm, r3.trans t3.symm, r4.trans t4.symm, r5.trans t5.symm,
    r6.trans t6.symm, r7.trans t7.symm, r8.shpS.trans t8.shpS.symm, ?_⟩
  rw [r8.chn, t8.chn, r4, t4]

/-- Concrete case: colour and grey-level dictionaries, also of two scales. -/
example : codeCri [8, 8, 3, 1, 32] [64, 64, 3, 5] none 2 ≠ none ∧ codeCri [12, 12, 1, 1, 32] [64, 64, 5] none 2 ≠ none ∧
    (Dsz.multi [.whole [8, 8, 16], .whole [12, 12, 16]]).filters 2 = 32 := by decide

/-- **C80, a filter axis or the number of filters is one: refuted.**  For every single-channel dictionary of which
exactly one size, that of a filter axis or the number of filters, is one (for instance a dictionary with one filter
and no trivial axis), and every training array with one channel, with or without signal axis, and every setting of
`dimK`: the learning object accepts the training array, and the construction of the solver raises an error. -/
theorem C80_squeeze_refuted (dimN : ℕ) (Dv Nv : List ℕ) (hD : Dv.length = dimN) (hN : Nv.length = dimN) (M : ℕ)
    (h1 : (Dv ++ [M]).count 1 = 1) (h0 : ∀ n ∈ Dv ++ [M], 0 < n) (C K : Option ℕ) (hC : C.getD 1 = 1)
    (dimK : Option ℤ) (hr : Roles dimK false C K) :
    let S := Nv ++ C.toList ++ K.toList
    cdu (.single (Dv ++ [M])) S dimK dimN ≠ none ∧ codeCri (Dv ++ [1, 1, M]) S dimK dimN = none := by
  intro S
  constructor
  · have hh : (Dsz.single (Dv ++ [M])).HasChn dimN false := by simp [Dsz.HasChn, hD]
    have hc : (Dsz.single (Dv ++ [M])).Chns dimN 1 := by simp [Dsz.Chns, hD]
    rw [Ne, (C14_cdu dimN _ Nv hN 1 false hh hc one_pos C K dimK hr).1]
    omega
  · have hsq : squeeze (Dv ++ [1, 1, M]) = squeeze (Dv ++ [M]) := by
      unfold squeeze
      simp [List.filter_append]
    have hl : (squeeze (Dv ++ [M])).length = dimN := by
      have h3 := List.length_eq_countP_add_countP (fun n : ℕ => decide (n ≠ 1)) (l := Dv ++ [M])
      have h4 : (Dv ++ [M]).countP (fun a => decide ¬decide (a ≠ 1) = true) = 1 := by
        refine Eq.trans ?_ h1
        unfold List.count
        apply List.countP_congr
        intro a _
        simp
      rw [h4, List.length_append, List.length_singleton, hD] at h3
      unfold squeeze
      rw [← List.countP_eq_length_filter]
      omega
    have hge : ∀ n ∈ squeeze (Dv ++ [M]), 1 < n := by
      intro n hn
      unfold squeeze at hn
      obtain ⟨hn1, hn2⟩ := List.mem_filter.1 hn
      have := h0 n hn1
      have : n ≠ 1 := by simpa using hn2
      omega
    unfold codeCri
    rw [hsq]
    generalize squeeze (Dv ++ [M]) = L at hl hge
    unfold csc
    simp only
    rw [if_neg (by omega)]
    rcases hp : pyGet L (-2) with _ | c
    · rfl
    have hc : 1 < c := by
      apply hge
      unfold pyGet at hp
      rw [if_neg (by omega)] at hp
      split_ifs at hp
      exact List.mem_of_getElem? hp
    rw [Option.bind_some]
    have hCC : (if (dims S.length dimN ((L.length : ℤ) - (dimN + 1)) dimK).1 = 1 then pyGet S dimN else some 1) = some 1 := by
      have e : ((L.length : ℤ) - (dimN + 1)) = -1 := by omega
      rw [e]
      have hS : S.length = dimN + C.toList.length + K.toList.length := by simp [S, hN]; ring
      have hg : C.isSome → pyGet S dimN = some 1 := by
        intro h
        cases C with
        | none => cases h
        | some x =>
          have : x = 1 := hC
          subst this
          simp only [S, Option.toList_some, List.append_assoc, List.singleton_append]
          exact pyGet_app _ _ _ _ hN
      rw [hS]
      cases C with
      | some x =>
        rw [hg rfl]; simp
      | none =>
        have hne : (dims (dimN + (none : Option ℕ).toList.length + K.toList.length) dimN (-1) dimK).1 ≠ 1 := by
          unfold dims
          cases dimK with
          | some k =>
            have hr : k = (K.toList.length : ℤ) := hr
            simp only
            subst hr
            push_cast
            simp
          | none =>
            cases K <;> simp
        rw [if_neg hne]
    rw [hCC, Option.bind_some, if_pos ⟨hc, by omega⟩]

/-- Concrete cases: one filter; filters of one row. -/
example : codeCri [8, 8, 1, 1, 1] [64, 64] none 2 = none ∧ cdu (.single [8, 8, 1]) [64, 64] none 2 ≠ none ∧
    ([8, 8] ++ [1] : List ℕ).count 1 = 1 ∧ codeCri [1, 8, 1, 1, 32] [64, 64, 5] (some 1) 2 = none := by decide

end Sporco.Cnvrep
