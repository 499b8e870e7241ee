import Verif.Options.Props

/-!
# `AuxVarObj` and the flags it controls (C04)

The `Options` classes of `admm/bpdn.py`, `admm/cbpdn.py`, `admm/cmod.py`, `admm/ccmod.py`,
`admm/ccmodmd.py` and `ADMMConsensus` override `__setitem__` in the same way.
-/

set_option autoImplicit false

namespace Sporco.Options

variable {K V : Type} [DecidableEq K] [DecidableEq V]

/-- The three option names and the objects `True` and `False`. -/
structure AuxNames (K V : Type) where
  aux : K
  fx : K
  gy : K
  tt : V
  ff : V

/-- The names are different, and so are `True` and `False`. -/
structure AuxNames.Distinct (N : AuxNames K V) : Prop where
  aux_fx : N.aux ≠ N.fx
  aux_gy : N.aux ≠ N.gy
  fx_gy : N.fx ≠ N.gy
  tt_ff : N.tt ≠ N.ff

/-- `value is True` (`admm/bpdn.py` 135). -/
def isTrue (N : AuxNames K V) : Val K V → Bool
  | .leaf x => decide (x = N.tt)
  | _ => false

/-- `Options.__setitem__` with a key that is not a tuple (`admm/bpdn.py` 127-140,
`admm/cbpdn.py` 151-164, `admm/admm.py` 1515-1528 and the same code in `cmod.py`,
`ccmod.py`, `ccmodmd.py`). -/
def setPlain (N : AuxNames K V) (n : Nat) (o : Val K V) (k : K) (v : Val K V) :
    Val K V × Option (Err K) :=
  match setItem n o [k] v with
  | (o, some e) => (o, some e)
  | (o, none) =>
    if k = N.aux then
      match setItem n o [N.fx] (.leaf (if isTrue N v then N.ff else N.tt)) with
      | (o, some e) => (o, some e)
      | (o, none) => setItem n o [N.gy] (.leaf (if isTrue N v then N.tt else N.ff))
    else (o, none)

/-- What a user may do with an options object: assign with a plain key, assign with a tuple
key (for which the comparison `key == 'AuxVarObj'` is false), or `update`. -/
inductive AOp (K V : Type) where
  | plain (k : K) (v : Val K V)
  | tuple (path : List K) (v : Val K V)
  | update (d : List (K × Val K V))

/-- `update` calls the overridden `__setitem__` for each item (`cdict.py` 115-126). -/
def updatePlain (N : AuxNames K V) (n : Nat) (o : Val K V) : List (K × Val K V) → Val K V × Option (Err K)
  | [] => (o, none)
  | (k, v) :: rest =>
    match setPlain N n o k v with
    | (o, some e) => (o, some e)
    | (o, none) => updatePlain N n o rest

/-- One operation, whether or not it raises. -/
def AOp.run (N : AuxNames K V) (n : Nat) (o : Val K V) : AOp K V → Val K V × Option (Err K)
  | .plain k v => setPlain N n o k v
  | .tuple path v => setItem n o path v
  | .update d => updatePlain N n o d

/-- A history of operations, exceptions being caught. -/
def ahistory (N : AuxNames K V) (n : Nat) (o : Val K V) (ops : List (AOp K V)) : Val K V :=
  ops.foldl (fun o op => (op.run N n o).1) o

/-! ## Specification -/

/-- An operation with plain values. -/
def AOp.IsPlain : AOp K V → Prop
  | .plain _ v => Plain v
  | .tuple _ v => Plain v
  | .update d => ∀ kv ∈ d, Plain kv.2

/-- An operation that does not mention any of the three options. -/
def AOp.Unrelated (N : AuxNames K V) : AOp K V → Prop
  | .plain k _ => k ≠ N.aux ∧ k ≠ N.fx ∧ k ≠ N.gy
  | .tuple path _ => path.head? ≠ some N.aux ∧ path.head? ≠ some N.fx ∧ path.head? ≠ some N.gy
  | .update d => ∀ kv ∈ d, kv.1 ≠ N.aux ∧ kv.1 ≠ N.fx ∧ kv.1 ≠ N.gy

/-- An options object as obtained by the constructor without arguments followed by any
history of operations.  (A constructor argument is one more `update`.  While the defaults are
copied the override only repeats the default values of the two flags, which every class
gives consistently with that of `AuxVarObj`.) -/
def AReachable (N : AuxNames K V) (n : Nat) (dflt o : Val K V) : Prop :=
  ∃ o₀ ops, construct n dflt [] = .ok o₀ ∧ (∀ op ∈ ops, op.IsPlain) ∧ o = ahistory N n o₀ ops

/-! ## Proofs -/

omit [DecidableEq V] in
theorem setKey_lookup_ne (n : Nat) (sd d : Val K V) (pth : List K) (kvs : List (K × Val K V)) (k k' : K)
    (v : Val K V) (h : k' ≠ k) : lookup (setKey n sd d pth kvs k v).1 k' = lookup kvs k' := by
  cases n with
  | zero => rfl
  | succ n =>
    cases v with
    | leaf x =>
      simp only [setKey]
      split <;> simp [lookup_insert_ne _ _ h]
    | cdict a b c =>
      simp only [setKey]
      split <;> simp [lookup_insert_ne _ _ h]
    | dict items =>
      simp only [setKey]
      repeat' split
      all_goals first | rfl | simp [lookup_insert_ne _ _ h]

omit [DecidableEq V] in
theorem setItem_lookup_ne (n : Nat) (d : Val K V) (pth : List K) (kvs : List (K × Val K V)) (path : List K)
    (k' : K) (v : Val K V) (h : path.head? ≠ some k') :
    ∃ kvs', (setItem n (.cdict d pth kvs) path v).1 = .cdict d pth kvs' ∧
      lookup kvs' k' = lookup kvs k' := by
  rcases List.eq_nil_or_concat path with rfl | ⟨qs, k, rfl⟩
  · exact ⟨kvs, by simp [setItem], rfl⟩
  · rw [List.concat_eq_append] at h ⊢
    rw [setItem_snoc]
    refine ⟨_, rfl, ?_⟩
    cases qs with
    | nil =>
      simp only [setAt]
      exact setKey_lookup_ne _ _ _ _ _ _ _ _ (by simpa [eq_comm] using h)
    | cons q qs =>
      have hq : k' ≠ q := by simpa [eq_comm] using h
      simp only [setAt]
      repeat' split
      all_goals first | rfl | simp [lookup_insert_ne _ _ hq]

omit [DecidableEq V] in
theorem setItem_leafAt_ne (n : Nat) (dflt o : Val K V) (ho : Ok dflt o) (path : List K)
    (k' : K) (v : Val K V) (h : path.head? ≠ some k') :
    leafAt (setItem n o path v).1 [k'] = leafAt o [k'] := by
  obtain ⟨dk, kvs, rfl, rfl, hc⟩ := ho
  obtain ⟨kvs', h1, h2⟩ := setItem_lookup_ne n (.dict dk) [] kvs path k' v h
  rw [h1]
  simp [leafAt, at?, items?_cdict, h2]

theorem ok_setPlain (N : AuxNames K V) (n : Nat) (dflt o : Val K V) (hd : Plain dflt) (ho : Ok dflt o)
    (k : K) (v : Val K V) (hv : Plain v) : Ok dflt (setPlain N n o k v).1 := by
  have h1 : Ok dflt (setItem n o [k] v).1 := ho.setItem hd [k] hv
  unfold setPlain
  rcases he : setItem n o [k] v with ⟨o1, _ | e⟩
  · rw [he] at h1
    simp only
    split
    · have h2 : Ok dflt (setItem n o1 [N.fx] (.leaf (if isTrue N v then N.ff else N.tt))).1 :=
        h1.setItem hd _ (.leaf _)
      rcases he2 : setItem n o1 [N.fx] (.leaf (if isTrue N v then N.ff else N.tt)) with ⟨o2, _ | e⟩
      · rw [he2] at h2
        exact h2.setItem hd _ (.leaf _)
      · rw [he2] at h2; exact h2
    · exact h1
  · rw [he] at h1; exact h1

theorem ok_updatePlain (N : AuxNames K V) (n : Nat) (dflt : Val K V) (hd : Plain dflt)
    (d : List (K × Val K V)) (hv : ∀ kv ∈ d, Plain kv.2) (o : Val K V) (ho : Ok dflt o) :
    Ok dflt (updatePlain N n o d).1 := by
  induction d generalizing o with
  | nil => exact ho
  | cons kv d ih =>
    obtain ⟨k, v⟩ := kv
    have h1 := ok_setPlain N n dflt o hd ho k v (hv (k, v) (by simp))
    simp only [updatePlain]
    rcases he : setPlain N n o k v with ⟨o1, _ | e⟩
    · rw [he] at h1
      exact ih (fun kv h => hv kv (by simp [h])) o1 h1
    · rw [he] at h1; exact h1

theorem ok_run (N : AuxNames K V) (n : Nat) (dflt o : Val K V) (hd : Plain dflt) (ho : Ok dflt o)
    (op : AOp K V) (hp : op.IsPlain) : Ok dflt (op.run N n o).1 := by
  cases op with
  | plain k v => exact ok_setPlain N n dflt o hd ho k v hp
  | tuple path v => exact ho.setItem hd path hp
  | update d => exact ok_updatePlain N n dflt hd d hp o ho

theorem ok_ahistory (N : AuxNames K V) (n : Nat) (dflt : Val K V) (hd : Plain dflt)
    (ops : List (AOp K V)) (hp : ∀ op ∈ ops, op.IsPlain) (o : Val K V) (ho : Ok dflt o) :
    Ok dflt (ahistory N n o ops) := by
  induction ops generalizing o with
  | nil => exact ho
  | cons op ops ih =>
    exact ih (fun op' h => hp op' (by simp [h])) _ (ok_run N n dflt o hd ho op (hp op (by simp)))

theorem AReachable.ok {N : AuxNames K V} {n : Nat} {dflt o : Val K V} (hw : Wf dflt)
    (hd : kindAt dflt [] = some true) (h : AReachable N n dflt o) : Ok dflt o := by
  obtain ⟨o₀, ops, hc, hp, rfl⟩ := h
  have he : Wf (.dict ([] : List (K × Val K V))) := .dict [] (by simp) (by simp)
  exact ok_ahistory N n dflt hw.plain ops hp o₀ ((construct_spec n dflt hw hd [] he).1 o₀ hc).1

theorem setPlain_unrelated (N : AuxNames K V) (n : Nat) (dflt o : Val K V)
    (ho : Ok dflt o) (k : K) (v : Val K V) (hk : k ≠ N.aux) (k' : K) (h : k ≠ k') :
    leafAt (setPlain N n o k v).1 [k'] = leafAt o [k'] := by
  have h1 := setItem_leafAt_ne n dflt o ho [k] k' v (by simpa using h)
  unfold setPlain
  rcases he : setItem n o [k] v with ⟨o1, _ | e⟩ <;> rw [he] at h1 <;> simpa [hk] using h1

theorem run_unrelated (N : AuxNames K V) (n : Nat) (dflt o : Val K V) (hd : Plain dflt)
    (ho : Ok dflt o) (op : AOp K V) (hp : op.IsPlain) (hu : op.Unrelated N) (k' : K)
    (hk' : k' = N.aux ∨ k' = N.fx ∨ k' = N.gy) :
    leafAt (op.run N n o).1 [k'] = leafAt o [k'] := by
  cases op with
  | plain k v =>
    refine setPlain_unrelated N n dflt o ho k v hu.1 k' ?_
    rcases hk' with rfl | rfl | rfl
    · exact hu.1
    · exact hu.2.1
    · exact hu.2.2
  | tuple path v =>
    refine setItem_leafAt_ne n dflt o ho path k' v ?_
    rcases hk' with rfl | rfl | rfl
    · exact hu.1
    · exact hu.2.1
    · exact hu.2.2
  | update d =>
    simp only [AOp.run]
    induction d generalizing o with
    | nil => rfl
    | cons kv d ih =>
      obtain ⟨k, v⟩ := kv
      have hkv := hu (k, v) (by simp)
      have h1 := ok_setPlain N n dflt o hd ho k v (hp (k, v) (by simp))
      have h2 := setPlain_unrelated N n dflt o ho k v hkv.1 k' (by
        rcases hk' with rfl | rfl | rfl
        · exact hkv.1
        · exact hkv.2.1
        · exact hkv.2.2)
      simp only [updatePlain]
      rcases he : setPlain N n o k v with ⟨o1, _ | e⟩
      · rw [he] at h1 h2
        rw [← h2]
        exact ih o1 h1 (fun kv h => hp kv (by simp [h])) (fun kv h => hu kv (by simp [h]))
      · rw [he] at h2; exact h2

omit [DecidableEq V] in
theorem setItem_leaf_top (n : Nat) (dflt o : Val K V) (hw : Wf dflt) (ho : Ok dflt o) (k : K) (x : V)
    (hk : kindAt dflt [k] = some false) :
    (setItem (n + 1) o [k] (.leaf x)).2 = none ∧
      leafAt (setItem (n + 1) o [k] (.leaf x)).1 [k] = some x := by
  obtain ⟨dk, kvs, rfl, rfl, hc⟩ := ho
  have hg : getnode [] (.dict dk) ([] : List K) = .ok (.dict dk) := rfl
  have a1 := (setAt_leaf n (.dict dk) [k] [] dk kvs hg hc [] k x).1 (by simpa using hk)
  have hs := setItem_snoc (n + 1) (.dict dk) [] kvs [] k (.leaf x)
  simp only [List.nil_append] at hs
  have hok : (setItem (n + 1) (.cdict (.dict dk) [] kvs) [k] (.leaf x)).2 = none := by
    rw [hs]; exact a1
  refine ⟨hok, ?_⟩
  have := setAt_effect (n + 1) _ hw [k] [] dk kvs rfl hc [] k (.leaf x) (.leaf x) a1
  rw [hs]
  have h2 := this [k]
  rw [show ([] : List K) ++ [k] = [k] from rfl, leafAt_nest] at h2
  simpa using h2

/-- **C04.** Whatever was done to an options object before, assigning `AuxVarObj` succeeds,
reads back, and sets `fEvalX` to the negation and `gEvalY` to the value of "`AuxVarObj` is
true"; all three stay so through any later history (including failing operations) that does
not mention them. -/
theorem C04_coupled (N : AuxNames K V) (hN : N.Distinct) (n : Nat) (dflt o : Val K V) (hw : Wf dflt)
    (hd : kindAt dflt [] = some true)
    (hk : kindAt dflt [N.aux] = some false ∧ kindAt dflt [N.fx] = some false ∧
      kindAt dflt [N.gy] = some false)
    (ho : AReachable N (n + 1) dflt o) (x : V) (ops : List (AOp K V)) (hp : ∀ op ∈ ops, op.IsPlain)
    (hu : ∀ op ∈ ops, op.Unrelated N) :
    (AOp.run N (n + 1) o (.plain N.aux (.leaf x))).2 = none ∧
    let o' := ahistory N (n + 1) o (.plain N.aux (.leaf x) :: ops)
    leafAt o' [N.aux] = some x ∧
    leafAt o' [N.fx] = some (if x = N.tt then N.ff else N.tt) ∧
    leafAt o' [N.gy] = some (if x = N.tt then N.tt else N.ff) := by
  have h0 := ho.ok hw hd
  have hdp := hw.plain
  obtain ⟨a1, a2⟩ := setItem_leaf_top n dflt o hw h0 N.aux x hk.1
  have k1 : Ok dflt (setItem (n + 1) o [N.aux] (.leaf x)).1 := h0.setItem hdp _ (.leaf _)
  rcases he1 : setItem (n + 1) o [N.aux] (.leaf x) with ⟨o1, r1⟩
  rw [he1] at a1 a2 k1
  simp only at a1 a2 k1
  subst a1
  have hx : isTrue N (.leaf x : Val K V) = decide (x = N.tt) := rfl
  obtain ⟨b1, b2⟩ := setItem_leaf_top n dflt o1 hw k1 N.fx (if isTrue N (.leaf x : Val K V) then N.ff else N.tt)
    hk.2.1
  have b3 := setItem_leafAt_ne (n + 1) dflt o1 k1 [N.fx] N.aux
    (.leaf (if isTrue N (.leaf x : Val K V) then N.ff else N.tt)) (by simpa using hN.aux_fx.symm)
  have k2 : Ok dflt (setItem (n + 1) o1 [N.fx]
    (.leaf (if isTrue N (.leaf x : Val K V) then N.ff else N.tt))).1 := k1.setItem hdp _ (.leaf _)
  rcases he2 : setItem (n + 1) o1 [N.fx] (.leaf (if isTrue N (.leaf x : Val K V) then N.ff else N.tt))
    with ⟨o2, r2⟩
  rw [he2] at b1 b2 b3 k2
  simp only at b1 b2 b3 k2
  subst b1
  obtain ⟨c1, c2⟩ := setItem_leaf_top n dflt o2 hw k2 N.gy (if isTrue N (.leaf x : Val K V) then N.tt else N.ff)
    hk.2.2
  have c3 := setItem_leafAt_ne (n + 1) dflt o2 k2 [N.gy] N.aux
    (.leaf (if isTrue N (.leaf x : Val K V) then N.tt else N.ff)) (by simpa using hN.aux_gy.symm)
  have c4 := setItem_leafAt_ne (n + 1) dflt o2 k2 [N.gy] N.fx
    (.leaf (if isTrue N (.leaf x : Val K V) then N.tt else N.ff)) (by simpa using hN.fx_gy.symm)
  have hrun : AOp.run N (n + 1) o (.plain N.aux (.leaf x)) =
      setItem (n + 1) o2 [N.gy] (.leaf (if isTrue N (.leaf x : Val K V) then N.tt else N.ff)) := by
    simp [AOp.run, setPlain, he1, he2]
  refine ⟨by rw [hrun]; exact c1, ?_⟩
  have keep : ∀ (k' : K), (k' = N.aux ∨ k' = N.fx ∨ k' = N.gy) → ∀ (ops : List (AOp K V)) (o : Val K V), Ok dflt o →
      (∀ op ∈ ops, op.IsPlain) → (∀ op ∈ ops, op.Unrelated N) →
      leafAt (ahistory N (n + 1) o ops) [k'] = leafAt o [k'] := by
    intro k' hk' ops
    induction ops with
    | nil => intro o _ _ _; rfl
    | cons op ops ih =>
      intro o ho hp hu
      have := ih (op.run N (n + 1) o).1 (ok_run N (n + 1) dflt o hdp ho op (hp op (by simp)))
        (fun op' h => hp op' (by simp [h])) (fun op' h => hu op' (by simp [h]))
      rw [← run_unrelated N (n + 1) dflt o hdp ho op (hp op (by simp)) (hu op (by simp)) k' hk']
      exact this
  have k3 : Ok dflt (AOp.run N (n + 1) o (.plain N.aux (.leaf x))).1 :=
    ok_run N (n + 1) dflt o hdp h0 _ (.leaf _)
  have hh : ahistory N (n + 1) o (.plain N.aux (.leaf x) :: ops) =
      ahistory N (n + 1) (AOp.run N (n + 1) o (.plain N.aux (.leaf x))).1 ops := rfl
  simp only
  rw [hh, keep N.aux (.inl rfl) ops _ k3 hp hu, keep N.fx (.inr (.inl rfl)) ops _ k3 hp hu,
    keep N.gy (.inr (.inr rfl)) ops _ k3 hp hu, hrun, c3, c4, c2, b3, a2, b2, hx]
  refine ⟨rfl, ?_, ?_⟩ <;> by_cases h : x = N.tt <;> simp [h]

/-- The names in the code. -/
def auxNames : AuxNames String Int := ⟨"AuxVarObj", "fEvalX", "gEvalY", 1, 0⟩

/-- A fragment of the defaults of `GenericConvBPDN.Options` (`admm/cbpdn.py` 117-135), with
`True` and `False` coded as 1 and 0. -/
def exAux : Val String Int :=
  .dict [("Verbose", .leaf 0), ("AuxVarObj", .leaf 0), ("fEvalX", .leaf 1), ("gEvalY", .leaf 0),
    ("AutoRho", .dict [("Enabled", .leaf 0)])]

theorem exAux_wf : Wf exAux := by
  refine .dict _ (by simp) ?_
  intro kv h
  simp only [List.mem_cons, List.not_mem_nil, or_false] at h
  rcases h with rfl | rfl | rfl | rfl | rfl
  iterate 4 exact .leaf _
  refine .dict _ (by simp) ?_
  intro kv h
  simp only [List.mem_cons, List.not_mem_nil, or_false] at h
  subst h; exact .leaf _

/-- The hypotheses of `C04_coupled` are met after a history in which the flags were set
inconsistently by hand, with a later history that includes a failing operation. -/
example : auxNames.Distinct ∧ kindAt exAux [] = some true ∧ kindAt exAux ["AuxVarObj"] = some false ∧
    kindAt exAux ["fEvalX"] = some false ∧ kindAt exAux ["gEvalY"] = some false ∧
    (∃ o, AReachable auxNames 3 exAux o ∧ leafAt o ["fEvalX"] = some 0 ∧ leafAt o ["AuxVarObj"] = some 0) ∧
    (∀ op ∈ [AOp.tuple ["AutoRho", "Enabled"] (.leaf (1 : Int)), .plain "Nope" (.leaf 3)],
      op.IsPlain ∧ op.Unrelated auxNames) := by
  refine ⟨⟨by decide, by decide, by decide, by decide⟩, rfl, rfl, rfl, rfl,
    ⟨_, ⟨_, [.plain "fEvalX" (.leaf 0)], rfl, ?_, rfl⟩, rfl, rfl⟩, ?_⟩
  · intro op h
    simp only [List.mem_cons, List.not_mem_nil, or_false] at h
    subst h; exact .leaf _
  · intro op h
    simp only [List.mem_cons, List.not_mem_nil, or_false] at h
    rcases h with rfl | rfl
    · exact ⟨.leaf _, by decide, by decide, by decide⟩
    · exact ⟨.leaf _, by decide, by decide, by decide⟩

/-- **C04, limit.** With the one-element tuple key `('AuxVarObj',)`, which addresses the same
option, the flags are not switched. -/
theorem C04_tuple_key_limit :
    ∃ o, AReachable auxNames 3 exAux o ∧
      (AOp.run auxNames 3 o (.tuple ["AuxVarObj"] (.leaf 1))).2 = none ∧
      leafAt (AOp.run auxNames 3 o (.tuple ["AuxVarObj"] (.leaf 1))).1 ["AuxVarObj"] = some 1 ∧
      leafAt (AOp.run auxNames 3 o (.tuple ["AuxVarObj"] (.leaf 1))).1 ["fEvalX"] = some 1 := by
  refine ⟨_, ⟨_, [], rfl, by simp, rfl⟩, rfl, rfl, rfl⟩

end Sporco.Options
