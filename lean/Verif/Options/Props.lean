import Verif.Options.Lemmas

/-!
# Properties C01-C03 of option trees

`n` below is the model's recursion bound; `DepthLe n dflt` says it is at least
the nesting depth of the defaults, and `exists_depth` shows such an `n` always
exists. An object is *reachable* when it results from constructing with defaults
and a plain dict, followed by any history of assignments and updates.
-/

namespace Sporco.Options

variable {K V : Type} [DecidableEq K]

/-- Objects a user can get: construct, then any history of operations with plain
values, exceptions being caught and ignored. -/
def Reachable (n : Nat) (dflt o : Val K V) : Prop :=
  ∃ d o₀ ops, Wf (.dict d) ∧ construct n dflt d = .ok o₀ ∧ (∀ op ∈ ops, op.IsPlain) ∧
    o = history n o₀ ops

theorem Reachable.ok {n : Nat} {dflt o : Val K V} (hw : Wf dflt) (hd : kindAt dflt [] = some true)
    (h : Reachable n dflt o) : Ok dflt o := by
  obtain ⟨d, o₀, ops, hwd, hc, hp, rfl⟩ := h
  exact (((construct_spec n dflt hw hd d hwd).1 o₀ hc).1).history hw.plain ops hp

/-- **C01.** After construction and any history of assignments and updates,
succeeding or failing, the object has at every path exactly the kind of entry
(nothing, leaf, sub-tree) that the defaults have. -/
theorem C01_shape_invariant (n : Nat) (dflt o : Val K V) (hw : Wf dflt)
    (hd : kindAt dflt [] = some true) (h : Reachable n dflt o) (p : List K) :
    kindAt o p = kindAt dflt p := by
  obtain ⟨dk, kvs, _, _, hc⟩ := h.ok hw hd
  exact hc.kindAt_eq p

/-- **C01.** Constructing without user options succeeds and gives an object that
reads exactly as the defaults. -/
theorem C01_construct_defaults (n : Nat) (dflt : Val K V) (hw : Wf dflt)
    (hd : kindAt dflt [] = some true) (hn : DepthLe n dflt) :
    ∃ o, construct n dflt [] = .ok o ∧ ∀ p, kindAt o p = kindAt dflt p ∧
      leafAt o p = leafAt dflt p := by
  have he : Wf (.dict ([] : List (K × Val K V))) := .dict [] (by simp) (by simp)
  have hs := construct_spec n dflt hw hd [] he
  obtain ⟨o, ho⟩ := (hs.2 hn).2 (by
    intro p b hp
    cases p with
    | nil => simp [kindAt, at?, items?_dict] at hp; subst hp; exact hd
    | cons k ks => simp [kindAt, at?, items?_dict, lookup] at hp)
  obtain ⟨⟨dk, kvs, _, _, hc⟩, hov, _⟩ := hs.1 o ho
  refine ⟨o, ho, fun p => ⟨hc.kindAt_eq p, ?_⟩⟩
  have := hov p
  cases p with
  | nil => simpa [leafAt, at?] using this
  | cons k ks => rw [this]; simp [leafAt, at?, items?_dict, lookup]

/-- **C01.** Constructing with a user dict succeeds exactly when every path of
the dict exists in the defaults with the same kind of entry; the result reads as
the defaults overridden by the user's dict. -/
theorem C01_construct_iff (n : Nat) (dflt : Val K V) (hw : Wf dflt)
    (hd : kindAt dflt [] = some true) (hn : DepthLe n dflt)
    (d : List (K × Val K V)) (hwd : Wf (.dict d)) :
    ((∃ o, construct n dflt d = .ok o) ↔ FitsDefaults dflt (.dict d)) ∧
    (∀ o, construct n dflt d = .ok o → Overridden (.dict d) dflt o) := by
  have hs := construct_spec n dflt hw hd d hwd
  exact ⟨⟨fun ⟨o, ho⟩ => (hs.1 o ho).2.2, (hs.2 hn).2⟩, fun o ho => (hs.1 o ho).2.1⟩

/-- **C02.** Outcome of assigning a leaf value at any path of a reachable object:
it succeeds exactly where the defaults have a leaf; where the defaults have a
sub-tree it raises `InvalidValueError` naming the path; where they have nothing
it raises `UnknownKeyError` naming the path, unless the path runs through a leaf
(then it raises `InvalidValueError`/`TypeError`). Whenever it raises, the object
is unchanged. -/
theorem C02_assign_leaf_outcome (n : Nat) (dflt o : Val K V) (hw : Wf dflt)
    (hd : kindAt dflt [] = some true) (h : Reachable (n + 1) dflt o)
    (p : List K) (hp : p ≠ []) (x : V) :
    (kindAt dflt p = some false → (setItem (n + 1) o p (.leaf x)).2 = none) ∧
    (kindAt dflt p = some true → setItem (n + 1) o p (.leaf x) = (o, some (.invalid p))) ∧
    (kindAt dflt p = none → (setItem (n + 1) o p (.leaf x)).1 = o ∧
      ∃ e, (setItem (n + 1) o p (.leaf x)).2 = some e ∧
        ((∀ r, r <+: p → kindAt dflt r ≠ some false) → e = .unknown p) ∧
        ((∃ r, r <+: p ∧ kindAt dflt r = some false) → e = .attr ∨ e = .invalid [])) := by
  obtain ⟨dk, kvs, rfl, rfl, hc⟩ := h.ok hw hd
  obtain ⟨qs, k, rfl⟩ : ∃ qs k, p = qs ++ [k] :=
    ⟨p.dropLast, p.getLast hp, (List.dropLast_concat_getLast hp).symm⟩
  have hg : getnode [] (.dict dk) ([] : List K) = .ok (.dict dk) := rfl
  rw [setItem_snoc]
  obtain ⟨a1, a2⟩ := setAt_leaf n (.dict dk) (qs ++ [k]) [] dk kvs hg hc qs k x
  refine ⟨a1, fun h => ?_, fun h => ?_⟩
  · rw [a2 h]; simp
  · obtain ⟨b1, e, b2, b3, b4⟩ := setAt_none n (.dict dk) (qs ++ [k]) [] dk kvs hg hc qs k
      (.leaf x) (.leaf x) h rfl
    refine ⟨by rw [b1], e, b2, fun hr => b3 fun r h' => hr r (h'.trans (List.prefix_append _ _)),
      fun ⟨r, h', hf⟩ => b4 ⟨r, ?_, hf⟩⟩
    rcases List.prefix_concat_iff.1 h' with rfl | h'
    · rw [h] at hf; cases hf
    · exact h'

/-- **C02.** Assigning anything (leaf or plain nested dict) at a path that is not
in the defaults raises and leaves the object unchanged. -/
theorem C02_unknown_unchanged (n : Nat) (dflt o : Val K V) (hw : Wf dflt)
    (hd : kindAt dflt [] = some true) (h : Reachable (n + 1) dflt o)
    (p : List K) (hp : p ≠ []) (v : Val K V) (hv : Plain v) (hk : kindAt dflt p = none) :
    (setItem (n + 1) o p v).1 = o ∧ (setItem (n + 1) o p v).2 ≠ none ∧
    ((∀ r, r <+: p → kindAt dflt r ≠ some false) →
      (setItem (n + 1) o p v).2 = some (.unknown p)) := by
  obtain ⟨dk, kvs, rfl, rfl, hc⟩ := h.ok hw hd
  obtain ⟨qs, k, rfl⟩ : ∃ qs k, p = qs ++ [k] :=
    ⟨p.dropLast, p.getLast hp, (List.dropLast_concat_getLast hp).symm⟩
  rw [setItem_snoc]
  obtain ⟨b1, e, b2, b3, b4⟩ := setAt_none n (.dict dk) (qs ++ [k]) [] dk kvs rfl hc qs k
      v hv hk rfl
  refine ⟨by rw [b1], by rw [b2]; simp, fun hr => ?_⟩
  rw [b2, b3 fun r h' => hr r (h'.trans (List.prefix_append _ _))]

/-- **C02.** `update` with a plain dict succeeds exactly when the dict fits the
defaults, and never for lack of recursion bound. -/
theorem C02_update_iff (n : Nat) (dflt o : Val K V) (hw : Wf dflt)
    (hd : kindAt dflt [] = some true) (hn : DepthLe n dflt) (h : Reachable n dflt o)
    (d : List (K × Val K V)) (hwd : Wf (.dict d)) :
    ((updateItems n o d).2 = none ↔ FitsDefaults dflt (.dict d)) ∧
    (updateItems n o d).2 ≠ some .fuel := by
  have hs := update_spec n dflt o hw (h.ok hw hd) d hwd
  exact ⟨⟨fun hr => (hs.1 hr).2, (hs.2 hn).2⟩, (hs.2 hn).1⟩

/-- **C03.** After a successful assignment of any plain value at a tuple path,
the object reads as before except that the leaves of the assigned value now read
as assigned. -/
theorem C03_assign_effect (n : Nat) (dflt o : Val K V) (hw : Wf dflt)
    (hd : kindAt dflt [] = some true) (h : Reachable n dflt o)
    (p : List K) (v : Val K V) (hv : Wf v)
    (hok : (setItem n o p v).2 = none) :
    Overridden (nest p v) o (setItem n o p v).1 := by
  obtain ⟨dk, kvs, rfl, rfl, hc⟩ := h.ok hw hd
  have hp : p ≠ [] := by rintro rfl; simp [setItem] at hok
  obtain ⟨qs, k, rfl⟩ : ∃ qs k, p = qs ++ [k] :=
    ⟨p.dropLast, p.getLast hp, (List.dropLast_concat_getLast hp).symm⟩
  rw [setItem_snoc] at hok ⊢
  exact setAt_effect n _ hw _ [] dk kvs rfl hc qs k v hv hok

/-- **C03.** After a successful leaf assignment at path `p`, reading `p` through
the API gives the assigned value, and every other leaf option reads as before. -/
theorem C03_leaf_readback (n : Nat) (dflt o : Val K V) (hw : Wf dflt)
    (hd : kindAt dflt [] = some true) (h : Reachable n dflt o)
    (p : List K) (x : V) (hok : (setItem n o p (.leaf x)).2 = none) :
    getItem (setItem n o p (.leaf x)).1 p = .ok (.leaf x) ∧
    ∀ q y, q ≠ p → getItem o q = .ok (.leaf y) →
      getItem (setItem n o p (.leaf x)).1 q = .ok (.leaf y) := by
  have hov := C03_assign_effect n dflt o hw hd h p (.leaf x) (.leaf x) hok
  have key : ∀ (t : Val K V) (q : List K) (y : V), q ≠ [] → leafAt t q = some y →
      getItem t q = .ok (.leaf y) := by
    intro t q y hq hl
    simp only [leafAt] at hl
    rcases ha : at? t q with _ | c
    · simp [ha] at hl
    · cases c with
      | leaf v =>
        simp [ha] at hl; subst hl
        simp [getItem, hq, getAt_eq q t q ha]
      | dict _ => simp [ha] at hl
      | cdict _ _ _ => simp [ha] at hl
  have getOk : ∀ (full : List K) (t : Val K V) (q : List K) (c : Val K V),
      getAt full t q = .ok c → at? t q = some c := by
    intro full t q
    induction q generalizing t with
    | nil => intro c h; simp [getAt] at h; simp [at?, h]
    | cons k ks ih =>
      intro c h
      simp only [getAt] at h
      rcases hi : t.items? with _ | kvs
      · simp [hi] at h
      · simp only [hi] at h
        rcases hl : lookup kvs k with _ | c'
        · simp [hl] at h
        · simp only [hl] at h
          simp [at?, hi, hl, ih c' c h]
  have hp : p ≠ [] := by
    rintro rfl
    obtain ⟨dk, kvs, rfl, rfl, hc⟩ := h.ok hw hd
    simp [setItem] at hok
  refine ⟨key _ _ _ hp (by rw [hov p, leafAt_nest]; simp), fun q y hq hg => ?_⟩
  simp only [getItem] at hg
  split at hg
  · cases hg
  · rename_i hq0
    have := getOk q o q _ hg
    refine key _ _ _ hq0 ?_
    rw [hov q, leafAt_nest]
    simp [hq, leafAt, this]

/-- **C03.** A successful `update` overrides exactly the leaves of its argument. -/
theorem C03_update_effect (n : Nat) (dflt o : Val K V) (hw : Wf dflt)
    (hd : kindAt dflt [] = some true) (h : Reachable n dflt o)
    (d : List (K × Val K V)) (hwd : Wf (.dict d)) (hok : (updateItems n o d).2 = none) :
    Overridden (.dict d) o (updateItems n o d).1 :=
  ((update_spec n dflt o hw (h.ok hw hd) d hwd).1 hok).1

/-! ### A concrete tree and a history on it -/

section Example

/-- A fragment of the ADMM defaults (sporco/admm/admm.py:170-184). -/
def exDflt : Val String Int :=
  .dict [("Verbose", .leaf 0), ("MaxMainIter", .leaf 1000),
    ("AutoRho", .dict [("Enabled", .leaf 0), ("Period", .leaf 10)])]

theorem exDflt_wf : Wf exDflt := by
  refine .dict _ (by simp) ?_
  intro kv h
  simp only [List.mem_cons, List.not_mem_nil, or_false] at h
  rcases h with rfl | rfl | rfl
  · exact .leaf _
  · exact .leaf _
  · refine .dict _ (by simp) ?_
    intro kv h
    simp only [List.mem_cons, List.not_mem_nil, or_false] at h
    rcases h with rfl | rfl <;> exact .leaf _

/-- The hypotheses of the theorems above are met by a real object after a history
with one failing and one succeeding operation. -/
example : kindAt exDflt [] = some true ∧ DepthLe 2 exDflt ∧
    ∃ o, Reachable 3 exDflt o ∧ leafAt o ["AutoRho", "Period"] = some 5 ∧
      (setItem 3 o ["AutoRho", "Enabled"] (.leaf 1)).2 = none ∧
      (setItem 3 o ["AutoRho"] (.leaf 1)).2 = some (.invalid ["AutoRho"]) ∧
      (setItem 3 o ["AutoRho", "Nope"] (.leaf 1)).2 = some (.unknown ["AutoRho", "Nope"]) := by
  refine ⟨rfl, ?_, ?_⟩
  · intro kvs hk kv hm
    cases hk
    simp only [List.mem_cons, List.not_mem_nil, or_false] at hm
    rcases hm with rfl | rfl | rfl
    · intro kvs hk; cases hk
    · intro kvs hk; cases hk
    · intro kvs hk kv hm
      cases hk
      simp only [List.mem_cons, List.not_mem_nil, or_false] at hm
      rcases hm with rfl | rfl <;> rfl
  · refine ⟨_, ⟨[("Verbose", .leaf 1)], _,
      [.set ["Nope"] (.leaf 3), .update [("AutoRho", .dict [("Period", .leaf 5)])]],
      ?_, rfl, ?_, rfl⟩, rfl, rfl, rfl, rfl⟩
    · refine .dict _ (by simp) ?_
      intro kv h
      simp only [List.mem_cons, List.not_mem_nil, or_false] at h
      subst h; exact .leaf _
    · intro op h
      simp only [List.mem_cons, List.not_mem_nil, or_false] at h
      rcases h with rfl | rfl
      · exact .leaf _
      · intro kv h
        simp only [List.mem_cons, List.not_mem_nil, or_false] at h
        subst h
        refine .dict _ ?_
        intro kv h
        simp only [List.mem_cons, List.not_mem_nil, or_false] at h
        subst h; exact .leaf _

/-- **C02, disagreement.** `update` is not atomic: an update that raises can have
applied its earlier items. -/
theorem C02_update_not_atomic :
    ∃ (o : Val String Int) (d : List (String × Val String Int)),
      Reachable 3 exDflt o ∧ (updateItems 3 o d).2 ≠ none ∧
      leafAt (updateItems 3 o d).1 ["Verbose"] ≠ leafAt o ["Verbose"] := by
  refine ⟨_, [("Verbose", .leaf 1), ("Nope", .leaf 1)],
    ⟨[], _, [], .dict [] (by simp) (by simp), rfl, by simp, rfl⟩, ?_, ?_⟩
  · simp [updateItems, history, runAll, setKey, check, getnode, exDflt, lookup, insert, items?_leaf,
      items?_dict]
  · simp [updateItems, history, runAll, setKey, check, getnode, exDflt, lookup, insert, leafAt, at?,
      items?_leaf, items?_dict, items?_cdict]

/-- **C01, limit of the property.** Assigning a ready-made `ConstrainedDict`
(instead of a plain dict) bypasses the check of its content: the tree can then
have an undocumented option. This is why C01 is about plain values. -/
theorem C01_premade_unchecked :
    ∃ (o v : Val String Int), Reachable 3 exDflt o ∧ (setItem 3 o ["AutoRho"] v).2 = none ∧
      kindAt (setItem 3 o ["AutoRho"] v).1 ["AutoRho", "Nope"] ≠
        kindAt exDflt ["AutoRho", "Nope"] := by
  refine ⟨_, .cdict (.dict [("Nope", .leaf 0)]) [] [("Nope", .leaf 0)],
    ⟨[], _, [], .dict [] (by simp) (by simp), rfl, by simp, rfl⟩, ?_, ?_⟩
  · simp [setItem, setAt, history, setKey, check, getnode, exDflt, lookup, insert,
      items?_dict]
  · simp [setItem, setAt, history, setKey, check, getnode, exDflt, lookup, insert, kindAt, at?,
      items?_leaf, items?_dict, items?_cdict]

end Example

end Sporco.Options
