import Verif.Options.Spec

set_option linter.unusedSectionVars false
set_option linter.unusedSimpArgs false

namespace Sporco.Options

variable {K V : Type} [DecidableEq K]

theorem items?_leaf (v : V) : (Val.leaf v : Val K V).items? = none := rfl
theorem items?_dict (kvs : List (K × Val K V)) : (Val.dict kvs).items? = some kvs := rfl
theorem items?_cdict (d : Val K V) (p : List K) (kvs : List (K × Val K V)) :
    (Val.cdict d p kvs).items? = some kvs := rfl

theorem lookup_insert_self (kvs : List (K × Val K V)) (k : K) (v : Val K V) :
    lookup (insert kvs k v) k = some v := by
  induction kvs with
  | nil => simp [insert, lookup]
  | cons h t ih =>
    obtain ⟨k', v'⟩ := h
    by_cases hk : k' = k <;> simp [insert, lookup, hk, ih]

theorem lookup_insert_ne (kvs : List (K × Val K V)) {k k' : K} (v : Val K V) (h : k' ≠ k) :
    lookup (insert kvs k v) k' = lookup kvs k' := by
  induction kvs with
  | nil => simp [insert, lookup, h.symm]
  | cons hd t ih =>
    obtain ⟨k2, v2⟩ := hd
    by_cases hk : k2 = k
    · subst hk; simp [insert, lookup, h.symm]
    · simp [insert, lookup, hk, ih]

theorem lookup_insert (kvs : List (K × Val K V)) (k k' : K) (v : Val K V) :
    lookup (insert kvs k v) k' = if k' = k then some v else lookup kvs k' := by
  by_cases h : k' = k
  · subst h; simp [lookup_insert_self]
  · simp [h, lookup_insert_ne _ _ h]

theorem insert_same {kvs : List (K × Val K V)} {k : K} {v : Val K V}
    (h : lookup kvs k = some v) : insert kvs k v = kvs := by
  induction kvs with
  | nil => simp [lookup] at h
  | cons hd t ih =>
    obtain ⟨k2, v2⟩ := hd
    by_cases hk : k2 = k
    · simp [lookup, hk] at h; simp [insert, hk, h]
    · simp [lookup, hk] at h; simp [insert, hk, ih h]

theorem lookup_mem {kvs : List (K × Val K V)} {k : K} {v : Val K V}
    (h : lookup kvs k = some v) : (k, v) ∈ kvs := by
  induction kvs with
  | nil => simp [lookup] at h
  | cons hd t ih =>
    obtain ⟨k2, v2⟩ := hd
    by_cases hk : k2 = k
    · simp [lookup, hk] at h; simp [hk, h]
    · simp [lookup, hk] at h; simp [ih h]

theorem mem_lookup {kvs : List (K × Val K V)} {k : K} {v : Val K V}
    (hn : (kvs.map Prod.fst).Nodup) (h : (k, v) ∈ kvs) : lookup kvs k = some v := by
  induction kvs with
  | nil => simp at h
  | cons hd t ih =>
    obtain ⟨k2, v2⟩ := hd
    simp only [List.map_cons, List.nodup_cons] at hn
    rcases List.mem_cons.1 h with h | h
    · cases h; simp [lookup]
    · have : k2 ≠ k := by
        rintro rfl
        exact hn.1 (List.mem_map.2 ⟨_, h, rfl⟩)
      simp [lookup, this, ih hn.2 h]

theorem Wf.plain {t : Val K V} (h : Wf t) : Plain t := by
  induction h with
  | leaf v => exact .leaf v
  | dict kvs _ _ ih => exact .dict kvs ih

/-- The state tree `s`, sitting at path `p` of an object with defaults `root`,
has exactly the shape of the defaults node `d`. -/
inductive Conf (root : Val K V) : List K → Val K V → Val K V → Prop
  | leaf (p : List K) (d v : V) : Conf root p (.leaf d) (.leaf v)
  | node (p : List K) (dk kvs : List (K × Val K V))
      (h1 : ∀ k, lookup dk k = none → lookup kvs k = none)
      (h2 : ∀ k dv, lookup dk k = some dv → ∃ sv, lookup kvs k = some sv)
      (h3 : ∀ k dv sv, lookup dk k = some dv → lookup kvs k = some sv →
        Conf root (p ++ [k]) dv sv) :
      Conf root p (.dict dk) (.cdict root p kvs)

/-- Content under construction: what is there conforms. -/
def Part (root : Val K V) (p : List K) (dk kvs : List (K × Val K V)) : Prop :=
  ∀ k sv, lookup kvs k = some sv → ∃ dv, lookup dk k = some dv ∧ Conf root (p ++ [k]) dv sv

theorem Conf.part {root : Val K V} {p : List K} {dk kvs : List (K × Val K V)}
    (h : Conf root p (.dict dk) (.cdict root p kvs)) : Part root p dk kvs := by
  cases h with
  | node _ _ _ h1 h2 h3 =>
    intro k sv hs
    rcases hd : lookup dk k with _ | dv
    · rw [h1 k hd] at hs; cases hs
    · exact ⟨dv, rfl, h3 k dv sv hd hs⟩

theorem Part.conf {root : Val K V} {p : List K} {dk kvs : List (K × Val K V)}
    (h : Part root p dk kvs) (hc : ∀ k, lookup dk k ≠ none → lookup kvs k ≠ none) :
    Conf root p (.dict dk) (.cdict root p kvs) := by
  refine .node p dk kvs ?_ ?_ ?_
  · intro k hd
    rcases hs : lookup kvs k with _ | sv
    · rfl
    · obtain ⟨dv, h', _⟩ := h k sv hs; rw [hd] at h'; cases h'
  · intro k dv hd
    have := hc k (by rw [hd]; simp)
    rcases hs : lookup kvs k with _ | sv
    · exact absurd hs this
    · exact ⟨sv, rfl⟩
  · intro k dv sv hd hs
    obtain ⟨dv', h', hc'⟩ := h k sv hs
    rw [hd] at h'; cases h'; exact hc'

theorem getnode_append (full full' : List K) (c : Val K V) (p : List K) (k : K)
    {kvs : List (K × Val K V)} (h : getnode full c p = .ok (.dict kvs)) :
    getnode full' c (p ++ [k]) =
      match lookup kvs k with
      | none => .error (.unknown full')
      | some c' => .ok c' := by
  induction p generalizing c with
  | nil =>
    simp only [getnode] at h
    cases h
    simp only [List.nil_append, getnode, items?_leaf, items?_dict, items?_cdict]
    split <;> rename_i h2 <;> simp [h2]
  | cons q qs ih =>
    simp only [getnode, List.cons_append] at h ⊢
    rcases hi : c.items? with _ | ck
    · simp [hi] at h
    · simp only [hi] at h ⊢
      rcases hl : lookup ck q with _ | c'
      · simp [hl] at h
      · simp only [hl] at h ⊢
        exact ih _ h

theorem getnode_full {full full' : List K} {c r : Val K V} {p : List K}
    (h : getnode full c p = .ok r) : getnode full' c p = .ok r := by
  induction p generalizing c with
  | nil => simpa [getnode] using h
  | cons q qs ih =>
    simp only [getnode] at h ⊢
    rcases hi : c.items? with _ | ck
    · simp [hi] at h
    · simp only [hi] at h ⊢
      rcases hl : lookup ck q with _ | c'
      · simp [hl] at h
      · simp only [hl] at h ⊢
        exact ih h

theorem check_eq {root : Val K V} {p : List K} {dk : List (K × Val K V)}
    (h : getnode p root p = .ok (.dict dk)) (k : K) (b : Bool) :
    check root p k b =
      match lookup dk k with
      | none => some (.unknown (p ++ [k]))
      | some d => if d.items?.isSome && !b then some (.invalid (p ++ [k])) else none := by
  simp only [check, h, items?_leaf, items?_dict, items?_cdict]
  cases lookup dk k <;> rfl

/-- `runAll` preserves an invariant of its step function. -/
theorem runAll_inv {f : List (K × Val K V) → K → Val K V → List (K × Val K V) × Option (Err K)}
    {P : List (K × Val K V) → Prop} {items : List (K × Val K V)}
    (hf : ∀ kvs k v, (k, v) ∈ items → P kvs → P (f kvs k v).1)
    {kvs : List (K × Val K V)} (h : P kvs) : P (runAll f kvs items).1 := by
  induction items generalizing kvs with
  | nil => simpa [runAll] using h
  | cons hd t ih =>
    obtain ⟨k, v⟩ := hd
    have h1 := hf kvs k v (by simp) h
    simp only [runAll]
    split
    · rename_i kvs' he
      rw [he] at h1
      exact ih (fun kvs k v hm hp => hf kvs k v (by simp [hm]) hp) h1
    · rename_i kvs' e he
      rw [he] at h1
      exact h1

theorem Conf.isPlainLeaf {root : Val K V} {p : List K} {dv sv : Val K V}
    (h : Conf root p dv sv) : dv.items?.isSome = sv.items?.isSome := by
  cases h <;> simp [items?_leaf, items?_dict, items?_cdict]

/-- `setKey` on conforming content: it stays conforming, keeps its keys, and on
success has the assigned key. -/
theorem setKey_part (n : Nat) (root : Val K V) (hroot : Plain root)
    (p : List K) (dk kvs : List (K × Val K V)) (hg : getnode p root p = .ok (.dict dk))
    (hp : Part root p dk kvs) (k : K) (v : Val K V) (hv : Plain v) :
    Part root p dk (setKey n root root p kvs k v).1 ∧
    (∀ k', lookup kvs k' ≠ none → lookup (setKey n root root p kvs k v).1 k' ≠ none) ∧
    ((setKey n root root p kvs k v).2 = none →
      lookup (setKey n root root p kvs k v).1 k ≠ none) := by
  induction n generalizing p dk kvs k v with
  | zero => simp only [setKey]; exact ⟨hp, fun _ h => h, by simp⟩
  | succ n ih =>
    -- helper: inserting a conforming value
    have ins : ∀ (dv sv : Val K V), lookup dk k = some dv → Conf root (p ++ [k]) dv sv →
        Part root p dk (insert kvs k sv) ∧
        (∀ k', lookup kvs k' ≠ none → lookup (insert kvs k sv) k' ≠ none) ∧
        lookup (insert kvs k sv) k ≠ none := by
      intro dv sv hd hc
      refine ⟨?_, ?_, by simp [lookup_insert_self]⟩
      · intro k' sv' hs
        rw [lookup_insert] at hs
        split at hs
        · rename_i he; subst he; cases hs; exact ⟨dv, hd, hc⟩
        · exact hp k' sv' hs
      · intro k' h
        rw [lookup_insert]; split
        · simp
        · exact h
    have keep : ∀ e : Err K, Part root p dk kvs ∧
        (∀ k', lookup kvs k' ≠ none → lookup kvs k' ≠ none) ∧
        (some e = none → lookup kvs k ≠ none) :=
      fun e => ⟨hp, fun _ h => h, by simp⟩
    -- helper: running `setKey` over a plain dict
    have run : ∀ (p : List K) (dk kvs items : List (K × Val K V)),
        getnode p root p = .ok (.dict dk) → (∀ kv ∈ items, Plain kv.2) → Part root p dk kvs →
        Part root p dk (runAll (setKey n root root p) kvs items).1 ∧
        (∀ k', lookup kvs k' ≠ none →
          lookup (runAll (setKey n root root p) kvs items).1 k' ≠ none) ∧
        ((runAll (setKey n root root p) kvs items).2 = none →
          ∀ kv ∈ items, lookup (runAll (setKey n root root p) kvs items).1 kv.1 ≠ none) := by
      intro p dk kvs items hg hi
      induction items generalizing kvs with
      | nil => intro hp; simp only [runAll]; exact ⟨hp, fun _ h => h, by simp⟩
      | cons hd t iht =>
        obtain ⟨k, v⟩ := hd
        intro hp
        obtain ⟨a1, a2, a3⟩ := ih p dk kvs hg hp k v (hi (k, v) (by simp))
        simp only [runAll]
        split
        · rename_i kvs' he
          rw [he] at a1 a2 a3
          obtain ⟨b1, b2, b3⟩ := iht kvs' (fun kv h => hi kv (by simp [h])) a1
          refine ⟨b1, fun k' h => b2 k' (a2 k' h), ?_⟩
          intro hs kv hkv
          rcases List.mem_cons.1 hkv with rfl | hm
          · exact b2 _ (a3 rfl)
          · exact b3 hs kv hm
        · rename_i kvs' e he
          rw [he] at a1 a2
          exact ⟨a1, a2, by simp⟩
    cases hv with
    | leaf x =>
      simp only [setKey]
      rw [check_eq hg]
      rcases hd : lookup dk k with _ | dv
      · exact keep _
      · simp only
        cases dv with
        | leaf d =>
          simp only [items?_leaf, items?_dict, items?_cdict]
          obtain ⟨i1, i2, i3⟩ := ins _ (.leaf x) hd (.leaf _ d x)
          exact ⟨i1, i2, fun _ => i3⟩
        | dict d => simpa [items?_leaf, items?_dict, items?_cdict] using hp
        | cdict a b c => simpa [items?_leaf, items?_dict, items?_cdict] using hp
    | dict items hi =>
      simp only [setKey]
      rcases hl : lookup kvs k with _ | sv
      · simp only
        rw [getnode_append _ (p ++ [k]) _ _ _ hg]
        rcases hd : lookup dk k with _ | dv
        · exact keep _
        · simp only
          have hg' : getnode (p ++ [k]) root (p ++ [k]) = .ok dv := by
            rw [getnode_append _ (p ++ [k]) _ _ _ hg, hd]
          have hdp : Plain dv := by
            clear ins keep run ih hl hp
            have : ∀ (c : Val K V) (q : List K) (r : Val K V), Plain c →
                getnode (p ++ [k]) c q = .ok r → Plain r := by
              intro c q
              induction q generalizing c with
              | nil => intro r hc h; simp only [getnode] at h; cases h; exact hc
              | cons a as iha =>
                intro r hc h
                simp only [getnode] at h
                cases hc with
                | leaf v => simp [items?_leaf, items?_dict, items?_cdict] at h
                | dict ckvs hc =>
                  simp only [items?_leaf, items?_dict, items?_cdict] at h
                  split at h
                  · cases h
                  · rename_i c' hl'
                    exact iha c' r (hc _ (lookup_mem hl')) h
            exact this root (p ++ [k]) dv hroot hg'
          cases hdp with
          | leaf d => simpa [items?_leaf, items?_dict, items?_cdict] using hp
          | dict nkvs hnk =>
            simp only [items?_leaf, items?_dict, items?_cdict]
            obtain ⟨r1, r2, r3⟩ := run (p ++ [k]) nkvs [] nkvs hg' hnk
              (by intro k' sv' h; simp [lookup] at h)
            split
            · exact keep _
            · rename_i c hc
              rw [hc] at r1 r2 r3
              obtain ⟨s1, s2, s3⟩ := run (p ++ [k]) nkvs c items hg' hi r1
              split
              · exact keep _
              · rename_i c2 hc2
                rw [hc2] at s1 s2 s3
                rw [check_eq hg, hd]
                simp only [items?_leaf, items?_dict, items?_cdict]
                have hfull : ∀ k', lookup nkvs k' ≠ none → lookup c2 k' ≠ none := by
                  intro k' h
                  apply s2
                  rcases hx : lookup nkvs k' with _ | x
                  · exact absurd hx h
                  · exact r3 rfl (k', x) (lookup_mem hx)
                obtain ⟨i1, i2, i3⟩ := ins _ _ hd (s1.conf hfull)
                simpa using ⟨i1, i2, i3⟩
      · obtain ⟨dv, hd, hc⟩ := hp k sv hl
        cases hc with
        | leaf _ d v => simpa using hp
        | node _ dk' sub h1 h2 h3 =>
          simp only
          have hg' : getnode (p ++ [k]) root (p ++ [k]) = .ok (.dict dk') := by
            rw [getnode_append _ (p ++ [k]) _ _ _ hg, hd]
          have hsub : Conf root (p ++ [k]) (.dict dk') (.cdict root (p ++ [k]) sub) :=
            .node _ _ _ h1 h2 h3
          obtain ⟨r1, r2, r3⟩ := run (p ++ [k]) dk' sub items hg' hi hsub.part
          have hfull : ∀ k', lookup dk' k' ≠ none →
              lookup (runAll (setKey n root root (p ++ [k])) sub items).1 k' ≠ none := by
            intro k' h
            apply r2
            rcases hx : lookup dk' k' with _ | x
            · exact absurd hx h
            · obtain ⟨sv, hsv⟩ := h2 k' x hx
              simp [hsv]
          obtain ⟨i1, i2, i3⟩ := ins _ _ hd (r1.conf hfull)
          exact ⟨i1, i2, fun _ => i3⟩

/-! ### Paths -/

theorem at?_nil (t : Val K V) : at? t [] = some t := rfl

theorem at?_cons {t : Val K V} {kvs : List (K × Val K V)} (h : t.items? = some kvs) (k : K)
    (ks : List K) : at? t (k :: ks) = (lookup kvs k).bind fun c => at? c ks := by
  simp [at?, h]

theorem at?_cons_leaf {t : Val K V} (h : t.items? = none) (k : K) (ks : List K) :
    at? t (k :: ks) = none := by
  simp [at?, h]

theorem Conf.kindAt_eq {root d s : Val K V} {p : List K} (h : Conf root p d s) (q : List K) :
    kindAt s q = kindAt d q := by
  induction q generalizing d s p with
  | nil => simp [kindAt, at?, h.isPlainLeaf]
  | cons k ks ih =>
    cases h with
    | leaf _ d v => simp [kindAt, at?, items?_leaf, items?_dict, items?_cdict]
    | node _ dk kvs h1 h2 h3 =>
      rcases hd : lookup dk k with _ | dv
      · simp [kindAt, at?, items?_leaf, items?_dict, items?_cdict, hd, h1 k hd]
      · obtain ⟨sv, hs⟩ := h2 k dv hd
        have := ih (h3 k dv sv hd hs)
        simpa [kindAt, at?, items?_leaf, items?_dict, items?_cdict, hd, hs] using this

theorem DepthLe.mono {n : Nat} {t : Val K V} (h : DepthLe n t) : DepthLe (n + 1) t := by
  induction n generalizing t with
  | zero => intro kvs hk; simp [DepthLe] at h; rw [h] at hk; cases hk
  | succ n ih => intro kvs hk kv hm; exact ih (h kvs hk kv hm)

theorem DepthLe.le {n m : Nat} {t : Val K V} (h : DepthLe n t) (hnm : n ≤ m) : DepthLe m t := by
  induction hnm with
  | refl => exact h
  | step _ ih => exact ih.mono

theorem exists_depth (t : Val K V) (h : Plain t) : ∃ n, DepthLe n t := by
  induction h with
  | leaf v => exact ⟨0, rfl⟩
  | dict kvs hh ih =>
    have : ∃ n, ∀ kv ∈ kvs, DepthLe n kv.2 := by
      clear hh
      induction kvs with
      | nil => exact ⟨0, by simp⟩
      | cons hd tl iht =>
        obtain ⟨a, ha⟩ := ih hd (by simp)
        obtain ⟨b, hb⟩ := iht (fun kv h => ih kv (by simp [h]))
        refine ⟨max a b, fun kv hk => ?_⟩
        rcases List.mem_cons.1 hk with rfl | hm
        · exact ha.le (Nat.le_max_left _ _)
        · exact (hb kv hm).le (Nat.le_max_right _ _)
    obtain ⟨n, hn⟩ := this
    refine ⟨n + 1, fun kvs' hk kv hm => ?_⟩
    simp only [items?_leaf, items?_dict, items?_cdict, Option.some.injEq] at hk
    subst hk; exact hn kv hm

/-! ### Facts about `runAll` -/

theorem runAll_ok {f : List (K × Val K V) → K → Val K V → List (K × Val K V) × Option (Err K)}
    {P : List (K × Val K V) → Prop} {items : List (K × Val K V)}
    (hf : ∀ kvs k v, (k, v) ∈ items → P kvs → P (f kvs k v).1 ∧ (f kvs k v).2 = none)
    {kvs : List (K × Val K V)} (h : P kvs) : (runAll f kvs items).2 = none := by
  induction items generalizing kvs with
  | nil => rfl
  | cons hd t ih =>
    obtain ⟨k, v⟩ := hd
    have h1 := hf kvs k v (by simp) h
    simp only [runAll]
    split
    · rename_i kvs' he
      rw [he] at h1
      exact ih (fun kvs k v hm hp => hf kvs k v (by simp [hm]) hp) h1.1
    · rename_i kvs' e he
      rw [he] at h1
      simp at h1

theorem runAll_ne {f : List (K × Val K V) → K → Val K V → List (K × Val K V) × Option (Err K)}
    {P : List (K × Val K V) → Prop} {items : List (K × Val K V)} {e : Err K}
    (hf : ∀ kvs k v, (k, v) ∈ items → P kvs → P (f kvs k v).1 ∧ (f kvs k v).2 ≠ some e)
    {kvs : List (K × Val K V)} (h : P kvs) : (runAll f kvs items).2 ≠ some e := by
  induction items generalizing kvs with
  | nil => simp [runAll]
  | cons hd t ih =>
    obtain ⟨k, v⟩ := hd
    have h1 := hf kvs k v (by simp) h
    simp only [runAll]
    split
    · rename_i kvs' he
      rw [he] at h1
      exact ih (fun kvs k v hm hp => hf kvs k v (by simp [hm]) hp) h1.1
    · rename_i kvs' e' he
      rw [he] at h1
      exact h1.2

theorem runAll_step {f : List (K × Val K V) → K → Val K V → List (K × Val K V) × Option (Err K)}
    {P : List (K × Val K V) → Prop} {items : List (K × Val K V)}
    (hf : ∀ kvs k v, (k, v) ∈ items → P kvs → P (f kvs k v).1)
    {kvs : List (K × Val K V)} (h : P kvs) (hr : (runAll f kvs items).2 = none) :
    ∀ kv ∈ items, ∃ kvs', P kvs' ∧ (f kvs' kv.1 kv.2).2 = none := by
  induction items generalizing kvs with
  | nil => simp
  | cons hd t ih =>
    obtain ⟨k, v⟩ := hd
    have h1 := hf kvs k v (by simp) h
    intro kv hkv
    rcases hx : f kvs k v with ⟨kvs', eo⟩
    rw [hx] at h1
    simp only [runAll, hx] at hr
    cases eo with
    | some e => simp at hr
    | none =>
      rcases List.mem_cons.1 hkv with rfl | hm
      · exact ⟨kvs, h, by simp [hx]⟩
      · exact ih (fun kvs k v hm hp => hf kvs k v (by simp [hm]) hp) h1 hr kv hm

/-- Frame and effect of a successful run over a dict with distinct keys. -/
theorem runAll_effect {f : List (K × Val K V) → K → Val K V → List (K × Val K V) × Option (Err K)}
    {P : List (K × Val K V) → Prop} {Q : K → Val K V → Option (Val K V) → Val K V → Prop}
    {items : List (K × Val K V)} (hn : (items.map Prod.fst).Nodup)
    (hf : ∀ kvs k v, (k, v) ∈ items → P kvs → P (f kvs k v).1 ∧
      (∀ k', k' ≠ k → lookup (f kvs k v).1 k' = lookup kvs k') ∧
      ((f kvs k v).2 = none → ∀ sv, lookup (f kvs k v).1 k = some sv → Q k v (lookup kvs k) sv))
    {kvs : List (K × Val K V)} (h : P kvs) (hr : (runAll f kvs items).2 = none) :
    (∀ k', lookup items k' = none → lookup (runAll f kvs items).1 k' = lookup kvs k') ∧
    (∀ k v sv, lookup items k = some v → lookup (runAll f kvs items).1 k = some sv →
      Q k v (lookup kvs k) sv) := by
  induction items generalizing kvs with
  | nil => simp [runAll, lookup]
  | cons hd t ih =>
    obtain ⟨k, v⟩ := hd
    simp only [List.map_cons, List.nodup_cons] at hn
    obtain ⟨a1, a2, a3⟩ := hf kvs k v (by simp) h
    rcases hx : f kvs k v with ⟨kvs', eo⟩
    simp only [hx] at a1 a2 a3
    simp only [runAll, hx] at hr ⊢
    cases eo with
    | some e => simp at hr
    | none =>
      simp only at hr ⊢
      obtain ⟨b1, b2⟩ := ih hn.2 (fun kvs k v hm hp => hf kvs k v (by simp [hm]) hp) a1 hr
      have hkt : lookup t k = none := by
        rcases hlt : lookup t k with _ | w
        · rfl
        · exact absurd (List.mem_map.2 ⟨_, lookup_mem hlt, rfl⟩) hn.1
      constructor
      · intro k' hk'
        simp only [lookup] at hk'
        split at hk'
        · cases hk'
        · rename_i hne
          rw [b1 k' hk', a2 k' (fun h => hne h.symm)]
      · intro k1 v1 sv hk1 hs
        simp only [lookup] at hk1
        split at hk1
        · rename_i he
          subst he; cases hk1
          rw [b1 k hkt] at hs
          exact a3 rfl sv hs
        · rename_i hne
          have := b2 k1 v1 sv hk1 hs
          rwa [a2 k1 (fun h => hne h.symm)] at this

/-! ### Which assignments succeed -/

theorem plain_lookup {items : List (K × Val K V)} {k : K} {v : Val K V}
    (h : ∀ kv ∈ items, Plain kv.2) (hl : lookup items k = some v) : Plain v :=
  h (k, v) (lookup_mem hl)

theorem getnode_plain {full : List K} {c r : Val K V} {q : List K} (hc : Plain c)
    (h : getnode full c q = .ok r) : Plain r := by
  induction q generalizing c with
  | nil => simp only [getnode] at h; cases h; exact hc
  | cons a as iha =>
    simp only [getnode] at h
    cases hc with
    | leaf v => simp [items?_leaf, items?_dict, items?_cdict] at h
    | dict ckvs hc =>
      simp only [items?_leaf, items?_dict, items?_cdict] at h
      split at h
      · cases h
      · rename_i c' hl'
        exact iha (hc _ (lookup_mem hl')) h

theorem getnode_wf {full : List K} {c r : Val K V} {q : List K} (hc : Wf c)
    (h : getnode full c q = .ok r) : Wf r := by
  induction q generalizing c with
  | nil => simp only [getnode] at h; cases h; exact hc
  | cons a as iha =>
    simp only [getnode] at h
    cases hc with
    | leaf v => simp [items?_leaf, items?_dict, items?_cdict] at h
    | dict ckvs hn hc =>
      simp only [items?_leaf, items?_dict, items?_cdict] at h
      split at h
      · cases h
      · rename_i c' hl'
        exact iha (hc _ (lookup_mem hl')) h

/-- A successful assignment fits the defaults. -/
theorem setKey_fits (n : Nat) (root : Val K V) (hroot : Plain root)
    (p : List K) (dk kvs : List (K × Val K V)) (hg : getnode p root p = .ok (.dict dk))
    (hp : Part root p dk kvs) (k : K) (v : Val K V) (hv : Plain v)
    (hs : (setKey n root root p kvs k v).2 = none) :
    ∃ dv, lookup dk k = some dv ∧ FitsDefaults dv v := by
  induction n generalizing p dk kvs k v with
  | zero => simp [setKey] at hs
  | succ n ih =>
    -- every item of a successful run fits
    have run : ∀ (p : List K) (dk kvs items : List (K × Val K V)),
        getnode p root p = .ok (.dict dk) → (∀ kv ∈ items, Plain kv.2) → Part root p dk kvs →
        (runAll (setKey n root root p) kvs items).2 = none →
        FitsDefaults (.dict dk) (.dict items) := by
      intro p dk kvs items hg hi hp hr
      have := runAll_step (P := Part root p dk)
        (fun kvs k v hm hp => (setKey_part n root hroot p dk kvs hg hp k v (hi _ hm)).1) hp hr
      intro q b hq
      cases q with
      | nil => simpa [kindAt, at?, items?_leaf, items?_dict, items?_cdict] using hq
      | cons k ks =>
        rcases hl : lookup items k with _ | v
        · simp [kindAt, at?, items?_leaf, items?_dict, items?_cdict, hl] at hq
        · obtain ⟨kvs', hp', hok⟩ := this (k, v) (lookup_mem hl)
          obtain ⟨dv, hdv, hfit⟩ := ih p dk kvs' hg hp' k v (plain_lookup hi hl) hok
          have := hfit ks b (by simpa [kindAt, at?, items?_leaf, items?_dict, items?_cdict, hl] using hq)
          simpa [kindAt, at?, items?_leaf, items?_dict, items?_cdict, hdv] using this
    cases hv with
    | leaf x =>
      simp only [setKey] at hs
      rw [check_eq hg] at hs
      rcases hd : lookup dk k with _ | dv
      · simp [hd] at hs
      · refine ⟨dv, rfl, ?_⟩
        cases hi : dv.items? with
        | some _ => simp [hd, hi] at hs
        | none =>
          intro q b hq
          cases q with
          | nil => simpa [kindAt, at?, items?_leaf, items?_dict, items?_cdict, hi] using hq
          | cons k ks => simp [kindAt, at?, items?_leaf, items?_dict, items?_cdict] at hq
    | dict items hi =>
      simp only [setKey] at hs
      rcases hl : lookup kvs k with _ | sv
      · rw [hl] at hs
        simp only at hs
        rw [getnode_append _ (p ++ [k]) _ _ _ hg] at hs
        rcases hd : lookup dk k with _ | dv
        · simp [hd] at hs
        · have hg' : getnode (p ++ [k]) root (p ++ [k]) = .ok dv := by
            rw [getnode_append _ (p ++ [k]) _ _ _ hg, hd]
          refine ⟨dv, rfl, ?_⟩
          have hdp := getnode_plain hroot hg'
          rw [hd] at hs
          cases hdp with
          | leaf d => simp [items?_leaf, items?_dict, items?_cdict] at hs
          | dict nkvs hnk =>
            simp only [items?_leaf, items?_dict, items?_cdict] at hs
            rcases hc : runAll (setKey n root root (p ++ [k])) [] nkvs with ⟨c, ce⟩
            rw [hc] at hs
            cases ce with
            | some e => simp at hs
            | none =>
              simp only at hs
              have hpc : Part root (p ++ [k]) nkvs c := by
                have := runAll_inv (P := Part root (p ++ [k]) nkvs) (items := nkvs)
                  (f := setKey n root root (p ++ [k])) (kvs := [])
                  (fun kvs k' v hm hp =>
                    (setKey_part n root hroot (p ++ [k]) nkvs kvs hg' hp k' v (hnk _ hm)).1)
                  (by intro k' sv' h; simp [lookup] at h)
                rwa [hc] at this
              rcases hc2 : runAll (setKey n root root (p ++ [k])) c items with ⟨c2, ce2⟩
              rw [hc2] at hs
              cases ce2 with
              | some e => simp at hs
              | none => exact run _ _ c items hg' hi hpc (by rw [hc2])
      · obtain ⟨dv, hd, hc⟩ := hp k sv hl
        rw [hl] at hs
        cases hc with
        | leaf _ d v => simp at hs
        | node _ dk' sub h1 h2 h3 =>
          refine ⟨_, hd, ?_⟩
          have hg' : getnode (p ++ [k]) root (p ++ [k]) = .ok (.dict dk') := by
            rw [getnode_append _ (p ++ [k]) _ _ _ hg, hd]
          have hsub : Conf root (p ++ [k]) (.dict dk') (.cdict root (p ++ [k]) sub) :=
            .node _ _ _ h1 h2 h3
          exact run _ _ sub items hg' hi hsub.part hs

/-- With enough fuel an assignment never exhausts it, and it succeeds if it fits. -/
theorem setKey_enough (n : Nat) (root : Val K V) (hroot : Wf root)
    (p : List K) (dk kvs : List (K × Val K V)) (hg : getnode p root p = .ok (.dict dk))
    (hp : Part root p dk kvs) (k : K) (v : Val K V) (hv : Wf v)
    (hd : ∀ dv, lookup dk k = some dv → DepthLe n dv) :
    (setKey (n + 1) root root p kvs k v).2 ≠ some .fuel ∧
    ((∃ dv, lookup dk k = some dv ∧ FitsDefaults dv v) →
      (setKey (n + 1) root root p kvs k v).2 = none) := by
  induction n generalizing p dk kvs k v with
  | zero =>
    cases hv with
    | leaf x =>
      simp only [setKey]
      rw [check_eq hg]
      constructor
      · rcases hl : lookup dk k with _ | dv
        · simp
        · by_cases hb : dv.items?.isSome <;> simp [hb]
      · rintro ⟨dv, hdv, hfit⟩
        have := hfit [] false (by simp [kindAt, at?, items?_leaf, items?_dict, items?_cdict])
        simp [kindAt, at?] at this
        simp [hdv, this]
    | dict items hn hi =>
      constructor
      · simp only [setKey]
        rcases hl : lookup kvs k with _ | sv
        · simp only
          rw [getnode_append _ (p ++ [k]) _ _ _ hg]
          rcases hdl : lookup dk k with _ | dv
          · simp
          · have := hd dv hdl
            simp only [DepthLe] at this
            simp [this]
        · obtain ⟨dv, hdl, hc⟩ := hp k sv hl
          have := hd dv hdl
          cases hc with
          | leaf _ d v => simp
          | node _ dk' sub h1 h2 h3 => simp [DepthLe, items?_leaf, items?_dict, items?_cdict] at this
      · rintro ⟨dv, hdv, hfit⟩
        have h1 := hd dv hdv
        have := hfit [] true (by simp [kindAt, at?, items?_leaf, items?_dict, items?_cdict])
        simp [DepthLe] at h1
        simp [kindAt, at?, h1] at this
  | succ n ih =>
    have hrp := hroot.plain
    -- running over the items of a dict
    have run : ∀ (p : List K) (dk kvs items : List (K × Val K V)),
        getnode p root p = .ok (.dict dk) → (items.map Prod.fst).Nodup →
        (∀ kv ∈ items, Wf kv.2) → Part root p dk kvs → (∀ kv ∈ dk, DepthLe n kv.2) →
        (runAll (setKey (n + 1) root root p) kvs items).2 ≠ some .fuel ∧
        (FitsDefaults (.dict dk) (.dict items) →
          (runAll (setKey (n + 1) root root p) kvs items).2 = none) := by
      intro p dk kvs items hg hn hi hp hdep
      constructor
      · refine runAll_ne (P := Part root p dk) (fun kvs k v hm hp => ⟨?_, ?_⟩) hp
        · exact (setKey_part _ root hrp p dk kvs hg hp k v (hi _ hm).plain).1
        · exact (ih p dk kvs hg hp k v (hi _ hm) (fun dv hl => hdep _ (lookup_mem hl))).1
      · intro hfit
        refine runAll_ok (P := Part root p dk) (fun kvs k v hm hp => ⟨?_, ?_⟩) hp
        · exact (setKey_part _ root hrp p dk kvs hg hp k v (hi _ hm).plain).1
        · refine (ih p dk kvs hg hp k v (hi _ hm) (fun dv hl => hdep _ (lookup_mem hl))).2 ?_
          have hl := mem_lookup hn hm
          rcases hdl : lookup dk k with _ | dv
          · have := hfit [k] _ (by simp [kindAt, at?, items?_leaf, items?_dict, items?_cdict, hl]; rfl)
            simp [kindAt, at?, items?_leaf, items?_dict, items?_cdict, hdl] at this
          · refine ⟨dv, rfl, fun q b hq => ?_⟩
            have := hfit (k :: q) b (by simpa [kindAt, at?, items?_leaf, items?_dict, items?_cdict, hl] using hq)
            simpa [kindAt, at?, items?_leaf, items?_dict, items?_cdict, hdl] using this
    cases hv with
    | leaf x =>
      simp only [setKey]
      rw [check_eq hg]
      constructor
      · rcases hl : lookup dk k with _ | dv
        · simp
        · by_cases hb : dv.items?.isSome <;> simp [hb]
      · rintro ⟨dv, hdv, hfit⟩
        have := hfit [] false (by simp [kindAt, at?, items?_leaf, items?_dict, items?_cdict])
        simp [kindAt, at?] at this
        simp [hdv, this]
    | dict items hn hi =>
      rw [setKey]
      rcases hl : lookup kvs k with _ | sv
      · simp only
        rw [getnode_append _ (p ++ [k]) _ _ _ hg]
        rcases hdl : lookup dk k with _ | dv
        · simp
        · have hg' : getnode (p ++ [k]) root (p ++ [k]) = .ok dv := by
            rw [getnode_append _ (p ++ [k]) _ _ _ hg, hdl]
          have hdw := getnode_wf hroot hg'
          have hdep := hd dv hdl
          cases hdw with
          | leaf d =>
            constructor
            · simp [items?_leaf, items?_dict, items?_cdict]
            · rintro ⟨dv, hdv, hfit⟩
              cases hdv
              have := hfit [] true (by simp [kindAt, at?, items?_leaf, items?_dict, items?_cdict])
              simp [kindAt, at?, items?_leaf, items?_dict, items?_cdict] at this
          | dict nkvs hnn hnk =>
            have hdep' : ∀ kv ∈ nkvs, DepthLe n kv.2 := hdep nkvs rfl
            have hp0 : Part root (p ++ [k]) nkvs [] := by intro k' sv' h; simp [lookup] at h
            simp only [items?_leaf, items?_dict, items?_cdict]
            obtain ⟨_, a2⟩ := run (p ++ [k]) nkvs [] nkvs hg' hnn hnk hp0 hdep'
            have a2 := a2 (fun q b h => h)
            have hpc := runAll_inv (P := Part root (p ++ [k]) nkvs) (items := nkvs)
                  (f := setKey (n + 1) root root (p ++ [k])) (kvs := [])
                  (fun kvs k' v hm hp => (setKey_part _ root hrp (p ++ [k]) nkvs kvs hg' hp k' v
                    (hnk _ hm).plain).1) hp0
            rcases hc : runAll (setKey (n + 1) root root (p ++ [k])) [] nkvs with ⟨c, ce⟩
            rw [hc] at a2 hpc
            simp only at a2 hpc
            subst a2
            simp only
            obtain ⟨b1, b2⟩ := run (p ++ [k]) nkvs c items hg' hn hi hpc hdep'
            rcases hc2 : runAll (setKey (n + 1) root root (p ++ [k])) c items with ⟨c2, ce2⟩
            rw [hc2] at b1 b2
            constructor
            · cases ce2 with
              | some e => simpa using b1
              | none =>
                simp only
                rw [check_eq hg, hdl]; simp
            · rintro ⟨dv, hdv, hfit⟩
              cases hdv
              have := b2 hfit
              simp only at this
              subst this
              simp only
              rw [check_eq hg, hdl]; simp
      · obtain ⟨dv, hdl, hc⟩ := hp k sv hl
        cases hc with
        | leaf _ d v =>
          constructor
          · simp
          · rintro ⟨dv, hdv, hfit⟩
            rw [hdl] at hdv
            cases hdv
            have := hfit [] true (by simp [kindAt, at?, items?_leaf, items?_dict, items?_cdict])
            simp [kindAt, at?, items?_leaf, items?_dict, items?_cdict] at this
        | node _ dk' sub h1 h2 h3 =>
          have hg' : getnode (p ++ [k]) root (p ++ [k]) = .ok (.dict dk') := by
            rw [getnode_append _ (p ++ [k]) _ _ _ hg, hdl]
          have hsub : Conf root (p ++ [k]) (.dict dk') (.cdict root (p ++ [k]) sub) :=
            .node _ _ _ h1 h2 h3
          obtain ⟨b1, b2⟩ := run _ _ sub items hg' hn hi hsub.part (hd _ hdl dk' rfl)
          refine ⟨b1, ?_⟩
          rintro ⟨dv, hdv, hfit⟩
          rw [hdl] at hdv; cases hdv
          exact b2 hfit

/-! ### Values after a successful assignment -/

/-- Abbreviation of the specification's `Overridden`. -/
abbrev Over (v old new : Val K V) : Prop := Overridden v old new

theorem setKey_effect (n : Nat) (root : Val K V) (hroot : Wf root)
    (p : List K) (dk kvs : List (K × Val K V)) (hg : getnode p root p = .ok (.dict dk))
    (hp : Part root p dk kvs) (k : K) (v : Val K V) (hv : Wf v) :
    (∀ k', k' ≠ k → lookup (setKey n root root p kvs k v).1 k' = lookup kvs k') ∧
    ((setKey n root root p kvs k v).2 = none → ∀ sv,
      lookup (setKey n root root p kvs k v).1 k = some sv →
      ∀ dv, lookup dk k = some dv → Over v ((lookup kvs k).getD dv) sv) := by
  induction n generalizing p dk kvs k v with
  | zero => simp [setKey]
  | succ n ih =>
    have hrp := hroot.plain
    have insne : ∀ (sv : Val K V) k', k' ≠ k → lookup (insert kvs k sv) k' = lookup kvs k' :=
      fun sv k' h => lookup_insert_ne _ _ h
    -- a successful run over a dict
    have run : ∀ (p : List K) (dk kvs items : List (K × Val K V)),
        getnode p root p = .ok (.dict dk) → (items.map Prod.fst).Nodup →
        (∀ kv ∈ items, Wf kv.2) → Part root p dk kvs →
        (runAll (setKey n root root p) kvs items).2 = none →
        (∀ k', lookup items k' = none →
          lookup (runAll (setKey n root root p) kvs items).1 k' = lookup kvs k') ∧
        (∀ k v sv, lookup items k = some v →
          lookup (runAll (setKey n root root p) kvs items).1 k = some sv →
          ∀ dv, lookup dk k = some dv → Over v ((lookup kvs k).getD dv) sv) := by
      intro p dk kvs items hg hn hi hp hr
      refine runAll_effect (P := Part root p dk)
        (Q := fun k v old sv => ∀ dv, lookup dk k = some dv → Over v (old.getD dv) sv) hn
        (fun kvs k v hm hp => ⟨?_, ?_⟩) hp hr
      · exact (setKey_part _ root hrp p dk kvs hg hp k v (hi _ hm).plain).1
      · exact ih p dk kvs hg hp k v (hi _ hm)
    cases hv with
    | leaf x =>
      rw [setKey]
      rw [check_eq hg]
      rcases hd : lookup dk k with _ | dv
      · simp
      · cases hi : dv.items? with
        | some _ => simp [hi]
        | none =>
          simp only [hi, Option.isSome_none, Bool.false_and]
          refine ⟨insne _, ?_⟩
          intro _ sv hs dv' hdv
          simp only [Option.some.injEq] at hdv
          subst hdv
          simp only [Bool.false_eq_true, if_false, lookup_insert_self, Option.some.injEq] at hs
          subst hs
          intro q
          cases q with
          | nil => simp [leafAt, at?]
          | cons a as =>
            rcases hl : lookup kvs k with _ | sv
            · simp [leafAt, at?, items?_leaf, items?_dict, items?_cdict, hi]
            · obtain ⟨dv', hd', hc⟩ := hp k sv hl
              rw [hd] at hd'; cases hd'
              have : sv.items? = none := by
                have := hc.isPlainLeaf; simpa [hi] using this.symm
              simp [leafAt, at?, items?_leaf, items?_dict, items?_cdict, this]
    | dict items hn hi =>
      rw [setKey]
      rcases hl : lookup kvs k with _ | sv
      · simp only
        rw [getnode_append _ (p ++ [k]) _ _ _ hg]
        rcases hd : lookup dk k with _ | dv
        · simp
        · have hg' : getnode (p ++ [k]) root (p ++ [k]) = .ok dv := by
            rw [getnode_append _ (p ++ [k]) _ _ _ hg, hd]
          have hdw := getnode_wf hroot hg'
          cases hdw with
          | leaf d => simp [items?_leaf, items?_dict, items?_cdict]
          | dict nkvs hnn hnk =>
            have hp0 : Part root (p ++ [k]) nkvs [] := by intro k' sv' h; simp [lookup] at h
            have hpc := runAll_inv (P := Part root (p ++ [k]) nkvs) (items := nkvs)
                  (f := setKey n root root (p ++ [k])) (kvs := [])
                  (fun kvs k' v hm hp => (setKey_part _ root hrp (p ++ [k]) nkvs kvs hg' hp k' v
                    (hnk _ hm).plain).1) hp0
            have hr1 := run (p ++ [k]) nkvs [] nkvs hg' hnn hnk hp0
            simp only [items?_leaf, items?_dict, items?_cdict]
            rcases hc : runAll (setKey n root root (p ++ [k])) [] nkvs with ⟨c, ce⟩
            rw [hc] at hpc hr1
            cases ce with
            | some e => simp
            | none =>
              simp only at hpc hr1 ⊢
              obtain ⟨a1, a2⟩ := hr1 trivial
              have hr2 := run (p ++ [k]) nkvs c items hg' hn hi hpc
              have hpc2 := runAll_inv (P := Part root (p ++ [k]) nkvs) (items := items)
                  (f := setKey n root root (p ++ [k])) (kvs := c)
                  (fun kvs k' v hm hp => (setKey_part _ root hrp (p ++ [k]) nkvs kvs hg' hp k' v
                    (hi _ hm).plain).1) hpc
              rcases hc2 : runAll (setKey n root root (p ++ [k])) c items with ⟨c2, ce2⟩
              rw [hc2] at hr2 hpc2
              cases ce2 with
              | some e => simp
              | none =>
                simp only at hr2 hpc2 ⊢
                obtain ⟨b1, b2⟩ := hr2 trivial
                rw [check_eq hg, hd]
                simp only [Bool.not_true, Bool.and_false]
                refine ⟨insne _, ?_⟩
                intro _ sv hs dv hdv
                simp only [Option.some.injEq] at hdv
                subst hdv
                simp only [Bool.false_eq_true, if_false, lookup_insert_self, Option.some.injEq] at hs
                subst hs
                intro q
                cases q with
                | nil => simp [leafAt, at?]
                | cons a as =>
                  simp only [leafAt, at?, items?_leaf, items?_dict, items?_cdict, Option.getD_none]
                  -- what `c` reads at `a`
                  rcases hna : lookup nkvs a with _ | da
                  · have hca := a1 a hna
                    simp only [lookup] at hca
                    rcases hia : lookup items a with _ | ia
                    · simp [b1 a hia, hca]
                    · -- impossible: fits
                      have hm2 : lookup c2 a = none := by
                        rcases h2 : lookup c2 a with _ | s2
                        · rfl
                        · obtain ⟨dv', hdv', _⟩ := hpc2 a s2 h2
                          rw [hna] at hdv'; cases hdv'
                      have hst := runAll_step (P := Part root (p ++ [k]) nkvs) (items := items)
                        (f := setKey n root root (p ++ [k])) (kvs := c)
                        (fun kvs k' v hm hp => (setKey_part _ root hrp (p ++ [k]) nkvs kvs hg' hp k' v
                          (hi _ hm).plain).1) hpc (by rw [hc2]) (a, ia) (lookup_mem hia)
                      obtain ⟨kvs', hp', hok⟩ := hst
                      obtain ⟨dv', hdv', _⟩ := setKey_fits n root hrp (p ++ [k]) nkvs kvs' hg' hp' a ia
                        (hi _ (lookup_mem hia)).plain hok
                      rw [hna] at hdv'; cases hdv'
                  · have hcov := runAll_step (P := Part root (p ++ [k]) nkvs) (items := nkvs)
                        (f := setKey n root root (p ++ [k])) (kvs := [])
                        (fun kvs k' v hm hp => (setKey_part _ root hrp (p ++ [k]) nkvs kvs hg' hp k' v
                          (hnk _ hm).plain).1) hp0 (by rw [hc])
                    have hca : ∃ s, lookup c a = some s := by
                      -- key coverage, from `setKey_part` over the run
                      have : lookup c a ≠ none := by
                        have key : ∀ (its kv0 : List (K × Val K V)), (∀ kv ∈ its, Plain kv.2) →
                            Part root (p ++ [k]) nkvs kv0 →
                            (runAll (setKey n root root (p ++ [k])) kv0 its).2 = none →
                            ∀ x, (lookup its x ≠ none ∨ lookup kv0 x ≠ none) →
                            lookup (runAll (setKey n root root (p ++ [k])) kv0 its).1 x ≠ none := by
                          intro its
                          induction its with
                          | nil =>
                            intro kv0 _ _ _ x hx
                            simpa [runAll, lookup] using hx
                          | cons h t iht =>
                            intro kv0 hpl hp0 hr x hx
                            obtain ⟨k1, v1⟩ := h
                            have s := setKey_part n root hrp (p ++ [k]) nkvs kv0 hg' hp0 k1 v1
                              (hpl (k1, v1) (by simp))
                            rcases hx1 : setKey n root root (p ++ [k]) kv0 k1 v1 with ⟨kv1, e1⟩
                            rw [hx1] at s
                            simp only [runAll, hx1] at hr ⊢
                            cases e1 with
                            | some e => simp at hr
                            | none =>
                              simp only at hr ⊢ s
                              refine iht kv1 (fun kv h => hpl kv (by simp [h])) s.1 hr x ?_
                              by_cases hk1 : k1 = x
                              · subst hk1; right; exact s.2.2 trivial
                              · rcases hx with hx | hx
                                · left; simpa [lookup, hk1] using hx
                                · right; exact s.2.1 x hx
                        have := key nkvs [] (fun kv h => (hnk kv h).plain) hp0 (by rw [hc]) a
                          (by left; simp [hna])
                        rwa [hc] at this
                      rcases hx : lookup c a with _ | s
                      · exact absurd hx this
                      · exact ⟨s, rfl⟩
                    obtain ⟨s, hs⟩ := hca
                    have o1 := a2 a da s hna hs da hna
                    have o1' : ∀ q, leafAt s q = leafAt da q := by
                      intro q
                      have := o1 q
                      simp only [lookup, Option.getD_none] at this
                      rw [this]; cases leafAt da q <;> simp
                    rcases hia : lookup items a with _ | ia
                    · rw [b1 a hia, hs]
                      have := o1' as
                      simpa [leafAt] using this
                    · have hc2a : ∃ s2, lookup c2 a = some s2 := by
                        -- keys survive
                        have : lookup c2 a ≠ none := by
                          have := runAll_inv
                            (P := fun kvs => Part root (p ++ [k]) nkvs kvs ∧ lookup kvs a ≠ none)
                            (items := items) (f := setKey n root root (p ++ [k])) (kvs := c)
                            (fun kvs k' v hm hp => by
                              have := setKey_part n root hrp (p ++ [k]) nkvs kvs hg' hp.1 k' v
                                (hi _ hm).plain
                              exact ⟨this.1, this.2.1 a hp.2⟩) ⟨hpc, by simp [hs]⟩
                          rw [hc2] at this
                          exact this.2
                        rcases hx : lookup c2 a with _ | s
                        · exact absurd hx this
                        · exact ⟨s, rfl⟩
                      obtain ⟨s2, hs2⟩ := hc2a
                      have o2 := b2 a ia s2 hia hs2 da hna as
                      rw [hs, Option.getD_some, o1' as] at o2
                      simpa [leafAt, hs2] using o2
      · obtain ⟨dv, hd, hc⟩ := hp k sv hl
        cases hc with
        | leaf _ d v => simp
        | node _ dk' sub h1 h2 h3 =>
          have hg' : getnode (p ++ [k]) root (p ++ [k]) = .ok (.dict dk') := by
            rw [getnode_append _ (p ++ [k]) _ _ _ hg, hd]
          have hsub : Conf root (p ++ [k]) (.dict dk') (.cdict root (p ++ [k]) sub) :=
            .node _ _ _ h1 h2 h3
          refine ⟨insne _, ?_⟩
          intro hr sv hs dv hdv
          simp only [lookup_insert_self, Option.some.injEq] at hs
          subst hs
          obtain ⟨b1, b2⟩ := run _ _ sub items hg' hn hi hsub.part hr
          simp only [Option.getD_some]
          intro q
          cases q with
          | nil => simp [leafAt, at?]
          | cons a as =>
            simp only [leafAt, at?, items?_leaf, items?_dict, items?_cdict]
            rcases hia : lookup items a with _ | ia
            · simp [b1 a hia]
            · have hst := runAll_step (P := Part root (p ++ [k]) dk') (items := items)
                (f := setKey n root root (p ++ [k])) (kvs := sub)
                (fun kvs k' v hm hp => (setKey_part _ root hrp (p ++ [k]) dk' kvs hg' hp k' v
                  (hi _ hm).plain).1) hsub.part hr (a, ia) (lookup_mem hia)
              obtain ⟨kvs', hp', hok⟩ := hst
              obtain ⟨da, hda, _⟩ := setKey_fits n root hrp (p ++ [k]) dk' kvs' hg' hp' a ia
                (hi _ (lookup_mem hia)).plain hok
              obtain ⟨s0, hs0⟩ := h2 a da hda
              have hx : ∃ s2, lookup (runAll (setKey n root root (p ++ [k])) sub items).1 a
                  = some s2 := by
                have := runAll_inv
                  (P := fun kvs => Part root (p ++ [k]) dk' kvs ∧ lookup kvs a ≠ none)
                  (items := items) (f := setKey n root root (p ++ [k])) (kvs := sub)
                  (fun kvs k' v hm hp => by
                    have := setKey_part n root hrp (p ++ [k]) dk' kvs hg' hp.1 k' v
                      (hi _ hm).plain
                    exact ⟨this.1, this.2.1 a hp.2⟩) ⟨hsub.part, by simp [hs0]⟩
                rcases hx : lookup (runAll (setKey n root root (p ++ [k])) sub items).1 a with _ | s
                · exact absurd hx this.2
                · exact ⟨s, rfl⟩
              obtain ⟨s2, hs2⟩ := hx
              have o2 := b2 a ia s2 hia hs2 da hda as
              rw [hs0, Option.getD_some] at o2
              simpa [leafAt, hs2, hs0] using o2

/-! ### Tuple keys -/

theorem setAt_conf (n : Nat) (root : Val K V) (hroot : Plain root) (full : List K)
    (p : List K) (dk kvs : List (K × Val K V)) (hg : getnode p root p = .ok (.dict dk))
    (hc : Conf root p (.dict dk) (.cdict root p kvs)) (qs : List K) (k : K) (v : Val K V)
    (hv : Plain v) :
    Conf root p (.dict dk) (.cdict root p (setAt n root full root p kvs qs k v).1) := by
  induction qs generalizing p dk kvs with
  | nil =>
    simp only [setAt]
    obtain ⟨a1, a2, _⟩ := setKey_part n root hroot p dk kvs hg hc.part k v hv
    refine a1.conf fun k' h => a2 k' ?_
    cases hc with
    | node _ _ _ h1 h2 h3 =>
      rcases hx : lookup dk k' with _ | x
      · exact absurd hx h
      · obtain ⟨sv, hsv⟩ := h2 k' x hx
        simp [hsv]
  | cons q qs ih =>
    simp only [setAt]
    rcases hl : lookup kvs q with _ | sv
    · exact hc
    · obtain ⟨dv, hd, hcs⟩ := hc.part q sv hl
      cases hcs with
      | leaf _ d v => exact hc
      | node _ dk' sub h1 h2 h3 =>
        have hg' : getnode (p ++ [q]) root (p ++ [q]) = .ok (.dict dk') := by
          rw [getnode_append _ (p ++ [q]) _ _ _ hg, hd]
        have hsub : Conf root (p ++ [q]) (.dict dk') (.cdict root (p ++ [q]) sub) :=
          .node _ _ _ h1 h2 h3
        have := ih (p ++ [q]) dk' sub hg' hsub
        simp only
        have hpart : Part root p dk (insert kvs q (.cdict root (p ++ [q])
            (setAt n root full root (p ++ [q]) sub qs k v).1)) := by
          intro k' sv' hs
          rw [lookup_insert] at hs
          split at hs
          · rename_i he; subst he; cases hs; exact ⟨_, hd, this⟩
          · exact hc.part k' sv' hs
        refine hpart.conf fun k' h => ?_
        rw [lookup_insert]
        split
        · simp
        · cases hc with
          | node _ _ _ g1 g2 g3 =>
            rcases hx : lookup dk k' with _ | x
            · exact absurd hx h
            · obtain ⟨sv, hsv⟩ := g2 k' x hx
              simp [hsv]

theorem setAt_effect (n : Nat) (root : Val K V) (hroot : Wf root) (full : List K)
    (p : List K) (dk kvs : List (K × Val K V)) (hg : getnode p root p = .ok (.dict dk))
    (hc : Conf root p (.dict dk) (.cdict root p kvs)) (qs : List K) (k : K) (v : Val K V)
    (hv : Wf v) (hs : (setAt n root full root p kvs qs k v).2 = none) :
    Overridden (nest (qs ++ [k]) v) (.cdict root p kvs)
      (.cdict root p (setAt n root full root p kvs qs k v).1) := by
  induction qs generalizing p dk kvs with
  | nil =>
    simp only [setAt] at hs ⊢
    obtain ⟨a1, a2, a3⟩ := setKey_part n root hroot.plain p dk kvs hg hc.part k v hv.plain
    obtain ⟨b1, b2⟩ := setKey_effect n root hroot p dk kvs hg hc.part k v hv
    obtain ⟨dv, hdv, _⟩ := setKey_fits n root hroot.plain p dk kvs hg hc.part k v hv.plain hs
    have hk := a3 hs
    rcases hsv : lookup (setKey n root root p kvs k v).1 k with _ | sv
    · exact absurd hsv hk
    · have ho := b2 hs sv hsv dv hdv
      have hold : ∃ s0, lookup kvs k = some s0 := by
        cases hc with
        | node _ _ _ h1 h2 h3 => exact h2 k dv hdv
      obtain ⟨s0, hs0⟩ := hold
      rw [hs0] at ho
      intro q
      cases q with
      | nil => simp [leafAt, at?, nest]
      | cons a as =>
        by_cases ha : a = k
        · subst ha
          have := ho as
          simpa [leafAt, at?, items?_dict, items?_cdict, nest, lookup, hsv, hs0] using this
        · have := b1 a ha
          simp [leafAt, at?, items?_dict, items?_cdict, nest, lookup, this, Ne.symm ha]
  | cons q qs ih =>
    simp only [setAt] at hs ⊢
    rcases hl : lookup kvs q with _ | sv
    · simp [hl] at hs
    · rw [hl] at hs
      obtain ⟨dv, hd, hcs⟩ := hc.part q sv hl
      cases hcs with
      | leaf _ d v => simp at hs
      | node _ dk' sub h1 h2 h3 =>
        have hg' : getnode (p ++ [q]) root (p ++ [q]) = .ok (.dict dk') := by
          rw [getnode_append _ (p ++ [q]) _ _ _ hg, hd]
        have hsub : Conf root (p ++ [q]) (.dict dk') (.cdict root (p ++ [q]) sub) :=
          .node _ _ _ h1 h2 h3
        simp only at hs ⊢
        have := ih (p ++ [q]) dk' sub hg' hsub hs
        intro r
        cases r with
        | nil => simp [leafAt, at?, nest]
        | cons a as =>
          by_cases ha : a = q
          · subst ha
            have := this as
            simpa [leafAt, at?, items?_dict, items?_cdict, nest, lookup, lookup_insert_self, hl]
              using this
          · simp [leafAt, at?, items?_dict, items?_cdict, nest, lookup, lookup_insert_ne _ _ ha,
              Ne.symm ha]

/-- A path is not in the defaults: nothing changes and an exception is raised;
it is `UnknownKeyError` unless a proper prefix of the path is a leaf. -/
theorem setAt_none (n : Nat) (root : Val K V) (full : List K)
    (p : List K) (dk kvs : List (K × Val K V)) (hg : getnode p root p = .ok (.dict dk))
    (hc : Conf root p (.dict dk) (.cdict root p kvs)) (qs : List K) (k : K) (v : Val K V)
    (hv : Plain v) (hk : kindAt (.dict dk) (qs ++ [k]) = none)
    (hfull : full = p ++ (qs ++ [k])) :
    (setAt (n + 1) root full root p kvs qs k v).1 = kvs ∧
    ∃ e, (setAt (n + 1) root full root p kvs qs k v).2 = some e ∧
      ((∀ r, r <+: qs → kindAt (.dict dk) r ≠ some false) → e = .unknown full) ∧
      ((∃ r, r <+: qs ∧ kindAt (.dict dk) r = some false) → e = .attr ∨ e = .invalid []) := by
  induction qs generalizing p dk kvs with
  | nil =>
    have hdk : lookup dk k = none := by
      rcases hd : lookup dk k with _ | dv
      · rfl
      · simp [kindAt, at?, items?_dict, hd] at hk
    have hkv : lookup kvs k = none := by
      cases hc with
      | node _ _ _ h1 h2 h3 => exact h1 k hdk
    have hno : ¬ ∃ r, r <+: ([] : List K) ∧ kindAt (.dict dk) r = some false := by
      rintro ⟨r, hr, hf⟩
      rw [List.prefix_nil] at hr
      subst hr
      simp [kindAt, at?, items?_dict] at hf
    simp only [List.nil_append] at hfull
    cases hv with
    | leaf x =>
      simp only [setAt, setKey]
      rw [check_eq hg, hdk]
      exact ⟨rfl, _, rfl, fun _ => by rw [hfull], fun h => absurd h hno⟩
    | dict items hi =>
      simp only [setAt, setKey, hkv]
      rw [getnode_append _ (p ++ [k]) _ _ _ hg, hdk]
      exact ⟨rfl, _, rfl, fun _ => by rw [hfull], fun h => absurd h hno⟩
  | cons q qs ih =>
    simp only [setAt]
    rcases hl : lookup kvs q with _ | sv
    · refine ⟨rfl, _, rfl, fun _ => rfl, ?_⟩
      rintro ⟨r, hr, hf⟩
      exfalso
      cases r with
      | nil => simp [kindAt, at?, items?_dict] at hf
      | cons a as =>
        rw [List.cons_prefix_cons] at hr
        obtain ⟨rfl, _⟩ := hr
        have : lookup dk a = none := by
          rcases hd : lookup dk a with _ | dv
          · rfl
          · cases hc with
            | node _ _ _ h1 h2 h3 =>
              obtain ⟨s, hs⟩ := h2 a dv hd
              rw [hl] at hs; cases hs
        simp [kindAt, at?, items?_dict, this] at hf
    · obtain ⟨dv, hd, hcs⟩ := hc.part q sv hl
      cases hcs with
      | leaf _ d v =>
        refine ⟨rfl, _, rfl, ?_, ?_⟩
        · intro h
          exact absurd (by simp [kindAt, at?, items?_dict, items?_leaf, hd])
            (h [q] (by simp [List.cons_prefix_cons]))
        · intro _
          split <;> simp
      | node _ dk' sub h1 h2 h3 =>
        have hg' : getnode (p ++ [q]) root (p ++ [q]) = .ok (.dict dk') := by
          rw [getnode_append _ (p ++ [q]) _ _ _ hg, hd]
        have hsub : Conf root (p ++ [q]) (.dict dk') (.cdict root (p ++ [q]) sub) :=
          .node _ _ _ h1 h2 h3
        have hkc : ∀ r, kindAt (.dict dk) (q :: r) = kindAt (.dict dk') r := by
          intro r; simp [kindAt, at?, items?_dict, hd]
        obtain ⟨a1, e, a2, a3, a4⟩ := ih (p ++ [q]) dk' sub hg' hsub
          (by rw [← hkc]; exact hk) (by simp [hfull])
        simp only
        refine ⟨?_, e, a2, ?_, ?_⟩
        · rw [a1]; exact insert_same hl
        · intro h
          refine a3 fun r hr => ?_
          rw [← hkc]
          exact h (q :: r) (by rw [List.cons_prefix_cons]; exact ⟨rfl, hr⟩)
        · rintro ⟨r, hr, hf⟩
          cases r with
          | nil => simp [kindAt, at?, items?_dict] at hf
          | cons a as =>
            rw [List.cons_prefix_cons] at hr
            obtain ⟨rfl, hr⟩ := hr
            exact a4 ⟨as, hr, by rw [← hkc]; exact hf⟩

/-- Assigning a leaf where the defaults have one succeeds; where they have a
sub-tree it raises `InvalidValueError` and changes nothing. -/
theorem setAt_leaf (n : Nat) (root : Val K V) (full : List K)
    (p : List K) (dk kvs : List (K × Val K V)) (hg : getnode p root p = .ok (.dict dk))
    (hc : Conf root p (.dict dk) (.cdict root p kvs)) (qs : List K) (k : K) (x : V) :
    (kindAt (.dict dk) (qs ++ [k]) = some false →
      (setAt (n + 1) root full root p kvs qs k (.leaf x)).2 = none) ∧
    (kindAt (.dict dk) (qs ++ [k]) = some true →
      setAt (n + 1) root full root p kvs qs k (.leaf x) =
        (kvs, some (.invalid (p ++ (qs ++ [k]))))) := by
  induction qs generalizing p dk kvs with
  | nil =>
    simp only [setAt, setKey]
    rw [check_eq hg]
    rcases hd : lookup dk k with _ | dv
    · simp [kindAt, at?, items?_dict, hd]
    · cases hi : dv.items? <;> simp [kindAt, at?, items?_dict, hd, hi]
  | cons q qs ih =>
    simp only [setAt]
    have hkn : lookup dk q = none → kindAt (.dict dk) (q :: (qs ++ [k])) = none := by
      intro h; simp [kindAt, at?, items?_dict, h]
    rcases hl : lookup kvs q with _ | sv
    · have : lookup dk q = none := by
        rcases hd : lookup dk q with _ | dv
        · rfl
        · cases hc with
          | node _ _ _ h1 h2 h3 =>
            obtain ⟨s, hs⟩ := h2 q dv hd
            rw [hl] at hs; cases hs
      simp [hkn this]
    · obtain ⟨dv, hd, hcs⟩ := hc.part q sv hl
      cases hcs with
      | leaf _ d v =>
        have : kindAt (.dict dk) (q :: (qs ++ [k])) = none := by
          cases qs <;> simp [kindAt, at?, items?_dict, items?_leaf, hd]
        simp [this]
      | node _ dk' sub h1 h2 h3 =>
        have hg' : getnode (p ++ [q]) root (p ++ [q]) = .ok (.dict dk') := by
          rw [getnode_append _ (p ++ [q]) _ _ _ hg, hd]
        have hsub : Conf root (p ++ [q]) (.dict dk') (.cdict root (p ++ [q]) sub) :=
          .node _ _ _ h1 h2 h3
        have hkc : kindAt (.dict dk) (q :: (qs ++ [k])) = kindAt (.dict dk') (qs ++ [k]) := by
          simp [kindAt, at?, items?_dict, hd]
        obtain ⟨a1, a2⟩ := ih (p ++ [q]) dk' sub hg' hsub
        simp only [List.cons_append, hkc]
        refine ⟨a1, fun h => ?_⟩
        rw [a2 h]
        simp [insert_same hl]

/-- Reading a path. -/
theorem getAt_eq (full : List K) (t : Val K V) (p : List K) {c : Val K V} (h : at? t p = some c) :
    getAt full t p = .ok c := by
  induction p generalizing t with
  | nil => simp [at?] at h; simp [getAt, h]
  | cons k ks ih =>
    simp only [at?] at h
    simp only [getAt]
    rcases hi : t.items? with _ | kvs
    · simp [hi] at h
    · simp only [hi] at h ⊢
      rcases hl : lookup kvs k with _ | c'
      · simp [hl] at h
      · simp only [hl, Option.bind_some] at h ⊢
        exact ih c' h

theorem leafAt_nest {path : List K} (x : V) (q : List K) :
    leafAt (nest path (.leaf x)) q = if q = path then some x else none := by
  induction path generalizing q with
  | nil => cases q <;> simp [nest, leafAt, at?, items?_leaf]
  | cons k ks ih =>
    cases q with
    | nil => simp [nest, leafAt, at?]
    | cons a as =>
      by_cases ha : a = k
      · subst ha
        have := ih as
        simpa [nest, leafAt, at?, items?_dict, lookup] using this
      · simp [nest, leafAt, at?, items?_dict, lookup, ha, Ne.symm ha]

/-- An options object in a state its defaults allow. -/
def Ok (dflt o : Val K V) : Prop :=
  ∃ dk kvs, dflt = .dict dk ∧ o = .cdict dflt [] kvs ∧ Conf dflt [] dflt o

theorem Ok.setItem {n : Nat} {dflt o : Val K V} (hd : Plain dflt) (h : Ok dflt o) (path : List K)
    {v : Val K V} (hv : Plain v) : Ok dflt (setItem n o path v).1 := by
  obtain ⟨dk, kvs, hdk, rfl, hc⟩ := h
  subst hdk
  simp only [Options.setItem]
  split
  · exact ⟨dk, kvs, rfl, rfl, hc⟩
  · exact ⟨dk, _, rfl, rfl, setAt_conf n _ hd _ [] dk kvs rfl hc _ _ v hv⟩

theorem Ok.update {n : Nat} {dflt o : Val K V} (hd : Plain dflt) (h : Ok dflt o)
    {d : List (K × Val K V)} (hv : ∀ kv ∈ d, Plain kv.2) : Ok dflt (updateItems n o d).1 := by
  obtain ⟨dk, kvs, hdk, rfl, hc⟩ := h
  subst hdk
  simp only [updateItems]
  refine ⟨dk, _, rfl, rfl, ?_⟩
  refine runAll_inv (P := fun kvs => Conf (.dict dk) [] (.dict dk) (.cdict (.dict dk) [] kvs))
    (fun kvs k v hm hp => ?_) hc
  exact setAt_conf n _ hd [] [] dk kvs rfl hp [] k v (hv _ hm)

theorem Ok.history {n : Nat} {dflt o : Val K V} (hd : Plain dflt) (h : Ok dflt o)
    (ops : List (Op K V)) (hp : ∀ op ∈ ops, op.IsPlain) : Ok dflt (history n o ops) := by
  induction ops generalizing o with
  | nil => exact h
  | cons op ops ih =>
    simp only [Options.history, List.foldl_cons]
    refine ih ?_ fun op' h' => hp op' (by simp [h'])
    have := hp op (by simp)
    cases op with
    | set path v => exact h.setItem hd path this
    | update d => exact h.update hd this

/-- Outcome of construction. -/
theorem construct_spec (n : Nat) (dflt : Val K V) (hw : Wf dflt) (hdict : kindAt dflt [] = some true)
    (d : List (K × Val K V)) (hd : Wf (.dict d)) :
    (∀ o, construct n dflt d = .ok o → Ok dflt o ∧ Overridden (.dict d) dflt o ∧
      FitsDefaults dflt (.dict d)) ∧
    (DepthLe n dflt → construct n dflt d ≠ .error .fuel ∧
      (FitsDefaults dflt (.dict d) → ∃ o, construct n dflt d = .ok o)) := by
  cases hw with
  | leaf v => simp [kindAt, at?, items?_leaf] at hdict
  | dict dk hn hk =>
    cases hd with
    | dict _ hdn hdk =>
    have hw : Wf (.dict dk : Val K V) := .dict dk hn hk
    -- the object is what assigning `{k: d}` to a tree with the single sub-tree `dk` builds
    have hp0 : Part (.dict dk) [] dk ([] : List (K × Val K V)) := by
      intro k' sv' h; simp [lookup] at h
    have hg : getnode [] (.dict dk) ([] : List K) = .ok (.dict dk) := rfl
    have hinv : ∀ (kv0 items : List (K × Val K V)), (∀ kv ∈ items, Wf kv.2) →
        Part (.dict dk) [] dk kv0 →
        Part (.dict dk) [] dk (runAll (setKey n (.dict dk) (.dict dk) []) kv0 items).1 :=
      fun kv0 items hi hp => runAll_inv (P := Part (.dict dk) [] dk)
        (fun kvs k v hm hp =>
          (setKey_part n _ hw.plain [] dk kvs hg hp k v (hi _ hm).plain).1) hp
    have heff : ∀ (kv0 items : List (K × Val K V)), (items.map Prod.fst).Nodup →
        (∀ kv ∈ items, Wf kv.2) → Part (.dict dk) [] dk kv0 →
        (runAll (setKey n (.dict dk) (.dict dk) []) kv0 items).2 = none →
        (∀ k', lookup items k' = none →
          lookup (runAll (setKey n (.dict dk) (.dict dk) []) kv0 items).1 k' = lookup kv0 k') ∧
        (∀ k v sv, lookup items k = some v →
          lookup (runAll (setKey n (.dict dk) (.dict dk) []) kv0 items).1 k = some sv →
          ∀ dv, lookup dk k = some dv → Over v ((lookup kv0 k).getD dv) sv) := by
      intro kv0 items hn hi hp hr
      refine runAll_effect (P := Part (.dict dk) [] dk)
        (Q := fun k v old sv => ∀ dv, lookup dk k = some dv → Over v (old.getD dv) sv) hn
        (fun kvs k v hm hp => ⟨?_, ?_⟩) hp hr
      · exact (setKey_part n _ hw.plain [] dk kvs hg hp k v (hi _ hm).plain).1
      · exact setKey_effect n _ hw [] dk kvs hg hp k v (hi _ hm)
    have hcov : ∀ (items kv0 : List (K × Val K V)), (∀ kv ∈ items, Wf kv.2) →
        Part (.dict dk) [] dk kv0 →
        (runAll (setKey n (.dict dk) (.dict dk) []) kv0 items).2 = none →
        ∀ x, (lookup items x ≠ none ∨ lookup kv0 x ≠ none) →
        lookup (runAll (setKey n (.dict dk) (.dict dk) []) kv0 items).1 x ≠ none := by
      intro items
      induction items with
      | nil => intro kv0 _ _ _ x hx; simpa [runAll, lookup] using hx
      | cons h t iht =>
        intro kv0 hpl hp0 hr x hx
        obtain ⟨k1, v1⟩ := h
        have s := setKey_part n _ hw.plain [] dk kv0 hg hp0 k1 v1 (hpl (k1, v1) (by simp)).plain
        rcases hx1 : setKey n (.dict dk) (.dict dk) [] kv0 k1 v1 with ⟨kv1, e1⟩
        rw [hx1] at s
        simp only [runAll, hx1] at hr ⊢
        cases e1 with
        | some e => simp at hr
        | none =>
          refine iht kv1 (fun kv h => hpl kv (by simp [h])) s.1 hr x ?_
          by_cases hk1 : k1 = x
          · subst hk1; right; exact s.2.2 rfl
          · rcases hx with hx | hx
            · left; simpa [lookup, hk1] using hx
            · right; exact s.2.1 x hx
    constructor
    · intro o ho
      simp only [construct, items?_dict] at ho
      rcases h1 : runAll (setKey n (.dict dk) (.dict dk) []) [] dk with ⟨c, ce⟩
      rw [h1] at ho
      cases ce with
      | some e => simp at ho
      | none =>
        simp only at ho
        rcases h2 : runAll (setKey n (.dict dk) (.dict dk) []) c d with ⟨c2, ce2⟩
        rw [h2] at ho
        cases ce2 with
        | some e => simp at ho
        | none =>
          simp only [Except.ok.injEq] at ho
          subst ho
          have hpc := hinv [] dk hk hp0
          rw [h1] at hpc
          have hpc2 := hinv c d hdk hpc
          rw [h2] at hpc2
          have e1 := heff [] dk hn hk hp0 (by rw [h1])
          rw [h1] at e1
          have e2 := heff c d hdn hdk hpc (by rw [h2])
          rw [h2] at e2
          have k1 : ∀ x, lookup dk x ≠ none → lookup c x ≠ none := by
            intro x hx
            have := hcov dk [] hk hp0 (by rw [h1]) x (.inl hx)
            rwa [h1] at this
          have k2 : ∀ x, lookup dk x ≠ none → lookup c2 x ≠ none := by
            intro x hx
            have := hcov d c hdk hpc (by rw [h2]) x (.inr (k1 x hx))
            rwa [h2] at this
          have hconf := hpc2.conf k2
          have hfit : ∀ kv ∈ d, ∃ dv, lookup dk kv.1 = some dv ∧ FitsDefaults dv kv.2 := by
            intro kv hm
            obtain ⟨kvs', hp', hok⟩ := runAll_step (P := Part (.dict dk) [] dk)
              (fun kvs k v hm hp =>
                (setKey_part n _ hw.plain [] dk kvs hg hp k v (hdk _ hm).plain).1) hpc
              (by rw [h2]) kv hm
            exact setKey_fits n _ hw.plain [] dk kvs' hg hp' kv.1 kv.2 (hdk _ hm).plain hok
          refine ⟨⟨dk, c2, rfl, rfl, hconf⟩, ?_, ?_⟩
          · intro q
            cases q with
            | nil => simp [leafAt, at?]
            | cons a as =>
              simp only [leafAt, at?, items?_dict, items?_cdict]
              rcases hda : lookup dk a with _ | da
              · have hia : lookup d a = none := by
                  rcases hia : lookup d a with _ | ia
                  · rfl
                  · obtain ⟨dv, hdv, _⟩ := hfit (a, ia) (lookup_mem hia)
                    rw [hda] at hdv; cases hdv
                have hc2 : lookup c2 a = none := by
                  rcases hx : lookup c2 a with _ | s
                  · rfl
                  · obtain ⟨dv, hdv, _⟩ := hpc2 a s hx
                    rw [hda] at hdv; cases hdv
                simp [hia, hc2]
              · obtain ⟨s, hs⟩ : ∃ s, lookup c a = some s := by
                  rcases hx : lookup c a with _ | s
                  · exact absurd hx (k1 a (by simp [hda]))
                  · exact ⟨s, rfl⟩
                obtain ⟨s2, hs2⟩ : ∃ s, lookup c2 a = some s := by
                  rcases hx : lookup c2 a with _ | s
                  · exact absurd hx (k2 a (by simp [hda]))
                  · exact ⟨s, rfl⟩
                have o1 : ∀ q, leafAt s q = leafAt da q := by
                  intro q
                  have := e1.2 a da s hda hs da hda q
                  simp only [lookup, Option.getD_none] at this
                  rw [this]; cases leafAt da q <;> simp
                rcases hia : lookup d a with _ | ia
                · have h3 := e2.1 a hia
                  rw [hs2, hs] at h3
                  simp only [Option.some.injEq] at h3
                  subst h3
                  have := o1 as
                  simpa [leafAt, hs2] using this
                · have o2 := e2.2 a ia s2 hia hs2 da hda as
                  rw [hs, Option.getD_some, o1 as] at o2
                  simpa [leafAt, hs2] using o2
          · intro q b hq
            cases q with
            | nil => simpa [kindAt, at?, items?_dict] using hq
            | cons a as =>
              rcases hia : lookup d a with _ | ia
              · simp [kindAt, at?, items?_dict, hia] at hq
              · obtain ⟨dv, hdv, hf⟩ := hfit (a, ia) (lookup_mem hia)
                have := hf as b (by simpa [kindAt, at?, items?_dict, hia] using hq)
                simpa [kindAt, at?, items?_dict, hdv] using this
    · intro hdep
      obtain ⟨m, rfl⟩ : ∃ m, n = m + 1 := by
        cases n with
        | zero => simp [DepthLe, items?_dict] at hdep
        | succ m => exact ⟨m, rfl⟩
      have hdk' : ∀ kv ∈ dk, DepthLe m kv.2 := hdep dk rfl
      have run : ∀ (kv0 items : List (K × Val K V)), (items.map Prod.fst).Nodup →
          (∀ kv ∈ items, Wf kv.2) → Part (.dict dk) [] dk kv0 →
          (runAll (setKey (m + 1) (.dict dk) (.dict dk) []) kv0 items).2 ≠ some .fuel ∧
          (FitsDefaults (.dict dk) (.dict items) →
            (runAll (setKey (m + 1) (.dict dk) (.dict dk) []) kv0 items).2 = none) := by
        intro kv0 items hin hi hp
        have en := fun kvs hp k v hm => setKey_enough m _ hw [] dk kvs hg hp k v (hi (k, v) hm)
          (fun dv hl => hdk' _ (lookup_mem hl))
        constructor
        · refine runAll_ne (P := Part (.dict dk) [] dk) (fun kvs k v hm hp => ⟨?_, ?_⟩) hp
          · exact (setKey_part _ _ hw.plain [] dk kvs hg hp k v (hi _ hm).plain).1
          · exact (en kvs hp k v hm).1
        · intro hfit
          refine runAll_ok (P := Part (.dict dk) [] dk) (fun kvs k v hm hp => ⟨?_, ?_⟩) hp
          · exact (setKey_part _ _ hw.plain [] dk kvs hg hp k v (hi _ hm).plain).1
          · refine (en kvs hp k v hm).2 ?_
            have hl := mem_lookup hin hm
            rcases hdl : lookup dk k with _ | dv
            · have := hfit [k] _ (by simp [kindAt, at?, items?_dict, hl]; rfl)
              simp [kindAt, at?, items?_dict, hdl] at this
            · refine ⟨dv, rfl, fun q b hq => ?_⟩
              have := hfit (k :: q) b (by simpa [kindAt, at?, items?_dict, hl] using hq)
              simpa [kindAt, at?, items?_dict, hdl] using this
      have r1 := (run [] dk hn hk hp0).2 (fun q b h => h)
      have hpc := hinv [] dk hk hp0
      simp only [construct, items?_dict]
      rcases h1 : runAll (setKey (m + 1) (.dict dk) (.dict dk) []) [] dk with ⟨c, ce⟩
      rw [h1] at r1 hpc
      simp only at r1
      subst r1
      simp only
      have r2 := run c d hdn hdk hpc
      rcases h2 : runAll (setKey (m + 1) (.dict dk) (.dict dk) []) c d with ⟨c2, ce2⟩
      rw [h2] at r2
      cases ce2 with
      | some e =>
        refine ⟨by simpa using r2.1, fun h => ?_⟩
        have := r2.2 h
        simp at this
      | none => simp

/-- Outcome of `update` on an object in an allowed state. -/
theorem update_spec (n : Nat) (dflt o : Val K V) (hw : Wf dflt) (ho : Ok dflt o)
    (d : List (K × Val K V)) (hd : Wf (.dict d)) :
    ((updateItems n o d).2 = none → Overridden (.dict d) o (updateItems n o d).1 ∧
      FitsDefaults dflt (.dict d)) ∧
    (DepthLe n dflt → (updateItems n o d).2 ≠ some .fuel ∧
      (FitsDefaults dflt (.dict d) → (updateItems n o d).2 = none)) := by
  obtain ⟨dk, kvs, rfl, rfl, hc⟩ := ho
  cases hd with
  | dict _ hdn hdk =>
  have hg : getnode [] (.dict dk) ([] : List K) = .ok (.dict dk) := rfl
  have hp := hc.part
  constructor
  · intro hr
    simp only [updateItems] at hr ⊢
    have hfit : ∀ kv ∈ d, ∃ dv, lookup dk kv.1 = some dv ∧ FitsDefaults dv kv.2 := by
      intro kv hm
      obtain ⟨kvs', hp', hok⟩ := runAll_step (P := Part (.dict dk) [] dk)
        (fun kvs k v hm hp =>
          (setKey_part n _ hw.plain [] dk kvs hg hp k v (hdk _ hm).plain).1) hp hr kv hm
      exact setKey_fits n _ hw.plain [] dk kvs' hg hp' kv.1 kv.2 (hdk _ hm).plain hok
    have e := runAll_effect (P := Part (.dict dk) [] dk)
      (Q := fun k v old sv => ∀ dv, lookup dk k = some dv → Over v (old.getD dv) sv) hdn
      (fun kvs k v hm hp => ⟨(setKey_part n _ hw.plain [] dk kvs hg hp k v (hdk _ hm).plain).1,
        setKey_effect n _ hw [] dk kvs hg hp k v (hdk _ hm)⟩) hp hr
    refine ⟨?_, ?_⟩
    · intro q
      cases q with
      | nil => simp [leafAt, at?]
      | cons a as =>
        simp only [leafAt, at?, items?_dict, items?_cdict]
        rcases hia : lookup d a with _ | ia
        · simp [e.1 a hia]
        · obtain ⟨da, hda, _⟩ := hfit (a, ia) (lookup_mem hia)
          obtain ⟨s0, hs0⟩ : ∃ s, lookup kvs a = some s := by
            cases hc with
            | node _ _ _ h1 h2 h3 => exact h2 a da hda
          have := runAll_inv (P := fun kvs => Part (.dict dk) [] dk kvs ∧ lookup kvs a ≠ none)
            (items := d) (f := setKey n (.dict dk) (.dict dk) []) (kvs := kvs)
            (fun kvs k' v hm hp => by
              have := setKey_part n _ hw.plain [] dk kvs hg hp.1 k' v (hdk _ hm).plain
              exact ⟨this.1, this.2.1 a hp.2⟩) ⟨hp, by simp [hs0]⟩
          obtain ⟨s2, hs2⟩ : ∃ s, lookup (runAll (setKey n (.dict dk) (.dict dk) []) kvs d).1 a
              = some s := by
            rcases hx : lookup (runAll (setKey n (.dict dk) (.dict dk) []) kvs d).1 a with _ | s
            · exact absurd hx this.2
            · exact ⟨s, rfl⟩
          have o2 := e.2 a ia s2 hia hs2 da hda as
          rw [hs0, Option.getD_some] at o2
          simpa [leafAt, hs2, hs0] using o2
    · intro q b hq
      cases q with
      | nil => simpa [kindAt, at?, items?_dict] using hq
      | cons a as =>
        rcases hia : lookup d a with _ | ia
        · simp [kindAt, at?, items?_dict, hia] at hq
        · obtain ⟨dv, hdv, hf⟩ := hfit (a, ia) (lookup_mem hia)
          have := hf as b (by simpa [kindAt, at?, items?_dict, hia] using hq)
          simpa [kindAt, at?, items?_dict, hdv] using this
  · intro hdep
    obtain ⟨m, rfl⟩ : ∃ m, n = m + 1 := by
      cases n with
      | zero => simp [DepthLe, items?_dict] at hdep
      | succ m => exact ⟨m, rfl⟩
    have hdk' : ∀ kv ∈ dk, DepthLe m kv.2 := hdep dk rfl
    have en := fun kvs hp k v hm => setKey_enough m _ hw [] dk kvs hg hp k v (hdk (k, v) hm)
      (fun dv hl => hdk' _ (lookup_mem hl))
    simp only [updateItems]
    constructor
    · refine runAll_ne (P := Part (.dict dk) [] dk) (fun kvs k v hm hp => ⟨?_, ?_⟩) hp
      · exact (setKey_part _ _ hw.plain [] dk kvs hg hp k v (hdk _ hm).plain).1
      · exact (en kvs hp k v hm).1
    · intro hfit
      refine runAll_ok (P := Part (.dict dk) [] dk) (fun kvs k v hm hp => ⟨?_, ?_⟩) hp
      · exact (setKey_part _ _ hw.plain [] dk kvs hg hp k v (hdk _ hm).plain).1
      · refine (en kvs hp k v hm).2 ?_
        have hl := mem_lookup hdn hm
        rcases hdl : lookup dk k with _ | dv
        · have := hfit [k] _ (by simp [kindAt, at?, items?_dict, hl]; rfl)
          simp [kindAt, at?, items?_dict, hdl] at this
        · refine ⟨dv, rfl, fun q b hq => ?_⟩
          have := hfit (k :: q) b (by simpa [kindAt, at?, items?_dict, hl] using hq)
          simpa [kindAt, at?, items?_dict, hdl] using this

theorem setItem_snoc (n : Nat) (dflt : Val K V) (pth : List K) (kvs : List (K × Val K V))
    (qs : List K) (k : K) (v : Val K V) :
    setItem n (.cdict dflt pth kvs) (qs ++ [k]) v =
      (.cdict dflt pth (setAt n dflt (qs ++ [k]) dflt pth kvs qs k v).1,
        (setAt n dflt (qs ++ [k]) dflt pth kvs qs k v).2) := by
  simp [setItem]

end Sporco.Options
