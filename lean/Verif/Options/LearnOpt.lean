import Verif.Options.AuxVar

/-!
# Options of the convolutional dictionary learning classes (C77)

`ConvBPDNDictLearn.Options` and `ConvBPDNMaskDictLearn.Options` contain the options of the solvers
chosen by the labels `xmethod` and `dmethod`. Their constructors write the defaults of the chosen
solvers into the class attribute `defaults`, which all objects of the class (and of the derived
classes of `prlcnscdl.py`) share and against which every object is checked later on. The model keeps
this shared attribute as a state of its own, so that the question whether the objects are
independent of each other makes sense.
-/

set_option autoImplicit false

namespace Sporco.Options.Learn

variable {K V L : Type} [DecidableEq K] [DecidableEq V]

/-! ## Model -/

/-- `dict.update` of a plain dict. -/
def dictUpdate (kvs ov : List (K × Val K V)) : List (K × Val K V) :=
  ov.foldl (fun a kv => insert a kv.1 kv.2) kvs

/-- The class as it is after import: the entries of `defaults` that do not depend on the methods
(`dictlrn/dictlrn.py` 213-215, `dictlrn/cbpdndl.py` 346-347), the keys `CBPDN` and `CCMOD`, the
defaults of the solver class for each label (`cbpdndl.py` 31-39, 125-135; `cbpdndlmd.py` 33-41,
127-137; `none`: unknown label, `ValueError`) and the values that
`ConvBPDNOptionsDefaults`, `ConvCnstrMODOptionsDefaults` put in their place (`cbpdndl.py` 49-55,
145-151; `cbpdndlmd.py` 51-57, 147-153). -/
structure Cls (K V L : Type) where
  base : List (K × Val K V)
  kx : K
  kd : K
  X : L → Option (List (K × Val K V))
  D : L → Option (List (K × Val K V))
  ovX : L → List (K × Val K V)
  ovD : L → List (K × Val K V)

/-- An options object: its attributes `xmethod`, `dmethod` and its content. Its attribute `dflt` is
a reference to the shared class attribute. -/
structure Obj (K V L : Type) where
  xl : L
  dl : L
  kvs : List (K × Val K V)

/-- Item assignment with a plain key (`cdict.py` 144-191) on the top level of the object. Unlike
`setKey`, an update of a sub-tree calls the method `update` of the options class of the solver. -/
def rootSet (N : AuxNames K V) (n : Nat) (G kvs : List (K × Val K V)) (k : K) (v : Val K V) :
    List (K × Val K V) × Option (Err K) :=
  match v, lookup kvs k with
  | .dict items, some (.cdict d' p' sub) =>
    match updatePlain N n (.cdict d' p' sub) items with
    | (s, e) => (insert kvs k s, e)
  | _, _ => setKey n (.dict G) (.dict G) [] kvs k v

/-- `update` (`cdict.py` 115-126). -/
def rootUpdate (N : AuxNames K V) (n : Nat) (G kvs d : List (K × Val K V)) :
    List (K × Val K V) × Option (Err K) := runAll (rootSet N n G) kvs d

/-- Item assignment with a tuple key. -/
def rootTuple (N : AuxNames K V) (n : Nat) (G kvs : List (K × Val K V)) (path : List K)
    (v : Val K V) : List (K × Val K V) × Option (Err K) :=
  match path with
  | [] => (kvs, some .index)
  | [k] => rootSet N n G kvs k v
  | q :: k :: ks =>
    setAt n (.dict G) (q :: k :: ks) (.dict G) [] kvs (q :: (k :: ks).dropLast)
      ((k :: ks).getLast (by simp)) v

/-- `Options.__init__` (`cbpdndl.py` 350-381, `cbpdndlmd.py` 356-387) with the method labels and
the user's dict: the new value of the class attribute, and the object unless an exception is raised.
(The options of the solvers are built from their class defaults and the entry just written to
`defaults`, `cbpdndl.py` 60-84, 156-180.) -/
def create (C : Cls K V L) (N : AuxNames K V) (n : Nat) (G : List (K × Val K V)) (xm dm : L)
    (opt : List (K × Val K V)) : List (K × Val K V) × Option (Obj K V L) :=
  match C.X xm, C.D dm with
  | some BX, some BD =>
    let G' := insert (insert G C.kx (.dict (dictUpdate BX (C.ovX xm)))) C.kd
      (.dict (dictUpdate BD (C.ovD dm)))
    match construct n (.dict BX) (dictUpdate BX (C.ovX xm)),
        construct n (.dict BD) (dictUpdate BD (C.ovD dm)) with
    | .ok cb, .ok cc =>
      match construct n (.dict G') [(C.kx, cb), (C.kd, cc)] with
      | .ok (.cdict _ _ kvs) =>
        match rootUpdate N n G' kvs opt with
        | (kvs', none) => (G', some ⟨xm, dm, kvs'⟩)
        | (_, some _) => (G', none)
      | _ => (G', none)
    | _, _ => (G', none)
  | _, _ => (G, none)

/-- What a user may do with an object `o`: `o[k] = v`, `o[path] = v`, `o.update(d)`, and any
operation on the objects `o['CBPDN']`, `o['CCMOD']`. -/
inductive DOp (K V : Type) where
  | set (k : K) (v : Val K V)
  | tuple (path : List K) (v : Val K V)
  | update (d : List (K × Val K V))
  | onX (op : AOp K V)
  | onD (op : AOp K V)

/-- An operation on the object stored under `k`. -/
def onSub (N : AuxNames K V) (n : Nat) (kvs : List (K × Val K V)) (k : K) (op : AOp K V) :
    List (K × Val K V) × Option (Err K) :=
  match lookup kvs k with
  | some (.cdict d' p' sub) =>
    match op.run N n (.cdict d' p' sub) with
    | (s, e) => (insert kvs k s, e)
  | _ => (kvs, some .attr)

/-- Effect of one operation on the content, `G` being the present value of the class attribute. -/
def DOp.run (C : Cls K V L) (N : AuxNames K V) (n : Nat) (G kvs : List (K × Val K V)) :
    DOp K V → List (K × Val K V) × Option (Err K)
  | .set k v => rootSet N n G kvs k v
  | .tuple path v => rootTuple N n G kvs path v
  | .update d => rootUpdate N n G kvs d
  | .onX op => onSub N n kvs C.kx op
  | .onD op => onSub N n kvs C.kd op

/-- What happens in a program: a construction, or an operation on the `i`-th object. -/
inductive Ev (K V L : Type) where
  | create (xm dm : L) (opt : List (K × Val K V))
  | op (i : Nat) (op : DOp K V)

/-- The class attribute and the objects constructed so far. -/
structure St (K V L : Type) where
  G : List (K × Val K V)
  objs : List (Obj K V L)

/-- One event, exceptions being caught. -/
def step (C : Cls K V L) (N : AuxNames K V) (n : Nat) (s : St K V L) : Ev K V L → St K V L
  | .create xm dm opt =>
    match create C N n s.G xm dm opt with
    | (G, none) => ⟨G, s.objs⟩
    | (G, some o) => ⟨G, s.objs ++ [o]⟩
  | .op i op =>
    ⟨s.G, s.objs.modify i fun o => ⟨o.xl, o.dl, (op.run C N n s.G o.kvs).1⟩⟩

/-- A program, from the import of the module on. -/
def prog (C : Cls K V L) (N : AuxNames K V) (n : Nat) (evs : List (Ev K V L)) : St K V L :=
  evs.foldl (step C N n) ⟨C.base, []⟩

/-! ## Specification -/

/-- Only plain values are assigned. -/
def DOp.IsPlain : DOp K V → Prop
  | .set _ v => Plain v
  | .tuple _ v => Plain v
  | .update d => ∀ kv ∈ d, Plain kv.2
  | .onX op => op.IsPlain
  | .onD op => op.IsPlain

/-- Only plain values are assigned, and only plain dicts are given to the constructor. -/
def Ev.IsPlain : Ev K V L → Prop
  | .create _ _ opt => ∀ kv ∈ opt, Plain kv.2
  | .op _ a => a.IsPlain

/-- The operations on object `i`. -/
def opsOn (i : Nat) (evs : List (Ev K V L)) : List (DOp K V) :=
  evs.filterMap fun e => match e with
    | .op j op => if j = i then some op else none
    | .create .. => none

/-- The defaults of a solver class and what is put in their place make sense: nesting depth at most
`n`, and the new values are for existing options. -/
structure GoodTree (n : Nat) (B ov : List (K × Val K V)) : Prop where
  wf : Wf (.dict B)
  wfo : Wf (.dict ov)
  depth : DepthLe n (.dict B)
  deptho : DepthLe n (.dict ov)
  fits : FitsDefaults (.dict B) (.dict ov)

/-- The class makes sense. -/
structure Good (C : Cls K V L) (n : Nat) : Prop where
  nodup : (C.base.map Prod.fst).Nodup
  leaves : ∀ kv ∈ C.base, ∃ x, kv.2 = .leaf x
  hx : lookup C.base C.kx = none
  hd : lookup C.base C.kd = none
  hxd : C.kx ≠ C.kd
  gX : ∀ l B, C.X l = some B → GoodTree n B (C.ovX l)
  gD : ∀ l B, C.D l = some B → GoodTree n B (C.ovD l)

/-! ## Proofs -/

omit [DecidableEq V] in
theorem mem_insert {kvs : List (K × Val K V)} {k : K} {v : Val K V} {kv : K × Val K V}
    (h : kv ∈ insert kvs k v) : kv = (k, v) ∨ kv ∈ kvs := by
  induction kvs with
  | nil => simpa [insert] using h
  | cons a kvs ih =>
    obtain ⟨k', v'⟩ := a
    simp only [insert] at h
    split at h
    · next hk =>
      rcases List.mem_cons.1 h with h | h
      · left; rw [h, hk]
      · right; exact List.mem_cons_of_mem _ h
    · rcases List.mem_cons.1 h with h | h
      · right; rw [h]; exact List.mem_cons_self
      · rcases ih h with h | h
        · exact .inl h
        · exact .inr (List.mem_cons_of_mem _ h)

omit [DecidableEq V] in
theorem insert_keys {kvs : List (K × Val K V)} {k : K} {v : Val K V} (a : K)
    (h : a ∈ (insert kvs k v).map Prod.fst) : a = k ∨ a ∈ kvs.map Prod.fst := by
  obtain ⟨kv, hm, rfl⟩ := List.mem_map.1 h
  rcases mem_insert hm with rfl | h
  · exact .inl rfl
  · exact .inr (List.mem_map_of_mem h)

omit [DecidableEq V] in
theorem insert_nodup {kvs : List (K × Val K V)} {k : K} {v : Val K V}
    (h : (kvs.map Prod.fst).Nodup) : ((insert kvs k v).map Prod.fst).Nodup := by
  induction kvs with
  | nil => simp [insert]
  | cons a kvs ih =>
    obtain ⟨k', v'⟩ := a
    simp only [List.map_cons, List.nodup_cons] at h
    simp only [insert]
    split
    · simpa using h
    · next hk =>
      simp only [List.map_cons, List.nodup_cons]
      refine ⟨fun hm => ?_, ih h.2⟩
      rcases insert_keys _ hm with h' | h'
      · exact hk h'
      · exact h.1 h'

omit [DecidableEq K] [DecidableEq V] in
theorem wf_dict {kvs : List (K × Val K V)} :
    Wf (.dict kvs) ↔ (kvs.map Prod.fst).Nodup ∧ ∀ kv ∈ kvs, Wf kv.2 := by
  constructor
  · intro h; cases h with | dict _ a b => exact ⟨a, b⟩
  · exact fun h => .dict _ h.1 h.2

omit [DecidableEq V] in
theorem dictUpdate_wf {B ov : List (K × Val K V)} (hB : Wf (.dict B)) (ho : ∀ kv ∈ ov, Wf kv.2) :
    Wf (.dict (dictUpdate B ov)) := by
  induction ov generalizing B with
  | nil => exact hB
  | cons a ov ih =>
    refine ih ?_ fun kv h => ho kv (List.mem_cons_of_mem _ h)
    rw [wf_dict] at hB ⊢
    refine ⟨insert_nodup hB.1, fun kv h => ?_⟩
    rcases mem_insert h with rfl | h
    · exact ho a List.mem_cons_self
    · exact hB.2 kv h

omit [DecidableEq V] in
theorem dictUpdate_mem {B ov : List (K × Val K V)} {kv : K × Val K V} (h : kv ∈ dictUpdate B ov) :
    kv ∈ B ∨ kv ∈ ov := by
  induction ov generalizing B with
  | nil => exact .inl h
  | cons a ov ih =>
    rcases ih h with h | h
    · rcases mem_insert h with rfl | h
      · exact .inr List.mem_cons_self
      · exact .inl h
    · exact .inr (List.mem_cons_of_mem _ h)

omit [DecidableEq V] in
theorem lookup_dictUpdate {B ov : List (K × Val K V)} (hn : (ov.map Prod.fst).Nodup) (k : K) :
    lookup (dictUpdate B ov) k = (lookup ov k).or (lookup B k) := by
  induction ov generalizing B with
  | nil => rfl
  | cons a ov ih =>
    obtain ⟨k', v'⟩ := a
    simp only [List.map_cons, List.nodup_cons] at hn
    have := ih (B := insert B k' v') hn.2
    rw [show dictUpdate B ((k', v') :: ov) = dictUpdate (insert B k' v') ov from rfl, this,
      lookup_insert]
    by_cases hk : k' = k
    · subst hk
      have h0 : lookup ov k' = none := by
        rcases hl : lookup ov k' with _ | v
        · rfl
        · exact absurd (List.mem_map_of_mem (lookup_mem hl)) hn.1
      simp [lookup, h0]
    · have hk' : ¬ k = k' := fun h => hk h.symm
      simp [lookup, hk, hk']

omit [DecidableEq V] in
theorem leafAt_dictUpdate {B ov : List (K × Val K V)} (ho : Wf (.dict ov)) (q : List K) :
    (leafAt (.dict (dictUpdate B ov)) q).or (leafAt (.dict B) q) =
      (leafAt (.dict ov) q).or (leafAt (.dict B) q) := by
  cases q with
  | nil => rfl
  | cons k ks =>
    simp only [leafAt, at?, items?_dict, lookup_dictUpdate (wf_dict.1 ho).1]
    rcases hl : lookup ov k with _ | v
    · simp
    · simp

omit [DecidableEq V] in
theorem fits_dictUpdate {B ov : List (K × Val K V)} (ho : Wf (.dict ov))
    (hf : FitsDefaults (.dict B) (.dict ov)) :
    FitsDefaults (.dict B) (.dict (dictUpdate B ov)) := by
  intro p b h
  cases p with
  | nil => exact h
  | cons k ks =>
    simp only [kindAt, at?, items?_dict, lookup_dictUpdate (wf_dict.1 ho).1] at h ⊢
    rcases hl : lookup ov k with _ | v
    · simpa [hl] using h
    · have := hf (k :: ks) b
      simp only [kindAt, at?, items?_dict] at this
      rw [hl] at h this
      exact this h

/-- The canonical form of the class attribute after a construction. -/
abbrev gOf (C : Cls K V L) (a b : List (K × Val K V)) : List (K × Val K V) :=
  C.base ++ [(C.kx, .dict a), (C.kd, .dict b)]

omit [DecidableEq V] in
theorem insert_append_of_none {kvs r : List (K × Val K V)} {k : K} {v : Val K V}
    (h : lookup kvs k = none) : insert (kvs ++ r) k v = kvs ++ insert r k v := by
  induction kvs with
  | nil => rfl
  | cons a kvs ih =>
    obtain ⟨k', v'⟩ := a
    simp only [lookup] at h
    split at h
    · cases h
    · next hk => simp only [List.cons_append, insert, if_neg hk, ih h]

omit [DecidableEq V] in
theorem lookup_append {kvs r : List (K × Val K V)} (k : K) :
    lookup (kvs ++ r) k = (lookup kvs k).or (lookup r k) := by
  induction kvs with
  | nil => rfl
  | cons a kvs ih =>
    obtain ⟨k', v'⟩ := a
    simp only [List.cons_append, lookup]
    split
    · rfl
    · exact ih

/-- The class attribute is as after import, or as after a construction. -/
def GForm (C : Cls K V L) (G : List (K × Val K V)) : Prop := G = C.base ∨ ∃ a b, G = gOf C a b

omit [DecidableEq V] in
theorem g_insert {C : Cls K V L} {n : Nat} (hC : Good C n) {G : List (K × Val K V)}
    (hG : GForm C G) (a b : List (K × Val K V)) :
    insert (insert G C.kx (.dict a)) C.kd (.dict b) = gOf C a b := by
  have hx := hC.hxd
  rcases hG with rfl | ⟨a', b', rfl⟩
  · have h1 : insert C.base C.kx (.dict a) = C.base ++ [(C.kx, .dict a)] := by
      have := insert_append_of_none (r := []) (v := .dict a) hC.hx
      simpa [insert] using this
    rw [h1, insert_append_of_none hC.hd]
    simp [insert, hx, gOf]
  · rw [gOf, insert_append_of_none hC.hx]
    simp only [insert, if_true]
    rw [insert_append_of_none hC.hd]
    simp [insert, hx]

/-- What the content of an object looks like. -/
structure RootOk (C : Cls K V L) (BX BD kvs : List (K × Val K V)) : Prop where
  base : ∀ k v, lookup C.base k = some v → ∃ x, lookup kvs k = some (.leaf x)
  x : ∃ s, lookup kvs C.kx = some s ∧ Ok (.dict BX) s
  d : ∃ s, lookup kvs C.kd = some s ∧ Ok (.dict BD) s
  other : ∀ k, lookup C.base k = none → k ≠ C.kx → k ≠ C.kd → lookup kvs k = none

omit [DecidableEq V] in
theorem lookup_gOf {C : Cls K V L} {n : Nat} (hC : Good C n) (a b : List (K × Val K V)) (k : K) :
    lookup (gOf C a b) k = if k = C.kx then some (.dict a) else if k = C.kd then some (.dict b)
      else lookup C.base k := by
  rw [gOf, lookup_append]
  by_cases h1 : k = C.kx
  · rw [if_pos h1, h1, hC.hx]; simp [lookup]
  · rw [if_neg h1]
    by_cases h2 : k = C.kd
    · rw [if_pos h2, h2, hC.hd]; simp [lookup, hC.hxd]
    · rw [if_neg h2]
      have e1 : ¬ C.kx = k := fun h => h1 h.symm
      have e2 : ¬ C.kd = k := fun h => h2 h.symm
      simp [lookup, e1, e2]

omit [DecidableEq V] in
/-- Assigning in a sub-tree does not depend on the defaults of the object it is reached from. -/
theorem setAt_self (n : Nat) (root : Val K V) (full full' p : List K) (dk kvs : List (K × Val K V))
    (hg : getnode p root p = .ok (.dict dk)) (hc : Conf root p (.dict dk) (.cdict root p kvs))
    (qs : List K) (k : K) (v : Val K V) (sd sd' : Val K V) :
    (setAt n sd full root p kvs qs k v).1 = (setAt n sd' full' root p kvs qs k v).1 ∧
    (setAt n sd full root p kvs qs k v).2.isSome = (setAt n sd' full' root p kvs qs k v).2.isSome := by
  induction qs generalizing p dk kvs with
  | nil =>
    simp only [setAt]
    cases n with
    | zero => exact ⟨rfl, rfl⟩
    | succ n =>
      cases v with
      | leaf x => exact ⟨rfl, rfl⟩
      | cdict a b c => exact ⟨rfl, rfl⟩
      | dict items =>
        rcases hl : lookup kvs k with _ | sv
        · have hdk : lookup dk k = none := by
            cases hc with
            | node _ _ _ h1 h2 h3 =>
              rcases hd : lookup dk k with _ | dv
              · rfl
              · obtain ⟨sv, hs⟩ := h2 k dv hd
                rw [hl] at hs; cases hs
          have hck : check root p k true = some (.unknown (p ++ [k])) := by
            rw [check_eq hg, hdk]
          have key : ∀ sd : Val K V, (setKey (n + 1) sd root p kvs k (.dict items)).1 = kvs ∧
              (setKey (n + 1) sd root p kvs k (.dict items)).2.isSome = true := by
            intro sd
            simp only [setKey, hl, hck]
            repeat' split
            all_goals exact ⟨rfl, rfl⟩
          exact ⟨(key sd).1.trans (key sd').1.symm, (key sd).2.trans (key sd').2.symm⟩
        · cases sv <;> simp only [setKey, hl, and_self]
  | cons q qs ih =>
    simp only [setAt]
    rcases hl : lookup kvs q with _ | sv
    · exact ⟨rfl, rfl⟩
    · obtain ⟨dv, hd, hcs⟩ := hc.part q sv hl
      cases hcs with
      | leaf _ d v => exact ⟨rfl, rfl⟩
      | node _ dk' sub h1 h2 h3 =>
        have hg' : getnode (p ++ [q]) root (p ++ [q]) = .ok (.dict dk') := by
          rw [getnode_append _ (p ++ [q]) _ _ _ hg, hd]
        obtain ⟨a1, a2⟩ := ih (p ++ [q]) dk' sub hg' (.node _ _ _ h1 h2 h3)
        simp only
        exact ⟨by rw [a1], a2⟩

omit [DecidableEq V] in
/-- Replacing the content of one of the solvers' options. -/
theorem RootOk.insert_sub {C : Cls K V L} {n : Nat} (hC : Good C n)
    {BX BD kvs : List (K × Val K V)} (h : RootOk C BX BD kvs) {k : K} {d' : Val K V} {p' : List K}
    {sub : List (K × Val K V)} (hl : lookup kvs k = some (.cdict d' p' sub)) :
    ∃ B, (B = BX ∨ B = BD) ∧ Ok (.dict B) (.cdict d' p' sub) ∧
      ∀ s, Ok (.dict B) s → RootOk C BX BD (insert kvs k s) := by
  have hbase : lookup C.base k = none := by
    rcases hb : lookup C.base k with _ | v
    · rfl
    · obtain ⟨x, hx⟩ := h.base k v hb
      rw [hl] at hx; cases hx
  by_cases h1 : k = C.kx
  · subst h1
    obtain ⟨s, hs, hok⟩ := h.x
    rw [hl] at hs; cases hs
    refine ⟨BX, .inl rfl, hok, fun s hs => ⟨fun k v hk => ?_, ⟨s, lookup_insert_self .., hs⟩, ?_, ?_⟩⟩
    · rw [lookup_insert_ne _ _ (fun h => by subst h; rw [hbase] at hk; cases hk)]
      exact h.base k v hk
    · obtain ⟨s', hs', hok'⟩ := h.d
      exact ⟨s', by rw [lookup_insert_ne _ _ (Ne.symm hC.hxd)]; exact hs', hok'⟩
    · intro k a b c
      rw [lookup_insert_ne _ _ b]; exact h.other k a b c
  · by_cases h2 : k = C.kd
    · subst h2
      obtain ⟨s, hs, hok⟩ := h.d
      rw [hl] at hs; cases hs
      refine ⟨BD, .inr rfl, hok, fun s hs => ⟨fun k v hk => ?_, ?_, ⟨s, lookup_insert_self .., hs⟩, ?_⟩⟩
      · rw [lookup_insert_ne _ _ (fun h => by subst h; rw [hbase] at hk; cases hk)]
        exact h.base k v hk
      · obtain ⟨s', hs', hok'⟩ := h.x
        exact ⟨s', by rw [lookup_insert_ne _ _ hC.hxd]; exact hs', hok'⟩
      · intro k a b c
        rw [lookup_insert_ne _ _ c]; exact h.other k a b c
    · rw [h.other k hbase h1 h2] at hl; cases hl

/-- Plain trees. -/
structure PlainB (BX BD : List (K × Val K V)) : Prop where
  x : Plain (.dict BX)
  d : Plain (.dict BD)

omit [DecidableEq K] [DecidableEq V] in
theorem PlainB.of {BX BD B : List (K × Val K V)} (h : PlainB BX BD) (hB : B = BX ∨ B = BD) :
    Plain (.dict B) := by
  rcases hB with rfl | rfl
  · exact h.x
  · exact h.d

/-- One assignment with a plain key: the object keeps its form, and neither the result nor
whether an exception is raised depends on what constructions of other objects wrote into the class
attribute. -/
theorem rootSet_ok {C : Cls K V L} (N : AuxNames K V) {n m : Nat} (hC : Good C n)
    {BX BD kvs : List (K × Val K V)} (hB : PlainB BX BD) (h : RootOk C BX BD kvs)
    (a b a' b' : List (K × Val K V)) (k : K) (v : Val K V) (hv : Plain v) :
    RootOk C BX BD (rootSet N m (gOf C a b) kvs k v).1 ∧
    (rootSet N m (gOf C a b) kvs k v).1 = (rootSet N m (gOf C a' b') kvs k v).1 ∧
    (rootSet N m (gOf C a b) kvs k v).2.isSome = (rootSet N m (gOf C a' b') kvs k v).2.isSome := by
  cases hv with
  | leaf x =>
    simp only [rootSet]
    cases m with
    | zero => exact ⟨h, by trivial, by trivial⟩
    | succ m =>
      have hg : ∀ a b, getnode [] (.dict (gOf C a b)) ([] : List K) = .ok (.dict (gOf C a b)) :=
        fun _ _ => rfl
      simp only [setKey]
      rw [check_eq (hg a b), check_eq (hg a' b'), lookup_gOf hC, lookup_gOf hC]
      by_cases h1 : k = C.kx
      · simp [h1, items?_dict, h]
      · by_cases h2 : k = C.kd
        · have : C.kd ≠ C.kx := Ne.symm hC.hxd
          simp [h2, this, items?_dict, h]
        · simp only [if_neg h1, if_neg h2]
          rcases hb : lookup C.base k with _ | v
          · exact ⟨h, by trivial, by trivial⟩
          · obtain ⟨y, hy⟩ := hC.leaves _ (lookup_mem hb)
            simp only at hy
            subst hy
            simp only [items?_leaf, Option.isSome_none, Bool.false_and, Bool.false_eq_true, if_false,
              and_self, and_true]
            refine ⟨fun k' v' hk' => ?_, ?_, ?_, fun k' e1 e2 e3 => ?_⟩
            · rw [lookup_insert]
              split
              · exact ⟨x, rfl⟩
              · exact h.base k' v' hk'
            · rw [lookup_insert_ne _ _ (Ne.symm h1)]; exact h.x
            · rw [lookup_insert_ne _ _ (Ne.symm h2)]; exact h.d
            · rw [lookup_insert_ne _ _ (fun h => by subst h; rw [e1] at hb; cases hb)]
              exact h.other k' e1 e2 e3
  | dict items hi =>
    rcases hl : lookup kvs k with _ | sv
    · have hk : ∀ a b, lookup (gOf C a b) k = none := by
        intro a b
        rw [lookup_gOf hC]
        have h1 : k ≠ C.kx := by
          rintro rfl
          obtain ⟨s, hs, _⟩ := h.x
          rw [hl] at hs; cases hs
        have h2 : k ≠ C.kd := by
          rintro rfl
          obtain ⟨s, hs, _⟩ := h.d
          rw [hl] at hs; cases hs
        rw [if_neg h1, if_neg h2]
        rcases hb : lookup C.base k with _ | v
        · rfl
        · obtain ⟨y, hy⟩ := h.base k v hb
          rw [hl] at hy; cases hy
      simp only [rootSet, hl]
      cases m with
      | zero => exact ⟨h, by trivial, by trivial⟩
      | succ m =>
        simp only [setKey, hl, getnode, List.nil_append, items?_dict, hk]
        exact ⟨h, by trivial, by trivial⟩
    · cases sv with
      | leaf y =>
        simp only [rootSet, hl]
        cases m with
        | zero => exact ⟨h, by trivial, by trivial⟩
        | succ m => simp only [setKey, hl]; exact ⟨h, by trivial, by trivial⟩
      | dict y =>
        simp only [rootSet, hl]
        cases m with
        | zero => exact ⟨h, by trivial, by trivial⟩
        | succ m => simp only [setKey, hl]; exact ⟨h, by trivial, by trivial⟩
      | cdict d' p' sub =>
        obtain ⟨B, hBB, hok, hins⟩ := h.insert_sub hC hl
        simp only [rootSet, hl]
        exact ⟨hins _ (ok_updatePlain N m _ (hB.of hBB) items hi _ hok), by simp, by simp⟩

theorem rootUpdate_ok {C : Cls K V L} (N : AuxNames K V) {n m : Nat} (hC : Good C n)
    {BX BD : List (K × Val K V)} (hB : PlainB BX BD) (a b a' b' : List (K × Val K V))
    (d : List (K × Val K V)) (hd : ∀ kv ∈ d, Plain kv.2) (kvs : List (K × Val K V))
    (h : RootOk C BX BD kvs) :
    RootOk C BX BD (rootUpdate N m (gOf C a b) kvs d).1 ∧
    (rootUpdate N m (gOf C a b) kvs d).1 = (rootUpdate N m (gOf C a' b') kvs d).1 ∧
    (rootUpdate N m (gOf C a b) kvs d).2.isSome = (rootUpdate N m (gOf C a' b') kvs d).2.isSome := by
  unfold rootUpdate
  induction d generalizing kvs with
  | nil => exact ⟨h, rfl, rfl⟩
  | cons kv d ih =>
    obtain ⟨k, v⟩ := kv
    obtain ⟨h1, h2, h3⟩ := rootSet_ok N (m := m) hC hB h a b a' b' k v (hd (k, v) (by simp))
    simp only [runAll]
    rcases e1 : rootSet N m (gOf C a b) kvs k v with ⟨c1, r1⟩
    rcases e2 : rootSet N m (gOf C a' b') kvs k v with ⟨c2, r2⟩
    rw [e1] at h1 h2 h3
    rw [e2] at h2 h3
    simp only at h1 h2 h3
    subst h2
    cases r1 with
    | none =>
      cases r2 with
      | none => exact ih (fun kv h => hd kv (by simp [h])) c1 h1
      | some e => simp at h3
    | some e =>
      cases r2 with
      | none => simp at h3
      | some e' => exact ⟨h1, rfl, rfl⟩

theorem rootTuple_ok {C : Cls K V L} (N : AuxNames K V) {n m : Nat} (hC : Good C n)
    {BX BD kvs : List (K × Val K V)} (hB : PlainB BX BD) (h : RootOk C BX BD kvs)
    (a b a' b' : List (K × Val K V)) (path : List K) (v : Val K V) (hv : Plain v) :
    RootOk C BX BD (rootTuple N m (gOf C a b) kvs path v).1 ∧
    (rootTuple N m (gOf C a b) kvs path v).1 = (rootTuple N m (gOf C a' b') kvs path v).1 ∧
    (rootTuple N m (gOf C a b) kvs path v).2.isSome =
      (rootTuple N m (gOf C a' b') kvs path v).2.isSome := by
  match path with
  | [] => exact ⟨h, rfl, rfl⟩
  | [k] => exact rootSet_ok N hC hB h a b a' b' k v hv
  | q :: k :: ks =>
    simp only [rootTuple, setAt]
    rcases hl : lookup kvs q with _ | sv
    · exact ⟨h, rfl, rfl⟩
    · cases sv with
      | leaf y => exact ⟨h, rfl, rfl⟩
      | dict y => exact ⟨h, rfl, rfl⟩
      | cdict d' p' sub =>
        obtain ⟨B, hBB, hok, hins⟩ := h.insert_sub hC hl
        obtain ⟨dk, kvs', hdk, he, hc⟩ := hok
        cases hdk
        cases he
        have hs := fun sd sd' => setAt_self m (.dict B) (q :: k :: ks) (q :: k :: ks) [] B sub rfl hc
          (k :: ks).dropLast ((k :: ks).getLast (by simp)) v sd sd'
        simp only
        refine ⟨hins _ ⟨B, _, rfl, rfl, ?_⟩, ?_, ?_⟩
        · rw [(hs _ (.dict B)).1]
          exact setAt_conf m _ (hB.of hBB) _ [] B sub rfl hc _ _ v hv
        · rw [(hs (.dict (gOf C a b)) (.dict (gOf C a' b'))).1]
        · exact (hs _ _).2

theorem onSub_ok {C : Cls K V L} (N : AuxNames K V) {n m : Nat} (hC : Good C n)
    {BX BD kvs : List (K × Val K V)} (hB : PlainB BX BD) (h : RootOk C BX BD kvs) (k : K)
    (op : AOp K V) (hv : op.IsPlain) : RootOk C BX BD (onSub N m kvs k op).1 := by
  unfold onSub
  rcases hl : lookup kvs k with _ | sv
  · exact h
  · cases sv with
    | leaf y => exact h
    | dict y => exact h
    | cdict d' p' sub =>
      obtain ⟨B, hBB, hok, hins⟩ := h.insert_sub hC hl
      exact hins _ (ok_run N m _ _ (hB.of hBB) hok op hv)

theorem run_ok {C : Cls K V L} (N : AuxNames K V) {n m : Nat} (hC : Good C n)
    {BX BD kvs : List (K × Val K V)} (hB : PlainB BX BD) (h : RootOk C BX BD kvs)
    (a b a' b' : List (K × Val K V)) (op : DOp K V) (hv : op.IsPlain) :
    RootOk C BX BD (op.run C N m (gOf C a b) kvs).1 ∧
    (op.run C N m (gOf C a b) kvs).1 = (op.run C N m (gOf C a' b') kvs).1 ∧
    (op.run C N m (gOf C a b) kvs).2.isSome = (op.run C N m (gOf C a' b') kvs).2.isSome := by
  cases op with
  | set k v => exact rootSet_ok N hC hB h a b a' b' k v hv
  | tuple path v => exact rootTuple_ok N hC hB h a b a' b' path v hv
  | update d => exact rootUpdate_ok N hC hB a b a' b' d hv kvs h
  | onX op => exact ⟨onSub_ok N hC hB h _ op hv, rfl, rfl⟩
  | onD op => exact ⟨onSub_ok N hC hB h _ op hv, rfl, rfl⟩

omit [DecidableEq K] [DecidableEq V] in
theorem depth_dict {n : Nat} {kvs : List (K × Val K V)} :
    DepthLe (n + 1) (.dict kvs) ↔ ∀ kv ∈ kvs, DepthLe n kv.2 := by
  simp only [DepthLe, items?_dict]
  exact ⟨fun h => h kvs rfl, fun h _ he => by cases he; exact h⟩

omit [DecidableEq V] in
theorem depth_dictUpdate {n : Nat} {B ov : List (K × Val K V)} (hB : DepthLe n (.dict B))
    (ho : DepthLe n (.dict ov)) : DepthLe n (.dict (dictUpdate B ov)) := by
  cases n with
  | zero => exact absurd hB (by simp [DepthLe, items?_dict])
  | succ n =>
    rw [depth_dict] at hB ho ⊢
    intro kv h
    rcases dictUpdate_mem h with h | h
    · exact hB kv h
    · exact ho kv h

omit [DecidableEq K] [DecidableEq V] in
theorem depth_leaf (n : Nat) (x : V) : DepthLe n (.leaf x : Val K V) := by
  cases n with
  | zero => rfl
  | succ n => intro kvs h; cases h

omit [DecidableEq V] in
/-- The options of a solver are constructed without exception. -/
theorem construct_solver {n : Nat} {B ov : List (K × Val K V)} (hB : GoodTree n B ov) :
    ∃ o, construct (n + 1) (.dict B) (dictUpdate B ov) = .ok o ∧ Ok (.dict B) o ∧
      ∀ p, leafAt o p = (leafAt (.dict ov) p).or (leafAt (.dict B) p) := by
  have hw : Wf (.dict (dictUpdate B ov)) := dictUpdate_wf hB.wf (wf_dict.1 hB.wfo).2
  have hs := construct_spec (n + 1) (.dict B) hB.wf rfl (dictUpdate B ov) hw
  obtain ⟨o, ho⟩ := (hs.2 hB.depth.mono).2 (fits_dictUpdate hB.wfo hB.fits)
  obtain ⟨h1, h2, _⟩ := hs.1 o ho
  exact ⟨o, ho, h1, fun p => by rw [h2 p, leafAt_dictUpdate hB.wfo]⟩

omit [DecidableEq V] in
theorem gOf_wf {C : Cls K V L} {n : Nat} (hC : Good C n) {a b : List (K × Val K V)}
    (ha : Wf (.dict a)) (hb : Wf (.dict b)) : Wf (.dict (gOf C a b)) := by
  rw [← g_insert hC (.inl rfl)]
  rw [wf_dict]
  refine ⟨insert_nodup (insert_nodup hC.nodup), fun kv h => ?_⟩
  rcases mem_insert h with rfl | h
  · exact hb
  · rcases mem_insert h with rfl | h
    · exact ha
    · obtain ⟨x, hx⟩ := hC.leaves kv h
      rw [hx]; exact .leaf x

omit [DecidableEq V] in
theorem gOf_depth {C : Cls K V L} {n : Nat} (hC : Good C n) {a b : List (K × Val K V)}
    (ha : DepthLe n (.dict a)) (hb : DepthLe n (.dict b)) : DepthLe (n + 1) (.dict (gOf C a b)) := by
  rw [depth_dict]
  intro kv h
  rcases List.mem_append.1 h with h | h
  · obtain ⟨x, hx⟩ := hC.leaves kv h
    rw [hx]; exact depth_leaf n x
  · simp only [List.mem_cons, List.not_mem_nil, or_false] at h
    rcases h with rfl | rfl
    · exact ha
    · exact hb

omit [DecidableEq V] in
/-- The object before the user's dict is applied. -/
theorem construct_root {C : Cls K V L} {n : Nat} (hC : Good C n) {a b BX BD : List (K × Val K V)}
    (ha : Wf (.dict a)) (hb : Wf (.dict b)) (hda : DepthLe n (.dict a)) (hdb : DepthLe n (.dict b))
    {cb cc : Val K V} (hcb : Ok (.dict BX) cb) (hcc : Ok (.dict BD) cc) :
    ∃ kvs, construct (n + 1) (.dict (gOf C a b)) [(C.kx, cb), (C.kd, cc)] =
        .ok (.cdict (.dict (gOf C a b)) [] kvs) ∧ RootOk C BX BD kvs ∧
      lookup kvs C.kx = some cb ∧ lookup kvs C.kd = some cc ∧
      ∀ k x, lookup C.base k = some (.leaf x) → lookup kvs k = some (.leaf x) := by
  obtain ⟨dk1, k1, h1, rfl, hc1⟩ := hcb
  obtain ⟨dk2, k2, h2, rfl, hc2⟩ := hcc
  have hW := gOf_wf hC ha hb
  have he : Wf (.dict ([] : List (K × Val K V))) := .dict [] (by simp) (by simp)
  have hs := construct_spec (n + 1) (.dict (gOf C a b)) hW rfl [] he
  obtain ⟨o, ho⟩ := (hs.2 (gOf_depth hC hda hdb)).2 (by
    intro p b' hp
    cases p with
    | nil => simp [kindAt, at?, items?_dict] at hp ⊢; exact hp
    | cons k ks => simp [kindAt, at?, items?_dict, lookup] at hp)
  obtain ⟨⟨dk, c, hdk, rfl, hc⟩, hov, _⟩ := hs.1 o ho
  cases hdk
  simp only [construct, items?_dict] at ho ⊢
  rcases hr : runAll (setKey (n + 1) (.dict (gOf C a b)) (.dict (gOf C a b)) []) [] (gOf C a b) with
    ⟨c', _ | e⟩
  · rw [hr] at ho
    simp only [runAll] at ho
    cases ho
    have hx1 : check (.dict (gOf C a b)) [] C.kx true = none := by
      rw [check_eq (rfl : getnode [] (.dict (gOf C a b)) ([] : List K) = .ok (.dict (gOf C a b))),
        lookup_gOf hC]
      simp
    have hd1 : check (.dict (gOf C a b)) [] C.kd true = none := by
      rw [check_eq (rfl : getnode [] (.dict (gOf C a b)) ([] : List K) = .ok (.dict (gOf C a b))),
        lookup_gOf hC, if_neg (Ne.symm hC.hxd)]
      simp
    simp only [runAll, setKey, hx1, hd1]
    have hcase : ∀ k, lookup C.base k ≠ none → k ≠ C.kx ∧ k ≠ C.kd := by
      intro k hk
      refine ⟨?_, ?_⟩
      · rintro rfl; exact hk hC.hx
      · rintro rfl; exact hk hC.hd
    have hlb : ∀ k x, lookup C.base k = some (.leaf x) → lookup c k = some (.leaf x) := by
      intro k x hk
      obtain ⟨e1, e2⟩ := hcase k (by rw [hk]; simp)
      have hG : lookup (gOf C a b) k = some (.leaf x) := by
        rw [lookup_gOf hC, if_neg e1, if_neg e2, hk]
      cases hc with
      | node _ _ _ q1 q2 q3 =>
        obtain ⟨sv, hsv⟩ := q2 k _ hG
        have hcf := q3 k _ sv hG hsv
        cases hcf with
        | leaf _ _ y =>
          have := hov [k]
          simp [leafAt, at?, items?_dict, items?_cdict, lookup, hsv, hG] at this
          rw [hsv, this]
    refine ⟨_, rfl, ⟨fun k v hk => ?_, ?_, ?_, fun k e1 e2 e3 => ?_⟩, ?_, ?_, ?_⟩
    · obtain ⟨e1, e2⟩ := hcase k (by rw [hk]; simp)
      obtain ⟨y, hy⟩ := hC.leaves _ (lookup_mem hk)
      simp only at hy
      subst hy
      refine ⟨y, ?_⟩
      rw [lookup_insert_ne _ _ e2, lookup_insert_ne _ _ e1]
      exact hlb k y hk
    · refine ⟨_, ?_, dk1, k1, h1, rfl, hc1⟩
      rw [lookup_insert_ne _ _ hC.hxd, lookup_insert_self]
    · refine ⟨_, ?_, dk2, k2, h2, rfl, hc2⟩
      rw [lookup_insert_self]
    · rw [lookup_insert_ne _ _ e3, lookup_insert_ne _ _ e2]
      cases hc with
      | node _ _ _ q1 q2 q3 =>
        refine q1 k ?_
        rw [lookup_gOf hC, if_neg e2, if_neg e3, e1]
    · rw [lookup_insert_ne _ _ hC.hxd, lookup_insert_self]
    · rw [lookup_insert_self]
    · intro k x hk
      obtain ⟨e1, e2⟩ := hcase k (by rw [hk]; simp)
      rw [lookup_insert_ne _ _ e2, lookup_insert_ne _ _ e1]
      exact hlb k x hk
  · rw [hr] at ho; cases ho

/-- A construction, whatever the class attribute was before. -/
theorem create_eq {C : Cls K V L} (N : AuxNames K V) {n : Nat} (hC : Good C n)
    {G : List (K × Val K V)} (hG : GForm C G) (xm dm : L) (opt : List (K × Val K V))
    (hopt : ∀ kv ∈ opt, Plain kv.2) :
    (create C N (n + 1) G xm dm opt).2 = (create C N (n + 1) C.base xm dm opt).2 ∧
    GForm C (create C N (n + 1) G xm dm opt).1 ∧
    ((∃ a b, G = gOf C a b) → ∃ a b, (create C N (n + 1) G xm dm opt).1 = gOf C a b) ∧
    ∀ o, (create C N (n + 1) G xm dm opt).2 = some o → o.xl = xm ∧ o.dl = dm ∧
      (∃ a b, (create C N (n + 1) G xm dm opt).1 = gOf C a b) ∧
      ∃ BX BD, C.X xm = some BX ∧ C.D dm = some BD ∧ RootOk C BX BD o.kvs := by
  unfold create
  rcases hX : C.X xm with _ | BX
  · exact ⟨rfl, hG, fun h => h, by rintro o ⟨⟩⟩
  · rcases hD : C.D dm with _ | BD
    · exact ⟨rfl, hG, fun h => h, by rintro o ⟨⟩⟩
    · obtain ⟨cb, hcb, ocb, _⟩ := construct_solver (hC.gX xm BX hX)
      obtain ⟨cc, hcc, occ, _⟩ := construct_solver (hC.gD dm BD hD)
      have gx := hC.gX xm BX hX
      have gd := hC.gD dm BD hD
      obtain ⟨kvs, hr, hrok, _⟩ := construct_root hC (dictUpdate_wf gx.wf (wf_dict.1 gx.wfo).2)
        (dictUpdate_wf gd.wf (wf_dict.1 gd.wfo).2) (depth_dictUpdate gx.depth gx.deptho)
        (depth_dictUpdate gd.depth gd.deptho) ocb occ
      simp only [g_insert hC hG, g_insert hC (.inl rfl), hcb, hcc, hr]
      have hu := rootUpdate_ok N (m := n + 1) hC ⟨gx.wf.plain, gd.wf.plain⟩
        (dictUpdate BX (C.ovX xm)) (dictUpdate BD (C.ovD dm)) [] [] opt hopt kvs hrok
      rcases hru : rootUpdate N (n + 1) (gOf C (dictUpdate BX (C.ovX xm)) (dictUpdate BD (C.ovD dm)))
        kvs opt with ⟨k', _ | e⟩
      · rw [hru] at hu
        refine ⟨by trivial, .inr ⟨_, _, rfl⟩, fun _ => ⟨_, _, rfl⟩, ?_⟩
        rintro o ⟨⟩
        exact ⟨rfl, rfl, ⟨_, _, rfl⟩, BX, BD, rfl, rfl, hu.1⟩
      · exact ⟨by trivial, .inr ⟨_, _, rfl⟩, fun _ => ⟨_, _, rfl⟩, by rintro o ⟨⟩⟩

/-- Invariant of a program. -/
structure Inv (C : Cls K V L) (s : St K V L) : Prop where
  form : GForm C s.G
  objs : s.objs ≠ [] → ∃ a b, s.G = gOf C a b
  ok : ∀ (i : Nat) (o : Obj K V L), s.objs[i]? = some o → ∃ BX BD, C.X o.xl = some BX ∧ C.D o.dl = some BD ∧
    RootOk C BX BD o.kvs

theorem inv_step {C : Cls K V L} (N : AuxNames K V) {n : Nat} (hC : Good C n) {s : St K V L}
    (h : Inv C s) (e : Ev K V L) (he : e.IsPlain) : Inv C (step C N (n + 1) s e) := by
  cases e with
  | create xm dm opt =>
    obtain ⟨_, h2, h3, h4⟩ := create_eq N hC h.form xm dm opt he
    simp only [step]
    rcases hc : create C N (n + 1) s.G xm dm opt with ⟨G, _ | o⟩
    · rw [hc] at h2 h3 h4
      exact ⟨h2, fun hne => h3 (h.objs hne), h.ok⟩
    · rw [hc] at h2 h3 h4
      obtain ⟨e1, e2, hg, hok⟩ := h4 o rfl
      refine ⟨h2, fun _ => hg, fun i o' ho' => ?_⟩
      simp only at ho'
      rcases Nat.lt_or_ge i s.objs.length with hi | hi
      · rw [List.getElem?_append_left hi] at ho'
        exact h.ok i o' ho'
      · rw [List.getElem?_append_right hi] at ho'
        rcases hj : i - s.objs.length with _ | j
        · rw [hj] at ho'
          simp at ho'
          subst ho'
          rw [e1, e2]; exact hok
        · rw [hj] at ho'; simp at ho'
  | op i op =>
    refine ⟨h.form, fun hne => h.objs fun h0 => hne (by simp [step, h0]), fun j o' ho' => ?_⟩
    simp only [step, List.getElem?_modify] at ho'
    rcases hj : s.objs[j]? with _ | o
    · rw [hj] at ho'; simp at ho'
    · rw [hj] at ho'
      simp only [Option.map_eq_map, Option.map_some, Option.some.injEq] at ho'
      obtain ⟨BX, BD, hX, hD, hr⟩ := h.ok j o hj
      by_cases hij : i = j
      · simp only [if_pos hij] at ho'
        subst ho'
        have hne : s.objs ≠ [] := by rintro h0; rw [h0] at hj; simp at hj
        obtain ⟨a, b, hg⟩ := h.objs hne
        refine ⟨BX, BD, hX, hD, ?_⟩
        simp only [hg]
        exact (run_ok N hC ⟨(hC.gX _ _ hX).wf.plain, (hC.gD _ _ hD).wf.plain⟩ hr a b a b op he).1
      · simp only [if_neg hij] at ho'
        subst ho'
        exact ⟨BX, BD, hX, hD, hr⟩

theorem inv_foldl {C : Cls K V L} (N : AuxNames K V) {n : Nat} (hC : Good C n)
    (evs : List (Ev K V L)) (he : ∀ e ∈ evs, e.IsPlain) {s : St K V L} (h : Inv C s) :
    Inv C (evs.foldl (step C N (n + 1)) s) := by
  induction evs generalizing s with
  | nil => exact h
  | cons e evs ih =>
    exact ih (fun e' h' => he e' (by simp [h'])) (inv_step N hC h e (he e (by simp)))

theorem inv_prog {C : Cls K V L} (N : AuxNames K V) {n : Nat} (hC : Good C n)
    (evs : List (Ev K V L)) (he : ∀ e ∈ evs, e.IsPlain) : Inv C (prog C N (n + 1) evs) :=
  inv_foldl N hC evs he ⟨.inl rfl, fun h => absurd rfl h, fun i o h => by simp at h⟩

/-- The object `i` after more events. -/
theorem objs_foldl {C : Cls K V L} (N : AuxNames K V) {n : Nat} (hC : Good C n)
    (evs : List (Ev K V L)) (he : ∀ e ∈ evs, e.IsPlain) {s : St K V L} (h : Inv C s) (i : Nat)
    (o : Obj K V L) (ho : s.objs[i]? = some o) (a b : List (K × Val K V)) :
    (evs.foldl (step C N (n + 1)) s).objs[i]? = some ⟨o.xl, o.dl,
      (opsOn i evs).foldl (fun kvs op => (op.run C N (n + 1) (gOf C a b) kvs).1) o.kvs⟩ := by
  induction evs generalizing s o with
  | nil => simpa [opsOn] using ho
  | cons e evs ih =>
    have hi := inv_step N hC h e (he e (by simp))
    have ih' := fun o => ih (fun e' h' => he e' (by simp [h'])) hi o
    simp only [List.foldl_cons]
    cases e with
    | create xm dm opt =>
      refine ih' o ?_
      simp only [step]
      rcases create C N (n + 1) s.G xm dm opt with ⟨G, _ | o'⟩
      · exact ho
      · simp only
        rw [List.getElem?_append_left]
        · exact ho
        · exact (List.getElem?_eq_some_iff.1 ho).1
    | op j op =>
      obtain ⟨BX, BD, hX, hD, hr⟩ := h.ok i o ho
      have hne : s.objs ≠ [] := by rintro h0; rw [h0] at ho; simp at ho
      obtain ⟨a', b', hg⟩ := h.objs hne
      by_cases hij : j = i
      · subst hij
        have hrun := run_ok N (m := n + 1) hC ⟨(hC.gX _ _ hX).wf.plain, (hC.gD _ _ hD).wf.plain⟩ hr
          a' b' a b op (he (.op j op) (by simp))
        have := ih' ⟨o.xl, o.dl, (op.run C N (n + 1) s.G o.kvs).1⟩ (by
          simp only [step, List.getElem?_modify, ho]
          simp)
        rw [this]
        simp only [opsOn, List.filterMap_cons, if_true, List.foldl_cons, hg, hrun.2.1]
      · have := ih' o (by
          simp only [step, List.getElem?_modify, ho]
          simp [hij])
        rw [this]
        simp only [opsOn, List.filterMap_cons, if_neg hij]

/-- **C77, independence.** Consider a program with any events `pre` (constructions with any
methods, operations on any objects), then a construction, then any events `post`. The construction
raises an exception exactly if it does so in a fresh interpreter. If it does not, the object then is
the one obtained in a fresh interpreter by the same construction followed by the operations on this
object alone, and every further operation on it raises an exception exactly if it would do so
there. -/
theorem C77_independent (C : Cls K V L) (N : AuxNames K V) (n : Nat) (hC : Good C n)
    (pre post : List (Ev K V L)) (hpre : ∀ e ∈ pre, e.IsPlain) (hpost : ∀ e ∈ post, e.IsPlain)
    (xm dm : L) (opt : List (K × Val K V)) (hopt : ∀ kv ∈ opt, Plain kv.2) :
    ((create C N (n + 1) C.base xm dm opt).2 = none →
      (prog C N (n + 1) (pre ++ [.create xm dm opt])).objs = (prog C N (n + 1) pre).objs) ∧
    ∀ o, (create C N (n + 1) C.base xm dm opt).2 = some o →
      let i := (prog C N (n + 1) pre).objs.length
      let s := prog C N (n + 1) (pre ++ .create xm dm opt :: post)
      let fresh := (create C N (n + 1) C.base xm dm opt).1
      let kvs := (opsOn i post).foldl (fun kvs op => (op.run C N (n + 1) fresh kvs).1) o.kvs
      s.objs[i]? = some ⟨o.xl, o.dl, kvs⟩ ∧
      ∀ op : DOp K V, op.IsPlain →
        (op.run C N (n + 1) s.G kvs).1 = (op.run C N (n + 1) fresh kvs).1 ∧
        ((op.run C N (n + 1) s.G kvs).2 = none ↔ (op.run C N (n + 1) fresh kvs).2 = none) := by
  have hi := inv_prog N hC pre hpre
  obtain ⟨h1, h2, h3, h4⟩ := create_eq N hC hi.form xm dm opt hopt
  obtain ⟨-, -, -, f4⟩ := create_eq N hC (.inl rfl) xm dm opt hopt
  constructor
  · intro h0
    rw [h0] at h1
    simp only [prog, List.foldl_append, List.foldl_cons, List.foldl_nil, step]
    rw [show (List.foldl (step C N (n + 1)) ⟨C.base, []⟩ pre) = prog C N (n + 1) pre from rfl]
    rcases hc : create C N (n + 1) (prog C N (n + 1) pre).G xm dm opt with ⟨G, _ | o⟩
    · rfl
    · rw [hc] at h1; cases h1
  · intro o ho
    obtain ⟨-, -, ⟨a, b, hf⟩, -⟩ := f4 o ho
    have hstep : (step C N (n + 1) (prog C N (n + 1) pre) (.create xm dm opt)).objs =
        (prog C N (n + 1) pre).objs ++ [o] := by
      simp only [step]
      rw [ho] at h1
      rcases hc : create C N (n + 1) (prog C N (n + 1) pre).G xm dm opt with ⟨G, _ | o'⟩
      · rw [hc] at h1; cases h1
      · rw [hc] at h1; cases h1; rfl
    have hi2 := inv_step N hC hi (.create xm dm opt) hopt
    have hob := objs_foldl N hC post hpost hi2 (prog C N (n + 1) pre).objs.length o
      (by rw [hstep]; simp) a b
    have e : prog C N (n + 1) (pre ++ .create xm dm opt :: post) =
        post.foldl (step C N (n + 1)) (step C N (n + 1) (prog C N (n + 1) pre) (.create xm dm opt)) := by
      simp only [prog, List.foldl_append, List.foldl_cons]
    have hi3 := inv_foldl N hC post hpost hi2
    intro i s fresh kvs
    have hs : s.objs[i]? = some ⟨o.xl, o.dl, kvs⟩ := by
      simp only [s, i, kvs, fresh, e, hf]
      exact hob
    refine ⟨hs, fun op hop => ?_⟩
    rw [← e] at hi3
    obtain ⟨BX, BD, hX, hD, hr⟩ := hi3.ok i _ hs
    have hne : s.objs ≠ [] := by intro h0; rw [h0] at hs; simp at hs
    obtain ⟨a', b', hg⟩ := hi3.objs hne
    have hrun := run_ok N (m := n + 1) hC ⟨(hC.gX _ _ hX).wf.plain, (hC.gD _ _ hD).wf.plain⟩ hr
      a' b' a b op hop
    have hg' : s.G = gOf C a' b' := hg
    have hf' : fresh = gOf C a b := hf
    rw [hg', hf']
    refine ⟨hrun.2.1, ?_⟩
    have := hrun.2.2
    simp only at this
    cases h : (op.run C N (n + 1) (gOf C a' b') kvs).2 <;>
      cases h' : (op.run C N (n + 1) (gOf C a b) kvs).2 <;> simp_all

/-- **C77, shape.** Whatever the program did, every object has under `CBPDN` exactly the options of
the sparse coding class for its `xmethod`, under `CCMOD` exactly those of the dictionary update class
for its `dmethod`, and besides exactly the options of the learning class itself. -/
theorem C77_shape (C : Cls K V L) (N : AuxNames K V) (n : Nat) (hC : Good C n)
    (evs : List (Ev K V L)) (he : ∀ e ∈ evs, e.IsPlain) (i : Nat) (o : Obj K V L)
    (ho : (prog C N (n + 1) evs).objs[i]? = some o) :
    ∃ BX BD, C.X o.xl = some BX ∧ C.D o.dl = some BD ∧ ∀ p,
      kindAt (.dict o.kvs) (C.kx :: p) = kindAt (.dict BX) p ∧
      kindAt (.dict o.kvs) (C.kd :: p) = kindAt (.dict BD) p ∧
      ∀ k, k ≠ C.kx → k ≠ C.kd → kindAt (.dict o.kvs) (k :: p) = kindAt (.dict C.base) (k :: p) := by
  obtain ⟨BX, BD, hX, hD, hr⟩ := (inv_prog N hC evs he).ok i o ho
  refine ⟨BX, BD, hX, hD, fun p => ⟨?_, ?_, fun k h1 h2 => ?_⟩⟩
  · obtain ⟨s, hs, dk, kvs, -, rfl, hc⟩ := hr.x
    rw [← hc.kindAt_eq p]
    simp [kindAt, at?, items?_dict, hs]
  · obtain ⟨s, hs, dk, kvs, -, rfl, hc⟩ := hr.d
    rw [← hc.kindAt_eq p]
    simp [kindAt, at?, items?_dict, hs]
  · rcases hb : lookup C.base k with _ | v
    · simp [kindAt, at?, items?_dict, hb, hr.other k hb h1 h2]
    · obtain ⟨x, hx⟩ := hr.base k v hb
      obtain ⟨y, hy⟩ := hC.leaves _ (lookup_mem hb)
      simp only at hy
      subst hy
      cases p <;> simp [kindAt, at?, items?_dict, items?_leaf, hb, hx]

/-- **C77, initial values.** At any point of a program, a construction without a user dict succeeds
exactly if both methods are known; the options of the solvers then have the values that the learning
class prescribes and the defaults of the solver classes elsewhere, and the other options have their
defaults. -/
theorem C77_initial (C : Cls K V L) (N : AuxNames K V) (n : Nat) (hC : Good C n)
    (evs : List (Ev K V L)) (he : ∀ e ∈ evs, e.IsPlain) (xm dm : L) :
    ((create C N (n + 1) (prog C N (n + 1) evs).G xm dm []).2 ≠ none ↔
      C.X xm ≠ none ∧ C.D dm ≠ none) ∧
    ∀ o, (create C N (n + 1) (prog C N (n + 1) evs).G xm dm []).2 = some o →
      ∃ BX BD, C.X xm = some BX ∧ C.D dm = some BD ∧ ∀ p,
        leafAt (.dict o.kvs) (C.kx :: p) = (leafAt (.dict (C.ovX xm)) p).or (leafAt (.dict BX) p) ∧
        leafAt (.dict o.kvs) (C.kd :: p) = (leafAt (.dict (C.ovD dm)) p).or (leafAt (.dict BD) p) ∧
        ∀ k, k ≠ C.kx → k ≠ C.kd → leafAt (.dict o.kvs) (k :: p) = leafAt (.dict C.base) (k :: p) := by
  have hG := (inv_prog N hC evs he).form
  generalize (prog C N (n + 1) evs).G = G at hG ⊢
  unfold create
  rcases hX : C.X xm with _ | BX
  · exact ⟨by simp, by rintro o ⟨⟩⟩
  · rcases hD : C.D dm with _ | BD
    · exact ⟨by simp, by rintro o ⟨⟩⟩
    · have gx := hC.gX xm BX hX
      have gd := hC.gD dm BD hD
      obtain ⟨cb, hcb, ocb, lcb⟩ := construct_solver gx
      obtain ⟨cc, hcc, occ, lcc⟩ := construct_solver gd
      obtain ⟨kvs, hr, hrok, k1, k2, k3⟩ := construct_root hC
        (dictUpdate_wf gx.wf (wf_dict.1 gx.wfo).2) (dictUpdate_wf gd.wf (wf_dict.1 gd.wfo).2)
        (depth_dictUpdate gx.depth gx.deptho) (depth_dictUpdate gd.depth gd.deptho) ocb occ
      simp only [g_insert hC hG, hcb, hcc, hr, rootUpdate, runAll]
      refine ⟨by simp, ?_⟩
      rintro o ⟨⟩
      refine ⟨BX, BD, rfl, rfl, fun p => ⟨?_, ?_, fun k h1 h2 => ?_⟩⟩
      · rw [← lcb p]; simp [leafAt, at?, items?_dict, k1]
      · rw [← lcc p]; simp [leafAt, at?, items?_dict, k2]
      · rcases hb : lookup C.base k with _ | v
        · simp [leafAt, at?, items?_dict, hb, hrok.other k hb h1 h2]
        · obtain ⟨y, hy⟩ := hC.leaves _ (lookup_mem hb)
          simp only at hy
          subst hy
          simp [leafAt, at?, items?_dict, hb, k3 k y hb]

/-- **C77, assignment.** At any point of a program and for any of its objects, assigning a value to
an option of the sparse coding step with the tuple key `('CBPDN', ...)` succeeds exactly if the class
for the object's `xmethod` has this option; then the option has this value and all other options are
as before. Otherwise the object is unchanged. (The same for `CCMOD`.) -/
theorem C77_assign (C : Cls K V L) (N : AuxNames K V) (n : Nat) (hC : Good C n)
    (evs : List (Ev K V L)) (he : ∀ e ∈ evs, e.IsPlain) (i : Nat) (o : Obj K V L)
    (ho : (prog C N (n + 1) evs).objs[i]? = some o) (onX : Bool) (p : List K) (hp : p ≠ []) (x : V) :
    let s := prog C N (n + 1) evs
    let key := if onX then C.kx else C.kd
    let r := rootTuple N (n + 1) s.G o.kvs (key :: p) (.leaf x)
    ∃ B, (if onX then C.X o.xl else C.D o.dl) = some B ∧
      (r.2 = none ↔ kindAt (.dict B) p = some false) ∧
      (r.2 = none → ∀ q, leafAt (.dict r.1) q = if q = key :: p then some x else leafAt (.dict o.kvs) q) ∧
      (r.2 ≠ none → r.1 = o.kvs) := by
  have hi := inv_prog N hC evs he
  obtain ⟨BX, BD, hX, hD, hr⟩ := hi.ok i o ho
  intro s key r
  obtain ⟨B, hB, sub, hl, hok, hw⟩ : ∃ B, (if onX then C.X o.xl else C.D o.dl) = some B ∧
      ∃ sub, lookup o.kvs key = some sub ∧ Ok (.dict B) sub ∧ Wf (.dict B) := by
    cases onX with
    | true =>
      obtain ⟨sub, h1, h2⟩ := hr.x
      exact ⟨BX, by simpa using hX, sub, h1, h2, (hC.gX _ _ hX).wf⟩
    | false =>
      obtain ⟨sub, h1, h2⟩ := hr.d
      exact ⟨BD, by simpa using hD, sub, h1, h2, (hC.gD _ _ hD).wf⟩
  obtain ⟨dk, sub, hdk, rfl, hc⟩ := hok
  cases hdk
  refine ⟨B, hB, ?_⟩
  obtain ⟨k0, ks, rfl⟩ : ∃ k0 ks, p = k0 :: ks := List.exists_cons_of_ne_nil hp
  have hr' : r = (insert o.kvs key (.cdict (.dict B) []
      (setAt (n + 1) (.dict s.G) (key :: k0 :: ks) (.dict B) [] sub (k0 :: ks).dropLast
        ((k0 :: ks).getLast (by simp)) (.leaf x)).1),
      (setAt (n + 1) (.dict s.G) (key :: k0 :: ks) (.dict B) [] sub (k0 :: ks).dropLast
        ((k0 :: ks).getLast (by simp)) (.leaf x)).2) := by
    simp only [r, rootTuple, setAt, hl]
  have hpk : (k0 :: ks).dropLast ++ [(k0 :: ks).getLast (by simp)] = k0 :: ks :=
    List.dropLast_concat_getLast _
  generalize (k0 :: ks).dropLast = qs at hr' hpk
  generalize (k0 :: ks).getLast _ = k at hr' hpk
  obtain ⟨s1, s2⟩ := setAt_self (n + 1) (.dict B) (key :: k0 :: ks) (k0 :: ks) [] B sub rfl hc qs k
    (.leaf x) (.dict s.G) (.dict B)
  obtain ⟨l1, l2⟩ := setAt_leaf n (.dict B) (k0 :: ks) [] B sub rfl hc qs k x
  have l3 := setAt_none n (.dict B) (k0 :: ks) [] B sub rfl hc qs k (.leaf x) (.leaf x)
  have l4 := setAt_effect (n + 1) (.dict B) hw (k0 :: ks) [] B sub rfl hc qs k (.leaf x) (.leaf x)
  rw [hpk] at l1 l2 l3 l4
  have hnone : (setAt (n + 1) (.dict s.G) (key :: k0 :: ks) (.dict B) [] sub qs k (.leaf x)).2 = none ↔
      (setAt (n + 1) (.dict B) (k0 :: ks) (.dict B) [] sub qs k (.leaf x)).2 = none := by
    rw [← Option.not_isSome_iff_eq_none, ← Option.not_isSome_iff_eq_none, s2]
  rw [hr']
  simp only [ne_eq]
  rw [hnone, s1]
  have hcases : kindAt (.dict B) (k0 :: ks) = some false ∨
      ((setAt (n + 1) (.dict B) (k0 :: ks) (.dict B) [] sub qs k (.leaf x)).2 ≠ none ∧
        kindAt (.dict B) (k0 :: ks) ≠ some false ∧
        (setAt (n + 1) (.dict B) (k0 :: ks) (.dict B) [] sub qs k (.leaf x)).1 = sub) := by
    rcases hk : kindAt (.dict B) (k0 :: ks) with _ | b
    · obtain ⟨a1, e, a2, -⟩ := l3 hk rfl
      exact .inr ⟨by rw [a2]; simp, by simp, a1⟩
    · cases b with
      | false => exact .inl rfl
      | true => rw [l2 hk]; exact .inr ⟨by simp, by simp, rfl⟩
  refine ⟨⟨fun h => ?_, l1⟩, fun h q => ?_, fun h => ?_⟩
  · rcases hcases with h1 | ⟨h1, -⟩
    · exact h1
    · exact absurd h h1
  · have ov := l4 h
    cases q with
    | nil => simp [leafAt, at?]
    | cons c cs =>
      by_cases hck : c = key
      · subst hck
        have := ov cs
        rw [leafAt_nest] at this
        have e1 : leafAt (.dict (insert o.kvs key (.cdict (.dict B) []
            (setAt (n + 1) (.dict B) (k0 :: ks) (.dict B) [] sub qs k (.leaf x)).1))) (key :: cs) =
            leafAt (.cdict (.dict B) []
            (setAt (n + 1) (.dict B) (k0 :: ks) (.dict B) [] sub qs k (.leaf x)).1) cs := by
          simp [leafAt, at?, items?_dict, lookup_insert_self]
        have e2 : leafAt (.dict o.kvs) (key :: cs) = leafAt (.cdict (.dict B) [] sub) cs := by
          simp [leafAt, at?, items?_dict, hl]
        rw [e1, e2, this]
        by_cases hcs : cs = k0 :: ks
        · simp [hcs]
        · simp [hcs]
      · have hne : ¬ (c :: cs = key :: k0 :: ks) := by
          intro h; exact hck (List.cons.inj h).1
        rw [if_neg hne]
        simp [leafAt, at?, items?_dict, lookup_insert_ne _ _ hck]
  · rcases hcases with h1 | ⟨-, -, h1⟩
    · exact absurd (l1 h1) h
    · rw [h1, insert_same hl]

/-! ## A concrete class -/

/-- A fragment of `ConvBPDNDictLearn.Options`: labels 0 (`admm`), 1 (`pgm`), with part of the
defaults of the solver classes and the values of `cbpdndl.py` 50-55, 146-151. -/
def exCls : Cls String Int Nat where
  base := [("Verbose", .leaf 0), ("MaxMainIter", .leaf 1000), ("DictSize", .leaf 0)]
  kx := "CBPDN"
  kd := "CCMOD"
  X l := if l = 0 then some [("MaxMainIter", .leaf 1000), ("AuxVarObj", .leaf 0), ("fEvalX", .leaf 1),
      ("gEvalY", .leaf 0), ("AutoRho", .dict [("Enabled", .leaf 1), ("Period", .leaf 1)])]
    else if l = 1 then some [("MaxMainIter", .leaf 1000), ("L", .leaf 500)] else none
  D l := if l = 1 then some [("MaxMainIter", .leaf 1000), ("ZeroMean", .leaf 0)] else none
  ovX l := if l = 0 then [("MaxMainIter", .leaf 1), ("AutoRho", .dict [("Period", .leaf 10)])]
    else [("MaxMainIter", .leaf 1)]
  ovD _ := [("MaxMainIter", .leaf 1)]

theorem wf_leaves (kvs : List (String × Val String Int)) (h : (kvs.map Prod.fst).Nodup)
    (hl : ∀ kv ∈ kvs, ∃ x, kv.2 = .leaf x) : Wf (.dict kvs) :=
  .dict _ h fun kv hm => by obtain ⟨x, hx⟩ := hl kv hm; rw [hx]; exact .leaf x

/-- Trees of leaves that make sense. -/
theorem goodTree_leaves (B ov : List (String × Val String Int)) (h : (B.map Prod.fst).Nodup)
    (ho : (ov.map Prod.fst).Nodup) (hl : ∀ kv ∈ B, ∃ x, kv.2 = .leaf x)
    (hlo : ∀ kv ∈ ov, ∃ x, kv.2 = .leaf x) (hs : ∀ k, lookup ov k ≠ none → lookup B k ≠ none) :
    GoodTree 2 B ov := by
  refine ⟨wf_leaves B h hl, wf_leaves ov ho hlo, ?_, ?_, ?_⟩
  · rw [depth_dict]; intro kv hm; obtain ⟨x, hx⟩ := hl kv hm; rw [hx]; exact depth_leaf _ _
  · rw [depth_dict]; intro kv hm; obtain ⟨x, hx⟩ := hlo kv hm; rw [hx]; exact depth_leaf _ _
  · intro p b hp
    cases p with
    | nil => exact hp
    | cons k ks =>
      rcases h1 : lookup ov k with _ | v
      · simp [kindAt, at?, items?_dict, h1] at hp
      · obtain ⟨x, hx⟩ := hlo _ (lookup_mem h1)
        simp only at hx; subst hx
        rcases h2 : lookup B k with _ | w
        · exact absurd h2 (hs k (by rw [h1]; simp))
        · obtain ⟨y, hy⟩ := hl _ (lookup_mem h2)
          simp only at hy; subst hy
          cases ks <;> simp [kindAt, at?, items?_dict, items?_leaf, h1, h2] at hp ⊢ <;> exact hp

/-- The tree with a sub-tree. -/
theorem exTree : GoodTree (K := String) (V := Int) 2
    [("MaxMainIter", .leaf 1000), ("AuxVarObj", .leaf 0), ("fEvalX", .leaf 1),
      ("gEvalY", .leaf 0), ("AutoRho", .dict [("Enabled", .leaf 1), ("Period", .leaf 1)])]
    [("MaxMainIter", .leaf 1), ("AutoRho", .dict [("Period", .leaf 10)])] := by
  have w1 : Wf (.dict [("Enabled", .leaf 1), ("Period", .leaf 1)] : Val String Int) :=
    wf_leaves _ (by simp) (by simp)
  have w2 : Wf (.dict [("Period", .leaf 10)] : Val String Int) := wf_leaves _ (by simp) (by simp)
  have d1 : DepthLe 1 (.dict [("Enabled", .leaf 1), ("Period", .leaf 1)] : Val String Int) := by
    rw [depth_dict]; intro kv h
    simp only [List.mem_cons, List.not_mem_nil, or_false] at h
    rcases h with rfl | rfl <;> rfl
  have d2 : DepthLe 1 (.dict [("Period", .leaf 10)] : Val String Int) := by
    rw [depth_dict]; intro kv h
    simp only [List.mem_cons, List.not_mem_nil, or_false] at h
    subst h; rfl
  refine ⟨.dict _ (by simp) ?_, .dict _ (by simp) ?_, ?_, ?_, ?_⟩
  · intro kv h
    simp only [List.mem_cons, List.not_mem_nil, or_false] at h
    rcases h with rfl | rfl | rfl | rfl | rfl
    iterate 4 exact .leaf _
    exact w1
  · intro kv h
    simp only [List.mem_cons, List.not_mem_nil, or_false] at h
    rcases h with rfl | rfl
    · exact .leaf _
    · exact w2
  · rw [depth_dict]; intro kv h
    simp only [List.mem_cons, List.not_mem_nil, or_false] at h
    rcases h with rfl | rfl | rfl | rfl | rfl
    iterate 4 exact depth_leaf _ _
    exact d1
  · rw [depth_dict]; intro kv h
    simp only [List.mem_cons, List.not_mem_nil, or_false] at h
    rcases h with rfl | rfl
    · exact depth_leaf _ _
    · exact d2
  · intro p b hp
    cases p with
    | nil => exact hp
    | cons k ks =>
      by_cases h1 : k = "MaxMainIter"
      · subst h1
        cases ks <;> simp [kindAt, at?, items?_dict, items?_leaf, lookup] at hp ⊢; exact hp
      · by_cases h2 : k = "AutoRho"
        · subst h2
          cases ks with
          | nil => simp [kindAt, at?, items?_dict, lookup] at hp ⊢; exact hp
          | cons j js =>
            by_cases h3 : j = "Period"
            · subst h3
              cases js <;> simp [kindAt, at?, items?_dict, items?_leaf, lookup] at hp ⊢; exact hp
            · simp [kindAt, at?, items?_dict, lookup, Ne.symm h3] at hp
        · simp [kindAt, at?, items?_dict, lookup, Ne.symm h1, Ne.symm h2] at hp

theorem exCls_good : Good exCls 2 := by
  refine ⟨by simp [exCls], ?_, rfl, rfl, by decide, fun l B h => ?_, fun l B h => ?_⟩
  · intro kv h
    simp only [exCls, List.mem_cons, List.not_mem_nil, or_false] at h
    rcases h with rfl | rfl | rfl <;> exact ⟨_, rfl⟩
  · simp only [exCls] at h ⊢
    split at h
    · next h0 => cases h; rw [if_pos h0]; exact exTree
    · next h0 =>
      split at h
      · cases h
        rw [if_neg h0]
        refine goodTree_leaves _ _ (by simp) (by simp) (by simp) (by simp) fun k hk => ?_
        by_cases e : k = "MaxMainIter"
        · subst e; simp [lookup]
        · exact absurd (by simp [lookup, Ne.symm e]) hk
      · cases h
  · simp only [exCls] at h ⊢
    split at h
    · cases h
      refine goodTree_leaves _ _ (by simp) (by simp) (by simp) (by simp) fun k hk => ?_
      by_cases e : k = "MaxMainIter"
      · subst e; simp [lookup]
      · exact absurd (by simp [lookup, Ne.symm e]) hk
    · cases h

/-- A program that meets the hypotheses: an object with method `admm`, one with method `pgm` (which
overwrites the shared defaults), a failed construction, and operations on the first object that set
an option unknown to the method of the second, an option unknown to its own, and `AuxVarObj`. -/
def exEvs : List (Ev String Int Nat) :=
  [.create 0 1 [], .create 1 1 [("CBPDN", .dict [("L", .leaf 7)])], .create 5 1 [],
    .op 0 (.tuple ["CBPDN", "AutoRho", "Period"] (.leaf 3)), .op 0 (.tuple ["CBPDN", "L"] (.leaf 3)),
    .op 0 (.update [("CBPDN", .dict [("AuxVarObj", .leaf 1)])])]

example : Good exCls 2 ∧ (∀ e ∈ exEvs, e.IsPlain) ∧
    (prog exCls auxNames 3 exEvs).objs.length = 2 ∧
    (((prog exCls auxNames 3 exEvs).objs[0]?).map fun o =>
      (leafAt (.dict o.kvs) ["CBPDN", "AutoRho", "Period"], leafAt (.dict o.kvs) ["CBPDN", "fEvalX"],
        leafAt (.dict o.kvs) ["CBPDN", "MaxMainIter"])) = some (some 3, some 0, some 1) ∧
    (((prog exCls auxNames 3 exEvs).objs[1]?).map fun o => leafAt (.dict o.kvs) ["CBPDN", "L"]) =
      some (some 7) := by
  refine ⟨exCls_good, fun e h => ?_, rfl, rfl, rfl⟩
  simp only [exEvs, List.mem_cons, List.not_mem_nil, or_false] at h
  rcases h with rfl | rfl | rfl | rfl | rfl | rfl
  · intro kv h; cases h
  · intro kv h
    simp only [List.mem_cons, List.not_mem_nil, or_false] at h
    subst h
    exact .dict _ fun kv h => by
      simp only [List.mem_cons, List.not_mem_nil, or_false] at h
      subst h; exact .leaf _
  · intro kv h; cases h
  · exact .leaf _
  · exact .leaf _
  · intro kv h
    simp only [List.mem_cons, List.not_mem_nil, or_false] at h
    subst h
    exact .dict _ fun kv h => by
      simp only [List.mem_cons, List.not_mem_nil, or_false] at h
      subst h; exact .leaf _

end Sporco.Options.Learn
