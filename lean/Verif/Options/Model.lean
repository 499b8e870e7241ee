/-!
# Model of `sporco/cdict.py`

Python values that matter to `ConstrainedDict` are of three kinds: a non-dict
object (`leaf`), a plain `dict` (`dict`), and a `ConstrainedDict` (`cdict`),
which carries its attributes `dflt` (the defaults tree it is checked against)
and `pth` (its position in that tree) besides its content.

Simplifications: keys are elements of an arbitrary type with decidable equality;
a `dict` is its list of items in insertion order; a leaf is opaque (it has
neither `update`, `keys` nor `in`, so that the corresponding accesses raise
`AttributeError`/`TypeError`, both modelled by `Err.attr`). The unpickling guard
`hasattr(self, 'dflt')` in `check` is always true here.
-/

namespace Sporco.Options

/-- Python values seen by `ConstrainedDict` (sporco/cdict.py:57-111). -/
inductive Val (K V : Type) where
  | leaf (v : V)
  | dict (kvs : List (K × Val K V))
  | cdict (dflt : Val K V) (pth : List K) (kvs : List (K × Val K V))

/-- Exceptions raised by the methods below: `UnknownKeyError`
(cdict.py:19-32), `InvalidValueError` (cdict.py:37-50), the Python
`AttributeError`/`TypeError` on using a non-dict as a dict, `IndexError` on an
empty tuple key; `fuel` is the model's own marker for an exhausted recursion
bound (theorem `setItem_fuel_enough` shows when it cannot occur). -/
inductive Err (K : Type) where
  | unknown (pth : List K)
  | invalid (pth : List K)
  | attr
  | index
  | fuel
deriving DecidableEq

variable {K V : Type} [DecidableEq K]

/-- `dict` lookup. -/
def lookup (kvs : List (K × Val K V)) (k : K) : Option (Val K V) :=
  match kvs with
  | [] => none
  | (k', v) :: rest => if k' = k then some v else lookup rest k

/-- `dict.__setitem__`: overwrite in place or append. -/
def insert (kvs : List (K × Val K V)) (k : K) (v : Val K V) : List (K × Val K V) :=
  match kvs with
  | [] => [(k, v)]
  | (k', v') :: rest => if k' = k then (k', v) :: rest else (k', v') :: insert rest k v

/-- `isinstance(c, dict)` together with the content. -/
def Val.items? : Val K V → Option (List (K × Val K V))
  | .leaf _ => none
  | .dict kvs => some kvs
  | .cdict _ _ kvs => some kvs

/-- `ConstrainedDict.getnode` (cdict.py:286-305). The exception argument of
`UnknownKeyError` is the whole path; the `InvalidValueError` carries the
offending object, which the model drops. -/
def getnode (full : List K) : Val K V → List K → Except (Err K) (Val K V)
  | c, [] => .ok c
  | c, k :: ks =>
    match c.items? with
    | none => .error (.invalid [])
    | some kvs =>
      match lookup kvs k with
      | none => .error (.unknown full)
      | some c' => getnode full c' ks

/-- `ConstrainedDict.check` (cdict.py:229-256) for an object with attributes
`dflt`, `pth`; `isDict` tells whether the value is a dict. -/
def check (dflt : Val K V) (pth : List K) (k : K) (isDict : Bool) : Option (Err K) :=
  match getnode pth dflt pth with
  | .error e => some e
  | .ok a =>
    match a.items? with
    | none => some .attr
    | some kvs =>
      match lookup kvs k with
      | none => some (.unknown (pth ++ [k]))
      | some d => if d.items?.isSome && !isDict then some (.invalid (pth ++ [k])) else none

/-- Run an item-assignment function over the items of a dict, stopping at the
first exception; the object is left as it was at that point
(`ConstrainedDict.update`, cdict.py:115-126). -/
def runAll (f : List (K × Val K V) → K → Val K V → List (K × Val K V) × Option (Err K))
    (kvs : List (K × Val K V)) : List (K × Val K V) → List (K × Val K V) × Option (Err K)
  | [] => (kvs, none)
  | (k, v) :: rest =>
    match f kvs k v with
    | (kvs', none) => runAll f kvs' rest
    | (kvs', some e) => (kvs', some e)

/-- `ConstrainedDict.__setitem__` for a key that is not a tuple, or the part
after locating the parent `sd` for one that is (cdict.py:144-191). `selfDflt` is
`self.dflt`; `dflt`, `pth`, `kvs` are the attributes and content of `sd`. The
result is the new content of `sd` and the exception, if any. The nested
constructor call (cdict.py:70-111) is inlined: first the defaults node, then the
given content. Recursion depth is bounded by the first argument. -/
def setKey : Nat → (selfDflt dflt : Val K V) → (pth : List K) → List (K × Val K V) → K → Val K V →
    List (K × Val K V) × Option (Err K)
  | 0, _, _, _, kvs, _, _ => (kvs, some .fuel)
  | n + 1, selfDflt, dflt, pth, kvs, k, v =>
    match v with
    | .leaf x =>
      match check dflt pth k false with
      | some e => (kvs, some e)
      | none => (insert kvs k (.leaf x), none)
    | .cdict d' p' c' =>
      match check dflt pth k true with
      | some e => (kvs, some e)
      | none => (insert kvs k (.cdict d' p' c'), none)
    | .dict items =>
      match lookup kvs k with
      | none =>
        match getnode (pth ++ [k]) selfDflt (pth ++ [k]) with
        | .error e => (kvs, some e)
        | .ok node =>
          match node.items? with
          | none => (kvs, some .attr)
          | some nkvs =>
            match runAll (setKey n selfDflt selfDflt (pth ++ [k])) [] nkvs with
            | (_, some e) => (kvs, some e)
            | (c, none) =>
              match runAll (setKey n selfDflt selfDflt (pth ++ [k])) c items with
              | (_, some e) => (kvs, some e)
              | (c, none) =>
                match check dflt pth k true with
                | some e => (kvs, some e)
                | none => (insert kvs k (.cdict selfDflt (pth ++ [k]) c), none)
      | some (.cdict d' p' sub) =>
        match runAll (setKey n d' d' p') sub items with
        | (sub', e) => (insert kvs k (.cdict d' p' sub'), e)
      | some (.dict _) => (kvs, some .attr)
      | some (.leaf _) => (kvs, some .attr)

/-- `ConstrainedDict.__init__` for a top-level object (cdict.py:70-111): defaults
first, then `d`. -/
def construct (n : Nat) (dflt : Val K V) (d : List (K × Val K V)) :
    Except (Err K) (Val K V) :=
  match dflt.items? with
  | none => .error .attr
  | some nkvs =>
    match runAll (setKey n dflt dflt []) [] nkvs with
    | (_, some e) => .error e
    | (c, none) =>
      match runAll (setKey n dflt dflt []) c d with
      | (_, some e) => .error e
      | (c, none) => .ok (.cdict dflt [] c)

/-- `ConstrainedDict.__setitem__` (cdict.py:130-191) on an object with content
`kvs` and a tuple key `path ++ [k]`, or a plain key (`path = []`): walk to the
parent with `getparent` (cdict.py:261-281), then `setKey` there. `full` is the
whole tuple. Returns the new content and the exception, if any. A plain dict is
never found on the way (content is wrapped on insertion); the model raises
`attr` for it because it has no `check` method. -/
def setAt (n : Nat) (selfDflt : Val K V) (full : List K) :
    (dflt : Val K V) → (pth : List K) → List (K × Val K V) → List K → K → Val K V →
    List (K × Val K V) × Option (Err K)
  | dflt, pth, kvs, [], k, v => setKey n selfDflt dflt pth kvs k v
  | _, _, kvs, q :: qs, k, v =>
    match lookup kvs q with
    | none => (kvs, some (.unknown full))
    | some (.leaf _) => (kvs, some (if qs = [] then .attr else .invalid []))
    | some (.dict _) => (kvs, some .attr)
    | some (.cdict d' p' sub) =>
      match setAt n selfDflt full d' p' sub qs k v with
      | (sub', e) => (insert kvs q (.cdict d' p' sub'), e)

/-- Item assignment with a key path given as a list (a plain key is a list of
length one; the empty tuple raises `IndexError`, cdict.py:147). -/
def setItem (n : Nat) (o : Val K V) (path : List K) (v : Val K V) : Val K V × Option (Err K) :=
  match o with
  | .cdict dflt pth kvs =>
    match path.reverse with
    | [] => (o, some .index)
    | k :: rq =>
      match setAt n dflt path dflt pth kvs rq.reverse k v with
      | (kvs', e) => (.cdict dflt pth kvs', e)
  | _ => (o, some .attr)

/-- `ConstrainedDict.update` (cdict.py:115-126) with a plain dict of plain keys. -/
def updateItems (n : Nat) (o : Val K V) (d : List (K × Val K V)) : Val K V × Option (Err K) :=
  match o with
  | .cdict dflt pth kvs =>
    match runAll (setKey n dflt dflt pth) kvs d with
    | (kvs', e) => (.cdict dflt pth kvs', e)
  | _ => (o, some .attr)

/-- `ConstrainedDict.__getitem__` (cdict.py:195-218). -/
def getAt (full : List K) : Val K V → List K → Except (Err K) (Val K V)
  | c, [] => .ok c
  | c, k :: ks =>
    match c.items? with
    | none => .error (if ks = [] then .attr else .invalid [])
    | some kvs =>
      match lookup kvs k with
      | none => .error (.unknown full)
      | some c' => getAt full c' ks

/-- Public entry: the empty tuple raises `IndexError`. -/
def getItem (o : Val K V) (path : List K) : Except (Err K) (Val K V) :=
  if path = [] then .error .index else getAt path o path

/-- `keycmp` (cdict.py:309-347), with recursion bounded by the first argument. -/
def keycmp : Nat → List K → Val K V → List (K × Val K V) → Option (Err K)
  | 0, _, _, _ => some .fuel
  | n + 1, pth, a, b =>
    match a.items? with
    | none => some .attr
    | some akvs =>
      b.foldl (fun acc (kv : K × Val K V) =>
        match acc with
        | some e => some e
        | none =>
          match lookup akvs kv.1 with
          | none => some (.unknown (pth ++ [kv.1]))
          | some av =>
            match av.items? with
            | none => none
            | some _ =>
              match kv.2.items? with
              | some bi => keycmp n (pth ++ [kv.1]) av bi
              | none => some (.invalid (pth ++ [kv.1]))) none

end Sporco.Options
