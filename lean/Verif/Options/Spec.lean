import Verif.Options.Model

/-!
# Specification vocabulary for option trees

What a user sees of an option tree: at each path, nothing, a leaf or a sub-tree.
These definitions do not use the model's assignment code.
-/

namespace Sporco.Options

variable {K V : Type} [DecidableEq K]

/-- The object found by following `p` from `t`, if any. -/
def at? (t : Val K V) : List K → Option (Val K V)
  | [] => some t
  | k :: ks =>
    match t.items? with
    | none => none
    | some kvs => (lookup kvs k).bind fun c => at? c ks

/-- What is at a path: `none` (no such option), `some true` (a sub-tree),
`some false` (a leaf). -/
def kindAt (t : Val K V) (p : List K) : Option Bool :=
  (at? t p).map fun c => c.items?.isSome

/-- The leaf value at a path. -/
def leafAt (t : Val K V) (p : List K) : Option V :=
  (at? t p).bind fun c => match c with | .leaf v => some v | _ => none

/-- A value made of plain Python dicts and leaves only. -/
inductive Plain : Val K V → Prop
  | leaf (v : V) : Plain (.leaf v)
  | dict (kvs : List (K × Val K V)) (h : ∀ kv ∈ kvs, Plain kv.2) : Plain (.dict kvs)

/-- Plain, and no dict has a repeated key (true of every Python dict). -/
inductive Wf : Val K V → Prop
  | leaf (v : V) : Wf (.leaf v)
  | dict (kvs : List (K × Val K V)) (hn : (kvs.map Prod.fst).Nodup)
      (h : ∀ kv ∈ kvs, Wf kv.2) : Wf (.dict kvs)

/-- Nesting depth at most `n`. -/
def DepthLe : Nat → Val K V → Prop
  | 0, t => t.items? = none
  | n + 1, t => ∀ kvs, t.items? = some kvs → ∀ kv ∈ kvs, DepthLe n kv.2

/-- A user operation on an options object: assign to a (tuple) key, or `update`. -/
inductive Op (K V : Type) where
  | set (path : List K) (v : Val K V)
  | update (d : List (K × Val K V))

/-- The operation only involves plain dicts and leaves. -/
def Op.IsPlain : Op K V → Prop
  | .set _ v => Plain v
  | .update d => ∀ kv ∈ d, Plain kv.2

/-- Effect of one operation, whether or not it raises. -/
def Op.run (n : Nat) (o : Val K V) : Op K V → Val K V × Option (Err K)
  | .set path v => setItem n o path v
  | .update d => updateItems n o d

/-- State after a history of operations, exceptions being caught by the user. -/
def history (n : Nat) (o : Val K V) (ops : List (Op K V)) : Val K V :=
  ops.foldl (fun o op => (op.run n o).1) o

/-- Every path of `d` leads to the same kind of thing in the tree `dflt`. -/
def FitsDefaults (dflt d : Val K V) : Prop :=
  ∀ p b, kindAt d p = some b → kindAt dflt p = some b

/-- The nested dict `{k1: {k2: ... v}}` for a path. -/
def nest : List K → Val K V → Val K V
  | [], v => v
  | k :: ks, v => .dict [(k, nest ks v)]

/-- Two trees carry the same leaves except where `v` has one, which wins. -/
def Overridden (v old new : Val K V) : Prop :=
  ∀ q, leafAt new q = (leafAt v q).or (leafAt old q)

end Sporco.Options
