import Mathlib.Algebra.Order.Group.Defs

/-!
# Model of `Timer` and `ContextTimer` (sporco/util.py:574-899)

A clock reading is an argument of each operation. `t0`/`td` are the two dicts of
the class; both always have the same keys, here the list `keys` in insertion
order. Labels are elements of an arbitrary type; a label argument is `None`, one
label, or a list of labels.
-/

namespace Sporco.Timer

/-- Attributes of a `Timer` (util.py:595-608). `t0 l`/`td l` are meaningful for
`l ∈ keys`. -/
structure State (L T : Type) where
  keys : List L
  t0 : L → Option T
  td : L → T
  dfltlbl : L
  alllbl : L

/-- A `labels` argument. -/
inductive Arg (L : Type) where
  | dflt
  | one (l : L)
  | many (ls : List L)

variable {L T : Type} [DecidableEq L] [AddCommGroup T]

/-- Insert a key if absent. -/
def addKey (ks : List L) (l : L) : List L := if l ∈ ks then ks else ks ++ [l]

/-- Function update. -/
def upd {A : Type} (f : L → A) (l : L) (a : A) : L → A := fun x => if x = l then a else f x

/-- `Timer.__init__` (util.py:581-608). -/
def init (labels : List L) (dfltlbl alllbl : L) : State L T :=
  { keys := labels.foldl addKey [], t0 := fun _ => none, td := fun _ => 0, dfltlbl, alllbl }

/-- Labels visited by `start` (util.py:623-629). -/
def startLabels (s : State L T) : Arg L → List L
  | .dflt => [s.dfltlbl]
  | .one l => [l]
  | .many ls => ls

/-- Labels visited by `stop` and `reset` (util.py:659-667, 696-704). -/
def stopLabels (s : State L T) : Arg L → List L
  | .dflt => if s.dfltlbl = s.alllbl then s.keys else [s.dfltlbl]
  | .one l => if l = s.alllbl then s.keys else [l]
  | .many ls => ls

/-- Body of the loop of `start` (util.py:632-640). -/
def start1 (t : T) (s : State L T) (l : L) : State L T :=
  let s := if l ∈ s.keys then s
    else { s with keys := s.keys ++ [l], td := upd s.td l 0, t0 := upd s.t0 l none }
  if s.t0 l = none then { s with t0 := upd s.t0 l (some t) } else s

/-- `Timer.start` (util.py:612-640). -/
def start (t : T) (a : Arg L) (s : State L T) : State L T :=
  (startLabels s a).foldl (start1 t) s

/-- Body of the loop of `stop` for a known label (util.py:674-679). -/
def stop1 (t : T) (s : State L T) (l : L) : State L T :=
  match s.t0 l with
  | none => s
  | some t' => { s with td := upd s.td l (s.td l + (t - t')), t0 := upd s.t0 l none }

/-- Body of the loop of `reset` for a known label (util.py:709-712). -/
def reset1 (s : State L T) (l : L) : State L T :=
  { s with t0 := upd s.t0 l none, td := upd s.td l 0 }

/-- A loop over labels that raises `KeyError` at the first unknown one, keeping
what was done before it; the Boolean tells whether it raised. -/
def loopKnown (f : State L T → L → State L T) : State L T → List L → State L T × Bool
  | s, [] => (s, false)
  | s, l :: ls => if l ∈ s.keys then loopKnown f (f s l) ls else (s, true)

/-- `Timer.stop` (util.py:644-679). -/
def stop (t : T) (a : Arg L) (s : State L T) : State L T × Bool :=
  loopKnown (stop1 t) s (stopLabels s a)

/-- `Timer.reset` (util.py:683-712). -/
def reset (a : Arg L) (s : State L T) : State L T × Bool :=
  loopKnown reset1 s (stopLabels s a)

/-- `Timer.elapsed` (util.py:716-759); `none` is `KeyError`. -/
def elapsed (now : T) (label : Option L) (total : Bool) (s : State L T) : Option T :=
  match label with
  | none => if s.dfltlbl ∈ s.keys then some (val s.dfltlbl) else some 0
  | some l => if l ∈ s.keys then some (val l) else none
where
  /-- the value computed at util.py:753-757 -/
  val (l : L) : T :=
    (match s.t0 l with | none => 0 | some t' => now - t') + (if total then s.td l else 0)

/-- A timed call of one of the mutating methods. -/
inductive Op (L T : Type) where
  | start (t : T) (a : Arg L)
  | stop (t : T) (a : Arg L)
  | reset (t : T) (a : Arg L)

/-- Clock reading of a call (`reset` reads no clock; it is given the time at which
it happens). -/
def Op.time : Op L T → T
  | .start t _ => t
  | .stop t _ => t
  | .reset t _ => t

/-- State after a call, whether or not it raised. -/
def Op.run (s : State L T) : Op L T → State L T
  | .start t a => Timer.start t a s
  | .stop t a => (Timer.stop t a s).1
  | .reset _ a => (Timer.reset a s).1

/-- State after a sequence of calls. -/
def run (s : State L T) (ops : List (Op L T)) : State L T := ops.foldl Op.run s

/-- `ContextTimer` (util.py:808-899): calls made by entering at `t₁` and leaving
at `t₂` a context with action `StartStop` (`ss = true`) or `StopStart`, around
the calls `body` made inside it; `with` always runs `__exit__`. -/
def contextOps (ss : Bool) (label : Option L) (t₁ t₂ : T) (body : List (Op L T)) :
    List (Op L T) :=
  let a : Arg L := match label with | none => .dflt | some l => .one l
  if ss then .start t₁ a :: (body ++ [.stop t₂ a]) else .stop t₁ a :: (body ++ [.start t₂ a])

end Sporco.Timer
