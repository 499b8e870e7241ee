import Verif.Timer.Model

/-!
# What the time of a label should be

From a history of calls we only look at what each call does to one label: an
event `start`, `stop` or `reset` at a time. The label is running from a `start`
event to the next event that is not a `start`. Total time: the lengths of the
gaps that follow a `start` event, counting only events after the last `reset`.
-/

namespace Sporco.Timer

/-- What happens to one label. -/
inductive Ev where
  | start | stop | reset
deriving DecidableEq

variable {L T : Type} [DecidableEq L] [AddCommGroup T]

/-- Time of the next event, or `now`. -/
def nextTime (evs : List (T × Ev)) (now : T) : T :=
  match evs with
  | [] => now
  | (t, _) :: _ => t

/-- Total running time since the last reset. -/
def specTotal : List (T × Ev) → T → T
  | [], _ => 0
  | (t, e) :: rest, now =>
    (if e = .start ∧ ∀ x ∈ rest, x.2 ≠ .reset then nextTime rest now - t else 0)
      + specTotal rest now

/-- Labels known after a call, given those known before. -/
def knownAfter (dflt : L) (known : List L) : Op L T → List L
  | .start _ a => (match a with | .dflt => [dflt] | .one l => [l] | .many ls => ls).foldl addKey known
  | _ => known

/-- Labels a call acts on: `start` acts on all labels given; `stop` and `reset`
on those before the first unknown one, or on all known labels for the label
meaning "all". -/
def actsOn (dflt all : L) (known : List L) : Op L T → List L
  | .start _ a => match a with | .dflt => [dflt] | .one l => [l] | .many ls => ls
  | .stop _ a | .reset _ a =>
    (match a with
      | .dflt => if dflt = all then known else [dflt]
      | .one l => if l = all then known else [l]
      | .many ls => ls).takeWhile (· ∈ known)

/-- Event a call makes at a label it acts on. -/
def Op.ev : Op L T → Ev
  | .start .. => .start
  | .stop .. => .stop
  | .reset .. => .reset

/-- Events of a history at label `l`. -/
def events (dflt all : L) (l : L) : List L → List (Op L T) → List (T × Ev)
  | _, [] => []
  | known, op :: ops =>
    ((actsOn dflt all known op).filter (· = l)).map (fun _ => (op.time, op.ev))
      ++ events dflt all l (knownAfter dflt known op) ops

/-- Clock readings do not decrease. -/
def Monotone' [LE T] (ops : List (Op L T)) : Prop := ops.Pairwise (fun a b => a.time ≤ b.time)

/-- Time since the label last went from stopped to running, if it is running: the
events at the end of the history that are all `start` began at that time. -/
def specCurrent (evs : List (T × Ev)) (now : T) : T :=
  match (evs.reverse.takeWhile (fun e => e.2 = .start)).getLast? with
  | none => 0
  | some e => now - e.1

end Sporco.Timer
