import Verif.Par.Cns

/-!
# Solver objects that keep their state in module globals (C63)

The parallel solvers (`dictlrn/prlcnscdl.py`, `admm/parcbpdn.py`) keep all arrays that `solve`
works on in variables of the module, so that worker processes can reach them.  The constructor
assigns those variables (`prlcnscdl.py` 452-491, 1007-1057, `parcbpdn.py` 560-724).
-/

set_option autoImplicit false

namespace Sporco.Par.Globals

/-- What a program does with solver objects. -/
inductive Ev (ι M : Type*) where
  /-- construct object `i` -/
  | new (i : ι)
  /-- call method `c` of object `i` -/
  | call (i : ι) (c : M)

/-- A family of solver objects: the state its constructor sets up, and the effect and result of a
method call. -/
structure Class (ι M G R : Type*) where
  init : ι → G
  act : ι → M → G → G × R

variable {ι M G R : Type*} (C : Class ι M G R)

/-- State in module globals: constructors and methods of all objects act on the same state. -/
def runShared : List (Ev ι M) → Option G → List (Option R)
  | [], _ => []
  | .new i :: es, _ => runShared es (some (C.init i))
  | .call i c :: es, s =>
    (s.map fun g => (C.act i c g).2) :: runShared es (s.map fun g => (C.act i c g).1)

/-- What a user expects: every object has its own state. -/
def runOwn [DecidableEq ι] : List (Ev ι M) → (ι → Option G) → List (Option R)
  | [], _ => []
  | .new i :: es, s => runOwn es (Function.update s i (some (C.init i)))
  | .call i c :: es, s =>
    ((s i).map fun g => (C.act i c g).2) ::
      runOwn es (Function.update s i ((s i).map fun g => (C.act i c g).1))

/-- Every method call is on the object constructed last (`cur` at the start). -/
def OnLast : List (Ev ι M) → Option ι → Prop
  | [], _ => True
  | .new i :: es, _ => OnLast es (some i)
  | .call i _ :: es, cur => cur = some i ∧ OnLast es cur

theorem runShared_eq [DecidableEq ι] (es : List (Ev ι M)) (cur : Option ι) (g : Option G) (s : ι → Option G)
    (h : OnLast es cur) (hs : ∀ i, cur = some i → s i = g) : runShared C es g = runOwn C es s := by
  induction es generalizing cur g s with
  | nil => rfl
  | cons e es ih =>
    cases e with
    | new i =>
      refine ih (some i) _ _ h fun j hj => ?_
      obtain rfl := Option.some.inj hj
      simp
    | call i c =>
      obtain ⟨hc, h⟩ := h
      have e := hs i hc
      simp only [runShared, runOwn, e]
      congr 1
      refine ih cur _ _ h fun j hj => ?_
      obtain rfl := Option.some.inj (hc.symm.trans hj)
      simp

/-- **C63, partial.** In a program that calls methods only on the object constructed last, all
results are those of objects with separate states. -/
theorem C63_last_partial [DecidableEq ι] (es : List (Ev ι M)) (h : OnLast es none) :
    runShared C es none = runOwn C es fun _ => none :=
  runShared_eq C es none none _ h fun _ h => by cases h

open Cns in
/-- `ConvBPDNDictLearn_Consensus` objects for one signal of one sample (the index of the object is
the value of the sample); the method is `solve` of one iteration followed by `getcoef`. -/
noncomputable def cns1 : Class ℤ Unit (Cfg 1 (Fin 1 → ℝ) × Mem 1 (Fin 1 → ℝ) (Fin 1 → ℝ) (Fin 1 → ℝ) (Fin 1 → ℝ))
    ℝ where
  init i := (cfg1 i, mem1 i)
  act _ _ g := ((g.1, stepSeq ops1 g.1 g.2), (stepSeq ops1 g.1 g.2).Z_Y 0 0)

/-- **C63 is false.** After the construction of a second object, `solve` of the first works on the
data of the second. -/
theorem C63_isolation_refuted :
    runShared cns1 [.new 6, .new 2, .call 6 ()] none ≠ runOwn cns1 [.new 6, .new 2, .call 6 ()] fun _ => none := by
  have key : ∀ s : ℝ, (Cns.stepSeq Cns.ops1 (Cns.cfg1 s) (Cns.mem1 s)).Z_Y 0 0 = Prox.proxL1 (s / 2) 1 := by
    intro s
    have hint : Interleaving (Cns.stepGroup Cns.ops1 (Cns.cfg1 s))
        (sequential (Cns.stepGroup Cns.ops1 (Cns.cfg1 s)) (List.finRange 1)) :=
      interleaving_sequential _ _ (List.nodup_finRange 1) List.mem_finRange
    rw [← Cns.C52_step Cns.ops1 (Cns.cfg1 s) _ hint,
      Cns.C62_serial_partial Cns.ops1 (Cns.cfg1 s) _ (fun _ => rfl) _ hint, Cns.ystep1]
    simp [Cns.ops1, Cns.cfg1, Prox.proxL1Arr]
  intro h
  simp [runShared, runOwn, cns1, key] at h
  norm_num [Prox.proxL1, Prox.npSign, abs_of_pos] at h

/-- The partial theorem covers programs with several objects. -/
example : OnLast ([.new 6, .call 6 (), .call 6 (), .new 2, .call 2 ()] : List (Ev ℤ Unit)) none :=
  ⟨rfl, rfl, rfl, trivial⟩

end Sporco.Par.Globals
