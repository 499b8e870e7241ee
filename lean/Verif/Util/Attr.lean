import Mathlib.Data.Real.Basic
import Mathlib.Tactic.NormNum
import Mathlib.Tactic.Linarith

/-!
# Solver parameters and their defaults (C05)

Model of `IterativeSolver.set_attr` (`common.py` 177-225) and of the calls of it that the
constructors make for the penalty parameter `rho` (and, in `pgm/`, for `L`).  Conversion to the
data type is taken as exact.
-/

set_option autoImplicit false

namespace Sporco.Util

/-- The attributes of an object: absent, `None`, or a number. -/
abbrev Attrs := String → Option (Option ℝ)

/-- `set_attr(name, val, dval, dtype, reset)` (`common.py` 177-225). -/
noncomputable def setAttr (a : Attrs) (name : String) (val dval : Option ℝ) (reset : Bool) : Attrs :=
  let val := if dval.isSome && val.isNone then dval else val
  if reset || a name = none || a name = some none then
    fun x => if x = name then some val else a x
  else a

/-- The arguments of one call. -/
structure Call where
  val : Option ℝ
  dval : Option ℝ
  reset : Bool

/-- A constructor chain: the calls for attribute `name` in the order they are executed,
starting from an object without attributes. -/
noncomputable def runCalls (name : String) (cs : List Call) : Attrs :=
  cs.foldl (fun a c => setAttr a name c.val c.dval c.reset) fun _ => none

/-- What a constructor call depends on: the user's option value (`None` if not given), the
regularisation parameter, the number of columns `S.shape[1]` of a signal array and the number
`cri.K` of training images. -/
structure Prm where
  user : Option ℝ
  lmbda : ℝ
  nS : ℝ
  K : ℝ

/-- Solver classes.  A class not listed has the calls of its nearest listed ancestor. -/
inductive Solver
  | admm | bpdn | cnstrMOD | convBPDN | convBPDNScalarTV | convBPDNRecTV | convCnstrMOD
  | convCnstrMODConsensus | tvl2Denoise | tvl2Deconv | tvl1Denoise | tvl1Deconv | splineL1
  | robustPCA | parConvBPDN

open Solver

/-- The call in `ADMM.__init__` (`admm/admm.py` 247). -/
def admmCall (p : Prm) : Call := ⟨p.user, some 1, false⟩

/-- The default for `rho` a class states in its own constructor. -/
noncomputable def ownDefault (p : Prm) : Solver → ℝ
  | admm => 1
  | bpdn => 50 * p.lmbda + 1
  | cnstrMOD => p.nS / 500
  | convBPDN => 50 * p.lmbda + 1
  | convBPDNScalarTV => 50 * p.lmbda + 1
  | convBPDNRecTV => 50 * p.lmbda + 1
  | convCnstrMOD => p.K
  | convCnstrMODConsensus => p.K
  | tvl2Denoise => 2 * p.lmbda + 1 / 10
  | tvl2Deconv => 2 * p.lmbda + 1 / 10
  | tvl1Denoise => 2 * p.lmbda + 1 / 10
  | tvl1Deconv => 2 * p.lmbda + 1 / 10
  | splineL1 => 2 * p.lmbda + 1 / 10
  | robustPCA => 2 * p.lmbda + 1 / 10
  | parConvBPDN => 50 * p.lmbda + 1

/-- The calls of `set_attr('rho', ...)` in execution order: the class's own call comes before
`super().__init__` in `bpdn.py` 419, `tvl2.py` 202 and 554, `tvl1.py` 202 and 582, `spline.py`
154, `rpca.py` 139, `parcbpdn.py` 557; after it in `cmod.py` 185, `ccmod.py` 264 and 701,
`cbpdntv.py` 221 and 931; after it with `reset=True` in `cbpdn.py` 584. -/
noncomputable def rhoCalls (p : Prm) (c : Solver) : List Call :=
  match c with
  | admm => [admmCall p]
  | convBPDN => [admmCall p, ⟨p.user, some (ownDefault p c), true⟩]
  | cnstrMOD | convCnstrMOD | convCnstrMODConsensus | convBPDNScalarTV | convBPDNRecTV =>
    [admmCall p, ⟨p.user, some (ownDefault p c), false⟩]
  | _ => [⟨p.user, some (ownDefault p c), false⟩, admmCall p]

/-- `rho` after construction. -/
noncomputable def rhoOf (p : Prm) (c : Solver) : Option (Option ℝ) := runCalls "rho" (rhoCalls p c) "rho"

/-- The value a single call would give: the user's value, else the default. -/
def Call.eff (c : Call) : Option ℝ := c.val.or c.dval

theorem setAttr_self (a : Attrs) (name : String) (val dval : Option ℝ) (reset : Bool) :
    setAttr a name val dval reset name =
      if reset = true ∨ a name = none ∨ a name = some none then some (val.or dval) else a name := by
  unfold setAttr
  have : (if (dval.isSome && val.isNone) = true then dval else val) = val.or dval := by
    cases val <;> cases dval <;> simp
  simp only [this]
  by_cases h : reset = true ∨ a name = none ∨ a name = some none
  · rw [if_pos h, if_pos (by simpa [or_assoc] using h)]; simp
  · rw [if_neg h, if_neg (by simpa [or_assoc] using h)]

theorem setAttr_ne (a : Attrs) (name x : String) (val dval : Option ℝ) (reset : Bool) (h : x ≠ name) :
    setAttr a name val dval reset x = a x := by
  unfold setAttr
  split <;> simp [h]

/-- **C05.** In a chain of `set_attr` calls none of which resets, the attribute ends as the
first value that is not `None`: the user's value if the first call is given one, otherwise the
default of the call executed first. -/
theorem C05_first_wins (name : String) (cs : List Call) (hr : ∀ c ∈ cs, c.reset = false)
    (hne : cs ≠ []) :
    runCalls name cs name = some (cs.findSome? Call.eff) := by
  have key : ∀ (cs : List Call) (a : Attrs), (∀ c ∈ cs, c.reset = false) →
      (cs.foldl (fun a c => setAttr a name c.val c.dval c.reset) a) name =
        match a name with
        | some (some v) => some (some v)
        | some none => some (cs.findSome? Call.eff)
        | none => if cs = [] then none else some (cs.findSome? Call.eff) := by
    intro cs
    induction cs with
    | nil =>
      intro a _
      rcases ha : a name with _ | _ | v <;> simp [ha]
    | cons c cs ih =>
      intro a hr
      rw [List.foldl_cons, ih _ fun c' h => hr c' (by simp [h]), setAttr_self, hr c (by simp)]
      rcases ha : a name with _ | _ | v
      · simp only [Bool.false_eq_true, false_or, true_or, if_true]
        rcases he : c.val.or c.dval with _ | v
        · simp [List.findSome?_cons, Call.eff, he]
        · simp [List.findSome?_cons, Call.eff, he]
      · simp only [Bool.false_eq_true, false_or, or_true, if_true]
        rcases he : c.val.or c.dval with _ | v
        · simp [List.findSome?_cons, Call.eff, he]
        · simp [List.findSome?_cons, Call.eff, he]
      · simp
  unfold runCalls
  rw [key cs _ hr]
  simp [hne]

/-- **C05.** A user's value is used by every class, whatever the defaults are. -/
theorem C05_user_value (p : Prm) (v : ℝ) (h : p.user = some v) (c : Solver) :
    rhoOf p c = some (some v) := by
  cases c <;>
    simp [rhoOf, rhoCalls, runCalls, admmCall, setAttr_self, h]

/-- The classes whose own default comes into effect. -/
def Effective : Solver → Prop
  | cnstrMOD | convCnstrMOD | convCnstrMODConsensus | convBPDNScalarTV | convBPDNRecTV => False
  | _ => True

/-- **C05 (part).** Without a user's value, the class's own default is used by every class except
`admm.cmod.CnstrMOD`, the `admm.ccmod` classes and the `admm.cbpdntv` classes. -/
theorem C05_default_partial (p : Prm) (h : p.user = none) (c : Solver) (hc : Effective c) :
    rhoOf p c = some (some (ownDefault p c)) := by
  cases c <;> first
    | exact hc.elim
    | simp [rhoOf, rhoCalls, runCalls, admmCall, setAttr_self, h, ownDefault]

/-- **C05 is false for the other classes**: they call the constructor of `ADMM` first, so
that `rho` is 1 whatever the parameters, and their own default is never used. -/
theorem C05_refuted (p : Prm) (h : p.user = none) (c : Solver) (hc : ¬ Effective c) :
    rhoOf p c = some (some 1) := by
  cases c <;> first
    | exact (hc trivial).elim
    | simp [rhoOf, rhoCalls, runCalls, admmCall, setAttr_self, h]

/-- A concrete instance of `C05_refuted`: `CnstrMOD` with 1000 signals uses 1, not 2. -/
example : rhoOf ⟨none, 0, 1000, 1⟩ cnstrMOD = some (some 1) ∧
    ownDefault ⟨none, 0, 1000, 1⟩ cnstrMOD = 2 :=
  ⟨C05_refuted _ rfl _ (by simp [Effective]), by norm_num [ownDefault]⟩

/-- A concrete instance of `C05_default_partial`: `BPDN` with lambda 1. -/
example : rhoOf ⟨none, 1, 0, 0⟩ bpdn = some (some 51) := by
  rw [C05_default_partial _ rfl _ (by simp [Effective])]
  norm_num [ownDefault]

/-- A concrete instance of `C05_first_wins`: three calls of which the second gives the value. -/
example : runCalls "rho" [⟨none, none, false⟩, ⟨none, some 3, false⟩, ⟨some 7, some 5, false⟩] "rho" =
    some (some 3) := by
  rw [C05_first_wins _ _ (by simp) (by simp)]
  simp [Call.eff]

/-! ## The step parameter of `pgm.ccmod.ConvCnstrMOD` -/

/-- Calls of `set_attr('L', ...)` in `PGM.__init__` (`pgm/pgm.py` 242) and then in
`ConvCnstrMOD.__init__` (`pgm/ccmod.py` 221). -/
def lCalls (p : Prm) : List Call := [⟨p.user, some 1, false⟩, ⟨p.user, some (p.K * 14), false⟩]

/-- **C05 is false for `L` of `pgm.ccmod.ConvCnstrMOD`**: 1 is used instead of `14 K`. -/
theorem C05_pgm_ccmod_refuted (p : Prm) (h : p.user = none) : runCalls "L" (lCalls p) "L" = some (some 1) := by
  simp [lCalls, runCalls, setAttr_self, h]

end Sporco.Util
