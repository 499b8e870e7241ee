import Mathlib.Analysis.InnerProductSpace.PiL2
import Mathlib.Data.List.Range

/-!
# Model of `sporco/pgm/pgm.py`, `backtrack.py`, `momentum.py`, `stepsize.py`

The variables X and Y live in a real inner product space `E` (a NumPy array with the norm
of the flattened array; for complex arrays the real inner product `Re (conj a · b)`).
Timers are modelled separately (`Verif/Timer`); display is not modelled.
-/

set_option autoImplicit false

namespace Sporco.Pgm

/-! ## Options -/

/-- The classes of `pgm/momentum.py`. -/
inductive Momentum where
  | nesterov
  | linear (b : ℝ)
  | genLinear (a b : ℝ)

/-- `MomentumNesterov.update` (`pgm/momentum.py` 65-68). -/
noncomputable def nesterovUpdate (t : ℝ) : ℝ := 1 / 2 * (1 + Real.sqrt (1 + 4 * t ^ 2))

/-- `MomentumLinear.update` (`pgm/momentum.py` 100-103). -/
noncomputable def linearUpdate (b : ℝ) (k : ℝ) : ℝ := (k + b) / b

/-- `MomentumGenLinear.update` (`pgm/momentum.py` 139-142). -/
noncomputable def genLinearUpdate (a b : ℝ) (k : ℝ) : ℝ := (k + a) / b

/-- `self.momentum.update(self.var_momentum())` (`pgm/pgm.py` 434, 662-668): the Nesterov
class is given `t`, every other class the iteration number. -/
noncomputable def Momentum.next (m : Momentum) (k : ℕ) (t : ℝ) : ℝ :=
  match m with
  | .nesterov => nesterovUpdate t
  | .linear b => linearUpdate b k
  | .genLinear a b => genLinearUpdate a b k

/-- The classes of `pgm/stepsize.py`. -/
inductive Policy where
  | none
  | cauchy
  | bb

/-- The classes of `pgm/backtrack.py` with their parameters. -/
inductive Backtrack where
  | none
  | standard (gammaU : ℝ) (maxiter : ℕ)
  | robust (gammaD gammaU : ℝ) (maxiter : ℕ)

/-- `opt[...]` values read by `PGM` (`pgm/pgm.py` 157-167). -/
structure Opts where
  fastSolve : Bool
  maxMainIter : ℕ
  relStopTol : ℝ
  autoStop : Bool
  tau0 : ℝ
  monotone : Bool
  momentum : Momentum
  policy : Policy
  backtrack : Backtrack

/-- `self.stepsizepolicy` after `__init__` (`pgm/pgm.py` 246-248): turned off when a
backtracking object is given. -/
def Opts.stepPolicy (o : Opts) : Policy :=
  match o.backtrack with
  | .none => o.policy
  | _ => .none

/-- `isinstance(self.backtrack, BacktrackRobust)` (`pgm/pgm.py` 489). -/
def Opts.isRobust (o : Opts) : Bool :=
  match o.backtrack with
  | .robust _ _ _ => true
  | _ => false

/-! ## The `for` loop of `solve`, for any class -/

/-- `IterationStats` (`pgm/pgm.py` 542-554) without `Time`; the objective tuple is
`(obj, f, g)`. `F`, `Q`, `iterBTrack` are `None` without backtracking. -/
structure Stat where
  iter : ℕ
  obj : ℝ × ℝ × ℝ
  rsdl : ℝ
  F : Option ℝ
  Q : Option ℝ
  iterBT : Option ℕ
  L : ℝ

/-- The methods called from `PGM.solve`, acting on the attributes `V` other than `k` and
`itstat`; each is given the current value of `self.k`. -/
structure Ops (V : Type*) where
  /-- `on_iteration_start` (485-496) -/
  start : ℕ → V → V
  /-- the solution step (333-343): backtracking update, or `xstep` and `ystep` -/
  step : ℕ → V → V
  /-- `rsdl` (696-702) -/
  rsdl : ℕ → V → ℝ
  /-- `iteration_stats` (542-554): k, residual -/
  stat : ℕ → V → ℝ → Stat

/-- The attributes of a solver object during `solve` (`pgm/pgm.py` 257-273). -/
structure St (V : Type*) where
  k : ℕ
  itstat : List Stat
  v : V

variable {V : Type*}

/-- The threshold computed by `compute_residuals` (`pgm/pgm.py` 506-515). -/
noncomputable def tolOf (o : Opts) (k : ℕ) : ℝ := if o.autoStop then o.tau0 / (1 + k) else o.relStopTol

open Classical in
/-- One pass of the loop body for counter value `k` (`pgm/pgm.py` 330-370).  The Boolean
says whether the loop is left.  The callback may change the solver attributes. -/
noncomputable def body (C : Ops V) (o : Opts) (callback : Option (St V → Bool × V)) (k : ℕ)
    (s : St V) : St V × Bool :=
  let s := { s with k := k }
  let s := { s with v := C.start k s.v }
  let s := { s with v := C.step k s.v }
  let frcxd := C.rsdl k s.v
  let s := if o.fastSolve then s else { s with itstat := s.itstat ++ [C.stat k s.v frcxd] }
  let cb := match callback with
    | .none => (false, s.v)
    | some f => f s
  let s := { s with v := cb.2 }
  (s, cb.1 || (!o.fastSolve && decide (frcxd < tolOf o k)))

/-- The `for` loop over a list of counter values with `break` (`pgm/pgm.py` 328). -/
noncomputable def loop (C : Ops V) (o : Opts) (callback : Option (St V → Bool × V)) :
    List ℕ → St V → St V
  | [], s => s
  | k :: ks, s =>
    let b := body C o callback k s
    if b.2 then b.1 else loop C o callback ks b.1

/-- `PGM.solve` (`pgm/pgm.py` 284-382), returning the final state.
`range(self.k, self.k + MaxMainIter)` is `List.range' k n`. -/
noncomputable def solve (C : Ops V) (o : Opts) (callback : Option (St V → Bool × V)) (s : St V) : St V :=
  let s := loop C o callback (List.range' s.k o.maxMainIter) s
  { s with k := s.k + 1 }

/-! ## `PGM` -/

/-- Attributes of a `PGM` object that change during `solve`, other than `k` and `itstat`
(`pgm/pgm.py` 257-273), with the state of the policy object (`pgm/stepsize.py` 104-105) and
of the backtracking object (`pgm/backtrack.py` 157-158).  `Xprv`, `Yprv`, `ZZ`, `objfn`,
`objfnPrev` do not exist before their first assignment; the model gives them arbitrary
values then. -/
structure Vars (E : Type*) where
  X : E
  Y : E
  Xprv : E
  Yprv : E
  ZZ : E
  L : ℝ
  t : ℝ
  objfn : ℝ × ℝ × ℝ
  objfnPrev : ℝ × ℝ × ℝ
  F : Option ℝ
  Q : Option ℝ
  iterBT : Option ℕ
  bbX : E
  bbG : E
  Tk : ℝ
  Zrb : Option E

/-- The methods a class derived from `PGM` supplies (`pgm/pgm.py` 455-481, 558-566,
672-692).  `proxG` is given `self.L`, which every `prox_g` in `pgm/` may read. -/
structure Cls (E : Type*) where
  gradF : E → E
  proxG : ℝ → E → E
  hessF : E → E
  obfnF : E → ℝ
  obfnG : E → ℝ

section PGM
variable {E : Type*} [NormedAddCommGroup E] [InnerProductSpace ℝ E]

open scoped RealInnerProductSpace

/-- `PGM.eval_objfn` (`pgm/pgm.py` 558-566). -/
def Cls.objfn (C : Cls E) (X : E) : ℝ × ℝ × ℝ := (C.obfnF X + C.obfnG X, C.obfnF X, C.obfnG X)

/-- The floating point quotient of two numbers is a number only for a non-zero divisor. -/
noncomputable def npDiv (a b : ℝ) : Option ℝ := open Classical in if b = 0 then .none else some (a / b)

/-- `StepSizePolicyCauchy.update` (`pgm/stepsize.py` 67-82); `none` for NaN or infinite. -/
noncomputable def cauchyUpdate (hess : E → E) (grad : E) : Option ℝ :=
  npDiv ⟪grad, hess grad⟫ ⟪grad, grad⟫

open Classical in
/-- `StepSizePolicyBB.update` (`pgm/stepsize.py` 124-145); `none` for NaN or infinite. -/
noncomputable def bbUpdate (L : ℝ) (x xprv grad gradprv : E) : Option ℝ :=
  let dx := x - xprv
  let dg := grad - gradprv
  (npDiv ⟪dg, dg⟫ ⟪dx, dg⟫).map fun l => if l < 0 then L else l

/-- The step parameter an update yields.  With NaN or an infinite value the run of the
code is meaningless from here on; the model continues with 0 and theorems about runs
with a policy say when a number results. -/
noncomputable def stepL (C : Cls E) (o : Opts) (k : ℕ) (v : Vars E) (grad : E) : ℝ :=
  match o.stepPolicy with
  | .none => v.L
  | .cauchy => if k > 1 then (cauchyUpdate C.hessF grad).getD 0 else v.L
  | .bb => if k > 1 then (bbUpdate v.L v.X v.bbX grad v.bbG).getD 0 else v.L

/-- `store_prev_state` (`pgm/stepsize.py` 109-120, called in `pgm/pgm.py` 405-407). -/
def storeBB (o : Opts) (v : Vars E) (grad : E) : Vars E :=
  match o.stepPolicy with
  | .bb => { v with bbX := v.X, bbG := grad }
  | _ => v

open Classical in
/-- The monotonicity safeguard (`pgm/pgm.py` 413-420). -/
noncomputable def safeguard (C : Cls E) (o : Opts) (k : ℕ) (v : Vars E) : Vars E :=
  if o.monotone ∧ k > 0 then
    let v := { v with ZZ := v.X }
    let v := { v with objfn := C.objfn v.X }
    if v.objfnPrev.1 < v.objfn.1 then { v with X := v.Xprv, objfn := v.objfnPrev } else v
  else v

/-- `PGM.xstep` (`pgm/pgm.py` 393-422) with the gradient given. -/
noncomputable def xstepG (C : Cls E) (o : Opts) (k : ℕ) (grad : E) (v : Vars E) : Vars E :=
  let L := stepL C o k v grad
  let v := { v with L := L }
  let v := storeBB o v grad
  let W := v.Y - (1 / v.L) • grad
  let v := { v with X := C.proxG v.L W }
  safeguard C o k v

/-- `PGM.xstep()` without argument (`pgm/pgm.py` 399-400). -/
noncomputable def xstep (C : Cls E) (o : Opts) (k : ℕ) (v : Vars E) : Vars E :=
  xstepG C o k (C.gradF v.Y) v

/-- `PGM.ystep` (`pgm/pgm.py` 426-441). -/
noncomputable def ystep (o : Opts) (k : ℕ) (v : Vars E) : Vars E :=
  let tprv := v.t
  let v := { v with t := o.momentum.next k v.t }
  if o.monotone ∧ k > 0 then
    { v with Y := v.X + (tprv / v.t) • (v.ZZ - v.X) + ((tprv - 1) / v.t) • (v.X - v.Xprv) }
  else
    { v with Y := v.X + ((tprv - 1) / v.t) • (v.X - v.Xprv) }

/-- `PGM.on_iteration_start` (`pgm/pgm.py` 485-496). -/
noncomputable def onStart (C : Cls E) (o : Opts) (k : ℕ) (v : Vars E) : Vars E :=
  let v := { v with Xprv := v.X }
  let v := if !o.fastSolve || o.isRobust then { v with Yprv := v.Y } else v
  if o.monotone then
    let v := if k = 0 then { v with objfn := C.objfn v.X } else v
    { v with objfnPrev := v.objfn }
  else v

/-- The quadratic model `Q` (`pgm/backtrack.py` 100-103, 191-194). -/
noncomputable def quadQ (C : Cls E) (L : ℝ) (X Y grad : E) : ℝ :=
  C.obfnF Y + ⟪X - Y, grad⟫ + L / 2 * ‖X - Y‖ ^ 2

open Classical in
/-- The `while` loop of `BacktrackStandard.update` (`pgm/backtrack.py` 95-110), with the
number of passes left and the number of passes done. -/
noncomputable def btLoop (C : Cls E) (o : Opts) (k : ℕ) (gammaU : ℝ) (gradY : E) :
    ℕ → ℕ → Vars E → Vars E
  | 0, _, v => v
  | n + 1, it, v =>
    let v := xstepG C o k gradY v
    let f := C.obfnF v.X
    let Q := quadQ C v.L v.X v.Y gradY
    let v := { v with F := some f, Q := some Q, iterBT := some (it + 1) }
    if f ≤ Q then v else btLoop C o k gammaU gradY n (it + 1) { v with L := v.L * gammaU }

/-- `BacktrackStandard.update` (`pgm/backtrack.py` 80-116).  With `maxiter = 0` the code
raises because `f` is unbound; the model then leaves the variables as they are. -/
noncomputable def btStandard (C : Cls E) (o : Opts) (k : ℕ) (gammaU : ℝ) (maxiter : ℕ)
    (v : Vars E) : Vars E :=
  let gradY := C.gradF v.Y
  ystep o k (btLoop C o k gammaU gradY maxiter 0 v)

/-- `t` in `BacktrackRobust.update` (`pgm/backtrack.py` 182-183). -/
noncomputable def robustT (L Tk : ℝ) : ℝ := (1 + Real.sqrt (1 + 4 * L * Tk)) / (2 * L)

open Classical in
/-- The `while` loop of `BacktrackRobust.update` (`pgm/backtrack.py` 180-201); also returns
the last `t`. -/
noncomputable def rbLoop (C : Cls E) (o : Opts) (k : ℕ) (gammaU : ℝ) (Z : E) :
    ℕ → ℕ → ℝ × Vars E → ℝ × Vars E
  | 0, _, v => v
  | n + 1, it, (_, v) =>
    let t := robustT v.L v.Tk
    let T := v.Tk + t
    let v := { v with Y := (1 / T) • (v.Tk • v.Xprv + t • Z) }
    let gradY := C.gradF v.Y
    let v := xstepG C o k gradY v
    let f := C.obfnF v.X
    let Q := quadQ C v.L v.X v.Y gradY
    let v := { v with F := some f, Q := some Q, iterBT := some (it + 1) }
    if f ≤ Q then (t, v) else rbLoop C o k gammaU Z n (it + 1) (t, { v with L := v.L * gammaU })

/-- `BacktrackRobust.update` (`pgm/backtrack.py` 162-208), for `maxiter ≥ 1`. -/
noncomputable def btRobust (C : Cls E) (o : Opts) (k : ℕ) (gammaD gammaU : ℝ) (maxiter : ℕ)
    (v : Vars E) : Vars E :=
  let Z := v.Zrb.getD v.X
  let v := { v with L := v.L * gammaD }
  let r := rbLoop C o k gammaU Z maxiter 0 (0, v)
  let t := r.1
  let v := r.2
  { v with Tk := v.Tk + t, Zrb := some (Z + (t * v.L) • (v.X - v.Y)) }

/-- The solution step of `solve` (`pgm/pgm.py` 333-343). -/
noncomputable def mainStep (C : Cls E) (o : Opts) (k : ℕ) (v : Vars E) : Vars E :=
  match o.backtrack with
  | .none => ystep o k (xstep C o k v)
  | .standard gu n => btStandard C o k gu n v
  | .robust gd gu n => btRobust C o k gd gu n v

/-- `PGM.rsdl` (`pgm/pgm.py` 696-702). -/
noncomputable def rsdl (o : Opts) (k : ℕ) (v : Vars E) : ℝ :=
  if o.monotone ∧ k > 0 then ‖v.X - v.Y‖ else ‖v.X - v.Yprv‖

/-- `PGM.iteration_stats` (`pgm/pgm.py` 542-554). -/
def statOf (C : Cls E) (o : Opts) (k : ℕ) (v : Vars E) (r : ℝ) : Stat :=
  ⟨k, if o.monotone then v.objfn else C.objfn v.X, r, v.F, v.Q, v.iterBT, v.L⟩

/-- Class `PGM` with its abstract methods supplied. -/
noncomputable def ops (C : Cls E) (o : Opts) : Ops (Vars E) where
  start := onStart C o
  step := mainStep C o
  rsdl := rsdl o
  stat := statOf C o

/-- The state after the constructor of a derived class (`pgm/pgm.py` 257-273 and e.g.
`pgm/bpdn.py` 151-156): `Y = X`, `t = 1`, `k = 0`, no statistics. -/
structure Fresh (s : St (Vars E)) : Prop where
  Y : s.v.Y = s.v.X
  t : s.v.t = 1
  k : s.k = 0
  itstat : s.itstat = []
  Tk : s.v.Tk = 0
  Zrb : s.v.Zrb = .none

end PGM

/-! ## `PGMDFT` -/

/-- Attributes of a `PGMDFT` object (`pgm/pgm.py` 755-775, `pgm/cbpdn.py` 215-241), with the state of the
policy object and of the backtracking object as in `Vars`. -/
structure VarsF (E Ef : Type*) where
  X : E
  Xf : Ef
  Yf : Ef
  Xfprv : Ef
  Yfprv : Ef
  ZZf : Ef
  L : ℝ
  t : ℝ
  objfn : ℝ × ℝ × ℝ
  objfnPrev : ℝ × ℝ × ℝ
  F : Option ℝ
  Q : Option ℝ
  iterBT : Option ℕ
  bbX : Ef
  bbG : Ef
  Tk : ℝ
  Zrb : Option Ef

/-- The methods a class derived from `PGMDFT` supplies, with the transform pair.
`evalObj` is `eval_objfn` given X and Xf. -/
structure ClsF (E Ef : Type*) where
  rfftn : E → Ef
  irfftn : Ef → E
  gradF : Ef → Ef
  proxG : ℝ → E → E
  hessF : Ef → Ef
  obfnF : Ef → ℝ
  evalObj : E → Ef → ℝ × ℝ × ℝ
  rsdl : Ef → Ef → ℝ

section PGMDFT
variable {E Ef : Type*} [NormedAddCommGroup Ef] [InnerProductSpace ℝ Ef]

open scoped RealInnerProductSpace

namespace DFT

/-- As `stepL`, for `PGMDFT` (`pgm/pgm.py` 789-794). -/
noncomputable def stepL (C : ClsF E Ef) (o : Opts) (k : ℕ) (v : VarsF E Ef) (grad : Ef) : ℝ :=
  match o.stepPolicy with
  | .none => v.L
  | .cauchy => if k > 1 then (cauchyUpdate C.hessF grad).getD 0 else v.L
  | .bb => if k > 1 then (bbUpdate v.L v.Xf v.bbX grad v.bbG).getD 0 else v.L

/-- `store_prev_state` for `PGMDFT` (`pgm/pgm.py` 792-794). -/
def storeBB (o : Opts) (v : VarsF E Ef) (grad : Ef) : VarsF E Ef :=
  match o.stepPolicy with
  | .bb => { v with bbX := v.Xf, bbG := grad }
  | _ => v

open Classical in
/-- The safeguard of `PGMDFT.xstep` (`pgm/pgm.py` 802-809): `Xf` is reset, `X` is not. -/
noncomputable def safeguard (C : ClsF E Ef) (o : Opts) (k : ℕ) (v : VarsF E Ef) : VarsF E Ef :=
  if o.monotone ∧ k > 0 then
    let v := { v with ZZf := v.Xf }
    let v := { v with objfn := C.evalObj v.X v.Xf }
    if v.objfnPrev.1 < v.objfn.1 then { v with Xf := v.Xfprv, objfn := v.objfnPrev } else v
  else v

/-- `PGMDFT.xstep` (`pgm/pgm.py` 779-811) with the gradient given. -/
noncomputable def xstepG (C : ClsF E Ef) (o : Opts) (k : ℕ) (grad : Ef) (v : VarsF E Ef) : VarsF E Ef :=
  let L := stepL C o k v grad
  let v := { v with L := L }
  let v := storeBB o v grad
  let Vf := v.Yf - (1 / v.L) • grad
  let v := { v with X := C.proxG v.L (C.irfftn Vf) }
  let v := { v with Xf := C.rfftn v.X }
  safeguard C o k v

/-- `PGMDFT.xstep()`. -/
noncomputable def xstep (C : ClsF E Ef) (o : Opts) (k : ℕ) (v : VarsF E Ef) : VarsF E Ef :=
  xstepG C o k (C.gradF v.Yf) v

/-- `PGMDFT.ystep` (`pgm/pgm.py` 815-831). -/
noncomputable def ystep (o : Opts) (k : ℕ) (v : VarsF E Ef) : VarsF E Ef :=
  let tprv := v.t
  let v := { v with t := o.momentum.next k v.t }
  if o.monotone ∧ k > 0 then
    { v with Yf := v.Xf + (tprv / v.t) • (v.ZZf - v.Xf) + ((tprv - 1) / v.t) • (v.Xf - v.Xfprv) }
  else
    { v with Yf := v.Xf + ((tprv - 1) / v.t) • (v.Xf - v.Xfprv) }

/-- `PGMDFT.on_iteration_start` (`pgm/pgm.py` 835-846). -/
noncomputable def onStart (C : ClsF E Ef) (o : Opts) (k : ℕ) (v : VarsF E Ef) : VarsF E Ef :=
  let v := { v with Xfprv := v.Xf }
  let v := if !o.fastSolve || o.isRobust then { v with Yfprv := v.Yf } else v
  if o.monotone then
    let v := if k = 0 then { v with objfn := C.evalObj v.X v.Xf } else v
    { v with objfnPrev := v.objfn }
  else v

/-- The quadratic model for `PGMDFT` (`pgm/backtrack.py` 100-103, `pgm/pgm.py` 850-894). -/
noncomputable def quadQ (C : ClsF E Ef) (L : ℝ) (X Y grad : Ef) : ℝ :=
  C.obfnF Y + ⟪X - Y, grad⟫ + L / 2 * ‖X - Y‖ ^ 2

open Classical in
/-- `BacktrackStandard.update` loop on a `PGMDFT` object (`pgm/backtrack.py` 95-110). -/
noncomputable def btLoop (C : ClsF E Ef) (o : Opts) (k : ℕ) (gammaU : ℝ) (gradY : Ef) :
    ℕ → ℕ → VarsF E Ef → VarsF E Ef
  | 0, _, v => v
  | n + 1, it, v =>
    let v := xstepG C o k gradY v
    let f := C.obfnF v.Xf
    let Q := quadQ C v.L v.Xf v.Yf gradY
    let v := { v with F := some f, Q := some Q, iterBT := some (it + 1) }
    if f ≤ Q then v else btLoop C o k gammaU gradY n (it + 1) { v with L := v.L * gammaU }

open Classical in
/-- `BacktrackRobust.update` loop on a `PGMDFT` object (`pgm/backtrack.py` 180-201, `pgm/pgm.py` 850-894);
also returns the last `t`. -/
noncomputable def rbLoop (C : ClsF E Ef) (o : Opts) (k : ℕ) (gammaU : ℝ) (Z : Ef) :
    ℕ → ℕ → ℝ × VarsF E Ef → ℝ × VarsF E Ef
  | 0, _, v => v
  | n + 1, it, (_, v) =>
    let t := robustT v.L v.Tk
    let T := v.Tk + t
    let v := { v with Yf := (1 / T) • (v.Tk • v.Xfprv + t • Z) }
    let gradY := C.gradF v.Yf
    let v := xstepG C o k gradY v
    let f := C.obfnF v.Xf
    let Q := quadQ C v.L v.Xf v.Yf gradY
    let v := { v with F := some f, Q := some Q, iterBT := some (it + 1) }
    if f ≤ Q then (t, v) else rbLoop C o k gammaU Z n (it + 1) (t, { v with L := v.L * gammaU })

/-- `BacktrackRobust.update` on a `PGMDFT` object (`pgm/backtrack.py` 162-208), for `maxiter ≥ 1`. -/
noncomputable def btRobust (C : ClsF E Ef) (o : Opts) (k : ℕ) (gammaD gammaU : ℝ) (maxiter : ℕ)
    (v : VarsF E Ef) : VarsF E Ef :=
  let Z := v.Zrb.getD v.Xf
  let v := { v with L := v.L * gammaD }
  let r := rbLoop C o k gammaU Z maxiter 0 (0, v)
  let t := r.1
  let v := r.2
  { v with Tk := v.Tk + t, Zrb := some (Z + (t * v.L) • (v.Xf - v.Yf)) }

/-- The solution step (`pgm/pgm.py` 333-343). -/
noncomputable def mainStep (C : ClsF E Ef) (o : Opts) (k : ℕ) (v : VarsF E Ef) : VarsF E Ef :=
  match o.backtrack with
  | .none => ystep o k (xstep C o k v)
  | .standard gu n => ystep o k (btLoop C o k gu (C.gradF v.Yf) n 0 v)
  | .robust gd gu n => btRobust C o k gd gu n v

/-- `iteration_stats` (`pgm/pgm.py` 542-554). -/
def statOf (C : ClsF E Ef) (o : Opts) (k : ℕ) (v : VarsF E Ef) (r : ℝ) : Stat :=
  ⟨k, if o.monotone then v.objfn else C.evalObj v.X v.Xf, r, v.F, v.Q, v.iterBT, v.L⟩

/-- Class `PGMDFT` with its abstract methods supplied; `rsdl` as overridden in
`pgm/cbpdn.py` 314-318. -/
noncomputable def ops (C : ClsF E Ef) (o : Opts) : Ops (VarsF E Ef) where
  start := onStart C o
  step := mainStep C o
  rsdl _ v := C.rsdl v.Xf v.Yfprv
  stat := statOf C o

end DFT
end PGMDFT

end Sporco.Pgm
