import Mathlib.Analysis.InnerProductSpace.PiL2
import Mathlib.Analysis.InnerProductSpace.ProdL2
import Mathlib.Data.List.Range

/-!
# Model of `sporco/admm/admm.py`

The variables X, Y and U live in real inner product spaces `E`, `F`, `G` (a NumPy array
with `np.linalg.norm` of the flattened array).  `H` stands for whatever else a derived
class keeps in attributes (caches, warm-start arrays, ...) and for the outside world a
callback may touch.  Timers are modelled separately (`Verif/Timer`); display is not
modelled.
-/

namespace Sporco.Admm

/-- `opt[...]` values read by `ADMM.solve`, `compute_residuals`, `update_rho`
(`admm/admm.py` 148-161) together with the attributes set in `__init__`
(235-254): `Nx`, `Nc`, `rho_tau`, `rho_mu`, `rho_xi`, `rlx`. -/
structure Opts where
  fastSolve : Bool
  maxMainIter : ℕ
  absStopTol : ℝ
  relStopTol : ℝ
  autoRho : Bool
  period : ℕ
  autoScaling : Bool
  stdResiduals : Bool
  Nx : ℕ
  Nc : ℕ
  tau : ℝ
  mu : ℝ
  xi : ℝ
  rlx : ℝ

/-- The tuple returned by `compute_residuals` (`admm/admm.py` 486). -/
structure Rsdl where
  r : ℝ
  s : ℝ
  epri : ℝ
  edua : ℝ

/-- `IterationStats` (`admm/admm.py` 511-517) without the `Time` field and without
`itstat_extra`. -/
structure Stat where
  iter : ℕ
  obj : ℝ × ℝ × ℝ
  rsdl : Rsdl
  rho : ℝ

/-- Attributes of an `ADMM` object that change during `solve`
(`admm/admm.py` 257-275). -/
structure St (E F G H : Type*) where
  X : E
  Y : F
  Yprev : F
  U : G
  AX : G
  AXnr : G
  rho : ℝ
  k : ℕ
  itstat : List Stat
  extra : H

/-- The overridable methods of class `ADMM` (`admm/admm.py` 414-785).  A method that
changes attributes returns the new values; `xstep` and `ystep` may read everything
they read in the code: X, Y, U, rho (and AX), and the class's own attributes. -/
structure Cls (E F G H : Type*) where
  /-- `xstep` (414-420): rho, X, Y, U, extra -/
  xstep : ℝ → E → F → G → H → E × H
  /-- `ystep` (424-430): rho, AX, X, Y, U, extra -/
  ystep : ℝ → G → E → F → G → H → F × H
  /-- `relax_AX` (441-458): rlx, X, Y to (AX, AXnr) -/
  relax : ℝ → E → F → G × G
  /-- `ustep` (434-437): AX, Y, U -/
  ustep : G → F → G → G
  /-- norm of `rsdl_r` (722-734) -/
  nrmR : G → F → ℝ
  /-- norm of `rsdl_s` (738-746): rho, Yprev, Y; the current U is an attribute overriding methods may read -/
  nrmS : ℝ → F → F → G → ℝ
  /-- `rsdl_rn` (750-763) -/
  rsdlRn : G → F → ℝ
  /-- `rsdl_sn` (767-775): rho, U -/
  rsdlSn : ℝ → G → ℝ
  /-- `rhochange` (779-785): new rho -/
  rhochange : ℝ → H → H
  /-- `eval_objfn` (521-529) -/
  objfn : E → F → H → ℝ × ℝ × ℝ

/-! ## The generic methods -/

section Generic
variable {E F G : Type*} [NormedAddCommGroup G] [NormedSpace ℝ G] [NormedAddCommGroup E]
  [NormedSpace ℝ E] [AddCommGroup F]

/-- `ADMM.rsdl_r` (`admm/admm.py` 722-734): `AX + B Y - c`. -/
def rsdlR (B : F → G) (c : G) (AX : G) (Y : F) : G := AX + B Y - c

/-- `ADMM.rsdl_s` (`admm/admm.py` 738-746): `rho A^T B (Y - Yprev)`. -/
def rsdlS (AT : G → E) (B : F → G) (rho : ℝ) (Yprev Y : F) : E := rho • AT (B (Y - Yprev))

/-- `ADMM.rsdl_rn` (`admm/admm.py` 750-763). -/
noncomputable def rsdlRn (B : F → G) (c : G) (AX : G) (Y : F) : ℝ :=
  max (max ‖AX‖ ‖B Y‖) ‖c‖

/-- `ADMM.rsdl_sn` (`admm/admm.py` 767-775). -/
noncomputable def rsdlSn (AT : G → E) (rho : ℝ) (U : G) : ℝ := rho * ‖AT U‖

open Classical in
/-- `ADMM.relax_AX` (`admm/admm.py` 441-458), returning `(AX, AXnr)`. -/
noncomputable def relaxAX (A : E → G) (B : F → G) (c : G) (rlx : ℝ) (X : E) (Y : F) : G × G :=
  let AXnr := A X
  if rlx = 1 then (AXnr, AXnr)
  else (rlx • AXnr - (1 - rlx) • (B Y - c), AXnr)

/-- `ADMM.ustep` (`admm/admm.py` 434-437). -/
def ustep (B : F → G) (c : G) (AX : G) (Y : F) (U : G) : G := U + rsdlR B c AX Y

/-- A class that overrides only `xstep`, `ystep`, `rhochange` and `eval_objfn` and
supplies the constraint `A x + B y = c`. -/
noncomputable def Cls.generic {H : Type*} (A : E → G) (AT : G → E) (B : F → G) (c : G)
    (xstep : ℝ → E → F → G → H → E × H) (ystep : ℝ → G → E → F → G → H → F × H)
    (rhochange : ℝ → H → H) (objfn : E → F → H → ℝ × ℝ × ℝ) : Cls E F G H where
  xstep := xstep
  ystep := ystep
  relax := relaxAX A B c
  ustep := Admm.ustep B c
  nrmR AX Y := ‖rsdlR B c AX Y‖
  nrmS rho Yprev Y _ := ‖rsdlS AT B rho Yprev Y‖
  rsdlRn := Admm.rsdlRn B c
  rsdlSn := Admm.rsdlSn AT
  rhochange := rhochange
  objfn := objfn

end Generic

/-! ## `solve` -/

section Solve
variable {E F G H : Type*}

open Classical in
/-- `ADMM.compute_residuals` (`admm/admm.py` 462-486). -/
noncomputable def computeResiduals (C : Cls E F G H) (o : Opts) (s : St E F G H) : Rsdl :=
  if o.stdResiduals then
    { r := C.nrmR s.AXnr s.Y
      s := C.nrmS s.rho s.Yprev s.Y s.U
      epri := Real.sqrt o.Nc * o.absStopTol + C.rsdlRn s.AXnr s.Y * o.relStopTol
      edua := Real.sqrt o.Nx * o.absStopTol + C.rsdlSn s.rho s.U * o.relStopTol }
  else
    let rn := C.rsdlRn s.AXnr s.Y
    let rn := if rn = 0 then 1 else rn
    let sn := C.rsdlSn s.rho s.U
    let sn := if sn = 0 then 1 else sn
    { r := C.nrmR s.AXnr s.Y / rn
      s := C.nrmS s.rho s.Yprev s.Y s.U / sn
      epri := Real.sqrt o.Nc * o.absStopTol / rn + o.relStopTol
      edua := Real.sqrt o.Nx * o.absStopTol / sn + o.relStopTol }

/-- `np.mod` on non-negative integers; NumPy returns 0 for a zero modulus. -/
def npMod (a b : ℕ) : ℕ := if b = 0 then 0 else a % b

open Classical in
/-- The residual ratio under the square root in `update_rho` (`admm/admm.py` 561-562). -/
noncomputable def rsdlRatio (o : Opts) (r s : ℝ) : ℝ :=
  if r > s * o.xi then r / (s * o.xi) else (s * o.xi) / r

open Classical in
/-- The multiplier `rhomlt` in `update_rho` (`admm/admm.py` 557-566). -/
noncomputable def rhomlt (o : Opts) (r s : ℝ) : ℝ :=
  if o.autoScaling then
    if s = 0 ∨ r = 0 then o.tau
    else
      let m := Real.sqrt (rsdlRatio o r s)
      if m > o.tau then o.tau else m
  else o.tau

open Classical in
/-- The factor `rsf` in `update_rho` (`admm/admm.py` 567-571). -/
noncomputable def rsf (o : Opts) (r s : ℝ) : ℝ :=
  if r > o.xi * o.mu * s then rhomlt o r s
  else if s > (o.mu / o.xi) * r then 1 / rhomlt o r s
  else 1

open Classical in
/-- `ADMM.update_rho` (`admm/admm.py` 549-575). -/
noncomputable def updateRho [AddCommGroup G] [Module ℝ G] (C : Cls E F G H) (o : Opts) (k : ℕ)
    (r s : ℝ) (st : St E F G H) : St E F G H :=
  if o.autoRho = true ∧ k ≠ 0 ∧ npMod (k + 1) o.period = 0 then
    let f := rsf o r s
    let st := { st with rho := st.rho * f, U := f⁻¹ • st.U }
    if f ≠ 1 then { st with extra := C.rhochange st.rho st.extra } else st
  else st

/-- X, relaxation, Y and U updates of one iteration, with the copy of Y
(`admm/admm.py` 333-346). -/
noncomputable def steps (C : Cls E F G H) (o : Opts) (s : St E F G H) : St E F G H :=
  let s := { s with Yprev := s.Y }
  let xh := C.xstep s.rho s.X s.Y s.U s.extra
  let s := { s with X := xh.1, extra := xh.2 }
  let a := C.relax o.rlx s.X s.Y
  let s := { s with AX := a.1, AXnr := a.2 }
  let yh := C.ystep s.rho s.AX s.X s.Y s.U s.extra
  let s := { s with Y := yh.1, extra := yh.2 }
  { s with U := C.ustep s.AX s.Y s.U }

/-- Whether residuals are computed (`admm/admm.py` 350, 365, 375). -/
def Opts.withRsdl (o : Opts) : Bool := o.autoRho || !o.fastSolve

open Classical in
/-- One pass of the loop body for counter value `k` (`admm/admm.py` 331-377).  The
Boolean says whether the loop is left.  The callback may change `extra`. -/
noncomputable def body [AddCommGroup G] [Module ℝ G] (C : Cls E F G H) (o : Opts)
    (callback : Option (St E F G H → Bool × H)) (k : ℕ) (s : St E F G H) :
    St E F G H × Bool :=
  let s := { s with k := k }
  let s := steps C o s
  let q := computeResiduals C o s
  let s := if o.fastSolve then s else
    { s with itstat := s.itstat ++ [⟨k, C.objfn s.X s.Y s.extra, q, s.rho⟩] }
  let s := if o.withRsdl then updateRho C o k q.r q.s s else s
  let cb := match callback with
    | none => (false, s.extra)
    | some f => f s
  let s := { s with extra := cb.2 }
  (s, cb.1 || (o.withRsdl && decide (q.r < q.epri ∧ q.s < q.edua)))

/-- The `for` loop over a list of counter values with `break`. -/
noncomputable def loop [AddCommGroup G] [Module ℝ G] (C : Cls E F G H) (o : Opts)
    (callback : Option (St E F G H → Bool × H)) : List ℕ → St E F G H → St E F G H
  | [], s => s
  | k :: ks, s =>
    let b := body C o callback k s
    if b.2 then b.1 else loop C o callback ks b.1

/-- `ADMM.solve` (`admm/admm.py` 293-389), returning the final state.
`range(self.k, self.k + MaxMainIter)` is `List.range' k n`. -/
noncomputable def solve [AddCommGroup G] [Module ℝ G] (C : Cls E F G H) (o : Opts)
    (callback : Option (St E F G H → Bool × H)) (s : St E F G H) : St E F G H :=
  let s := loop C o callback (List.range' s.k o.maxMainIter) s
  { s with k := s.k + 1 }

end Solve

/-! ## `ADMMEqual` -/

section Equal
variable {E : Type*} [NormedAddCommGroup E] [NormedSpace ℝ E]

namespace Equal

open Classical in
/-- `ADMMEqual.relax_AX` (`admm/admm.py` 877-885). -/
noncomputable def relaxAX (rlx : ℝ) (X Y : E) : E × E :=
  if rlx = 1 then (X, X) else (rlx • X + (1 - rlx) • Y, X)

/-- `ADMMEqual.rsdl_r` (`admm/admm.py` 959-962). -/
def rsdlR (AX Y : E) : E := AX - Y

/-- `ADMMEqual.rsdl_s` (`admm/admm.py` 966-969). -/
def rsdlS (rho : ℝ) (Yprev Y : E) : E := rho • (Yprev - Y)

/-- `ADMMEqual.rsdl_rn` (`admm/admm.py` 973-976). -/
noncomputable def rsdlRn (AX Y : E) : ℝ := max ‖AX‖ ‖Y‖

/-- `ADMMEqual.rsdl_sn` (`admm/admm.py` 980-983). -/
noncomputable def rsdlSn (rho : ℝ) (U : E) : ℝ := rho * ‖U‖

/-- `ustep` as inherited, with the overridden `rsdl_r` (`admm/admm.py` 434-437). -/
def ustep (AX Y U : E) : E := U + rsdlR AX Y

/-- `getmin` (`admm/admm.py` 870-873). -/
def getmin {G H : Type*} (returnX : Bool) (s : St E E G H) : E := if returnX then s.X else s.Y

/-- `eval_objfn` with `obfn_fvar`, `obfn_gvar` (`admm/admm.py` 889-915). -/
def objfn (f g : E → ℝ) (fEvalX gEvalY : Bool) (X Y : E) : ℝ × ℝ × ℝ :=
  let fval := f (if fEvalX then X else Y)
  let gval := g (if gEvalY then Y else X)
  (fval + gval, fval, gval)

end Equal

/-- The class `ADMMEqual` (`admm/admm.py` 791-983) with its abstract methods supplied. -/
noncomputable def Cls.equal {H : Type*}
    (xstep : ℝ → E → E → E → H → E × H) (ystep : ℝ → E → E → E → E → H → E × H)
    (rhochange : ℝ → H → H) (objfn : E → E → H → ℝ × ℝ × ℝ) : Cls E E E H where
  xstep := xstep
  ystep := ystep
  relax := Equal.relaxAX
  ustep := Equal.ustep
  nrmR AX Y := ‖Equal.rsdlR AX Y‖
  nrmS rho Yprev Y _ := ‖Equal.rsdlS rho Yprev Y‖
  rsdlRn := Equal.rsdlRn
  rsdlSn := Equal.rsdlSn
  rhochange := rhochange
  objfn := objfn

end Equal

/-! ## `ADMMTwoBlockCnstrnt` -/

section TwoBlock
variable {E F₀ F₁ : Type*} [NormedAddCommGroup F₀] [NormedAddCommGroup F₁] [NormedAddCommGroup E]
  [InnerProductSpace ℝ F₀] [InnerProductSpace ℝ F₁] [InnerProductSpace ℝ E]

namespace TwoBlock

/-- `block_cat` (`admm/admm.py` 1156-1161).  The concatenation along `blkaxis` of two
arrays is the pair, with the l2 norm of the concatenated array. -/
def cat (y0 : F₀) (y1 : F₁) : WithLp 2 (F₀ × F₁) := WithLp.toLp 2 (y0, y1)

/-- `block_sep0` (`admm/admm.py` 1128-1133). -/
def sep0 (Y : WithLp 2 (F₀ × F₁)) : F₀ := Y.fst

/-- `block_sep1` (`admm/admm.py` 1137-1142). -/
def sep1 (Y : WithLp 2 (F₀ × F₁)) : F₁ := Y.snd

/-- `cnst_A` (`admm/admm.py` 1280-1285). -/
def cnstA (A0 : E → F₀) (A1 : E → F₁) (X : E) : WithLp 2 (F₀ × F₁) := cat (A0 X) (A1 X)

/-- `cnst_AT` (`admm/admm.py` 1289-1300). -/
def cnstAT (A0T : F₀ → E) (A1T : F₁ → E) (Y : WithLp 2 (F₀ × F₁)) : E :=
  A0T (sep0 Y) + A1T (sep1 Y)

open Classical in
/-- `relax_AX` (`admm/admm.py` 1165-1179). -/
noncomputable def relaxAX (A0 : E → F₀) (A1 : E → F₁) (c0 : F₀) (c1 : F₁) (rlx : ℝ) (X : E)
    (Y : WithLp 2 (F₀ × F₁)) : WithLp 2 (F₀ × F₁) × WithLp 2 (F₀ × F₁) :=
  let AXnr := cnstA A0 A1 X
  if rlx = 1 then (AXnr, AXnr)
  else (rlx • AXnr + (1 - rlx) • cat (sep0 Y + c0) (sep1 Y + c1), AXnr)

/-- `rsdl_r` (`admm/admm.py` 1386-1399). -/
def rsdlR (c0 : F₀) (c1 : F₁) (AX Y : WithLp 2 (F₀ × F₁)) : WithLp 2 (F₀ × F₁) :=
  AX - cat (sep0 Y + c0) (sep1 Y + c1)

/-- `rsdl_s` (`admm/admm.py` 1403-1411). -/
def rsdlS (A0T : F₀ → E) (A1T : F₁ → E) (rho : ℝ) (Yprev Y : WithLp 2 (F₀ × F₁)) : E :=
  rho • cnstAT A0T A1T (Yprev - Y)

/-- `rsdl_rn` (`admm/admm.py` 1415-1426). -/
noncomputable def rsdlRn (c0 : F₀) (c1 : F₁) (AX Y : WithLp 2 (F₀ × F₁)) : ℝ :=
  max (max ‖AX‖ ‖Y‖) (Real.sqrt (‖c0‖ ^ 2 + ‖c1‖ ^ 2))

/-- `rsdl_sn` (`admm/admm.py` 1430-1438). -/
noncomputable def rsdlSn (A0T : F₀ → E) (A1T : F₁ → E) (rho : ℝ) (U : WithLp 2 (F₀ × F₁)) : ℝ :=
  rho * ‖cnstAT A0T A1T U‖

/-- `ustep` as inherited (`admm/admm.py` 434-437). -/
def ustep (c0 : F₀) (c1 : F₁) (AX Y U : WithLp 2 (F₀ × F₁)) : WithLp 2 (F₀ × F₁) :=
  U + rsdlR c0 c1 AX Y

/-- `eval_objfn` with `obfn_g0var`, `obfn_g1var` (`admm/admm.py` 1204-1223, 1267-1276);
the tuple `(obj, f, g0 + g1)`, with the last two code entries added. -/
def objfn (f : E → ℝ) (g0 : F₀ → ℝ) (g1 : F₁ → ℝ) (A0 : E → F₀) (A1 : E → F₁) (c0 : F₀) (c1 : F₁)
    (auxVarObj : Bool) (X : E) (Y : WithLp 2 (F₀ × F₁)) : ℝ × ℝ × ℝ × ℝ :=
  let fval := f X
  let g0val := g0 (if auxVarObj then sep0 Y else A0 X - c0)
  let g1val := g1 (if auxVarObj then sep1 Y else A1 X - c1)
  (fval + g0val + g1val, fval, g0val, g1val)

end TwoBlock
end TwoBlock

/-! ## `ADMMConsensus` and `WeightedADMMConsensus` -/

section Consensus
variable {F : Type*} [NormedAddCommGroup F] [InnerProductSpace ℝ F] {Nb : ℕ}

/-- Arrays of shape `yshape + (Nb,)`: one block per index of the last axis. -/
abbrev Blocks (F : Type*) (Nb : ℕ) := PiLp 2 (fun _ : Fin Nb => F)

namespace Consensus

/-- `Y[..., np.newaxis]` broadcast along the block axis. -/
def rep (Nb : ℕ) (Y : F) : Blocks F Nb := WithLp.toLp 2 (fun _ => Y)

/-- The mean over the last axis in `ystep` (`admm/admm.py` 1590). -/
noncomputable def mean (V : Blocks F Nb) : F := (Nb : ℝ)⁻¹ • ∑ i, V i

/-- `ystep` (`admm/admm.py` 1585-1591). -/
noncomputable def ystep (proxg : F → ℝ → F) (rho : ℝ) (AX U : Blocks F Nb) : F :=
  proxg (mean (AX + U)) (Nb * rho)

open Classical in
/-- `relax_AX` (`admm/admm.py` 1608-1616). -/
noncomputable def relaxAX (rlx : ℝ) (X : Blocks F Nb) (Y : F) : Blocks F Nb × Blocks F Nb :=
  if rlx = 1 then (X, X) else (rlx • X + (1 - rlx) • rep Nb Y, X)

/-- `rsdl_r` (`admm/admm.py` 1673-1676). -/
def rsdlR (AX : Blocks F Nb) (Y : F) : Blocks F Nb := AX - rep Nb Y

/-- `rsdl_s` (`admm/admm.py` 1680-1689). -/
noncomputable def rsdlS (Nb : ℕ) (rho : ℝ) (Yprev Y : F) : F :=
  (Real.sqrt Nb * rho) • (Yprev - Y)

/-- `rsdl_rn` (`admm/admm.py` 1693-1700). -/
noncomputable def rsdlRn (AX : Blocks F Nb) (Y : F) : ℝ := max ‖AX‖ (Real.sqrt Nb * ‖Y‖)

/-- `rsdl_sn` (`admm/admm.py` 1704-1707). -/
noncomputable def rsdlSn (rho : ℝ) (U : Blocks F Nb) : ℝ := rho * ‖U‖

/-- `ustep` as inherited (`admm/admm.py` 434-437). -/
def ustep (AX : Blocks F Nb) (Y : F) (U : Blocks F Nb) : Blocks F Nb := U + rsdlR AX Y

end Consensus

namespace WConsensus

/-- `np.average(., axis=-1, weights=alpha)` in `ystep` (`admm/admm.py` 1800). -/
noncomputable def wmean (alpha : Fin Nb → ℝ) (V : Blocks F Nb) : F :=
  (∑ i, alpha i)⁻¹ • ∑ i, alpha i • V i

/-- `ystep` (`admm/admm.py` 1794-1801). -/
noncomputable def ystep (alpha : Fin Nb → ℝ) (proxg : F → ℝ → F) (rho : ℝ) (AX U : Blocks F Nb) : F :=
  proxg (wmean alpha (AX + U)) ((∑ i, alpha i) * rho)

/-- `ustep` (`admm/admm.py` 1805-1808). -/
def ustep (AX : Blocks F Nb) (Y : F) (U : Blocks F Nb) : Blocks F Nb :=
  U + (AX - Consensus.rep Nb Y)

/-- Multiplication by the reshaped weights `np.sqrt(self.alphaxd)`. -/
noncomputable def sqrtScale (alpha : Fin Nb → ℝ) (V : Blocks F Nb) : Blocks F Nb :=
  WithLp.toLp 2 (fun i => Real.sqrt (alpha i) • V i)

/-- `rsdl_r` (`admm/admm.py` 1834-1837). -/
noncomputable def rsdlR (alpha : Fin Nb → ℝ) (AX : Blocks F Nb) (Y : F) : Blocks F Nb :=
  sqrtScale alpha (AX - Consensus.rep Nb Y)

/-- `rsdl_s` (`admm/admm.py` 1841-1851). -/
noncomputable def rsdlS (alpha : Fin Nb → ℝ) (rho : ℝ) (Yprev Y : F) : F :=
  (rho * Real.sqrt (∑ i, alpha i ^ 2)) • (Yprev - Y)

/-- `rsdl_rn` (`admm/admm.py` 1855-1865). -/
noncomputable def rsdlRn (alpha : Fin Nb → ℝ) (AX : Blocks F Nb) (Y : F) : ℝ :=
  max ‖sqrtScale alpha AX‖ (Real.sqrt (∑ i, alpha i ^ 2) * ‖Y‖)

/-- `rsdl_sn` (`admm/admm.py` 1869-1872). -/
noncomputable def rsdlSn (rho : ℝ) (U : Blocks F Nb) : ℝ := rho * ‖U‖

end WConsensus
end Consensus

end Sporco.Admm
