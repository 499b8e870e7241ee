import Verif.Admm.Quad
import Verif.Linalg.Solve
import Verif.Prox.Props

/-!
# Model of `sporco/admm/bpdn.py`

`GenericBPDN`, `BPDN`, `BPDNJoint`, `ElasticNet`, `BPDNProjL1` and `MinL1InL2Ball`, with the
dictionary `D` of shape `(N, M)` and the signals `S` of shape `(N, K)`.  Data types and
`LinSolveCheck` (which only fills a statistics field) are not modelled; `L1Weight` is
already broadcast to the shape of the coefficient array.
-/

set_option autoImplicit false

namespace Sporco.Admm.Bpdn

open Matrix Sporco.Linalg Sporco.Prox

variable {N M K : ℕ}

/-- The result `(lu, piv)` of `cho_factor` (`linalg.py` 700-735): the factorised matrix,
`M × M` for tall and `N × N` for wide dictionaries. -/
inductive Fac (N M : ℕ)
  | tall (G : Matrix (Fin M) (Fin M) ℝ)
  | wide (G : Matrix (Fin N) (Fin N) ℝ)

/-- `cho_factor(A, rho)` (`linalg.py` 724-735). -/
noncomputable def choFactor (A : Matrix (Fin N) (Fin M) ℝ) (rho : ℝ) : Fac N M :=
  if M ≤ N then .tall (facTall A rho) else .wide (facWide A rho)

/-- `cho_solve_ATAI(A, rho, b, lu, piv)` (`linalg.py` 767-773) with the factors it is
given.  Factors of the wrong shape make SciPy raise; the value then is irrelevant. -/
noncomputable def choSolveWith (A : Matrix (Fin N) (Fin M) ℝ) (rho : ℝ) (b : Matrix (Fin M) (Fin K) ℝ) :
    Fac N M → Matrix (Fin M) (Fin K) ℝ
  | .tall G => facSolve G b
  | .wide G => (1 / rho) • (b - Aᵀ * facSolve G (A * b))

/-- Attributes set by `setdict` (`bpdn.py` 174-181). -/
structure Attr (N M K : ℕ) where
  D : Matrix (Fin N) (Fin M) ℝ
  DTS : Matrix (Fin M) (Fin K) ℝ
  lu : Fac N M

/-- `GenericBPDN.setdict` (`bpdn.py` 174-181). -/
noncomputable def setdict (S : Matrix (Fin N) (Fin K) ℝ) (rho : ℝ) (D : Matrix (Fin N) (Fin M) ℝ) :
    Attr N M K :=
  { D := D, DTS := Dᵀ * S, lu := choFactor D rho }

/-- `GenericBPDN.rhochange` (`bpdn.py` 261-265). -/
noncomputable def rhochange (rho : ℝ) (h : Attr N M K) : Attr N M K :=
  { h with lu := choFactor h.D rho }

/-- `GenericBPDN.xstep` (`bpdn.py` 192-199). -/
noncomputable def xstep (rho : ℝ) (_X Y U : Arr M K) (h : Attr N M K) : Arr M K × Attr N M K :=
  (arr (choSolveWith h.D rho (h.DTS + rho • (mat Y - mat U)) h.lu), h)

/-- `GenericBPDN.ystep` (`bpdn.py` 219-220) applied to the Y just computed. -/
noncomputable def gystep (nonNeg : Bool) (y : Fin M × Fin K → ℝ) : Fin M × Fin K → ℝ :=
  if nonNeg then clip y else y

/-- `ADMMEqual.obfn_fvar`, `obfn_gvar` (`admm.py` 889-904): the option values decide which
variable the terms of the objective are evaluated at. -/
def fvar {E : Type*} (fEvalX : Bool) (X Y : E) : E := if fEvalX then X else Y
/-- See `fvar`. -/
def gvar {E : Type*} (gEvalY : Bool) (X Y : E) : E := if gEvalY then Y else X

/-- `GenericBPDN.obfn_dfd` (`bpdn.py` 236-241). -/
noncomputable def dfd (h : Attr N M K) (S : Matrix (Fin N) (Fin K) ℝ) (x : Arr M K) : ℝ :=
  1 / 2 * ‖arr (h.D * mat x - S)‖ ^ 2

/-- `BPDN.ystep` (`bpdn.py` 447-454). -/
noncomputable def ystepBPDN (nonNeg : Bool) (lmbda : ℝ) (wl1 : Fin M × Fin K → ℝ) (rho : ℝ)
    (AX _X _Y U : Arr M K) (h : Attr N M K) : Arr M K × Attr N M K :=
  (WithLp.toLp 2 (gystep nonNeg (proxL1Arr (AX + U).ofLp fun i => lmbda / rho * wl1 i)), h)

/-- `BPDN.obfn_reg`, first entry (`bpdn.py` 458-464). -/
noncomputable def regBPDN (lmbda : ℝ) (wl1 : Fin M × Fin K → ℝ) (y : Arr M K) : ℝ :=
  lmbda * normL1 (fun i => wl1 i * y i)

/-- The class `BPDN` (`bpdn.py` 271-464). The third entry of the objective tuple is the
scaled regularisation term. -/
noncomputable def clsBPDN (S : Matrix (Fin N) (Fin K) ℝ) (lmbda : ℝ) (wl1 : Fin M × Fin K → ℝ)
    (nonNeg fEvalX gEvalY : Bool) : Cls (Arr M K) (Arr M K) (Arr M K) (Attr N M K) :=
  Cls.equal xstep (ystepBPDN nonNeg lmbda wl1) rhochange fun X Y h =>
    let f := dfd h S (fvar fEvalX X Y)
    let r := regBPDN lmbda wl1 (gvar gEvalY X Y)
    (f + r, f, r)

/-- `BPDNJoint.ystep` (`bpdn.py` 567-574): `prox_sl1l2` along the last axis, one row of
the coefficient array at a time. -/
noncomputable def ystepJnt (nonNeg : Bool) (lmbda mu : ℝ) (wl1 : Fin M × Fin K → ℝ) (rho : ℝ)
    (AX _X _Y U : Arr M K) (h : Attr N M K) : Arr M K × Attr N M K :=
  (WithLp.toLp 2 (gystep nonNeg fun p =>
    proxSl1l2 (fun j => (AX + U).ofLp (p.1, j)) (fun j => lmbda / rho * wl1 (p.1, j)) (mu / rho) p.2), h)

/-- `BPDNJoint.obfn_reg`, first entry (`bpdn.py` 578-586). -/
noncomputable def regJnt (lmbda mu : ℝ) (wl1 : Fin M × Fin K → ℝ) (y : Arr M K) : ℝ :=
  lmbda * normL1 (fun i => wl1 i * y i) + mu * ∑ i, Real.sqrt (∑ j, y (i, j) ^ 2)

/-- The class `BPDNJoint` (`bpdn.py` 469-586). -/
noncomputable def clsJnt (S : Matrix (Fin N) (Fin K) ℝ) (lmbda mu : ℝ) (wl1 : Fin M × Fin K → ℝ)
    (nonNeg fEvalX gEvalY : Bool) : Cls (Arr M K) (Arr M K) (Arr M K) (Attr N M K) :=
  Cls.equal xstep (ystepJnt nonNeg lmbda mu wl1) rhochange fun X Y h =>
    let f := dfd h S (fvar fEvalX X Y)
    let r := regJnt lmbda mu wl1 (gvar gEvalY X Y)
    (f + r, f, r)

/-- `ElasticNet.setdict` (`bpdn.py` 699-706). -/
noncomputable def setdictEN (S : Matrix (Fin N) (Fin K) ℝ) (mu rho : ℝ) (D : Matrix (Fin N) (Fin M) ℝ) :
    Attr N M K :=
  { D := D, DTS := Dᵀ * S, lu := choFactor D (mu + rho) }

/-- `ElasticNet.rhochange` (`bpdn.py` 740-744). -/
noncomputable def rhochangeEN (mu rho : ℝ) (h : Attr N M K) : Attr N M K :=
  { h with lu := choFactor h.D (mu + rho) }

/-- `ElasticNet.xstep` (`bpdn.py` 710-718). -/
noncomputable def xstepEN (mu rho : ℝ) (_X Y U : Arr M K) (h : Attr N M K) : Arr M K × Attr N M K :=
  (arr (choSolveWith h.D (mu + rho) (h.DTS + rho • (mat Y - mat U)) h.lu), h)

/-- `ElasticNet.obfn_reg`, first entry (`bpdn.py` 729-736). -/
noncomputable def regEN (lmbda mu : ℝ) (wl1 : Fin M × Fin K → ℝ) (y : Arr M K) : ℝ :=
  lmbda * normL1 (fun i => wl1 i * y i) + mu * (1 / 2 * ‖y‖ ^ 2)

/-- The class `ElasticNet` (`bpdn.py` 592-744). -/
noncomputable def clsEN (S : Matrix (Fin N) (Fin K) ℝ) (lmbda mu : ℝ) (wl1 : Fin M × Fin K → ℝ)
    (nonNeg fEvalX gEvalY : Bool) : Cls (Arr M K) (Arr M K) (Arr M K) (Attr N M K) :=
  Cls.equal (xstepEN mu) (ystepBPDN nonNeg lmbda wl1) (rhochangeEN mu) fun X Y h =>
    let f := dfd h S (fvar fEvalX X Y)
    let r := regEN lmbda mu wl1 (gvar gEvalY X Y)
    (f + r, f, r)

/-- `BPDNProjL1.ystep` (`bpdn.py` 895-902): `proj_l1` along axis 0, one column at a time. -/
noncomputable def ystepPrj (nonNeg : Bool) (gamma : ℝ) (_rho : ℝ)
    (AX _X _Y U : Arr M K) (h : Attr N M K) : Arr M K × Attr N M K :=
  (WithLp.toLp 2 (gystep nonNeg fun p => projL1SortAxis (fun i => (AX + U).ofLp (i, p.2)) gamma p.1), h)

/-- The class `BPDNProjL1` (`bpdn.py` 750-914); the third entry of the objective tuple is
the constraint violation. -/
noncomputable def clsPrj (S : Matrix (Fin N) (Fin K) ℝ) (gamma : ℝ)
    (nonNeg fEvalX gEvalY : Bool) : Cls (Arr M K) (Arr M K) (Arr M K) (Attr N M K) :=
  Cls.equal xstep (ystepPrj nonNeg gamma) rhochange fun X Y h =>
    let f := dfd h S (fvar fEvalX X Y)
    let y := gvar gEvalY X Y
    (f, f, ‖(WithLp.toLp 2 fun p => projL1SortAxis (fun i => y (i, p.2)) gamma p.1) - y‖)

/-! ## `MinL1InL2Ball` -/

/-- The auxiliary variable: an `(M + N, K)` array split at row `M` (`bpdn.py` 1060-1063). -/
abbrev Y2 (N M K : ℕ) := WithLp 2 (Arr M K × Arr N K)

/-- Attributes set by `MinL1InL2Ball.setdict` (`bpdn.py` 1091-1097). -/
structure AttrML1 (N M : ℕ) where
  D : Matrix (Fin N) (Fin M) ℝ
  lu : Fac N M

/-- `MinL1InL2Ball.setdict` (`bpdn.py` 1091-1097). -/
noncomputable def setdictML1 (D : Matrix (Fin N) (Fin M) ℝ) : AttrML1 N M :=
  { D := D, lu := choFactor D 1 }

/-- `cnst_A0`/`cnst_A0T` as inherited (`admm.py` 1346-1362): the identity. -/
noncomputable def cnstA0 : Arr M K →L[ℝ] Arr M K := ContinuousLinearMap.id ℝ _

/-- `MinL1InL2Ball.cnst_A1`/`cnst_A1T` (`bpdn.py` 1137-1149). -/
noncomputable def cnstA1 (D : Matrix (Fin N) (Fin M) ℝ) : Arr M K →L[ℝ] Arr N K := dmul D

/-- `MinL1InL2Ball.xstep` (`bpdn.py` 1108-1117). -/
noncomputable def xstepML1 (_rho : ℝ) (_X : Arr M K) (Y U : Y2 N M K) (h : AttrML1 N M) :
    Arr M K × AttrML1 N M :=
  let YU := Y - U
  (arr (choSolveWith h.D 1 (mat (TwoBlock.sep0 YU) + h.Dᵀ * mat (TwoBlock.sep1 YU)) h.lu), h)

/-- `MinL1InL2Ball.ystep` (`bpdn.py` 1121-1133). -/
noncomputable def ystepML1 (S : Arr N K) (epsilon : ℝ) (nonNeg : Bool) (wl1 : Fin M × Fin K → ℝ)
    (rho : ℝ) (AX : Y2 N M K) (_X : Arr M K) (_Y U : Y2 N M K) (h : AttrML1 N M) :
    Y2 N M K × AttrML1 N M :=
  let AXU := AX + U
  let Y0 := proxL1Arr (TwoBlock.sep0 AXU).ofLp fun i => wl1 i / rho
  let Y0 := if nonNeg then clip Y0 else Y0
  let V := TwoBlock.sep1 AXU - S
  let Y1 : Arr N K := S + WithLp.toLp 2 fun p => projL2 (fun i => V (i, p.2)) epsilon p.1
  (TwoBlock.cat (WithLp.toLp 2 Y0) Y1, h)

/-- The class `MinL1InL2Ball` (`bpdn.py` 920-1180) with the dictionary set by `setdict`;
`rsdl_s` and `rsdl_sn` are overridden (1170-1180), `cnst_c0`, `cnst_c1` are zero
(`admm.py` 1326-1342). -/
noncomputable def clsML1 (D : Matrix (Fin N) (Fin M) ℝ) (S : Arr N K) (epsilon : ℝ) (nonNeg : Bool)
    (wl1 : Fin M × Fin K → ℝ) (auxVarObj : Bool) :
    Cls (Arr M K) (Y2 N M K) (Y2 N M K) (AttrML1 N M) where
  xstep := xstepML1
  ystep := ystepML1 S epsilon nonNeg wl1
  relax := TwoBlock.relaxAX cnstA0 (cnstA1 D) 0 0
  ustep := TwoBlock.ustep 0 0
  nrmR AX Y := ‖TwoBlock.rsdlR 0 0 AX Y‖
  nrmS rho _ _ U := ‖rho * ‖TwoBlock.cnstAT cnstA0 (cnstA1 Dᵀ) U‖‖
  rsdlRn := TwoBlock.rsdlRn 0 0
  rsdlSn rho U := rho * ‖U‖
  rhochange _ h := h
  objfn X Y _ :=
    let g0 := if auxVarObj then TwoBlock.sep0 Y else cnstA0 X
    let g1 := if auxVarObj then TwoBlock.sep1 Y else cnstA1 D X
    let obj := normL1 fun i => wl1 i * g0 i
    let V := g1 - S
    (obj, obj, ‖S + (WithLp.toLp 2 fun p => projL2 (fun i => V (i, p.2)) epsilon p.1) - g1‖)

end Sporco.Admm.Bpdn
