import Verif.Conv.CbpdnModel

/-!
# Model of the two-block convolutional solvers of `sporco/admm/cbpdn.py`

`ConvTwoBlockCnstrnt`, `ConvMinL1InL2Ball` and `ConvBPDNMaskDcpl`.  The two blocks of Y are stored
in one array, concatenated along the filter axis, with the channel axis of the first block swapped
into the filter axis for multi-channel dictionaries (`cbpdn.py` 1564-1574, 1681-1715); here they are
a pair of arrays with the norm of the concatenated array.
-/

set_option autoImplicit false
set_option linter.unusedSectionVars false

namespace Sporco.Conv.TB

open Finset ComplexConjugate Sporco.Linalg Sporco.Prox Sporco.Admm Sporco.Conv

variable {d c : ℕ} {N Nd : Fin d → ℕ} [∀ k, NeZero (N k)] {a : Fin d} {K M : Type*} [Fintype K]
  [Fintype M]

/-- The auxiliary variable: block 0 of the shape of the signal, block 1 of the coefficient array
(`cbpdn.py` 1568-1574). -/
abbrev YY (c : ℕ) (K M : Type*) [Fintype K] [Fintype M] {d : ℕ} (N : Fin d → ℕ) [∀ k, NeZero (N k)] :
    Type _ := WithLp 2 (Sig (Fin (c + 1)) K N × Coef K M N)

/-- Attributes computed by `setdict` and `xstep`: the optional cached component and `Xf`
(`cbpdn.py` 1582-1599). -/
structure AttrTB (K M : Type*) {d : ℕ} (N : Fin d → ℕ) [∀ k, NeZero (N k)] (a : Fin d) where
  cc : Option (M → Half N a → ℂ)
  Xf : Spec K M N a

/-- `ConvTwoBlockCnstrnt.setdict` (`cbpdn.py` 1589-1599): the cache is computed for 1.0. -/
noncomputable def setdict (q : COpts) (D : Dict c M Nd) (Xf : Spec K M N a) : AttrTB K M N a :=
  { cc := if q.caches c then some (cacheOf (dictF a D) 1) else none, Xf := Xf }

/-- `ConvTwoBlockCnstrnt.xstep` (`cbpdn.py` 1610-1631).  For `Cd == 1` the sum over channels has one
term. -/
noncomputable def xstep (D : Dict c M Nd) (S : Signal c K N) (_rho : ℝ) (_X : Coef K M N)
    (Y U : YY c K M N) (h : AttrTB K M N a) : Coef K M N × AttrTB K M N a :=
  let YU := Y - U
  let YU0 := TwoBlock.sep0 YU + join S
  let YU1 := TwoBlock.sep1 YU
  let Df : Spec (Fin (c + 1)) M N a := dictF a D
  let b : Spec K M N a := fun k m ξ =>
    ∑ i, conj (Df i m ξ) * rfft N a (part YU0 i k) ξ + rfft N a (part YU1 k m) ξ
  let Xf : Spec K M N a := fun k m ξ =>
    freqSolve (fun i n => Df i n ξ) 1 (fun n => b k n ξ) (h.cc.map fun f n => f n ξ) m
  (join fun k m => irfft N a (Xf k m), { h with Xf := Xf })

/-- `cnst_A0` (`cbpdn.py` 1739-1750).  In `relax_AX` and `obfn_g0var` it is given `self.Xf`, which
is the transform of `self.X` (theorem `xstep_Xf`); here the transform is written out. -/
noncomputable def cnstA0 (a : Fin d) (D : Dict c M Nd) (X : Coef K M N) : Sig (Fin (c + 1)) K N :=
  join fun i k => irfft N a fun ξ =>
    inner (fun m => dictF a D i m ξ) fun m => rfft N a (part X k m) ξ

/-- `cnst_A0T` (`cbpdn.py` 1754-1769). -/
noncomputable def cnstA0T (a : Fin d) (D : Dict c M Nd) (Y0 : Sig (Fin (c + 1)) K N) : Coef K M N :=
  join fun k m => irfft N a fun ξ => ∑ i, conj (dictF a D i m ξ) * rfft N a (part Y0 i k) ξ

/-- `ConvTwoBlockCnstrnt.ystep` (`cbpdn.py` 1647-1660) applied to block 1 of the Y just computed; the
code is the same as in `GenericConvBPDN.ystep`. -/
noncomputable def tystep (q : COpts) (Nd : Fin d → ℕ) (y0 : Sig (Fin (c + 1)) K N)
    (y1 : K × M × Grid N → ℝ) : YY c K M N :=
  TwoBlock.cat y0 (WithLp.toLp 2 (gystep q Nd y1))

/-- The class `ConvTwoBlockCnstrnt` (`cbpdn.py` 1440-1824): `relax_AX` 1664-1677, `cnst_c0` 1773-1778,
`rsdl_s` and `rsdl_sn` 1814-1824; `cnst_A1`, `cnst_A1T`, `cnst_c1` are inherited
(`admm.py` 1336-1382); nothing is recomputed when rho changes. -/
noncomputable def clsTB (a : Fin d) (D : Dict c M Nd) (S : Signal c K N)
    (ys : ℝ → YY c K M N → Coef K M N → YY c K M N → YY c K M N → AttrTB K M N a →
      YY c K M N × AttrTB K M N a)
    (ob : Coef K M N → YY c K M N → AttrTB K M N a → ℝ × ℝ × ℝ) :
    Cls (Coef K M N) (YY c K M N) (YY c K M N) (AttrTB K M N a) where
  xstep := xstep D S
  ystep := ys
  relax := TwoBlock.relaxAX (cnstA0 a D) (fun x => x) (join S) 0
  ustep := TwoBlock.ustep (join S) 0
  nrmR AX Y := ‖TwoBlock.rsdlR (join S) 0 AX Y‖
  nrmS rho _ _ U := ‖rho • TwoBlock.cnstAT (cnstA0T a D) (fun y => y) U‖
  rsdlRn := TwoBlock.rsdlRn (join S) 0
  rsdlSn rho U := rho * ‖U‖
  rhochange _ h := h
  objfn := ob

/-- `obfn_g0var` (`cbpdn.py` 1728-1735); `self.Xf` is used as stored. -/
noncomputable def g0var (a : Fin d) (D : Dict c M Nd) (S : Signal c K N) (auxVarObj : Bool)
    (Y : YY c K M N) (h : AttrTB K M N a) : Sig (Fin (c + 1)) K N :=
  if auxVarObj then TwoBlock.sep0 Y
  else (join fun i k => irfft N a fun ξ => inner (fun m => dictF a D i m ξ) fun m => h.Xf k m ξ) - join S

/-- `obfn_g1var` (`admm.py` 1215-1222). -/
def g1var (auxVarObj : Bool) (X : Coef K M N) (Y : YY c K M N) : Coef K M N :=
  if auxVarObj then TwoBlock.sep1 Y else X - 0

/-! ## `ConvBPDNMaskDcpl` -/

/-- `ConvBPDNMaskDcpl.ystep` (`cbpdn.py` 2239-2251).  `W` is already broadcast. -/
noncomputable def ystepMask (q : COpts) (Nd : Fin d → ℕ) (S W : Signal c K N) (lmbda : ℝ)
    (w : K × M × Grid N → ℝ) (rho : ℝ) (AX : YY c K M N) (_X : Coef K M N) (_Y U : YY c K M N)
    (h : AttrTB K M N a) : YY c K M N × AttrTB K M N a :=
  let AXU := AX + U
  let Y0 := join fun i k p => rho * (part (TwoBlock.sep0 AXU) i k p - S i k p) / (W i k p ^ 2 + rho)
  let Y1 := proxL1Arr (TwoBlock.sep1 AXU).ofLp fun i => lmbda / rho * w i
  (tystep q Nd Y0 Y1, h)

/-- The class `ConvBPDNMaskDcpl` (`cbpdn.py` 2066-2281). -/
noncomputable def clsMask (a : Fin d) (q : COpts) (D : Dict c M Nd) (S W : Signal c K N) (lmbda : ℝ)
    (w : K × M × Grid N → ℝ) (auxVarObj : Bool) :
    Cls (Coef K M N) (YY c K M N) (YY c K M N) (AttrTB K M N a) :=
  clsTB a D S (ystepMask q Nd S W lmbda w) fun X Y h =>
    let Y0 := g0var a D S auxVarObj Y h
    let g0 := ‖(join fun i k p => W i k p * part Y0 i k p : Sig (Fin (c + 1)) K N)‖ ^ 2 / 2
    let g1 := normL1 fun i => w i * g1var auxVarObj X Y i
    (g0 + lmbda * g1, g0, g1)

/-! ## `ConvMinL1InL2Ball` -/

/-- `proj_l2(Y0, epsilon, axis=axisN)`: one projection for each channel and signal. -/
noncomputable def projN (eps : ℝ) (Y0 : Sig (Fin (c + 1)) K N) : Sig (Fin (c + 1)) K N :=
  join fun i k => projL2 (part Y0 i k) eps

/-- `ConvMinL1InL2Ball.ystep` (`cbpdn.py` 2019-2030). -/
noncomputable def ystepBall (q : COpts) (Nd : Fin d → ℕ) (S : Signal c K N) (eps : ℝ)
    (w : K × M × Grid N → ℝ) (rho : ℝ) (AX : YY c K M N) (_X : Coef K M N) (_Y U : YY c K M N)
    (h : AttrTB K M N a) : YY c K M N × AttrTB K M N a :=
  let AXU := AX + U
  let Y0 := projN eps (TwoBlock.sep0 AXU - join S)
  let Y1 := proxL1Arr (TwoBlock.sep1 AXU).ofLp fun i => w i / rho
  (tystep q Nd Y0 Y1, h)

/-- The class `ConvMinL1InL2Ball` (`cbpdn.py` 1830-2060). -/
noncomputable def clsBall (a : Fin d) (q : COpts) (D : Dict c M Nd) (S : Signal c K N) (eps : ℝ)
    (w : K × M × Grid N → ℝ) (auxVarObj : Bool) :
    Cls (Coef K M N) (YY c K M N) (YY c K M N) (AttrTB K M N a) :=
  clsTB a D S (ystepBall q Nd S eps w) fun X Y h =>
    let Y0 := g0var a D S auxVarObj Y h
    let g0 := ‖projN eps Y0 - Y0‖
    let g1 := normL1 fun i => w i * g1var auxVarObj X Y i
    (g1, g1, g0)

end Sporco.Conv.TB
