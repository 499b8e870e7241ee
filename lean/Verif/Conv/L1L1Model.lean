import Verif.Conv.GradModel
import Verif.Conv.TwoBlockModel

/-!
# Model of `ConvL1L1Grd` (`sporco/admm/cbpdn.py` 2488-2773)

The conventions are those of `Conv/TwoBlockModel.lean` and `Conv/GradModel.lean`.
-/

set_option autoImplicit false
set_option linter.unusedSectionVars false

namespace Sporco.Conv.LG

open Finset ComplexConjugate Sporco.Linalg Sporco.Prox Sporco.Admm Sporco.Conv Sporco.Conv.TB Sporco.Conv.Grd

variable {d c : ℕ} {N Nd : Fin d → ℕ} [∀ k, NeZero (N k)] {a : Fin d} {K M : Type*} [Fintype K]
  [Fintype M]

/-- `(self.mu / self.rho) * self.GHGf + 1.0` (`cbpdn.py` 2670, 2692, 2696, 2773). -/
noncomputable def diagL (a : Fin d) (mu : ℝ) (wg : M → ℝ) (rho : ℝ) (m : M) (ξ : Half N a) : ℝ :=
  mu / rho * ghgW a wg m ξ + 1

/-- The cached component after `setdict` (`cbpdn.py` 2661-2672) or `rhochange` (2767-2773). -/
noncomputable def cacheL (q : COpts) (D : Dict c M Nd) (mu : ℝ) (wg : M → ℝ) (rho : ℝ) :
    Option (M → Half N a → ℂ) :=
  if q.caches c then some (cacheD (dictF a D) (diagL a mu wg rho)) else none

/-- `ConvL1L1Grd.setdict` (`cbpdn.py` 2661-2672). `self.mu` and `self.GHGf` may not be set; then reading them
raises `AttributeError` (`none`). -/
noncomputable def setdict (q : COpts) (D : Dict c M Nd) (attr : Option (ℝ × (M → ℝ))) (rho : ℝ)
    (Xf : Spec K M N a) : Option (AttrTB K M N a) :=
  if q.caches c then attr.map fun p => { cc := cacheL q D p.1 p.2 rho, Xf := Xf }
  else some { cc := none, Xf := Xf }

/-- `ConvL1L1Grd.__init__` (`cbpdn.py` 2605-2657): the constructor of `ConvTwoBlockCnstrnt` calls `setdict`
(1585) before `mu` and `GHGf` are set. -/
noncomputable def init (q : COpts) (D : Dict c M Nd) (mu : ℝ) (wg : M → ℝ) (rho : ℝ) (Xf : Spec K M N a) :
    Option (AttrTB K M N a × (ℝ × (M → ℝ))) :=
  (setdict q D none rho Xf).map fun h => (h, (mu, wg))

/-- `ConvL1L1Grd.rhochange` (`cbpdn.py` 2767-2773). -/
noncomputable def rhochange (q : COpts) (D : Dict c M Nd) (mu : ℝ) (wg : M → ℝ) (rho : ℝ)
    (h : AttrTB K M N a) : AttrTB K M N a :=
  if q.caches c then { h with cc := some (cacheD (dictF a D) (diagL a mu wg rho)) } else h

/-- `ConvL1L1Grd.xstep` (`cbpdn.py` 2676-2699); the linear solver check is not modelled. -/
noncomputable def xstep (D : Dict c M Nd) (S : Signal c K N) (mu : ℝ) (wg : M → ℝ) (rho : ℝ) (_X : Coef K M N)
    (Y U : YY c K M N) (h : AttrTB K M N a) : Coef K M N × AttrTB K M N a :=
  let YU := Y - U
  let YU0 := TwoBlock.sep0 YU + join S
  let YU1 := TwoBlock.sep1 YU
  let Df : Spec (Fin (c + 1)) M N a := dictF a D
  let b : Spec K M N a := fun k m ξ =>
    ∑ i, conj (Df i m ξ) * rfft N a (part YU0 i k) ξ + rfft N a (part YU1 k m) ξ
  let Xf : Spec K M N a := fun k m ξ =>
    freqSolveD (fun i n => Df i n ξ) (fun n => (diagL a mu wg rho n ξ : ℂ)) (fun n => b k n ξ)
      (h.cc.map fun f n => f n ξ) m
  (join fun k m => irfft N a (Xf k m), { h with Xf := Xf })

/-- `ConvL1L1Grd.ystep` (`cbpdn.py` 2716-2726).  `W` is already broadcast. -/
noncomputable def ystep (q : COpts) (Nd : Fin d → ℕ) (S W : Signal c K N) (lmbda : ℝ)
    (w : K × M × Grid N → ℝ) (rho : ℝ) (AX : YY c K M N) (_X : Coef K M N) (_Y U : YY c K M N)
    (h : AttrTB K M N a) : YY c K M N × AttrTB K M N a :=
  let AXU := AX + U
  let Y0 : Sig (Fin (c + 1)) K N := WithLp.toLp 2
    (proxL1Arr (TwoBlock.sep0 AXU - join S).ofLp fun i => 1 / rho * W i.1 i.2.1 i.2.2)
  let Y1 := proxL1Arr (TwoBlock.sep1 AXU).ofLp fun i => lmbda / rho * w i
  (tystep q Nd Y0 Y1, h)

/-- `ConvL1L1Grd.eval_objfn` with `obfn_g0` and the inherited `obfn_g1` (`cbpdn.py` 2730-2749, 2274-2279):
`ObjFun`, `DFid`, `RegL1`, `RegGrad`. The gradient term is evaluated at `self.Xf` in all cases. -/
noncomputable def evalObjfn (a : Fin d) (D : Dict c M Nd) (S W : Signal c K N) (lmbda mu : ℝ)
    (w : K × M × Grid N → ℝ) (wg : M → ℝ) (auxVarObj : Bool) (X : Coef K M N) (Y : YY c K M N)
    (h : AttrTB K M N a) : ℝ × ℝ × ℝ × ℝ :=
  let Y0 := g0var a D S auxVarObj Y h
  let g0v := ∑ i, ∑ k, ∑ p, |W i k p * part Y0 i k p|
  let g1v := normL1 fun i => w i * g1var auxVarObj X Y i
  let rgr := regGrad wg h.Xf
  (g0v + lmbda * g1v + mu * rgr, g0v, g1v, rgr)

/-- The class `ConvL1L1Grd` (`cbpdn.py` 2488-2773), with `rsdl_s` and `rsdl_sn` (2753-2763).  The generic
code uses the first three recorded values. -/
noncomputable def clsL1L1 (a : Fin d) (q : COpts) (D : Dict c M Nd) (S W : Signal c K N) (lmbda mu : ℝ)
    (w : K × M × Grid N → ℝ) (wg : M → ℝ) (auxVarObj : Bool) :
    Cls (Coef K M N) (YY c K M N) (YY c K M N) (AttrTB K M N a) where
  xstep := xstep D S mu wg
  ystep := ystep q Nd S W lmbda w
  relax := TwoBlock.relaxAX (cnstA0 a D) (fun x => x) (join S) 0
  ustep := TwoBlock.ustep (join S) 0
  nrmR AX Y := ‖TwoBlock.rsdlR (join S) 0 AX Y‖
  nrmS rho Yprev Y _ := ‖rho • TwoBlock.cnstAT (cnstA0T a D) (fun y => y) (Yprev - Y)‖
  rsdlRn := TwoBlock.rsdlRn (join S) 0
  rsdlSn rho U := rho * ‖TwoBlock.cnstAT (cnstA0T a D) (fun y => y) U‖
  rhochange := rhochange q D mu wg
  objfn X Y h :=
    let v := evalObjfn a D S W lmbda mu w wg auxVarObj X Y h
    (v.1, v.2.1, v.2.2.1)

end Sporco.Conv.LG
