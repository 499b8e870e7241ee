import Verif.Conv.CbpdnModel
import Verif.Linalg.SMDiag
import Verif.Tv.DeconvModel
import Mathlib.Analysis.SpecialFunctions.Pow.Complex

/-!
# Model of `ConvBPDNGradReg` (`sporco/admm/cbpdn.py` 992-1214)

The conventions are those of `Conv/CbpdnModel.lean`.  `GradWeight` is an array with one entry for every
filter; a scalar is a constant array.
-/

set_option autoImplicit false
set_option linter.unusedSectionVars false

namespace Sporco.Conv.Grd

open Finset ComplexConjugate Sporco.Linalg Sporco.Prox Sporco.Admm Sporco.Conv

variable {d c : ℕ} {N Nd : Fin d → ℕ} [∀ k, NeZero (N k)] {a : Fin d} {K M : Type*} [Fintype K]
  [Fintype M]

/-- `GHGf` as returned by `gradient_filters` (`signal.py` 228-240), over all spatial axes. -/
noncomputable def ghg (a : Fin d) (ξ : Half N a) : ℝ :=
  let Gf := fun k => rfft N a (pad N (Tv.Dec.gradG k))
  (∑ k, conj (Gf k ξ) * Gf k ξ).re

/-- `self.GHGf` (`cbpdn.py` 1139-1147). -/
noncomputable def ghgW (a : Fin d) (wg : M → ℝ) (m : M) (ξ : Half N a) : ℝ := wg m * ghg a ξ

/-- `self.mu*self.GHGf + self.rho` (`cbpdn.py` 1166, 1182, 1185). -/
noncomputable def diagG (a : Fin d) (mu : ℝ) (wg : M → ℝ) (rho : ℝ) (m : M) (ξ : Half N a) : ℝ :=
  mu * ghgW a wg m ξ + rho

/-- `sl.solvedbd_sm_c(self.Df, np.conj(self.Df), d, self.cri.axisM)` (`cbpdn.py` 1165-1167). -/
noncomputable def cacheD (Df : Spec (Fin (c + 1)) M N a) (dg : M → Half N a → ℝ) : M → Half N a → ℂ :=
  fun m ξ => solvedbdSmC (fun n => Df 0 n ξ) (fun n => conj (Df 0 n ξ)) (fun n => (dg n ξ : ℂ)) m

/-- The linear solve at one frequency (`cbpdn.py` 1181-1187, 2690-2697): `solvedbd_sm` for `Cd == 1`,
otherwise `solvemdbi_ism`. -/
noncomputable def freqSolveD (df : Fin (c + 1) → M → ℂ) (dg b : M → ℂ) (cc : Option (M → ℂ)) : M → ℂ :=
  if c = 0 then solvedbdSm (df 0) dg b cc
  else solvemdbiIsmD (df 0) (List.ofFn fun i : Fin c => df i.succ) dg b

/-- `ConvBPDNGradReg.setdict` (`cbpdn.py` 1154-1169). -/
noncomputable def setdict (q : COpts) (S : Signal c K N) (mu : ℝ) (wg : M → ℝ) (rho : ℝ) (D : Dict c M Nd)
    (Xf : Spec K M N a) : Attr c K M Nd N a :=
  let Df := dictF a D
  { D := D, Df := Df, DSf := dsF Df S, Xf := Xf
    cc := if q.caches c then some (cacheD Df (diagG a mu wg rho)) else none }

/-- `ConvBPDNGradReg.xstep` (`cbpdn.py` 1173-1189). -/
noncomputable def xstep (mu : ℝ) (wg : M → ℝ) (rho : ℝ) (_X Y U : Coef K M N) (h : Attr c K M Nd N a) :
    Coef K M N × Attr c K M Nd N a :=
  let YU := Y - U
  let Xf : Spec K M N a := fun k m ξ =>
    freqSolveD (fun i n => h.Df i n ξ) (fun n => (diagG a mu wg rho n ξ : ℂ))
      (fun n => h.DSf k n ξ + rho * rfft N a (part YU k n) ξ) (h.cc.map fun f n => f n ξ) m
  (join fun k m => irfft N a (Xf k m), { h with Xf := Xf })

/-- `rgr` in `obfn_reg` (`cbpdn.py` 1212-1213) and in `ConvL1L1Grd.eval_objfn` (2737-2738); `np.sqrt` of
complex numbers is the principal square root. -/
noncomputable def regGrad (wg : M → ℝ) (f : Spec K M N a) : ℝ :=
  rfl2norm2 N a (fun p : (K × M) × Half N a =>
    ((ghgW a wg p.1.2 p.2 : ℂ) * conj (f p.1.1 p.1.2 p.2) * f p.1.1 p.1.2 p.2) ^ (1 / 2 : ℂ)) / 2

/-- The class `ConvBPDNGradReg` (`cbpdn.py` 992-1214) with `obfn_reg` (1205-1214).  `rhochange` is inherited
from `GenericConvBPDN` and `ystep` from `ConvBPDN`.  The recorded values are the objective, `RegL1` and
`RegGrad`. -/
noncomputable def clsGrd (q : COpts) (S : Signal c K N) (lmbda mu : ℝ) (w : K × M × Grid N → ℝ) (wg : M → ℝ)
    (fEvalX gEvalY : Bool) :
    Cls (Coef K M N) (Coef K M N) (Coef K M N) (Attr c K M Nd N a) :=
  Cls.equal (xstep mu wg) (ystep q lmbda w) (rhochange q) fun X Y h =>
    let f := dfd S fEvalX Y h
    let rl1 := normL1 fun i => w i * Bpdn.gvar gEvalY X Y i
    let rgr := regGrad wg (fvarf fEvalX Y h)
    (f + (lmbda * rl1 + mu * rgr), rl1, rgr)

end Sporco.Conv.Grd
