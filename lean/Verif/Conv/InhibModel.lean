import Verif.Conv.CbpdnConv

/-!
# Model of `ConvBPDNInhib` (`sporco/admm/cbpdnin.py`)

Real data, as in `Verif/Conv/CbpdnModel.lean`.  Groups are indexed by `Γ`.  The window is an arbitrary function of the
sample number (`scipy.signal.get_window`); data types are not modelled.
-/

set_option autoImplicit false
set_option linter.unusedSectionVars false

namespace Sporco.Conv.Inhib

open Finset ComplexConjugate Sporco.Linalg Sporco.Prox Sporco.Admm

variable {d c : ℕ} {N Nd : Fin d → ℕ} [∀ k, NeZero (N k)] {a : Fin d} {K M Γ : Type*} [Fintype K]
  [Fintype M] [Fintype Γ] [DecidableEq M]

/-! ## The windows -/

/-- `Whn += not Whn % 2` (`cbpdnin.py` 261). -/
def oddLen (Whn : ℕ) : ℕ := Whn + if Whn % 2 = 0 then 1 else 0

/-- The array `Whl` before the shift (`cbpdnin.py` 256-270), with a window of `Whn` samples, at most the size of the
array along each axis (otherwise the code raises an `IndexError`): the samples of the window multiplied over the axes,
to the power `1 / dimN`. -/
noncomputable def winRaw (N : Fin d → ℕ) (Whn : ℕ) (win : ℕ → ℝ) (p : Grid N) : ℝ :=
  if ∀ k, (p k).val < Whn then (∏ k, win (p k).val) ^ (1 / d : ℝ) else 0

/-- `np.roll(x, s, axis=k)`. -/
def rollAx (s : ℤ) (k : Fin d) (x : Grid N → ℝ) (p : Grid N) : ℝ := x (Function.update p k (p k - s))

/-- `Whl` (`cbpdnin.py` 272-274). -/
noncomputable def whl (N : Fin d → ℕ) (Whn : ℕ) (win : ℕ → ℝ) : Grid N → ℝ :=
  (List.finRange d).foldl (fun x k => rollAx (-(Whn : ℤ) / 2 + 1) k x) (winRaw N Whn win)

/-- `Whs` (`cbpdnin.py` 277-278). -/
noncomputable def whs (N : Fin d → ℕ) (Whn : ℕ) (win : ℕ → ℝ) : Grid N → ℝ := Function.update (whl N Whn win) 0 0

/-! ## The class -/

/-- Parameters fixed by the constructor (`cbpdnin.py` 213-290): `Wg`, `mu`, `gamma`, `SmoothWeight` and the two
windows. -/
structure Par (Γ M : Type*) {d : ℕ} (N : Fin d → ℕ) where
  Wg : Option (Γ → M → ℝ)
  mu : ℝ
  gamma : ℝ
  smooth : ℝ
  Whl : Grid N → ℝ
  Whs : Grid N → ℝ

/-- `mu` and `gamma` as set by the constructor (`cbpdnin.py` 216-225). -/
noncomputable def muGamma (lmbda : ℝ) (mu gamma : Option ℝ) : ℝ × ℝ := (mu.getD (10 * lmbda), gamma.getD 0)

/-- The parameters set by the constructor (`cbpdnin.py` 213-290) for a window function `get_window` that depends on
the length; `Dn` is the size of the filters along the first axis.  (The windows are constructed also when they are not
used.) -/
noncomputable def mkPar (lmbda : ℝ) (Wg : Option (Γ → M → ℝ)) (Whn : Option ℕ) (getWindow : ℕ → ℕ → ℝ)
    (mu gamma : Option ℝ) (smooth : ℝ) (Dn : ℕ) (N : Fin d → ℕ) : Par Γ M N :=
  let n := oddLen (Whn.getD Dn)
  ⟨Wg, (muGamma lmbda mu gamma).1, (muGamma lmbda mu gamma).2, smooth, whl N n (getWindow n), whs N n (getWindow n)⟩

/-- Attributes: those of the base class, and the weights `wml`, `wms` (`cbpdnin.py` 229). -/
structure AttrI (c : ℕ) (K M : Type*) {d : ℕ} (Nd N : Fin d → ℕ) [∀ k, NeZero (N k)] (a : Fin d) where
  base : Attr c K M Nd N a
  wml : K × M × Grid N → ℝ
  wms : K × M × Grid N → ℝ

/-- `irfftn(self.Whfl * Xaf)` (`cbpdnin.py` 282-283, 310, 317, 330). -/
noncomputable def windowed (a : Fin d) (Wh : Grid N → ℝ) (X : Coef K M N) (k : K) (m : M) : Grid N → ℝ :=
  let Xaf := rfft N a fun p => |part X k m p|
  irfft N a fun ξ => rfft N a Wh ξ * Xaf ξ

/-- The new lateral weights before smoothing (`cbpdnin.py` 319-320). -/
noncomputable def latNew (a : Fin d) (W : Γ → M → ℝ) (Wh : Grid N → ℝ) (X : Coef K M N) (i : K × M × Grid N) : ℝ :=
  let WhXal := windowed a Wh X
  (∑ g, (∑ n, WhXal i.1 n i.2.2 * W g n) * W g i.2.1) - (∑ g, W g i.2.1) * WhXal i.1 i.2.1 i.2.2

/-- The new self weights before smoothing (`cbpdnin.py` 330-331). -/
noncomputable def selfNew (a : Fin d) (Wh : Grid N → ℝ) (X : Coef K M N) (i : K × M × Grid N) : ℝ :=
  windowed a Wh X i.1 i.2.1 i.2.2

open Classical in
/-- `ConvBPDNInhib.ystep` (`cbpdnin.py` 294-337). -/
noncomputable def ystepI (q : COpts) (lmbda : ℝ) (w : K × M × Grid N → ℝ) (P : Par Γ M N) (rho : ℝ)
    (AX X Y U : Coef K M N) (h : AttrI c K M Nd N a) : Coef K M N × AttrI c K M Nd N a :=
  if (P.Wg = none ∨ P.mu = 0) ∧ P.gamma = 0 then ((ystep q lmbda w rho AX X Y U h.base).1, h)
  else
    let Y := proxL1Arr (AX + U).ofLp fun i => (lmbda * w i + P.mu * h.wml i + P.gamma * h.wms i) / rho
    let wml := match P.Wg with
      | none => h.wml
      | some W => if P.mu > 0 then fun i => P.smooth * h.wml i + (1 - P.smooth) * latNew a W P.Whl X i else h.wml
    let wms := if P.gamma > 0 then fun i => P.smooth * h.wms i + (1 - P.smooth) * selfNew a P.Whs X i else h.wms
    (WithLp.toLp 2 (gystep q Nd Y), ⟨h.base, wml, wms⟩)

/-- The inherited `xstep` (`cbpdn.py` 267-281). -/
noncomputable def xstepI (rho : ℝ) (X Y U : Coef K M N) (h : AttrI c K M Nd N a) : Coef K M N × AttrI c K M Nd N a :=
  let x := xstep rho X Y U h.base
  (x.1, { h with base := x.2 })

/-- The inherited `rhochange` (`cbpdn.py` 364-369). -/
noncomputable def rhochangeI (q : COpts) (rho : ℝ) (h : AttrI c K M Nd N a) : AttrI c K M Nd N a :=
  { h with base := rhochange q rho h.base }

/-- `rl`, `rm`, `rg` in `obfn_reg` (`cbpdnin.py` 341-352): the fields RegL1, RegLat and RegSelf. -/
noncomputable def regTerms (w : K × M × Grid N → ℝ) (h : AttrI c K M Nd N a) (y : Coef K M N) : ℝ × ℝ × ℝ :=
  (normL1 fun i => w i * y i, normL1 fun i => h.wml i * y i, normL1 fun i => h.wms i * y i)

/-- `obfn_reg`, first entry (`cbpdnin.py` 352). -/
noncomputable def regI (lmbda : ℝ) (w : K × M × Grid N → ℝ) (P : Par Γ M N) (h : AttrI c K M Nd N a)
    (y : Coef K M N) : ℝ :=
  let r := regTerms w h y
  lmbda * r.1 + P.mu * r.2.1 + P.gamma * r.2.2

/-- The class `ConvBPDNInhib` (`cbpdnin.py` 28-352). -/
noncomputable def clsInhib (q : COpts) (S : Signal c K N) (lmbda : ℝ) (w : K × M × Grid N → ℝ) (P : Par Γ M N)
    (fEvalX gEvalY : Bool) : Cls (Coef K M N) (Coef K M N) (Coef K M N) (AttrI c K M Nd N a) :=
  Cls.equal xstepI (ystepI q lmbda w P) (rhochangeI q) fun X Y h =>
    let f := dfd S fEvalX Y h.base
    let r := regI lmbda w P h (Bpdn.gvar gEvalY X Y)
    (f + r, f, r)

/-- The attributes after construction (`cbpdnin.py` 211, 229; `initConvBPDN`). -/
noncomputable def initI (q : COpts) (S : Signal c K N) (rho : ℝ) (D : Dict c M Nd) (Xf : Spec K M N a) :
    AttrI c K M Nd N a :=
  ⟨setdict q S rho D Xf, fun _ => 0, fun _ => 0⟩

end Sporco.Conv.Inhib
