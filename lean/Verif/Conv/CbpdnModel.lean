import Verif.Conv.Freq
import Verif.Admm.BpdnConv

/-!
# Model of the convolutional solvers of `sporco/admm/cbpdn.py`

Real data.  The internal array layout `Nv + (C,) + (K,) + (M,)` is an index for the entries of the
channel and signal axes that are carried along (`K`), one for the filters (`M`) and the spatial
index.  A dictionary with `c + 1` channels stands for `Cd = c + 1`; when `Cd = 1` the channels of
the signal are among the entries carried along.  `LinSolveCheck` (which only fills a statistics
field), data types and display are not modelled; `L1Weight` is already broadcast.
-/

set_option autoImplicit false
set_option linter.unusedSectionVars false

namespace Sporco.Conv

open Finset ComplexConjugate Sporco.Linalg Sporco.Prox Sporco.Admm

variable {d c : ℕ} {N Nd : Fin d → ℕ} [∀ k, NeZero (N k)] {a : Fin d} {K M : Type*} [Fintype K]
  [Fintype M]

/-- A dictionary: filters with support sizes `Nd`, for every channel. -/
abbrev Dict (c : ℕ) (M : Type*) {d : ℕ} (Nd : Fin d → ℕ) : Type _ := Fin (c + 1) → M → NArr Nd ℝ

/-- A signal array. -/
abbrev Signal (c : ℕ) (K : Type*) {d : ℕ} (N : Fin d → ℕ) : Type _ := Fin (c + 1) → K → Grid N → ℝ

/-- Spectra indexed by two entries and the half grid of frequencies. -/
abbrev Spec (A B : Type*) {d : ℕ} (N : Fin d → ℕ) [∀ k, NeZero (N k)] (a : Fin d) : Type _ :=
  A → B → Half N a → ℂ

/-- Attributes of a `GenericConvBPDN` object (`cbpdn.py` 227-256): dictionary, its transform,
`DSf`, the optional cached component `c` of the linear solver, and the transform `Xf` of X. -/
structure Attr (c : ℕ) (K M : Type*) {d : ℕ} (Nd N : Fin d → ℕ) [∀ k, NeZero (N k)] (a : Fin d) where
  D : Dict c M Nd
  Df : Spec (Fin (c + 1)) M N a
  DSf : Spec K M N a
  cc : Option (M → Half N a → ℂ)
  Xf : Spec K M N a

/-- Options read by the class: `HighMemSolve`, `NonNegCoef`, `NoBndryCross`. -/
structure COpts where
  highMem : Bool
  nonNeg : Bool
  noBndry : Bool

/-- `self.fftn(self.D, self.cri.Nv, self.cri.axisN)` (`cbpdn.py` 247). -/
noncomputable def dictF (a : Fin d) (D : Dict c M Nd) : Spec (Fin (c + 1)) M N a :=
  fun i m ξ => rfft N a (pad N (D i m)) ξ

/-- `self.Sf` (`cbpdn.py` 231). -/
noncomputable def sigF (a : Fin d) (S : Signal c K N) : Spec (Fin (c + 1)) K N a :=
  fun i k ξ => rfft N a (S i k) ξ

/-- `self.DSf` (`cbpdn.py` 249-251); for `Cd = 1` there is one term. -/
noncomputable def dsF (Df : Spec (Fin (c + 1)) M N a) (S : Signal c K N) : Spec K M N a :=
  fun k m ξ => ∑ i, conj (Df i m ξ) * sigF a S i k ξ

/-- `sl.solvedbi_sm_c(self.Df, np.conj(self.Df), rho, self.cri.axisM)` (`cbpdn.py` 253-254). -/
noncomputable def cacheOf (Df : Spec (Fin (c + 1)) M N a) (rho : ℝ) : M → Half N a → ℂ :=
  fun m ξ => solvedbiSmC (fun n => Df 0 n ξ) (fun n => conj (Df 0 n ξ)) rho m

/-- The condition under which the component is cached (`cbpdn.py` 252, 367). -/
def COpts.caches (q : COpts) (c : ℕ) : Bool := q.highMem && decide (c = 0)

/-- `GenericConvBPDN.setdict` (`cbpdn.py` 242-256) with penalty parameter `rho`; `Xf` is left
alone. -/
noncomputable def setdict (q : COpts) (S : Signal c K N) (rho : ℝ) (D : Dict c M Nd)
    (Xf : Spec K M N a) : Attr c K M Nd N a :=
  let Df := dictF a D
  { D := D, Df := Df, DSf := dsF Df S, Xf := Xf
    cc := if q.caches c then some (cacheOf Df rho) else none }

/-- `GenericConvBPDN.rhochange` (`cbpdn.py` 364-369). -/
noncomputable def rhochange (q : COpts) (rho : ℝ) (h : Attr c K M Nd N a) : Attr c K M Nd N a :=
  if q.caches c then { h with cc := some (cacheOf h.Df rho) } else h

/-- The linear solve at one frequency (`cbpdn.py` 274-279): `solvedbi_sm` for `Cd == 1`, otherwise
`solvemdbi_ism` over the channels. -/
noncomputable def freqSolve (df : Fin (c + 1) → M → ℂ) (rho : ℝ) (b : M → ℂ)
    (cc : Option (M → ℂ)) : M → ℂ :=
  if c = 0 then solvedbiSm (df 0) rho b cc
  else solvemdbiIsm (df 0) (List.ofFn fun i : Fin c => df i.succ) rho b

/-- `Xf` as computed in `xstep` (`cbpdn.py` 271-279), with diagonal term `dg` (which is `rho` here
and `mu + rho` in `ConvElasticNet`, 957-961). -/
noncomputable def solveF (dg rho : ℝ) (Y U : Coef K M N) (h : Attr c K M Nd N a) : Spec K M N a :=
  let YU := Y - U
  fun k m ξ =>
    freqSolve (fun i n => h.Df i n ξ) dg
      (fun n => h.DSf k n ξ + rho * rfft N a (part YU k n) ξ) (h.cc.map fun f n => f n ξ) m

/-- `GenericConvBPDN.xstep` (`cbpdn.py` 267-281). -/
noncomputable def xstep (rho : ℝ) (_X Y U : Coef K M N) (h : Attr c K M Nd N a) :
    Coef K M N × Attr c K M Nd N a :=
  let Xf := solveF rho rho Y U h
  (join fun k m => irfft N a (Xf k m), { h with Xf := Xf })

/-- The start of the Python slice `slice(i, None)` on an axis of length `n`. -/
def sliceStart (i : ℤ) (n : ℕ) : ℕ := if i < 0 then (i + n).toNat else min i.toNat n

/-- The loop over the spatial axes in `ystep` with `NoBndryCross` (`cbpdn.py` 308-311). -/
def zeroTail (Nd : Fin d → ℕ) (y : K × M × Grid N → ℝ) : K × M × Grid N → ℝ :=
  (List.finRange d).foldl
    (fun y n p => if sliceStart (1 - (Nd n : ℤ)) (N n) ≤ (p.2.2 n).val then 0 else y p) y

/-- `GenericConvBPDN.ystep` (`cbpdn.py` 297-311) applied to the Y just computed. -/
noncomputable def gystep (q : COpts) (Nd : Fin d → ℕ) (y : K × M × Grid N → ℝ) : K × M × Grid N → ℝ :=
  let y := if q.nonNeg then clip y else y
  if q.noBndry then zeroTail Nd y else y

/-- `ConvBPDN.ystep` (`cbpdn.py` 614-620). -/
noncomputable def ystep (q : COpts) (lmbda : ℝ) (w : K × M × Grid N → ℝ) (rho : ℝ)
    (AX _X _Y U : Coef K M N) (h : Attr c K M Nd N a) : Coef K M N × Attr c K M Nd N a :=
  (WithLp.toLp 2 (gystep q Nd (proxL1Arr (AX + U).ofLp fun i => lmbda / rho * w i)), h)

/-- `obfn_fvarf` (`cbpdn.py` 315-321). -/
noncomputable def fvarf (fEvalX : Bool) (Y : Coef K M N) (h : Attr c K M Nd N a) : Spec K M N a :=
  if fEvalX then h.Xf else fun k m ξ => rfft N a (part Y k m) ξ

/-- `obfn_dfd` (`cbpdn.py` 337-344). -/
noncomputable def dfd (S : Signal c K N) (fEvalX : Bool) (Y : Coef K M N) (h : Attr c K M Nd N a) : ℝ :=
  rfl2norm2 N a (fun p : (Fin (c + 1) × K) × Half N a =>
    inner (fun m => h.Df p.1.1 m p.2) (fun m => fvarf fEvalX Y h p.1.2 m p.2) -
      sigF a S p.1.1 p.1.2 p.2) / 2

/-- `ConvBPDN.obfn_reg`, first entry (`cbpdn.py` 624-630). -/
noncomputable def regL1 (lmbda : ℝ) (w : K × M × Grid N → ℝ) (y : Coef K M N) : ℝ :=
  lmbda * normL1 (fun i => w i * y i)

/-- The class `ConvBPDN` (`cbpdn.py` 386-630) with `eval_objfn` (325-333). -/
noncomputable def clsConvBPDN (q : COpts) (S : Signal c K N) (lmbda : ℝ) (w : K × M × Grid N → ℝ)
    (fEvalX gEvalY : Bool) :
    Cls (Coef K M N) (Coef K M N) (Coef K M N) (Attr c K M Nd N a) :=
  Cls.equal xstep (ystep q lmbda w) (rhochange q) fun X Y h =>
    let f := dfd S fEvalX Y h
    let r := regL1 lmbda w (Bpdn.gvar gEvalY X Y)
    (f + r, f, r)

/-- `reconstruct` (`cbpdn.py` 373-380) for a given array. -/
noncomputable def reconstruct (h : Attr c K M Nd N a) (X : Coef K M N) : Signal c K N :=
  fun i k => irfft N a fun ξ => ∑ m, h.Df i m ξ * rfft N a (part X k m) ξ

/-- The penalty parameter and cache set by the constructors (`admm.py` 247, `cbpdn.py` 224, 238,
584): the base class sets `rho` from the option, with default 1, and calls `setdict`; then
`ConvBPDN.__init__` sets `rho` again, with default `50 lmbda + 1`, and nothing else.
X is not initialised before the first iteration. -/
noncomputable def initConvBPDN (q : COpts) (S : Signal c K N) (lmbda : ℝ) (optRho : Option ℝ)
    (D : Dict c M Nd) (Xf : Spec K M N a) : ℝ × Attr c K M Nd N a :=
  let rho := optRho.getD 1
  let h := setdict q S rho D Xf
  (optRho.getD (50 * lmbda + 1), h)

/-! ## `ConvElasticNet` -/

/-- `ConvElasticNet.setdict` (`cbpdn.py` 930-944). -/
noncomputable def setdictEN (q : COpts) (S : Signal c K N) (mu rho : ℝ) (D : Dict c M Nd)
    (Xf : Spec K M N a) : Attr c K M Nd N a :=
  let Df := dictF a D
  { D := D, Df := Df, DSf := dsF Df S, Xf := Xf
    cc := if q.caches c then some (cacheOf Df (mu + rho)) else none }

/-- `ConvElasticNet.xstep` (`cbpdn.py` 948-963). -/
noncomputable def xstepEN (mu rho : ℝ) (_X Y U : Coef K M N) (h : Attr c K M Nd N a) :
    Coef K M N × Attr c K M Nd N a :=
  let Xf := solveF (mu + rho) rho Y U h
  (join fun k m => irfft N a (Xf k m), { h with Xf := Xf })

/-- The class `ConvElasticNet` (`cbpdn.py` 813-986).  `rhochange` is inherited. -/
noncomputable def clsConvEN (q : COpts) (S : Signal c K N) (lmbda mu : ℝ) (w : K × M × Grid N → ℝ)
    (fEvalX gEvalY : Bool) :
    Cls (Coef K M N) (Coef K M N) (Coef K M N) (Attr c K M Nd N a) :=
  Cls.equal (xstepEN mu) (ystep q lmbda w) (rhochange q) fun X Y h =>
    let f := dfd S fEvalX Y h
    let y := Bpdn.gvar gEvalY X Y
    let r := regL1 lmbda w y + mu * (1 / 2 * ‖y‖ ^ 2)
    (f + r, f, r)

/-! ## `ConvBPDNJoint` -/

variable {L : Type*} [Fintype L]

/-- `ConvBPDNJoint.ystep` (`cbpdn.py` 785-794): `prox_sl1l2` along the channel axis `L` of the
coefficient array, with a scalar `L21Weight`. -/
noncomputable def ystepJnt (q : COpts) (lmbda mu : ℝ) (w : (L × K) × M × Grid N → ℝ) (wl21 : ℝ)
    (rho : ℝ) (AX _X _Y U : Coef (L × K) M N) (h : Attr c (L × K) M Nd N a) :
    Coef (L × K) M N × Attr c (L × K) M Nd N a :=
  (WithLp.toLp 2 (gystep q Nd fun p =>
    proxSl1l2 (fun l => (AX + U).ofLp ((l, p.1.2), p.2)) (fun l => lmbda / rho * w ((l, p.1.2), p.2))
      (mu / rho * wl21) p.1.1), h)

/-- `ConvBPDNJoint.obfn_reg`, first entry (`cbpdn.py` 798-807). -/
noncomputable def regJnt (lmbda mu : ℝ) (w : (L × K) × M × Grid N → ℝ) (wl21 : ℝ)
    (y : Coef (L × K) M N) : ℝ :=
  lmbda * normL1 (fun i => w i * y i) +
    mu * ∑ p : K × M × Grid N, wl21 * Real.sqrt (∑ l, y ((l, p.1), p.2) ^ 2)

/-- The class `ConvBPDNJoint` (`cbpdn.py` 636-807). -/
noncomputable def clsConvJnt (q : COpts) (S : Signal c (L × K) N) (lmbda mu : ℝ)
    (w : (L × K) × M × Grid N → ℝ) (wl21 : ℝ) (fEvalX gEvalY : Bool) :
    Cls (Coef (L × K) M N) (Coef (L × K) M N) (Coef (L × K) M N) (Attr c (L × K) M Nd N a) :=
  Cls.equal xstep (ystepJnt q lmbda mu w wl21) (rhochange q) fun X Y h =>
    let f := dfd S fEvalX Y h
    let r := regJnt lmbda mu w wl21 (Bpdn.gvar gEvalY X Y)
    (f + r, f, r)

end Sporco.Conv
