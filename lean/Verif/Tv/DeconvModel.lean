import Verif.Admm.Model
import Verif.Conv.Freq
import Verif.Conv.Norms
import Verif.Prox.Model

/-!
# Model of the TV deconvolution solvers (`admm/tvl2.py` 377-701, `admm/tvl1.py` 403-757)

Real images.  The transformed axes `axes` are the leading axes of the image (in any order); other axes are
the index types `γ` and `χ`, of which `χ` is the axis `caxis` (a type with one element if that is `None`).
`a` is the last of `axes`, which the transform halves.  Weights are already broadcast to the shape of the
image and do not vary along `caxis`.  Data types and `LinSolveCheck` (which only fills a statistics field)
are not modelled.
-/

set_option autoImplicit false

namespace Sporco.Tv.Dec

open Finset ComplexConjugate Sporco.Conv Sporco.Admm

variable {d : ℕ} {N Nd : Fin d → ℕ} [∀ k, NeZero (N k)] {a : Fin d} {γ χ : Type*} [Fintype γ] [Fintype χ]

/-- Component `k` of the array `g` in `gradient_filters` (`signal.py` 230-234): `[1, -1]` along axis `k`
at index zero of the other axes, each of length two. -/
def gradG (k : Fin d) : NArr (fun _ : Fin d => 2) ℝ := fun i =>
  if ∀ j, j ≠ k → (i j).val = 0 then (if (i k).val = 0 then 1 else -1) else 0

/-- Images: index on the axes not transformed, and the spatial axes. -/
abbrev ImgD (γ χ : Type*) (N : Fin d → ℕ) [∀ k, NeZero (N k)] : Type _ := Coef (γ × χ) Unit N

/-- Gradients: one component per transformed axis. -/
abbrev GradD (γ χ : Type*) {d : ℕ} (N : Fin d → ℕ) [∀ k, NeZero (N k)] : Type _ := Coef (γ × χ) (Fin d) N

/-- Attributes computed by the constructors (`tvl2.py` 560-576, `tvl1.py` 589-608). -/
structure Attr (γ χ : Type*) {d : ℕ} (N : Fin d → ℕ) [∀ k, NeZero (N k)] (a : Fin d) where
  Af : γ × χ → Half N a → ℂ
  Sf : γ × χ → Half N a → ℂ
  AHAf : γ × χ → Half N a → ℂ
  AHSf : γ × χ → Half N a → ℂ
  Gf : Fin d → Half N a → ℂ
  GHGf : Half N a → ℝ

/-- `TVL2Deconv.__init__` (`tvl2.py` 560-576), `TVL1Deconv.__init__` (`tvl1.py` 589-608) and
`gradient_filters` (`signal.py` 228-240).  The blur kernel may differ from channel to channel. -/
noncomputable def init (A : γ × χ → NArr Nd ℝ) (S : γ × χ → Grid N → ℝ) : Attr γ χ N a :=
  let Af := fun i => rfft N a (pad N (A i))
  let Sf := fun i => rfft N a (S i)
  let Gf := fun k => rfft N a (pad N (gradG k))
  { Af := Af, Sf := Sf, AHAf := fun i ξ => conj (Af i ξ) * Af i ξ,
    AHSf := fun i ξ => conj (Af i ξ) * Sf i ξ, Gf := Gf,
    GHGf := fun ξ => (∑ k, conj (Gf k ξ) * Gf k ξ).re }

/-! ## `TVL2Deconv` -/

/-- The denominator in `xstep` (`tvl2.py` 602). -/
noncomputable def den (q : Attr γ χ N a) (rho : ℝ) (i : γ × χ) (ξ : Half N a) : ℂ :=
  q.AHAf i ξ + rho * q.GHGf ξ

/-- `b / (AHAf + rho GHGf)` (`tvl2.py` 599-602).  A zero denominator gives NaN in the code and zero here,
see `xstepNaN`. -/
noncomputable def xf (q : Attr γ χ N a) (rho : ℝ) (Y U : GradD γ χ N) (i : γ × χ) (ξ : Half N a) : ℂ :=
  (q.AHSf i ξ + rho * ∑ k, conj (q.Gf k ξ) * rfft N a (part (Y - U) i k) ξ) / den q rho i ξ

/-- `xstep` (`tvl2.py` 594-609); the state keeps `Xf`. -/
noncomputable def xstep (q : Attr γ χ N a) (rho : ℝ) (_X : ImgD γ χ N) (Y U : GradD γ χ N)
    (_h : γ × χ → Half N a → ℂ) : ImgD γ χ N × (γ × χ → Half N a → ℂ) :=
  (join fun i _ => irfft N a (xf q rho Y U i), xf q rho Y U)

/-- A denominator in `xstep` is zero: the code divides by zero and the image becomes NaN. -/
def xstepNaN (q : Attr γ χ N a) (rho : ℝ) : Prop := ∃ i ξ, den q rho i ξ = 0

/-- `cnst_A(None, Xf)` (`tvl2.py` 662-671). -/
noncomputable def cnstAf (q : Attr γ χ N a) (Xf : γ × χ → Half N a → ℂ) : GradD γ χ N :=
  join fun i k => irfft N a fun ξ => q.Gf k ξ * Xf i ξ

/-- `cnst_A(X)` (`tvl2.py` 662-671). -/
noncomputable def cnstA (q : Attr γ χ N a) (X : ImgD γ χ N) : GradD γ χ N :=
  cnstAf q fun i => rfft N a (part X i ())

/-- `cnst_AT(X)` (`tvl2.py` 675-683). -/
noncomputable def cnstAT (q : Attr γ χ N a) (Y : GradD γ χ N) : ImgD γ χ N :=
  join fun i _ p => ∑ k, irfft N a (fun ξ => conj (q.Gf k ξ) * rfft N a (part Y i k) ξ) p

/-- `prox_l2(v, (lmbda/rho)*Wtvna, axis=self.saxes)` (`tvl2.py` 618-619, `tvl1.py` 653-655). -/
noncomputable def proxTv (lmbda rho : ℝ) (w : γ → Grid N → ℝ) (v : GradD γ χ N) : GradD γ χ N :=
  join fun i k p => Prox.proxL2 (fun q : χ × Fin d => part v (i.1, q.1) q.2 p) (lmbda / rho * w i.1 p) (i.2, k)

/-- `ystep` (`tvl2.py` 613-619). -/
noncomputable def ystep (lmbda : ℝ) (w : γ → Grid N → ℝ) (rho : ℝ) (AX : GradD γ χ N) (_X : ImgD γ χ N)
    (_Y U : GradD γ χ N) (h : γ × χ → Half N a → ℂ) : GradD γ χ N × (γ × χ → Half N a → ℂ) :=
  (proxTv lmbda rho w (AX + U), h)

/-- `np.sum(Wtv * np.sqrt(np.sum(gv**2, axis=saxes)))` (`tvl2.py` 649, `tvl1.py` 687-688), with scalar weights or
without channel axis (see `regCaxis` for weight arrays with a channel axis). -/
noncomputable def regTv (w : γ → Grid N → ℝ) (v : GradD γ χ N) : ℝ :=
  ∑ g, ∑ p, w g p * Real.sqrt (∑ c, ∑ k, part v (g, c) k p ^ 2)

/-- `eval_objfn` (`tvl2.py` 635-651) with `obfn_gvar` (623-631). -/
noncomputable def objfn (q : Attr γ χ N a) (lmbda : ℝ) (w : γ → Grid N → ℝ) (gEvalY : Bool) (_X : ImgD γ χ N)
    (Y : GradD γ χ N) (Xf : γ × χ → Half N a → ℂ) : ℝ × ℝ × ℝ :=
  let dfd := rfl2norm2 N a (fun p : (γ × χ) × Half N a => q.Af p.1 p.2 * Xf p.1 p.2 - q.Sf p.1 p.2) / 2
  let gv := if gEvalY then Y else cnstAf q Xf
  let reg := regTv w gv
  (dfd + lmbda * reg, dfd, reg)

/-- The class `TVL2Deconv` (`tvl2.py` 377-701). -/
noncomputable def clsL2 (A : γ × χ → NArr Nd ℝ) (S : γ × χ → Grid N → ℝ) (lmbda : ℝ) (w : γ → Grid N → ℝ)
    (gEvalY : Bool) : Cls (ImgD γ χ N) (GradD γ χ N) (GradD γ χ N) (γ × χ → Half N a → ℂ) :=
  let q : Attr γ χ N a := init A S
  Cls.generic (cnstA q) (cnstAT q) (fun y => -y) 0 (xstep q) (ystep lmbda w) (fun _ h => h)
    (objfn q lmbda w gEvalY)

/-! ## `TVL1Deconv`

The last axis of Y and U, of length `len(axes) + 1`, is a pair here: gradient components and image. -/

/-- The arrays Y and U of `TVL1Deconv`. -/
abbrev Y1 (γ χ : Type*) [Fintype γ] [Fintype χ] {d : ℕ} (N : Fin d → ℕ) [∀ k, NeZero (N k)] : Type _ :=
  WithLp 2 (GradD γ χ N × ImgD γ χ N)

/-- The denominator in `xstep` (`tvl1.py` 637). -/
noncomputable def den1 (q : Attr γ χ N a) (i : γ × χ) (ξ : Half N a) : ℂ := q.AHAf i ξ + q.GHGf ξ

/-- `Xf` in `xstep` (`tvl1.py` 634-637); `GAf` is `Gf` followed by `Af`. -/
noncomputable def xf1 (q : Attr γ χ N a) (Y U : Y1 γ χ N) (i : γ × χ) (ξ : Half N a) : ℂ :=
  (q.AHSf i ξ + (∑ k, conj (q.Gf k ξ) * rfft N a (part (Y.fst - U.fst) i k) ξ +
    conj (q.Af i ξ) * rfft N a (part (Y.snd - U.snd) i ()) ξ)) / den1 q i ξ

/-- `xstep` (`tvl1.py` 629-644); the state keeps `Xf`. -/
noncomputable def xstep1 (q : Attr γ χ N a) (_rho : ℝ) (_X : ImgD γ χ N) (Y U : Y1 γ χ N)
    (_h : γ × χ → Half N a → ℂ) : ImgD γ χ N × (γ × χ → Half N a → ℂ) :=
  (join fun i _ => irfft N a (xf1 q Y U i), xf1 q Y U)

/-- A denominator in `xstep` is zero: the code divides by zero and the image becomes NaN. -/
def xstep1NaN (q : Attr γ χ N a) : Prop := ∃ i ξ, den1 q i ξ = 0

/-- `cnst_A(None, Xf)` (`tvl1.py` 701-710). -/
noncomputable def cnstA1f (q : Attr γ χ N a) (Xf : γ × χ → Half N a → ℂ) : Y1 γ χ N :=
  WithLp.toLp 2 (cnstAf q Xf, join fun i _ => irfft N a fun ξ => q.Af i ξ * Xf i ξ)

/-- `cnst_A(X)` (`tvl1.py` 701-710). -/
noncomputable def cnstA1 (q : Attr γ χ N a) (X : ImgD γ χ N) : Y1 γ χ N :=
  cnstA1f q fun i => rfft N a (part X i ())

/-- `cnst_AT(X)` (`tvl1.py` 714-722). -/
noncomputable def cnstAT1 (q : Attr γ χ N a) (Y : Y1 γ χ N) : ImgD γ χ N :=
  join fun i _ p => ∑ k, irfft N a (fun ξ => conj (q.Gf k ξ) * rfft N a (part Y.fst i k) ξ) p +
    irfft N a (fun ξ => conj (q.Af i ξ) * rfft N a (part Y.snd i ()) ξ) p

/-- `cnst_c()` (`tvl1.py` 735-743). -/
noncomputable def cnstC1 (S : γ × χ → Grid N → ℝ) : Y1 γ χ N := WithLp.toLp 2 (0, join fun i _ => S i)

/-- `ystep` (`tvl1.py` 648-658). -/
noncomputable def ystep1 (S : γ × χ → Grid N → ℝ) (lmbda : ℝ) (wd : γ × χ → Grid N → ℝ) (w : γ → Grid N → ℝ)
    (rho : ℝ) (AX : Y1 γ χ N) (_X : ImgD γ χ N) (_Y U : Y1 γ χ N) (h : γ × χ → Half N a → ℂ) :
    Y1 γ χ N × (γ × χ → Half N a → ℂ) :=
  (WithLp.toLp 2 (proxTv lmbda rho w (AX.fst + U.fst), WithLp.toLp 2 (Prox.proxL1Arr
    (AX.snd + U.snd - (cnstC1 S).snd).ofLp fun j => 1 / rho * wd j.1 j.2.2)), h)

/-- `eval_objfn` (`tvl1.py` 674-690) with `obfn_gvar` (662-670). -/
noncomputable def objfn1 (q : Attr γ χ N a) (S : γ × χ → Grid N → ℝ) (lmbda : ℝ) (wd : γ × χ → Grid N → ℝ)
    (w : γ → Grid N → ℝ) (gEvalY : Bool) (_X : ImgD γ χ N) (Y : Y1 γ χ N) (Xf : γ × χ → Half N a → ℂ) :
    ℝ × ℝ × ℝ :=
  let gvr := if gEvalY then Y else cnstA1f q Xf - cnstC1 S
  let dfd := ∑ i, ∑ p, wd i p * |part gvr.snd i () p|
  let reg := regTv w gvr.fst
  (dfd + lmbda * reg, dfd, reg)

/-- The class `TVL1Deconv` (`tvl1.py` 403-757), with its own `rsdl_s` (747-750), a
scalar of which the solver takes the norm, and `rsdl_sn` (754-757). -/
noncomputable def clsL1 (A : γ × χ → NArr Nd ℝ) (S : γ × χ → Grid N → ℝ) (lmbda : ℝ)
    (wd : γ × χ → Grid N → ℝ) (w : γ → Grid N → ℝ) (gEvalY : Bool) :
    Cls (ImgD γ χ N) (Y1 γ χ N) (Y1 γ χ N) (γ × χ → Half N a → ℂ) :=
  let q : Attr γ χ N a := init A S
  { Cls.generic (cnstA1 q) (cnstAT1 q) (fun y => -y) (cnstC1 S) (xstep1 q) (ystep1 S lmbda wd w)
      (fun _ h => h) (objfn1 q S lmbda wd w gEvalY) with
    nrmS := fun rho _ _ U => ‖rho * ‖cnstAT1 q U‖‖
    rsdlSn := fun rho U => rho * ‖U‖ }

end Sporco.Tv.Dec
