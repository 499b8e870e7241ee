import Verif.Conv.CcmodModel

/-!
# The check of the X update (`LinSolveCheck`) and the conjugate gradient dictionary updates

With option `LinSolveCheck` the X updates of the convolutional solvers end by computing the value that
becomes the entry `XSlvRelRes` of the iteration record.  The conjugate gradient routine of SciPy is a
parameter, with the contract `CgOk`.
-/

set_option autoImplicit false

namespace Sporco.Conv

open Finset ComplexConjugate Sporco.Linalg Sporco.Admm
open Sporco.PgmConv (coefF)

variable {d c : ℕ} {N Nd : Fin d → ℕ} [∀ k, NeZero (N k)] {a : Fin d} {I J K M : Type*} [Fintype I]
  [Fintype J] [Fintype K] [Fintype M]

open Classical in
/-- `rrs` (`linalg.py` 883-910) on flattened complex arrays. -/
noncomputable def rrsC {ι : Type*} [Fintype ι] (ax b : ι → ℂ) : ℝ :=
  let nrm := max (frob ax) (frob b)
  if nrm = 0 then 0 else frob (fun i => ax i - b i) / nrm

/-- `ravel` of an array of spectra. -/
def flat (F : Spec J M N a) : J × M × Half N a → ℂ := fun p => F p.1 p.2.1 p.2.2

/-- `reshape(b.shape)`. -/
def unflat (f : J × M × Half N a → ℂ) : Spec J M N a := fun j m ξ => f (j, m, ξ)

/-- `DHop(Dop(self.Xf)) + dg*self.Xf` (`cbpdn.py` 284-290, 965-971, 1634-1640) and
`ZHop(Zop(self.Xf)) + dg*self.Xf` (`ccmod.py` 351-354, `ccmodmd.py` 364-367).  For `Cd == 1` the sum over
channels has one term. -/
noncomputable def normalF (df : Spec I M N a) (dg : ℝ) (Xf : Spec J M N a) : Spec J M N a :=
  fun j m ξ => inner (fun i => conj (df i m ξ)) (fun i => inner (fun n => df i n ξ) fun n => Xf j n ξ) +
    dg * Xf j m ξ

/-- `sl.rrs(ax, b)` at the end of `xstep`. -/
noncomputable def checkF (df : Spec I M N a) (dg : ℝ) (Xf b : Spec J M N a) : ℝ :=
  rrsC (flat (normalF df dg Xf)) (flat b)

/-- `b` in `GenericConvBPDN.xstep` (`cbpdn.py` 271-273). -/
noncomputable def rhsConv (rho : ℝ) (Y U : Coef K M N) (h : Attr c K M Nd N a) : Spec K M N a :=
  fun k m ξ => h.DSf k m ξ + rho * rfft N a (part (Y - U) k m) ξ

/-- `self.xrrs` as set by `GenericConvBPDN.xstep` (`cbpdn.py` 283-293), where `dg` is `rho`, and by
`ConvElasticNet.xstep` (964-974), where `dg` is `mu + rho`. -/
noncomputable def xrrsConv (linSolveCheck : Bool) (dg rho : ℝ) (Y U : Coef K M N)
    (h : Attr c K M Nd N a) : Option ℝ :=
  if linSolveCheck then some (checkF h.Df dg h.Xf (rhsConv rho Y U h)) else none

namespace Mod

variable {A : Type*} [Fintype A] {κ Nb : ℕ}

/-- `b` in the `xstep` of `ConvCnstrMOD_IterSM` and `ConvCnstrMOD_CG` (`ccmod.py` 499-501, 592-593). -/
noncomputable def rhsMod (rho : ℝ) (Y U : Coef A M N) (h : AttrD A K M N a) : Spec A M N a :=
  fun i m ξ => h.ZSf i m ξ + rho * rfft N a (part (Y - U) i m) ξ

/-- `ConvCnstrMODBase.xstep_check` (`ccmod.py` 343-357). -/
noncomputable def xrrsMod (linSolveCheck : Bool) (rho : ℝ) (Y U : Coef A M N) (h : AttrD A K M N a) :
    Option ℝ :=
  if linSolveCheck then some (checkF h.Zf rho h.Xf (rhsMod rho Y U h)) else none

/-- `b` in the `xstep` of the mask decoupling classes (`ccmodmd.py` 643-647, 737-742). -/
noncomputable def rhsMask (a : Fin d) (Z : K → M → Grid N → ℝ) (S : A → K → Grid N → ℝ) (Y U : YD A K M N) :
    Spec A M N a :=
  let YU := Y - U
  let YU0 := TwoBlock.sep0 YU + join S
  let YU1 := TwoBlock.sep1 YU
  fun i m ξ => inner (fun k => conj (coefF a Z k m ξ)) (fun k => rfft N a (part YU0 i k) ξ) +
    rfft N a (part YU1 i m) ξ

/-- `ConvCnstrMODMaskDcplBase.xstep_check` (`ccmodmd.py` 356-370). -/
noncomputable def xrrsMask (linSolveCheck : Bool) (Z : K → M → Grid N → ℝ) (S : A → K → Grid N → ℝ)
    (Y U : YD A K M N) (Xf : Spec A M N a) : Option ℝ :=
  if linSolveCheck then some (checkF (coefF a Z) 1 Xf (rhsMask a Z S Y U)) else none

/-! ## Conjugate gradient -/

/-- What `scipy.sparse.linalg.cg` does: the array and the value `info` it returns, and the number of
iterations it makes, which it does not return. -/
structure CgRes (ι : Type*) where
  x : ι → ℂ
  info : ℕ
  iters : ℕ

/-- `cg(lop, b, x0=..., rtol=tol, maxiter=mit)`. -/
abbrev Cg (ι : Type*) : Type _ :=
  ((ι → ℂ) → ι → ℂ) → (ι → ℂ) → (ι → ℂ) → ℝ → ℕ → CgRes ι

/-- The documentation of `scipy.sparse.linalg.cg` (no absolute tolerance): `info` is 0 for a successful
exit, at which `‖b - A x‖ ≤ rtol ‖b‖`, and otherwise the number of iterations, at most `maxiter`.  With no
iteration the result is the starting point, or zero if `b` is zero. -/
structure CgOk {ι : Type*} [Fintype ι] (cg : Cg ι) : Prop where
  success : ∀ op b x0 tol mit, 0 < mit → op 0 = 0 → (cg op b x0 tol mit).info = 0 →
    frob (fun i => b i - op (cg op b x0 tol mit).x i) ≤ tol * frob b
  failure : ∀ op b x0 tol mit, (cg op b x0 tol mit).info ≠ 0 →
    (cg op b x0 tol mit).info = (cg op b x0 tol mit).iters
  limit : ∀ op b x0 tol mit, (cg op b x0 tol mit).iters ≤ mit
  start : ∀ op b x0 tol mit, (cg op b x0 tol mit).iters = 0 →
    (cg op b x0 tol mit).x = x0 ∨ b = 0 ∧ (cg op b x0 tol mit).x = 0

/-- `vAHAoprI` of `solvemdbi_cg` (`linalg.py` 570-576). -/
noncomputable def cgOperator (Zf : Spec K M N a) (rho : ℝ) (x : A × M × Half N a → ℂ) :
    A × M × Half N a → ℂ := flat (normalF Zf rho (unflat x))

/-- The call of `cg` in `solvemdbi_cg` (`linalg.py` 570-579) with `isn` the initial solution. -/
noncomputable def solvemdbiCg (cg : Cg (A × M × Half N a)) (Zf : Spec K M N a) (rho : ℝ)
    (b : Spec A M N a) (tol : ℝ) (mit : ℕ) (isn : Spec A M N a) : CgRes (A × M × Half N a) :=
  cg (cgOperator Zf rho) (flat b) (flat isn) tol mit

/-- `ConvCnstrMOD_CG.xstep` (`ccmod.py` 587-600): X, the attributes and `cgit`. -/
noncomputable def xstepCG (cg : Cg (A × M × Half N a)) (tol : ℝ) (mit : ℕ) (rho : ℝ) (_X Y U : Coef A M N)
    (h : AttrD A K M N a) : Coef A M N × AttrD A K M N a × ℕ :=
  let r := solvemdbiCg cg h.Zf rho (rhsMod rho Y U h) tol mit h.Xf
  let Xf := unflat r.x
  (join fun i m => irfft N a (Xf i m), { h with Xf := Xf }, r.info)

/-- `ConvCnstrMODMaskDcpl_CG.xstep` (`ccmodmd.py` 730-753). -/
noncomputable def xstepMCG (cg : Cg (A × M × Half N a)) (tol : ℝ) (mit : ℕ) (Z : K → M → Grid N → ℝ)
    (S : A → K → Grid N → ℝ) (_rho : ℝ) (_X : Coef A M N) (Y U : YD A K M N) (h : Spec A M N a) :
    Coef A M N × Spec A M N a × ℕ :=
  let r := solvemdbiCg cg (coefF a Z) 1 (rhsMask a Z S Y U) tol mit h
  let Xf := unflat r.x
  (join fun i m => irfft N a (Xf i m), Xf, r.info)

/-! ## `ConvCnstrMOD_Consensus` -/

/-- The check in `ConvCnstrMOD_Consensus.xstep` (`ccmod.py` 809-819): both sides are summed over the
blocks before they are compared. -/
noncomputable def xrrsCns (linSolveCheck : Bool) (rho : ℝ) (Y : Coef A M N) (U : Blocks (Coef A M N) Nb)
    (h : AttrC A Nb M N a) : Option ℝ :=
  let ZSfs : Spec A M N a := fun i m ξ => ∑ k, h.ZSf k i m ξ
  let YU : A → M → Grid N → ℝ := fun i m p => ∑ k, part (Y - U k) i m p
  let b : Spec A M N a := fun i m ξ => ZSfs i m ξ + rho * rfft N a (YU i m) ξ
  let ax : Spec A M N a := fun i m ξ =>
    ∑ k, (conj (h.Zf k m ξ) * inner (fun n => h.Zf k n ξ) (fun n => h.Xf k i n ξ) + rho * h.Xf k i m ξ)
  if linSolveCheck then some (rrsC (flat ax) (flat b)) else none

end Mod
end Sporco.Conv
