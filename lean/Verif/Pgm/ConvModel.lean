import Verif.Pgm.Bpdn
import Verif.Conv.CbpdnConv

/-!
# Model of `sporco/pgm/cbpdn.py` and `sporco/pgm/ccmod.py`

The solver classes built on `PGMDFT`, as values of `ClsF`.  Array layout, dictionaries and signals
are those of `Verif/Conv/CbpdnModel.lean`: `c + 1` dictionary channels, `K` the entries of the
channel and signal axes that are carried along, `M` filters.  Real data; `L1Weight` and the mask are
already broadcast.
-/

set_option autoImplicit false
set_option linter.unusedSectionVars false

namespace Sporco.PgmConv

open Finset ComplexConjugate Sporco.Prox
open Sporco.Conv (Grid Half Dict Signal Spec Coef Sig part join rfft irfft dictF sigF COpts rfl2norm2)
open Sporco.Pgm (ClsF)

variable {d c : ℕ} {N Nd : Fin d → ℕ} [∀ k, NeZero (N k)] {A B K M : Type*} [Fintype A] [Fintype B]
  [Fintype K] [Fintype M]

/-- Half spectra of three-index arrays.  As a real inner product space: the norm is that of the
flattened complex array (`np.linalg.norm(Rf.flatten(), 2)`), the inner product of `u` and `v` is
`np.sum(np.real(np.conj(u) * v))` (`pgm/pgm.py` 886-894). -/
abbrev HS (A B : Type*) {d : ℕ} (N : Fin d → ℕ) [∀ k, NeZero (N k)] (a : Fin d) : Type _ :=
  EuclideanSpace ℂ (A × B × Half N a)

/-- `rfftn(x, None, self.cri.axisN)` (`pgm/pgm.py` 800). -/
noncomputable def fwd (a : Fin d) (x : EuclideanSpace ℝ (A × B × Grid N)) : HS A B N a :=
  WithLp.toLp 2 fun i => rfft N a (part x i.1 i.2.1) i.2.2

/-- `irfftn(vf, self.cri.Nv, self.cri.axisN)` (`pgm/pgm.py` 797). -/
noncomputable def bwd (a : Fin d) (v : HS A B N a) : EuclideanSpace ℝ (A × B × Grid N) :=
  join fun i j => irfft N a fun ξ => v (i, j, ξ)

/-- `rfl2norm2` of such a half spectrum (`pgm/cbpdn.py` 318, 344). -/
noncomputable def hnorm2 {a : Fin d} (v : HS A B N a) : ℝ :=
  rfl2norm2 N a fun p : (A × B) × Half N a => v (p.1.1, p.1.2, p.2)

/-- `prox_g` of `ConvBPDN` (`pgm/cbpdn.py` 288-298). -/
noncomputable def proxG (q : COpts) (Nd : Fin d → ℕ) (lmbda : ℝ) (w : K × M × Grid N → ℝ) (L : ℝ)
    (V : Coef K M N) : Coef K M N :=
  WithLp.toLp 2 (Conv.gystep q Nd (proxL1Arr V.ofLp fun i => lmbda / L * w i))

/-! ## `ConvBPDN` and `ConvBPDNMask` -/

section BPDN
variable {a : Fin d}

/-- `eval_Rf` (`pgm/cbpdn.py` 281-284). -/
noncomputable def evalRf (D : Dict c M Nd) (S : Signal c K N) (Vf : HS K M N a) :
    HS (Fin (c + 1)) K N a :=
  WithLp.toLp 2 fun i => Linalg.inner (fun m => dictF a D i.1 m i.2.2) (fun m => Vf (i.2.1, m, i.2.2)) -
    sigF a S i.1 i.2.1 i.2.2

/-- `np.conj(self.Df) * R`, summed over the channels when `Cd > 1` (`pgm/cbpdn.py` 271-275,
471-475); for `Cd = 1` there is one term. -/
noncomputable def conjDf (D : Dict c M Nd) (R : HS (Fin (c + 1)) K N a) : HS K M N a :=
  WithLp.toLp 2 fun j => ∑ i, conj (dictF a D i j.2.1 j.2.2) * R (i, j.1, j.2.2)

/-- `obfn_reg` (`pgm/cbpdn.py` 348-354): the unscaled l1 norm. -/
noncomputable def rl1 (w : K × M × Grid N → ℝ) (X : Coef K M N) : ℝ := normL1 fun i => w i * X i

/-- `ConvBPDN` (`pgm/cbpdn.py` 44-381): `grad_f` 263-277, `prox_g` 288-298, `hessian_f` 302-310,
`rsdl` 314-318, `eval_objfn` 322-354, `obfn_f` 358-370. -/
noncomputable def clsBPDN (a : Fin d) (q : COpts) (D : Dict c M Nd) (S : Signal c K N) (lmbda : ℝ)
    (w : K × M × Grid N → ℝ) : ClsF (Coef K M N) (HS K M N a) where
  rfftn := fwd a
  irfftn := bwd a
  gradF Vf := conjDf D (evalRf D S Vf)
  proxG := proxG q Nd lmbda w
  hessF V := conjDf D (WithLp.toLp 2 fun i : Fin (c + 1) × K × Half N a =>
    Linalg.inner (fun m => dictF a D i.1 m i.2.2) (fun m => V (i.2.1, m, i.2.2)))
  obfnF Xf := 1 / 2 * ‖evalRf D S Xf‖ ^ 2
  evalObj X Xf :=
    let dfd := hnorm2 (evalRf D S Xf) / 2
    (dfd + lmbda * rl1 w X, dfd, rl1 w X)
  rsdl Xf Yfprv := hnorm2 (Xf - Yfprv)

/-- Multiplication by an array of the shape of the signal. -/
noncomputable def mulW (W : A → B → Grid N → ℝ) (x : EuclideanSpace ℝ (A × B × Grid N)) :
    EuclideanSpace ℝ (A × B × Grid N) := join fun i j p => W i j p * part x i j p

/-- `ConvBPDNMask` (`pgm/cbpdn.py` 387-508): `grad_f` 454-477, `obfn_dfd` 481-489, `obfn_f` 493-508;
the other methods, among them `hessian_f`, are those of `ConvBPDN`. -/
noncomputable def clsBPDNMask (a : Fin d) (q : COpts) (D : Dict c M Nd) (S : Signal c K N) (lmbda : ℝ)
    (w : K × M × Grid N → ℝ) (W : Signal c K N) : ClsF (Coef K M N) (HS K M N a) :=
  { clsBPDN a q D S lmbda w with
    gradF := fun Vf =>
      let Ry := bwd a (evalRf D S Vf)
      conjDf D (fwd a (mulW (fun i k p => W i k p ^ 2) Ry))
    obfnF := fun Xf =>
      let R := bwd a (evalRf D S Xf)
      1 / 2 * ‖fwd a (mulW W R)‖ ^ 2
    evalObj := fun X Xf =>
      let E := bwd a (evalRf D S Xf)
      let dfd := ‖mulW W E‖ ^ 2 / 2
      (dfd + lmbda * rl1 w X, dfd, rl1 w X) }

end BPDN

/-! ## `ConvCnstrMOD` and `ConvCnstrMODMask`

The variable is the zero padded dictionary, with channels `A` and filters `M`.  When a single channel
dictionary is used with a multi-channel signal, the class itself moves the channels of signal and
coefficient maps to the signal axis (`pgm/ccmod.py` 231-233, 273-276), so the coefficient maps never
carry a channel index (`axisC` is singleton in `Z`) and the sum over channels in `grad_f` has one
term. -/

section CCMOD
variable {a : Fin d}

/-- `self.Zf` (`pgm/ccmod.py` 279). -/
noncomputable def coefF (a : Fin d) (Z : K → M → Grid N → ℝ) : Spec K M N a :=
  fun k m ξ => rfft N a (Z k m) ξ

/-- `eval_Rf` (`pgm/ccmod.py` 313-316). -/
noncomputable def evalRfD (Z : K → M → Grid N → ℝ) (S : A → K → Grid N → ℝ) (Vf : HS A M N a) :
    HS A K N a :=
  WithLp.toLp 2 fun i => Linalg.inner (fun m => coefF a Z i.2.1 m i.2.2) (fun m => Vf (i.1, m, i.2.2)) -
    rfft N a (S i.1 i.2.1) i.2.2

/-- `inner(np.conj(self.Zf), R, axis=self.cri.axisK)` (`pgm/ccmod.py` 303). -/
noncomputable def conjZf (Z : K → M → Grid N → ℝ) (R : HS A K N a) : HS A M N a :=
  WithLp.toLp 2 fun j =>
    Linalg.inner (fun k => conj (coefF a Z k j.2.1 j.2.2)) (fun k => R (j.1, k, j.2.2))

/-- `ConvCnstrMOD` of `pgm/ccmod.py` (45-403): `grad_f` 295-309, `prox_g` 320-323, `hessian_f`
327-337, `rsdl` 341-345, `eval_objfn` 349-375, `obfn_f` 379-390.  `Pcn` is the projection made by
`getPcn` (242-243).  The recorded tuple has two entries here; the third is set to 0. -/
noncomputable def clsMOD (a : Fin d) (Pcn : Coef A M N → Coef A M N) (Z : K → M → Grid N → ℝ)
    (S : A → K → Grid N → ℝ) : ClsF (Coef A M N) (HS A M N a) where
  rfftn := fwd a
  irfftn := bwd a
  gradF Vf := conjZf Z (evalRfD Z S Vf)
  proxG _ V := Pcn V
  hessF V := conjZf Z (WithLp.toLp 2 fun i : A × K × Half N a =>
    Linalg.inner (fun m => coefF a Z i.2.1 m i.2.2) (fun m => V (i.1, m, i.2.2)))
  obfnF Xf := 1 / 2 * ‖evalRfD Z S Xf‖ ^ 2
  evalObj X Xf := (hnorm2 (evalRfD Z S Xf) / 2, ‖Pcn X - X‖, 0)
  rsdl Xf Yfprv := hnorm2 (Xf - Yfprv)

/-- `ConvCnstrMODMask` of `pgm/ccmod.py` (408-606): `grad_f` 552-575, `obfn_dfd` 579-587, `obfn_f`
591-606; `hessian_f` is inherited. -/
noncomputable def clsMODMask (a : Fin d) (Pcn : Coef A M N → Coef A M N) (Z : K → M → Grid N → ℝ)
    (S W : A → K → Grid N → ℝ) : ClsF (Coef A M N) (HS A M N a) :=
  { clsMOD a Pcn Z S with
    gradF := fun Vf =>
      let Ry := bwd a (evalRfD Z S Vf)
      conjZf Z (fwd a (mulW (fun i k p => W i k p ^ 2) Ry))
    obfnF := fun Xf =>
      let R := bwd a (evalRfD Z S Xf)
      1 / 2 * ‖fwd a (mulW W R)‖ ^ 2
    evalObj := fun X Xf =>
      let E := bwd a (evalRfD Z S Xf)
      (‖mulW W E‖ ^ 2 / 2, ‖Pcn X - X‖, 0) }

end CCMOD

/-- A freshly constructed object (`pgm/cbpdn.py` 229-243, `pgm/ccmod.py` 246-257, `pgm/pgm.py`
257-273). -/
structure Fresh {E Ef : Type*} (C : ClsF E Ef) (s : Pgm.St (Pgm.VarsF E Ef)) : Prop where
  Xf : s.v.Xf = C.rfftn s.v.X
  Yf : s.v.Yf = s.v.Xf
  t : s.v.t = 1
  k : s.k = 0
  itstat : s.itstat = []

end Sporco.PgmConv
