import Verif.Conv.TvModel

/-!
# Model of `ConvBPDNRecTV` (`sporco/admm/cbpdntv.py` 733-1355)

The conventions are those of `Conv/TvModel.lean`.  For a single-channel dictionary the index type `K` runs over
pairs of a channel and a signal, for a multi-channel dictionary over the signals (`CbpdnModel.lean`); `J` is the
index type of the signals and `sg : K → J` the signal that a coefficient array belongs to.  Y and U are pairs: the
gradients of the reconstruction (index: axis, dictionary channel, `K`, position) and the coefficients; in the code
the coefficients come first, along the filter axis.  The linear solver check, which only fills a statistics field,
is not modelled.
-/

set_option autoImplicit false
set_option linter.unusedSectionVars false

namespace Sporco.Conv.RTV

open Finset ComplexConjugate Sporco.Linalg Sporco.Prox Sporco.Admm Sporco.Conv Sporco.Conv.TVC

variable {d c : ℕ} {N Nd : Fin d → ℕ} [∀ k, NeZero (N k)] {a : Fin d} {K M J : Type*} [Fintype K]
  [Fintype M]

/-- Gradients of the reconstruction. -/
abbrev GR (c : ℕ) (K : Type*) [Fintype K] {d : ℕ} (N : Fin d → ℕ) [∀ k, NeZero (N k)] : Type _ :=
  EuclideanSpace ℝ ((Fin d × Fin (c + 1)) × K × Grid N)

/-- Y and U (`cbpdntv.py` 912-915). -/
abbrev YR (c : ℕ) (K M : Type*) [Fintype K] [Fintype M] {d : ℕ} (N : Fin d → ℕ) [∀ k, NeZero (N k)] : Type _ :=
  WithLp 2 (GR c K N × Coef K M N)

/-- The attributes `D`, `Df`, `GDf`, `DSf`, `Xf`. -/
structure AttrR (c : ℕ) (K M : Type*) {d : ℕ} (Nd N : Fin d → ℕ) [∀ k, NeZero (N k)] (a : Fin d) where
  D : Dict c M Nd
  Df : Spec (Fin (c + 1)) M N a
  GDf : Fin d → Spec (Fin (c + 1)) M N a
  DSf : Spec K M N a
  Xf : Spec K M N a

/-- `setdict` (`cbpdntv.py` 957-969). -/
noncomputable def setdict (S : Signal c K N) (wt : M → ℝ) (D : Dict c M Nd) (Xf : Spec K M N a) :
    AttrR c K M Nd N a :=
  let Df := dictF a D
  { D := D, Df := Df, DSf := dsF Df S, Xf := Xf
    GDf := fun i ch m ξ => rfft N a (pad N (Tv.Dec.gradG i)) ξ * (wt m * Df ch m ξ) }

/-- The solve at one frequency (`cbpdntv.py` 1053-1077): `solvemdbi_ism` with the components of `Df`, then for
each axis those of `sqrt(rho) * GDf`.  In the two branches the components are along different axes. -/
noncomputable def freqSolveR (df : Fin (c + 1) → M → ℂ) (gdf : Fin d → Fin (c + 1) → M → ℂ) (rho : ℝ)
    (b : M → ℂ) : M → ℂ :=
  solvemdbiIsm (df 0) ((List.ofFn fun i : Fin c => df i.succ) ++
    (List.ofFn fun k : Fin d => List.ofFn fun i : Fin (c + 1) => fun m => (Real.sqrt rho : ℂ) * gdf k i m).flatten)
    rho b

/-- `xstep` (`cbpdntv.py` 1024-1079). -/
noncomputable def xstep (rho : ℝ) (_X : Coef K M N) (Y U : YR c K M N) (h : AttrR c K M Nd N a) :
    Coef K M N × AttrR c K M Nd N a :=
  let YU := Y - U
  let b : Spec K M N a := fun k m ξ =>
    rho * ∑ ch, ∑ i, conj (h.GDf i ch m ξ) * rfft N a (part YU.fst (i, ch) k) ξ +
      (h.DSf k m ξ + rho * rfft N a (part YU.snd k m) ξ)
  let Xf : Spec K M N a := fun k m ξ =>
    freqSolveR (fun i n => h.Df i n ξ) (fun j i n => h.GDf j i n ξ) rho (fun n => b k n ξ) m
  (join fun k m => irfft N a (Xf k m), { h with Xf := Xf })

/-- The axes `(axisC, -1)` of the norms (`cbpdntv.py` 1106, 1231): entries with the same signal and position. -/
def axCLast (sg : K → J) (i : (Fin d × Fin (c + 1)) × K × Grid N) : J × Grid N := (sg i.2.1, i.2.2)

/-- Whether `block_sep1` (`cbpdntv.py` 980-997) returns a view of its argument.  For a single-channel dictionary
there is no reshape.  Otherwise an array of shape `(..., 1, K, Cd L)`, which is not contiguous, is reshaped to
`(..., Cd, K, L)`; without a copy NumPy can do this only if there is one signal or as many signals as channels. -/
def sep1View (c : ℕ) (K : Type*) [Fintype K] : Prop := c = 0 ∨ Fintype.card K = 1 ∨ Fintype.card K = c + 1

open Classical in
/-- `ystep` (`cbpdntv.py` 1098-1106).  The assignment to `block_sep1(self.Y)[:]` has an effect only if this is a
view.  Neither `NonNegCoef` nor `NoBndryCross` is looked at. -/
noncomputable def ystep [DecidableEq J] (sg : K → J) (lmbda mu : ℝ) (w : K × M × Grid N → ℝ) (rho : ℝ)
    (AX : YR c K M N) (_X : Coef K M N) (Y U : YR c K M N) (h : AttrR c K M Nd N a) :
    YR c K M N × AttrR c K M Nd N a :=
  let AXU := AX + U
  (WithLp.toLp 2 (if sep1View c K then WithLp.toLp 2 (proxGrp (axCLast sg) AXU.fst.ofLp (mu / rho)) else Y.fst,
    WithLp.toLp 2 (proxL1Arr AXU.snd.ofLp fun i => lmbda / rho * w i)), h)

/-- `cnst_A1` (`cbpdntv.py` 1261-1271), given the dictionary.  In `relax_AX` it is given `self.Xf`, which is the
transform of `self.X` (theorem `xstep_Xf`); here the transform is written out. -/
noncomputable def cnstA1 (a : Fin d) (wt : M → ℝ) (D : Dict c M Nd) (X : Coef K M N) : GR c K N :=
  join fun ic k => irfft N a fun ξ => ∑ m, rfft N a (pad N (Tv.Dec.gradG ic.1)) ξ * (wt m * dictF a D ic.2 m ξ) *
    rfft N a (part X k m) ξ

/-- `cnst_A` (`cbpdntv.py` 1287-1293) with `cnst_A0` (1242-1247). -/
noncomputable def cnstA (a : Fin d) (wt : M → ℝ) (D : Dict c M Nd) (X : Coef K M N) : YR c K M N :=
  WithLp.toLp 2 (cnstA1 a wt D X, X)

/-- `cnst_AT` (`cbpdntv.py` 1297-1304) with `cnst_A0T` and `cnst_A1T` (1251-1257, 1275-1283).  There is no sum
over the channels of the dictionary: the result has a channel axis. -/
noncomputable def cnstAT (a : Fin d) (wt : M → ℝ) (D : Dict c M Nd) (Y : YR c K M N) :
    Coef (Fin (c + 1) × K) M N :=
  join fun ck m p => part Y.snd ck.2 m p + ∑ i, irfft N a (fun ξ =>
    conj (rfft N a (pad N (Tv.Dec.gradG i)) ξ * (wt m * dictF a D ck.1 m ξ)) *
      rfft N a (part Y.fst (i, ck.1) ck.2) ξ) p

/-- `obfn_fvarf` (`cbpdntv.py` 1110-1116). -/
noncomputable def fvarf (fEvalX : Bool) (Y : YR c K M N) (h : AttrR c K M Nd N a) : Spec K M N a :=
  if fEvalX then h.Xf else fun k m => rfft N a (part Y.snd k m)

/-- `obfn_dfd` (`cbpdntv.py` 1213-1220). -/
noncomputable def dfd (S : Signal c K N) (fEvalX : Bool) (Y : YR c K M N) (h : AttrR c K M Nd N a) : ℝ :=
  rfl2norm2 N a (fun p : (Fin (c + 1) × K) × Half N a =>
    inner (fun m => h.Df p.1.1 m p.2) (fun m => fvarf fEvalX Y h p.1.2 m p.2) - sigF a S p.1.1 p.1.2 p.2) / 2

/-- `eval_objfn` (`cbpdntv.py` 1201-1209) with `obfn_reg` (1224-1232), `obfn_g0var` and `obfn_g1var` (1167-1187):
`ObjFun`, `DFid`, `RegL1`, `RegTV`. -/
noncomputable def evalObjfn [Fintype J] [DecidableEq J] (sg : K → J) (D : Dict c M Nd) (S : Signal c K N)
    (lmbda mu : ℝ) (w : K × M × Grid N → ℝ) (wt : M → ℝ) (fEvalX gEvalY : Bool) (X : Coef K M N) (Y : YR c K M N)
    (h : AttrR c K M Nd N a) : ℝ × ℝ × ℝ × ℝ :=
  let f := dfd S fEvalX Y h
  let v := if gEvalY then Y else cnstA a wt D X
  let r1 := normL1 fun i => w i * v.snd i
  let rtv := sumGrp (axCLast sg) v.fst.ofLp
  (f + (lmbda * r1 + mu * rtv), f, r1, rtv)

/-- `reconstruct` (`cbpdntv.py` 1347-1355), given X. -/
noncomputable def reconstruct (X : Coef K M N) (h : AttrR c K M Nd N a) : Signal c K N :=
  fun i k => irfft N a fun ξ => ∑ m, h.Df i m ξ * rfft N a (part X k m) ξ

/-- The class `ConvBPDNRecTV`.  `rhochange` is inherited and does nothing. -/
noncomputable def cls [Fintype J] [DecidableEq J] (sg : K → J) (D : Dict c M Nd) (S : Signal c K N) (lmbda mu : ℝ)
    (w : K × M × Grid N → ℝ) (wt : M → ℝ) (fEvalX gEvalY : Bool) :
    Cls (Coef K M N) (YR c K M N) (YR c K M N) (AttrR c K M Nd N a) where
  xstep := xstep
  ystep := ystep sg lmbda mu w
  relax := relaxAX (cnstA a wt D) (fun y => -y) 0
  ustep := Admm.ustep (fun y => -y) 0
  nrmR AX Y := ‖rsdlR (fun y => -y) 0 AX Y‖
  nrmS rho Yprev Y _ := ‖rsdlS (cnstAT a wt D) (fun y => -y) rho Yprev Y‖
  rsdlRn := Admm.rsdlRn (fun y => -y) 0
  rsdlSn := Admm.rsdlSn (cnstAT a wt D)
  rhochange _ h := h
  objfn X Y h :=
    let v := evalObjfn sg D S lmbda mu w wt fEvalX gEvalY X Y h
    (v.1, v.2.1, v.2.2.1)

end Sporco.Conv.RTV
