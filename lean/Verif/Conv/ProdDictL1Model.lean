import Verif.Conv.ProdDictModel
import Verif.Conv.L1L1Model

/-!
# Model of `ConvProdDictL1L1Grd` and `ConvProdDictL1L1GrdJoint` (`sporco/admm/pdcsc.py` 293-701)

The conventions are those of `Conv/ProdDictModel.lean` and `Conv/L1L1Model.lean`.  The composite array Y is a
pair of blocks: `block_sep0`, `block_sep1` and `block_cat` (407-446) only change the layout (splitting the last
axis of a slice gives a view, so that the assignment through `block_sep0` in `xstep` has its effect).
-/

set_option autoImplicit false
set_option linter.unusedSectionVars false

namespace Sporco.Conv.PL

open Finset ComplexConjugate Sporco.Linalg Sporco.Prox Sporco.Admm Sporco.Conv Sporco.Conv.TB Sporco.Conv.Grd
  Sporco.Conv.PD

variable {d c : ℕ} {N Nd : Fin d → ℕ} [∀ k, NeZero (N k)] {a : Fin d} {K L M : Type*} [Fintype K]
  [Fintype L] [Fintype M] [DecidableEq L]

/-- The attributes set by `setdict` (`pdcsc.py` 478-505), without the cached component (see `init`). -/
structure Fix (c : ℕ) (L M : Type*) {d : ℕ} (Nd N : Fin d → ℕ) [∀ k, NeZero (N k)] (a : Fin d) where
  D : Dict 0 M Nd
  B : Matrix (Fin (c + 1)) L ℝ
  Gamma : L → ℝ
  Q : Matrix L L ℝ
  Df : Spec (Fin 1) M N a
  gDf : L → M → Half N a → ℂ

/-- The call of `setdict` made by the constructor of `ConvTwoBlockCnstrnt` (`cbpdn.py` 1585): the attributes
`Gamma` and `Df` do not exist (`pdcsc.py` 486-498). -/
noncomputable def fix0 (eigh : Eigh L) (D : Dict 0 M Nd) (B : Matrix (Fin (c + 1)) L ℝ) : Fix c L M Nd N a :=
  let e := eigs eigh B
  { D := D, B := B, Gamma := e.1, Q := e.2, Df := dictF a D, gDf := gdf e.1 (dictF a D) }

/-- `ConvProdDictL1L1Grd.setdict(D, B)` on an existing object (`pdcsc.py` 478-505). -/
noncomputable def setdict (eigh : Eigh L) (Dn : Option (Dict 0 M Nd)) (Bn : Option (Matrix (Fin (c + 1)) L ℝ))
    (f : Fix c L M Nd N a) : Fix c L M Nd N a :=
  let D := Dn.getD f.D
  let B := Bn.getD f.B
  let e := if Bn.isSome then eigs eigh B else (f.Gamma, f.Q)
  let Df := if Dn.isSome then dictF a D else f.Df
  { D := D, B := B, Gamma := e.1, Q := e.2, Df := Df, gDf := gdf e.1 Df }

/-- `ConvProdDictL1L1Grd.__init__` (`pdcsc.py` 327-403): with `HighMemSolve` the first `setdict` reads `self.mu`,
which is set later (`cbpdn.py` 2648), and raises `AttributeError` (`none`).  Y and U are zero whatever the
options `Y0` and `U0` say. -/
noncomputable def init (eigh : Eigh L) (q : COpts) (D : Dict 0 M Nd) (B : Matrix (Fin (c + 1)) L ℝ)
    (_Y0 _U0 : YY c K (L × M) N) : Option (Fix c L M Nd N a × YY c K (L × M) N × YY c K (L × M) N) :=
  if q.highMem then none else some (fix0 eigh D B, 0, 0)

/-- `ConvProdDictL1L1Grd.cnst_A0` (`pdcsc.py` 450-459). -/
noncomputable def cnstA0 (f : Fix c L M Nd N a) (X : Coef K (L × M) N) : Sig (Fin (c + 1)) K N :=
  join fun i k => irfft N a fun ξ =>
    ∑ l, ((f.B i l : ℝ) : ℂ) * inner (fun m => f.Df 0 m ξ) fun m => rfft N a (part X k (l, m)) ξ

/-- `ConvProdDictL1L1Grd.cnst_A0T` (`pdcsc.py` 463-474). -/
noncomputable def cnstA0T (f : Fix c L M Nd N a) (Y0 : Sig (Fin (c + 1)) K N) : Coef K (L × M) N :=
  join fun k j => irfft N a fun ξ =>
    ∑ i, ((f.B.transpose j.1 i : ℝ) : ℂ) * (conj (f.Df 0 j.2 ξ) * rfft N a (part Y0 i k) ξ)

/-- `ConvProdDictL1L1Grd.xstep` (`pdcsc.py` 509-528); the linear solver check is not modelled. -/
noncomputable def xstep (f : Fix c L M Nd N a) (S : Signal c K N) (mu : ℝ) (wg : M → ℝ) (rho : ℝ)
    (_X : Coef K (L × M) N) (Y U : YY c K (L × M) N) (_Xf : Spec K (L × M) N a) :
    Coef K (L × M) N × Spec K (L × M) N a :=
  let YU := Y - U
  let YU0 := TwoBlock.sep0 YU + join S
  let YU1 := TwoBlock.sep1 YU
  let DZ0f : Fin (c + 1) → K → M → Half N a → ℂ := fun i k m ξ => conj (f.Df 0 m ξ) * rfft N a (part YU0 i k) ξ
  let DZ0fBQ : Spec K (L × M) N a := fun k j ξ => ∑ i, (((f.B * f.Q).transpose j.1 i : ℝ) : ℂ) * DZ0f i k j.2 ξ
  let Z1fQ : Spec K (L × M) N a := fun k j ξ =>
    ∑ l, ((f.Q.transpose j.1 l : ℝ) : ℂ) * rfft N a (part YU1 k (l, j.2)) ξ
  let b : Spec K (L × M) N a := fun k j ξ => DZ0fBQ k j ξ + Z1fQ k j ξ
  let Xh : Spec K (L × M) N a := fun k j ξ =>
    solvedbdSm (fun n => f.gDf j.1 n ξ) (fun n => (LG.diagL a mu wg rho n ξ : ℂ)) (fun n => b k (j.1, n) ξ) none j.2
  let Xf : Spec K (L × M) N a := fun k j ξ => ∑ l, ((f.Q j.1 l : ℝ) : ℂ) * Xh k (l, j.2) ξ
  (join fun k m => irfft N a (Xf k m), Xf)

/-- `ConvL1L1Grd.ystep`, inherited (`cbpdn.py` 2716-2726). -/
noncomputable def ystep (q : COpts) (Nd : Fin d → ℕ) (S W : Signal c K N) (lmbda : ℝ)
    (w : K × (L × M) × Grid N → ℝ) (rho : ℝ) (AX : YY c K (L × M) N) (_X : Coef K (L × M) N)
    (_Y U : YY c K (L × M) N) (Xf : Spec K (L × M) N a) : YY c K (L × M) N × Spec K (L × M) N a :=
  let AXU := AX + U
  let Y0 : Sig (Fin (c + 1)) K N := WithLp.toLp 2
    (proxL1Arr (TwoBlock.sep0 AXU - join S).ofLp fun i => 1 / rho * W i.1 i.2.1 i.2.2)
  let Y1 := proxL1Arr (TwoBlock.sep1 AXU).ofLp fun i => lmbda / rho * w i
  (tystep q Nd Y0 Y1, Xf)

/-- `obfn_g0var` (`cbpdn.py` 1728-1735) with the overridden `cnst_A0`. -/
noncomputable def g0var (f : Fix c L M Nd N a) (S : Signal c K N) (auxVarObj : Bool) (Y : YY c K (L × M) N)
    (Xf : Spec K (L × M) N a) : Sig (Fin (c + 1)) K N :=
  if auxVarObj then TwoBlock.sep0 Y
  else (join fun i k => irfft N a fun ξ =>
    ∑ l, ((f.B i l : ℝ) : ℂ) * inner (fun m => f.Df 0 m ξ) fun m => Xf k (l, m) ξ) - join S

/-- `eval_objfn`, inherited (`cbpdn.py` 2730-2749), for a given `obfn_g1`: the recorded `ObjFun`, `DFid`,
l1 or l2,1 term, and gradient term. `GHGf` has one entry for every filter, whatever the channel. -/
noncomputable def evalObjfn (f : Fix c L M Nd N a) (S W : Signal c K N) (lmbda mu : ℝ)
    (g1 : Coef K (L × M) N → ℝ) (wg : M → ℝ) (auxVarObj : Bool) (X : Coef K (L × M) N) (Y : YY c K (L × M) N)
    (Xf : Spec K (L × M) N a) : ℝ × ℝ × ℝ × ℝ :=
  let Y0 := g0var f S auxVarObj Y Xf
  let g0v := ∑ i, ∑ k, ∑ p, |W i k p * part Y0 i k p|
  let g1v := g1 (g1var auxVarObj X Y)
  let rgr := regGrad (fun j : L × M => wg j.2) Xf
  (g0v + lmbda * g1v + mu * rgr, g0v, g1v, rgr)

/-- A class with the methods of `ConvProdDictL1L1Grd` and the given `ystep` and `obfn_g1` (`pdcsc.py` 293-578),
between two calls of `setdict`. `relax_AX` is that of `ConvTwoBlockCnstrnt` (`cbpdn.py` 1664-1677), the residuals are
`pdcsc.py` 568-578. -/
noncomputable def clsOf (f : Fix c L M Nd N a) (S W : Signal c K N) (lmbda mu : ℝ)
    (ys : ℝ → YY c K (L × M) N → Coef K (L × M) N → YY c K (L × M) N → YY c K (L × M) N → Spec K (L × M) N a →
      YY c K (L × M) N × Spec K (L × M) N a)
    (g1 : Coef K (L × M) N → ℝ) (wg : M → ℝ) (auxVarObj : Bool) :
    Cls (Coef K (L × M) N) (YY c K (L × M) N) (YY c K (L × M) N) (Spec K (L × M) N a) where
  xstep := xstep f S mu wg
  ystep := ys
  relax := TwoBlock.relaxAX (cnstA0 f) (fun x => x) (join S) 0
  ustep := TwoBlock.ustep (join S) 0
  nrmR AX Y := ‖TwoBlock.rsdlR (join S) 0 AX Y‖
  nrmS rho _ _ U := ‖rho • TwoBlock.cnstAT (cnstA0T f) (fun y => y) U‖
  rsdlRn := TwoBlock.rsdlRn (join S) 0
  rsdlSn rho U := rho * ‖U‖
  rhochange _ h := h
  objfn X Y h :=
    let v := evalObjfn f S W lmbda mu g1 wg auxVarObj X Y h
    (v.1, v.2.1, v.2.2.1)

/-- The class `ConvProdDictL1L1Grd` (`pdcsc.py` 293-578) with the inherited `obfn_g1` (`cbpdn.py` 2274-2279). -/
noncomputable def clsPL (q : COpts) (f : Fix c L M Nd N a) (S W : Signal c K N) (lmbda mu : ℝ)
    (w : K × (L × M) × Grid N → ℝ) (wg : M → ℝ) (auxVarObj : Bool) :
    Cls (Coef K (L × M) N) (YY c K (L × M) N) (YY c K (L × M) N) (Spec K (L × M) N a) :=
  clsOf f S W lmbda mu (ystep q Nd S W lmbda w) (fun y => normL1 fun i => w i * y i) wg auxVarObj

/-- `ConvProdDictL1L1Grd.reconstruct` (`pdcsc.py` 554-562) for a given array. -/
noncomputable def reconstruct (f : Fix c L M Nd N a) (X : Coef K (L × M) N) : Signal c K N :=
  fun i k => irfft N a fun ξ => ∑ l, ((f.B i l : ℝ) : ℂ) * ∑ m, f.Df 0 m ξ * rfft N a (part X k (l, m)) ξ

/-! ## `ConvProdDictL1L1GrdJoint` -/

/-- `ConvProdDictL1L1GrdJoint.ystep` (`pdcsc.py` 681-692). `wl21` is already
broadcast; only weights for the signal and filter axes are modelled (a longer array does not broadcast in the same
way here and in `obfn_g1`). -/
noncomputable def ystepJ (q : COpts) (Nd : Fin d → ℕ) (S W : Signal c K N) (lmbda : ℝ)
    (wl21 : K × M → ℝ) (rho : ℝ) (AX : YY c K (L × M) N) (_X : Coef K (L × M) N)
    (_Y U : YY c K (L × M) N) (Xf : Spec K (L × M) N a) : YY c K (L × M) N × Spec K (L × M) N a :=
  let AXU := AX + U
  let Y0 : Sig (Fin (c + 1)) K N := WithLp.toLp 2
    (proxL1Arr (TwoBlock.sep0 AXU - join S).ofLp fun i => 1 / rho * W i.1 i.2.1 i.2.2)
  let Y1 : K × (L × M) × Grid N → ℝ := fun p =>
    proxSl1l2 (fun l => (TwoBlock.sep1 AXU).ofLp (p.1, (l, p.2.1.2), p.2.2)) (fun _ => 0)
      (lmbda / rho * wl21 (p.1, p.2.1.2)) p.2.1.1
  (tystep q Nd Y0 Y1, Xf)

/-- `ConvProdDictL1L1GrdJoint.obfn_g1` (`pdcsc.py` 696-701). -/
noncomputable def g1J (wl21 : K × M → ℝ) (y : Coef K (L × M) N) : ℝ :=
  ∑ p : K × M × Grid N, wl21 (p.1, p.2.1) * Real.sqrt (∑ l, y (p.1, (l, p.2.1), p.2.2) ^ 2)

/-- The class `ConvProdDictL1L1GrdJoint` (`pdcsc.py` 584-701). -/
noncomputable def clsPLJ (q : COpts) (f : Fix c L M Nd N a) (S W : Signal c K N) (lmbda mu : ℝ)
    (wl21 : K × M → ℝ) (wg : M → ℝ) (auxVarObj : Bool) :
    Cls (Coef K (L × M) N) (YY c K (L × M) N) (YY c K (L × M) N) (Spec K (L × M) N a) :=
  clsOf f S W lmbda mu (ystepJ q Nd S W lmbda wl21) (g1J wl21) wg auxVarObj

end Sporco.Conv.PL
