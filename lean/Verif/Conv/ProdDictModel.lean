import Verif.Conv.CbpdnModel

/-!
# Model of `ConvProdDictBPDN` and `ConvProdDictBPDNJoint` (`sporco/admm/pdcsc.py` 28-287)

The conventions are those of `Conv/CbpdnModel.lean`.  The convolutional dictionary has one channel (the
constructor raises `ValueError` otherwise, 88-90).  The signal has `c + 1` channels; the channel axis of the
coefficient array, whose length is the number of columns of B, has the index `L` and is written next to
the filter index `M`.  B is real.  `numpy.linalg.eigh` is a parameter with a contract (`EighOk`).
-/

set_option autoImplicit false
set_option linter.unusedSectionVars false

namespace Sporco.Conv.PD

open Finset ComplexConjugate Sporco.Linalg Sporco.Prox Sporco.Admm Sporco.Conv

variable {d c : ℕ} {N Nd : Fin d → ℕ} [∀ k, NeZero (N k)] {a : Fin d} {K L M : Type*} [Fintype K]
  [Fintype L] [Fintype M] [DecidableEq L]

/-- The type of `numpy.linalg.eigh`: eigenvalues, and a matrix whose columns are eigenvectors. -/
abbrev Eigh (L : Type*) : Type _ := Matrix L L ℝ → (L → ℝ) × Matrix L L ℝ

/-- What `numpy.linalg.eigh` is trusted to do: for a symmetric matrix the eigenvectors are orthonormal and
the products of the factors give the matrix back. -/
def EighOk (eigh : Eigh L) : Prop :=
  ∀ A : Matrix L L ℝ, A.IsSymm → (eigh A).2.transpose * (eigh A).2 = 1 ∧
    (eigh A).2 * Matrix.diagonal (eigh A).1 * (eigh A).2.transpose = A

/-- Attributes of a `ConvProdDictBPDN` object set by `setdict` and `xstep` (`pdcsc.py` 104-148). -/
structure AttrP (c : ℕ) (K L M : Type*) {d : ℕ} (Nd N : Fin d → ℕ) [∀ k, NeZero (N k)] (a : Fin d) where
  D : Dict 0 M Nd
  B : Matrix (Fin (c + 1)) L ℝ
  Gamma : L → ℝ
  Q : Matrix L L ℝ
  Df : Spec (Fin 1) M N a
  DSfBQ : Spec K (L × M) N a
  gDf : L → M → Half N a → ℂ
  cc : Option (L → M → Half N a → ℂ)
  Xf : Spec K (L × M) N a

/-- `self.Gamma`, `self.Q` (`pdcsc.py` 113-114). -/
noncomputable def eigs (eigh : Eigh L) (B : Matrix (Fin (c + 1)) L ℝ) : (L → ℝ) × Matrix L L ℝ :=
  let e := eigh (B.transpose * B)
  (fun l => |e.1 l|, e.2)

/-- `self.DSfBQ` (`pdcsc.py` 118-120). -/
noncomputable def dsBQ (B : Matrix (Fin (c + 1)) L ℝ) (Q : Matrix L L ℝ) (Df : Spec (Fin 1) M N a)
    (S : Signal c K N) : Spec K (L × M) N a :=
  fun k j ξ => ∑ i, (((B * Q) i j.1 : ℝ) : ℂ) * (conj (Df 0 j.2 ξ) * sigF a S i k ξ)

/-- `self.gDf` (`pdcsc.py` 126-127). -/
noncomputable def gdf (Gamma : L → ℝ) (Df : Spec (Fin 1) M N a) : L → M → Half N a → ℂ :=
  fun l m ξ => ((Real.sqrt (Gamma l) : ℝ) : ℂ) * Df 0 m ξ

/-- `solvedbi_sm_c(self.gDf, np.conj(self.gDf), self.rho, self.cri.axisM)` (`pdcsc.py` 130-131, 179-180). -/
noncomputable def cacheP (gDf : L → M → Half N a → ℂ) (rho : ℝ) : L → M → Half N a → ℂ :=
  fun l m ξ => solvedbiSmC (fun n => gDf l n ξ) (fun n => conj (gDf l n ξ)) rho m

/-- The part of `setdict` after the spectra (`pdcsc.py` 122-133). -/
noncomputable def fin (q : COpts) (rho : ℝ) (D : Dict 0 M Nd) (B : Matrix (Fin (c + 1)) L ℝ)
    (e : (L → ℝ) × Matrix L L ℝ) (Df : Spec (Fin 1) M N a) (DSfBQ : Spec K (L × M) N a)
    (Xf : Spec K (L × M) N a) : AttrP c K L M Nd N a :=
  let gDf := gdf e.1 Df
  { D := D, B := B, Gamma := e.1, Q := e.2, Df := Df, DSfBQ := DSfBQ, gDf := gDf, Xf := Xf
    cc := if q.highMem then some (cacheP gDf rho) else none }

/-- The call of `setdict` made by the constructor of the base class (`cbpdn.py` 238): the attributes
`Gamma` and `Df` do not exist, so everything is computed (`pdcsc.py` 104-133). -/
noncomputable def setdict0 (eigh : Eigh L) (q : COpts) (S : Signal c K N) (rho : ℝ) (D : Dict 0 M Nd)
    (B : Matrix (Fin (c + 1)) L ℝ) (Xf : Spec K (L × M) N a) : AttrP c K L M Nd N a :=
  let e := eigs eigh B
  let Df := dictF a D
  fin q rho D B e Df (dsBQ B e.2 Df S) Xf

/-- `ConvProdDictBPDN.setdict(D, B)` on an existing object (`pdcsc.py` 104-133); an argument that is not
given is `none`. -/
noncomputable def setdict (eigh : Eigh L) (q : COpts) (S : Signal c K N) (rho : ℝ)
    (Dn : Option (Dict 0 M Nd)) (Bn : Option (Matrix (Fin (c + 1)) L ℝ)) (h : AttrP c K L M Nd N a) :
    AttrP c K L M Nd N a :=
  let D := Dn.getD h.D
  let B := Bn.getD h.B
  let e := if Bn.isSome then eigs eigh B else (h.Gamma, h.Q)
  let s : Spec (Fin 1) M N a × Spec K (L × M) N a :=
    if Dn.isSome then (dictF a D, dsBQ B e.2 (dictF a D) S) else (h.Df, h.DSfBQ)
  fin q rho D B e s.1 s.2 h.Xf

/-- `ConvProdDictBPDN.rhochange` (`pdcsc.py` 175-180). -/
noncomputable def rhochange (q : COpts) (rho : ℝ) (h : AttrP c K L M Nd N a) : AttrP c K L M Nd N a :=
  if q.highMem then { h with cc := some (cacheP h.gDf rho) } else h

/-- `Xf` as computed by `ConvProdDictBPDN.xstep` (`pdcsc.py` 141-147). -/
noncomputable def solveP (rho : ℝ) (Y U : Coef K (L × M) N) (h : AttrP c K L M Nd N a) : Spec K (L × M) N a :=
  let YU := Y - U
  let ZfQ : Spec K (L × M) N a := fun k j ξ => ∑ l, ((h.Q.transpose j.1 l : ℝ) : ℂ) * rfft N a (part YU k (l, j.2)) ξ
  let b : Spec K (L × M) N a := fun k j ξ => h.DSfBQ k j ξ + rho * ZfQ k j ξ
  let Xh : Spec K (L × M) N a := fun k j ξ =>
    solvedbiSm (fun n => h.gDf j.1 n ξ) rho (fun n => b k (j.1, n) ξ) (h.cc.map fun f n => f j.1 n ξ) j.2
  fun k j ξ => ∑ l, ((h.Q j.1 l : ℝ) : ℂ) * Xh k (l, j.2) ξ

/-- `ConvProdDictBPDN.xstep` (`pdcsc.py` 137-148); the linear solver check is not modelled. -/
noncomputable def xstep (rho : ℝ) (_X Y U : Coef K (L × M) N) (h : AttrP c K L M Nd N a) :
    Coef K (L × M) N × AttrP c K L M Nd N a :=
  let Xf := solveP rho Y U h
  (join fun k m => irfft N a (Xf k m), { h with Xf := Xf })

/-- `ConvBPDN.ystep`, inherited (`cbpdn.py` 614-620). -/
noncomputable def ystep (q : COpts) (lmbda : ℝ) (w : K × (L × M) × Grid N → ℝ) (rho : ℝ)
    (AX _X _Y U : Coef K (L × M) N) (h : AttrP c K L M Nd N a) :
    Coef K (L × M) N × AttrP c K L M Nd N a :=
  (WithLp.toLp 2 (gystep q Nd (proxL1Arr (AX + U).ofLp fun i => lmbda / rho * w i)), h)

/-- `obfn_fvarf`, inherited (`cbpdn.py` 315-321). -/
noncomputable def fvarf (fEvalX : Bool) (Y : Coef K (L × M) N) (h : AttrP c K L M Nd N a) : Spec K (L × M) N a :=
  if fEvalX then h.Xf else fun k m ξ => rfft N a (part Y k m) ξ

/-- `ConvProdDictBPDN.obfn_dfd` (`pdcsc.py` 163-171). -/
noncomputable def dfd (S : Signal c K N) (fEvalX : Bool) (Y : Coef K (L × M) N) (h : AttrP c K L M Nd N a) : ℝ :=
  rfl2norm2 N a (fun p : (Fin (c + 1) × K) × Half N a =>
    (∑ l, ((h.B p.1.1 l : ℝ) : ℂ) *
      inner (fun m => h.Df 0 m p.2) (fun m => fvarf fEvalX Y h p.1.2 (l, m) p.2)) -
      sigF a S p.1.1 p.1.2 p.2) / 2

/-- The class `ConvProdDictBPDN` (`pdcsc.py` 28-192) with the inherited `eval_objfn` and `obfn_reg`
(`cbpdn.py` 325-333, 624-630). -/
noncomputable def clsPD (q : COpts) (S : Signal c K N) (lmbda : ℝ) (w : K × (L × M) × Grid N → ℝ)
    (fEvalX gEvalY : Bool) :
    Cls (Coef K (L × M) N) (Coef K (L × M) N) (Coef K (L × M) N) (AttrP c K L M Nd N a) :=
  Cls.equal xstep (ystep q lmbda w) (rhochange q) fun X Y h =>
    let f := dfd S fEvalX Y h
    let r := regL1 lmbda w (Bpdn.gvar gEvalY X Y)
    (f + r, f, r)

/-- `ConvProdDictBPDN.reconstruct` (`pdcsc.py` 184-192) for a given array. -/
noncomputable def reconstruct (h : AttrP c K L M Nd N a) (X : Coef K (L × M) N) : Signal c K N :=
  fun i k => irfft N a fun ξ => ∑ l, ((h.B i l : ℝ) : ℂ) * ∑ m, h.Df 0 m ξ * rfft N a (part X k (l, m)) ξ

/-- The penalty parameter and attributes set by the constructors (`pdcsc.py` 58-100, `admm.py` 247,
`cbpdn.py` 224, 238, 584), as in `initConvBPDN`. -/
noncomputable def initPD (eigh : Eigh L) (q : COpts) (S : Signal c K N) (lmbda : ℝ) (optRho : Option ℝ)
    (D : Dict 0 M Nd) (B : Matrix (Fin (c + 1)) L ℝ) (Xf : Spec K (L × M) N a) : ℝ × AttrP c K L M Nd N a :=
  (optRho.getD (50 * lmbda + 1), setdict0 eigh q S (optRho.getD 1) D B Xf)

/-! ## `ConvProdDictBPDNJoint` -/

/-- `ConvProdDictBPDNJoint.ystep` (`pdcsc.py` 265-273). -/
noncomputable def ystepJ (q : COpts) (lmbda mu : ℝ) (w : K × (L × M) × Grid N → ℝ) (rho : ℝ)
    (AX _X _Y U : Coef K (L × M) N) (h : AttrP c K L M Nd N a) :
    Coef K (L × M) N × AttrP c K L M Nd N a :=
  (WithLp.toLp 2 (gystep q Nd fun p =>
    proxSl1l2 (fun l => (AX + U).ofLp (p.1, (l, p.2.1.2), p.2.2))
      (fun l => lmbda / rho * w (p.1, (l, p.2.1.2), p.2.2)) (mu / rho) p.2.1.1), h)

/-- `ConvProdDictBPDNJoint.obfn_reg`, first entry (`pdcsc.py` 278-287). -/
noncomputable def regJ (lmbda mu : ℝ) (w : K × (L × M) × Grid N → ℝ) (y : Coef K (L × M) N) : ℝ :=
  lmbda * normL1 (fun i => w i * y i) +
    mu * ∑ p : K × M × Grid N, Real.sqrt (∑ l, y (p.1, (l, p.2.1), p.2.2) ^ 2)

/-- The class `ConvProdDictBPDNJoint` (`pdcsc.py` 198-287). -/
noncomputable def clsPDJ (q : COpts) (S : Signal c K N) (lmbda mu : ℝ) (w : K × (L × M) × Grid N → ℝ)
    (fEvalX gEvalY : Bool) :
    Cls (Coef K (L × M) N) (Coef K (L × M) N) (Coef K (L × M) N) (AttrP c K L M Nd N a) :=
  Cls.equal xstep (ystepJ q lmbda mu w) (rhochange q) fun X Y h =>
    let f := dfd S fEvalX Y h
    let r := regJ lmbda mu w (Bpdn.gvar gEvalY X Y)
    (f + r, f, r)

end Sporco.Conv.PD
