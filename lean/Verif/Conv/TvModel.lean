import Verif.Conv.GradModel

/-!
# Model of `ConvBPDNScalarTV` and `ConvBPDNVectorTV` (`sporco/admm/cbpdntv.py` 31-727)

The conventions are those of `Conv/CbpdnModel.lean`.  The last axis of Y and U, which indexes the gradient
components followed by the coefficient array, is a pair: an array of gradient components (index `Fin d`, then
signal, filter and position) and an array of coefficients, with the norm of the whole array.  `TVWeight` is an
array with one entry for every filter; a scalar is a constant array.  The linear solver check, which only fills a
statistics field, is not modelled.
-/

set_option autoImplicit false
set_option linter.unusedSectionVars false

namespace Sporco.Conv.TVC

open Finset ComplexConjugate Sporco.Linalg Sporco.Prox Sporco.Admm Sporco.Conv

variable {d c : ℕ} {N Nd : Fin d → ℕ} [∀ k, NeZero (N k)] {a : Fin d} {K M : Type*} [Fintype K]
  [Fintype M]

/-- Index of an entry of the gradient components. -/
abbrev GIdx (K M : Type*) {d : ℕ} (N : Fin d → ℕ) [∀ k, NeZero (N k)] : Type _ := Fin d × (K × M) × Grid N

/-- Y and U: gradient components and coefficients (`cbpdntv.py` 203-205). -/
abbrev YT (K M : Type*) [Fintype K] [Fintype M] {d : ℕ} (N : Fin d → ℕ) [∀ k, NeZero (N k)] : Type _ :=
  WithLp 2 (EuclideanSpace ℝ (GIdx K M N) × Coef K M N)

/-- `solvedbi_sm_c` (`linalg.py` 297) given an array instead of a scalar. -/
noncomputable def smcE (ah a r : M → ℂ) : M → ℂ := fun m => ah m / (inner ah a + r m)

/-- `solvedbi_sm` (`linalg.py` 266-273) given an array instead of a scalar. -/
noncomputable def smE (ah r b : M → ℂ) (cc : Option (M → ℂ)) : M → ℂ :=
  let a := fun m => conj (ah m)
  let cc := cc.getD (smcE ah a r)
  fun m => (b m - a m * inner cc b) / r m

/-- The linear solve at one frequency (`cbpdntv.py` 289-296): `solvedbi_sm` for `Cd == 1`, otherwise
`solvemdbi_ism`. -/
noncomputable def freqSolveT (df : Fin (c + 1) → M → ℂ) (r b : M → ℂ) (cc : Option (M → ℂ)) : M → ℂ :=
  if c = 0 then smE (df 0) r b cc
  else solvemdbiIsmD (df 0) (List.ofFn fun i : Fin c => df i.succ) r b

/-- `self.GHGf` (`cbpdntv.py` 237). -/
noncomputable def ghgT (a : Fin d) (wt : M → ℝ) (m : M) (ξ : Half N a) : ℝ := wt m ^ 2 * Grd.ghg a ξ

/-- `self.rho*self.GHGf + self.rho` (`cbpdntv.py` 260, 272, 291, 295). -/
noncomputable def diagT (a : Fin d) (wt : M → ℝ) (rho : ℝ) (m : M) (ξ : Half N a) : ℝ :=
  rho * ghgT a wt m ξ + rho

/-- `sl.solvedbi_sm_c(self.Df, np.conj(self.Df), ..., self.cri.axisM)` (`cbpdntv.py` 259-261, 271-273). -/
noncomputable def cacheT (Df : Spec (Fin (c + 1)) M N a) (wt : M → ℝ) (rho : ℝ) : M → Half N a → ℂ :=
  fun m ξ => smcE (fun n => Df 0 n ξ) (fun n => conj (Df 0 n ξ)) (fun n => (diagT a wt rho n ξ : ℂ)) m

/-- `setdict` (`cbpdntv.py` 248-263). -/
noncomputable def setdict (q : COpts) (S : Signal c K N) (wt : M → ℝ) (rho : ℝ) (D : Dict c M Nd)
    (Xf : Spec K M N a) : Attr c K M Nd N a :=
  let Df := dictF a D
  { D := D, Df := Df, DSf := dsF Df S, Xf := Xf
    cc := if q.caches c then some (cacheT Df wt rho) else none }

/-- `rhochange` (`cbpdntv.py` 267-273). -/
noncomputable def rhochange (q : COpts) (wt : M → ℝ) (rho : ℝ) (h : Attr c K M Nd N a) : Attr c K M Nd N a :=
  if q.caches c then { h with cc := some (cacheT h.Df wt rho) } else h

/-- `xstep` (`cbpdntv.py` 277-298). -/
noncomputable def xstep (wt : M → ℝ) (rho : ℝ) (_X : Coef K M N) (Y U : YT K M N) (h : Attr c K M Nd N a) :
    Coef K M N × Attr c K M Nd N a :=
  let YU := Y - U
  let Gf := fun i : Fin d => rfft N a (pad N (Tv.Dec.gradG i))
  let b : Spec K M N a := fun k m ξ => h.DSf k m ξ + rho * (rfft N a (part YU.snd k m) ξ +
    wt m * ∑ i, conj (Gf i ξ) * rfft N a (part YU.fst i (k, m)) ξ)
  let Xf : Spec K M N a := fun k m ξ =>
    freqSolveT (fun i n => h.Df i n ξ) (fun n => (diagT a wt rho n ξ : ℂ)) (fun n => b k n ξ)
      (h.cc.map fun f n => f n ξ) m
  (join fun k m => irfft N a (Xf k m), { h with Xf := Xf })

/-- `prox_l2(v, alpha, axis)` (`prox/_lp.py` 284-290): the norms are taken over the entries that agree on the
remaining axes, here those to which `g` gives the same value. -/
noncomputable def proxGrp {ι G : Type*} [Fintype ι] [DecidableEq G] (g : ι → G) (v : ι → ℝ) (alpha : ℝ) :
    ι → ℝ :=
  fun i => proxL2 (fun j : {j // g j = g i} => v j) alpha ⟨i, rfl⟩

/-- `np.sum(np.sqrt(np.sum(v**2, axis)))`, with `g` as in `proxGrp`. -/
noncomputable def sumGrp {ι G : Type*} [Fintype ι] [Fintype G] [DecidableEq G] (g : ι → G) (v : ι → ℝ) : ℝ :=
  ∑ j, Real.sqrt (∑ i with g i = j, v i ^ 2)

/-- `axis=None`: the entire array is one vector (`prox/_lp.py` 270-272).  This is the default, which
`ConvBPDNScalarTV.ystep` uses (`cbpdntv.py` 319). -/
def axNone (_ : GIdx K M N) : Unit := ()

/-- `axis=-1` (`cbpdntv.py` 445). -/
def axLast (i : GIdx K M N) : (K × M) × Grid N := i.2

/-- `axis=(self.cri.axisM, -1)` (`cbpdntv.py` 713, 726). -/
def axMLast (i : GIdx K M N) : K × Grid N := (i.2.1.1, i.2.2)

/-- `ystep` (`cbpdntv.py` 314-321, 707-715), with the axes of `prox_l2` given by `g`.  Neither `NonNegCoef` nor
`NoBndryCross` is looked at. -/
noncomputable def ystep {G : Type*} [DecidableEq G] (g : GIdx K M N → G) (lmbda mu : ℝ) (w : K × M × Grid N → ℝ)
    (rho : ℝ) (AX : YT K M N) (_X : Coef K M N) (_Y U : YT K M N) (h : Attr c K M Nd N a) :
    YT K M N × Attr c K M Nd N a :=
  let AXU := AX + U
  (WithLp.toLp 2 (WithLp.toLp 2 (proxGrp g AXU.fst.ofLp (mu / rho)),
    WithLp.toLp 2 (proxL1Arr AXU.snd.ofLp fun i => lmbda / rho * w i)), h)

/-- `cnst_A0` (`cbpdntv.py` 457-466).  In `relax_AX` it is given `self.Xf`, which is the transform of `self.X`
(theorem `xstep_Xf`); here the transform is written out. -/
noncomputable def cnstA0 (a : Fin d) (wt : M → ℝ) (X : Coef K M N) : EuclideanSpace ℝ (GIdx K M N) :=
  WithLp.toLp 2 fun i => wt i.2.1.2 * irfft N a (fun ξ => rfft N a (pad N (Tv.Dec.gradG i.1)) ξ *
    rfft N a (part X i.2.1.1 i.2.1.2) ξ) i.2.2

/-- `cnst_A` (`cbpdntv.py` 502-509) with `cnst_A1` (483-488). -/
noncomputable def cnstA (a : Fin d) (wt : M → ℝ) (X : Coef K M N) : YT K M N :=
  WithLp.toLp 2 (cnstA0 a wt X, X)

/-- `cnst_AT` (`cbpdntv.py` 513-520) with `cnst_A0T` (470-479) and `cnst_A1T` (492-498). -/
noncomputable def cnstAT (a : Fin d) (wt : M → ℝ) (Y : YT K M N) : Coef K M N :=
  join fun k m p => ∑ i, wt m * irfft N a (fun ξ => conj (rfft N a (pad N (Tv.Dec.gradG i)) ξ) *
    rfft N a (part Y.fst i (k, m)) ξ) p + part Y.snd k m p

/-- The `L1Weight` option: a scalar or an array of shape `(1, ..., 1, M)`.  Arrays with other shapes are not
modelled: in `obfn_reg` they do not broadcast unless array sizes coincide. -/
inductive L1W (M : Type*) where
  | scalar (w : ℝ)
  | filter (w : M → ℝ)

/-- The weight of an entry of the coefficient array (`cbpdntv.py` 209-210, 320-321). -/
def L1W.arr (wl : L1W M) (i : K × M × Grid N) : ℝ :=
  match wl with
  | .scalar w => w
  | .filter w => w i.2.1

/-- `np.linalg.norm((self.Wl1 * self.obfn_g1var()).ravel(), 1)` (`cbpdntv.py` 444).  `obfn_g1var()` has one more
axis, of length one, than `Wl1`, so that the filter axis of `Wl1` is aligned with this axis and the product has
two filter axes. -/
noncomputable def rl1 (wl : L1W M) (v : Coef K M N) : ℝ :=
  match wl with
  | .scalar w => ∑ i, |w * v i|
  | .filter w => ∑ n, ∑ i, |w n * v i|

/-- `obfn_fvarf` (`cbpdntv.py` 325-331). -/
noncomputable def fvarf (fEvalX : Bool) (Y : YT K M N) (h : Attr c K M Nd N a) : Spec K M N a :=
  if fEvalX then h.Xf else fun k m => rfft N a (part Y.snd k m)

/-- `obfn_dfd` (`cbpdntv.py` 428-435). -/
noncomputable def dfd (S : Signal c K N) (fEvalX : Bool) (Y : YT K M N) (h : Attr c K M Nd N a) : ℝ :=
  rfl2norm2 N a (fun p : (Fin (c + 1) × K) × Half N a =>
    inner (fun m => h.Df p.1.1 m p.2) (fun m => fvarf fEvalX Y h p.1.2 m p.2) - sigF a S p.1.1 p.1.2 p.2) / 2

/-- `eval_objfn` (`cbpdntv.py` 416-424) with `obfn_reg` (439-446, 719-727; the axes are given by `g`),
`obfn_g0var` and `obfn_g1var` (382-402): `ObjFun`, `DFid`, `RegL1`, `RegTV`. -/
noncomputable def evalObjfn {G : Type*} [Fintype G] [DecidableEq G] (g : GIdx K M N → G) (S : Signal c K N)
    (lmbda mu : ℝ) (wl : L1W M) (wt : M → ℝ) (fEvalX gEvalY : Bool) (X : Coef K M N) (Y : YT K M N)
    (h : Attr c K M Nd N a) : ℝ × ℝ × ℝ × ℝ :=
  let f := dfd S fEvalX Y h
  let v := if gEvalY then Y else cnstA a wt X
  let r1 := rl1 wl v.snd
  let rtv := sumGrp g v.fst.ofLp
  (f + (lmbda * r1 + mu * rtv), f, r1, rtv)

/-- `reconstruct` (`cbpdntv.py` 563-571), given X. -/
noncomputable def reconstruct (X : Coef K M N) (h : Attr c K M Nd N a) : Signal c K N :=
  fun i k => irfft N a fun ξ => ∑ m, h.Df i m ξ * rfft N a (part X k m) ξ

/-- Both classes: `gy` gives the axes of `prox_l2` in `ystep`, `gr` those of the norms in `obfn_reg`.  The generic
code uses the first three recorded values. -/
noncomputable def cls {Gy Gr : Type*} [DecidableEq Gy] [Fintype Gr] [DecidableEq Gr] (gy : GIdx K M N → Gy)
    (gr : GIdx K M N → Gr) (q : COpts) (S : Signal c K N) (lmbda mu : ℝ) (wl : L1W M) (wt : M → ℝ)
    (fEvalX gEvalY : Bool) : Cls (Coef K M N) (YT K M N) (YT K M N) (Attr c K M Nd N a) :=
  Cls.generic (cnstA a wt) (cnstAT a wt) (fun y => -y) 0 (xstep wt) (ystep gy lmbda mu wl.arr) (rhochange q wt)
    fun X Y h =>
      let v := evalObjfn gr S lmbda mu wl wt fEvalX gEvalY X Y h
      (v.1, v.2.1, v.2.2.1)

/-- The class `ConvBPDNScalarTV` (`cbpdntv.py` 31-571). -/
noncomputable def clsScalar [DecidableEq K] [DecidableEq M] (q : COpts) (S : Signal c K N) (lmbda mu : ℝ)
    (wl : L1W M) (wt : M → ℝ) (fEvalX gEvalY : Bool) :
    Cls (Coef K M N) (YT K M N) (YT K M N) (Attr c K M Nd N a) :=
  cls axNone axLast q S lmbda mu wl wt fEvalX gEvalY

/-- The class `ConvBPDNVectorTV` (`cbpdntv.py` 577-727). -/
noncomputable def clsVector [DecidableEq K] [DecidableEq M] (q : COpts) (S : Signal c K N) (lmbda mu : ℝ)
    (wl : L1W M) (wt : M → ℝ) (fEvalX gEvalY : Bool) :
    Cls (Coef K M N) (YT K M N) (YT K M N) (Attr c K M Nd N a) :=
  cls axMLast axMLast q S lmbda mu wl wt fEvalX gEvalY

end Sporco.Conv.TVC
