import Verif.Tv.Model
import Verif.Admm.Model
import Verif.Prox.Model

/-!
# Model of the TV denoising classes (`admm/tvl2.py` 30-371, `admm/tvl1.py` 30-397)

Real images.  The equivalence `e` separates the index on the axis `caxis` (in `χ`) from the others (in `γ`); with
`caxis` None `χ` has one element.  Weights are already broadcast to the shape of the image, and those of the
regulariser do not vary along `caxis`.  Data types are not modelled.
-/

set_option autoImplicit false

namespace Sporco.Tv.Den

open Finset Sporco.Admm

variable {D : ℕ} {n : Fin D → ℕ} {γ χ : Type*} [Fintype γ] [Fintype χ]

/-- Images as elements of a Euclidean space. -/
abbrev ImE (n : Fin D → ℕ) : Type := EuclideanSpace ℝ (Pix n)

/-- Arrays of shape `S.shape + (len(axes),)`. -/
abbrev GradE (axes : List (Fin D)) (n : Fin D → ℕ) : Type := EuclideanSpace ℝ (Fin axes.length × Pix n)

variable {axes : List (Fin D)}

/-- The list of the components on the last axis. -/
def stk (v : GradE axes n) : List (Img n) := List.ofFn fun i p => v (i, p)

/-- The array with the given components on the last axis. -/
noncomputable def unstk (axes : List (Fin D)) (l : List (Img n)) : GradE axes n :=
  WithLp.toLp 2 fun j => l.getD j.1 (fun _ => 0) j.2

/-- The separation of indices with `caxis` None: `saxes = (-1,)` (`tvl2.py` 195-196). -/
def noChan : Pix n ≃ Pix n × Unit := (Equiv.prodPUnit _).symm

/-- The separation of indices with `caxis = c`: `saxes = (caxis, -1)` (`tvl2.py` 197-198). -/
def chan (c : Fin D) : Pix n ≃ Others n c × Fin (n c) :=
  (Equiv.piSplitAt c fun d => Fin (n d)).trans (Equiv.prodComm _ _)

/-- `prox_l2(v, (lmbda/rho)*Wtvna, axis=self.saxes)` (`tvl2.py` 263-265, `tvl1.py` 269-271). -/
noncomputable def proxTv (e : Pix n ≃ γ × χ) (lmbda rho : ℝ) (w : γ → ℝ) (v : GradE axes n) : GradE axes n :=
  WithLp.toLp 2 fun j => Prox.proxL2 (fun q : χ × Fin axes.length => v (q.2, e.symm ((e j.2).1, q.1)))
    (lmbda / rho * w (e j.2).1) ((e j.2).2, j.1)

/-- `np.sum(Wtv * np.sqrt(np.sum(gv**2, axis=saxes)))` (`tvl2.py` 294, `tvl1.py` 303-304). -/
noncomputable def regTv (e : Pix n ≃ γ × χ) (w : γ → ℝ) (v : GradE axes n) : ℝ :=
  ∑ g, w g * Real.sqrt (∑ c, ∑ i, v (i, e.symm (g, c)) ^ 2)

/-- Options and data of a TV denoising object: `lmbda`, `DFidWeight`, `TVWeight`, `gEvalY`, `GSTol`, `MaxGSIter`
(`tvl2.py` 118-143, 183-219). -/
structure Par (γ : Type*) (n : Fin D → ℕ) where
  lmbda : ℝ
  wd : Img n
  w : γ → ℝ
  gEvalY : Bool
  tol : ℝ
  maxIter : ℕ

/-- `self.xs`: number of passes and last residual (`none` is infinity). -/
abbrev Xs : Type := ℕ × Option ℝ

/-! ## `TVL2Denoise` -/

/-- `cnst_A` (`tvl2.py` 307-315). -/
noncomputable def cnstAE (axes : List (Fin D)) (x : ImE n) : GradE axes n := unstk axes (cnstA axes x.ofLp)

/-- `cnst_AT` (`tvl2.py` 319-327).  An exception gives zero here, see `C41_singleton_refuted`, `C61_missing_refuted`. -/
noncomputable def cnstATE (v : GradE axes n) : ImE n := WithLp.toLp 2 ((cnstAT axes (stk v)).getD fun _ => 0)

/-- `xstep` (`tvl2.py` 237-254); `self.Wdf2` is the square of the weight (209).  An exception leaves the state
unchanged here. -/
noncomputable def xstepE (P : Par γ n) (S : Img n) (rho : ℝ) (X : ImE n) (Y U : GradE axes n) (h : Xs) : ImE n × Xs :=
  match xstep axes S X.ofLp (stk Y) (stk U) rho (fun p => P.wd p ^ 2) P.tol P.maxIter with
  | some (X', k, r) => (WithLp.toLp 2 X', k, r)
  | none => (X, h)

/-- `ystep` (`tvl2.py` 258-265). -/
noncomputable def ystepE (e : Pix n ≃ γ × χ) (P : Par γ n) (rho : ℝ) (AX : GradE axes n) (_X : ImE n)
    (_Y U : GradE axes n) (h : Xs) : GradE axes n × Xs := (proxTv e P.lmbda rho P.w (AX + U), h)

/-- `eval_objfn` (`tvl2.py` 281-296) with `obfn_gvar` (269-277). -/
noncomputable def objfnE (e : Pix n ≃ γ × χ) (P : Par γ n) (S : Img n) (X : ImE n) (Y : GradE axes n) (_h : Xs) :
    ℝ × ℝ × ℝ :=
  let dfd := 1 / 2 * ∑ p, (P.wd p * (X p - S p)) ^ 2
  let gv := if P.gEvalY then Y else cnstAE axes X
  let reg := regTv e P.w gv
  (dfd + P.lmbda * reg, dfd, reg)

/-- The class `TVL2Denoise` (`tvl2.py` 30-371). -/
noncomputable def clsL2 (axes : List (Fin D)) (e : Pix n ≃ γ × χ) (P : Par γ n) (S : Img n) :
    Cls (ImE n) (GradE axes n) (GradE axes n) Xs :=
  Cls.generic (cnstAE axes) cnstATE (fun y => -y) 0 (xstepE P S) (ystepE e P) (fun _ h => h) (objfnE e P S)

/-! ## `TVL1Denoise`

The last axis of Y and U, of length `len(axes) + 1`, is a pair here: gradient components and image. -/

/-- The arrays Y and U of `TVL1Denoise`. -/
abbrev Y1 (axes : List (Fin D)) (n : Fin D → ℕ) : Type := WithLp 2 (GradE axes n × ImE n)

/-- The list of the components on the last axis. -/
def stk1 (v : Y1 axes n) : List (Img n) := stk v.fst ++ [v.snd.ofLp]

/-- `cnst_A` (`tvl1.py` 317-325). -/
noncomputable def cnstA1E (axes : List (Fin D)) (x : ImE n) : Y1 axes n :=
  let l := cnstA1 axes x.ofLp
  WithLp.toLp 2 (unstk axes l, WithLp.toLp 2 (l.getD axes.length fun _ => 0))

/-- `cnst_AT` (`tvl1.py` 329-337).  An exception gives zero here. -/
noncomputable def cnstAT1E (v : Y1 axes n) : ImE n := WithLp.toLp 2 ((cnstAT1 axes (stk1 v)).getD fun _ => 0)

/-- `cnst_c()` (`tvl1.py` 350-358). -/
noncomputable def cnstC1 (axes : List (Fin D)) (S : Img n) : Y1 axes n := WithLp.toLp 2 (0, WithLp.toLp 2 S)

open Classical in
/-- The loop of `xstep` (`tvl1.py` 245-258), with `fuel` passes left; the residual of the previous pass is `none` for
infinity.  Returns the image, the number of passes and the last residual; `none` is an exception.  The last component
of `Y - U` is added to `S`, then cleared; `c - B(Y) - U` is `c + Y - U`. -/
noncomputable def xloop1 (S : Img n) (Y U : Y1 axes n) (tol : ℝ) : ℕ → Img n → ℕ → Option ℝ →
    Option (Img n × ℕ × Option ℝ)
  | 0, X, k, r => some (X, k, r)
  | fuel + 1, X, k, r =>
    if (∀ r', r = some r' → tol < r') then
      (gsStep1 axes S X (stk1 Y) (stk1 U)).bind fun X' =>
        (cnstAT1 axes (cnstA1 axes X')).bind fun aa =>
          (cnstAT1 axes (stk1 (cnstC1 axes S + Y - U))).bind fun b =>
            xloop1 S Y U tol fuel X' (k + 1) (some (Linalg.rrs aa b))
    else some (X, k, r)

/-- `xstep` (`tvl1.py` 240-260).  An exception leaves the state unchanged here. -/
noncomputable def xstep1E (P : Par γ n) (S : Img n) (_rho : ℝ) (X : ImE n) (Y U : Y1 axes n) (h : Xs) : ImE n × Xs :=
  match xloop1 S Y U P.tol P.maxIter X.ofLp 0 none with
  | some (X', k, r) => (WithLp.toLp 2 X', k, r)
  | none => (X, h)

/-- `ystep` (`tvl1.py` 264-274). -/
noncomputable def ystep1E (e : Pix n ≃ γ × χ) (P : Par γ n) (S : Img n) (rho : ℝ) (AX : Y1 axes n) (_X : ImE n)
    (_Y U : Y1 axes n) (h : Xs) : Y1 axes n × Xs :=
  (WithLp.toLp 2 (proxTv e P.lmbda rho P.w (AX.fst + U.fst), WithLp.toLp 2 (Prox.proxL1Arr
    (fun p => AX.snd p + U.snd p - S p) fun p => 1 / rho * P.wd p)), h)

/-- `eval_objfn` (`tvl1.py` 290-306) with `obfn_gvar` (278-286). -/
noncomputable def objfn1E (e : Pix n ≃ γ × χ) (P : Par γ n) (S : Img n) (X : ImE n) (Y : Y1 axes n) (_h : Xs) :
    ℝ × ℝ × ℝ :=
  let gvr := if P.gEvalY then Y else cnstA1E axes X - cnstC1 axes S
  let dfd := ∑ p, |P.wd p * gvr.snd p|
  let reg := regTv e P.w gvr.fst
  (dfd + P.lmbda * reg, dfd, reg)

/-- The class `TVL1Denoise` (`tvl1.py` 30-397), with its own `rsdl_s` (362-365) and `rsdl_sn` (369-372). -/
noncomputable def clsL1 (axes : List (Fin D)) (e : Pix n ≃ γ × χ) (P : Par γ n) (S : Img n) :
    Cls (ImE n) (Y1 axes n) (Y1 axes n) Xs :=
  { Cls.generic (cnstA1E axes) cnstAT1E (fun y => -y) (cnstC1 axes S) (xstep1E P S) (ystep1E e P S)
      (fun _ h => h) (objfn1E e P S) with
    nrmS := fun rho _ _ U => ‖rho * ‖cnstAT1E U‖‖
    rsdlSn := fun rho U => rho * ‖U‖ }

end Sporco.Tv.Den
