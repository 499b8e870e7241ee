import Verif.Signal.Grad
import Verif.Linalg.Model
import Mathlib.Logic.Equiv.Fin.Basic

/-!
# Model of the TV denoising solvers (`admm/tvl2.py` 152-371, `admm/tvl1.py` 152-397)

Images are real functions of a multi-index. The axes are given by non-negative numbers (for negative
ones see C29).
-/

set_option autoImplicit false

namespace Sporco.Tv

open Finset Sporco.Signal

/-- Pixels of an image with `D` axes of sizes `n`. -/
abbrev Pix {D : ℕ} (n : Fin D → ℕ) : Type := ∀ d, Fin (n d)

abbrev Img {D : ℕ} (n : Fin D → ℕ) : Type := Pix n → ℝ

variable {D : ℕ} {n : Fin D → ℕ}

/-- The indices on the other axes. -/
abbrev Others (n : Fin D → ℕ) (d : Fin D) : Type := ∀ e : {e // e ≠ d}, Fin (n e)

/-- An image as function of the other indices and the index along axis `d`. -/
def along (d : Fin D) (x : Img n) (o : Others n d) (i : Fin (n d)) : ℝ :=
  x ((Equiv.piSplitAt d fun e => Fin (n e)).symm (i, o))

/-- The inverse of `along`. -/
def unalong (d : Fin D) (z : Others n d → Fin (n d) → ℝ) : Img n := fun p => z (fun e => p e) (p d)

/-- `grad(x, d)` -/
def gradAx (d : Fin D) (x : Img n) : Img n := unalong d (grad (along d x))

/-- `gradT(x, d)`; `none` is an exception. -/
def gradTAx (d : Fin D) (x : Img n) : Option (Img n) := (gradT (along d x)).map (unalong d)

/-- `TVL2Denoise.cnst_A` (`tvl2.py` 307-315): one component per axis, stacked on a new last axis. -/
def cnstA (axes : List (Fin D)) (x : Img n) : List (Img n) := axes.map fun ax => gradAx ax x

/-- The sum of a list of images. -/
def sumImg (l : List (Img n)) : Img n := fun p => (l.map (· p)).sum

/-- The terms `gradT(X[..., ax], ax) for ax in self.axes`: component number `ax` is taken; `none` if
there is no such component or `gradT` raises. -/
def gradTerms (axes : List (Fin D)) (y : List (Img n)) : Option (List (Img n)) :=
  axes.mapM fun ax => (y[ax.val]?).bind fun c => gradTAx ax c

/-- `TVL2Denoise.cnst_AT` (`tvl2.py` 319-327). -/
def cnstAT (axes : List (Fin D)) (y : List (Img n)) : Option (Img n) :=
  (gradTerms axes y).map sumImg

/-- `TVL1Denoise.cnst_A` (`tvl1.py` 317-325): the image itself is the last component. -/
def cnstA1 (axes : List (Fin D)) (x : Img n) : List (Img n) := cnstA axes x ++ [x]

/-- `TVL1Denoise.cnst_AT` (`tvl1.py` 329-337); `X[..., -1:]` is the last component. -/
def cnstAT1 (axes : List (Fin D)) (y : List (Img n)) : Option (Img n) :=
  (gradTerms axes y).bind fun l => (y.getLast?).map fun c => sumImg (l ++ [c])

/-- `LaplaceCentreWeight` (`tvl2.py` 349-358), broadcast to the shape of the image: along each axis
the first and last entries are reduced by one, once each (also if they are the same, as in an
assignment with an index array). -/
def lcw (axes : List (Fin D)) : Img n := fun p =>
  axes.foldl (fun v ax => if (p ax : ℕ) = 0 ∨ (p ax : ℕ) + 1 = n ax then v - 1 else v)
    (2 * axes.length)

/-- `zpad(X[..., 0:-1, ...], (1, 0), ax)`: the image shifted up along `ax`, zero first. -/
def shiftUp (ax : Fin D) (x : Img n) : Img n := fun p =>
  if h : (p ax : ℕ) = 0 then 0 else x (Function.update p ax ⟨p ax - 1, by have := (p ax).2; omega⟩)

/-- `zpad(X[..., 1:, ...], (0, 1), ax)`: the image shifted down along `ax`, zero last. -/
def shiftDown (ax : Fin D) (x : Img n) : Img n := fun p =>
  if h : (p ax : ℕ) + 1 < n ax then x (Function.update p ax ⟨p ax + 1, h⟩) else 0

/-- `Xss` (`tvl2.py` 365-370). -/
def xss (axes : List (Fin D)) (x : Img n) : Img n := fun p =>
  axes.foldl (fun v ax => v + shiftUp ax x p + shiftDown ax x p) 0

/-- `GaussSeidelStep` (`tvl2.py` 362-371); `W2` is an image of squared weights. -/
noncomputable def gsStep (axes : List (Fin D)) (S X ATYU : Img n) (ρ : ℝ) (W2 : Img n) : Img n :=
  fun p => (ρ * (xss axes X p + ATYU p) + W2 p * S p) / (W2 p + ρ * lcw axes p)

/-- Componentwise subtraction of stacks. -/
def subStack (y u : List (Img n)) : List (Img n) := List.zipWith (fun a b p => a p - b p) y u

open Classical in
/-- The loop of `TVL2Denoise.xstep` (`tvl2.py` 242-252), with `fuel` iterations left; the residual
`gsrrs` of the previous pass is `none` for infinity. Returns the image, the number of passes and the
last residual; `none` is an exception. -/
noncomputable def xloop (axes : List (Fin D)) (S : Img n) (Y U : List (Img n)) (ρ : ℝ) (W2 : Img n)
    (tol : ℝ) : ℕ → Img n → ℕ → Option ℝ → Option (Img n × ℕ × Option ℝ)
  | 0, X, k, r => some (X, k, r)
  | fuel + 1, X, k, r =>
    if (∀ r', r = some r' → tol < r') then
      (cnstAT axes (subStack Y U)).bind fun a =>
        let X' := gsStep axes S X a ρ W2
        (cnstAT axes (cnstA axes X')).bind fun aa =>
          xloop axes S Y U ρ W2 tol fuel X' (k + 1)
            (some (Linalg.rrs (fun p => ρ * aa p + W2 p * X' p) fun p => W2 p * S p + ρ * a p))
    else some (X, k, r)

/-- `TVL2Denoise.xstep` (`tvl2.py` 237-254). -/
noncomputable def xstep (axes : List (Fin D)) (S X : Img n) (Y U : List (Img n)) (ρ : ℝ)
    (W2 : Img n) (tol : ℝ) (maxIter : ℕ) : Option (Img n × ℕ × Option ℝ) :=
  xloop axes S Y U ρ W2 tol maxIter X 0 none

/-- One pass of `TVL1Denoise.xstep` (`tvl1.py` 247-253): the last component of `Y - U` is added to
`S`, then cleared. -/
noncomputable def gsStep1 (axes : List (Fin D)) (S X : Img n) (Y U : List (Img n)) :
    Option (Img n) :=
  ((subStack Y U).getLast?).bind fun yl =>
    (cnstAT1 axes ((subStack Y U).dropLast ++ [fun _ => 0])).map fun a =>
      gsStep axes (fun p => S p + yl p) X a 1 fun _ => 1

end Sporco.Tv
