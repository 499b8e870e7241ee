import Mathlib.Analysis.InnerProductSpace.PiL2

/-!
# Specification of proximal operators and projections

Arrays are functions `ι → E` from a finite index set to the scalars, where `E`
is `ℝ` or `ℂ` (any real inner product space will do).  `‖·‖` on a scalar is the
absolute value.  Nothing here refers to the model of the code.
-/

namespace Sporco.Prox

variable {ι σ E X : Type*} [Fintype ι] [Fintype σ] [NormedAddCommGroup E]

/-- Squared `ℓ₂` norm of an array: the sum of squared absolute values. -/
def sq (x : ι → E) : ℝ := ∑ i, ‖x i‖ ^ 2

/-- `ℓ₂` norm of an array. -/
noncomputable def l2 (x : ι → E) : ℝ := Real.sqrt (sq x)

/-- `ℓ₁` norm of an array. -/
def l1 (x : ι → E) : ℝ := ∑ i, ‖x i‖

/-- Weighted `ℓ₁` norm of an array. -/
def l1w (w : ι → ℝ) (x : ι → E) : ℝ := ∑ i, w i * ‖x i‖

open Classical in
/-- Number of non-zero entries of an array. -/
noncomputable def l0 (x : ι → E) : ℕ := (Finset.univ.filter fun i => x i ≠ 0).card

/-- `x` is a minimiser of `F` over the set `C`. -/
def IsMin (F : X → ℝ) (C : Set X) (x : X) : Prop := x ∈ C ∧ ∀ u ∈ C, F x ≤ F u

/-- `x` is the only minimiser of `F` over the set `C`. -/
def IsUniqueMin (F : X → ℝ) (C : Set X) (x : X) : Prop :=
  x ∈ C ∧ ∀ u ∈ C, u ≠ x → F x < F u

/-- The functional a proximal operator minimises: `(1/2)‖x - v‖₂² + f x`. -/
noncomputable def proxObj (f : (ι → E) → ℝ) (v x : ι → E) : ℝ := 1 / 2 * sq (x - v) + f x

/-- Arrays with no negative entries. -/
def nonneg : Set (ι → ℝ) := {x | ∀ i, 0 ≤ x i}

end Sporco.Prox
