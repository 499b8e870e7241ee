import Mathlib.Data.Matrix.Block
import Mathlib.Data.Matrix.Mul
import Mathlib.Data.Real.Basic
import Mathlib.Algebra.Order.BigOperators.Group.Finset
import Mathlib.Data.Fintype.Sum
import Mathlib.Algebra.BigOperators.Ring.Finset
import Mathlib.Analysis.Normed.Lp.PiLp
import Mathlib.Analysis.Normed.Module.FiniteDimension
import Mathlib.Topology.MetricSpace.HausdorffDistance
import Mathlib.LinearAlgebra.Matrix.ToLin
import Mathlib.Tactic.Linarith

/-!
# Model of `interp.lstabsdev` and `interp.lstmaxdev` (`interp.py` 106-194), C57
-/

set_option autoImplicit false
set_option linter.unusedSectionVars false

namespace Sporco.Interp

open Matrix Finset

variable {m n : Type} [Fintype m] [Fintype n] [DecidableEq m]

/-- A linear programme as given to `scipy.optimize.linprog`: minimise `c·z` subject to
`A_ub z ≤ b_ub`; `bounds=(None, None)` puts no sign condition on the variables. -/
structure LP (ν κ : Type) where
  c : ν → ℝ
  A : Matrix κ ν ℝ
  b : κ → ℝ

/-- Admissible points. -/
def LP.Feasible {ν κ : Type} [Fintype ν] (P : LP ν κ) (z : ν → ℝ) : Prop :=
  ∀ k, (P.A *ᵥ z) k ≤ P.b k

/-- The contract of the LP solver: a successful call returns such a point. -/
def LP.Optimal {ν κ : Type} [Fintype ν] (P : LP ν κ) (z : ν → ℝ) : Prop :=
  P.Feasible z ∧ ∀ w, P.Feasible w → P.c ⬝ᵥ z ≤ P.c ⬝ᵥ w

/-- The programme built by `lstabsdev` (`interp.py` 136-141): the first `M` variables have cost 1,
`A_ub = [[-I, -A], [-I, A]]`, `b_ub = [-b, b]`. -/
def absdevLP (A : Matrix m n ℝ) (b : m → ℝ) : LP (m ⊕ n) (m ⊕ m) where
  c := Sum.elim (fun _ => 1) (fun _ => 0)
  A := fromBlocks (-1) (-A) (-1) A
  b := Sum.elim (-b) b

/-- `lstabsdev` (`interp.py` 106-148) given the vector the LP solver returned: `res.x[M:]`. -/
def lstabsdev (z : m ⊕ n → ℝ) : n → ℝ := fun j => z (.inr j)

/-- The programme built by `lstmaxdev` (`interp.py` 182-187): one variable of cost 1 bounds all
deviations. -/
def maxdevLP (A : Matrix m n ℝ) (b : m → ℝ) : LP (Unit ⊕ n) (m ⊕ m) where
  c := Sum.elim (fun _ => 1) (fun _ => 0)
  A := fromBlocks (of fun _ _ => -1) (-A) (of fun _ _ => -1) A
  b := Sum.elim (-b) b

/-- `lstmaxdev` (`interp.py` 152-194): `res.x[1:]`. -/
def lstmaxdev (z : Unit ⊕ n → ℝ) : n → ℝ := fun j => z (.inr j)

/-! ## Specification -/

/-- `‖Ax − b‖₁`. -/
def dev1 (A : Matrix m n ℝ) (b : m → ℝ) (x : n → ℝ) : ℝ := ∑ i, |(A *ᵥ x) i - b i|

/-- `d` is `‖Ax − b‖_∞`. -/
def IsDevInf (A : Matrix m n ℝ) (b : m → ℝ) (x : n → ℝ) (d : ℝ) : Prop :=
  IsGreatest (Set.range fun i => |(A *ᵥ x) i - b i|) d

/-! ## Theorems -/

omit [Fintype m] in
theorem absdev_feasible [Fintype m] (A : Matrix m n ℝ) (b : m → ℝ) (z : m ⊕ n → ℝ) :
    (absdevLP A b).Feasible z ↔ ∀ i, |(A *ᵥ lstabsdev z) i - b i| ≤ z (.inl i) := by
  unfold LP.Feasible absdevLP
  have hz : z = Sum.elim (z ∘ Sum.inl) (z ∘ Sum.inr) := (Sum.elim_comp_inl_inr z).symm
  have h1 : ∀ i, (fromBlocks (-1) (-A) (-1) A *ᵥ z) (.inl i) = - z (.inl i) - (A *ᵥ lstabsdev z) i := by
    intro i
    conv_lhs => rw [hz, fromBlocks_mulVec]
    simp only [Sum.elim_inl, Pi.add_apply, neg_mulVec, one_mulVec, Pi.neg_apply, Function.comp,
      Sum.elim_comp_inl, Sum.elim_comp_inr]
    rfl
  have h2 : ∀ i, (fromBlocks (-1) (-A) (-1) A *ᵥ z) (.inr i) = - z (.inl i) + (A *ᵥ lstabsdev z) i := by
    intro i
    conv_lhs => rw [hz, fromBlocks_mulVec]
    simp only [Sum.elim_inr, Pi.add_apply, neg_mulVec, one_mulVec, Pi.neg_apply, Function.comp,
      Sum.elim_comp_inl, Sum.elim_comp_inr]
    rfl
  constructor
  · intro h i
    have a := h (.inl i)
    have c := h (.inr i)
    rw [h1] at a; rw [h2] at c
    simp only [Sum.elim_inl, Sum.elim_inr, Pi.neg_apply] at a c
    rw [abs_le]; constructor <;> linarith
  · intro h k
    rcases k with i | i
    · rw [h1]; have := abs_le.1 (h i); simp only [Sum.elim_inl, Pi.neg_apply]; linarith
    · rw [h2]; have := abs_le.1 (h i); simp only [Sum.elim_inr]; linarith

theorem absdev_cost (A : Matrix m n ℝ) (b : m → ℝ) (z : m ⊕ n → ℝ) :
    (absdevLP A b).c ⬝ᵥ z = ∑ i, z (.inl i) := by
  simp [absdevLP, dotProduct]

/-- **C57.** For every system: whatever optimal point of its programme the LP solver returns to
`lstabsdev`, the value returned to the user minimises `‖Ax − b‖₁`, and the optimal value of the
programme is that minimum. -/
theorem C57_lstabsdev (A : Matrix m n ℝ) (b : m → ℝ) (z : m ⊕ n → ℝ)
    (hz : (absdevLP A b).Optimal z) :
    (∀ x, dev1 A b (lstabsdev z) ≤ dev1 A b x) ∧
      (absdevLP A b).c ⬝ᵥ z = dev1 A b (lstabsdev z) := by
  obtain ⟨hf, ho⟩ := hz
  have key : ∀ x, (absdevLP A b).c ⬝ᵥ z ≤ dev1 A b x := by
    intro x
    have := ho (Sum.elim (fun i => |(A *ᵥ x) i - b i|) x) (by
      rw [absdev_feasible]; intro i
      exact le_of_eq rfl)
    rw [absdev_cost _ _ (Sum.elim _ _)] at this
    simpa [dev1] using this
  have h2 : dev1 A b (lstabsdev z) ≤ (absdevLP A b).c ⬝ᵥ z := by
    rw [absdev_cost]
    exact sum_le_sum fun i _ => (absdev_feasible A b z).1 hf i
  exact ⟨fun x => h2.trans (key x), le_antisymm (key _) h2⟩

/-- **C57.** Every minimiser of `‖Ax − b‖₁` comes from an optimal point, so the programme is solvable
exactly when the regression problem is. -/
theorem C57_lstabsdev_complete (A : Matrix m n ℝ) (b : m → ℝ) (x : n → ℝ)
    (hx : ∀ y, dev1 A b x ≤ dev1 A b y) :
    ∃ z, (absdevLP A b).Optimal z ∧ lstabsdev z = x := by
  refine ⟨Sum.elim (fun i => |(A *ᵥ x) i - b i|) x, ⟨?_, ?_⟩, rfl⟩
  · rw [absdev_feasible]; intro i; exact le_of_eq rfl
  · intro w hw
    rw [absdev_cost, absdev_cost]
    refine le_trans ?_ (sum_le_sum fun i _ => (absdev_feasible A b w).1 hw i)
    exact hx _

omit [DecidableEq m] in
theorem maxdev_feasible (A : Matrix m n ℝ) (b : m → ℝ) (z : Unit ⊕ n → ℝ) :
    (maxdevLP A b).Feasible z ↔ ∀ i, |(A *ᵥ lstmaxdev z) i - b i| ≤ z (.inl ()) := by
  unfold LP.Feasible maxdevLP
  have hz : z = Sum.elim (z ∘ Sum.inl) (z ∘ Sum.inr) := (Sum.elim_comp_inl_inr z).symm
  have h0 : ∀ i : m, ((of fun (_ : m) (_ : Unit) => (-1 : ℝ)) *ᵥ (z ∘ Sum.inl)) i = - z (.inl ()) := by
    intro i; simp [mulVec, dotProduct]
  have h1 : ∀ i, (fromBlocks (of fun _ _ => -1) (-A) (of fun _ _ => -1) A *ᵥ z) (.inl i) =
      - z (.inl ()) - (A *ᵥ lstmaxdev z) i := by
    intro i
    conv_lhs => rw [hz, fromBlocks_mulVec]
    simp only [Sum.elim_inl, Pi.add_apply]
    have := h0 i
    simp only [Sum.elim_comp_inl, Sum.elim_comp_inr, neg_mulVec, Pi.neg_apply] at *
    rw [this]; rfl
  have h2 : ∀ i, (fromBlocks (of fun _ _ => -1) (-A) (of fun _ _ => -1) A *ᵥ z) (.inr i) =
      - z (.inl ()) + (A *ᵥ lstmaxdev z) i := by
    intro i
    conv_lhs => rw [hz, fromBlocks_mulVec]
    simp only [Sum.elim_inr, Pi.add_apply]
    have := h0 i
    simp only [Sum.elim_comp_inl, Sum.elim_comp_inr] at *
    rw [this]; rfl
  constructor
  · intro h i
    have a := h (.inl i)
    have c := h (.inr i)
    rw [h1] at a; rw [h2] at c
    simp only [Sum.elim_inl, Sum.elim_inr, Pi.neg_apply] at a c
    rw [abs_le]; constructor <;> linarith
  · intro h k
    rcases k with i | i
    · rw [h1]; have := abs_le.1 (h i); simp only [Sum.elim_inl, Pi.neg_apply]; linarith
    · rw [h2]; have := abs_le.1 (h i); simp only [Sum.elim_inr]; linarith

omit [DecidableEq m] [Fintype m] in
theorem maxdev_cost [Fintype m] (A : Matrix m n ℝ) (b : m → ℝ) (z : Unit ⊕ n → ℝ) :
    (maxdevLP A b).c ⬝ᵥ z = z (.inl ()) := by
  simp [maxdevLP, dotProduct]

omit [DecidableEq m] in
theorem exists_devInf [Nonempty m] (A : Matrix m n ℝ) (b : m → ℝ) (x : n → ℝ) :
    ∃ d, IsDevInf A b x d := by
  obtain ⟨i, _, hi⟩ := exists_max_image univ (fun i => |(A *ᵥ x) i - b i|) univ_nonempty
  exact ⟨_, ⟨i, rfl⟩, by rintro _ ⟨j, rfl⟩; exact hi j (mem_univ _)⟩

omit [DecidableEq m] in
/-- **C57.** The same for `lstmaxdev` and `‖Ax − b‖_∞`, for every system with at least one
equation. -/
theorem C57_lstmaxdev [Nonempty m] (A : Matrix m n ℝ) (b : m → ℝ) (z : Unit ⊕ n → ℝ)
    (hz : (maxdevLP A b).Optimal z) :
    IsDevInf A b (lstmaxdev z) ((maxdevLP A b).c ⬝ᵥ z) ∧
    ∀ x d, IsDevInf A b x d → (maxdevLP A b).c ⬝ᵥ z ≤ d := by
  obtain ⟨hf, ho⟩ := hz
  have key : ∀ x d, IsDevInf A b x d → (maxdevLP A b).c ⬝ᵥ z ≤ d := by
    intro x d hd
    have := ho (Sum.elim (fun _ => d) x) (by
      rw [maxdev_feasible]; intro i
      exact hd.2 ⟨i, rfl⟩)
    rw [maxdev_cost _ _ (Sum.elim _ _)] at this
    simpa using this
  refine ⟨?_, key⟩
  obtain ⟨d, hd⟩ := exists_devInf A b (lstmaxdev z)
  have h1 := key _ d hd
  obtain ⟨i, hi⟩ := hd.1
  have h2 : d ≤ (maxdevLP A b).c ⬝ᵥ z := by
    rw [← hi, maxdev_cost]
    exact (maxdev_feasible A b z).1 hf i
  rw [le_antisymm h1 h2]; exact hd

omit [DecidableEq m] in
/-- **C57.** Every minimiser of `‖Ax − b‖_∞` comes from an optimal point. -/
theorem C57_lstmaxdev_complete [Nonempty m] (A : Matrix m n ℝ) (b : m → ℝ) (x : n → ℝ) (d : ℝ)
    (hd : IsDevInf A b x d) (hx : ∀ y e, IsDevInf A b y e → d ≤ e) :
    ∃ z, (maxdevLP A b).Optimal z ∧ lstmaxdev z = x := by
  refine ⟨Sum.elim (fun _ => d) x, ⟨?_, ?_⟩, rfl⟩
  · rw [maxdev_feasible]; intro i; exact hd.2 ⟨i, rfl⟩
  · intro w hw
    rw [maxdev_cost, maxdev_cost]
    obtain ⟨e, he⟩ := exists_devInf A b (lstmaxdev w)
    refine (hx _ e he).trans ?_
    obtain ⟨i, hi⟩ := he.1
    rw [← hi]
    exact (maxdev_feasible A b w).1 hw i

omit [DecidableEq m] in
/-- The nearest point of the range of a linear map exists in every finite-dimensional normed
space. -/
theorem exists_nearest {E : Type} [NormedAddCommGroup E] [NormedSpace ℝ E] [FiniteDimensional ℝ E]
    (L : (n → ℝ) →ₗ[ℝ] E) (b : E) : ∃ x, ∀ y, ‖L x - b‖ ≤ ‖L y - b‖ := by
  have : ProperSpace E := FiniteDimensional.proper ℝ E
  have hc : IsClosed (LinearMap.range L : Set E) := (LinearMap.range L).closed_of_finiteDimensional
  obtain ⟨z, ⟨x, rfl⟩, hz⟩ := hc.exists_infDist_eq_dist ⟨0, (LinearMap.range L).zero_mem⟩ b
  refine ⟨x, fun y => ?_⟩
  rw [← dist_eq_norm, ← dist_eq_norm, dist_comm, ← hz, dist_comm (L y)]
  exact Metric.infDist_le_dist_of_mem ⟨y, rfl⟩

/-- **C57.** For every system the programme of `lstabsdev` has an optimal point, so the solver can
succeed. -/
theorem C57_lstabsdev_solvable (A : Matrix m n ℝ) (b : m → ℝ) :
    ∃ z, (absdevLP A b).Optimal z := by
  have hnorm : ∀ x, ‖((WithLp.linearEquiv 1 ℝ (m → ℝ)).symm.toLinearMap ∘ₗ A.mulVecLin) x -
      WithLp.toLp 1 b‖ = dev1 A b x := by
    intro x
    rw [PiLp.norm_eq_of_L1]
    rfl
  obtain ⟨x, hx⟩ := exists_nearest
    ((WithLp.linearEquiv 1 ℝ (m → ℝ)).symm.toLinearMap ∘ₗ A.mulVecLin) (WithLp.toLp 1 b)
  obtain ⟨z, hz, _⟩ := C57_lstabsdev_complete A b x fun y => by
    have := hx y
    rwa [hnorm, hnorm] at this
  exact ⟨z, hz⟩

omit [DecidableEq m] in
/-- **C57.** For every system with an equation the programme of `lstmaxdev` has an optimal point. -/
theorem C57_lstmaxdev_solvable [Nonempty m] (A : Matrix m n ℝ) (b : m → ℝ) :
    ∃ z, (maxdevLP A b).Optimal z := by
  obtain ⟨x, hx⟩ := exists_nearest A.mulVecLin b
  have hn : ∀ y e, IsDevInf A b y e → ‖A.mulVecLin y - b‖ = e := by
    intro y e he
    apply le_antisymm
    · rw [pi_norm_le_iff_of_nonneg]
      · intro i; exact he.2 ⟨i, rfl⟩
      · obtain ⟨i, hi⟩ := he.1; rw [← hi]; exact abs_nonneg _
    · obtain ⟨i, hi⟩ := he.1
      rw [← hi]
      exact norm_le_pi_norm (A.mulVecLin y - b) i
  obtain ⟨d, hd⟩ := exists_devInf A b x
  obtain ⟨z, hz, _⟩ := C57_lstmaxdev_complete A b x d hd fun y e he => by
    rw [← hn _ _ hd, ← hn _ _ he]; exact hx y
  exact ⟨z, hz⟩

/-- A solvable programme: one equation `2 x = 3`. -/
example : ∃ z, (absdevLP (of fun (_ _ : Unit) => (2 : ℝ)) (fun _ => 3)).Optimal z ∧
    lstabsdev z = fun _ => 3 / 2 := by
  refine C57_lstabsdev_complete _ _ _ fun y => ?_
  have : dev1 (of fun (_ _ : Unit) => (2 : ℝ)) (fun _ => 3) (fun _ => 3 / 2) = 0 := by
    simp [dev1, mulVec, dotProduct]; norm_num
  rw [this]
  exact sum_nonneg fun i _ => abs_nonneg _

/-- An overdetermined one: `x = 0`, `x = 2`. -/
example : ∃ z, (maxdevLP (of fun (_ : Fin 2) (_ : Unit) => (1 : ℝ)) (![0, 2])).Optimal z ∧
    lstmaxdev z = fun _ => 1 := by
  refine C57_lstmaxdev_complete _ _ _ 1 ⟨⟨0, by simp [mulVec, dotProduct]⟩, ?_⟩ ?_
  · rintro _ ⟨i, rfl⟩
    fin_cases i <;> simp [mulVec, dotProduct] <;> norm_num
  · intro y e he
    have h0 := he.2 ⟨0, rfl⟩
    have h1 := he.2 ⟨1, rfl⟩
    simp [mulVec, dotProduct] at h0 h1
    have := abs_le.1 h0; have := abs_le.1 h1
    linarith

end Sporco.Interp
