import Verif.Prox.Model
import Verif.Prox.Spec
import Mathlib.Tactic.Linarith
import Mathlib.Tactic.LinearCombination
import Mathlib.Tactic.FieldSimp
import Mathlib.Tactic.Positivity

/-!
# Helper lemmas for proximal operators
-/

set_option linter.unusedSectionVars false
set_option linter.unusedVariables false

namespace Sporco.Prox

open scoped RealInnerProductSpace

variable {ι σ E : Type*} [Fintype ι] [Fintype σ] [NormedAddCommGroup E] [InnerProductSpace ℝ E]

/-- Real pairing of arrays. -/
noncomputable def rdot (x y : ι → E) : ℝ := ∑ i, ⟪x i, y i⟫

theorem sq_nonneg' (x : ι → E) : 0 ≤ sq x := Finset.sum_nonneg fun _ _ => by positivity

theorem sq_eq_zero_iff (x : ι → E) : sq x = 0 ↔ x = 0 := by
  unfold sq
  rw [Finset.sum_eq_zero_iff_of_nonneg (fun _ _ => by positivity)]
  constructor
  · intro h; funext i; have := h i (Finset.mem_univ _); simpa using this
  · intro h; subst h; simp

theorem sq_pos_of_ne {x : ι → E} (h : x ≠ 0) : 0 < sq x :=
  lt_of_le_of_ne (sq_nonneg' x) (fun e => h ((sq_eq_zero_iff x).1 e.symm))

theorem l2_nonneg (x : ι → E) : 0 ≤ l2 x := Real.sqrt_nonneg _

theorem l2_sq (x : ι → E) : l2 x ^ 2 = sq x := Real.sq_sqrt (sq_nonneg' x)

theorem l2_eq_zero_iff (x : ι → E) : l2 x = 0 ↔ x = 0 := by
  rw [l2, Real.sqrt_eq_zero (sq_nonneg' x), sq_eq_zero_iff]

theorem sq_smul (c : ℝ) (x : ι → E) : sq (c • x) = c ^ 2 * sq x := by
  simp only [sq, Finset.mul_sum, Pi.smul_apply, norm_smul, mul_pow, Real.norm_eq_abs, sq_abs]

theorem l2_smul (c : ℝ) (hc : 0 ≤ c) (x : ι → E) : l2 (c • x) = c * l2 x := by
  rw [l2, sq_smul, Real.sqrt_mul (by positivity), Real.sqrt_sq hc, l2]

theorem rdot_self (x : ι → E) : rdot x x = sq x := by
  simp only [rdot, sq, real_inner_self_eq_norm_sq]

theorem rdot_le_l2 (x y : ι → E) : rdot x y ≤ l2 x * l2 y := by
  have h := real_inner_le_norm (WithLp.toLp 2 x : PiLp 2 fun _ : ι => E) (WithLp.toLp 2 y)
  rw [PiLp.norm_eq_of_L2, PiLp.norm_eq_of_L2, PiLp.inner_apply] at h
  exact h

theorem rdot_smul_left (c : ℝ) (x y : ι → E) : rdot (c • x) y = c * rdot x y := by
  simp only [rdot, Pi.smul_apply, real_inner_smul_left, Finset.mul_sum]

theorem rdot_smul_right (c : ℝ) (x y : ι → E) : rdot x (c • y) = c * rdot x y := by
  simp only [rdot, Pi.smul_apply, real_inner_smul_right, Finset.mul_sum]

theorem rdot_sub_right (x y z : ι → E) : rdot x (y - z) = rdot x y - rdot x z := by
  simp only [rdot, Pi.sub_apply, inner_sub_right, Finset.sum_sub_distrib]

theorem rdot_add_left (x y z : ι → E) : rdot (x + y) z = rdot x z + rdot y z := by
  simp only [rdot, Pi.add_apply, inner_add_left, Finset.sum_add_distrib]

theorem sq_expand (u v x : ι → E) :
    sq (u - v) = sq (u - x) - 2 * rdot (v - x) (u - x) + sq (x - v) := by
  simp only [sq, rdot, Finset.mul_sum, ← Finset.sum_sub_distrib, ← Finset.sum_add_distrib]
  refine Finset.sum_congr rfl fun i _ => ?_
  simp only [Pi.sub_apply]
  have h1 : u i - v i = (u i - x i) - (v i - x i) := by abel
  have h2 : ‖x i - v i‖ = ‖v i - x i‖ := norm_sub_rev _ _
  rw [h1, norm_sub_sq_real, h2, real_inner_comm]

/-- A subgradient inequality makes `x` the proximal point, with a quadratic margin. -/
theorem prox_of_subgrad {f : (ι → E) → ℝ} {v x u : ι → E}
    (h : f x + rdot (v - x) (u - x) ≤ f u) :
    proxObj f v x + 1 / 2 * sq (u - x) ≤ proxObj f v u := by
  have := sq_expand u v x
  unfold proxObj; linarith

theorem uniqueMin_of_margin {F : (ι → E) → ℝ} {C : Set (ι → E)} {x : ι → E} (hx : x ∈ C)
    (h : ∀ u ∈ C, F x + 1 / 2 * sq (u - x) ≤ F u) : IsUniqueMin F C x := by
  refine ⟨hx, fun u hu hne => ?_⟩
  have h1 := h u hu
  have h2 := sq_pos_of_ne (sub_ne_zero.2 hne)
  linarith

theorem IsUniqueMin.isMin {X : Type*} {F : X → ℝ} {C : Set X} {x : X} (h : IsUniqueMin F C x) :
    IsMin F C x := by
  refine ⟨h.1, fun u hu => ?_⟩
  by_cases e : u = x
  · rw [e]
  · exact (h.2 u hu e).le

/-- Slicewise unique minimisers give the unique minimiser of the sum over slices. -/
theorem IsUniqueMin.sum {X : Type*} {F : σ → X → ℝ} {C : σ → Set X} {x : σ → X}
    (h : ∀ s, IsUniqueMin (F s) (C s) (x s)) :
    IsUniqueMin (fun u : σ → X => ∑ s, F s (u s)) {u | ∀ s, u s ∈ C s} x := by
  refine ⟨fun s => (h s).1, fun u hu hne => ?_⟩
  obtain ⟨s, hs⟩ := Function.ne_iff.1 hne
  exact Finset.sum_lt_sum (fun t _ => (h t).isMin.2 _ (hu t)) ⟨s, Finset.mem_univ _, (h s).2 _ (hu s) hs⟩

theorem IsMin.sum {X : Type*} {F : σ → X → ℝ} {C : σ → Set X} {x : σ → X}
    (h : ∀ s, IsMin (F s) (C s) (x s)) :
    IsMin (fun u : σ → X => ∑ s, F s (u s)) {u | ∀ s, u s ∈ C s} x :=
  ⟨fun s => (h s).1, fun u hu => Finset.sum_le_sum fun t _ => (h t).2 _ (hu t)⟩

/-! ## Soft thresholding -/

theorem npSign_mul_abs (v : ℝ) : npSign v * |v| = v := by
  unfold npSign
  split_ifs with h1 h2
  · rw [abs_of_pos h1, one_mul]
  · rw [abs_of_neg h2]; ring
  · have : v = 0 := le_antisymm (not_lt.1 h1) (not_lt.1 h2)
    simp [this]

theorem abs_npSign_le (v : ℝ) : |npSign v| ≤ 1 := by
  unfold npSign; split_ifs <;> simp

theorem proxL1Ne_eq (v α : ℝ) (hα : 0 ≤ α) : proxL1Ne v α = proxL1 v α := by
  unfold proxL1Ne proxL1 npSign
  rcases lt_trichotomy v 0 with h | h | h
  · rw [if_neg (not_le.2 h), if_neg (not_lt.2 h.le), if_pos h]
    split_ifs with h1
    · rw [max_eq_left h1.le]
    · rw [max_eq_right (not_lt.1 h1)]; simp
  · subst h; simp [hα]
  · rw [if_pos h.le, if_pos h]
    split_ifs with h1
    · rw [max_eq_left h1.le]
    · rw [max_eq_right (not_lt.1 h1)]; simp

theorem abs_proxL1 (v α : ℝ) (hα : 0 ≤ α) : |proxL1 v α| = max (|v| - α) 0 := by
  unfold proxL1
  rw [abs_mul, abs_of_nonneg (le_max_right (|v| - α) 0)]
  unfold npSign
  rcases lt_trichotomy v 0 with h | h | h
  · rw [if_neg (not_lt.2 h.le), if_pos h]; simp
  · subst h; simp [hα]
  · rw [if_pos h]; simp

/-- `v - prox_l1 v` has magnitude at most `α`. -/
theorem abs_sub_proxL1 (v α : ℝ) (hα : 0 ≤ α) : |v - proxL1 v α| ≤ α := by
  have h0 : v - proxL1 v α = npSign v * (|v| - max (|v| - α) 0) := by
    rw [mul_sub, npSign_mul_abs, proxL1]
  rw [h0, abs_mul]
  have h1 := abs_npSign_le v
  have h2 : |(|v| - max (|v| - α) 0)| ≤ α := by
    rw [abs_le]
    constructor
    · have := abs_nonneg v
      rcases max_choice (|v| - α) 0 with h | h <;> rw [h] <;> linarith
    · have := le_max_left (|v| - α) 0; linarith
  calc |npSign v| * |(|v| - max (|v| - α) 0)| ≤ 1 * α :=
        mul_le_mul h1 h2 (abs_nonneg _) zero_le_one
    _ = α := one_mul _

/-- ... and is aligned with `prox_l1 v`. -/
theorem sub_proxL1_mul (v α : ℝ) (hα : 0 ≤ α) :
    (v - proxL1 v α) * proxL1 v α = α * |proxL1 v α| := by
  rw [abs_proxL1 v α hα]
  by_cases h : |v| - α ≤ 0
  · unfold proxL1; rw [max_eq_right h]; simp
  · have h' := not_le.1 h
    have hv : npSign v * npSign v = 1 := by
      have : v ≠ 0 := by rintro rfl; simp at h'; linarith
      unfold npSign
      rcases lt_or_gt_of_ne this with h | h
      · rw [if_neg (not_lt.2 h.le), if_pos h]; norm_num
      · rw [if_pos h]; norm_num
    have h0 : v - proxL1 v α = npSign v * (|v| - max (|v| - α) 0) := by
      rw [mul_sub, npSign_mul_abs, proxL1]
    rw [h0]; unfold proxL1; rw [max_eq_left h'.le]
    linear_combination ((|v| - (|v| - α)) * (|v| - α)) * hv

/-- Subgradient of a weighted `ℓ₁` norm at a non-negative multiple of `w`, given
alignment at `w`. -/
theorem l1w_subgrad {α : ι → ℝ} {g w x : ι → E} {c : ℝ} (hc : 0 ≤ c)
    (hg : ∀ i, ‖g i‖ ≤ α i) (hw : ∀ i, ⟪g i, w i⟫ = α i * ‖w i‖) (hx : x = c • w) (u : ι → E) :
    l1w α x + rdot g (u - x) ≤ l1w α u := by
  have h1 : rdot g x = l1w α x := by
    rw [hx]
    refine Finset.sum_congr rfl fun i _ => ?_
    rw [Pi.smul_apply, real_inner_smul_right, hw, norm_smul, Real.norm_of_nonneg hc]; ring
  have h2 : rdot g u ≤ l1w α u := by
    refine Finset.sum_le_sum fun i _ => ?_
    exact (real_inner_le_norm _ _).trans (mul_le_mul_of_nonneg_right (hg i) (norm_nonneg _))
  rw [rdot_sub_right, h1]; linarith

theorem proxL1Arr_subgrad (v α : ι → ℝ) (hα : ∀ i, 0 ≤ α i) (u : ι → ℝ) :
    l1w α (proxL1Arr v α) + rdot (v - proxL1Arr v α) (u - proxL1Arr v α) ≤ l1w α u := by
  refine l1w_subgrad (c := 1) zero_le_one (w := proxL1Arr v α) (fun i => ?_) (fun i => ?_)
    (by simp) u
  · exact abs_sub_proxL1 _ _ (hα i)
  · have := sub_proxL1_mul (v i) (α i) (hα i)
    simp only [Pi.sub_apply, proxL1Arr, Real.norm_eq_abs]
    rw [← this]; simp [mul_comm]

/-! ## Block soft thresholding -/

theorem normL2_eq (x : ι → E) : normL2 x = l2 x := rfl

/-- The factor applied by `prox_l2`. -/
noncomputable def l2fac (v : ι → E) (α : ℝ) : ℝ := zdivide (max 0 (l2 v - α)) (l2 v)

theorem proxL2_eq (v : ι → E) (α : ℝ) : proxL2 v α = l2fac v α • v := rfl

theorem l2fac_nonneg (v : ι → E) (α : ℝ) : 0 ≤ l2fac v α := by
  unfold l2fac zdivide
  split_ifs
  · exact div_nonneg (le_max_left _ _) (l2_nonneg _)
  · exact le_rfl

theorem l2_proxL2 (v : ι → E) (α : ℝ) (hα : 0 ≤ α) : l2 (proxL2 v α) = max 0 (l2 v - α) := by
  rw [proxL2_eq, l2_smul _ (l2fac_nonneg _ _)]
  unfold l2fac zdivide
  split_ifs with h
  · field_simp
  · push Not at h; rw [h, mul_zero, max_eq_left]; linarith

theorem proxL2_subgrad (v : ι → E) (α : ℝ) (hα : 0 ≤ α) (u : ι → E) :
    α * l2 (proxL2 v α) + rdot (v - proxL2 v α) (u - proxL2 v α) ≤ α * l2 u := by
  have hN := l2_nonneg v
  by_cases h : l2 v ≤ α
  · have h0 : proxL2 v α = 0 := by
      rw [← l2_eq_zero_iff, l2_proxL2 v α hα, max_eq_left]; linarith
    have h3 : l2 (0 : ι → E) = 0 := (l2_eq_zero_iff _).2 rfl
    rw [h0, sub_zero, sub_zero, h3, mul_zero, zero_add]
    exact (rdot_le_l2 v u).trans (mul_le_mul_of_nonneg_right h (l2_nonneg _))
  · have h' := not_le.1 h
    have hpos : 0 < l2 v := lt_of_le_of_lt hα h'
    have hfac : l2fac v α = (l2 v - α) / l2 v := by
      unfold l2fac zdivide; rw [if_pos hpos.ne', max_eq_right (by linarith)]
    have hsub : v - proxL2 v α = (α / l2 v) • v := by
      rw [proxL2_eq, hfac]; funext i
      simp only [Pi.sub_apply, Pi.smul_apply]
      rw [← one_smul ℝ (v i), smul_smul, smul_smul, ← sub_smul]
      congr 1; field_simp; ring
    have e1 : rdot (v - proxL2 v α) (proxL2 v α) = α * l2 (proxL2 v α) := by
      rw [hsub, l2_proxL2 v α hα, max_eq_right (by linarith), proxL2_eq, hfac, rdot_smul_left,
        rdot_smul_right, rdot_self, ← l2_sq]
      field_simp
    have e2 : rdot (v - proxL2 v α) u ≤ α * l2 u := by
      rw [hsub, rdot_smul_left]
      have := rdot_le_l2 v u
      calc α / l2 v * rdot v u ≤ α / l2 v * (l2 v * l2 u) :=
            mul_le_mul_of_nonneg_left this (by positivity)
        _ = α * l2 u := by field_simp
    rw [rdot_sub_right, e1]; linarith

end Sporco.Prox
