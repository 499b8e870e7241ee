import Verif.Conv.TvModel
import Verif.Prox.Lemmas
import Mathlib.Analysis.InnerProductSpace.PiL2
import Mathlib.Analysis.Convex.Function

/-!
# Sums of norms of groups of entries, and the map `prox_l2` with an axis argument
-/

set_option autoImplicit false
set_option linter.unusedSectionVars false

namespace Sporco.Conv.TVC

open Finset Sporco.Prox
open scoped RealInnerProductSpace

variable {ι G : Type*} [Fintype ι] [Fintype G] [DecidableEq G]

/-- The entries in group `j`. -/
def slc (g : ι → G) (j : G) (v : EuclideanSpace ℝ ι) : EuclideanSpace ℝ {i // g i = j} :=
  WithLp.toLp 2 fun i => v i.1

theorem sum_slc (g : ι → G) (f : ι → ℝ) : ∑ i, f i = ∑ j, ∑ i : {i // g i = j}, f i.1 := by
  rw [← Fintype.sum_fiberwise g f]

theorem sum_with (g : ι → G) (f : ι → ℝ) (j : G) : ∑ i with g i = j, f i = ∑ i : {i // g i = j}, f i.1 := by
  rw [← Finset.sum_subtype_eq_sum_filter, Finset.subtype_univ]

theorem norm_slc (g : ι → G) (v : EuclideanSpace ℝ ι) : ‖v‖ ^ 2 = ∑ j, ‖slc g j v‖ ^ 2 := by
  rw [EuclideanSpace.norm_sq_eq, sum_slc g]
  refine sum_congr rfl fun j _ => ?_
  rw [EuclideanSpace.norm_sq_eq]
  rfl

theorem sumGrp_eq (g : ι → G) (v : EuclideanSpace ℝ ι) : sumGrp g v.ofLp = ∑ j, ‖slc g j v‖ := by
  unfold sumGrp
  refine sum_congr rfl fun j _ => ?_
  rw [EuclideanSpace.norm_eq, sum_with g (fun i => v i ^ 2)]
  congr 1
  refine sum_congr rfl fun i _ => ?_
  rw [Real.norm_eq_abs, sq_abs]
  rfl

theorem slc_add (g : ι → G) (j : G) (v u : EuclideanSpace ℝ ι) : slc g j (v + u) = slc g j v + slc g j u := rfl
theorem slc_sub (g : ι → G) (j : G) (v u : EuclideanSpace ℝ ι) : slc g j (v - u) = slc g j v - slc g j u := rfl
theorem slc_smul (g : ι → G) (j : G) (r : ℝ) (v : EuclideanSpace ℝ ι) : slc g j (r • v) = r • slc g j v := rfl

theorem sumGrp_nonneg (g : ι → G) (v : ι → ℝ) : 0 ≤ sumGrp g v := sum_nonneg fun _ _ => Real.sqrt_nonneg _

theorem sumGrp_zero (g : ι → G) : sumGrp g (0 : ι → ℝ) = 0 := by
  have := sumGrp_eq g (0 : EuclideanSpace ℝ ι)
  rw [show sumGrp g (0 : ι → ℝ) = _ from this]
  refine sum_eq_zero fun j _ => ?_
  rw [show slc g j (0 : EuclideanSpace ℝ ι) = 0 from rfl, norm_zero]

theorem sumGrp_convex (g : ι → G) (mu : ℝ) (hm : 0 ≤ mu) :
    ConvexOn ℝ Set.univ fun v : EuclideanSpace ℝ ι => mu * sumGrp g v.ofLp := by
  refine ⟨convex_univ, fun x _ y _ s t hs ht _ => ?_⟩
  simp only [smul_eq_mul]
  have key : sumGrp g (s • x + t • y).ofLp ≤ s * sumGrp g x.ofLp + t * sumGrp g y.ofLp := by
    rw [sumGrp_eq, sumGrp_eq, sumGrp_eq, mul_sum, mul_sum, ← sum_add_distrib]
    refine sum_le_sum fun j _ => ?_
    rw [slc_add, slc_smul, slc_smul]
    have := norm_add_le (s • slc g j x) (t • slc g j y)
    rwa [norm_smul, norm_smul, Real.norm_of_nonneg hs, Real.norm_of_nonneg ht] at this
  have := mul_le_mul_of_nonneg_left key hm
  linarith

theorem sumGrp_sub (g : ι → G) (y z : EuclideanSpace ℝ ι) :
    |sumGrp g y.ofLp - sumGrp g z.ofLp| ≤ sumGrp g (y - z).ofLp := by
  rw [sumGrp_eq, sumGrp_eq, sumGrp_eq, ← sum_sub_distrib]
  refine (abs_sum_le_sum_abs _ _).trans (sum_le_sum fun j _ => ?_)
  rw [slc_sub]
  exact abs_norm_sub_norm_le _ _

theorem continuous_sumGrp (g : ι → G) : Continuous fun v : EuclideanSpace ℝ ι => sumGrp g v.ofLp := by
  have : (fun v : EuclideanSpace ℝ ι => sumGrp g v.ofLp) = fun v => ∑ j, ‖slc g j v‖ :=
    funext (sumGrp_eq g)
  rw [this]
  refine continuous_finsetSum _ fun j _ => Continuous.norm ?_
  refine (PiLp.continuous_toLp 2 _).comp (continuous_pi fun i => ?_)
  exact (EuclideanSpace.proj i.1).continuous

theorem slc_prox (g : ι → G) (v : EuclideanSpace ℝ ι) (al : ℝ) (j : G) :
    (slc g j (WithLp.toLp 2 (proxGrp g v.ofLp al) : EuclideanSpace ℝ ι)).ofLp = proxL2 (slc g j v).ofLp al := by
  funext ⟨i, hi⟩
  subst hi
  rfl

theorem proxL2_min {κ : Type*} [Fintype κ] (mu : ℝ) (hm : 0 ≤ mu) (rho : ℝ) (hr : 0 < rho)
    (v z : EuclideanSpace ℝ κ) :
    let y : EuclideanSpace ℝ κ := WithLp.toLp 2 (proxL2 v.ofLp (mu / rho))
    mu * ‖y‖ + rho / 2 * ‖v - y‖ ^ 2 + rho / 2 * ‖z - y‖ ^ 2 ≤ mu * ‖z‖ + rho / 2 * ‖v - z‖ ^ 2 := by
  intro y
  have h := proxL2_subgrad v.ofLp (mu / rho) (div_nonneg hm hr.le) z.ofLp
  have e1 : ∀ y : EuclideanSpace ℝ κ, Prox.l2 y.ofLp = ‖y‖ := by
    intro y; rw [EuclideanSpace.norm_eq]; rfl
  have e2 : rdot (v.ofLp - proxL2 v.ofLp (mu / rho)) (z.ofLp - proxL2 v.ofLp (mu / rho)) = ⟪v - y, z - y⟫ := by
    rw [PiLp.inner_apply]
    rfl
  rw [e2, show l2 (proxL2 v.ofLp (mu / rho)) = ‖y‖ from e1 y, e1] at h
  have h3 : ‖v - z‖ ^ 2 = ‖v - y‖ ^ 2 - 2 * ⟪v - y, z - y⟫ + ‖z - y‖ ^ 2 := by
    rw [show v - z = (v - y) - (z - y) by abel, norm_sub_sq_real]
  rw [h3]
  have h4 := mul_le_mul_of_nonneg_left h hr.le
  have h5 : rho * (mu / rho) = mu := by field_simp
  have h6 : rho * (mu / rho * ‖y‖ + ⟪v - y, z - y⟫) = mu * ‖y‖ + rho * ⟪v - y, z - y⟫ := by
    rw [mul_add, ← mul_assoc, h5]
  rw [h6, ← mul_assoc, h5] at h4
  linarith

/-- The map `prox_l2` with an axis argument minimises the sum of norms plus the squared distance. -/
theorem proxGrp_min (g : ι → G) (mu : ℝ) (hm : 0 ≤ mu) (rho : ℝ) (hr : 0 < rho) (v z : EuclideanSpace ℝ ι) :
    let y : EuclideanSpace ℝ ι := WithLp.toLp 2 (proxGrp g v.ofLp (mu / rho))
    mu * sumGrp g y.ofLp + rho / 2 * ‖v - y‖ ^ 2 + rho / 2 * ‖z - y‖ ^ 2 ≤
      mu * sumGrp g z.ofLp + rho / 2 * ‖v - z‖ ^ 2 := by
  intro y
  rw [sumGrp_eq, sumGrp_eq, norm_slc g (v - y), norm_slc g (z - y), norm_slc g (v - z), mul_sum, mul_sum, mul_sum,
    mul_sum, mul_sum, ← sum_add_distrib, ← sum_add_distrib, ← sum_add_distrib]
  refine sum_le_sum fun j _ => ?_
  have h := proxL2_min mu hm rho hr (slc g j v) (slc g j z)
  have e : (WithLp.toLp 2 (proxL2 (slc g j v).ofLp (mu / rho)) : EuclideanSpace ℝ {i // g i = j}) = slc g j y :=
    congrArg (WithLp.toLp 2) (slc_prox g v (mu / rho) j).symm
  simp only [e] at h
  exact h

end Sporco.Conv.TVC
