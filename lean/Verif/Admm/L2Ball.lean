import Verif.Admm.BpdnConv
import Verif.Admm.TwoBlock

/-!
# Arrays whose slices lie in an l2 ball

Shared by `MinL1InL2Ball` and `ConvMinL1InL2Ball`, which project every slice of an array along
some axes with `proj_l2`.
-/

set_option autoImplicit false
set_option linter.unusedSectionVars false

namespace Sporco.Admm

open Sporco.Prox Filter Topology
open scoped RealInnerProductSpace

variable {κ ι J : Type*} [Fintype κ] [Fintype ι] [Fintype J]

theorem l2_norm (v : ι → ℝ) : l2 v = ‖(WithLp.toLp 2 v : EuclideanSpace ℝ ι)‖ := by
  unfold l2
  rw [Bpdn.sq_norm, Real.sqrt_sq (norm_nonneg _)]

theorem l2_triangle (u v : ι → ℝ) : l2 (fun i => u i + v i) ≤ l2 u + l2 v := by
  rw [l2_norm, l2_norm, l2_norm]
  exact norm_add_le (WithLp.toLp 2 u : EuclideanSpace ℝ ι) (WithLp.toLp 2 v)

/-- Slice `k` of an array whose entries are numbered by `e`. -/
def slice (e : κ × ι ≃ J) (y : EuclideanSpace ℝ J) (k : κ) : ι → ℝ := fun i => y (e (k, i))

/-- Arrays all of whose slices have norm at most `eps`. -/
def sball (e : κ × ι ≃ J) (eps : ℝ) : Set (EuclideanSpace ℝ J) := {y | ∀ k, l2 (slice e y k) ≤ eps}

/-- Projection of every slice. -/
noncomputable def sproj (e : κ × ι ≃ J) (eps : ℝ) (y : EuclideanSpace ℝ J) : EuclideanSpace ℝ J :=
  WithLp.toLp 2 fun j => projL2 (slice e y (e.symm j).1) eps (e.symm j).2

theorem slice_sproj (e : κ × ι ≃ J) (eps : ℝ) (y : EuclideanSpace ℝ J) (k : κ) :
    slice e (sproj e eps y) k = projL2 (slice e y k) eps := by
  funext i
  change projL2 (slice e y (e.symm (e (k, i))).1) eps (e.symm (e (k, i))).2 = _
  rw [e.symm_apply_apply]

theorem norm_slice (e : κ × ι ≃ J) (y : EuclideanSpace ℝ J) : ‖y‖ ^ 2 = ∑ k, Prox.sq (slice e y k) := by
  rw [EuclideanSpace.norm_sq_eq, ← e.sum_comp, Fintype.sum_prod_type]
  rfl

theorem slice_le (e : κ × ι ≃ J) (y : EuclideanSpace ℝ J) (k : κ) : l2 (slice e y k) ≤ ‖y‖ := by
  have h : Prox.sq (slice e y k) ≤ ‖y‖ ^ 2 := by
    rw [norm_slice e]
    exact Finset.single_le_sum (f := fun k => Prox.sq (slice e y k))
      (fun k _ => Finset.sum_nonneg fun i _ => sq_nonneg _) (Finset.mem_univ k)
  unfold l2
  exact Real.sqrt_le_iff.2 ⟨norm_nonneg _, h⟩

theorem convex_sball (e : κ × ι ≃ J) (eps : ℝ) : Convex ℝ (sball e eps) := by
  intro x hx y hy a b ha hb hab k
  have h1 : slice e (a • x + b • y) k = fun i => (a • slice e x k) i + (b • slice e y k) i := rfl
  rw [h1]
  refine (l2_triangle _ _).trans ?_
  have h2 : ∀ (c : ℝ) (v : ι → ℝ), 0 ≤ c → l2 (c • v) = c * l2 v := by
    intro c v hc
    rw [l2_norm, l2_norm]
    change ‖c • (WithLp.toLp 2 v : EuclideanSpace ℝ ι)‖ = _
    rw [norm_smul, Real.norm_of_nonneg hc]
  rw [h2 _ _ ha, h2 _ _ hb]
  have h3 := mul_le_mul_of_nonneg_left (hx k) ha
  have h4 := mul_le_mul_of_nonneg_left (hy k) hb
  calc a * l2 (slice e x k) + b * l2 (slice e y k) ≤ a * eps + b * eps := add_le_add h3 h4
    _ = eps := by rw [← add_mul, hab, one_mul]

theorem continuous_slice (e : κ × ι ≃ J) (k : κ) :
    Continuous fun y : EuclideanSpace ℝ J => l2 (slice e y k) := by
  unfold l2 Prox.sq slice
  refine Real.continuous_sqrt.comp (continuous_finsetSum _ fun i _ => ?_)
  exact ((EuclideanSpace.proj (e (k, i)) : EuclideanSpace ℝ J →L[ℝ] ℝ).continuous.norm).pow 2

theorem closed_sball (e : κ × ι ≃ J) (eps : ℝ) : IsClosed (sball e eps) := by
  have : sball e eps = ⋂ k, {y | l2 (slice e y k) ≤ eps} := by ext y; simp [sball]
  rw [this]
  exact isClosed_iInter fun k => isClosed_le (continuous_slice e k) continuous_const

theorem interior_sball (e : κ × ι ≃ J) (eps : ℝ) (y : EuclideanSpace ℝ J)
    (h : ∀ k, l2 (slice e y k) < eps) : y ∈ interior (sball e eps) := by
  rw [mem_interior]
  refine ⟨⋂ k, {y | l2 (slice e y k) < eps}, fun z hz k => ?_, ?_, ?_⟩
  · have := Set.mem_iInter.1 hz k
    exact le_of_lt this
  · exact isOpen_iInter_of_finite fun k => isOpen_lt (continuous_slice e k) continuous_const
  · exact Set.mem_iInter.2 h

theorem sproj_min (e : κ × ι ≃ J) (eps : ℝ) (he : 0 ≤ eps) (y : EuclideanSpace ℝ J) :
    sproj e eps y ∈ sball e eps ∧ ∀ z ∈ sball e eps, ‖y - sproj e eps y‖ ^ 2 ≤ ‖y - z‖ ^ 2 := by
  have key := C17_proj_l2 (fun k => slice e y k) eps he
  refine ⟨fun k => ?_, fun z hz => ?_⟩
  · rw [slice_sproj]; exact key.1 k
  · have h := key.isMin.2 (fun k => slice e z k) hz
    have e1 : ∀ z, ‖y - z‖ ^ 2 = 2 * ∑ k, 1 / 2 * Prox.sq (slice e z k - slice e y k) := by
      intro z
      rw [← neg_sub, norm_neg, norm_slice e, Finset.mul_sum]
      refine Finset.sum_congr rfl fun k _ => ?_
      rw [← mul_assoc, mul_one_div_cancel two_ne_zero, one_mul]
      rfl
    rw [e1, e1]
    refine mul_le_mul_of_nonneg_left ?_ two_pos.le
    simp only [slice_sproj]
    exact h

theorem sball_near (e : κ × ι ≃ J) (eps : ℝ) (y z : EuclideanSpace ℝ J) (hz : z ∈ sball e eps) (k : κ) :
    l2 (slice e y k) ≤ eps + ‖y - z‖ := by
  have h1 : slice e y k = fun i => slice e z k i + slice e (y - z) k i := by
    funext i
    change y (e (k, i)) = z (e (k, i)) + (y (e (k, i)) - z (e (k, i)))
    ring
  rw [h1]
  exact (l2_triangle _ _).trans (add_le_add (hz k) (slice_le e _ k))

/-- The weighted l1 norm of nearby arrays. -/
theorem l1w_near {w : J → ℝ} (hw : ∀ i, 0 ≤ w i) (x y : EuclideanSpace ℝ J) :
    |l1w w x.ofLp - l1w w y.ofLp| ≤ l1w w (x - y).ofLp := by
  have h : ∀ x y : EuclideanSpace ℝ J, l1w w x.ofLp - l1w w y.ofLp ≤ l1w w (x - y).ofLp := by
    intro x y
    unfold l1w
    rw [← Finset.sum_sub_distrib]
    refine Finset.sum_le_sum fun i _ => ?_
    rw [← mul_sub]
    refine mul_le_mul_of_nonneg_left ?_ (hw i)
    exact norm_sub_norm_le _ _
  rw [abs_le]
  constructor
  · have h1 := h y x
    have h2 : l1w w (y - x).ofLp = l1w w (x - y).ofLp := by
      unfold l1w
      refine Finset.sum_congr rfl fun i _ => ?_
      congr 1
      exact norm_sub_rev _ _
    linarith
  · exact h x y

theorem l1w_tendsto {w : J → ℝ} (hw : ∀ i, 0 ≤ w i) (x y : ℕ → EuclideanSpace ℝ J) (p : ℝ)
    (hy : Tendsto (fun n => l1w w (y n).ofLp) atTop (𝓝 p))
    (hd : Tendsto (fun n => x n - y n) atTop (𝓝 0)) : Tendsto (fun n => l1w w (x n).ofLp) atTop (𝓝 p) := by
  have h0 : Tendsto (fun n => l1w w (x n - y n).ofLp) atTop (𝓝 0) := by
    have := ((Bpdn.continuous_l1w w).tendsto 0).comp hd
    have e : l1w w (0 : EuclideanSpace ℝ J).ofLp = 0 := by simp [l1w]
    rw [e] at this
    exact this
  have h1 : Tendsto (fun n => l1w w (x n).ofLp - l1w w (y n).ofLp) atTop (𝓝 0) :=
    squeeze_zero_norm (fun n => l1w_near hw (x n) (y n)) h0
  have := hy.add h1
  rw [add_zero] at this
  exact this.congr fun n => by ring

end Sporco.Admm
