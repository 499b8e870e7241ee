import Verif.Tv.DeconvL1
import Verif.Admm.IterGen

/-!
# C39: iterates of `TVL2Deconv` and `TVL1Deconv`
-/

set_option autoImplicit false
set_option linter.unusedSectionVars false

namespace Sporco.Tv.Dec

open Finset ComplexConjugate Sporco.Conv Sporco.Admm Sporco.Signal Filter Topology
open Sporco.Prox (IsUniqueMin l1w proxL1Arr)
open scoped RealInnerProductSpace

variable {d : ℕ} {N Nd : Fin d → ℕ} [∀ k, NeZero (N k)] {a : Fin d} {γ χ : Type*} [Fintype γ] [Fintype χ]

theorem img_tendsto {x : ℕ → ImgD γ χ N} {l : ImgD γ χ N} (h : Tendsto x atTop (𝓝 l)) (i : γ × χ) (p : Grid N) :
    Tendsto (fun n => img (x n) i p) atTop (𝓝 (img l i p)) :=
  (((EuclideanSpace.proj (i, (), p) : ImgD γ χ N →L[ℝ] ℝ).continuous).tendsto l).comp h

/-- **C39, iterates of `TVL2Deconv`.** With positive parameter and weights, fixed rho, relaxation parameter in (0, 2), from
any start, the image that `solve()` returns converges itself, sample by sample, to a minimiser of the functional
(kernels with non-zero sum, axes of length at least two). -/
theorem C39_tvl2deconv_iterates (hN : ∀ k, Nd k ≤ N k) (h2 : ∀ k, 2 ≤ N k) (A : γ × χ → NArr Nd ℝ)
    (hA : ∀ i, ∑ j, A i j ≠ 0) (S : γ × χ → Grid N → ℝ) (lmbda : ℝ) (hl : 0 < lmbda) (w : γ → Grid N → ℝ)
    (hw : ∀ g p, 0 < w g p) (ge : Bool) (o : Opts) (ha : o.autoRho = false) (hrlx : 0 < o.rlx ∧ o.rlx < 2)
    (cb) (s : St (ImgD γ χ N) (GradD γ χ N) (GradD γ χ N) (γ × χ → Half N a → ℂ)) (hp : 0 < s.rho) :
    let C : Cls _ _ _ (γ × χ → Half N a → ℂ) := clsL2 A S lmbda w ge
    let T := traj C o cb s
    ∃ xs, (∀ z, tvL2 A S lmbda w xs ≤ tvL2 A S lmbda w z) ∧
      ∀ i p, Tendsto (fun n => img (T n).X i p) atTop (𝓝 (xs i p)) := by
  intro C T
  have hw0 : ∀ g p, 0 ≤ w g p := fun g p => (hw g p).le
  obtain ⟨xs, hxs⟩ := C39_tvl2deconv_exists hN h2 A hA S lmbda hl w hw
  have hC := implements_L2 (a := a) hN h2 A hA S lmbda hl.le w hw0 ge
  obtain ⟨l, hsad⟩ := split_saddle (gradL (γ := γ) (χ := χ) (N := N)) gradLT gradL_adj 0
    (fun x : ImgD γ χ N => 1 / 2 * ‖blurL A x - sigL S‖ ^ 2) (ls_convex (blurL (N := N) A) (sigL S))
    (fun v : GradD γ χ N => lmbda * regTv w v) (regTv_convex lmbda hl.le w hw0) (join fun i _ => xs i)
    (fun z => by rw [← tvL2_eq hN h2, ← tvL2_eq hN h2]; exact hxs (img z))
  obtain ⟨x, y, u, h0, h1, -, -⟩ := gen_iterates_ls (P := probL2 A S lmbda hl.le w hw0) (blurL A) (blurLT A)
    (blurL_adj A) (sigL S) (fun _ => rfl) rfl
    (fun x hx hx' => stack_inj A 1 (dfull_ne hN h2 A 1 one_pos hA) x hx' hx) (fun _ _ h => neg_injective h)
    ((continuous_regTv w).const_mul lmbda) isClosed_univ hC o ha hrlx cb (fun _ _ _ _ => trivial) s hp trivial hsad
  have hfe : y = gradL x - 0 := by
    have := h0.feas
    change gradL x + -y = 0 at this
    rw [sub_zero]
    exact (add_neg_eq_zero.1 this).symm
  refine ⟨img x, fun z => ?_, img_tendsto h1⟩
  have h3 := h0.solution (join fun i _ => z i) (gradL (join fun i _ => z i) - 0) trivial trivial (by
    change gradL (join fun i _ => z i : ImgD γ χ N) + -(gradL (join fun i _ => z i : ImgD γ χ N) - 0) = 0
    abel)
  rw [hfe] at h3
  change 1 / 2 * ‖blurL A x - sigL S‖ ^ 2 + lmbda * regTv w (gradL x - 0) ≤
    1 / 2 * ‖blurL A (join fun i _ => z i : ImgD γ χ N) - sigL S‖ ^ 2 +
      lmbda * regTv w (gradL (join fun i _ => z i : ImgD γ χ N) - 0) at h3
  rw [← tvL2_eq hN h2, ← tvL2_eq hN h2] at h3
  exact h3

/-- **C39, iterates of `TVL1Deconv`.** As for `TVL2Deconv`, with positive data weights. -/
theorem C39_tvl1deconv_iterates (hN : ∀ k, Nd k ≤ N k) (h2 : ∀ k, 2 ≤ N k) (A : γ × χ → NArr Nd ℝ)
    (hA : ∀ i, ∑ j, A i j ≠ 0) (S : γ × χ → Grid N → ℝ) (lmbda : ℝ) (hl : 0 < lmbda)
    (wd : γ × χ → Grid N → ℝ) (hwd : ∀ i p, 0 < wd i p) (w : γ → Grid N → ℝ)
    (hw : ∀ g p, 0 < w g p) (ge : Bool) (o : Opts) (ha : o.autoRho = false) (hrlx : 0 < o.rlx ∧ o.rlx < 2)
    (cb) (s : St (ImgD γ χ N) (Y1 γ χ N) (Y1 γ χ N) (γ × χ → Half N a → ℂ)) (hp : 0 < s.rho) :
    let C : Cls _ _ _ (γ × χ → Half N a → ℂ) := clsL1 A S lmbda wd w ge
    let T := traj C o cb s
    ∃ xs, (∀ z, tvL1 A S lmbda wd w xs ≤ tvL1 A S lmbda wd w z) ∧
      ∀ i p, Tendsto (fun n => img (T n).X i p) atTop (𝓝 (xs i p)) := by
  intro C T
  have hw0 : ∀ g p, 0 ≤ w g p := fun g p => (hw g p).le
  have hwd0 : ∀ g p, 0 ≤ wd g p := fun g p => (hwd g p).le
  obtain ⟨xs, hxs⟩ := C39_tvl1deconv_exists hN h2 A hA S lmbda hl wd hwd w hw
  have e0 : ∀ z : ImgD γ χ N, lmbda * regTv w (gradL z - 0) + l1w (wdA wd) (blurL A z - sigL S).ofLp =
      tvL1 A S lmbda wd w (img z) := fun z => (tvL1_eq hN h2 A S lmbda wd w z).symm
  have ez : ∀ z : ImgD γ χ N, lmbda * regTv w (gradL (join fun i _ => xs i : ImgD γ χ N) - 0) +
      l1w (wdA wd) (blurL A (join fun i _ => xs i : ImgD γ χ N) - sigL S).ofLp ≤
      lmbda * regTv w (gradL z - 0) + l1w (wdA wd) (blurL A z - sigL S).ofLp := by
    intro z
    rw [e0, e0]
    exact hxs (img z)
  have hinj : ∀ x y : ImgD γ χ N, gradL x = gradL y → blurL A x = blurL A y → x = y := fun x y hx hy =>
    sub_eq_zero.1 (stack_inj A 1 (dfull_ne hN h2 A 1 one_pos hA) (x - y)
      (by rw [map_sub, hy, sub_self]) (by rw [map_sub, hx, sub_self]))
  obtain ⟨x, h3, h4⟩ := tb_iterates_at_x (exact_L1 (a := a) hN h2 A hA S lmbda hl.le wd hwd0 w hw0 ge) gradL_adj
    (blurL_adj A) (regTv_convex (χ := χ) lmbda hl.le w hw0) (l1_convex wd hwd0) hinj
    ((continuous_regTv w).const_mul lmbda) (continuous_l1 wd) o ha hrlx cb (fun _ _ _ _ => trivial) s hp trivial
    (join fun i _ => xs i) ez
  refine ⟨img x, fun z => ?_, img_tendsto h4⟩
  have h5 := h3 (join fun i _ => z i)
  rw [e0, e0] at h5
  exact h5

end Sporco.Tv.Dec
