import Verif.Spline.L1
import Verif.Admm.IterGen

/-!
# C39: iterates of `SplineL1`
-/

set_option autoImplicit false

namespace Sporco.Spline

open Finset Sporco.Prox Sporco.Admm Filter Topology
open scoped RealInnerProductSpace

variable {d : ℕ} {n : Fin d → ℕ}

/-- **C39, iterates of `SplineL1`.** Under the hypotheses of `C39_spline`, X itself converges, entry by entry, to a
minimiser of the documented functional. -/
theorem C39_spline_iterates (axes : List (Fin d)) (hnd : axes.Nodup) (S : V n) (lmbda : ℝ) (hl : 0 ≤ lmbda)
    (Wdf : Arr n) (hw : ∀ i, 0 < Wdf i) (ge : Bool) (o : Opts) (ha : o.autoRho = false)
    (hrlx : 0 < o.rlx ∧ o.rlx < 2) (cb) (hcb : Bpdn.CallbackReads cb)
    (s : St (V n) (V n) (V n) (Arr n)) (hp : 0 < s.rho) (hs : s.extra = Gamma axes lmbda s.rho) :
    ∃ xopt : Arr n, IsMin (objSpline axes S.ofLp lmbda Wdf) Set.univ xopt ∧
      ∀ i, Tendsto (fun m => (traj (clsSpline axes S lmbda Wdf ge) o cb s m).X.ofLp i) atTop (𝓝 (xopt i)) := by
  have hw0 : ∀ i, 0 ≤ Wdf i := fun i => (hw i).le
  set g : V n → ℝ := fun y => 1 * l1w Wdf y.ofLp with hg
  set L : V n →L[ℝ] V n := lapL axes lmbda with hL
  obtain ⟨c, hc, hgrow⟩ := Bpdn.l1w_grow Wdf hw 1 one_pos
  obtain ⟨y, -, hmin⟩ := ls_exists_min L (-L S) g Set.univ isClosed_univ ⟨0, trivial⟩
    (continuous_const.mul (Bpdn.continuous_l1w Wdf)) c hc hgrow
  have hadj : ∀ x y, ⟪L x, y⟫ = ⟪x, L.adjoint y⟫ := fun x y => (ContinuousLinearMap.adjoint_inner_right L x y).symm
  have hsad0 := ls_saddle L L.adjoint hadj (-L S) g Set.univ
    (Bpdn.convex_l1w Wdf hw0 _ convex_univ 1 zero_le_one) y trivial hmin
  have hsad : (splineProblem axes S lmbda Wdf hw0).Saddle (y + S) y (-L.adjoint (L y - -L S)) := by
    refine ⟨trivial, trivial, ?_, fun z _ => ?_, fun w hw' => hsad0.ymin w hw'⟩
    · change y + S + -y = S; abel
    · have h := hsad0.xmin (z - S) trivial
      change 1 / 2 * ‖L y - -L S‖ ^ 2 + ⟪-L.adjoint (L y - -L S), y⟫ ≤
        1 / 2 * ‖L (z - S) - -L S‖ ^ 2 + ⟪-L.adjoint (L y - -L S), z - S⟫ at h
      change 1 / 2 * ‖L (y + S) - 0‖ ^ 2 + ⟪-L.adjoint (L y - -L S), y + S⟫ ≤
        1 / 2 * ‖L z - 0‖ ^ 2 + ⟪-L.adjoint (L y - -L S), z⟫
      rw [map_sub L z S, show L z - L S - -L S = L z by abel, inner_sub_right] at h
      rw [sub_zero, sub_zero, map_add L y S, inner_add_right, show L y + L S = L y - -L S by abel]
      linarith
  have hfc : Continuous (splineProblem axes S lmbda Wdf hw0).f := by
    change Continuous fun x => 1 / 2 * ‖lapL axes lmbda x - 0‖ ^ 2
    fun_prop
  obtain ⟨x, y', u, h0, h1, -, -⟩ := gen_iterates (P := splineProblem axes S lmbda Wdf hw0) (fun _ _ h => h)
    (fun _ _ h => neg_injective h) hfc isClosed_univ (continuous_const.mul (Bpdn.continuous_l1w Wdf)) isClosed_univ
    (implements_spline axes hnd S lmbda hl Wdf hw0 ge) o ha hrlx cb (hcb.keeps _) s hp hs hsad
  have hfe : y' = x - S := by
    have := h0.feas
    change x + -y' = S at this
    rw [← this]; abel
  refine ⟨x.ofLp, ⟨trivial, fun z _ => ?_⟩, fun i =>
    (((EuclideanSpace.proj i : V n →L[ℝ] ℝ).continuous).tendsto x).comp h1⟩
  have h2 := h0.solution (WithLp.toLp 2 z) (WithLp.toLp 2 z - S) trivial trivial (by
    change WithLp.toLp 2 z + -(WithLp.toLp 2 z - S) = S; abel)
  rw [hfe] at h2
  rw [objSpline_eq axes S lmbda hl Wdf hw0, show objSpline axes S.ofLp lmbda Wdf z = objSpline axes S.ofLp lmbda Wdf
    (WithLp.toLp 2 z : V n).ofLp from rfl, objSpline_eq axes S lmbda hl Wdf hw0]
  exact h2

end Sporco.Spline
