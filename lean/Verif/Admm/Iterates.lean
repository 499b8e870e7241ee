import Verif.Admm.BpdnConv
import Mathlib.Topology.MetricSpace.Sequences
import Mathlib.Analysis.Normed.Module.FiniteDimension

/-!
# C39: the ADMM iterates themselves converge

`C39_convergence` gives the residuals and the objective value. For the classes with
constraint `x = y` (`ADMMEqual`) in finite dimensions, X, Y and U themselves converge, and
the limit of X and Y is a minimiser.
-/

set_option autoImplicit false

namespace Sporco.Admm

open Filter Topology
open scoped RealInnerProductSpace

section Iter
variable {E F G H : Type*} [NormedAddCommGroup E] [InnerProductSpace ℝ E]
  [NormedAddCommGroup F] [InnerProductSpace ℝ F] [NormedAddCommGroup G] [InnerProductSpace ℝ G]

/-- What the steps guarantee along a trajectory with fixed rho. -/
theorem traj_spec {C : Cls E F G H} {P : Problem E F G} {Inv : ℝ → H → Prop}
    (hC : Implements C P Inv) (o : Opts) (ha : o.autoRho = false) (cb)
    (hcb : CallbackKeeps Inv cb) (s : St E F G H) (hp : 0 < s.rho) (hI : Inv s.rho s.extra) (n : ℕ) :
    let T := traj C o cb s
    (T (n + 1)).X ∈ P.Df ∧ (T (n + 1)).Y ∈ P.Dg ∧
    (∀ z ∈ P.Df, P.f (T (n + 1)).X -
      s.rho * ⟪P.A (T (n + 1)).X + (P.B (T n).Y - P.c) + (T n).U, P.A z - P.A (T (n + 1)).X⟫ ≤ P.f z) ∧
    (∀ w ∈ P.Dg, P.g (T (n + 1)).Y - s.rho * ⟪(T (n + 1)).U, P.B w - P.B (T (n + 1)).Y⟫ ≤ P.g w) := by
  simp only
  set T := traj C o cb s with hT
  have hstep : (T (n + 1)).X = (steps C o (T n)).X ∧ (T (n + 1)).Y = (steps C o (T n)).Y ∧
      (T (n + 1)).U = (steps C o (T n)).U := by
    have := oneIter_steps C o ha cb (T n)
    rw [hT, traj_succ]
    exact ⟨this.1, this.2.1, this.2.2.1⟩
  have hrho : (T n).rho = s.rho := traj_rho C o ha cb s n
  have hinv := traj_inv hC o (fun h => by simp [ha] at h) cb hcb s hp hI n
  obtain ⟨-, -, -, h4, h5, -, h7, h8⟩ := steps_spec hC o (T n) hinv.1 hinv.2
  rw [hstep.1, hstep.2.1, hstep.2.2]
  rw [hrho] at h7 h8
  exact ⟨h4, h5, h7, h8⟩

/-- X, Y and U converge, X and Y to the same minimiser and rho U to a multiplier. -/
theorem equal_iterates [FiniteDimensional ℝ E] {C : Cls E E E H} {P : Problem E E E} {Inv : ℝ → H → Prop}
    (hA : ∀ x, P.A x = x) (hB : ∀ y, P.B y = -y) (hc : P.c = 0) (hf : Continuous P.f)
    (hDf : IsClosed P.Df) (hg : Continuous P.g) (hDg : IsClosed P.Dg)
    (hC : Implements C P Inv) (o : Opts) (ha : o.autoRho = false) (hrlx : 0 < o.rlx ∧ o.rlx < 2) (cb)
    (hcb : CallbackKeeps Inv cb) (s : St E E E H) (hp : 0 < s.rho) (hI : Inv s.rho s.extra)
    {xs ys l : E} (hsad : P.Saddle xs ys l) :
    let T := traj C o cb s
    ∃ x u, P.Saddle x x (s.rho • u) ∧ Tendsto (fun n => (T n).X) atTop (𝓝 x) ∧
      Tendsto (fun n => (T n).Y) atTop (𝓝 x) ∧ Tendsto (fun n => (T n).U) atTop (𝓝 u) := by
  simp only
  set T := traj C o cb s with hT
  have : ProperSpace E := FiniteDimensional.proper ℝ E
  have hspec := traj_spec hC o ha cb hcb s hp hI
  simp only [← hT, hA, hB, hc, sub_zero] at hspec
  have hrun := run_of_traj hC o ha hrlx cb hcb s hp hI hsad
  simp only [← hT, hA, hB, hc, sub_zero] at hrun
  obtain ⟨K, hK⟩ := hrun.bounded
  -- a convergent subsequence
  obtain ⟨⟨u, b⟩, -, φ, hφ, hlim⟩ := tendsto_subseq_of_bounded
    (x := fun n => ((T (n + 1)).U, -(T (n + 1)).Y))
    (s := Metric.closedBall (s.rho⁻¹ • l) K ×ˢ Metric.closedBall (-ys) K)
    (Metric.isBounded_closedBall.prod Metric.isBounded_closedBall)
    (fun n => ⟨by rw [Metric.mem_closedBall, dist_eq_norm]; exact (hK n).1,
      by rw [Metric.mem_closedBall, dist_eq_norm]; exact (hK n).2⟩)
  have hU : Tendsto (fun n => (T (φ n + 1)).U) atTop (𝓝 u) := (continuous_fst.tendsto _).comp hlim
  have hb : Tendsto (fun n => -(T (φ n + 1)).Y) atTop (𝓝 b) := (continuous_snd.tendsto _).comp hlim
  have hY : Tendsto (fun n => (T (φ n + 1)).Y) atTop (𝓝 (-b)) := by simpa using hb.neg
  have hab := hrun.ab_tendsto
  have hφ1 : Tendsto (fun n => φ n + 1) atTop atTop :=
    (tendsto_add_atTop_nat 1).comp hφ.tendsto_atTop
  have hab' : Tendsto (fun n => (T (φ n + 1 + 1)).X + -(T (φ n + 1)).Y) atTop (𝓝 0) := hab.comp hφ1
  have hX : Tendsto (fun n => (T (φ n + 1 + 1)).X) atTop (𝓝 (-b)) := by
    have := hab'.add hY
    simpa using this
  -- the limit is a saddle point
  have hs : P.Saddle (-b) (-b) (s.rho • u) := by
    refine ⟨hDf.mem_of_tendsto hX (Eventually.of_forall fun n => (hspec _).1),
      hDg.mem_of_tendsto hY (Eventually.of_forall fun n => (hspec _).2.1), by rw [hA, hB, hc]; simp, ?_, ?_⟩
    · intro z hz
      have h1 : Tendsto (fun n => P.f (T (φ n + 1 + 1)).X - s.rho *
          ⟪(T (φ n + 1 + 1)).X + -(T (φ n + 1)).Y + (T (φ n + 1)).U, z - (T (φ n + 1 + 1)).X⟫) atTop
          (𝓝 (P.f (-b) - s.rho * ⟪(0 : E) + u, z - -b⟫)) :=
        ((hf.tendsto _).comp hX).sub (((hab'.add hU).inner (tendsto_const_nhds.sub hX)).const_mul _)
      have h2 := le_of_tendsto' h1 (fun n => (hspec (φ n + 1)).2.2.1 z hz)
      rw [hA, hA, real_inner_smul_left, real_inner_smul_left]
      rw [zero_add, inner_sub_right] at h2
      linarith
    · intro w hw
      have h1 : Tendsto (fun n => P.g (T (φ n + 1)).Y - s.rho *
          ⟪(T (φ n + 1)).U, -w - -(T (φ n + 1)).Y⟫) atTop (𝓝 (P.g (-b) - s.rho * ⟪u, -w - b⟫)) :=
        ((hg.tendsto _).comp hY).sub ((hU.inner (tendsto_const_nhds.sub hb)).const_mul _)
      have h2 := le_of_tendsto' h1 (fun n => (hspec (φ n)).2.2.2 w hw)
      rw [hB, hB, real_inner_smul_left, real_inner_smul_left, neg_neg]
      rw [inner_sub_right] at h2
      linarith
  -- the distance to this saddle point decreases, and tends to zero along the subsequence
  have hrun' := run_of_traj hC o ha hrlx cb hcb s hp hI hs
  simp only [← hT, hA, hB, hc, sub_zero, neg_neg, inv_smul_smul₀ hp.ne'] at hrun'
  have hcpos : 0 < o.rlx * (2 - o.rlx) := mul_pos hrlx.1 (by linarith [hrlx.2])
  have hanti : Antitone fun n => ‖((T (n + 1)).U - -(T (n + 1)).Y) - (u - b)‖ ^ 2 := by
    refine antitone_nat_of_succ_le fun n => ?_
    have h1 := hrun'.descent n
    have h2 : 0 ≤ o.rlx * (2 - o.rlx) * ‖(T (n + 1 + 1)).X + -(T (n + 1)).Y‖ ^ 2 := by positivity
    exact h1.trans (by linarith)
  have hsub : Tendsto (fun n => ‖((T (φ n + 1)).U - -(T (φ n + 1)).Y) - (u - b)‖ ^ 2) atTop (𝓝 0) := by
    have h1 := (((hU.sub hb).sub (tendsto_const_nhds (x := u - b))).norm).pow 2
    simpa using h1
  have hV : Tendsto (fun n => ‖((T (n + 1)).U - -(T (n + 1)).Y) - (u - b)‖ ^ 2) atTop (𝓝 0) := by
    refine tendsto_order.2 ⟨fun a ha => Eventually.of_forall fun n => lt_of_lt_of_le ha (sq_nonneg _), fun a ha => ?_⟩
    obtain ⟨N, hN⟩ := (hsub.eventually (gt_mem_nhds ha)).exists
    filter_upwards [eventually_ge_atTop (φ N)] with n hn
    exact (hanti hn).trans_lt hN
  have hbound : ∀ n, ‖(T (n + 1)).U - u‖ ^ 2 + ‖-(T (n + 1)).Y - b‖ ^ 2 ≤
      ‖((T (n + 1)).U - -(T (n + 1)).Y) - (u - b)‖ ^ 2 := by
    intro n
    have h1 := norm_sub_sq_real ((T (n + 1)).U - u) (-(T (n + 1)).Y - b)
    have h2 := hrun'.mono_star n
    rw [show ((T (n + 1)).U - u) - (-(T (n + 1)).Y - b) = ((T (n + 1)).U - -(T (n + 1)).Y) - (u - b) by abel] at h1
    linarith
  have hsq : ∀ q : ℕ → E, (∀ n, ‖q n‖ ^ 2 ≤ ‖((T (n + 1)).U - -(T (n + 1)).Y) - (u - b)‖ ^ 2) →
      Tendsto q atTop (𝓝 0) := by
    intro q hq
    have h1 := squeeze_zero (fun n => sq_nonneg ‖q n‖) hq hV
    have h2 := (Real.continuous_sqrt.tendsto 0).comp h1
    rw [tendsto_zero_iff_norm_tendsto_zero]
    simpa [Function.comp_def, Real.sqrt_sq (norm_nonneg _)] using h2
  have hUl : Tendsto (fun n => (T (n + 1)).U) atTop (𝓝 u) := by
    have := hsq (fun n => (T (n + 1)).U - u) (fun n => by have := hbound n; have := sq_nonneg ‖-(T (n + 1)).Y - b‖; linarith)
    simpa using this.add_const u
  have hYl : Tendsto (fun n => (T (n + 1)).Y) atTop (𝓝 (-b)) := by
    have := hsq (fun n => -(T (n + 1)).Y - b) (fun n => by have := hbound n; have := sq_nonneg ‖(T (n + 1)).U - u‖; linarith)
    simpa using (this.add_const b).neg
  have hXl : Tendsto (fun n => (T (n + 1 + 1)).X) atTop (𝓝 (-b)) := by
    have := (hab.comp (tendsto_add_atTop_nat 1)).add hYl
    simpa [Function.comp_def] using this
  exact ⟨-b, u, hs, (tendsto_add_atTop_iff_nat 2).1 hXl, (tendsto_add_atTop_iff_nat 1).1 hYl,
    (tendsto_add_atTop_iff_nat 1).1 hUl⟩

variable {F₁ : Type*} [NormedAddCommGroup F₁] [InnerProductSpace ℝ F₁]

/-- The same for least-squares problems, the limit stated as a minimiser of the functional. -/
theorem ls_iterates [FiniteDimensional ℝ E] (L : E →L[ℝ] F₁) (LT : F₁ →L[ℝ] E)
    (hadj : ∀ x y, ⟪L x, y⟫ = ⟪x, LT y⟫) (b : F₁) (g : E → ℝ) (Dg : Set E) (hg : ConvexOn ℝ Dg g)
    (hcont : Continuous g) (hDg : IsClosed Dg) (C : Cls E E E H) (Inv : ℝ → H → Prop)
    (hC : Implements C (lsProblem L b g Dg hg) Inv) (o : Opts) (ha : o.autoRho = false)
    (hrlx : 0 < o.rlx ∧ o.rlx < 2) (cb) (hcb : CallbackKeeps Inv cb) (s : St E E E H) (hp : 0 < s.rho)
    (hI : Inv s.rho s.extra) (hex : ∃ x ∈ Dg, ∀ z ∈ Dg, lsObj L b g x ≤ lsObj L b g z) :
    ∃ x u, x ∈ Dg ∧ (∀ z ∈ Dg, lsObj L b g x ≤ lsObj L b g z) ∧
      s.rho • u = -LT (L x - b) ∧
      Tendsto (fun n => (traj C o cb s n).X) atTop (𝓝 x) ∧
      Tendsto (fun n => (traj C o cb s n).Y) atTop (𝓝 x) ∧
      Tendsto (fun n => (traj C o cb s n).U) atTop (𝓝 u) := by
  obtain ⟨x0, hx0, hm0⟩ := hex
  have hsad := ls_saddle L LT hadj b g Dg hg x0 hx0 hm0
  have hfc : Continuous (lsProblem L b g Dg hg).f := by
    change Continuous fun x => 1 / 2 * ‖L x - b‖ ^ 2
    fun_prop
  obtain ⟨x, u, hs, h1, h2, h3⟩ := equal_iterates (P := lsProblem L b g Dg hg) (fun _ => rfl) (fun _ => rfl) rfl
    hfc isClosed_univ hcont hDg hC o ha hrlx cb hcb s hp hI hsad
  refine ⟨x, u, hs.ymem, fun z hz => ?_, ?_, h1, h2, h3⟩
  · have e1 := hs.xmin z trivial
    have e2 := hs.ymin z hz
    simp only [lsProblem, _root_.neg_apply, ContinuousLinearMap.id_apply, inner_neg_right] at e1 e2
    unfold lsObj
    linarith
  · -- the smooth part determines the multiplier
    have e1 := hs.xmin
    simp only [lsProblem, ContinuousLinearMap.id_apply, Set.mem_univ, forall_true_left] at e1
    set d := LT (L x - b) + s.rho • u with hd
    have key : ∀ t : ℝ, 0 < t → t ≤ 1 → 0 ≤ -⟪d, d⟫ + t * (1 / 2 * ‖L d‖ ^ 2) := by
      intro t ht _
      have h4 := e1 (x - t • d)
      have h5 := quad1 L b x (x - t • d)
      rw [show x - t • d - x = -(t • d) by abel, map_neg, map_smul, inner_neg_right, norm_neg, norm_smul,
        real_inner_smul_right, Real.norm_of_nonneg ht.le, hadj' L LT hadj] at h5
      rw [h5, inner_sub_right, real_inner_smul_right] at h4
      have h6 : ⟪d, d⟫ = ⟪LT (L x - b), d⟫ + ⟪s.rho • u, d⟫ := by
        conv_lhs => rw [hd]
        rw [inner_add_left]
      have h7 : 0 ≤ t * (-⟪d, d⟫ + t * (1 / 2 * ‖L d‖ ^ 2)) := by rw [h6]; nlinarith
      exact nonneg_of_mul_nonneg_right h7 ht
    have h8 := nonneg_of_forall_small key
    have h9 : ⟪d, d⟫ = 0 := le_antisymm (by linarith) real_inner_self_nonneg
    rw [inner_self_eq_zero] at h9
    exact eq_neg_of_add_eq_zero_right h9
where
  hadj' (L : E →L[ℝ] F₁) (LT : F₁ →L[ℝ] E) (hadj : ∀ x y, ⟪L x, y⟫ = ⟪x, LT y⟫) (y : F₁) (v : E) :
      ⟪y, L v⟫ = ⟪LT y, v⟫ := by rw [real_inner_comm, hadj, real_inner_comm]

end Iter

end Sporco.Admm
