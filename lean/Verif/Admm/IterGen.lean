import Verif.Admm.Iterates
import Verif.Admm.TwoBlock
import Verif.Admm.Generic

/-!
# C39: convergence of the ADMM iterates for any constraint `A x + B y = c` with injective `A` and `B`
-/

set_option autoImplicit false

namespace Sporco.Admm

open Filter Topology
open scoped RealInnerProductSpace

section Gen
variable {E F G H : Type*} [NormedAddCommGroup E] [InnerProductSpace ℝ E]
  [NormedAddCommGroup F] [InnerProductSpace ℝ F] [NormedAddCommGroup G] [InnerProductSpace ℝ G]

/-- If the images under an injective map converge, so do the arguments. -/
theorem tendsto_of_injective [FiniteDimensional ℝ E] [FiniteDimensional ℝ G] (A : E →L[ℝ] G)
    (hA : Function.Injective A) : ∃ L : G →L[ℝ] E, ∀ (x : ℕ → E) (g : G),
      Tendsto (fun n => A (x n)) atTop (𝓝 g) → A (L g) = g ∧ Tendsto x atTop (𝓝 (L g)) := by
  obtain ⟨L, hL⟩ := (A : E →ₗ[ℝ] G).exists_leftInverse_of_injective (LinearMap.ker_eq_bot.2 hA)
  have hL' : ∀ x, L (A x) = x := fun x => LinearMap.congr_fun hL x
  refine ⟨LinearMap.toContinuousLinearMap L, fun x g h => ?_⟩
  have hx : Tendsto x atTop (𝓝 (L g)) := by
    have := ((LinearMap.toContinuousLinearMap L).continuous.tendsto g).comp h
    exact this.congr fun n => hL' (x n)
  exact ⟨tendsto_nhds_unique ((A.continuous.tendsto _).comp hx) h, hx⟩

/-- If X can be recovered from the X update and the limit of `A X`, then X, Y and U converge, (X, Y) to a solution and rho U to a multiplier. -/
theorem gen_iterates' [FiniteDimensional ℝ F] [FiniteDimensional ℝ G]
    {C : Cls E F G H} {P : Problem E F G} {Inv : ℝ → H → Prop}
    (rho : ℝ) (hA : ∀ (x : ℕ → E) (v : ℕ → G) (a v0 : G), (∀ n, x n ∈ P.Df) →
      (∀ n, ∀ z ∈ P.Df, P.f (x n) - rho * ⟪v n, P.A z - P.A (x n)⟫ ≤ P.f z) →
      Tendsto (fun n => P.A (x n)) atTop (𝓝 a) → Tendsto v atTop (𝓝 v0) → ∃ x0, Tendsto x atTop (𝓝 x0))
    (hB : Function.Injective P.B) (hf : Continuous P.f)
    (hDf : IsClosed P.Df) (hg : Continuous P.g) (hDg : IsClosed P.Dg)
    (hC : Implements C P Inv) (o : Opts) (ha : o.autoRho = false) (hrlx : 0 < o.rlx ∧ o.rlx < 2) (cb)
    (hcb : CallbackKeeps Inv cb) (s : St E F G H) (hp : 0 < s.rho) (hrho : s.rho = rho) (hI : Inv s.rho s.extra)
    {xs : E} {ys : F} {l : G} (hsad : P.Saddle xs ys l) :
    let T := traj C o cb s
    ∃ x y u, P.Saddle x y (s.rho • u) ∧ Tendsto (fun n => (T n).X) atTop (𝓝 x) ∧
      Tendsto (fun n => (T n).Y) atTop (𝓝 y) ∧ Tendsto (fun n => (T n).U) atTop (𝓝 u) := by
  simp only
  set T := traj C o cb s with hT
  have : ProperSpace G := FiniteDimensional.proper ℝ G
  subst hrho
  obtain ⟨LB, hLB⟩ := tendsto_of_injective P.B hB
  have hspec := traj_spec hC o ha cb hcb s hp hI
  simp only [← hT] at hspec
  have hrun := run_of_traj hC o ha hrlx cb hcb s hp hI hsad
  simp only [← hT] at hrun
  obtain ⟨K, hK⟩ := hrun.bounded
  set bb : ℕ → G := fun n => P.B (T n).Y - P.c with hbb
  obtain ⟨⟨u, b⟩, -, φ, hφ, hlim⟩ := tendsto_subseq_of_bounded
    (x := fun n => ((T (n + 1)).U, bb (n + 1)))
    (s := Metric.closedBall (s.rho⁻¹ • l) K ×ˢ Metric.closedBall (P.B ys - P.c) K)
    (Metric.isBounded_closedBall.prod Metric.isBounded_closedBall)
    (fun n => ⟨by rw [Metric.mem_closedBall, dist_eq_norm]; exact (hK n).1,
      by rw [Metric.mem_closedBall, dist_eq_norm]; exact (hK n).2⟩)
  have hU : Tendsto (fun n => (T (φ n + 1)).U) atTop (𝓝 u) := (continuous_fst.tendsto _).comp hlim
  have hb : Tendsto (fun n => bb (φ n + 1)) atTop (𝓝 b) := (continuous_snd.tendsto _).comp hlim
  have hBY : Tendsto (fun n => P.B (T (φ n + 1)).Y) atTop (𝓝 (b + P.c)) := by
    have := hb.add_const P.c
    simpa [hbb] using this
  obtain ⟨hBy, hY⟩ := hLB _ _ hBY
  set y := LB (b + P.c) with hy
  have hab := hrun.ab_tendsto
  have hφ1 : Tendsto (fun n => φ n + 1) atTop atTop :=
    (tendsto_add_atTop_nat 1).comp hφ.tendsto_atTop
  have hab' : Tendsto (fun n => P.A (T (φ n + 1 + 1)).X + bb (φ n + 1)) atTop (𝓝 0) := hab.comp hφ1
  have hAX : Tendsto (fun n => P.A (T (φ n + 1 + 1)).X) atTop (𝓝 (-b)) := by
    have := hab'.sub hb
    simpa using this
  have hv : Tendsto (fun n => P.A (T (φ n + 1 + 1)).X + bb (φ n + 1) + (T (φ n + 1)).U) atTop (𝓝 (0 + u)) :=
    hab'.add hU
  obtain ⟨x, hX⟩ := hA _ _ _ _ (fun n => (hspec _).1) (fun n => (hspec (φ n + 1)).2.2.1) hAX hv
  have hAx : P.A x = -b := tendsto_nhds_unique ((P.A.continuous.tendsto x).comp hX) hAX
  have hs : P.Saddle x y (s.rho • u) := by
    refine ⟨hDf.mem_of_tendsto hX (Eventually.of_forall fun n => (hspec _).1),
      hDg.mem_of_tendsto hY (Eventually.of_forall fun n => (hspec _).2.1), by rw [hAx, hBy]; abel, ?_, ?_⟩
    · intro z hz
      have h1 : Tendsto (fun n => P.f (T (φ n + 1 + 1)).X - s.rho *
          ⟪P.A (T (φ n + 1 + 1)).X + bb (φ n + 1) + (T (φ n + 1)).U, P.A z - P.A (T (φ n + 1 + 1)).X⟫) atTop
          (𝓝 (P.f x - s.rho * ⟪(0 : G) + u, P.A z - -b⟫)) :=
        ((hf.tendsto _).comp hX).sub (((hab'.add hU).inner (tendsto_const_nhds.sub hAX)).const_mul _)
      have h2 := le_of_tendsto' h1 (fun n => (hspec (φ n + 1)).2.2.1 z hz)
      rw [hAx, real_inner_smul_left, real_inner_smul_left]
      rw [zero_add, inner_sub_right] at h2
      linarith
    · intro w hw
      have h1 : Tendsto (fun n => P.g (T (φ n + 1)).Y - s.rho *
          ⟪(T (φ n + 1)).U, P.B w - P.B (T (φ n + 1)).Y⟫) atTop
          (𝓝 (P.g y - s.rho * ⟪u, P.B w - (b + P.c)⟫)) :=
        ((hg.tendsto _).comp hY).sub ((hU.inner (tendsto_const_nhds.sub hBY)).const_mul _)
      have h2 := le_of_tendsto' h1 (fun n => (hspec (φ n)).2.2.2 w hw)
      rw [hBy, real_inner_smul_left, real_inner_smul_left]
      rw [inner_sub_right] at h2
      linarith
  have hrun' := run_of_traj hC o ha hrlx cb hcb s hp hI hs
  simp only [← hT, inv_smul_smul₀ hp.ne', hBy, add_sub_cancel_right] at hrun'
  have hcpos : 0 < o.rlx * (2 - o.rlx) := mul_pos hrlx.1 (by linarith [hrlx.2])
  have hanti : Antitone fun n => ‖((T (n + 1)).U - bb (n + 1)) - (u - b)‖ ^ 2 := by
    refine antitone_nat_of_succ_le fun n => ?_
    have h1 := hrun'.descent n
    have h2 : 0 ≤ o.rlx * (2 - o.rlx) * ‖P.A (T (n + 1 + 1)).X + bb (n + 1)‖ ^ 2 := by positivity
    exact h1.trans (by linarith)
  have hsub : Tendsto (fun n => ‖((T (φ n + 1)).U - bb (φ n + 1)) - (u - b)‖ ^ 2) atTop (𝓝 0) := by
    have h1 := (((hU.sub hb).sub (tendsto_const_nhds (x := u - b))).norm).pow 2
    simpa using h1
  have hV : Tendsto (fun n => ‖((T (n + 1)).U - bb (n + 1)) - (u - b)‖ ^ 2) atTop (𝓝 0) := by
    refine tendsto_order.2 ⟨fun a ha => Eventually.of_forall fun n => lt_of_lt_of_le ha (sq_nonneg _), fun a ha => ?_⟩
    obtain ⟨N, hN⟩ := (hsub.eventually (gt_mem_nhds ha)).exists
    filter_upwards [eventually_ge_atTop (φ N)] with n hn
    exact (hanti hn).trans_lt hN
  have hbound : ∀ n, ‖(T (n + 1)).U - u‖ ^ 2 + ‖bb (n + 1) - b‖ ^ 2 ≤
      ‖((T (n + 1)).U - bb (n + 1)) - (u - b)‖ ^ 2 := by
    intro n
    have h1 := norm_sub_sq_real ((T (n + 1)).U - u) (bb (n + 1) - b)
    have h2 := hrun'.mono_star n
    rw [show ((T (n + 1)).U - u) - (bb (n + 1) - b) = ((T (n + 1)).U - bb (n + 1)) - (u - b) by abel] at h1
    simp only [hbb] at h1 ⊢
    linarith
  have hsq : ∀ q : ℕ → G, (∀ n, ‖q n‖ ^ 2 ≤ ‖((T (n + 1)).U - bb (n + 1)) - (u - b)‖ ^ 2) →
      Tendsto q atTop (𝓝 0) := by
    intro q hq
    have h1 := squeeze_zero (fun n => sq_nonneg ‖q n‖) hq hV
    have h2 := (Real.continuous_sqrt.tendsto 0).comp h1
    rw [tendsto_zero_iff_norm_tendsto_zero]
    simpa [Function.comp_def, Real.sqrt_sq (norm_nonneg _)] using h2
  have hUl : Tendsto (fun n => (T (n + 1)).U) atTop (𝓝 u) := by
    have := hsq (fun n => (T (n + 1)).U - u) (fun n => by have := hbound n; have := sq_nonneg ‖bb (n + 1) - b‖; linarith)
    simpa using this.add_const u
  have hbl : Tendsto (fun n => bb (n + 1)) atTop (𝓝 b) := by
    have := hsq (fun n => bb (n + 1) - b) (fun n => by have := hbound n; have := sq_nonneg ‖(T (n + 1)).U - u‖; linarith)
    simpa using this.add_const b
  have hYl : Tendsto (fun n => (T (n + 1)).Y) atTop (𝓝 y) := by
    have h1 := hbl.add_const P.c
    simp only [hbb, sub_add_cancel] at h1
    exact (hLB _ _ h1).2
  have hXl : Tendsto (fun n => (T (n + 1 + 1)).X) atTop (𝓝 x) := by
    have h1 := (hab.comp (tendsto_add_atTop_nat 1)).sub hbl
    simp only [Function.comp_def, add_sub_cancel_right, zero_sub] at h1
    obtain ⟨x', hx'⟩ := hA _ _ _ _ (fun n => (hspec _).1) (fun n => (hspec (n + 1)).2.2.1) h1
      ((hab.comp (tendsto_add_atTop_nat 1)).add hUl)
    have : x' = x := tendsto_nhds_unique (hx'.comp hφ.tendsto_atTop) hX
    rw [← this]
    exact hx'
  exact ⟨x, y, u, hs, (tendsto_add_atTop_iff_nat 2).1 hXl, (tendsto_add_atTop_iff_nat 1).1 hYl,
    (tendsto_add_atTop_iff_nat 1).1 hUl⟩

/-- X, Y and U converge, (X, Y) to a solution and rho U to a multiplier. -/
theorem gen_iterates [FiniteDimensional ℝ E] [FiniteDimensional ℝ F] [FiniteDimensional ℝ G]
    {C : Cls E F G H} {P : Problem E F G} {Inv : ℝ → H → Prop}
    (hA : Function.Injective P.A) (hB : Function.Injective P.B) (hf : Continuous P.f)
    (hDf : IsClosed P.Df) (hg : Continuous P.g) (hDg : IsClosed P.Dg)
    (hC : Implements C P Inv) (o : Opts) (ha : o.autoRho = false) (hrlx : 0 < o.rlx ∧ o.rlx < 2) (cb)
    (hcb : CallbackKeeps Inv cb) (s : St E F G H) (hp : 0 < s.rho) (hI : Inv s.rho s.extra)
    {xs : E} {ys : F} {l : G} (hsad : P.Saddle xs ys l) :
    let T := traj C o cb s
    ∃ x y u, P.Saddle x y (s.rho • u) ∧ Tendsto (fun n => (T n).X) atTop (𝓝 x) ∧
      Tendsto (fun n => (T n).Y) atTop (𝓝 y) ∧ Tendsto (fun n => (T n).U) atTop (𝓝 u) := by
  obtain ⟨LA, hLA⟩ := tendsto_of_injective P.A hA
  exact gen_iterates' s.rho (fun x _ a _ _ _ h _ => ⟨LA a, (hLA x a h).2⟩) hB hf hDf hg hDg hC o ha hrlx cb hcb s hp
    rfl hI hsad

/-- The same with a data term `½ ‖L x - b‖²` if `A x` and `L x` together determine x. -/
theorem gen_iterates_ls [FiniteDimensional ℝ E] [FiniteDimensional ℝ F] [FiniteDimensional ℝ G]
    {F₂ : Type*} [NormedAddCommGroup F₂] [InnerProductSpace ℝ F₂]
    {C : Cls E F G H} {P : Problem E F G} {Inv : ℝ → H → Prop} (L : E →L[ℝ] F₂) (LT : F₂ →L[ℝ] E)
    (hadj : ∀ x y, ⟪L x, y⟫ = ⟪x, LT y⟫) (b : F₂) (hPf : ∀ x, P.f x = 1 / 2 * ‖L x - b‖ ^ 2) (hDf : P.Df = Set.univ)
    (hA : ∀ x, P.A x = 0 → L x = 0 → x = 0) (hB : Function.Injective P.B)
    (hg : Continuous P.g) (hDg : IsClosed P.Dg)
    (hC : Implements C P Inv) (o : Opts) (ha : o.autoRho = false) (hrlx : 0 < o.rlx ∧ o.rlx < 2) (cb)
    (hcb : CallbackKeeps Inv cb) (s : St E F G H) (hp : 0 < s.rho) (hI : Inv s.rho s.extra)
    {xs : E} {ys : F} {l : G} (hsad : P.Saddle xs ys l) :
    let T := traj C o cb s
    ∃ x y u, P.Saddle x y (s.rho • u) ∧ Tendsto (fun n => (T n).X) atTop (𝓝 x) ∧
      Tendsto (fun n => (T n).Y) atTop (𝓝 y) ∧ Tendsto (fun n => (T n).U) atTop (𝓝 u) := by
  have hadj' : ∀ y v, ⟪y, L v⟫ = ⟪LT y, v⟫ := fun y v => by rw [real_inner_comm, hadj, real_inner_comm]
  have hadjA : ∀ y v, ⟪y, P.A v⟫ = ⟪P.AT y, v⟫ := fun y v => by rw [real_inner_comm, P.adj, real_inner_comm]
  -- the normal operator
  set Φ : E →L[ℝ] E := LT.comp L + P.AT.comp P.A with hΦ
  have hΦi : Function.Injective Φ := by
    rw [injective_iff_map_eq_zero]
    intro x hx
    have h1 : ⟪Φ x, x⟫ = ‖L x‖ ^ 2 + ‖P.A x‖ ^ 2 := by
      change ⟪LT (L x) + P.AT (P.A x), x⟫ = _
      rw [inner_add_left, ← hadj', ← hadjA, real_inner_self_eq_norm_sq, real_inner_self_eq_norm_sq]
    rw [hx, inner_zero_left] at h1
    have h2 := sq_nonneg ‖L x‖
    have h3 := sq_nonneg ‖P.A x‖
    have h4 : ‖L x‖ ^ 2 = 0 := by linarith
    have h5 : ‖P.A x‖ ^ 2 = 0 := by linarith
    exact hA x (by simpa using h5) (by simpa using h4)
  obtain ⟨LA, hLA⟩ := tendsto_of_injective Φ hΦi
  have hfc : Continuous P.f := by
    have : P.f = fun x => 1 / 2 * ‖L x - b‖ ^ 2 := funext hPf
    rw [this]; fun_prop
  refine gen_iterates' s.rho (fun x v a v0 _ hx hax hv => ?_) hB hfc (by rw [hDf]; exact isClosed_univ) hg hDg hC o ha
    hrlx cb hcb s hp rfl hI hsad
  have hgrad : ∀ n, LT (L (x n)) = LT b - s.rho • P.AT (v n) := by
    intro n
    set d := LT (L (x n) - b) + s.rho • P.AT (v n) with hd
    have key : ∀ t : ℝ, 0 < t → t ≤ 1 → 0 ≤ -⟪d, d⟫ + t * (1 / 2 * ‖L d‖ ^ 2) := by
      intro t ht _
      have h4 := hx n (x n - t • d) (by rw [hDf]; trivial)
      have h5 := quad1 L b (x n) (x n - t • d)
      rw [show x n - t • d - x n = -(t • d) by abel, map_neg, map_smul, inner_neg_right, norm_neg, norm_smul,
        real_inner_smul_right, Real.norm_of_nonneg ht.le, hadj'] at h5
      rw [hPf, hPf, h5, ← map_sub, show x n - t • d - x n = -(t • d) by abel, map_neg, map_smul, inner_neg_right,
        real_inner_smul_right, hadjA] at h4
      have h6 : ⟪d, d⟫ = ⟪LT (L (x n) - b), d⟫ + s.rho * ⟪P.AT (v n), d⟫ := by
        conv_lhs => rw [hd]
        rw [inner_add_left, real_inner_smul_left]
      have h7 : 0 ≤ t * (-⟪d, d⟫ + t * (1 / 2 * ‖L d‖ ^ 2)) := by rw [h6]; nlinarith
      exact nonneg_of_mul_nonneg_right h7 ht
    have h8 := nonneg_of_forall_small key
    have h9 : ⟪d, d⟫ = 0 := le_antisymm (by linarith) real_inner_self_nonneg
    rw [inner_self_eq_zero, hd, map_sub] at h9
    rw [eq_sub_iff_add_eq, ← sub_eq_zero, ← h9]
    abel
  have hlim : Tendsto (fun n => Φ (x n)) atTop (𝓝 (LT b - s.rho • P.AT v0 + P.AT a)) := by
    have h1 : Tendsto (fun n => LT (L (x n))) atTop (𝓝 (LT b - s.rho • P.AT v0)) := by
      simp only [hgrad]
      exact tendsto_const_nhds.sub (((P.AT.continuous.tendsto v0).comp hv).const_smul _)
    exact h1.add ((P.AT.continuous.tendsto a).comp hax)
  exact ⟨_, (hLA _ _ hlim).2⟩

/-- A saddle point is a solution. -/
theorem Problem.Saddle.solution {P : Problem E F G} {x : E} {y : F} {l : G} (h : P.Saddle x y l) (x' : E)
    (y' : F) (hx : x' ∈ P.Df) (hy : y' ∈ P.Dg) (hc : P.A x' + P.B y' = P.c) :
    P.f x + P.g y ≤ P.f x' + P.g y' := by
  have h1 := h.xmin x' hx
  have h2 := h.ymin y' hy
  have e1 : ⟪l, P.A x'⟫ + ⟪l, P.B y'⟫ = ⟪l, P.A x⟫ + ⟪l, P.B y⟫ := by
    rw [← inner_add_right, ← inner_add_right, hc, h.feas]
  linarith

variable {F₀ F₁ : Type*} [NormedAddCommGroup F₀] [InnerProductSpace ℝ F₀] [NormedAddCommGroup F₁]
  [InnerProductSpace ℝ F₁]

/-- The same for the two-block classes: the limit of X solves the problem, and the blocks of Y tend to
`A0 x - c0` and `A1 x - c1`. -/
theorem tb_iterates [FiniteDimensional ℝ E] [FiniteDimensional ℝ F₀] [FiniteDimensional ℝ F₁]
    {C : Cls E (WithLp 2 (F₀ × F₁)) (WithLp 2 (F₀ × F₁)) H} {A0 : E →L[ℝ] F₀} {A0T : F₀ →L[ℝ] E}
    {A1 : E →L[ℝ] F₁} {A1T : F₁ →L[ℝ] E} {c0 : F₀} {c1 : F₁} {g0 : F₀ → ℝ} {D0 : Set F₀} {g1 : F₁ → ℝ}
    {D1 : Set F₁} {Inv : ℝ → H → Prop} (hex : TbExact C A0 A0T A1 A1T c0 c1 g0 D0 g1 D1 Inv)
    (h0 : ∀ x y, ⟪A0 x, y⟫ = ⟪x, A0T y⟫) (h1 : ∀ x y, ⟪A1 x, y⟫ = ⟪x, A1T y⟫)
    (hg0 : ConvexOn ℝ D0 g0) (hg1 : ConvexOn ℝ D1 g1) (hinj : ∀ x x', A0 x = A0 x' → A1 x = A1 x' → x = x')
    (hc0 : Continuous g0) (hc1 : Continuous g1) (hD0 : IsClosed D0) (hD1 : IsClosed D1)
    (o : Opts) (ha : o.autoRho = false) (hrlx : 0 < o.rlx ∧ o.rlx < 2) (cb) (hcb : CallbackKeeps Inv cb)
    (s : St E (WithLp 2 (F₀ × F₁)) (WithLp 2 (F₀ × F₁)) H) (hp : 0 < s.rho) (hI : Inv s.rho s.extra)
    {xs : E} {ys l : WithLp 2 (F₀ × F₁)}
    (hsad : (tbProblem A0 A0T h0 A1 A1T h1 c0 c1 g0 D0 hg0 g1 D1 hg1).Saddle xs ys l) :
    let T := traj C o cb s
    ∃ x, A0 x - c0 ∈ D0 ∧ A1 x - c1 ∈ D1 ∧
      (∀ z, A0 z - c0 ∈ D0 → A1 z - c1 ∈ D1 →
        g0 (A0 x - c0) + g1 (A1 x - c1) ≤ g0 (A0 z - c0) + g1 (A1 z - c1)) ∧
      Tendsto (fun n => (T n).X) atTop (𝓝 x) ∧
      Tendsto (fun n => (T n).Y.fst) atTop (𝓝 (A0 x - c0)) ∧
      Tendsto (fun n => (T n).Y.snd) atTop (𝓝 (A1 x - c1)) := by
  intro T
  set P := tbProblem A0 A0T h0 A1 A1T h1 c0 c1 g0 D0 hg0 g1 D1 hg1 with hP
  have hfst : Continuous fun y : WithLp 2 (F₀ × F₁) => y.fst :=
    continuous_fst.comp (WithLp.prodContinuousLinearEquiv 2 ℝ F₀ F₁).continuous
  have hsnd : Continuous fun y : WithLp 2 (F₀ × F₁) => y.snd :=
    continuous_snd.comp (WithLp.prodContinuousLinearEquiv 2 ℝ F₀ F₁).continuous
  have hfd : FiniteDimensional ℝ (WithLp 2 (F₀ × F₁)) :=
    LinearEquiv.finiteDimensional (WithLp.prodContinuousLinearEquiv 2 ℝ F₀ F₁).symm.toLinearEquiv
  obtain ⟨x, y, u, hs, hX, hY, -⟩ := gen_iterates (P := P) (C := C) (Inv := Inv)
    (fun a b hab => hinj a b (congrArg (fun y : WithLp 2 (F₀ × F₁) => y.fst) hab)
      (congrArg (fun y : WithLp 2 (F₀ × F₁) => y.snd) hab))
    (fun a b hab => neg_injective hab) continuous_const isClosed_univ
    ((hc0.comp hfst).add (hc1.comp hsnd)) ((hD0.preimage hfst).inter (hD1.preimage hsnd))
    (hex.implements h0 h1 hg0 hg1) o ha hrlx cb hcb s hp hI hsad
  have hfe := hs.feas
  have hy0 : y.fst = A0 x - c0 := by
    have := congrArg (fun y : WithLp 2 (F₀ × F₁) => y.fst) hfe
    change A0 x + -y.fst = c0 at this
    rw [← this]; abel
  have hy1 : y.snd = A1 x - c1 := by
    have := congrArg (fun y : WithLp 2 (F₀ × F₁) => y.snd) hfe
    change A1 x + -y.snd = c1 at this
    rw [← this]; abel
  have hm : y.fst ∈ D0 ∧ y.snd ∈ D1 := hs.ymem
  rw [hy0, hy1] at hm
  refine ⟨x, hm.1, hm.2, fun z hz0 hz1 => ?_, hX, ?_, ?_⟩
  · have h := hs.solution z (TwoBlock.cat (A0 z - c0) (A1 z - c1)) trivial ⟨hz0, hz1⟩ (by
      change TwoBlock.cat (A0 z) (A1 z) + -TwoBlock.cat (A0 z - c0) (A1 z - c1) = TwoBlock.cat c0 c1
      apply (WithLp.equiv 2 (F₀ × F₁)).injective
      change (A0 z + -(A0 z - c0), A1 z + -(A1 z - c1)) = (c0, c1)
      congr 1 <;> abel)
    change 0 + (g0 y.fst + g1 y.snd) ≤ 0 + (g0 (A0 z - c0) + g1 (A1 z - c1)) at h
    rw [hy0, hy1] at h
    linarith
  · rw [← hy0]; exact (hfst.tendsto y).comp hY
  · rw [← hy1]; exact (hsnd.tendsto y).comp hY

/-- The same from a minimiser, without constraints on the blocks. -/
theorem tb_iterates_at_x [FiniteDimensional ℝ E] [FiniteDimensional ℝ F₀] [FiniteDimensional ℝ F₁]
    {C : Cls E (WithLp 2 (F₀ × F₁)) (WithLp 2 (F₀ × F₁)) H} {A0 : E →L[ℝ] F₀}
    {A0T : F₀ →L[ℝ] E} {A1 : E →L[ℝ] F₁} {A1T : F₁ →L[ℝ] E} {c0 : F₀} {c1 : F₁}
    {g0 : F₀ → ℝ} {g1 : F₁ → ℝ} {Inv : ℝ → H → Prop}
    (h : TbExact C A0 A0T A1 A1T c0 c1 g0 Set.univ g1 Set.univ Inv)
    (h0 : ∀ x y, ⟪A0 x, y⟫ = ⟪x, A0T y⟫) (h1 : ∀ x y, ⟪A1 x, y⟫ = ⟪x, A1T y⟫)
    (hg0 : ConvexOn ℝ Set.univ g0) (hg1 : ConvexOn ℝ Set.univ g1)
    (hinj : ∀ x x', A0 x = A0 x' → A1 x = A1 x' → x = x') (hc0 : Continuous g0) (hc1 : Continuous g1)
    (o : Opts) (ha : o.autoRho = false) (hrlx : 0 < o.rlx ∧ o.rlx < 2) (cb) (hcb : CallbackKeeps Inv cb)
    (s : St E (WithLp 2 (F₀ × F₁)) (WithLp 2 (F₀ × F₁)) H) (hp : 0 < s.rho) (hI : Inv s.rho s.extra)
    (xs : E) (hxs : ∀ z, g0 (A0 xs - c0) + g1 (A1 xs - c1) ≤ g0 (A0 z - c0) + g1 (A1 z - c1)) :
    ∃ x, (∀ z, g0 (A0 x - c0) + g1 (A1 x - c1) ≤ g0 (A0 z - c0) + g1 (A1 z - c1)) ∧
      Tendsto (fun n => (traj C o cb s n).X) atTop (𝓝 x) := by
  set P := tbProblem A0 A0T h0 A1 A1T h1 c0 c1 g0 Set.univ hg0 g1 Set.univ hg1 with hP
  have hcg : ConvexOn ℝ Set.univ fun y : WithLp 2 (F₀ × F₁) => g0 y.fst + g1 y.snd := by
    have := P.convG
    have e : P.Dg = Set.univ := Set.eq_univ_of_forall fun y => ⟨trivial, trivial⟩
    rw [e] at this
    exact this
  obtain ⟨l, -, -, hs3, hs4, hs5⟩ := split_saddle (catL A0 A1) (catLT A0T A1T) (catL_adj A0 A0T h0 A1 A1T h1)
    (TwoBlock.cat c0 c1) (fun _ => 0) (convexOn_const 0 convex_univ)
    (fun y : WithLp 2 (F₀ × F₁) => g0 y.fst + g1 y.snd) hcg xs
    (fun z => by rw [zero_add, zero_add]; exact hxs z)
  have hsad : P.Saddle xs (catL A0 A1 xs - TwoBlock.cat c0 c1) l :=
    ⟨trivial, ⟨trivial, trivial⟩, hs3, hs4, fun v _ => hs5 v trivial⟩
  obtain ⟨x, -, -, h3, h4, -, -⟩ := tb_iterates h h0 h1 hg0 hg1 hinj hc0 hc1 isClosed_univ isClosed_univ o ha hrlx cb
    hcb s hp hI hsad
  exact ⟨x, fun z => h3 z trivial trivial, h4⟩

end Gen

end Sporco.Admm
