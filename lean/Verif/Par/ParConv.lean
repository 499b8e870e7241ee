import Verif.Admm.Quad
import Mathlib.Analysis.InnerProductSpace.ProdL2
import Mathlib.Analysis.InnerProductSpace.PiL2

/-!
# Convergence of the grouped ADMM iteration of `ParConvBPDN` (C53)

Abstract version: `Dop l` is the operator of group `l`, `W` the mask.
-/

set_option autoImplicit false
set_option linter.unusedSectionVars false

namespace Sporco.Par.PConv

open scoped RealInnerProductSpace
open Filter Topology Finset Sporco.Admm

variable {E H : Type*} [NormedAddCommGroup E] [InnerProductSpace ℝ E] [NormedAddCommGroup H]
  [InnerProductSpace ℝ H] {L : ℕ}

/-- One exact, relaxed ADMM iteration for the split problem, for every `n`; `X n` is computed from the variables
with index `n`. -/
structure Steps (Dop : Fin L → E →L[ℝ] H) (W : H →L[ℝ] H) (s : H) (g1 : E → ℝ) (C : Set E)
    (rlx alpha rho : ℝ) (X : ℕ → E) (Y0 : ℕ → Fin L → H) (Y1 : ℕ → E) (U0 : ℕ → Fin L → H) (U1 : ℕ → E) :
    Prop where
  xopt : ∀ n z, ∑ l, ⟪Dop l (X n) - (Y0 n l - U0 n l), Dop l z⟫ +
    alpha ^ 2 * ⟪X n - (Y1 n - alpha⁻¹ • U1 n), z⟫ = 0
  y0opt : ∀ n (z : Fin L → H), 1 / 2 * ‖W (∑ l, Y0 (n + 1) l) - W s‖ ^ 2 +
      rho / 2 * ∑ l, ‖rlx • Dop l (X n) + (1 - rlx) • Y0 n l + U0 n l - Y0 (n + 1) l‖ ^ 2 ≤
    1 / 2 * ‖W (∑ l, z l) - W s‖ ^ 2 +
      rho / 2 * ∑ l, ‖rlx • Dop l (X n) + (1 - rlx) • Y0 n l + U0 n l - z l‖ ^ 2
  y1mem : ∀ n, Y1 (n + 1) ∈ C
  y1opt : ∀ n, ∀ z ∈ C, g1 (Y1 (n + 1)) +
      alpha ^ 2 * rho / 2 * ‖rlx • X n + (1 - rlx) • Y1 n + alpha⁻¹ • U1 n - Y1 (n + 1)‖ ^ 2 ≤
    g1 z + alpha ^ 2 * rho / 2 * ‖rlx • X n + (1 - rlx) • Y1 n + alpha⁻¹ • U1 n - z‖ ^ 2
  u0 : ∀ n l, U0 (n + 1) l = U0 n l + (rlx • Dop l (X n) + (1 - rlx) • Y0 n l - Y0 (n + 1) l)
  u1 : ∀ n, U1 (n + 1) = U1 n + alpha • (rlx • X n + (1 - rlx) • Y1 n - Y1 (n + 1))

/-- The space of the constraint. -/
abbrev G (L : ℕ) (H E : Type*) : Type _ := WithLp 2 (PiLp 2 (fun _ : Fin L => H) × E)

/-- A pair as an element of the constraint space. -/
def pr (p : Fin L → H) (q : E) : G L H E := WithLp.toLp 2 (WithLp.toLp 2 p, q)

theorem inner_pr (p p' : Fin L → H) (q q' : E) : ⟪pr p q, pr p' q'⟫ = ∑ l, ⟪p l, p' l⟫ + ⟪q, q'⟫ := by
  unfold pr
  rw [WithLp.prod_inner_apply]
  simp only [PiLp.inner_apply]

theorem norm_pr (p : Fin L → H) (q : E) : ‖pr p q‖ ^ 2 = ∑ l, ‖p l‖ ^ 2 + ‖q‖ ^ 2 := by
  rw [← real_inner_self_eq_norm_sq, inner_pr, real_inner_self_eq_norm_sq]
  simp only [real_inner_self_eq_norm_sq]

theorem pr_add (p p' : Fin L → H) (q q' : E) : pr p q + pr p' q' = pr (p + p') (q + q') := rfl

theorem pr_smul (r : ℝ) (p : Fin L → H) (q : E) : r • pr p q = pr (r • p) (r • q) := rfl

theorem pr_neg (p : Fin L → H) (q : E) : -pr p q = pr (-p) (-q) := rfl

theorem pr_sub (p p' : Fin L → H) (q q' : E) : pr p q - pr p' q' = pr (p - p') (q - q') := rfl

/-- `-(y0, alpha y1)` -/
def B (L : ℕ) (H E : Type*) [NormedAddCommGroup E] [InnerProductSpace ℝ E] [NormedAddCommGroup H]
    [InnerProductSpace ℝ H] (alpha : ℝ) : ((Fin L → H) × E) →ₗ[ℝ] G L H E where
  toFun y := -pr y.1 (alpha • y.2)
  map_add' x y := by
    rw [pr_neg, pr_neg, pr_neg, pr_add]
    congr 1
    · simp only [Prod.fst_add]; abel
    · simp only [Prod.snd_add]; module
  map_smul' r x := by
    simp only [RingHom.id_apply]
    rw [pr_neg, pr_neg, pr_smul]
    congr 1
    · simp only [Prod.smul_fst]; module
    · simp only [Prod.smul_snd]; module

/-- The function of the second block variable. -/
noncomputable def gfun (W : H →L[ℝ] H) (s : H) (g1 : E → ℝ) (y : (Fin L → H) × E) : ℝ :=
  1 / 2 * ‖W (∑ l, y.1 l) - W s‖ ^ 2 + g1 y.2

/-- The sum of the group operators. -/
noncomputable def Dsum (Dop : Fin L → E →L[ℝ] H) : E →L[ℝ] H := ∑ l, Dop l

theorem Dsum_apply (Dop : Fin L → E →L[ℝ] H) (x : E) : Dsum Dop x = ∑ l, Dop l x := by
  simp [Dsum]

theorem gfun_convex (W : H →L[ℝ] H) (s : H) (g1 : E → ℝ) (C : Set E) (hg : ConvexOn ℝ C g1) :
    ConvexOn ℝ {y : (Fin L → H) × E | y.2 ∈ C} (gfun W s g1) := by
  refine ⟨fun x hx y hy a b ha hb hab => hg.1 hx hy ha hb hab, fun x hx y hy a b ha hb hab => ?_⟩
  have h1 := (ls_convex W (W s)).2 (Set.mem_univ (∑ l, x.1 l)) (Set.mem_univ (∑ l, y.1 l)) ha hb hab
  have h2 := hg.2 hx hy ha hb hab
  simp only [smul_eq_mul, gfun] at h1 h2 ⊢
  have e : ∑ l, (a • x + b • y).1 l = a • ∑ l, x.1 l + b • ∑ l, y.1 l := by
    rw [smul_sum, smul_sum, ← sum_add_distrib]
    rfl
  rw [e]
  change _ + g1 (a • x.2 + b • y.2) ≤ _
  linarith

variable {Dop : Fin L → E →L[ℝ] H} {W : H →L[ℝ] H} {s : H} {g1 : E → ℝ} {C : Set E} {rlx alpha rho : ℝ}
  {X : ℕ → E} {Y0 : ℕ → Fin L → H} {Y1 : ℕ → E} {U0 : ℕ → Fin L → H} {U1 : ℕ → E}

theorem Steps.run (h : Steps Dop W s g1 C rlx alpha rho X Y0 Y1 U0 U1) (hC : ConvexOn ℝ C g1)
    (ha : 0 < alpha) (hr : 0 < rho) (hrlx : 0 < rlx ∧ rlx < 2) (DT : H →L[ℝ] E)
    (hDT : ∀ x y, ⟪Dsum Dop x, y⟫ = ⟪x, DT y⟫) (hW : ∀ x y, ⟪W x, y⟫ = ⟪x, W y⟫) (x : E) (hx : x ∈ C)
    (hmin : ∀ z ∈ C, lsObj (W.comp (Dsum Dop)) (W s) g1 x ≤ lsObj (W.comp (Dsum Dop)) (W s) g1 z) :
    Run (fun n => pr (fun l => Dop l (X n)) (alpha • X n)) (fun n => B L H E alpha (Y0 n, Y1 n))
      (fun n => pr (U0 n) (U1 n)) (fun _ => 0) (fun n => gfun W s g1 (Y0 n, Y1 n))
      (pr (fun l => Dop l x) (alpha • x)) (B L H E alpha (fun l => Dop l x, x))
      (pr (fun _ => rho⁻¹ • W (W (Dsum Dop x) - W s))
        (-(rho⁻¹ * alpha⁻¹) • DT (W (W (Dsum Dop x) - W s))))
      0 (gfun W s g1 (fun l => Dop l x, x)) rlx rho := by
  have hu : ∀ n, pr (U0 (n + 1)) (U1 (n + 1)) = pr (U0 n) (U1 n) +
      (rlx • pr (fun l => Dop l (X n)) (alpha • X n) - (1 - rlx) • B L H E alpha (Y0 n, Y1 n)) +
      B L H E alpha (Y0 (n + 1), Y1 (n + 1)) := by
    intro n
    change _ = _ + (_ - (1 - rlx) • -pr (Y0 n) (alpha • Y1 n)) + -pr (Y0 (n + 1)) (alpha • Y1 (n + 1))
    rw [pr_neg, pr_neg, pr_smul, pr_smul, pr_sub, pr_add, pr_add]
    congr 1
    · funext l
      rw [h.u0 n l]
      simp only [Pi.add_apply, Pi.sub_apply, Pi.smul_apply, Pi.neg_apply]
      module
    · rw [h.u1 n]
      module
  -- optimality of the Y update
  have hopt : ∀ n, ∀ z : (Fin L → H) × E, z.2 ∈ C → gfun W s g1 (Y0 (n + 1), Y1 (n + 1)) -
      rho * ⟪pr (U0 (n + 1)) (U1 (n + 1)), B L H E alpha z - B L H E alpha (Y0 (n + 1), Y1 (n + 1))⟫ ≤
        gfun W s g1 z := by
    intro n z hz
    set w := pr (U0 n) (U1 n) +
      (rlx • pr (fun l => Dop l (X n)) (alpha • X n) - (1 - rlx) • B L H E alpha (Y0 n, Y1 n)) with hw
    have hsub := subgrad_of_min (gfun_convex W s g1 C hC) (B L H E alpha) w rho
      (x := (Y0 (n + 1), Y1 (n + 1))) (h.y1mem n) ?_ (z := z) hz
    · have e : B L H E alpha (Y0 (n + 1), Y1 (n + 1)) + w = pr (U0 (n + 1)) (U1 (n + 1)) := by
        rw [hu n, add_comm]
      rw [e] at hsub
      exact hsub
    · intro z hz
      have hn : ∀ z : (Fin L → H) × E, ‖B L H E alpha z + w‖ ^ 2 =
          ∑ l, ‖rlx • Dop l (X n) + (1 - rlx) • Y0 n l + U0 n l - z.1 l‖ ^ 2 +
          alpha ^ 2 * ‖rlx • X n + (1 - rlx) • Y1 n + alpha⁻¹ • U1 n - z.2‖ ^ 2 := by
        intro z
        have e : B L H E alpha z + w = pr (fun l => rlx • Dop l (X n) + (1 - rlx) • Y0 n l + U0 n l - z.1 l)
            (alpha • (rlx • X n + (1 - rlx) • Y1 n + alpha⁻¹ • U1 n - z.2)) := by
          rw [hw]
          change -pr z.1 (alpha • z.2) + (_ + (_ - (1 - rlx) • -pr (Y0 n) (alpha • Y1 n))) = _
          rw [pr_neg, pr_neg, pr_smul, pr_smul, pr_sub, pr_add, pr_add]
          congr 1
          · funext l
            simp only [Pi.add_apply, Pi.sub_apply, Pi.smul_apply, Pi.neg_apply]
            module
          · rw [smul_sub, smul_add, smul_smul alpha alpha⁻¹, mul_inv_cancel₀ ha.ne']
            module
        rw [e, norm_pr, norm_smul, mul_pow, Real.norm_eq_abs, sq_abs]
      rw [hn, hn]
      have h1 := h.y0opt n z.1
      have h2 := h.y1opt n z.2 hz
      simp only [gfun]
      nlinarith
  have hBsub : ∀ y z : (Fin L → H) × E, B L H E alpha z - B L H E alpha y =
      pr (y.1 - z.1) (alpha • (y.2 - z.2)) := by
    intro y z
    change -pr z.1 (alpha • z.2) - -pr y.1 (alpha • y.2) = _
    rw [pr_neg, pr_neg, pr_sub]
    congr 1
    · abel
    · module
  set r := W (W (Dsum Dop x) - W s) with hrdef
  refine ⟨hr, hrlx, hu, ?_, ?_, ?_, ?_, ?_, ?_, ?_⟩
  · change pr _ _ + -pr _ _ = 0
    rw [add_neg_cancel]
  · intro n
    have e : pr (fun l => Dop l (X n)) (alpha • X n) + B L H E alpha (Y0 n, Y1 n) + pr (U0 n) (U1 n) =
        pr (fun l => Dop l (X n) - (Y0 n l - U0 n l)) (alpha • (X n - (Y1 n - alpha⁻¹ • U1 n))) := by
      change _ + -pr (Y0 n) (alpha • Y1 n) + _ = _
      rw [pr_neg, pr_add, pr_add]
      congr 1
      · funext l
        simp only [Pi.add_apply, Pi.neg_apply]
        abel
      · rw [smul_sub, smul_sub, smul_smul alpha alpha⁻¹, mul_inv_cancel₀ ha.ne']
        module
    rw [e, pr_sub, inner_pr]
    have h0 := h.xopt n (x - X n)
    have e2 : ⟪alpha • (X n - (Y1 n - alpha⁻¹ • U1 n)), alpha • x - alpha • X n⟫ =
        alpha ^ 2 * ⟪X n - (Y1 n - alpha⁻¹ • U1 n), x - X n⟫ := by
      rw [← smul_sub, real_inner_smul_left, real_inner_smul_right]
      ring
    have e3 : ∑ l, ⟪Dop l (X n) - (Y0 n l - U0 n l),
        ((fun l => Dop l x) - fun l => Dop l (X n)) l⟫ =
        ∑ l, ⟪Dop l (X n) - (Y0 n l - U0 n l), Dop l (x - X n)⟫ := by
      refine sum_congr rfl fun l _ => ?_
      rw [map_sub]
      rfl
    rw [e2, e3, h0]
    simp
  · intro n
    exact hopt n (fun l => Dop l x, x) hx
  · intro n
    exact hopt n (Y0 (n + 2), Y1 (n + 2)) (h.y1mem (n + 1))
  · intro n
    exact hopt (n + 1) (Y0 (n + 1), Y1 (n + 1)) (h.y1mem n)
  · intro n
    rw [pr_sub, inner_pr]
    have e1 : ∑ l, ⟪rho⁻¹ • r, ((fun l => Dop l (X n)) - fun l => Dop l x) l⟫ =
        rho⁻¹ * ⟪r, Dsum Dop (X n - x)⟫ := by
      rw [Dsum_apply, inner_sum, mul_sum]
      refine sum_congr rfl fun l _ => ?_
      rw [real_inner_smul_left, map_sub]
      rfl
    have e2 : ⟪-(rho⁻¹ * alpha⁻¹) • DT r, alpha • X n - alpha • x⟫ = -rho⁻¹ * ⟪r, Dsum Dop (X n - x)⟫ := by
      rw [← smul_sub, real_inner_smul_left, real_inner_smul_right, real_inner_comm, ← hDT, real_inner_comm]
      field_simp
    rw [e1, e2]
    linarith
  · intro n
    rw [hBsub, inner_pr]
    simp only [gfun]
    have hsad := (ls_saddle (W.comp (Dsum Dop)) (DT.comp W) (fun x y => by
      simp only [ContinuousLinearMap.comp_apply]
      rw [hW, hDT]) (W s) g1 C hC x hx hmin).ymin (Y1 (n + 1)) (h.y1mem n)
    simp only [lsProblem, _root_.neg_apply, ContinuousLinearMap.id_apply, ContinuousLinearMap.comp_apply] at hsad
    rw [← hrdef, inner_neg_right, inner_neg_right, inner_neg_left, inner_neg_left, neg_neg, neg_neg] at hsad
    have hq := quad1 W (W s) (∑ l, Dop l x) (∑ l, Y0 (n + 1) l)
    have hq0 := sq_nonneg ‖W (∑ l, Y0 (n + 1) l - ∑ l, Dop l x)‖
    have e1 : ∑ l, ⟪rho⁻¹ • r, ((fun l => Dop l x) - Y0 (n + 1)) l⟫ =
        -(rho⁻¹ * ⟪W (∑ l, Dop l x) - W s, W (∑ l, Y0 (n + 1) l - ∑ l, Dop l x)⟫) := by
      rw [← hW (W (∑ l, Dop l x) - W s), ← Dsum_apply, ← hrdef, neg_mul_eq_mul_neg, ← inner_neg_right, neg_sub,
        Dsum_apply, ← sum_sub_distrib, inner_sum, mul_sum]
      refine sum_congr rfl fun l _ => ?_
      rw [real_inner_smul_left]
      rfl
    have e2 : ⟪-(rho⁻¹ * alpha⁻¹) • DT r, alpha • (x - Y1 (n + 1))⟫ =
        -rho⁻¹ * (⟪DT r, x⟫ - ⟪DT r, Y1 (n + 1)⟫) := by
      rw [real_inner_smul_left, real_inner_smul_right, inner_sub_right]
      field_simp
    rw [e1, e2]
    have e3 : rho * (-(rho⁻¹ * ⟪W (∑ l, Dop l x) - W s, W (∑ l, Y0 (n + 1) l - ∑ l, Dop l x)⟫) +
        -rho⁻¹ * (⟪DT r, x⟫ - ⟪DT r, Y1 (n + 1)⟫)) =
        -⟪W (∑ l, Dop l x) - W s, W (∑ l, Y0 (n + 1) l - ∑ l, Dop l x)⟫ -
          (⟪DT r, x⟫ - ⟪DT r, Y1 (n + 1)⟫) := by
      field_simp
      ring
    rw [e3]
    linarith

theorem sq_tendsto {V : Type*} [NormedAddCommGroup V] (f : ℕ → V)
    (hf : Tendsto (fun n => ‖f n‖ ^ 2) atTop (𝓝 0)) : Tendsto f atTop (𝓝 0) := by
  rw [tendsto_zero_iff_norm_tendsto_zero]
  have := (Real.continuous_sqrt.tendsto 0).comp hf
  simpa [Function.comp_def, Real.sqrt_sq (norm_nonneg _)] using this

/-- The residuals of both constraints tend to zero and the objective at `Y1` to the minimum. -/
theorem Steps.tendsto (h : Steps Dop W s g1 C rlx alpha rho X Y0 Y1 U0 U1) (hC : ConvexOn ℝ C g1)
    (hg0 : ∀ y ∈ C, 0 ≤ g1 y)
    (ha : 0 < alpha) (hr : 0 < rho) (hrlx : 0 < rlx ∧ rlx < 2) (DT : H →L[ℝ] E)
    (hDT : ∀ x y, ⟪Dsum Dop x, y⟫ = ⟪x, DT y⟫) (hW : ∀ x y, ⟪W x, y⟫ = ⟪x, W y⟫) (x : E) (hx : x ∈ C)
    (hmin : ∀ z ∈ C, lsObj (W.comp (Dsum Dop)) (W s) g1 x ≤ lsObj (W.comp (Dsum Dop)) (W s) g1 z) :
    (∀ l, Tendsto (fun n => Dop l (X n) - Y0 (n + 1) l) atTop (𝓝 0)) ∧
    Tendsto (fun n => X n - Y1 (n + 1)) atTop (𝓝 0) ∧
    Tendsto (fun n => lsObj (W.comp (Dsum Dop)) (W s) g1 (Y1 n)) atTop
      (𝓝 (lsObj (W.comp (Dsum Dop)) (W s) g1 x)) := by
  have hrun := h.run hC ha hr hrlx DT hDT hW x hx hmin
  have hp := hrun.primal_tendsto
  have e : ∀ n, pr (fun l => Dop l (X n)) (alpha • X n) + B L H E alpha (Y0 (n + 1), Y1 (n + 1)) =
      pr (fun l => Dop l (X n) - Y0 (n + 1) l) (alpha • (X n - Y1 (n + 1))) := by
    intro n
    change _ + -pr (Y0 (n + 1)) (alpha • Y1 (n + 1)) = _
    rw [pr_neg, pr_add]
    congr 1
    · funext l
      simp only [Pi.add_apply, Pi.neg_apply]
      abel
    · module
  simp only [e] at hp
  have hp2 : Tendsto (fun n => ‖pr (fun l => Dop l (X n) - Y0 (n + 1) l) (alpha • (X n - Y1 (n + 1)))‖ ^ 2) atTop
      (𝓝 0) := by
    have := (tendsto_zero_iff_norm_tendsto_zero.1 hp).pow 2
    simpa using this
  have hD : ∀ l, Tendsto (fun n => Dop l (X n) - Y0 (n + 1) l) atTop (𝓝 0) := by
    intro l
    refine sq_tendsto _ (squeeze_zero (fun _ => sq_nonneg _) (fun n => ?_) hp2)
    rw [norm_pr]
    have := single_le_sum (f := fun l => ‖Dop l (X n) - Y0 (n + 1) l‖ ^ 2) (fun i _ => sq_nonneg _) (mem_univ l)
    have := sq_nonneg ‖alpha • (X n - Y1 (n + 1))‖
    linarith
  have hX : Tendsto (fun n => X n - Y1 (n + 1)) atTop (𝓝 0) := by
    have h1 : Tendsto (fun n => alpha • (X n - Y1 (n + 1))) atTop (𝓝 0) := by
      refine sq_tendsto _ ?_
      refine squeeze_zero (fun _ => sq_nonneg _) (fun n => ?_) hp2
      rw [norm_pr]
      have := sum_nonneg (s := univ) (f := fun l => ‖Dop l (X n) - Y0 (n + 1) l‖ ^ 2) fun i _ => sq_nonneg _
      linarith
    have h2 := h1.const_smul alpha⁻¹
    rw [smul_zero] at h2
    refine h2.congr fun n => ?_
    rw [smul_smul, inv_mul_cancel₀ ha.ne', one_smul]
  refine ⟨hD, hX, ?_⟩
  have hg := hrun.obj_tendsto
  simp only [zero_add] at hg
  have hend : gfun W s g1 (fun l => Dop l x, x) = lsObj (W.comp (Dsum Dop)) (W s) g1 x := by
    simp only [gfun, lsObj, ContinuousLinearMap.comp_apply, Dsum_apply]
  rw [hend] at hg
  have he : Tendsto (fun n => Dsum Dop (Y1 (n + 1)) - ∑ l, Y0 (n + 1) l) atTop (𝓝 0) := by
    have h1 := (tendsto_finset_sum univ fun l _ => hD l).sub (((Dsum Dop).continuous.tendsto 0).comp hX)
    simp only [sum_const_zero, map_zero, sub_zero] at h1
    refine h1.congr fun n => ?_
    simp only [Function.comp_apply, map_sub, Dsum_apply, sum_sub_distrib]
    abel
  have hWe : Tendsto (fun n => ‖W (Dsum Dop (Y1 (n + 1)) - ∑ l, Y0 (n + 1) l)‖) atTop (𝓝 0) := by
    have := (W.continuous.tendsto 0).comp he
    rw [map_zero] at this
    exact tendsto_zero_iff_norm_tendsto_zero.1 this
  obtain ⟨K, hK⟩ := hg.bddAbove_range
  have hbd : ∀ n, ‖W (∑ l, Y0 (n + 1) l) - W s‖ ≤ 2 * |K| + 1 := by
    intro n
    have h1 := hK ⟨n, rfl⟩
    simp only [gfun] at h1
    have h4 := hg0 _ (h.y1mem n)
    have h5 : ‖W (∑ l, Y0 (n + 1) l) - W s‖ ^ 2 ≤ 2 * |K| := by
      have := le_abs_self K
      linarith
    have := abs_nonneg K
    nlinarith [norm_nonneg (W (∑ l, Y0 (n + 1) l) - W s)]
  have hin : Tendsto (fun n => ⟪W (∑ l, Y0 (n + 1) l) - W s,
      W (Dsum Dop (Y1 (n + 1)) - ∑ l, Y0 (n + 1) l)⟫) atTop (𝓝 0) := by
    have hz : Tendsto (fun n => (2 * |K| + 1) * ‖W (Dsum Dop (Y1 (n + 1)) - ∑ l, Y0 (n + 1) l)‖) atTop (𝓝 0) := by
      simpa using hWe.const_mul (2 * |K| + 1)
    refine squeeze_zero_norm (fun n => ?_) hz
    exact (norm_inner_le_norm _ _).trans (mul_le_mul_of_nonneg_right (hbd n) (norm_nonneg _))
  refine (tendsto_add_atTop_iff_nat 1).1 ?_
  have hfin := (hg.add hin).add ((hWe.pow 2).const_mul (1 / 2))
  simp only [zero_pow two_ne_zero, mul_zero, add_zero] at hfin
  refine hfin.congr fun n => ?_
  simp only [gfun, lsObj, ContinuousLinearMap.comp_apply]
  rw [quad1 W (W s) (∑ l, Y0 (n + 1) l) (Dsum Dop (Y1 (n + 1)))]
  ring

end Sporco.Par.PConv
