import Verif.Admm.Optimal
import Verif.Admm.Quad
import Verif.Admm.Slater

/-!
# Convergence of the two-block solvers

`min g0(A0 x - c0) + g1(A1 x - c1)`: the classes derived from `ADMMTwoBlockCnstrnt` with exact
steps.  The overridden `rsdl_s` of these classes computes `rho Aᵀ u`.
-/

set_option autoImplicit false
set_option linter.unusedSectionVars false

namespace Sporco.Admm

open scoped RealInnerProductSpace
open Filter Topology

variable {E F₀ F₁ H : Type*} [NormedAddCommGroup E] [InnerProductSpace ℝ E] [NormedAddCommGroup F₀]
  [InnerProductSpace ℝ F₀] [NormedAddCommGroup F₁] [InnerProductSpace ℝ F₁]

/-- `x ↦ (A0 x, A1 x)`. -/
noncomputable def catL (A0 : E →L[ℝ] F₀) (A1 : E →L[ℝ] F₁) : E →L[ℝ] WithLp 2 (F₀ × F₁) :=
  (WithLp.prodContinuousLinearEquiv 2 ℝ F₀ F₁).symm.toContinuousLinearMap.comp (A0.prod A1)

/-- `(y0, y1) ↦ A0ᵀ y0 + A1ᵀ y1`. -/
noncomputable def catLT (A0T : F₀ →L[ℝ] E) (A1T : F₁ →L[ℝ] E) : WithLp 2 (F₀ × F₁) →L[ℝ] E :=
  (A0T.coprod A1T).comp (WithLp.prodContinuousLinearEquiv 2 ℝ F₀ F₁).toContinuousLinearMap

theorem catL_apply (A0 : E →L[ℝ] F₀) (A1 : E →L[ℝ] F₁) (x : E) :
    catL A0 A1 x = TwoBlock.cnstA A0 A1 x := rfl

theorem catLT_apply (A0T : F₀ →L[ℝ] E) (A1T : F₁ →L[ℝ] E) (y : WithLp 2 (F₀ × F₁)) :
    catLT A0T A1T y = TwoBlock.cnstAT A0T A1T y := rfl

/-- The problem solved by a two-block class: `min g0(y0) + g1(y1)` subject to `A0 x - y0 = c0`,
`A1 x - y1 = c1`. -/
noncomputable def tbProblem (A0 : E →L[ℝ] F₀) (A0T : F₀ →L[ℝ] E) (h0 : ∀ x y, ⟪A0 x, y⟫ = ⟪x, A0T y⟫)
    (A1 : E →L[ℝ] F₁) (A1T : F₁ →L[ℝ] E) (h1 : ∀ x y, ⟪A1 x, y⟫ = ⟪x, A1T y⟫) (c0 : F₀) (c1 : F₁)
    (g0 : F₀ → ℝ) (D0 : Set F₀) (hg0 : ConvexOn ℝ D0 g0) (g1 : F₁ → ℝ) (D1 : Set F₁)
    (hg1 : ConvexOn ℝ D1 g1) : Problem E (WithLp 2 (F₀ × F₁)) (WithLp 2 (F₀ × F₁)) where
  A := catL A0 A1
  AT := catLT A0T A1T
  B := -ContinuousLinearMap.id ℝ _
  c := TwoBlock.cat c0 c1
  f := fun _ => 0
  Df := Set.univ
  g y := g0 y.fst + g1 y.snd
  Dg := {y | y.fst ∈ D0 ∧ y.snd ∈ D1}
  adj x y := by
    rw [catL_apply, catLT_apply]
    exact C37_twoblock_adjoint A0 A1 A0T A1T h0 h1 x y
  convF := convexOn_const 0 convex_univ
  convG := by
    refine ⟨fun x hx y hy s t hs ht hst => ⟨hg0.1 hx.1 hy.1 hs ht hst, hg1.1 hx.2 hy.2 hs ht hst⟩,
      fun x hx y hy s t hs ht hst => ?_⟩
    have e0 := hg0.2 hx.1 hy.1 hs ht hst
    have e1 := hg1.2 hx.2 hy.2 hs ht hst
    change g0 (s • x.fst + t • y.fst) + g1 (s • x.snd + t • y.snd) ≤
      s * (g0 x.fst + g1 x.snd) + t * (g0 y.fst + g1 y.snd)
    simp only [smul_eq_mul] at e0 e1
    linarith

/-- A two-block class with the generic methods, `rho Aᵀ u` as dual residual and exact steps. -/
structure TbExact (C : Cls E (WithLp 2 (F₀ × F₁)) (WithLp 2 (F₀ × F₁)) H) (A0 : E →L[ℝ] F₀)
    (A0T : F₀ →L[ℝ] E) (A1 : E →L[ℝ] F₁) (A1T : F₁ →L[ℝ] E) (c0 : F₀) (c1 : F₁)
    (g0 : F₀ → ℝ) (D0 : Set F₀) (g1 : F₁ → ℝ) (D1 : Set F₁) (Inv : ℝ → H → Prop) : Prop where
  relax : ∀ rlx x y, C.relax rlx x y = TwoBlock.relaxAX A0 A1 c0 c1 rlx x y
  ustep : ∀ ax y u, C.ustep ax y u = TwoBlock.ustep c0 c1 ax y u
  nrmR : ∀ ax y, C.nrmR ax y = ‖TwoBlock.rsdlR c0 c1 ax y‖
  nrmS : ∀ rho yp y u, C.nrmS rho yp y u = ‖rho • TwoBlock.cnstAT A0T A1T u‖
  rn : ∀ ax y, 0 ≤ C.rsdlRn ax y
  sn : ∀ rho u, 0 ≤ rho → 0 ≤ C.rsdlSn rho u
  xinv : ∀ rho X Y U h, 0 < rho → Inv rho h → Inv rho (C.xstep rho X Y U h).2
  yinv : ∀ rho AX X Y U h, 0 < rho → Inv rho h → Inv rho (C.ystep rho AX X Y U h).2
  rinv : ∀ rho rho' h, 0 < rho → 0 < rho' → Inv rho h → Inv rho' (C.rhochange rho' h)
  xstep : ∀ rho X Y U h, 0 < rho → Inv rho h → ∀ z,
    ‖A0 (C.xstep rho X Y U h).1 - (Y.fst - U.fst + c0)‖ ^ 2 +
        ‖A1 (C.xstep rho X Y U h).1 - (Y.snd - U.snd + c1)‖ ^ 2 ≤
      ‖A0 z - (Y.fst - U.fst + c0)‖ ^ 2 + ‖A1 z - (Y.snd - U.snd + c1)‖ ^ 2
  ystep0 : ∀ rho AX X Y U h, 0 < rho → Inv rho h → (C.ystep rho AX X Y U h).1.fst ∈ D0 ∧ ∀ z ∈ D0,
    g0 (C.ystep rho AX X Y U h).1.fst +
        rho / 2 * ‖AX.fst + U.fst - c0 - (C.ystep rho AX X Y U h).1.fst‖ ^ 2 ≤
      g0 z + rho / 2 * ‖AX.fst + U.fst - c0 - z‖ ^ 2
  ystep1 : ∀ rho AX X Y U h, 0 < rho → Inv rho h → (C.ystep rho AX X Y U h).1.snd ∈ D1 ∧ ∀ z ∈ D1,
    g1 (C.ystep rho AX X Y U h).1.snd +
        rho / 2 * ‖AX.snd + U.snd - c1 - (C.ystep rho AX X Y U h).1.snd‖ ^ 2 ≤
      g1 z + rho / 2 * ‖AX.snd + U.snd - c1 - z‖ ^ 2

variable {C : Cls E (WithLp 2 (F₀ × F₁)) (WithLp 2 (F₀ × F₁)) H} {A0 : E →L[ℝ] F₀}
    {A0T : F₀ →L[ℝ] E} {A1 : E →L[ℝ] F₁} {A1T : F₁ →L[ℝ] E} {c0 : F₀} {c1 : F₁}
    {g0 : F₀ → ℝ} {D0 : Set F₀} {g1 : F₁ → ℝ} {D1 : Set F₁} {Inv : ℝ → H → Prop}

theorem TbExact.implements (h : TbExact C A0 A0T A1 A1T c0 c1 g0 D0 g1 D1 Inv)
    (h0 : ∀ x y, ⟪A0 x, y⟫ = ⟪x, A0T y⟫) (h1 : ∀ x y, ⟪A1 x, y⟫ = ⟪x, A1T y⟫)
    (hg0 : ConvexOn ℝ D0 g0) (hg1 : ConvexOn ℝ D1 g1) :
    Implements C (tbProblem A0 A0T h0 A1 A1T h1 c0 c1 g0 D0 hg0 g1 D1 hg1) Inv := by
  have t := fun (rho rlx : ℝ) (X : E) (Y Yp AX U : WithLp 2 (F₀ × F₁)) =>
    C37_twoblock A0 A1 (A0T : F₀ →ₗ[ℝ] E) (A1T : F₁ →ₗ[ℝ] E) c0 c1 rho rlx X Y Yp AX U
  refine ⟨fun rlx x y => ?_, fun ax y u => ?_, fun ax y => ?_, Or.inr ⟨fun _ => rfl, rfl, fun rho yp y u => ?_⟩,
    h.rn, h.sn, h.xinv, h.yinv, h.rinv, ?_, ?_⟩
  · rw [h.relax]; exact (t 0 rlx x y 0 0 0).2.2.2.2.1
  · rw [h.ustep]; exact (t 0 0 0 y 0 ax u).2.2.2.2.2
  · rw [h.nrmR]; exact congrArg norm (t 0 0 0 y 0 ax 0).1
  · rw [h.nrmS]; rfl
  · intro rho X Y U hh hp hI
    refine ⟨trivial, fun z _ => ?_⟩
    have key : ∀ z, ‖catL A0 A1 z + (-ContinuousLinearMap.id ℝ (WithLp 2 (F₀ × F₁))) Y -
        TwoBlock.cat c0 c1 + U‖ ^ 2 =
        ‖A0 z - (Y.fst - U.fst + c0)‖ ^ 2 + ‖A1 z - (Y.snd - U.snd + c1)‖ ^ 2 := by
      intro z
      rw [WithLp.prod_norm_sq_eq_of_L2]
      change ‖A0 z + -Y.fst - c0 + U.fst‖ ^ 2 + ‖A1 z + -Y.snd - c1 + U.snd‖ ^ 2 = _
      rw [show A0 z + -Y.fst - c0 + U.fst = A0 z - (Y.fst - U.fst + c0) by abel,
        show A1 z + -Y.snd - c1 + U.snd = A1 z - (Y.snd - U.snd + c1) by abel]
    simp only [tbProblem]
    rw [key, key, zero_add, zero_add]
    exact mul_le_mul_of_nonneg_left (h.xstep rho X Y U hh hp hI z) (by positivity)
  · intro rho AX X Y U hh hp hI
    obtain ⟨m0, e0⟩ := h.ystep0 rho AX X Y U hh hp hI
    obtain ⟨m1, e1⟩ := h.ystep1 rho AX X Y U hh hp hI
    refine ⟨⟨m0, m1⟩, fun z hz => ?_⟩
    have key : ∀ z : WithLp 2 (F₀ × F₁), ‖AX + (-ContinuousLinearMap.id ℝ (WithLp 2 (F₀ × F₁))) z -
        TwoBlock.cat c0 c1 + U‖ ^ 2 =
        ‖AX.fst + U.fst - c0 - z.fst‖ ^ 2 + ‖AX.snd + U.snd - c1 - z.snd‖ ^ 2 := by
      intro z
      rw [WithLp.prod_norm_sq_eq_of_L2]
      change ‖AX.fst + -z.fst - c0 + U.fst‖ ^ 2 + ‖AX.snd + -z.snd - c1 + U.snd‖ ^ 2 = _
      rw [show AX.fst + -z.fst - c0 + U.fst = AX.fst + U.fst - c0 - z.fst by abel,
        show AX.snd + -z.snd - c1 + U.snd = AX.snd + U.snd - c1 - z.snd by abel]
    simp only [tbProblem]
    rw [key, key]
    have a0 := e0 z.fst hz.1
    have a1 := e1 z.snd hz.2
    linarith

/-- Saddle point from a multiplier of the first block when the second block is `x` itself. -/
theorem tb_saddle (h0 : ∀ x y, ⟪A0 x, y⟫ = ⟪x, A0T y⟫)
    (g1 : E → ℝ) (D1 : Set E) (hg0 : ConvexOn ℝ D0 g0) (hg1 : ConvexOn ℝ D1 g1) (x : E)
    (hx : x ∈ D1) (hx0 : A0 x - c0 ∈ D0) (l : F₀)
    (hl : ∀ z ∈ D1, ∀ y ∈ D0, g0 (A0 x - c0) + g1 x ≤ g0 y + g1 z + ⟪l, A0 z - y - c0⟫) :
    (tbProblem A0 A0T h0 (ContinuousLinearMap.id ℝ E) (ContinuousLinearMap.id ℝ E) (fun _ _ => rfl) c0 0
      g0 D0 hg0 g1 D1 hg1).Saddle x (TwoBlock.cat (A0 x - c0) x) (TwoBlock.cat l (-A0T l)) := by
  have hA : ∀ z : E, ⟪TwoBlock.cat l (-A0T l), catL A0 (ContinuousLinearMap.id ℝ E) z⟫ = 0 := by
    intro z
    rw [WithLp.prod_inner_apply]
    change ⟪l, A0 z⟫ + ⟪-A0T l, z⟫ = 0
    rw [inner_neg_left, real_inner_comm, h0, real_inner_comm, add_neg_cancel]
  have hB : ∀ w : WithLp 2 (F₀ × E), ⟪TwoBlock.cat l (-A0T l),
      (-ContinuousLinearMap.id ℝ (WithLp 2 (F₀ × E))) w⟫ = ⟪l, A0 w.snd - w.fst⟫ := by
    intro w
    rw [WithLp.prod_inner_apply]
    change ⟪l, -w.fst⟫ + ⟪-A0T l, -w.snd⟫ = _
    rw [inner_neg_neg, inner_neg_right, real_inner_comm w.snd, ← h0, inner_sub_right, real_inner_comm l]
    ring
  refine ⟨trivial, ⟨hx0, hx⟩, ?_, fun z _ => ?_, fun w hw => ?_⟩
  · apply WithLp.ofLp_injective
    change (A0 x + -(A0 x - c0), x + -x) = (c0, 0)
    ext <;> simp
  · simp only [tbProblem]
    rw [hA, hA]
  · simp only [tbProblem]
    rw [hB, hB]
    have := hl w.snd hw.2 w.fst hw.1
    rw [inner_sub_right] at this
    have e : ⟪l, A0 x - (A0 x - c0)⟫ = ⟪l, c0⟫ := by rw [sub_sub_cancel]
    change g0 (A0 x - c0) + g1 x + ⟪l, A0 x - (A0 x - c0)⟫ ≤ g0 w.fst + g1 w.snd + ⟪l, A0 w.snd - w.fst⟫
    rw [e]
    linarith

/-- The same when the first block is `x` itself. -/
theorem tb_saddle' (h1 : ∀ x y, ⟪A1 x, y⟫ = ⟪x, A1T y⟫)
    (g0 : E → ℝ) (D0 : Set E) (hg0 : ConvexOn ℝ D0 g0) (hg1 : ConvexOn ℝ D1 g1) (x : E)
    (hx : x ∈ D0) (hx1 : A1 x - c1 ∈ D1) (l : F₁)
    (hl : ∀ z ∈ D0, ∀ y ∈ D1, g1 (A1 x - c1) + g0 x ≤ g1 y + g0 z + ⟪l, A1 z - y - c1⟫) :
    (tbProblem (ContinuousLinearMap.id ℝ E) (ContinuousLinearMap.id ℝ E) (fun _ _ => rfl) A1 A1T h1 0 c1
      g0 D0 hg0 g1 D1 hg1).Saddle x (TwoBlock.cat x (A1 x - c1)) (TwoBlock.cat (-A1T l) l) := by
  have hA : ∀ z : E, ⟪TwoBlock.cat (-A1T l) l, catL (ContinuousLinearMap.id ℝ E) A1 z⟫ = 0 := by
    intro z
    rw [WithLp.prod_inner_apply]
    change ⟪-A1T l, z⟫ + ⟪l, A1 z⟫ = 0
    rw [inner_neg_left, real_inner_comm _ l, h1, real_inner_comm z, neg_add_cancel]
  have hB : ∀ w : WithLp 2 (E × F₁), ⟪TwoBlock.cat (-A1T l) l,
      (-ContinuousLinearMap.id ℝ (WithLp 2 (E × F₁))) w⟫ = ⟪l, A1 w.fst - w.snd⟫ := by
    intro w
    rw [WithLp.prod_inner_apply]
    change ⟪-A1T l, -w.fst⟫ + ⟪l, -w.snd⟫ = _
    rw [inner_neg_neg, inner_neg_right, real_inner_comm w.fst, ← h1, inner_sub_right, real_inner_comm l]
    ring
  refine ⟨trivial, ⟨hx, hx1⟩, ?_, fun z _ => ?_, fun w hw => ?_⟩
  · apply WithLp.ofLp_injective
    change (x + -x, A1 x + -(A1 x - c1)) = (0, c1)
    ext <;> simp
  · simp only [tbProblem]
    rw [hA, hA]
  · simp only [tbProblem]
    rw [hB, hB]
    have := hl w.fst hw.1 w.snd hw.2
    rw [inner_sub_right] at this
    have e : ⟪l, A1 x - (A1 x - c1)⟫ = ⟪l, c1⟫ := by rw [sub_sub_cancel]
    change g0 x + g1 (A1 x - c1) + ⟪l, A1 x - (A1 x - c1)⟫ ≤ g0 w.fst + g1 w.snd + ⟪l, A1 w.fst - w.snd⟫
    rw [e]
    linarith

/-- What convergence of the residuals means for the two blocks. -/
theorem TbExact.convergence (h : TbExact C A0 A0T A1 A1T c0 c1 g0 D0 g1 D1 Inv)
    (h0 : ∀ x y, ⟪A0 x, y⟫ = ⟪x, A0T y⟫) (h1 : ∀ x y, ⟪A1 x, y⟫ = ⟪x, A1T y⟫)
    (hg0 : ConvexOn ℝ D0 g0) (hg1 : ConvexOn ℝ D1 g1)
    (o : Opts) (ha : o.autoRho = false) (hrlx : 0 < o.rlx ∧ o.rlx < 2) (cb) (hcb : CallbackKeeps Inv cb)
    (s : St E (WithLp 2 (F₀ × F₁)) (WithLp 2 (F₀ × F₁)) H) (hp : 0 < s.rho) (hI : Inv s.rho s.extra)
    (xs ys l) (hsad : (tbProblem A0 A0T h0 A1 A1T h1 c0 c1 g0 D0 hg0 g1 D1 hg1).Saddle xs ys l) :
    let T := traj C o cb s
    Tendsto (fun n => C.nrmR (T n).AXnr (T n).Y) atTop (𝓝 0) ∧
    Tendsto (fun n => C.nrmS (T n).rho (T n).Yprev (T n).Y (T n).U) atTop (𝓝 0) ∧
    Tendsto (fun n => g0 (T n).Y.fst + g1 (T n).Y.snd) atTop (𝓝 (g0 ys.fst + g1 ys.snd)) ∧
    Tendsto (fun n => A0 (T n).X - c0 - (T n).Y.fst) atTop (𝓝 0) ∧
    Tendsto (fun n => A1 (T n).X - c1 - (T n).Y.snd) atTop (𝓝 0) ∧
    ∀ n, (T (n + 1)).Y.fst ∈ D0 ∧ (T (n + 1)).Y.snd ∈ D1 := by
  have hC := h.implements h0 h1 hg0 hg1
  have hconv := C39_convergence C _ Inv hC o ha hrlx cb hcb s hp hI xs ys l hsad
  intro T
  have hst : ∀ n, (T (n + 1)).AXnr = catL A0 A1 (T (n + 1)).X ∧
      (T (n + 1)).Y.fst ∈ D0 ∧ (T (n + 1)).Y.snd ∈ D1 := by
    intro n
    have hinv := traj_inv hC o (fun h => by simp [ha] at h) cb hcb s hp hI n
    have h2 := steps_spec hC o (T n) hinv.1 hinv.2
    have h5 := oneIter_steps C o ha cb (T n)
    constructor
    · change (traj C o cb s (n + 1)).AXnr = catL A0 A1 (traj C o cb s (n + 1)).X
      rw [traj_succ, h5.2.2.2.2.1, h5.1]
      exact h2.2.2.1
    · have := h2.2.2.2.2.1
      change (traj C o cb s (n + 1)).Y.fst ∈ D0 ∧ (traj C o cb s (n + 1)).Y.snd ∈ D1
      rw [traj_succ, h5.2.1]
      exact this
  have hr : Tendsto (fun n => TwoBlock.rsdlR c0 c1 (catL A0 A1 (T (n + 1)).X) (T (n + 1)).Y) atTop (𝓝 0) := by
    rw [tendsto_zero_iff_norm_tendsto_zero]
    have := (tendsto_add_atTop_iff_nat 1).2 hconv.1
    refine this.congr fun n => ?_
    rw [h.nrmR]
    exact congrArg (fun v => ‖TwoBlock.rsdlR c0 c1 v (T (n + 1)).Y‖) (hst n).1
  have hcont := (WithLp.prodContinuousLinearEquiv 2 ℝ F₀ F₁).continuous.tendsto
    (0 : WithLp 2 (F₀ × F₁))
  have hr' := (hcont.comp hr)
  rw [map_zero] at hr'
  have hr0 : Tendsto (fun n => A0 (T (n + 1)).X - c0 - (T (n + 1)).Y.fst) atTop (𝓝 0) := by
    have := (continuous_fst.tendsto ((0 : F₀), (0 : F₁))).comp hr'
    refine this.congr fun n => ?_
    change A0 (T (n + 1)).X - ((T (n + 1)).Y.fst + c0) = _
    abel
  have hr1 : Tendsto (fun n => A1 (T (n + 1)).X - c1 - (T (n + 1)).Y.snd) atTop (𝓝 0) := by
    have := (continuous_snd.tendsto ((0 : F₀), (0 : F₁))).comp hr'
    refine this.congr fun n => ?_
    change A1 (T (n + 1)).X - ((T (n + 1)).Y.snd + c1) = _
    abel
  refine ⟨hconv.1, hconv.2.1, ?_, (tendsto_add_atTop_iff_nat 1).1 hr0, (tendsto_add_atTop_iff_nat 1).1 hr1,
    fun n => (hst n).2⟩
  have := hconv.2.2
  simpa only [tbProblem, zero_add] using this

theorem normal_of_min {V W : Type*} [NormedAddCommGroup V] [InnerProductSpace ℝ V] [NormedAddCommGroup W]
    [InnerProductSpace ℝ W] (L : V →L[ℝ] W) (LT : W →L[ℝ] V) (hL : ∀ x y, ⟪L x, y⟫ = ⟪x, LT y⟫) (b : W)
    (x : V) (hx : ∀ z, ‖L x - b‖ ^ 2 ≤ ‖L z - b‖ ^ 2) : LT (L x - b) = 0 := by
  set w := LT (L x - b) with hw
  by_contra hne
  have hpos : 0 < ‖w‖ ^ 2 := by positivity
  have key : ∀ t : ℝ, 0 < t → 2 * ‖w‖ ^ 2 ≤ t * ‖L w‖ ^ 2 := by
    intro t ht
    have h1 := hx (x - t • w)
    have h2 := quad1 L b x (x - t • w)
    have h3 : x - t • w - x = -(t • w) := by abel
    rw [h3, map_neg, map_smul, inner_neg_right, real_inner_smul_right, norm_neg, norm_smul,
      real_inner_comm, hL, ← hw, real_inner_self_eq_norm_sq, mul_pow, Real.norm_of_nonneg ht.le] at h2
    have h4 : t * (2 * ‖w‖ ^ 2) ≤ t * (t * ‖L w‖ ^ 2) := by nlinarith
    exact le_of_mul_le_mul_left h4 ht
  have hb : 0 < ‖L w‖ ^ 2 := by
    have := key 1 one_pos
    linarith
  have := key (‖w‖ ^ 2 / ‖L w‖ ^ 2) (div_pos hpos hb)
  rw [div_mul_cancel₀ _ hb.ne'] at this
  linarith

/-- **C37.** The dual residual `rho Aᵀ u` that these classes record after an exact x update is the
generic one, `rho Aᵀ B (y - y')`, plus `1 - RelaxParam` times the previous `rho Aᵀ u`: the two agree
when relaxation is off, not in general.  `Y'` is the array computed by the Y update. -/
theorem C37_twoblock_dual_partial (h : TbExact C A0 A0T A1 A1T c0 c1 g0 D0 g1 D1 Inv)
    (h0 : ∀ x y, ⟪A0 x, y⟫ = ⟪x, A0T y⟫) (h1 : ∀ x y, ⟪A1 x, y⟫ = ⟪x, A1T y⟫) (rho rlx : ℝ) (hp : 0 < rho)
    (X0 : E) (Y U Y' : WithLp 2 (F₀ × F₁)) (e : H) (hI : Inv rho e) :
    let X := (C.xstep rho X0 Y U e).1
    let U' := C.ustep (C.relax rlx X Y).1 Y' U
    rho • TwoBlock.cnstAT A0T A1T U' =
        rsdlS (TwoBlock.cnstAT A0T A1T) (fun y => -y) rho Y Y' +
          (1 - rlx) • (rho • TwoBlock.cnstAT A0T A1T U) ∧
    (rlx = 1 → C.nrmS rho Y Y' U' = ‖rsdlS (TwoBlock.cnstAT A0T A1T) (fun y => -y) rho Y Y'‖) := by
  intro X U'
  have key : ∀ z, ‖catL A0 A1 z - (Y - U + TwoBlock.cat c0 c1)‖ ^ 2 =
      ‖A0 z - (Y.fst - U.fst + c0)‖ ^ 2 + ‖A1 z - (Y.snd - U.snd + c1)‖ ^ 2 := by
    intro z
    rw [WithLp.prod_norm_sq_eq_of_L2]
    rfl
  have hn := normal_of_min (catL A0 A1) (catLT A0T A1T) (fun x y => by
    rw [catL_apply, catLT_apply]; exact C37_twoblock_adjoint A0 A1 A0T A1T h0 h1 x y)
    (Y - U + TwoBlock.cat c0 c1) X (fun z => by rw [key, key]; exact h.xstep rho X0 Y U e hp hI z)
  have hU : U' = U + rlx • (catL A0 A1 X - (Y + TwoBlock.cat c0 c1)) + (Y - Y') := by
    change C.ustep (C.relax rlx X Y).1 Y' U = _
    rw [h.ustep, h.relax]
    unfold TwoBlock.ustep TwoBlock.rsdlR TwoBlock.relaxAX
    rw [cat_add, cat_add, cat_sep, cat_sep]
    simp only
    split_ifs with hr
    · rw [hr, one_smul]
      change U + (catL A0 A1 X - (Y' + TwoBlock.cat c0 c1)) = _
      abel
    · change U + (rlx • catL A0 A1 X + (1 - rlx) • (Y + TwoBlock.cat c0 c1) - (Y' + TwoBlock.cat c0 c1)) = _
      module
  have e1 : ∀ V, TwoBlock.cnstAT A0T A1T V = catLT A0T A1T V := fun V => rfl
  have hfirst : rho • TwoBlock.cnstAT A0T A1T U' =
        rsdlS (TwoBlock.cnstAT A0T A1T) (fun y => -y) rho Y Y' +
          (1 - rlx) • (rho • TwoBlock.cnstAT A0T A1T U) := by
    unfold rsdlS
    rw [e1, e1, e1, hU, map_add, map_add, map_smul]
    have h2 : catLT A0T A1T (catL A0 A1 X - (Y + TwoBlock.cat c0 c1)) = - catLT A0T A1T U := by
      rw [← sub_eq_zero, sub_neg_eq_add, ← map_add, ← hn]
      congr 1
      abel
    rw [h2]
    beta_reduce
    rw [neg_sub]
    module
  refine ⟨hfirst, fun hr => ?_⟩
  rw [h.nrmS, hfirst, hr, sub_self, zero_smul, add_zero]

end Sporco.Admm
