import Verif.Admm.Conv
import Verif.Admm.Resid
import Verif.Admm.Rho

/-!
# Optimality at zero residuals and convergence of ADMM runs (C38, C39)
-/

set_option linter.unusedSectionVars false
set_option autoImplicit false

namespace Sporco.Admm

open scoped RealInnerProductSpace
open Filter Topology

variable {E F G H : Type*} [NormedAddCommGroup E] [InnerProductSpace ℝ E] [NormedAddCommGroup F]
  [InnerProductSpace ℝ F] [NormedAddCommGroup G] [InnerProductSpace ℝ G]

/-! ## Specification -/

/-- The optimisation problem `min f(x) + g(y)` subject to `A x + B y = c`, `x ∈ Df`,
`y ∈ Dg`. Indicator functions in the documentation are the sets `Df`, `Dg`. -/
structure Problem (E F G : Type*) [NormedAddCommGroup E] [InnerProductSpace ℝ E]
    [NormedAddCommGroup F] [InnerProductSpace ℝ F] [NormedAddCommGroup G]
    [InnerProductSpace ℝ G] where
  A : E →L[ℝ] G
  AT : G →L[ℝ] E
  B : F →L[ℝ] G
  c : G
  f : E → ℝ
  Df : Set E
  g : F → ℝ
  Dg : Set F
  adj : ∀ x y, ⟪A x, y⟫ = ⟪x, AT y⟫
  convF : ConvexOn ℝ Df f
  convG : ConvexOn ℝ Dg g

/-- `(x, y)` is feasible and no feasible pair has a smaller objective. -/
def Problem.IsSolution (P : Problem E F G) (x : E) (y : F) : Prop :=
  x ∈ P.Df ∧ y ∈ P.Dg ∧ P.A x + P.B y = P.c ∧
    ∀ x' ∈ P.Df, ∀ y' ∈ P.Dg, P.A x' + P.B y' = P.c → P.f x + P.g y ≤ P.f x' + P.g y'

/-- `(x, y, l)` is a saddle point of the (unaugmented) Lagrangian. -/
structure Problem.Saddle (P : Problem E F G) (x : E) (y : F) (l : G) : Prop where
  xmem : x ∈ P.Df
  ymem : y ∈ P.Dg
  feas : P.A x + P.B y = P.c
  xmin : ∀ z ∈ P.Df, P.f x + ⟪l, P.A x⟫ ≤ P.f z + ⟪l, P.A z⟫
  ymin : ∀ w ∈ P.Dg, P.g y + ⟪l, P.B y⟫ ≤ P.g w + ⟪l, P.B w⟫

/-- Class `C` implements problem `P`: the overridden steps are exact minimisers of the
augmented Lagrangian and the remaining methods are the generic ones for the constraint;
when there is no `f` the dual residual may be computed as `rho Aᵀ u` instead.
`Inv rho h` is what the class maintains about its own attributes `h` at penalty `rho`
(typically: cached factorisations belong to the current `rho`); the steps may rely on it
and have to keep it. -/
structure Implements (C : Cls E F G H) (P : Problem E F G) (Inv : ℝ → H → Prop) : Prop where
  relax : ∀ rlx x y, C.relax rlx x y = relaxAX P.A P.B P.c rlx x y
  ustep : ∀ ax y u, C.ustep ax y u = ustep P.B P.c ax y u
  nrmR : ∀ ax y, C.nrmR ax y = ‖rsdlR P.B P.c ax y‖
  nrmS : (∀ rho yp y u, C.nrmS rho yp y u = ‖rsdlS P.AT P.B rho yp y‖) ∨
    ((∀ x, P.f x = 0) ∧ P.Df = Set.univ ∧ ∀ rho yp y u, C.nrmS rho yp y u = ‖rho • P.AT u‖)
  rn : ∀ ax y, 0 ≤ C.rsdlRn ax y
  sn : ∀ rho u, 0 ≤ rho → 0 ≤ C.rsdlSn rho u
  xinv : ∀ rho X Y U h, 0 < rho → Inv rho h → Inv rho (C.xstep rho X Y U h).2
  yinv : ∀ rho AX X Y U h, 0 < rho → Inv rho h → Inv rho (C.ystep rho AX X Y U h).2
  rinv : ∀ rho rho' h, 0 < rho → 0 < rho' → Inv rho h → Inv rho' (C.rhochange rho' h)
  xstep : ∀ rho X Y U h, 0 < rho → Inv rho h → (C.xstep rho X Y U h).1 ∈ P.Df ∧ ∀ z ∈ P.Df,
    P.f (C.xstep rho X Y U h).1 + rho / 2 * ‖P.A (C.xstep rho X Y U h).1 + P.B Y - P.c + U‖ ^ 2 ≤
      P.f z + rho / 2 * ‖P.A z + P.B Y - P.c + U‖ ^ 2
  ystep : ∀ rho AX X Y U h, 0 < rho → Inv rho h → (C.ystep rho AX X Y U h).1 ∈ P.Dg ∧ ∀ w ∈ P.Dg,
    P.g (C.ystep rho AX X Y U h).1 + rho / 2 * ‖AX + P.B (C.ystep rho AX X Y U h).1 - P.c + U‖ ^ 2 ≤
      P.g w + rho / 2 * ‖AX + P.B w - P.c + U‖ ^ 2

/-- A callback does not spoil what the class maintains about its attributes. -/
def CallbackKeeps (Inv : ℝ → H → Prop) (cb : Option (St E F G H → Bool × H)) : Prop :=
  ∀ f t, cb = some f → Inv t.rho t.extra → Inv t.rho (f t).2

/-! ## One step -/

theorem relaxAX_eq (P : Problem E F G) (rlx : ℝ) (x : E) (y : F) :
    relaxAX P.A P.B P.c rlx x y = (rlx • P.A x - (1 - rlx) • (P.B y - P.c), P.A x) := by
  unfold relaxAX
  simp only
  split_ifs with h
  · subst h; simp
  · rfl

/-- The optimality conditions that hold after the steps of one iteration. -/
theorem steps_spec {C : Cls E F G H} {P : Problem E F G} {Inv : ℝ → H → Prop}
    (hC : Implements C P Inv) (o : Opts) (s : St E F G H) (hp : 0 < s.rho)
    (hI : Inv s.rho s.extra) :
    let s' := steps C o s
    s'.Yprev = s.Y ∧ s'.rho = s.rho ∧ s'.AXnr = P.A s'.X ∧ s'.X ∈ P.Df ∧ s'.Y ∈ P.Dg ∧
    s'.U = s.U + (o.rlx • P.A s'.X - (1 - o.rlx) • (P.B s.Y - P.c)) + (P.B s'.Y - P.c) ∧
    (∀ z ∈ P.Df, P.f s'.X - s.rho * ⟪P.A s'.X + (P.B s.Y - P.c) + s.U, P.A z - P.A s'.X⟫ ≤ P.f z) ∧
    (∀ w ∈ P.Dg, P.g s'.Y - s.rho * ⟪s'.U, P.B w - P.B s'.Y⟫ ≤ P.g w) := by
  simp only
  set s' := steps C o s with hs'
  have hX : s'.X = (C.xstep s.rho s.X s.Y s.U s.extra).1 := rfl
  have hA : (s'.AX, s'.AXnr) = C.relax o.rlx s'.X s.Y := rfl
  have hY : s'.Y = (C.ystep s.rho s'.AX s'.X s.Y s.U (C.xstep s.rho s.X s.Y s.U s.extra).2).1 := rfl
  have hU : s'.U = C.ustep s'.AX s'.Y s.U := rfl
  rw [hC.relax, relaxAX_eq] at hA
  have hAX : s'.AX = o.rlx • P.A s'.X - (1 - o.rlx) • (P.B s.Y - P.c) := congrArg Prod.fst hA
  have hAnr : s'.AXnr = P.A s'.X := congrArg Prod.snd hA
  have hU' : s'.U = s.U + s'.AX + (P.B s'.Y - P.c) := by
    rw [hU, hC.ustep]; unfold ustep rsdlR; abel
  obtain ⟨x1, x2⟩ := hC.xstep s.rho s.X s.Y s.U s.extra hp hI
  obtain ⟨y1, y2⟩ := hC.ystep s.rho s'.AX s'.X s.Y s.U (C.xstep s.rho s.X s.Y s.U s.extra).2 hp
    (hC.xinv s.rho s.X s.Y s.U s.extra hp hI)
  rw [← hX] at x1 x2
  rw [← hY] at y1 y2
  refine ⟨rfl, rfl, hAnr, x1, y1, by rw [hU', hAX], fun z hz => ?_, fun w hw => ?_⟩
  · have := subgrad_of_min P.convF (P.A : E →ₗ[ℝ] G) (P.B s.Y - P.c + s.U) s.rho x1
      (fun z hz => by
        have := x2 z hz
        simp only [ContinuousLinearMap.coe_coe]
        rw [show P.A s'.X + (P.B s.Y - P.c + s.U) = P.A s'.X + P.B s.Y - P.c + s.U by abel,
          show P.A z + (P.B s.Y - P.c + s.U) = P.A z + P.B s.Y - P.c + s.U by abel]
        exact this) hz
    simp only [ContinuousLinearMap.coe_coe] at this
    rw [show P.A s'.X + (P.B s.Y - P.c) + s.U = P.A s'.X + (P.B s.Y - P.c + s.U) by abel]
    exact this
  · have := subgrad_of_min P.convG (P.B : F →ₗ[ℝ] G) (s'.AX - P.c + s.U) s.rho y1
      (fun w hw => by
        have := y2 w hw
        simp only [ContinuousLinearMap.coe_coe]
        rw [show P.B s'.Y + (s'.AX - P.c + s.U) = s'.AX + P.B s'.Y - P.c + s.U by abel,
          show P.B w + (s'.AX - P.c + s.U) = s'.AX + P.B w - P.c + s.U by abel]
        exact this) hw
    simp only [ContinuousLinearMap.coe_coe] at this
    rw [hU', show s.U + s'.AX + (P.B s'.Y - P.c) = P.B s'.Y + (s'.AX - P.c + s.U) by abel]
    exact this

/-- Without `f` the x update makes the gradient of the quadratic term vanish. -/
theorem steps_grad {C : Cls E F G H} {P : Problem E F G} {Inv : ℝ → H → Prop}
    (hC : Implements C P Inv) (o : Opts) (s : St E F G H) (hp : 0 < s.rho)
    (hI : Inv s.rho s.extra) (hf : ∀ x, P.f x = 0) (hD : P.Df = Set.univ) :
    P.AT (P.A (steps C o s).X + (P.B s.Y - P.c) + s.U) = 0 := by
  obtain ⟨-, -, -, -, -, -, h7, -⟩ := steps_spec hC o s hp hI
  set v := P.A (steps C o s).X + (P.B s.Y - P.c) + s.U with hv
  have h := h7 ((steps C o s).X - P.AT v) (by rw [hD]; trivial)
  rw [hf, hf, map_sub, sub_sub_cancel_left, inner_neg_right, real_inner_comm, P.adj,
    real_inner_self_eq_norm_sq] at h
  have h0 : ‖P.AT v‖ ^ 2 ≤ 0 := by
    by_contra hc
    push Not at hc
    nlinarith
  have := pow_eq_zero_iff (two_ne_zero) |>.1 (le_antisymm h0 (sq_nonneg _))
  exact norm_eq_zero.1 this

/-- Without `f`, the two expressions for the dual residual are related through the
primal residual. -/
theorem steps_ATU {C : Cls E F G H} {P : Problem E F G} {Inv : ℝ → H → Prop}
    (hC : Implements C P Inv) (o : Opts) (s : St E F G H) (hp : 0 < s.rho)
    (hI : Inv s.rho s.extra) (hf : ∀ x, P.f x = 0) (hD : P.Df = Set.univ) :
    P.AT (steps C o s).U = P.AT (P.B ((steps C o s).Y - s.Y)) +
      (o.rlx - 1) • P.AT (P.A (steps C o s).X + P.B s.Y - P.c) := by
  obtain ⟨-, -, -, -, -, h6, -, -⟩ := steps_spec hC o s hp hI
  have hg := steps_grad hC o s hp hI hf hD
  have e : (steps C o s).U = (P.A (steps C o s).X + (P.B s.Y - P.c) + s.U) +
      P.B ((steps C o s).Y - s.Y) + (o.rlx - 1) • (P.A (steps C o s).X + P.B s.Y - P.c) := by
    rw [h6, map_sub]; module
  rw [e, map_add, map_add, hg, map_smul, zero_add]

/-! ## C38 -/

/-- **C38.** If after an iteration both residuals are zero, the current X and Y solve the
documented problem, for any positive rho and any relaxation parameter. -/
theorem C38_zero_residuals (C : Cls E F G H) (P : Problem E F G) (Inv : ℝ → H → Prop)
    (hC : Implements C P Inv) (o : Opts) (s : St E F G H) (hp : 0 < s.rho)
    (hI : Inv s.rho s.extra)
    (hr : C.nrmR (steps C o s).AXnr (steps C o s).Y = 0)
    (hs : C.nrmS s.rho (steps C o s).Yprev (steps C o s).Y (steps C o s).U = 0) :
    P.IsSolution (steps C o s).X (steps C o s).Y := by
  obtain ⟨h1, h2, h3, h4, h5, h6, h7, h8⟩ := steps_spec hC o s hp hI
  set s' := steps C o s with hs'
  rw [hC.nrmR, norm_eq_zero, h3] at hr
  unfold rsdlR at hr
  have hfeas : P.A s'.X + P.B s'.Y = P.c := sub_eq_zero.1 hr
  rcases hC.nrmS with hk | ⟨hf, hD, hk⟩
  swap
  · rw [hk, norm_eq_zero] at hs
    have hATU : P.AT s'.U = 0 := (smul_eq_zero.1 hs).resolve_left hp.ne'
    refine ⟨h4, h5, hfeas, fun x' hx' y' hy' hxy => ?_⟩
    have e2 := h8 y' hy'
    have hB : P.B y' - P.B s'.Y = P.A (s'.X - x') := by
      rw [map_sub, eq_sub_of_add_eq' hxy, eq_sub_of_add_eq' hfeas]; abel
    rw [hB, real_inner_comm, P.adj, hATU, inner_zero_right, mul_zero, sub_zero] at e2
    rw [hf, hf]; linarith
  rw [hk, norm_eq_zero, h1] at hs
  unfold rsdlS at hs
  have hdual : P.AT (P.B (s'.Y - s.Y)) = 0 := (smul_eq_zero.1 hs).resolve_left hp.ne'
  refine ⟨h4, h5, hfeas, fun x' hx' y' hy' hxy => ?_⟩
  have e1 := h7 x' hx'
  have e2 := h8 y' hy'
  -- the two multipliers differ by something orthogonal to the range of A
  have hl : P.A s'.X + (P.B s.Y - P.c) + s.U = s'.U + (2 - o.rlx) • P.B (s.Y - s'.Y) := by
    have hA : P.A s'.X = P.c - P.B s'.Y := eq_sub_of_add_eq hfeas
    rw [h6, hA, map_sub]
    module
  have horth : ∀ z, ⟪P.B (s.Y - s'.Y), P.A z⟫ = 0 := by
    intro z
    have hneg : P.B (s.Y - s'.Y) = -P.B (s'.Y - s.Y) := by rw [← map_neg, neg_sub]
    rw [real_inner_comm, P.adj, hneg, map_neg, hdual, neg_zero, inner_zero_right]
  rw [hl, inner_add_left, real_inner_smul_left, inner_sub_right (P.B (s.Y - s'.Y)), horth, horth,
    sub_zero, mul_zero, add_zero] at e1
  have hsum : ⟪s'.U, P.A x' - P.A s'.X⟫ + ⟪s'.U, P.B y' - P.B s'.Y⟫ = 0 := by
    rw [← inner_add_right]
    have : P.A x' - P.A s'.X + (P.B y' - P.B s'.Y) = (P.A x' + P.B y') - (P.A s'.X + P.B s'.Y) := by abel
    rw [this, hxy, hfeas, sub_self, inner_zero_right]
  have : s.rho * ⟪s'.U, P.A x' - P.A s'.X⟫ + s.rho * ⟪s'.U, P.B y' - P.B s'.Y⟫ = 0 := by
    rw [← mul_add, hsum, mul_zero]
  linarith

/-- **C38.** A state whose Y and U an iteration leaves unchanged solves the documented
problem (non-zero relaxation parameter). -/
theorem C38_fixed_point (C : Cls E F G H) (P : Problem E F G) (Inv : ℝ → H → Prop)
    (hC : Implements C P Inv) (o : Opts) (s : St E F G H) (hp : 0 < s.rho)
    (hI : Inv s.rho s.extra) (hrlx : o.rlx ≠ 0) (hY : (steps C o s).Y = s.Y)
    (hU : (steps C o s).U = s.U) : P.IsSolution (steps C o s).X (steps C o s).Y := by
  obtain ⟨h1, h2, h3, h4, h5, h6, h7, h8⟩ := steps_spec hC o s hp hI
  have hres : P.A (steps C o s).X + P.B s.Y - P.c = 0 := by
    rw [hU, hY] at h6
    have : o.rlx • (P.A (steps C o s).X + P.B s.Y - P.c) = 0 := by
      have e : o.rlx • (P.A (steps C o s).X + P.B s.Y - P.c) =
        (s.U + (o.rlx • P.A (steps C o s).X - (1 - o.rlx) • (P.B s.Y - P.c)) + (P.B s.Y - P.c)) - s.U := by
        module
      rw [e, ← h6, sub_self]
    exact (smul_eq_zero.1 this).resolve_left hrlx
  apply C38_zero_residuals C P Inv hC o s hp hI
  · rw [hC.nrmR, norm_eq_zero, h3]
    unfold rsdlR
    rw [hY]
    exact hres
  · rcases hC.nrmS with hk | ⟨hf, hD, hk⟩
    · rw [hk, norm_eq_zero, h1, hY]
      simp [rsdlS]
    · rw [hk, steps_ATU hC o s hp hI hf hD, hY, hres]
      simp

/-- **C38, quantitative.** Without relaxation the objective after an iteration exceeds any
feasible value by at most `rho ‖U‖ r + ‖x - x'‖ s`, where `r` and `s` are the computed
(unnormalised) residual norms: small residuals mean small suboptimality. -/
theorem C38_suboptimality (C : Cls E F G H) (P : Problem E F G) (Inv : ℝ → H → Prop)
    (hC : Implements C P Inv) (o : Opts) (s : St E F G H) (hp : 0 < s.rho)
    (hI : Inv s.rho s.extra) (hrlx : o.rlx = 1) (x' : E) (hx' : x' ∈ P.Df) (y' : F)
    (hy' : y' ∈ P.Dg) (hxy : P.A x' + P.B y' = P.c) :
    let s' := steps C o s
    P.f s'.X + P.g s'.Y ≤ P.f x' + P.g y' + s.rho * ‖s'.U‖ * C.nrmR s'.AXnr s'.Y +
      ‖s'.X - x'‖ * C.nrmS s.rho s'.Yprev s'.Y s'.U := by
  obtain ⟨h1, h2, h3, h4, h5, h6, h7, h8⟩ := steps_spec hC o s hp hI
  simp only
  set s' := steps C o s with hs'
  have hS : C.nrmS s.rho s'.Yprev s'.Y s'.U = ‖rsdlS P.AT P.B s.rho s.Y s'.Y‖ := by
    rcases hC.nrmS with hk | ⟨hf, hD, hk⟩
    · rw [hk, h1]
    · rw [hk, hs', steps_ATU hC o s hp hI hf hD, hrlx, sub_self, zero_smul, add_zero]; rfl
  rw [hC.nrmR, hS, h3]
  have e1 := h7 x' hx'
  have e2 := h8 y' hy'
  rw [hrlx] at h6
  set r := rsdlR P.B P.c (P.A s'.X) s'.Y with hr
  have hl : P.A s'.X + (P.B s.Y - P.c) + s.U = s'.U - P.B (s'.Y - s.Y) := by
    rw [h6, map_sub]; module
  rw [hl, inner_sub_left] at e1
  have hsum : ⟪s'.U, P.A x' - P.A s'.X⟫ + ⟪s'.U, P.B y' - P.B s'.Y⟫ = -⟪s'.U, r⟫ := by
    rw [← inner_add_right, ← inner_neg_right]
    congr 1
    have : P.A x' - P.A s'.X + (P.B y' - P.B s'.Y) = (P.A x' + P.B y') - (P.A s'.X + P.B s'.Y) := by abel
    rw [this, hxy, hr]; unfold rsdlR; abel
  have hdual : s.rho * ⟪P.B (s'.Y - s.Y), P.A x' - P.A s'.X⟫ =
      ⟪x' - s'.X, rsdlS P.AT P.B s.rho s.Y s'.Y⟫ := by
    unfold rsdlS
    rw [real_inner_smul_right, ← P.adj, map_sub P.A, real_inner_comm (P.A x' - P.A s'.X)]
  have b1 : -⟪s'.U, r⟫ ≤ ‖s'.U‖ * ‖r‖ := by
    have := abs_le.1 (abs_real_inner_le_norm s'.U r); linarith [this.1]
  have b2 : -⟪x' - s'.X, rsdlS P.AT P.B s.rho s.Y s'.Y⟫ ≤ ‖s'.X - x'‖ * ‖rsdlS P.AT P.B s.rho s.Y s'.Y‖ := by
    have := abs_le.1 (abs_real_inner_le_norm (x' - s'.X) (rsdlS P.AT P.B s.rho s.Y s'.Y))
    rw [norm_sub_rev s'.X]; linarith [this.1]
  have hm : s.rho * (⟪s'.U, P.A x' - P.A s'.X⟫ + ⟪s'.U, P.B y' - P.B s'.Y⟫) = s.rho * -⟪s'.U, r⟫ := by
    rw [hsum]
  have b3 := mul_le_mul_of_nonneg_left b1 hp.le
  nlinarith

/-! ## C39 -/

/-- Without rho adaptation the trajectory applies the steps, with constant rho. -/
theorem oneIter_steps (C : Cls E F G H) (o : Opts) (ha : o.autoRho = false) (cb) (s : St E F G H) :
    (oneIter C o cb s).X = (steps C o s).X ∧ (oneIter C o cb s).Y = (steps C o s).Y ∧
    (oneIter C o cb s).U = (steps C o s).U ∧ (oneIter C o cb s).rho = s.rho ∧
    (oneIter C o cb s).AXnr = (steps C o s).AXnr ∧ (oneIter C o cb s).Yprev = s.Y := by
  have hu : ∀ (k : ℕ) (r t : ℝ) (st : St E F G H), updateRho C o k r t st = st := by
    intro k r t st; unfold updateRho; rw [if_neg (by simp [ha])]
  unfold oneIter body
  simp only [hu]
  cases o.fastSolve <;> cases o.withRsdl <;> exact ⟨rfl, rfl, rfl, rfl, rfl, rfl⟩

theorem traj_rho (C : Cls E F G H) (o : Opts) (ha : o.autoRho = false) (cb) (s : St E F G H) (n : ℕ) :
    (traj C o cb s n).rho = s.rho := by
  induction n with
  | zero => rfl
  | succ n ih => rw [traj_succ, (oneIter_steps C o ha cb _).2.2.2.1, ih]

/-- Class `C` maintains `Inv` about its own attributes. -/
structure Keeps (C : Cls E F G H) (Inv : ℝ → H → Prop) : Prop where
  sane : C.Sane
  xinv : ∀ rho X Y U h, 0 < rho → Inv rho h → Inv rho (C.xstep rho X Y U h).2
  yinv : ∀ rho AX X Y U h, 0 < rho → Inv rho h → Inv rho (C.ystep rho AX X Y U h).2
  rinv : ∀ rho rho' h, 0 < rho → 0 < rho' → Inv rho h → Inv rho' (C.rhochange rho' h)

theorem Implements.keeps {C : Cls E F G H} {P : Problem E F G} {Inv : ℝ → H → Prop}
    (hC : Implements C P Inv) : Keeps C Inv :=
  ⟨⟨fun _ _ => by rw [hC.nrmR]; exact norm_nonneg _,
    fun _ _ _ _ => by
      rcases hC.nrmS with hk | ⟨-, -, hk⟩ <;> rw [hk] <;> exact norm_nonneg _, hC.rn, hC.sn⟩,
    hC.xinv, hC.yinv, hC.rinv⟩

theorem steps_inv {C : Cls E F G H} {Inv : ℝ → H → Prop}
    (hC : Keeps C Inv) (o : Opts) (s : St E F G H) (hp : 0 < s.rho)
    (hI : Inv s.rho s.extra) : Inv s.rho (steps C o s).extra :=
  hC.yinv _ _ _ _ _ _ hp (hC.xinv _ _ _ _ _ hp hI)

/-- Along any trajectory, including automatic changes of rho, rho stays positive and the
class's attributes stay in step with the current rho. -/
theorem traj_keeps {C : Cls E F G H} {Inv : ℝ → H → Prop}
    (hC : Keeps C Inv) (o : Opts) (ho : o.autoRho = true → o.RhoOk)
    (cb) (hcb : CallbackKeeps Inv cb) (s : St E F G H) (hp : 0 < s.rho)
    (hI : Inv s.rho s.extra) (n : ℕ) :
    0 < (traj C o cb s n).rho ∧ Inv (traj C o cb s n).rho (traj C o cb s n).extra := by
  have hsane : C.Sane := hC.sane
  induction n with
  | zero => exact ⟨hp, hI⟩
  | succ n ih =>
    obtain ⟨ip, iI⟩ := ih
    rw [traj_succ]
    generalize traj C o cb s n = t at ip iI ⊢
    -- the states passed through in the body
    have hs1 : Inv t.rho (steps C o { t with k := t.k }).extra := steps_inv hC o t ip iI
    set t1 := steps C o { t with k := t.k } with ht1
    have hr1 : t1.rho = t.rho := rfl
    set q := computeResiduals C o t1 with hq
    set t2 := if o.fastSolve then t1 else
      { t1 with itstat := t1.itstat ++ [⟨t.k, C.objfn t1.X t1.Y t1.extra, q, t1.rho⟩] } with ht2
    have h2r : t2.rho = t.rho := by rw [ht2]; split_ifs <;> rfl
    have h2e : t2.extra = t1.extra := by rw [ht2]; split_ifs <;> rfl
    set t3 := if o.withRsdl then updateRho C o t.k q.r q.s t2 else t2 with ht3
    have h3 : 0 < t3.rho ∧ Inv t3.rho t3.extra := by
      have base : 0 < t2.rho ∧ Inv t2.rho t2.extra := by rw [h2r, h2e]; exact ⟨ip, hs1⟩
      rw [ht3]
      split_ifs
      · unfold updateRho
        split_ifs with hc
        · have hqn := residuals_nonneg hsane o t1 (by rw [hr1]; exact ip.le)
          obtain ⟨-, -, hf⟩ := rsf_bounds (ho hc.1) hqn.1 hqn.2
          have hpos := mul_pos base.1 hf
          simp only
          split_ifs with hne
          · exact ⟨hpos, hC.rinv _ _ _ base.1 hpos base.2⟩
          · push Not at hne
            rw [hne, mul_one]
            exact base
        · exact base
      · exact base
    cases cb with
    | none => exact h3
    | some f => exact ⟨h3.1, hcb f t3 rfl h3.2⟩

theorem traj_inv {C : Cls E F G H} {P : Problem E F G} {Inv : ℝ → H → Prop}
    (hC : Implements C P Inv) (o : Opts) (ho : o.autoRho = true → o.RhoOk)
    (cb) (hcb : CallbackKeeps Inv cb) (s : St E F G H) (hp : 0 < s.rho)
    (hI : Inv s.rho s.extra) (n : ℕ) :
    0 < (traj C o cb s n).rho ∧ Inv (traj C o cb s n).rho (traj C o cb s n).extra :=
  traj_keeps hC.keeps o ho cb hcb s hp hI n

/-- One pass through the loop leaves X as the steps computed it, whatever happens to rho. -/
theorem oneIter_X (C : Cls E F G H) (o : Opts) (cb) (s : St E F G H) :
    (oneIter C o cb s).X = (C.xstep s.rho s.X s.Y s.U s.extra).1 := by
  have hu : ∀ (k : ℕ) (r t : ℝ) (st : St E F G H), (updateRho C o k r t st).X = st.X := by
    intro k r t st; unfold updateRho
    simp only
    split_ifs <;> rfl
  unfold oneIter body
  cases o.fastSolve <;> cases o.withRsdl <;> cases cb <;> simp [hu] <;> rfl

/-- A trajectory satisfies the hypotheses of the abstract convergence argument. -/
theorem run_of_traj {C : Cls E F G H} {P : Problem E F G} {Inv : ℝ → H → Prop}
    (hC : Implements C P Inv) (o : Opts) (ha : o.autoRho = false) (hrlx : 0 < o.rlx ∧ o.rlx < 2) (cb)
    (hcb : CallbackKeeps Inv cb) (s : St E F G H) (hp : 0 < s.rho) (hI : Inv s.rho s.extra)
    {xs : E} {ys : F} {l : G} (hsad : P.Saddle xs ys l) :
    let T := traj C o cb s
    Run (fun n => P.A (T (n + 1)).X) (fun n => P.B (T n).Y - P.c) (fun n => (T n).U)
      (fun n => P.f (T (n + 1)).X) (fun n => P.g (T n).Y) (P.A xs) (P.B ys - P.c) (s.rho⁻¹ • l)
      (P.f xs) (P.g ys) o.rlx s.rho := by
  simp only
  set T := traj C o cb s with hT
  have hstep : ∀ n, (T (n + 1)).X = (steps C o (T n)).X ∧ (T (n + 1)).Y = (steps C o (T n)).Y ∧
      (T (n + 1)).U = (steps C o (T n)).U := by
    intro n
    have := oneIter_steps C o ha cb (T n)
    rw [hT, traj_succ]
    exact ⟨this.1, this.2.1, this.2.2.1⟩
  have hrho : ∀ n, (T n).rho = s.rho := traj_rho C o ha cb s
  have hinv := fun n => traj_inv hC o (fun h => by simp [ha] at h) cb hcb s hp hI n
  have hspec := fun n => steps_spec hC o (T n) (hinv n).1 (hinv n).2
  have hxmem : ∀ n, (T (n + 1)).X ∈ P.Df := fun n => by rw [(hstep n).1]; exact (hspec n).2.2.2.1
  have hymem : ∀ n, (T (n + 1)).Y ∈ P.Dg := fun n => by rw [(hstep n).2.1]; exact (hspec n).2.2.2.2.1
  have hx : ∀ n, ∀ z ∈ P.Df, P.f (T (n + 1)).X -
      s.rho * ⟪P.A (T (n + 1)).X + (P.B (T n).Y - P.c) + (T n).U, P.A z - P.A (T (n + 1)).X⟫ ≤ P.f z := by
    intro n z hz
    have := (hspec n).2.2.2.2.2.2.1 z hz
    rw [hrho n] at this
    rw [(hstep n).1]; exact this
  have hy : ∀ n, ∀ w ∈ P.Dg, P.g (T (n + 1)).Y - s.rho * ⟪(T (n + 1)).U, P.B w - P.B (T (n + 1)).Y⟫ ≤ P.g w := by
    intro n w hw
    have := (hspec n).2.2.2.2.2.2.2 w hw
    rw [hrho n] at this
    rw [(hstep n).2.1, (hstep n).2.2]; exact this
  have hsub : ∀ w w' : F, (P.B w - P.c) - (P.B w' - P.c) = P.B w - P.B w' := by intro w w'; abel
  refine ⟨hp, hrlx, ?_, ?_, ?_, ?_, ?_, ?_, ?_, ?_⟩
  · intro n
    have := (hspec n).2.2.2.2.2.1
    rw [(hstep n).1, (hstep n).2.1, (hstep n).2.2]; exact this
  · have := hsad.feas
    rw [show P.A xs + (P.B ys - P.c) = P.A xs + P.B ys - P.c by abel, this, sub_self]
  · intro n; exact hx n xs hsad.xmem
  · intro n; rw [hsub]; exact hy n ys hsad.ymem
  · intro n; rw [hsub]; exact hy n _ (hymem (n + 1))
  · intro n; rw [hsub]; exact hy (n + 1) _ (hymem n)
  · intro n
    have := hsad.xmin _ (hxmem n)
    rw [real_inner_smul_left, ← mul_assoc, mul_inv_cancel₀ hp.ne', one_mul, inner_sub_right]
    linarith
  · intro n
    have := hsad.ymin _ (hymem n)
    rw [real_inner_smul_left, ← mul_assoc, mul_inv_cancel₀ hp.ne', one_mul, hsub, inner_sub_right]
    linarith

/-- **C39.** With fixed rho and relaxation parameter in (0, 2), if the Lagrangian has a
saddle point, the computed primal and dual residual norms tend to zero and the objective
tends to the optimal value, from any start. -/
theorem C39_convergence (C : Cls E F G H) (P : Problem E F G) (Inv : ℝ → H → Prop)
    (hC : Implements C P Inv) (o : Opts) (ha : o.autoRho = false) (hrlx : 0 < o.rlx ∧ o.rlx < 2) (cb)
    (hcb : CallbackKeeps Inv cb) (s : St E F G H) (hp : 0 < s.rho) (hI : Inv s.rho s.extra)
    (xs : E) (ys : F) (l : G) (hsad : P.Saddle xs ys l) :
    let T := traj C o cb s
    Tendsto (fun n => C.nrmR (T n).AXnr (T n).Y) atTop (𝓝 0) ∧
    Tendsto (fun n => C.nrmS (T n).rho (T n).Yprev (T n).Y (T n).U) atTop (𝓝 0) ∧
    Tendsto (fun n => P.f (T n).X + P.g (T n).Y) atTop (𝓝 (P.f xs + P.g ys)) := by
  have hrun := run_of_traj hC o ha hrlx cb hcb s hp hI hsad
  simp only at hrun ⊢
  set T := traj C o cb s with hT
  have hstep : ∀ n, (T (n + 1)).AXnr = P.A (T (n + 1)).X ∧ (T (n + 1)).Yprev = (T n).Y := by
    intro n
    have h1 := oneIter_steps C o ha cb (T n)
    have hinv := traj_inv hC o (fun h => by simp [ha] at h) cb hcb s hp hI n
    have h2 := steps_spec hC o (T n) hinv.1 hinv.2
    rw [hT, traj_succ]
    refine ⟨?_, h1.2.2.2.2.2⟩
    rw [h1.2.2.2.2.1, h1.1]; exact h2.2.2.1
  refine ⟨?_, ?_, ?_⟩
  · refine (tendsto_add_atTop_iff_nat 1).1 ?_
    have := (tendsto_zero_iff_norm_tendsto_zero.1 hrun.primal_tendsto)
    refine this.congr fun n => ?_
    rw [hC.nrmR, (hstep n).1]
    unfold rsdlR
    congr 1
    abel
  · refine (tendsto_add_atTop_iff_nat 1).1 ?_
    have h1 := hrun.delta_tendsto.1
    have h2 : Tendsto (fun n => s.rho • P.AT ((P.B (T (n + 1)).Y - P.c) - (P.B (T n).Y - P.c))) atTop (𝓝 0) := by
      have := ((P.AT.continuous.tendsto 0).comp h1).const_smul s.rho
      simpa [Function.comp_def] using this
    rcases hC.nrmS with hk | ⟨hf, hD, hk⟩
    · refine (tendsto_zero_iff_norm_tendsto_zero.1 h2).congr fun n => ?_
      rw [hk, (hstep n).2, hT, traj_rho C o ha cb s (n + 1)]
      unfold rsdlS
      rw [map_sub P.B]
      congr 3
      abel
    · have h3 : Tendsto (fun n => s.rho • ((o.rlx - 1) • P.AT ((P.A (T (n + 1)).X + (P.B (T (n + 1)).Y - P.c)) -
          ((P.B (T (n + 1)).Y - P.c) - (P.B (T n).Y - P.c))))) atTop (𝓝 0) := by
        have := (((P.AT.continuous.tendsto 0).comp
          (by simpa using hrun.primal_tendsto.sub h1)).const_smul (o.rlx - 1)).const_smul s.rho
        simpa [Function.comp_def] using this
      have h4 := h2.add h3
      rw [add_zero] at h4
      refine (tendsto_zero_iff_norm_tendsto_zero.1 h4).congr fun n => ?_
      have hinv := traj_inv hC o (fun h => by simp [ha] at h) cb hcb s hp hI n
      have hA := steps_ATU hC o (T n) hinv.1 hinv.2 hf hD
      have h5 := oneIter_steps C o ha cb (T n)
      rw [hk, hT, traj_rho C o ha cb s (n + 1), traj_succ, ← hT, h5.2.2.1, h5.1, h5.2.1, hA, smul_add]
      congr 4
      · congr 1
        rw [map_sub]; abel
      · congr 1
        abel
  · refine (tendsto_add_atTop_iff_nat 1).1 ?_
    exact hrun.obj_tendsto

/-- The residual test in the loop, in terms of unnormalised norms. -/
theorem below_of_small (C : Cls E F G H) (o : Opts) (s : St E F G H)
    (hrn : 0 ≤ C.rsdlRn s.AXnr s.Y) (hsn : 0 ≤ C.rsdlSn s.rho s.U) (hrel : 0 ≤ o.relStopTol)
    (h1 : C.nrmR s.AXnr s.Y < Real.sqrt o.Nc * o.absStopTol)
    (h2 : C.nrmS s.rho s.Yprev s.Y s.U < Real.sqrt o.Nx * o.absStopTol) :
    (computeResiduals C o s).below := by
  unfold computeResiduals Rsdl.below
  split_ifs
  · simp only
    constructor
    · have := mul_nonneg hrn hrel; linarith
    · have := mul_nonneg hsn hrel; linarith
  · simp only
    have key : ∀ a n d : ℝ, 0 ≤ n → a < d → a / (if n = 0 then 1 else n) <
        d / (if n = 0 then 1 else n) + o.relStopTol := by
      intro a n d hn had
      have : a / (if n = 0 then 1 else n) < d / (if n = 0 then 1 else n) := by
        apply div_lt_div_of_pos_right had
        split_ifs with h
        · exact one_pos
        · exact lt_of_le_of_ne hn (Ne.symm h)
      linarith
    exact ⟨key _ _ _ hrn h1, key _ _ _ hsn h2⟩

/-- **C39, self-termination.** Under the same hypotheses, with a positive absolute
tolerance and non-empty variables there is an iteration count `N`, independent of
`MaxMainIter`, by which `solve()` stops by itself: for every limit above `N` it runs at
most `N` iterations and the last one satisfied the stopping test. -/
theorem C39_terminates (C : Cls E F G H) (P : Problem E F G) (Inv : ℝ → H → Prop)
    (hC : Implements C P Inv) (o : Opts)
    (ha : o.autoRho = false) (hf : o.fastSolve = false) (hrlx : 0 < o.rlx ∧ o.rlx < 2)
    (habs : 0 < o.absStopTol) (hrel : 0 ≤ o.relStopTol) (hNx : 0 < o.Nx) (hNc : 0 < o.Nc)
    (cb) (hcb : CallbackKeeps Inv cb) (s : St E F G H) (hp : 0 < s.rho) (hI : Inv s.rho s.extra)
    (xs : E) (ys : F) (l : G) (hsad : P.Saddle xs ys l) :
    ∃ N, ∀ M, N < M → (solve C { o with maxMainIter := M } cb s).k ≤ s.k + N ∧
      ∃ n, n < N ∧ solve C { o with maxMainIter := M } cb s = traj C o cb s (n + 1) ∧
        StopsAfter C o cb (traj C o cb s n) := by
  obtain ⟨h1, h2, -⟩ := C39_convergence C P Inv hC o ha hrlx cb hcb s hp hI xs ys l hsad
  have e1 : 0 < Real.sqrt o.Nc * o.absStopTol :=
    mul_pos (Real.sqrt_pos.2 (Nat.cast_pos.2 hNc)) habs
  have e2 : 0 < Real.sqrt o.Nx * o.absStopTol :=
    mul_pos (Real.sqrt_pos.2 (Nat.cast_pos.2 hNx)) habs
  have hev := ((h1.eventually_lt_const e1).and (h2.eventually_lt_const e2))
  obtain ⟨N0, hN0⟩ := hev.exists_forall_of_atTop
  -- the iteration leading to state N0+1 stops
  have hstop : StopsAfter C o cb (traj C o cb s N0) := by
    rw [C35_stop_condition]
    right
    refine ⟨Or.inr hf, ?_⟩
    obtain ⟨q1, q2⟩ := hN0 (N0 + 1) (by omega)
    have hos := oneIter_steps C o ha cb (traj C o cb s N0)
    rw [traj_succ] at q1 q2
    rw [hos.2.2.2.2.1, hos.2.1] at q1
    rw [hos.2.2.2.1, hos.2.2.2.2.2, hos.2.1, hos.2.2.1] at q2
    exact below_of_small C o (steps C o { traj C o cb s N0 with k := (traj C o cb s N0).k })
      (hC.rn _ _) (hC.sn _ _ (by
        change 0 ≤ (traj C o cb s N0).rho
        rw [traj_rho C o ha cb s N0]; exact hp.le)) hrel q1 q2
  refine ⟨N0 + 1, fun M hM => ?_⟩
  obtain ⟨n, a1, a2, a3, a4, a5, a6⟩ :=
    C35_solve_partial C { o with maxMainIter := M } cb s (by change 1 ≤ M; omega)
  rw [traj_max] at a3 a5 a6
  rw [StopsAfter_max] at a5 a6
  have hn : n ≤ N0 + 1 := by
    by_contra hcon
    exact a5 N0 (by omega) hstop
  refine ⟨by rw [a4]; omega, n - 1, by omega, ?_, ?_⟩
  · rw [a3]; congr 1; omega
  · exact a6 (by change n < M; omega)

/-- `ADMMEqual` classes with exact steps implement `min f(x) + g(y)` s.t. `x = y`. -/
theorem equal_implements (f g : E → ℝ) (Df Dg : Set E) (hf : ConvexOn ℝ Df f) (hg : ConvexOn ℝ Dg g)
    (Inv : ℝ → H → Prop)
    (xs : ℝ → E → E → E → H → E × H) (ys : ℝ → E → E → E → E → H → E × H) (rc ob)
    (hxi : ∀ rho X Y U h, 0 < rho → Inv rho h → Inv rho (xs rho X Y U h).2)
    (hyi : ∀ rho AX X Y U h, 0 < rho → Inv rho h → Inv rho (ys rho AX X Y U h).2)
    (hri : ∀ rho rho' h, 0 < rho → 0 < rho' → Inv rho h → Inv rho' (rc rho' h))
    (hx : ∀ rho X Y U h, 0 < rho → Inv rho h → (xs rho X Y U h).1 ∈ Df ∧ ∀ z ∈ Df,
      f (xs rho X Y U h).1 + rho / 2 * ‖(xs rho X Y U h).1 - Y + U‖ ^ 2 ≤ f z + rho / 2 * ‖z - Y + U‖ ^ 2)
    (hy : ∀ rho AX X Y U h, 0 < rho → Inv rho h → (ys rho AX X Y U h).1 ∈ Dg ∧ ∀ w ∈ Dg,
      g (ys rho AX X Y U h).1 + rho / 2 * ‖AX - (ys rho AX X Y U h).1 + U‖ ^ 2 ≤
        g w + rho / 2 * ‖AX - w + U‖ ^ 2) :
    Implements (Cls.equal xs ys rc ob)
      ⟨ContinuousLinearMap.id ℝ E, ContinuousLinearMap.id ℝ E, -ContinuousLinearMap.id ℝ E, 0, f, Df, g,
        Dg, fun _ _ => rfl, hf, hg⟩ Inv := by
  refine ⟨fun rlx x y => (C37_equal 0 rlx x y 0 0 0).2.2.2.2.1,
    fun ax y u => (C37_equal 0 0 0 y 0 ax u).2.2.2.2.2,
    fun ax y => congrArg norm (C37_equal 0 0 0 y 0 ax 0).1,
    Or.inl fun rho yp y _ => congrArg norm (C37_equal rho 0 0 y yp 0 0).2.1,
    (equal_sane xs ys rc ob).rn, (equal_sane xs ys rc ob).sn, hxi, hyi, hri, ?_, ?_⟩
  · intro rho X Y U h hp hI
    obtain ⟨a, b⟩ := hx rho X Y U h hp hI
    refine ⟨a, fun z hz => ?_⟩
    have := b z hz
    simpa [sub_eq_add_neg, Cls.equal] using this
  · intro rho AX X Y U h hp hI
    obtain ⟨a, b⟩ := hy rho AX X Y U h hp hI
    refine ⟨a, fun z hz => ?_⟩
    have := b z hz
    simpa [sub_eq_add_neg, Cls.equal] using this

/-! ### A concrete instance -/

/-- A quadratic example meeting all hypotheses: `min (x-2)²/2 + y²/2` s.t. `x = y`, both
steps exact, with saddle point `x = y = 1` and multiplier 1. -/
noncomputable def quadCls : Cls ℝ ℝ ℝ Unit :=
  Cls.equal (fun rho _ Y U h => ((2 + rho * (Y - U)) / (1 + rho), h))
    (fun rho AX _ _ U h => (rho * (AX + U) / (1 + rho), h)) (fun _ h => h) (fun _ _ _ => (0, 0, 0))

theorem quad_min (p q rho x : ℝ) (hp : 0 < rho) (hx : x * (1 + rho) = p + rho * q) (z : ℝ) :
    (x - p) ^ 2 / 2 + rho / 2 * (x - q) ^ 2 ≤ (z - p) ^ 2 / 2 + rho / 2 * (z - q) ^ 2 := by
  have : (z - p) ^ 2 / 2 + rho / 2 * (z - q) ^ 2 - ((x - p) ^ 2 / 2 + rho / 2 * (x - q) ^ 2) =
      (1 + rho) / 2 * (z - x) ^ 2 + (z - x) * (x * (1 + rho) - (p + rho * q)) := by ring
  have h2 := mul_nonneg (by linarith : 0 ≤ (1 + rho) / 2) (sq_nonneg (z - x))
  rw [hx, sub_self, mul_zero, add_zero] at this
  linarith

theorem quad_convex (p : ℝ) : ConvexOn ℝ Set.univ (fun x : ℝ => (x - p) ^ 2 / 2) := by
  refine ⟨convex_univ, fun x _ y _ a b ha hb hab => ?_⟩
  simp only [smul_eq_mul]
  have hb' : b = 1 - a := by linarith
  subst hb'
  nlinarith [mul_nonneg ha hb, sq_nonneg (x - y), mul_nonneg (mul_nonneg ha hb) (sq_nonneg (x - y))]

example : ∃ P : Problem ℝ ℝ ℝ, Implements quadCls P (fun _ _ => True) ∧ P.Saddle 1 1 1 := by
  refine ⟨_, equal_implements (fun x => (x - 2) ^ 2 / 2) (fun y => (y - 0) ^ 2 / 2) Set.univ Set.univ
    (quad_convex 2) (quad_convex 0) _ _ _ _ _ (fun _ _ _ _ _ _ _ => trivial)
    (fun _ _ _ _ _ _ _ _ => trivial) (fun _ _ _ _ _ _ => trivial) ?_ ?_, ?_⟩
  · intro rho X Y U h hp _
    refine ⟨trivial, fun z _ => ?_⟩
    have := quad_min 2 (Y - U) rho ((2 + rho * (Y - U)) / (1 + rho)) hp (by field_simp) z
    simp only [Real.norm_eq_abs, sq_abs]
    rw [sub_add, sub_add]; exact this
  · intro rho AX X Y U h hp _
    refine ⟨trivial, fun z _ => ?_⟩
    have := quad_min 0 (AX + U) rho (rho * (AX + U) / (1 + rho)) hp (by field_simp; ring) z
    simp only [Real.norm_eq_abs, sq_abs]
    have e : ∀ w : ℝ, (AX - w + U) ^ 2 = (w - (AX + U)) ^ 2 := fun w => by ring
    rw [e, e]; exact this
  · refine ⟨trivial, trivial, ?_, ?_, ?_⟩
    · simp
    · intro z _
      simp only [ContinuousLinearMap.id_apply, real_inner_eq_re_inner, RCLike.inner_apply]
      simp
      nlinarith [sq_nonneg (z - 1)]
    · intro w _
      simp
      nlinarith [sq_nonneg (w - 1)]

end Sporco.Admm
