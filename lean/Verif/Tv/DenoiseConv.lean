import Verif.Tv.DenoiseRun
import Verif.Tv.DeconvConv

/-!
# TV denoising: whole runs of `TVL2Denoise` (C39, C40, C67)
-/

set_option autoImplicit false
set_option linter.unusedSectionVars false

namespace Sporco.Tv.Den

open Finset Sporco.Admm Filter Topology
open Sporco.Prox (IsUniqueMin)
open scoped RealInnerProductSpace

section Generic

variable {E F H : Type*} [NormedAddCommGroup E] [InnerProductSpace ℝ E] [NormedAddCommGroup F] [InnerProductSpace ℝ F]

/-- The updates of a class with constraint `A x - y = c` and a proximal term in the X update. -/
theorem run_prox (C : Cls E F F H) (A : E →ₗ[ℝ] F) (c : F)
    (hrel : ∀ rlx x y, C.relax rlx x y = relaxAX A (fun y => -y) c rlx x y)
    (hu : ∀ ax y u, C.ustep ax y u = Admm.ustep (fun y => -y) c ax y u) (f : E → ℝ) (g : F → ℝ)
    (hg : ConvexOn ℝ Set.univ g) (Q : LinearMap.BilinForm ℝ E) (o : Opts) (ha : o.autoRho = false) (cb) (s : St E F F H)
    (hX : ∀ X Y U h z, let X' := (C.xstep s.rho X Y U h).1
      f X' + s.rho * ⟪A X' - (Y + c) + U, A X' - A z⟫ + Q (X' - X) (X' - z) ≤ f z)
    (hY : ∀ AX X Y U h z, let Y' := (C.ystep s.rho AX X Y U h).1
      g Y' + s.rho / 2 * ‖AX + U - c - Y'‖ ^ 2 ≤ g z + s.rho / 2 * ‖AX + U - c - z‖ ^ 2) :
    let T := traj C o cb s
    ProxRun A Q f (fun y => g (y - c)) s.rho o.rlx (fun n => (T n).X) (fun n => (T n).Y + c) (fun n => (T n).U) ∧
      ∀ n, (T (n + 1)).AXnr = A (T (n + 1)).X ∧ (T (n + 1)).Yprev = (T n).Y := by
  intro T
  have hrho : ∀ n, (T n).rho = s.rho := traj_rho C o ha cb s
  have hT : ∀ n, T (n + 1) = oneIter C o cb (T n) := fun n => traj_succ _ _ _ _ _
  have hrl : ∀ x y, (C.relax o.rlx x y).1 = o.rlx • A x + (1 - o.rlx) • (y + c) ∧ (C.relax o.rlx x y).2 = A x := by
    intro x y
    rw [hrel]
    unfold relaxAX
    split_ifs with h
    · exact ⟨by rw [h]; module, rfl⟩
    · exact ⟨by module, rfl⟩
  have hU : ∀ n, (T (n + 1)).U = (T n).U + (o.rlx • A (T (n + 1)).X + (1 - o.rlx) • ((T n).Y + c)) -
      ((T (n + 1)).Y + c) := by
    intro n
    obtain ⟨e1, e2, e3, -⟩ := oneIter_steps C o ha cb (T n)
    rw [hT, e1, e2, e3]
    have e4 : (steps C o (T n)).U = C.ustep (C.relax o.rlx (steps C o (T n)).X (T n).Y).1 (steps C o (T n)).Y (T n).U := rfl
    rw [e4, hu, (hrl _ _).1]
    unfold Admm.ustep Admm.rsdlR
    module
  refine ⟨⟨fun k z => ?_, fun k z => ?_, hU⟩, fun k => ?_⟩
  · have h1 := hX (T k).X (T k).Y (T k).U (T k).extra z
    have e1 : (T (k + 1)).X = (C.xstep s.rho (T k).X (T k).Y (T k).U (T k).extra).1 := by
      rw [hT, oneIter_X, hrho]
    simp only at h1 ⊢
    rw [e1]
    exact h1
  · obtain ⟨e1, e2, e3, -⟩ := oneIter_steps C o ha cb (T k)
    have e4 : (T (k + 1)).Y = (C.ystep s.rho (C.relax o.rlx (T (k + 1)).X (T k).Y).1 (T (k + 1)).X (T k).Y (T k).U
        (C.xstep (T k).rho (T k).X (T k).Y (T k).U (T k).extra).2).1 := by
      rw [hT, e1, e2, ← hrho k]; rfl
    have h1 := fun z => hY (C.relax o.rlx (T (k + 1)).X (T k).Y).1 (T (k + 1)).X (T k).Y (T k).U
        (C.xstep (T k).rho (T k).X (T k).Y (T k).U (T k).extra).2 z
    simp only at h1
    rw [← e4, (hrl _ _).1] at h1
    have h2 := subgrad_of_min hg (LinearMap.id : F →ₗ[ℝ] F) (-(o.rlx • A (T (k + 1)).X + (1 - o.rlx) • ((T k).Y + c) +
      (T k).U - c)) s.rho (x := (T (k + 1)).Y) trivial (fun z _ => by
        have e : ∀ v w : F, ‖(LinearMap.id : F →ₗ[ℝ] F) v + -w‖ = ‖w - v‖ := by
          intro v w; rw [LinearMap.id_apply, ← sub_eq_add_neg, norm_sub_rev]
        rw [e, e]; exact h1 z) (z := z - c) trivial
    simp only [LinearMap.id_apply] at h2
    have e5 : (T (k + 1)).Y + -(o.rlx • A (T (k + 1)).X + (1 - o.rlx) • ((T k).Y + c) + (T k).U - c) = -(T (k + 1)).U := by
      rw [hU]; abel
    rw [e5, inner_neg_left] at h2
    have e6 : z - c - (T (k + 1)).Y = z - ((T (k + 1)).Y + c) := by abel
    rw [e6] at h2
    change g ((T (k + 1)).Y + c - c) + _ ≤ g (z - c)
    rw [add_sub_cancel_right]
    linarith
  · obtain ⟨e1, -, -, -, e5, e6⟩ := oneIter_steps C o ha cb (T k)
    refine ⟨?_, by rw [hT, e6]⟩
    rw [hT, e5, e1]
    exact (hrl _ _).2

/-- Convergence of such a run to the minimum. -/
theorem run_convergence [FiniteDimensional ℝ F] [FiniteDimensional ℝ E] {A : E →ₗ[ℝ] F} {c : F} {f : E → ℝ} {g : F → ℝ}
    {Q : LinearMap.BilinForm ℝ E} {ρ α : ℝ} {X : ℕ → E} {Y U : ℕ → F}
    (h : ProxRun A Q f (fun y => g (y - c)) ρ α X Y U) (hs : ∀ a b, Q a b = Q b a) (h0 : ∀ a, 0 ≤ Q a a)
    (hf : ConvexOn ℝ Set.univ f) (hg : ConvexOn ℝ Set.univ g) (v : F → ℝ) (hv : ContinuousAt v 0) (v0 : v 0 = 0)
    (hgv : ∀ y z, |g y - g z| ≤ v (y - z)) (hρ : 0 < ρ) (hα : 0 < α) (hα2 : α < 2) (xs : E)
    (hxs : ∀ z, f xs + g (A xs - c) ≤ f z + g (A z - c)) :
    Tendsto (fun n => A (X n) - Y n) atTop (𝓝 0) ∧ Tendsto (fun n => Y (n + 1) - Y n) atTop (𝓝 0) ∧
    Tendsto (fun n => Q (X (n + 1) - X n) (X (n + 1) - X n)) atTop (𝓝 0) ∧
    Tendsto (fun n => f (X n) + g (A (X n) - c)) atTop (𝓝 (f xs + g (A xs - c))) := by
  obtain ⟨l, hl⟩ := exists_multiplier (LinearMap.toContinuousLinearMap A) c f Set.univ g Set.univ hf hg
    (f xs + g (A xs - c)) (fun z _ _ => hxs z) xs trivial (by rw [interior_univ]; trivial)
  obtain ⟨k1, k2, k3, k4⟩ := h.convergence hs h0 hρ hα hα2 xs (ρ⁻¹ • l) (fun x y => by
    have := hl x trivial (y - c) trivial
    have e : A x - (y - c) - c = A x - y := by abel
    rw [inner_smul_left]
    simp only [conj_trivial]
    rw [← mul_assoc, mul_inv_cancel₀ hρ.ne', one_mul]
    change f xs + g (A xs - c) ≤ f x + g (y - c) + ⟪l, A x - y⟫
    have h2 : f xs + g (A xs - c) ≤ f x + g (y - c) + ⟪l, A x - (y - c) - c⟫ := this
    rwa [e] at h2)
  have k5 : Tendsto (fun n => A (X n) - Y n) atTop (𝓝 0) := by
    refine shift ?_
    have := k1.sub k2
    rw [sub_zero] at this
    refine this.congr fun n => ?_
    abel
  refine ⟨k5, k2, k3, shift ?_⟩
  have k6 : Tendsto (fun n => v (A (X (n + 1)) - Y n)) atTop (𝓝 0) := by
    have := hv.tendsto.comp k1
    rw [v0] at this
    exact this
  have k7 : Tendsto (fun n => g (A (X (n + 1)) - c) - g (Y n - c)) atTop (𝓝 0) := by
    refine squeeze_zero_norm (fun n => ?_) k6
    have := hgv (A (X (n + 1)) - c) (Y n - c)
    rw [sub_sub_sub_cancel_right] at this
    exact this
  have := k4.add k7
  rw [add_zero] at this
  refine this.congr fun n => ?_
  ring

end Generic

variable {D : ℕ} {n : Fin D → ℕ} {γ χ : Type*} [Fintype γ] [Fintype χ] {axes : List (Fin D)}

/-! ## Specification -/

/-- The total variation: for each pixel, and over all channels, the length of the gradient vector. -/
noncomputable def tv (axes : List (Fin D)) (e : Pix n ≃ γ × χ) (w : γ → ℝ) (x : Img n) : ℝ :=
  ∑ g, w g * Real.sqrt (∑ c, ∑ i, diff (axes.get i) x (e.symm (g, c)) ^ 2)

/-- The functional of `TVL2Denoise`: `½ ‖W (x - s)‖² + λ TV(x)`. -/
noncomputable def tvL2 (axes : List (Fin D)) (e : Pix n ≃ γ × χ) (S wd : Img n) (lmbda : ℝ) (w : γ → ℝ) (x : Img n) : ℝ :=
  1 / 2 * ∑ p, (wd p * (x p - S p)) ^ 2 + lmbda * tv axes e w x

theorem tvL2_eq (e : Pix n ≃ γ × χ) (S wd : Img n) (lmbda : ℝ) (w : γ → ℝ) (x : ImE n) :
    tvL2 axes e S wd lmbda w x.ofLp = dataE wd S x + lmbda * regTv e w (gradE axes x - 0) := by
  rw [sub_zero]; rfl

theorem dataE_convex (wd S : Img n) : ConvexOn ℝ Set.univ (dataE wd S) := by
  refine ⟨convex_univ, fun x _ y _ s t hs ht hst => ?_⟩
  simp only [smul_eq_mul]
  unfold dataE
  have : ∑ p, (wd p * ((s • x + t • y) p - S p)) ^ 2 ≤
      s * ∑ p, (wd p * (x p - S p)) ^ 2 + t * ∑ p, (wd p * (y p - S p)) ^ 2 := by
    rw [mul_sum, mul_sum, ← sum_add_distrib]
    refine sum_le_sum fun p _ => ?_
    have e : (s • x + t • y) p - S p = s * (x p - S p) + t * (y p - S p) := by
      simp only [PiLp.add_apply, PiLp.smul_apply, smul_eq_mul]
      linear_combination S p * hst
    rw [e]
    have ht' : t = 1 - s := by linarith
    subst ht'
    nlinarith [sq_nonneg (wd p * (x p - S p) - wd p * (y p - S p)), mul_nonneg hs ht,
      mul_nonneg (mul_nonneg hs ht) (sq_nonneg (wd p * (x p - S p) - wd p * (y p - S p)))]
  linarith

/-! ## Runs of `TVL2Denoise` -/

theorem runL2 (hax : GoodAxes n axes) (e : Pix n ≃ γ × χ) (P : Par γ n) (S : Img n) (hl : 0 ≤ P.lmbda)
    (hw : ∀ g, 0 ≤ P.w g) (hc : Connected axes fun p => P.wd p ^ 2) (ht : P.tol ≤ 0) (j : ℕ) (hj : 0 < j)
    (hm : P.maxIter = 2 * j) (o : Opts) (ha : o.autoRho = false) (cb)
    (s : St (ImE n) (GradE axes n) (GradE axes n) Xs) (hp : 0 < s.rho) :
    let T := traj (clsL2 axes e P S) o cb s
    ∃ Q : LinearMap.BilinForm ℝ (ImE n), (∀ a b, Q a b = Q b a) ∧ (∀ a, 0 ≤ Q a a) ∧
      ProxRun (gradE axes) Q (dataE P.wd S) (fun y => P.lmbda * regTv e P.w (y - 0)) s.rho o.rlx (fun n => (T n).X)
        (fun n => (T n).Y + 0) (fun n => (T n).U) ∧
      ∀ n, (T (n + 1)).AXnr = gradE axes (T (n + 1)).X ∧ (T (n + 1)).Yprev = (T n).Y := by
  intro T
  obtain ⟨Q, hs, h0, hQ⟩ := xstepE_prox hax P hc S s.rho hp ht j hj hm
  refine ⟨Q, hs, h0, ?_⟩
  refine run_prox (clsL2 axes e P S) (gradE axes) 0 (fun rlx x y => ?_) (fun _ _ _ => rfl) (dataE P.wd S)
    (fun y => P.lmbda * regTv e P.w y) (regTv_convex e P.lmbda hl P.w hw) Q o ha cb s (fun X Y U h z => ?_)
    (fun AX X Y U h z => ?_)
  · change relaxAX (cnstAE axes) _ _ _ _ _ = _
    rw [show cnstAE axes = (gradE axes : ImE n → GradE axes n) from funext cnstAE_eq]
  · intro X'
    rw [add_zero]
    exact hQ X Y U h z
  · intro Y'
    rw [sub_zero]
    have h1 := C40_tvdenoise_ystep e P.lmbda hl P.w hw s.rho hp (AX + U)
    by_cases hz : z = Y'
    · rw [hz]
    · exact (h1.2 z trivial hz).le

/-- **C39 for `TVL2Denoise`.** With the defaults of the class (rho fixed, relaxation parameter in (0, 2), `GSTol` zero,
an even number of inner passes) and any start, although the X update is not exact, the residuals tend to zero and the
functional at the image that `solve()` returns tends to its minimum, if it has one.  The axes must be the leading ones
in order, of length at least two.  Missing: odd `MaxGSIter` (see `C67_tvl2denoise_limit`), automatic rho. -/
theorem C39_tvl2denoise_partial (hax : GoodAxes n axes) (e : Pix n ≃ γ × χ) (P : Par γ n) (S : Img n)
    (hl : 0 ≤ P.lmbda) (hw : ∀ g, 0 ≤ P.w g) (hc : Connected axes fun p => P.wd p ^ 2) (ht : P.tol ≤ 0)
    (hm : 0 < P.maxIter ∧ Even P.maxIter) (o : Opts) (ha : o.autoRho = false) (hrlx : 0 < o.rlx ∧ o.rlx < 2) (cb)
    (s : St (ImE n) (GradE axes n) (GradE axes n) Xs) (hp : 0 < s.rho) (xs : Img n)
    (hxs : ∀ z, tvL2 axes e S P.wd P.lmbda P.w xs ≤ tvL2 axes e S P.wd P.lmbda P.w z) :
    let C := clsL2 axes e P S
    let T := traj C o cb s
    Tendsto (fun n => C.nrmR (T n).AXnr (T n).Y) atTop (𝓝 0) ∧
    Tendsto (fun n => C.nrmS (T n).rho (T n).Yprev (T n).Y (T n).U) atTop (𝓝 0) ∧
    Tendsto (fun n => tvL2 axes e S P.wd P.lmbda P.w (T n).X.ofLp) atTop (𝓝 (tvL2 axes e S P.wd P.lmbda P.w xs)) := by
  intro C T
  obtain ⟨j, hj⟩ := hm.2
  obtain ⟨Q, hs, h0, hrun, hst⟩ := runL2 hax e P S hl hw hc ht j (by omega) (by omega) o ha cb s hp
  obtain ⟨k1, k2, -, k4⟩ := run_convergence (g := fun y => P.lmbda * regTv e P.w y) hrun hs h0 (dataE_convex P.wd S)
    (regTv_convex e P.lmbda hl P.w hw) (fun v => P.lmbda * regTv e P.w v)
    (((continuous_regTv e P.w).const_mul P.lmbda).continuousAt) (by rw [regTv_zero, mul_zero])
    (fun y z => by
      rw [← mul_sub, abs_mul, abs_of_nonneg hl]
      exact mul_le_mul_of_nonneg_left (regTv_sub e P.w hw y z) hl) hp hrlx.1 hrlx.2 (WithLp.toLp 2 xs) (fun z => by
        rw [← tvL2_eq, ← tvL2_eq]; exact hxs z.ofLp)
  simp only [add_zero] at k1 k2
  refine ⟨shift ?_, shift ?_, ?_⟩
  · have h1 := (k1.comp (tendsto_add_atTop_nat 1)).norm
    rw [norm_zero] at h1
    refine h1.congr fun k => ?_
    change _ = ‖(T (k + 1)).AXnr + -(T (k + 1)).Y - 0‖
    rw [(hst k).1, sub_zero, ← sub_eq_add_neg]
    rfl
  · have hcont : Continuous fun v : GradE axes n => s.rho • cnstATE (-v) := by
      have e1 : (fun v : GradE axes n => s.rho • cnstATE (-v)) = fun v => (-s.rho) •
          LinearMap.adjoint (gradE axes) v := by
        funext v
        have e2 : cnstATE (-v) = LinearMap.adjoint (gradE axes) (-v) := by
          refine ext_inner_left ℝ fun z => ?_
          rw [LinearMap.adjoint_inner_right, cnstATE_eq hax, ← gradTE_adj hax, PiLp.inner_apply]
          exact sum_congr rfl fun p _ => by simp [mul_comm]
        rw [e2, map_neg, smul_neg, neg_smul]
      rw [e1]
      exact (LinearMap.continuous_of_finiteDimensional (LinearMap.adjoint (gradE (n := n) axes))).const_smul (-s.rho)
    have h1 := ((hcont.tendsto 0).comp k2).norm
    have e3 : s.rho • cnstATE (-(0 : GradE axes n)) = (0 : ImE n) := by
      rw [neg_zero, cnstATE_eq hax]
      have : gradTE (0 : GradE axes n) = fun _ => 0 := by
        have h2 := gradTE_adj hax (0 : GradE axes n) (WithLp.toLp 2 (gradTE (0 : GradE axes n)))
        rw [inner_zero_right] at h2
        funext p
        have h3 := (Finset.sum_eq_zero_iff_of_nonneg fun p _ => mul_self_nonneg (gradTE (0 : GradE axes n) p)).1 h2 p
          (mem_univ p)
        exact mul_self_eq_zero.1 h3
      rw [this]
      exact smul_zero _
    rw [e3, norm_zero] at h1
    refine h1.congr fun k => ?_
    change ‖s.rho • cnstATE (-((T (k + 1)).Y - (T k).Y))‖ =
      ‖(T (k + 1)).rho • cnstATE (-((T (k + 1)).Y - (T (k + 1)).Yprev))‖
    rw [(hst k).2, show (T (k + 1)).rho = s.rho from traj_rho _ o ha cb s (k + 1)]
  · rw [← tvL2_eq] at k4
    refine k4.congr fun k => ?_
    rw [← tvL2_eq]

theorem exists_low (w : Img n) (h : ∀ p, w p ≠ 0) : ∃ c : ℝ, 0 < c ∧ ∀ p, c ≤ w p ^ 2 := by
  rcases isEmpty_or_nonempty (Pix n) with hI | hI
  · exact ⟨1, one_pos, fun p => (hI.false p).elim⟩
  · obtain ⟨p0, -, hp0⟩ := exists_min_image univ (fun p => w p ^ 2) univ_nonempty
    exact ⟨w p0 ^ 2, by have := h p0; positivity, fun p => hp0 p (mem_univ p)⟩

theorem continuous_gradE : Continuous (gradE axes : ImE n → GradE axes n) :=
  LinearMap.continuous_of_finiteDimensional (gradE (n := n) axes)

theorem regTv_nonneg (e : Pix n ≃ γ × χ) (w : γ → ℝ) (hw : ∀ g, 0 ≤ w g) (v : GradE axes n) : 0 ≤ regTv e w v :=
  sum_nonneg fun g _ => mul_nonneg (hw g) (Real.sqrt_nonneg _)

theorem exists_minL2 (e : Pix n ≃ γ × χ) (S wd : Img n) (hwd : ∀ p, wd p ≠ 0) (lmbda : ℝ) (hl : 0 ≤ lmbda)
    (w : γ → ℝ) (hw : ∀ g, 0 ≤ w g) : ∃ xs : Img n, ∀ z, tvL2 axes e S wd lmbda w xs ≤ tvL2 axes e S wd lmbda w z := by
  obtain ⟨c, hc, hcw⟩ := exists_low wd hwd
  obtain ⟨x, hx⟩ := Dec.exists_min_of_growth (fun x : ImE n => tvL2 axes e S wd lmbda w x.ofLp) (by
      simp only [tvL2_eq, sub_zero]
      refine Continuous.add ?_ (((continuous_regTv e w).comp continuous_gradE).const_mul lmbda)
      unfold dataE
      fun_prop)
    (fun M => ‖(WithLp.toLp 2 S : ImE n)‖ + Real.sqrt (2 * M / c)) (fun x M hM => by
      have h1 : tvL2 axes e S wd lmbda w x.ofLp = dataE wd S x + lmbda * regTv e w (gradE axes x - 0) := tvL2_eq _ _ _ _ _ _
      have h2 := mul_nonneg hl (regTv_nonneg e w hw (gradE axes x - 0))
      have h3 : c * ‖x - WithLp.toLp 2 S‖ ^ 2 ≤ 2 * M := by
        have h4 : c * ‖x - WithLp.toLp 2 S‖ ^ 2 ≤ 2 * dataE wd S x := by
          unfold dataE
          rw [EuclideanSpace.norm_sq_eq, mul_sum, ← mul_assoc, mul_one_div_cancel two_ne_zero, one_mul]
          refine sum_le_sum fun p _ => ?_
          rw [Real.norm_eq_abs, sq_abs, mul_pow]
          exact mul_le_mul_of_nonneg_right (hcw p) (sq_nonneg _)
        linarith
      have h5 : ‖x - WithLp.toLp 2 S‖ ≤ Real.sqrt (2 * M / c) := by
        refine Real.le_sqrt_of_sq_le ?_
        rw [le_div_iff₀ hc]; linarith
      have h6 := norm_add_le (WithLp.toLp 2 S : ImE n) (x - WithLp.toLp 2 S)
      rw [add_sub_cancel] at h6
      linarith)
  exact ⟨x.ofLp, fun z => hx (WithLp.toLp 2 z)⟩

/-- **C67 for `TVL2Denoise`.** With non-zero data weights the functional of the documentation has a minimiser, and, with
fixed rho, relaxation parameter in (0, 2), `GSTol` zero and an even `MaxGSIter` (as by default), its value at the image
that `solve()` returns tends to the minimum as the number of iterations grows.  Missing: axes other than the leading
ones, odd `MaxGSIter`. -/
theorem C67_tvl2denoise_partial (hax : GoodAxes n axes) (e : Pix n ≃ γ × χ) (P : Par γ n) (S : Img n)
    (hl : 0 ≤ P.lmbda) (hw : ∀ g, 0 ≤ P.w g) (hwd : ∀ p, P.wd p ≠ 0) (ht : P.tol ≤ 0)
    (hm : 0 < P.maxIter ∧ Even P.maxIter) (o : Opts) (ha : o.autoRho = false) (hrlx : 0 < o.rlx ∧ o.rlx < 2) (cb)
    (s : St (ImE n) (GradE axes n) (GradE axes n) Xs) (hp : 0 < s.rho) :
    ∃ xs, (∀ z, tvL2 axes e S P.wd P.lmbda P.w xs ≤ tvL2 axes e S P.wd P.lmbda P.w z) ∧
      Tendsto (fun n => tvL2 axes e S P.wd P.lmbda P.w (traj (clsL2 axes e P S) o cb s n).X.ofLp) atTop
        (𝓝 (tvL2 axes e S P.wd P.lmbda P.w xs)) := by
  obtain ⟨xs, hxs⟩ := exists_minL2 (axes := axes) e S P.wd hwd P.lmbda hl P.w hw
  exact ⟨xs, hxs, (C39_tvl2denoise_partial hax e P S hl hw
    (connected_of_pos _ _ fun p => by have := hwd p; positivity) ht hm o ha hrlx cb s hp xs hxs).2.2⟩

/-- **C40.** The values that `TVL2Denoise` records in an iteration are those of its functional at the new image, or with
the regulariser evaluated at Y if `gEvalY` is set. -/
theorem C40_tvl2denoise_recorded (e : Pix n ≃ γ × χ) (P : Par γ n) (S : Img n) (o : Opts)
    (s : St (ImE n) (GradE axes n) (GradE axes n) Xs) :
    let C := clsL2 axes e P S
    let t := steps C o s
    let dfd := 1 / 2 * ∑ p, (P.wd p * (t.X p - S p)) ^ 2
    let regY := ∑ g, P.w g * Real.sqrt (∑ c, ∑ i, t.Y (i, e.symm (g, c)) ^ 2)
    C.objfn t.X t.Y t.extra = if P.gEvalY then (dfd + P.lmbda * regY, dfd, regY)
      else (tvL2 axes e S P.wd P.lmbda P.w t.X.ofLp, dfd, tv axes e P.w t.X.ofLp) := by
  intro C t dfd regY
  change objfnE e P S t.X t.Y t.extra = _
  unfold objfnE
  rw [cnstAE_eq]
  cases P.gEvalY <;> rfl

end Sporco.Tv.Den
