import Verif.Admm.Optimal

/-!
# Firmly non-expansive operators and relaxed Douglas-Rachford iterations

The operators of the plug and play priors solvers (`admm/ppp.py`) need not be proximal operators of any function.
What the convergence argument uses is that they are firmly non-expansive.
-/

set_option autoImplicit false

namespace Sporco.Admm

open scoped RealInnerProductSpace
open Filter Topology

variable {E : Type*} [NormedAddCommGroup E] [InnerProductSpace ℝ E]

/-! ## Specification -/

/-- `T` is firmly non-expansive. -/
def Firm (T : E → E) : Prop := ∀ p q, ‖T p - T q‖ ^ 2 ≤ ⟪T p - T q, p - q⟫

/-! ## Properties -/

theorem Firm.lipschitz {T : E → E} (hT : Firm T) (p q : E) : ‖T p - T q‖ ≤ ‖p - q‖ := by
  have h1 := hT p q
  have h2 := real_inner_le_norm (T p - T q) (p - q)
  by_contra hc
  push Not at hc
  have h3 := norm_nonneg (p - q)
  nlinarith

theorem Firm.continuous {T : E → E} (hT : Firm T) : Continuous T := by
  refine (LipschitzWith.of_dist_le_mul (K := 1) fun p q => ?_).continuous
  rw [dist_eq_norm, dist_eq_norm]
  simpa using hT.lipschitz p q

/-- A minimiser of `g(y) + (rho/2)||y - v||^2` satisfies the variational inequality. -/
theorem prox_subgrad {g : E → ℝ} {D : Set E} (hg : ConvexOn ℝ D g) {prox : E → ℝ → E} (hp : IsProxG g D prox)
    {rho : ℝ} (hr : 0 < rho) (v : E) {z : E} (hz : z ∈ D) :
    g (prox v rho) + rho * ⟪v - prox v rho, z - prox v rho⟫ ≤ g z := by
  obtain ⟨hm, hmin⟩ := hp v rho hr
  have := subgrad_of_min hg (LinearMap.id : E →ₗ[ℝ] E) (-v) rho hm (fun z hz => by
    have := hmin z hz
    simpa [sub_eq_add_neg] using this) hz
  simp only [LinearMap.id_apply] at this
  rw [show prox v rho + -v = -(v - prox v rho) by abel, inner_neg_left] at this
  linarith

/-- The proximal operators of convex functions are firmly non-expansive. -/
theorem prox_firm {g : E → ℝ} {D : Set E} (hg : ConvexOn ℝ D g) {prox : E → ℝ → E} (hp : IsProxG g D prox)
    {rho : ℝ} (hr : 0 < rho) : Firm fun v => prox v rho := by
  intro p q
  have h1 := prox_subgrad hg hp hr p (hp q rho hr).1
  have h2 := prox_subgrad hg hp hr q (hp p rho hr).1
  change ‖prox p rho - prox q rho‖ ^ 2 ≤ ⟪prox p rho - prox q rho, p - q⟫
  generalize prox p rho = a at h1 h2 ⊢
  generalize prox q rho = b at h1 h2 ⊢
  have h3 : ⟪p - a, b - a⟫ + ⟪q - b, a - b⟫ ≤ 0 := by
    by_contra hc
    push Not at hc
    nlinarith
  have e : ⟪p - a, b - a⟫ + ⟪q - b, a - b⟫ = ‖a - b‖ ^ 2 - ⟪a - b, p - q⟫ := by
    rw [← real_inner_self_eq_norm_sq]
    simp only [inner_sub_left, inner_sub_right, real_inner_comm]
    ring
  linarith

/-! ## The iteration -/

/-- One relaxed Douglas-Rachford step brings the governing variable closer to that of any equilibrium. -/
theorem dr_step {F J : E → E} (hF : Firm F) (hJ : Firm J) (al : ℝ) (ha : 0 ≤ al) (w ws : E)
    (hs : F ((2 : ℝ) • J ws - ws) = J ws) :
    ‖w + al • (F ((2 : ℝ) • J w - w) - J w) - ws‖ ^ 2 ≤
      ‖w - ws‖ ^ 2 - al * (2 - al) * ‖F ((2 : ℝ) • J w - w) - J w‖ ^ 2 := by
  have h1 := hJ w ws
  have h2 := hF ((2 : ℝ) • J w - w) ((2 : ℝ) • J ws - ws)
  rw [hs] at h2
  generalize F ((2 : ℝ) • J w - w) = x at h2 ⊢
  generalize J w = y at h1 h2 ⊢
  generalize J ws = ys at h1 h2 ⊢
  obtain ⟨a, ha'⟩ : ∃ a, a = y - ys := ⟨_, rfl⟩
  obtain ⟨b, hb'⟩ : ∃ b, b = x - ys := ⟨_, rfl⟩
  obtain ⟨d, hd'⟩ : ∃ d, d = w - ws := ⟨_, rfl⟩
  have e1 : (2 : ℝ) • y - w - ((2 : ℝ) • ys - ws) = (2 : ℝ) • a - d := by rw [ha', hd']; module
  have e2 : x - y = b - a := by rw [ha', hb']; abel
  have e3 : w + al • (x - y) - ws = d + al • (b - a) := by rw [e2, hd']; abel
  rw [e3, e2, ← hd']
  rw [e1, ← hb', inner_sub_right, real_inner_smul_right] at h2
  rw [← ha', ← hd'] at h1
  rw [norm_add_sq_real, real_inner_smul_right, norm_smul, mul_pow, Real.norm_eq_abs, sq_abs, inner_sub_right,
    norm_sub_sq_real]
  rw [real_inner_comm] at h1
  rw [real_inner_comm a b, real_inner_comm d b] at h2
  have h3 : ⟪d, b⟫ - ⟪d, a⟫ ≤ -(‖b‖ ^ 2 - 2 * ⟪b, a⟫ + ‖a‖ ^ 2) := by
    rw [real_inner_comm a b]; linarith
  have h4 := mul_le_mul_of_nonneg_left h3 (mul_nonneg zero_le_two ha)
  nlinarith

/-- Convergence of the relaxed Douglas-Rachford iteration in finite dimension. -/
theorem dr_tendsto [ProperSpace E] {F J : E → E} (hF : Firm F) (hJ : Firm J) (al : ℝ) (ha : 0 < al ∧ al < 2)
    (w : ℕ → E) (hw : ∀ n, w (n + 1) = w n + al • (F ((2 : ℝ) • J (w n) - w n) - J (w n)))
    (ws : E) (hs : F ((2 : ℝ) • J ws - ws) = J ws) :
    ∃ wb, F ((2 : ℝ) • J wb - wb) = J wb ∧ Tendsto w atTop (𝓝 wb) := by
  have hdec : ∀ z, F ((2 : ℝ) • J z - z) = J z → ∀ n, ‖w (n + 1) - z‖ ^ 2 ≤
      ‖w n - z‖ ^ 2 - al * (2 - al) * ‖F ((2 : ℝ) • J (w n) - w n) - J (w n)‖ ^ 2 := by
    intro z hz n
    rw [hw]
    exact dr_step hF hJ al ha.1.le (w n) z hz
  have hc : 0 < al * (2 - al) := mul_pos ha.1 (by linarith [ha.2])
  have hanti : ∀ z, F ((2 : ℝ) • J z - z) = J z → Antitone fun n => ‖w n - z‖ ^ 2 := by
    intro z hz
    refine antitone_nat_of_succ_le fun n => ?_
    have := hdec z hz n
    have h2 := mul_nonneg hc.le (sq_nonneg ‖F ((2 : ℝ) • J (w n) - w n) - J (w n)‖)
    linarith
  -- the residual tends to zero
  have hres : Tendsto (fun n => F ((2 : ℝ) • J (w n) - w n) - J (w n)) atTop (𝓝 0) := by
    have hl := tendsto_atTop_ciInf (hanti ws hs) ⟨0, by rintro _ ⟨n, rfl⟩; positivity⟩
    have hd : Tendsto (fun n => (‖w n - ws‖ ^ 2 - ‖w (n + 1) - ws‖ ^ 2) / (al * (2 - al))) atTop (𝓝 0) := by
      have := (hl.sub ((tendsto_add_atTop_iff_nat 1).2 hl)).div_const (al * (2 - al))
      simpa using this
    have hsq : Tendsto (fun n => ‖F ((2 : ℝ) • J (w n) - w n) - J (w n)‖ ^ 2) atTop (𝓝 0) := by
      refine squeeze_zero (fun n => sq_nonneg _) (fun n => ?_) hd
      rw [le_div_iff₀ hc]
      have := hdec ws hs n
      linarith
    rw [tendsto_zero_iff_norm_tendsto_zero]
    have := (Real.continuous_sqrt.tendsto 0).comp hsq
    rw [Real.sqrt_zero] at this
    refine this.congr fun n => ?_
    exact Real.sqrt_sq (norm_nonneg _)
  -- a convergent subsequence
  have hbd : ∀ n, w n ∈ Metric.closedBall ws (‖w 0 - ws‖) := by
    intro n
    rw [mem_closedBall_iff_norm]
    have := hanti ws hs (Nat.zero_le n)
    exact (sq_le_sq₀ (norm_nonneg _) (norm_nonneg _)).1 this
  obtain ⟨wb, -, φ, hφ, hlim⟩ := (isCompact_closedBall ws (‖w 0 - ws‖)).tendsto_subseq hbd
  have hcont : Continuous fun z => F ((2 : ℝ) • J z - z) - J z :=
    (hF.continuous.comp ((hJ.continuous.const_smul (2 : ℝ)).sub continuous_id)).sub hJ.continuous
  have hfix : F ((2 : ℝ) • J wb - wb) = J wb := by
    have h1 := (hcont.tendsto wb).comp hlim
    have h2 := hres.comp hφ.tendsto_atTop
    exact sub_eq_zero.1 (tendsto_nhds_unique h1 h2)
  refine ⟨wb, hfix, ?_⟩
  have hl := tendsto_atTop_ciInf (hanti wb hfix) ⟨0, by rintro _ ⟨n, rfl⟩; positivity⟩
  have h0 : Tendsto (fun n => ‖w (φ n) - wb‖ ^ 2) atTop (𝓝 0) := by
    have := ((hlim.sub_const wb).norm.pow 2)
    simpa using this
  have he := tendsto_nhds_unique (hl.comp hφ.tendsto_atTop) h0
  rw [he] at hl
  rw [tendsto_iff_norm_sub_tendsto_zero]
  have := (Real.continuous_sqrt.tendsto 0).comp hl
  rw [Real.sqrt_zero] at this
  refine this.congr fun n => ?_
  exact Real.sqrt_sq (norm_nonneg _)

/-- The same in the variables of ADMM: `y` and `u` from any start. -/
theorem admm_firm_tendsto [ProperSpace E] {F J : E → E} (hF : Firm F) (hJ : Firm J) (al : ℝ) (ha : 0 < al ∧ al < 2)
    (x y u : ℕ → E) (hx : ∀ n, x (n + 1) = F (y n - u n))
    (hy : ∀ n, y (n + 1) = J (al • x (n + 1) + (1 - al) • y n + u n))
    (hu : ∀ n, u (n + 1) = u n + (al • x (n + 1) + (1 - al) • y n) - y (n + 1))
    (ys us : E) (h1 : F (ys - us) = ys) (h2 : J (ys + us) = ys) :
    ∃ yb ub, F (yb - ub) = yb ∧ J (yb + ub) = yb ∧ Tendsto x atTop (𝓝 yb) ∧ Tendsto y atTop (𝓝 yb) ∧
      Tendsto u atTop (𝓝 ub) := by
  have hyJ : ∀ n, J (y (n + 1) + u (n + 1)) = y (n + 1) := by
    intro n
    rw [hu, show y (n + 1) + (u n + (al • x (n + 1) + (1 - al) • y n) - y (n + 1)) =
      al • x (n + 1) + (1 - al) • y n + u n by abel, hy]
  have hw : ∀ n, y (n + 1 + 1) + u (n + 1 + 1) = (y (n + 1) + u (n + 1)) +
      al • (F ((2 : ℝ) • J (y (n + 1) + u (n + 1)) - (y (n + 1) + u (n + 1))) - J (y (n + 1) + u (n + 1))) := by
    intro n
    rw [hyJ, show (2 : ℝ) • y (n + 1) - (y (n + 1) + u (n + 1)) = y (n + 1) - u (n + 1) by module, ← hx, hu (n + 1)]
    module
  obtain ⟨wb, hb, hlim⟩ := dr_tendsto hF hJ al ha (fun n => y (n + 1) + u (n + 1)) hw (ys + us) (by
    rw [h2, show (2 : ℝ) • ys - (ys + us) = ys - us by module, h1])
  have hy' : Tendsto (fun n => y (n + 1)) atTop (𝓝 (J wb)) :=
    ((hJ.continuous.tendsto wb).comp hlim).congr fun n => hyJ n
  have hyl := (tendsto_add_atTop_iff_nat 1).1 hy'
  have hul : Tendsto u atTop (𝓝 (wb - J wb)) := by
    refine (tendsto_add_atTop_iff_nat 1).1 ((hlim.sub hy').congr fun n => ?_)
    abel
  have hb1 : F (J wb - (wb - J wb)) = J wb := by
    rw [show J wb - (wb - J wb) = (2 : ℝ) • J wb - wb by module]; exact hb
  refine ⟨J wb, wb - J wb, hb1, by rw [add_sub_cancel], ?_, hyl, hul⟩
  refine (tendsto_add_atTop_iff_nat 1).1 ?_
  have := (hF.continuous.tendsto _).comp (hyl.sub hul)
  rw [hb1] at this
  exact this.congr fun n => (hx n).symm

end Sporco.Admm
