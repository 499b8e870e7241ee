import Verif.Tv.Deconv

/-!
# TV deconvolution: whole runs (C40, C39, C37)
-/

set_option autoImplicit false
set_option linter.unusedSectionVars false

namespace Sporco.Tv.Dec

open Finset ComplexConjugate Sporco.Conv Sporco.Admm Sporco.Signal Filter Topology
open Sporco.Prox (IsUniqueMin)
open scoped RealInnerProductSpace

variable {d : ℕ} {N Nd : Fin d → ℕ} [∀ k, NeZero (N k)] {a : Fin d} {γ χ : Type*} [Fintype γ] [Fintype χ]

/-! ## The regulariser -/

theorem regTv_convex (lmbda : ℝ) (hl : 0 ≤ lmbda) (w : γ → Grid N → ℝ) (hw : ∀ g p, 0 ≤ w g p) :
    ConvexOn ℝ Set.univ fun v : GradD γ χ N => lmbda * regTv w v := by
  refine ⟨convex_univ, fun x _ y _ s t hs ht _ => ?_⟩
  simp only [smul_eq_mul]
  have key : regTv w (s • x + t • y) ≤ s * regTv w x + t * regTv w y := by
    rw [regTv_eq, regTv_eq, regTv_eq, mul_sum, mul_sum, ← sum_add_distrib]
    refine sum_le_sum fun g _ => ?_
    rw [mul_sum, mul_sum, ← sum_add_distrib]
    refine sum_le_sum fun p _ => ?_
    rw [slice_add, slice_smul, slice_smul]
    have := norm_add_le (s • slice x g p) (t • slice y g p)
    rw [norm_smul, norm_smul, Real.norm_of_nonneg hs, Real.norm_of_nonneg ht] at this
    have := mul_le_mul_of_nonneg_left this (hw g p)
    linarith
  have := mul_le_mul_of_nonneg_left key hl
  linarith

theorem regTv_sub (w : γ → Grid N → ℝ) (hw : ∀ g p, 0 ≤ w g p) (y z : GradD γ χ N) :
    |regTv w y - regTv w z| ≤ regTv w (y - z) := by
  rw [regTv_eq, regTv_eq, regTv_eq, ← sum_sub_distrib]
  refine (abs_sum_le_sum_abs _ _).trans (sum_le_sum fun g _ => ?_)
  rw [← sum_sub_distrib]
  refine (abs_sum_le_sum_abs _ _).trans (sum_le_sum fun p _ => ?_)
  rw [← mul_sub, abs_mul, abs_of_nonneg (hw g p), slice_sub]
  exact mul_le_mul_of_nonneg_left (abs_norm_sub_norm_le _ _) (hw g p)

theorem continuous_slice (g : γ) (p : Grid N) : Continuous fun v : GradD γ χ N => slice v g p := by
  refine (PiLp.continuous_toLp 2 _).comp (continuous_pi fun q => ?_)
  exact (EuclideanSpace.proj ((g, q.1), q.2, p)).continuous

theorem continuous_regTv (w : γ → Grid N → ℝ) : Continuous (regTv w : GradD γ χ N → ℝ) := by
  have : (regTv w : GradD γ χ N → ℝ) = fun v => ∑ g, ∑ p, w g p * ‖slice v g p‖ := funext (regTv_eq w)
  rw [this]
  exact continuous_finsetSum _ fun g _ => continuous_finsetSum _ fun p _ =>
    (continuous_slice g p).norm.const_mul _

theorem regTv_zero (w : γ → Grid N → ℝ) : regTv w (0 : GradD γ χ N) = 0 := by
  rw [regTv_eq]
  refine sum_eq_zero fun g _ => sum_eq_zero fun p _ => ?_
  rw [show slice (0 : GradD γ χ N) g p = 0 from rfl, norm_zero, mul_zero]

/-! ## `TVL2Deconv` -/

/-- The problem of `TVL2Deconv` in split form. -/
noncomputable def probL2 (A : γ × χ → NArr Nd ℝ) (S : γ × χ → Grid N → ℝ) (lmbda : ℝ) (hl : 0 ≤ lmbda)
    (w : γ → Grid N → ℝ) (hw : ∀ g p, 0 ≤ w g p) : Problem (ImgD γ χ N) (GradD γ χ N) (GradD γ χ N) :=
  splitProblem (gradL (γ := γ) (χ := χ) (N := N)) gradLT gradL_adj 0
    (fun x : ImgD γ χ N => 1 / 2 * ‖blurL A x - sigL S‖ ^ 2)
    (ls_convex (blurL (N := N) A) (sigL S)) (fun v : GradD γ χ N => lmbda * regTv w v)
    (regTv_convex lmbda hl w hw)

/-- What the solver keeps about `Xf`: nothing is needed by the updates. -/
def noInv {H : Type*} : ℝ → H → Prop := fun _ _ => True

theorem implements_L2 (hN : ∀ k, Nd k ≤ N k) (h2 : ∀ k, 2 ≤ N k) (A : γ × χ → NArr Nd ℝ)
    (hA : ∀ i, ∑ j, A i j ≠ 0) (S : γ × χ → Grid N → ℝ) (lmbda : ℝ) (hl : 0 ≤ lmbda) (w : γ → Grid N → ℝ)
    (hw : ∀ g p, 0 ≤ w g p) (ge : Bool) :
    Implements (clsL2 A S lmbda w ge : Cls _ _ _ (γ × χ → Half N a → ℂ)) (probL2 A S lmbda hl w hw) noInv := by
  have eA : cnstA (init A S : Attr γ χ N a) = gradL := funext (cnstA_eq A S)
  have eAT : cnstAT (init A S : Attr γ χ N a) = gradLT := funext (cnstAT_eq A S)
  refine ⟨fun rlx x y => ?_, fun ax y u => rfl, fun ax y => rfl, Or.inl fun rho yp y u => ?_, fun ax y => ?_,
    fun rho u hr => ?_, fun _ _ _ _ _ _ _ => trivial, fun _ _ _ _ _ _ _ _ => trivial,
    fun _ _ _ _ _ _ => trivial, fun rho X Y U h hp _ => ⟨trivial, fun z _ => ?_⟩,
    fun rho AX X Y U h hp _ => ⟨trivial, fun z _ => ?_⟩⟩
  · change relaxAX (cnstA (init A S : Attr γ χ N a)) _ _ _ _ _ = _
    rw [eA]; rfl
  · change ‖Admm.rsdlS (cnstAT (init A S : Attr γ χ N a)) _ _ _ _‖ = _
    rw [eAT]; rfl
  · exact le_max_of_le_right (norm_nonneg _)
  · exact mul_nonneg hr (norm_nonneg _)
  · have e : ∀ x : ImgD γ χ N, gradL x + (-ContinuousLinearMap.id ℝ (GradD γ χ N)) Y - 0 + U =
        gradL x - (Y - U) := by
      intro x
      change gradL x + -Y - 0 + U = _
      abel
    change 1 / 2 * ‖blurL A (xstep (init A S : Attr γ χ N a) rho X Y U h).1 - sigL S‖ ^ 2 + rho / 2 *
      ‖gradL (xstep (init A S : Attr γ χ N a) rho X Y U h).1 +
        (-ContinuousLinearMap.id ℝ (GradD γ χ N)) Y - 0 + U‖ ^ 2 ≤ 1 / 2 * ‖blurL A z - sigL S‖ ^ 2 + rho / 2 *
      ‖gradL z + (-ContinuousLinearMap.id ℝ (GradD γ χ N)) Y - 0 + U‖ ^ 2
    rw [e, e, xstep_excess A S rho (dfull_ne hN h2 A rho hp hA) Y U X h z]
    have : 0 ≤ 1 / 2 * ‖blurL A (z - (xstep (init A S : Attr γ χ N a) rho X Y U h).1)‖ ^ 2 +
      rho / 2 * ‖gradL (z - (xstep (init A S : Attr γ χ N a) rho X Y U h).1)‖ ^ 2 := by positivity
    linarith
  · have e : ∀ z : GradD γ χ N, AX + (-ContinuousLinearMap.id ℝ (GradD γ χ N)) z - 0 + U = AX + U - z := by
      intro z
      change AX + -z - 0 + U = _
      abel
    change lmbda * regTv w (proxTv lmbda rho w (AX + U)) + rho / 2 * ‖AX +
      (-ContinuousLinearMap.id ℝ (GradD γ χ N)) (proxTv lmbda rho w (AX + U)) - 0 + U‖ ^ 2 ≤
      lmbda * regTv w z + rho / 2 * ‖AX + (-ContinuousLinearMap.id ℝ (GradD γ χ N)) z - 0 + U‖ ^ 2
    rw [e, e]
    by_cases hz : z = proxTv lmbda rho w (AX + U)
    · rw [hz]
    · exact ((C40_deconv_ystep lmbda hl w hw rho hp (AX + U)).2 z trivial hz).le

theorem keeps_L2 (A : γ × χ → NArr Nd ℝ) (S : γ × χ → Grid N → ℝ) (lmbda : ℝ) (w : γ → Grid N → ℝ) (ge : Bool) :
    Keeps (clsL2 A S lmbda w ge : Cls _ _ _ (γ × χ → Half N a → ℂ)) noInv :=
  ⟨⟨fun _ _ => norm_nonneg _, fun _ _ _ _ => norm_nonneg _, fun _ _ => le_max_of_le_right (norm_nonneg _),
    fun _ _ h => mul_nonneg h (norm_nonneg _)⟩, fun _ _ _ _ _ _ _ => trivial, fun _ _ _ _ _ _ _ _ => trivial,
    fun _ _ _ _ _ _ => trivial⟩

/-- **C40.** At every iteration of every `TVL2Deconv` run, including after automatic changes of rho, the
new X is the unique minimiser of the augmented Lagrangian for the current rho, Y and U (kernels with
non-zero sum, axes of length at least two). -/
theorem C40_tvl2deconv_history_partial (hN : ∀ k, Nd k ≤ N k) (h2 : ∀ k, 2 ≤ N k) (A : γ × χ → NArr Nd ℝ)
    (hA : ∀ i, ∑ j, A i j ≠ 0) (S : γ × χ → Grid N → ℝ) (lmbda : ℝ) (w : γ → Grid N → ℝ) (ge : Bool)
    (o : Opts) (ho : o.autoRho = true → o.RhoOk) (cb)
    (s : St (ImgD γ χ N) (GradD γ χ N) (GradD γ χ N) (γ × χ → Half N a → ℂ)) (hp : 0 < s.rho) (n : ℕ) :
    let T := traj (clsL2 A S lmbda w ge) o cb s
    IsUniqueMin (augL2 A S (T n).rho (part (T n).Y) (part (T n).U)) Set.univ (img (T (n + 1)).X) := by
  obtain ⟨h1, -⟩ := traj_keeps (keeps_L2 (a := a) A S lmbda w ge) o ho cb (fun _ _ _ _ => trivial) s hp trivial n
  simp only
  rw [traj_succ, oneIter_X]
  exact C40_tvl2deconv_xstep_partial hN h2 A hA S _ h1 (traj (clsL2 A S lmbda w ge) o cb s n).X _ _
    (traj (clsL2 A S lmbda w ge) o cb s n).extra

/-- The recorded values after an iteration. -/
theorem rec_L2 (h2 : ∀ k, 2 ≤ N k) (hN : ∀ k, Nd k ≤ N k) (A : γ × χ → NArr Nd ℝ)
    (S : γ × χ → Grid N → ℝ) (lmbda : ℝ) (w : γ → Grid N → ℝ) (X : ImgD γ χ N) (Y : GradD γ χ N) :
    objfn (init A S : Attr γ χ N a) lmbda w false X Y (fun i => rfft N a (part X i ())) =
      (tvL2 A S lmbda w (img X), 1 / 2 * ∑ i, ∑ p, (filt (A i) (img X i) p - S i p) ^ 2, tv w (img X)) := by
  have hr : regTv w (cnstAf (init A S : Attr γ χ N a) fun i => rfft N a (part X i ())) = tv w (img X) := by
    have := cnstA_eq (a := a) A S X
    unfold cnstA at this
    rw [this, regTv_grad h2]
  have hd : rfl2norm2 N a (fun p : (γ × χ) × Half N a => (init A S : Attr γ χ N a).Af p.1 p.2 *
      rfft N a (part X p.1 ()) p.2 - (init A S : Attr γ χ N a).Sf p.1 p.2) / 2 =
      1 / 2 * ∑ i, ∑ p, (filt (A i) (img X i) p - S i p) ^ 2 := by
    have e : (fun p : (γ × χ) × Half N a => (init A S : Attr γ χ N a).Af p.1 p.2 *
      rfft N a (part X p.1 ()) p.2 - (init A S : Attr γ χ N a).Sf p.1 p.2) =
      fun p => rfft N a (fun q => filt (A p.1) (img X p.1) q - S p.1 q) p.2 := by
      funext ⟨i, ξ⟩
      change rf (pad N (A i)) ξ.1 * rf (part X i ()) ξ.1 - rf (S i) ξ.1 =
        rf (fun q => filt (A i) (img X i) q - S i q) ξ.1
      rw [rf_sub, ← rconv_pad hN, rf_rconv]
      rfl
    rw [e]
    have := C32_rfl2norm2 (N := N) a (fun i p => filt (A i) (img X i) p - S i p)
    rw [this]
    ring
  unfold objfn tvL2
  simp only [Bool.false_eq_true, if_false]
  rw [hd, hr]

/-- **C40.** The values that `TVL2Deconv` records in an iteration are those of its problem at the new image,
or with the regulariser evaluated at Y if `gEvalY` is set. -/
theorem C40_tvl2deconv_recorded (h2 : ∀ k, 2 ≤ N k) (hN : ∀ k, Nd k ≤ N k) (A : γ × χ → NArr Nd ℝ)
    (S : γ × χ → Grid N → ℝ) (lmbda : ℝ) (w : γ → Grid N → ℝ) (ge : Bool) (o : Opts)
    (s : St (ImgD γ χ N) (GradD γ χ N) (GradD γ χ N) (γ × χ → Half N a → ℂ)) :
    let C : Cls _ _ _ (γ × χ → Half N a → ℂ) := clsL2 A S lmbda w ge
    let t := steps C o s
    let dfd := 1 / 2 * ∑ i, ∑ p, (filt (A i) (img t.X i) p - S i p) ^ 2
    let regY := ∑ g, ∑ p, w g p * Real.sqrt (∑ c, ∑ k, part t.Y (g, c) k p ^ 2)
    C.objfn t.X t.Y t.extra = if ge then (dfd + lmbda * regY, dfd, regY)
      else (tvL2 A S lmbda w (img t.X), dfd, tv w (img t.X)) := by
  intro C t dfd regY
  have ht : t.extra = fun i => rfft N a (part t.X i ()) := xstep_extra A S s.rho s.Y s.U s.X s.extra
  have hf := rec_L2 (a := a) h2 hN A S lmbda w t.X t.Y
  rw [← ht] at hf
  change objfn (init A S : Attr γ χ N a) lmbda w ge t.X t.Y t.extra = _
  cases ge
  · rw [hf]; rfl
  · have h3 := congrArg (fun v => v.2.1) hf
    simp only at h3
    have h4 : objfn (init A S : Attr γ χ N a) lmbda w true t.X t.Y t.extra =
        ((objfn (init A S : Attr γ χ N a) lmbda w false t.X t.Y t.extra).2.1 + lmbda * regY,
        (objfn (init A S : Attr γ χ N a) lmbda w false t.X t.Y t.extra).2.1, regY) := rfl
    rw [h4, h3]
    rfl

theorem tvL2_eq (hN : ∀ k, Nd k ≤ N k) (h2 : ∀ k, 2 ≤ N k) (A : γ × χ → NArr Nd ℝ) (S : γ × χ → Grid N → ℝ)
    (lmbda : ℝ) (w : γ → Grid N → ℝ) (x : ImgD γ χ N) :
    tvL2 A S lmbda w (img x) = 1 / 2 * ‖blurL A x - sigL S‖ ^ 2 + lmbda * regTv w (gradL x - 0) := by
  rw [norm_blur hN, sub_zero, regTv_grad h2]
  rfl

/-- **C39 for `TVL2Deconv`.** With fixed rho, relaxation parameter in (0, 2) and any start, the residuals
tend to zero and the functional at the image that `solve()` returns tends to its minimum, if it has one
(kernels with non-zero sum, axes of length at least two). -/
theorem C39_tvl2deconv (hN : ∀ k, Nd k ≤ N k) (h2 : ∀ k, 2 ≤ N k) (A : γ × χ → NArr Nd ℝ)
    (hA : ∀ i, ∑ j, A i j ≠ 0) (S : γ × χ → Grid N → ℝ) (lmbda : ℝ) (hl : 0 ≤ lmbda) (w : γ → Grid N → ℝ)
    (hw : ∀ g p, 0 ≤ w g p) (ge : Bool) (o : Opts) (ha : o.autoRho = false) (hrlx : 0 < o.rlx ∧ o.rlx < 2)
    (cb) (s : St (ImgD γ χ N) (GradD γ χ N) (GradD γ χ N) (γ × χ → Half N a → ℂ)) (hp : 0 < s.rho)
    (xs : γ × χ → Grid N → ℝ) (hxs : ∀ z, tvL2 A S lmbda w xs ≤ tvL2 A S lmbda w z) :
    let C : Cls _ _ _ (γ × χ → Half N a → ℂ) := clsL2 A S lmbda w ge
    let T := traj C o cb s
    Tendsto (fun n => C.nrmR (T n).AXnr (T n).Y) atTop (𝓝 0) ∧
    Tendsto (fun n => C.nrmS (T n).rho (T n).Yprev (T n).Y (T n).U) atTop (𝓝 0) ∧
    Tendsto (fun n => tvL2 A S lmbda w (img (T n).X)) atTop (𝓝 (tvL2 A S lmbda w xs)) := by
  intro C T
  have hC := implements_L2 (a := a) hN h2 A hA S lmbda hl w hw ge
  obtain ⟨l, hsad⟩ := split_saddle (gradL (γ := γ) (χ := χ) (N := N)) gradLT gradL_adj 0
    (fun x : ImgD γ χ N => 1 / 2 * ‖blurL A x - sigL S‖ ^ 2) (ls_convex (blurL (N := N) A) (sigL S))
    (fun v : GradD γ χ N => lmbda * regTv w v) (regTv_convex lmbda hl w hw) (join fun i _ => xs i)
    (fun z => by rw [← tvL2_eq hN h2, ← tvL2_eq hN h2]; exact hxs (img z))
  have hconv := split_convergence hC (fun v => lmbda * regTv w v)
    (((continuous_regTv w).const_mul lmbda).continuousAt) (by rw [regTv_zero, mul_zero])
    (fun y z => by
      rw [← mul_sub, abs_mul, abs_of_nonneg hl]
      exact mul_le_mul_of_nonneg_left (regTv_sub w hw y z) hl)
    o ha hrlx cb (fun _ _ _ _ => trivial) s hp trivial _ _ l hsad
  obtain ⟨c1, c2, c3⟩ := hconv
  refine ⟨c1, c2, ?_⟩
  have e : tvL2 A S lmbda w xs = 1 / 2 * ‖blurL A (join fun i _ => xs i : ImgD γ χ N) - sigL S‖ ^ 2 +
      lmbda * regTv w (gradL (join fun i _ => xs i : ImgD γ χ N) - 0) := by
    rw [← tvL2_eq hN h2]; rfl
  rw [e]
  refine c3.congr fun n => ?_
  rw [tvL2_eq hN h2]

/-! ### Existence of a minimiser -/

theorem stack_bound [Nonempty (γ × χ)] (hN : ∀ k, Nd k ≤ N k) (h2 : ∀ k, 2 ≤ N k) (A : γ × χ → NArr Nd ℝ)
    (hA : ∀ i, ∑ j, A i j ≠ 0) :
    ∃ K : ℝ, 0 ≤ K ∧ ∀ x : ImgD γ χ N, ‖x‖ ≤ K * (‖gradL x‖ + ‖blurL A x‖) := by
  have hinj : Function.Injective (catL (gradL (γ := γ) (χ := χ) (N := N)) (blurL A)) := by
    intro x y hxy
    have h : catL (gradL (γ := γ) (χ := χ) (N := N)) (blurL A) (x - y) = 0 := by rw [map_sub, hxy, sub_self]
    have h1 : gradL (x - y) = 0 := congrArg WithLp.fst h
    have h3 : blurL A (x - y) = 0 := congrArg WithLp.snd h
    exact sub_eq_zero.1 (stack_inj A 1 (dfull_ne hN h2 A 1 one_pos hA) _ h3 h1)
  obtain ⟨K, hK, hant⟩ := (catL (gradL (γ := γ) (χ := χ) (N := N)) (blurL A)).toLinearMap.exists_antilipschitzWith
    (LinearMap.ker_eq_bot.2 hinj)
  refine ⟨K, K.2, fun x => ?_⟩
  have h1 := hant.le_mul_dist x 0
  rw [dist_zero_right, map_zero, dist_zero_right] at h1
  refine h1.trans (mul_le_mul_of_nonneg_left ?_ K.2)
  have h3 : ‖catL (gradL (γ := γ) (χ := χ) (N := N)) (blurL A) x‖ ^ 2 = ‖gradL x‖ ^ 2 + ‖blurL A x‖ ^ 2 :=
    WithLp.prod_norm_sq_eq_of_L2 _
  have h4 : ‖catL (gradL (γ := γ) (χ := χ) (N := N)) (blurL A) x‖ ^ 2 ≤ (‖gradL x‖ + ‖blurL A x‖) ^ 2 := by
    rw [h3]; nlinarith [norm_nonneg (gradL x), norm_nonneg (blurL A x)]
  exact le_of_sq_le_sq h4 (by positivity)

/-- A continuous function bounded below by the norm has a minimiser. -/
theorem exists_min_of_growth {E : Type*} [NormedAddCommGroup E] [InnerProductSpace ℝ E] [FiniteDimensional ℝ E]
    (f : E → ℝ) (hf : Continuous f) (B : ℝ → ℝ) (hb : ∀ x M, f x ≤ M → ‖x‖ ≤ B M) : ∃ x, ∀ z, f x ≤ f z := by
  have : ProperSpace E := FiniteDimensional.proper ℝ E
  obtain ⟨x, -, hmin⟩ := (isCompact_closedBall (0 : E) (B (f 0))).exists_isMinOn
    ⟨0, mem_closedBall_zero_iff.2 (hb 0 _ le_rfl)⟩ hf.continuousOn
  refine ⟨x, fun z => ?_⟩
  by_cases h : f z ≤ f 0
  · exact hmin (mem_closedBall_zero_iff.2 (hb z _ h))
  · push Not at h
    exact (hmin (mem_closedBall_zero_iff.2 (hb 0 _ le_rfl))).trans h.le

theorem norm_le_sum_slices (v : GradD γ χ N) : ‖v‖ ≤ ∑ g, ∑ p, ‖slice v g p‖ := by
  have h0 : (0 : ℝ) ≤ ∑ s : γ × Grid N, ‖slice v s.1 s.2‖ := sum_nonneg fun _ _ => norm_nonneg _
  have e : ∑ g, ∑ p, ‖slice v g p‖ = ∑ s : γ × Grid N, ‖slice v s.1 s.2‖ := by rw [Fintype.sum_prod_type]
  rw [e]
  refine le_of_sq_le_sq ?_ h0
  rw [norm_slices, sq, sum_mul]
  refine sum_le_sum fun s hs => ?_
  rw [sq]
  exact mul_le_mul_of_nonneg_left (single_le_sum (f := fun s : γ × Grid N => ‖slice v s.1 s.2‖)
    (fun _ _ => norm_nonneg _) hs) (norm_nonneg _)

theorem regTv_growth (w : γ → Grid N → ℝ) (w0 : ℝ) (hw : ∀ g p, w0 ≤ w g p) (v : GradD γ χ N) (h0 : 0 ≤ w0) :
    w0 * ‖v‖ ≤ regTv w v := by
  refine (mul_le_mul_of_nonneg_left (norm_le_sum_slices v) h0).trans ?_
  rw [regTv_eq, mul_sum]
  refine sum_le_sum fun g _ => ?_
  rw [mul_sum]
  exact sum_le_sum fun p _ => mul_le_mul_of_nonneg_right (hw g p) (norm_nonneg _)

theorem min_weight {ι : Type*} [Fintype ι] (w : ι → ℝ) (hw : ∀ i, 0 < w i) : ∃ w0, 0 < w0 ∧ ∀ i, w0 ≤ w i := by
  cases isEmpty_or_nonempty ι with
  | inl h => exact ⟨1, one_pos, fun i => (h.false i).elim⟩
  | inr h =>
    obtain ⟨i, hi⟩ := Finite.exists_min w
    exact ⟨w i, hw i, hi⟩

/-- **C39.** With a positive parameter and positive weights the problem of `TVL2Deconv` has a solution, so
the hypothesis of `C39_tvl2deconv` is met. -/
theorem C39_tvl2deconv_exists (hN : ∀ k, Nd k ≤ N k) (h2 : ∀ k, 2 ≤ N k) (A : γ × χ → NArr Nd ℝ)
    (hA : ∀ i, ∑ j, A i j ≠ 0) (S : γ × χ → Grid N → ℝ) (lmbda : ℝ) (hl : 0 < lmbda) (w : γ → Grid N → ℝ)
    (hw : ∀ g p, 0 < w g p) : ∃ xs, ∀ z, tvL2 A S lmbda w xs ≤ tvL2 A S lmbda w z := by
  cases isEmpty_or_nonempty (γ × χ) with
  | inl h => exact ⟨fun i => (h.false i).elim, fun z => le_of_eq (by congr 1; funext i; exact (h.false i).elim)⟩
  | inr h =>
  obtain ⟨K, hK, hb⟩ := stack_bound hN h2 A hA
  obtain ⟨w0, hw0, hww⟩ := min_weight (fun s : γ × Grid N => w s.1 s.2) fun s => hw _ _
  obtain ⟨x, hx⟩ := exists_min_of_growth (fun x : ImgD γ χ N => tvL2 A S lmbda w (img x)) (by
      simp only [tvL2_eq hN h2]
      exact ((((blurL A).continuous.sub continuous_const).norm.pow 2).const_mul _).add
        (((continuous_regTv w).comp (gradL.continuous.sub continuous_const)).const_mul _))
    (fun M => K * (M / (lmbda * w0) + (‖sigL S‖ + Real.sqrt (2 * M)))) (fun x M hM => by
      simp only [tvL2_eq hN h2] at hM
      rw [sub_zero] at hM
      have hg := regTv_growth w w0 (fun g p => hww (g, p)) (gradL x) hw0.le
      have hgl := mul_le_mul_of_nonneg_left hg hl.le
      have n1 : 0 ≤ lmbda * (w0 * ‖gradL x‖) := by positivity
      have n2 : 0 ≤ 1 / 2 * ‖blurL A x - sigL S‖ ^ 2 := by positivity
      refine (hb x).trans (mul_le_mul_of_nonneg_left (add_le_add ?_ ?_) hK)
      · rw [le_div_iff₀ (by positivity)]
        linarith
      · have h3 : ‖blurL A x - sigL S‖ ≤ Real.sqrt (2 * M) := Real.le_sqrt_of_sq_le (by linarith)
        have h4 := norm_add_le (blurL A x - sigL S) (sigL S)
        rw [sub_add_cancel] at h4
        linarith)
  exact ⟨img x, fun z => hx (join fun i _ => z i)⟩

end Sporco.Tv.Dec
