import Verif.Tv.DeconvConv
import Verif.Admm.BpdnConv

/-!
# `TVL1Deconv`: whole runs (C40, C39, C37)
-/

set_option autoImplicit false
set_option linter.unusedSectionVars false

namespace Sporco.Tv.Dec

open Finset ComplexConjugate Sporco.Conv Sporco.Admm Sporco.Signal Filter Topology
open Sporco.Prox (IsUniqueMin l1w proxL1Arr)
open scoped RealInnerProductSpace

variable {d : ℕ} {N Nd : Fin d → ℕ} [∀ k, NeZero (N k)] {a : Fin d} {γ χ : Type*} [Fintype γ] [Fintype χ]

/-- The data fidelity weights as an array of the shape of the last component of Y. -/
def wdA (wd : γ × χ → Grid N → ℝ) (j : (γ × χ) × Unit × Grid N) : ℝ := wd j.1 j.2.2

theorem l1w_wd (wd : γ × χ → Grid N → ℝ) (y : ImgD γ χ N) :
    l1w (wdA wd) y.ofLp = ∑ i, ∑ p, wd i p * |part y i () p| := by
  unfold l1w
  rw [Fintype.sum_prod_type]
  refine sum_congr rfl fun i _ => ?_
  rw [Fintype.sum_prod_type, sum_unit]
  rfl

theorem cnstA1_eq (A : γ × χ → NArr Nd ℝ) (S : γ × χ → Grid N → ℝ) (X : ImgD γ χ N) :
    cnstA1 (init A S : Attr γ χ N a) X = catL gradL (blurL A) X := by
  apply WithLp.ofLp_injective
  refine Prod.ext (cnstA_eq A S X) ?_
  ext ⟨i, u, p⟩
  exact congrFun (irfft_mul (a := a) (pad N (A i)) (part X i ())) p

theorem cnstAT1_eq (A : γ × χ → NArr Nd ℝ) (S : γ × χ → Grid N → ℝ) (Y : Y1 γ χ N) :
    cnstAT1 (init A S : Attr γ χ N a) Y = catLT gradLT (blurLT A) Y := by
  have h1 := cnstAT_eq (a := a) A S Y.fst
  have e : catLT gradLT (blurLT A) Y = gradLT Y.fst + blurLT A Y.snd := rfl
  rw [e, ← h1]
  ext ⟨i, u, p⟩
  have h3 := congrFun (irfft_conj_mul (a := a) (pad N (A i)) (part Y.snd i ())) p
  have h4 : part (blurLT A Y.snd) i u p = rcorr (pad N (A i)) (part Y.snd i ()) p := by
    unfold blurLT
    rw [part_stkT]
    beta_reduce
    rw [sum_unit]
  change _ + _ = part (cnstAT (init A S : Attr γ χ N a) Y.fst) i u p + part (blurLT A Y.snd) i u p
  rw [h4, ← h3]
  rfl

/-- The l1 block of the Y update. -/
theorem ystep1_l1 (wd : γ × χ → Grid N → ℝ) (hwd : ∀ i p, 0 ≤ wd i p) (rho : ℝ) (hp : 0 < rho) (v z : ImgD γ χ N) :
    let y : ImgD γ χ N := WithLp.toLp 2 (proxL1Arr v.ofLp fun j => 1 / rho * wd j.1 j.2.2)
    l1w (wdA wd) y.ofLp + rho / 2 * ‖v - y‖ ^ 2 ≤ l1w (wdA wd) z.ofLp + rho / 2 * ‖v - z‖ ^ 2 := by
  intro y
  have key := Prox.C15_prox_l1_real v.ofLp (fun j => 1 / rho * wd j.1 j.2.2)
    (fun j => mul_nonneg (by positivity) (hwd _ _))
  have hval : ∀ z : ImgD γ χ N, l1w (wdA wd) z.ofLp + rho / 2 * ‖v - z‖ ^ 2 =
      rho * Prox.proxObj (l1w fun j => 1 / rho * wd j.1 j.2.2) v.ofLp z.ofLp := by
    intro z
    have e1 : l1w (fun j => 1 / rho * wd j.1 j.2.2) z.ofLp = 1 / rho * l1w (wdA wd) z.ofLp := by
      unfold l1w
      rw [mul_sum]
      exact sum_congr rfl fun j _ => by rw [mul_assoc]; rfl
    have e2 : Prox.sq (z.ofLp - v.ofLp) = ‖v - z‖ ^ 2 := by
      rw [norm_sub_rev, EuclideanSpace.norm_sq_eq]; rfl
    unfold Prox.proxObj
    rw [e1, e2]
    field_simp
    ring
  rw [hval, hval]
  by_cases h : z.ofLp = proxL1Arr v.ofLp fun j => 1 / rho * wd j.1 j.2.2
  · rw [h]
  · exact mul_le_mul_of_nonneg_left (key.2 z.ofLp trivial h).le hp.le

theorem exact_L1 (hN : ∀ k, Nd k ≤ N k) (h2 : ∀ k, 2 ≤ N k) (A : γ × χ → NArr Nd ℝ)
    (hA : ∀ i, ∑ j, A i j ≠ 0) (S : γ × χ → Grid N → ℝ) (lmbda : ℝ) (hl : 0 ≤ lmbda)
    (wd : γ × χ → Grid N → ℝ) (hwd : ∀ i p, 0 ≤ wd i p) (w : γ → Grid N → ℝ)
    (hw : ∀ g p, 0 ≤ w g p) (ge : Bool) :
    TbExact (clsL1 A S lmbda wd w ge : Cls _ _ _ (γ × χ → Half N a → ℂ)) gradL gradLT (blurL A) (blurLT A) 0
      (sigL S) (fun v => lmbda * regTv w v) Set.univ (fun y => l1w (wdA wd) y.ofLp) Set.univ noInv := by
  have eA : cnstA1 (init A S : Attr γ χ N a) = catL gradL (blurL A) := funext (cnstA1_eq A S)
  have eAT : cnstAT1 (init A S : Attr γ χ N a) = catLT gradLT (blurLT A) := funext (cnstAT1_eq A S)
  have t := fun (rho rlx : ℝ) (X : ImgD γ χ N) (Y Yp AX U : Y1 γ χ N) =>
    C37_twoblock gradL (blurL A) (gradLT (γ := γ) (χ := χ) (N := N)).toLinearMap
      (blurLT (N := N) A).toLinearMap 0 (sigL S) rho rlx X Y Yp AX U
  refine ⟨fun rlx x y => ?_, fun ax y u => ?_, fun ax y => ?_, fun rho yp y u => ?_, fun ax y => ?_,
    fun rho u hr => mul_nonneg hr (norm_nonneg _), fun _ _ _ _ _ _ _ => trivial,
    fun _ _ _ _ _ _ _ _ => trivial, fun _ _ _ _ _ _ => trivial, fun rho X Y U h hp _ z => ?_,
    fun rho AX X Y U h hp _ => ⟨trivial, fun z _ => ?_⟩, fun rho AX X Y U h hp _ => ⟨trivial, fun z _ => ?_⟩⟩
  · rw [(t 0 rlx x y 0 0 0).2.2.2.2.1]
    change relaxAX (cnstA1 (init A S : Attr γ χ N a)) _ _ _ _ _ = _
    rw [eA]; rfl
  · rw [(t 0 0 0 y 0 ax u).2.2.2.2.2]; rfl
  · rw [(t 0 0 0 y 0 ax 0).1]; rfl
  · change ‖rho * ‖cnstAT1 (init A S : Attr γ χ N a) u‖‖ = _
    rw [eAT, norm_mul, norm_norm, norm_smul]
    rfl
  · exact le_max_of_le_right (norm_nonneg _)
  · have := xstep1_excess A S rho (dfull_ne hN h2 A 1 one_pos hA) Y U X h z
    simp only at this
    rw [add_zero]
    change ‖gradL (xstep1 (init A S : Attr γ χ N a) rho X Y U h).1 - _‖ ^ 2 +
      ‖blurL A (xstep1 (init A S : Attr γ χ N a) rho X Y U h).1 - _‖ ^ 2 ≤ _
    rw [this]
    have : 0 ≤ 2 * (1 / 2 * ‖blurL A (z - (xstep1 (init A S : Attr γ χ N a) rho X Y U h).1)‖ ^ 2 +
      1 / 2 * ‖gradL (z - (xstep1 (init A S : Attr γ χ N a) rho X Y U h).1)‖ ^ 2) := by positivity
    linarith
  · rw [sub_zero]
    change lmbda * regTv w (proxTv lmbda rho w (AX.fst + U.fst)) + rho / 2 * ‖AX.fst + U.fst -
      proxTv lmbda rho w (AX.fst + U.fst)‖ ^ 2 ≤ _
    by_cases hz : z = proxTv lmbda rho w (AX.fst + U.fst)
    · rw [hz]
    · exact ((C40_deconv_ystep lmbda hl w hw rho hp (AX.fst + U.fst)).2 z trivial hz).le
  · exact ystep1_l1 wd hwd rho hp (AX.snd + U.snd - sigL S) z

theorem l1_convex (wd : γ × χ → Grid N → ℝ) (hwd : ∀ i p, 0 ≤ wd i p) :
    ConvexOn ℝ Set.univ fun y : ImgD γ χ N => l1w (wdA wd) y.ofLp := by
  have := Bpdn.convex_l1w (wdA wd) (fun j => hwd _ _) Set.univ convex_univ 1 zero_le_one
  simpa only [one_mul] using this

/-- **C40.** At every iteration of every `TVL1Deconv` run, including after automatic changes of rho, the
new X is the unique minimiser of the augmented Lagrangian for the current rho, Y and U (kernels with
non-zero sum, axes of length at least two). -/
theorem C40_tvl1deconv_history_partial (hN : ∀ k, Nd k ≤ N k) (h2 : ∀ k, 2 ≤ N k) (A : γ × χ → NArr Nd ℝ)
    (hA : ∀ i, ∑ j, A i j ≠ 0) (S : γ × χ → Grid N → ℝ) (lmbda : ℝ) (wd : γ × χ → Grid N → ℝ)
    (w : γ → Grid N → ℝ) (ge : Bool) (o : Opts) (ho : o.autoRho = true → o.RhoOk) (cb)
    (s : St (ImgD γ χ N) (Y1 γ χ N) (Y1 γ χ N) (γ × χ → Half N a → ℂ)) (hp : 0 < s.rho) (n : ℕ) :
    let T := traj (clsL1 A S lmbda wd w ge) o cb s
    IsUniqueMin (augL1 A S (T n).rho (part (T n).Y.fst) (part (T n).U.fst) (img (T n).Y.snd)
      (img (T n).U.snd)) Set.univ (img (T (n + 1)).X) := by
  have hk : Keeps (clsL1 A S lmbda wd w ge : Cls _ _ _ (γ × χ → Half N a → ℂ)) noInv :=
    ⟨⟨fun _ _ => norm_nonneg _, fun _ _ _ _ => norm_nonneg _, fun _ _ => le_max_of_le_right (norm_nonneg _),
    fun _ _ h => mul_nonneg h (norm_nonneg _)⟩, fun _ _ _ _ _ _ _ => trivial, fun _ _ _ _ _ _ _ _ => trivial,
    fun _ _ _ _ _ _ => trivial⟩
  obtain ⟨h1, -⟩ := traj_keeps hk o ho cb (fun _ _ _ _ => trivial) s hp trivial n
  simp only
  rw [traj_succ, oneIter_X]
  exact C40_tvl1deconv_xstep_partial hN h2 A hA S _ h1 (traj (clsL1 A S lmbda wd w ge) o cb s n).X _ _
    (traj (clsL1 A S lmbda wd w ge) o cb s n).extra

theorem tvL1_eq (hN : ∀ k, Nd k ≤ N k) (h2 : ∀ k, 2 ≤ N k) (A : γ × χ → NArr Nd ℝ) (S : γ × χ → Grid N → ℝ)
    (lmbda : ℝ) (wd : γ × χ → Grid N → ℝ) (w : γ → Grid N → ℝ) (x : ImgD γ χ N) :
    tvL1 A S lmbda wd w (img x) =
      lmbda * regTv w (gradL x - 0) + l1w (wdA wd) (blurL A x - sigL S).ofLp := by
  rw [l1w_wd, sub_zero, regTv_grad h2, add_comm]
  unfold tvL1
  congr 1
  refine sum_congr rfl fun i _ => sum_congr rfl fun p _ => ?_
  change _ = wd i p * |part (blurL A x) i () p - S i p|
  rw [part_blur hN]

/-- **C40.** The values that `TVL1Deconv` records in an iteration are those of its problem at the new image,
or at the components of Y if `gEvalY` is set. -/
theorem C40_tvl1deconv_recorded (h2 : ∀ k, 2 ≤ N k) (hN : ∀ k, Nd k ≤ N k) (A : γ × χ → NArr Nd ℝ)
    (S : γ × χ → Grid N → ℝ) (lmbda : ℝ) (wd : γ × χ → Grid N → ℝ) (w : γ → Grid N → ℝ) (ge : Bool) (o : Opts)
    (s : St (ImgD γ χ N) (Y1 γ χ N) (Y1 γ χ N) (γ × χ → Half N a → ℂ)) :
    let C : Cls _ _ _ (γ × χ → Half N a → ℂ) := clsL1 A S lmbda wd w ge
    let t := steps C o s
    let dfdY := ∑ i, ∑ p, wd i p * |img t.Y.snd i p|
    let regY := ∑ g, ∑ p, w g p * Real.sqrt (∑ c, ∑ k, part t.Y.fst (g, c) k p ^ 2)
    C.objfn t.X t.Y t.extra = if ge then (dfdY + lmbda * regY, dfdY, regY)
      else (tvL1 A S lmbda wd w (img t.X), ∑ i, ∑ p, wd i p * |filt (A i) (img t.X i) p - S i p|,
        tv w (img t.X)) := by
  intro C t dfdY regY
  have ht : t.extra = fun i => rfft N a (part t.X i ()) := by
    have := xstep_extra (a := a) A (fun i p => S i p + part (s.Y.snd - s.U.snd) i () p) 1 s.Y.fst s.U.fst s.X s.extra
    rw [← xstep1_eq A S s.rho] at this
    exact this
  change objfn1 (init A S : Attr γ χ N a) S lmbda wd w ge t.X t.Y t.extra = _
  cases ge
  · have e : cnstA1f (init A S : Attr γ χ N a) t.extra = catL gradL (blurL A) t.X := by
      rw [ht]; exact cnstA1_eq A S t.X
    have hr : regTv w (cnstA1f (init A S : Attr γ χ N a) t.extra - cnstC1 S).fst = tv w (img t.X) := by
      rw [e, ← regTv_grad h2]
      change regTv w (gradL t.X - 0) = _
      rw [sub_zero]
    have hd : ∑ i, ∑ p, wd i p * |part (cnstA1f (init A S : Attr γ χ N a) t.extra - cnstC1 S).snd i () p| =
        ∑ i, ∑ p, wd i p * |filt (A i) (img t.X i) p - S i p| := by
      rw [e]
      refine sum_congr rfl fun i _ => sum_congr rfl fun p _ => ?_
      change wd i p * |part (blurL A t.X) i () p - S i p| = _
      rw [part_blur hN]
    unfold objfn1 tvL1
    simp only [Bool.false_eq_true, if_false]
    rw [hd, hr]
  · rfl

theorem gradient_adj1 (A : γ × χ → NArr Nd ℝ) (x : ImgD γ χ N) (y : Y1 γ χ N) :
    ⟪catL (gradL (γ := γ) (χ := χ) (N := N)) (blurL (N := N) A) x, y⟫ =
      ⟪x, catLT (gradLT (γ := γ) (χ := χ) (N := N)) (blurLT (N := N) A) y⟫ :=
  catL_adj (gradL (γ := γ) (χ := χ) (N := N)) gradLT gradL_adj (blurL (N := N) A) (blurLT A) (blurL_adj A) x y

theorem l1w_sub {ι : Type*} [Fintype ι] (w : ι → ℝ) (hw : ∀ i, 0 ≤ w i) (x y : ι → ℝ) :
    |l1w w x - l1w w y| ≤ l1w w (x - y) := by
  unfold l1w
  rw [← sum_sub_distrib]
  refine (abs_sum_le_sum_abs _ _).trans (sum_le_sum fun i _ => ?_)
  rw [← mul_sub, abs_mul, abs_of_nonneg (hw i)]
  exact mul_le_mul_of_nonneg_left (abs_norm_sub_norm_le _ _) (hw i)

theorem continuous_l1 (wd : γ × χ → Grid N → ℝ) : Continuous fun y : ImgD γ χ N => l1w (wdA wd) y.ofLp := by
  unfold l1w
  fun_prop

/-- **C39 for `TVL1Deconv`.** With fixed rho, relaxation parameter in (0, 2) and any start, the residuals
tend to zero and the functional at the image that `solve()` returns tends to its minimum, if it has one
(kernels with non-zero sum, axes of length at least two). -/
theorem C39_tvl1deconv (hN : ∀ k, Nd k ≤ N k) (h2 : ∀ k, 2 ≤ N k) (A : γ × χ → NArr Nd ℝ)
    (hA : ∀ i, ∑ j, A i j ≠ 0) (S : γ × χ → Grid N → ℝ) (lmbda : ℝ) (hl : 0 ≤ lmbda)
    (wd : γ × χ → Grid N → ℝ) (hwd : ∀ i p, 0 ≤ wd i p) (w : γ → Grid N → ℝ)
    (hw : ∀ g p, 0 ≤ w g p) (ge : Bool) (o : Opts) (ha : o.autoRho = false) (hrlx : 0 < o.rlx ∧ o.rlx < 2)
    (cb) (s : St (ImgD γ χ N) (Y1 γ χ N) (Y1 γ χ N) (γ × χ → Half N a → ℂ)) (hp : 0 < s.rho)
    (xs : γ × χ → Grid N → ℝ) (hxs : ∀ z, tvL1 A S lmbda wd w xs ≤ tvL1 A S lmbda wd w z) :
    let C : Cls _ _ _ (γ × χ → Half N a → ℂ) := clsL1 A S lmbda wd w ge
    let T := traj C o cb s
    Tendsto (fun n => C.nrmR (T n).AXnr (T n).Y) atTop (𝓝 0) ∧
    Tendsto (fun n => C.nrmS (T n).rho (T n).Yprev (T n).Y (T n).U) atTop (𝓝 0) ∧
    Tendsto (fun n => tvL1 A S lmbda wd w (img (T n).X)) atTop (𝓝 (tvL1 A S lmbda wd w xs)) := by
  intro C T
  have e0 : ∀ z : ImgD γ χ N, lmbda * regTv w (gradL z - 0) + l1w (wdA wd) (blurL A z - sigL S).ofLp =
      tvL1 A S lmbda wd w (img z) := fun z => (tvL1_eq hN h2 A S lmbda wd w z).symm
  have ez : l1w (wdA wd) (0 : ImgD γ χ N).ofLp = 0 :=
    sum_eq_zero fun j _ => by change wdA wd j * ‖(0 : ℝ)‖ = 0; rw [norm_zero, mul_zero]
  have := (exact_L1 (a := a) hN h2 A hA S lmbda hl wd hwd w hw ge).convergence_at_x gradL_adj (blurL_adj A)
    (regTv_convex (χ := χ) lmbda hl w hw) (l1_convex wd hwd)
    (fun v => lmbda * regTv w v) ((continuous_regTv w).const_mul lmbda).continuousAt
    (by rw [regTv_zero, mul_zero])
    (fun y z => by
      rw [← mul_sub, abs_mul, abs_of_nonneg hl]
      exact mul_le_mul_of_nonneg_left (regTv_sub w hw y z) hl)
    (fun v => l1w (wdA wd) v.ofLp) (continuous_l1 wd).continuousAt ez
    (fun y z => l1w_sub (wdA wd) (fun j => hwd _ _) y.ofLp z.ofLp)
    o ha hrlx cb (fun _ _ _ _ => trivial) s hp trivial (join fun i _ => xs i)
    (fun z => by rw [e0, e0]; exact hxs (img z))
  simp only [e0] at this
  exact this

/-- **C39.** With positive parameter and weights the problem of `TVL1Deconv` has a solution, so the
hypothesis of `C39_tvl1deconv` is met. -/
theorem C39_tvl1deconv_exists (hN : ∀ k, Nd k ≤ N k) (h2 : ∀ k, 2 ≤ N k) (A : γ × χ → NArr Nd ℝ)
    (hA : ∀ i, ∑ j, A i j ≠ 0) (S : γ × χ → Grid N → ℝ) (lmbda : ℝ) (hl : 0 < lmbda)
    (wd : γ × χ → Grid N → ℝ) (hwd : ∀ i p, 0 < wd i p) (w : γ → Grid N → ℝ)
    (hw : ∀ g p, 0 < w g p) : ∃ xs, ∀ z, tvL1 A S lmbda wd w xs ≤ tvL1 A S lmbda wd w z := by
  cases isEmpty_or_nonempty (γ × χ) with
  | inl h => exact ⟨fun i => (h.false i).elim, fun z => le_of_eq (by congr 1; funext i; exact (h.false i).elim)⟩
  | inr h =>
  obtain ⟨K, hK, hb⟩ := stack_bound hN h2 A hA
  obtain ⟨w0, hw0, hww⟩ := min_weight (fun s : γ × Grid N => w s.1 s.2) fun s => hw _ _
  obtain ⟨w1, hw1, hww1⟩ := min_weight (fun j : (γ × χ) × Unit × Grid N => wdA wd j) fun j => hwd _ _
  obtain ⟨x, hx⟩ := exists_min_of_growth (fun x : ImgD γ χ N => tvL1 A S lmbda wd w (img x)) (by
      simp only [tvL1_eq hN h2]
      exact (((continuous_regTv w).comp (gradL.continuous.sub continuous_const)).const_mul _).add
        ((continuous_l1 wd).comp ((blurL A).continuous.sub continuous_const)))
    (fun M => K * (M / (lmbda * w0) + (‖sigL S‖ + M / w1))) (fun x M hM => by
      simp only [tvL1_eq hN h2] at hM
      rw [sub_zero] at hM
      have hg := regTv_growth w w0 (fun g p => hww (g, p)) (gradL x) hw0.le
      have hgl := mul_le_mul_of_nonneg_left hg hl.le
      have hl1 : w1 * ‖blurL A x - sigL S‖ ≤ l1w (wdA wd) (blurL A x - sigL S).ofLp := by
        have n1 : ‖blurL A x - sigL S‖ ≤ ∑ j, ‖(blurL A x - sigL S).ofLp j‖ := by
          refine le_of_sq_le_sq ?_ (sum_nonneg fun _ _ => norm_nonneg _)
          rw [EuclideanSpace.norm_sq_eq, sq (∑ j, _), sum_mul]
          refine sum_le_sum fun j hj => ?_
          rw [sq]
          exact mul_le_mul_of_nonneg_left (single_le_sum (f := fun j => ‖(blurL A x - sigL S).ofLp j‖)
            (fun _ _ => norm_nonneg _) hj) (norm_nonneg _)
        refine (mul_le_mul_of_nonneg_left n1 hw1.le).trans ?_
        unfold l1w
        rw [mul_sum]
        exact sum_le_sum fun j _ => mul_le_mul_of_nonneg_right (hww1 j) (norm_nonneg _)
      have n1 : 0 ≤ lmbda * (w0 * ‖gradL x‖) := by positivity
      have n2 : 0 ≤ w1 * ‖blurL A x - sigL S‖ := by positivity
      refine (hb x).trans (mul_le_mul_of_nonneg_left (add_le_add ?_ ?_) hK)
      · rw [le_div_iff₀ (by positivity)]
        linarith
      · have h3 : ‖blurL A x - sigL S‖ ≤ M / w1 := by
          rw [le_div_iff₀ hw1]
          linarith
        have h4 := norm_add_le (blurL A x - sigL S) (sigL S)
        rw [sub_add_cancel] at h4
        linarith)
  exact ⟨img x, fun z => hx (join fun i _ => z i)⟩

/-- **C37.** The dual residual that `TVL1Deconv` records is the norm of `ρ Aᵀ u` for the operator of the
constraint, and without relaxation it is that of the generic class, for every state (kernels with non-zero
sum, axes of length at least two).  `Y'` is any array in place of the result of the Y update. -/
theorem C37_tvl1deconv_dual_partial (hN : ∀ k, Nd k ≤ N k) (h2 : ∀ k, 2 ≤ N k) (A : γ × χ → NArr Nd ℝ)
    (hA : ∀ i, ∑ j, A i j ≠ 0) (S : γ × χ → Grid N → ℝ) (lmbda : ℝ) (hl : 0 ≤ lmbda)
    (wd : γ × χ → Grid N → ℝ) (hwd : ∀ i p, 0 ≤ wd i p) (w : γ → Grid N → ℝ)
    (hw : ∀ g p, 0 ≤ w g p) (ge : Bool) (rho : ℝ) (hp : 0 < rho) (X0 : ImgD γ χ N) (Y U Y' : Y1 γ χ N)
    (e : γ × χ → Half N a → ℂ) :
    let C : Cls _ _ _ (γ × χ → Half N a → ℂ) := clsL1 A S lmbda wd w ge
    let q : Attr γ χ N a := init A S
    let X := (C.xstep rho X0 Y U e).1
    let U' := C.ustep (C.relax 1 X Y).1 Y' U
    C.nrmS rho Y Y' U' = ‖rsdlS (cnstAT1 q) (fun y => -y) rho Y Y'‖ ∧
    ∀ x y, ⟪cnstA1 q x, y⟫ = ⟪x, cnstAT1 q y⟫ := by
  intro C q X U'
  constructor
  · have := (C37_twoblock_dual_partial (exact_L1 (a := a) hN h2 A hA S lmbda hl wd hwd w hw ge) gradL_adj
      (blurL_adj A) rho 1 hp X0 Y U Y' e trivial).2 rfl
    change C.nrmS rho Y Y' U' = _ at this
    rw [this]
    have eAT : cnstAT1 q = catLT gradLT (blurLT A) := funext (cnstAT1_eq A S)
    rw [eAT]
    rfl
  · intro x y
    rw [cnstA1_eq, cnstAT1_eq]
    exact gradient_adj1 A x y

end Sporco.Tv.Dec
