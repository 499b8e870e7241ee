import Verif.Admm.TwoBlock
import Verif.Admm.Slater

/-!
# Two-block problems with a term in `x`

`min f(x) + g0(A0 x - c0) + g1(x)`, split as `A0 x - y0 = c0`, `x - y1 = 0`.
-/

set_option autoImplicit false
set_option linter.unusedSectionVars false

namespace Sporco.Admm

open scoped RealInnerProductSpace
open Filter Topology

variable {E F₀ H : Type*} [NormedAddCommGroup E] [InnerProductSpace ℝ E] [NormedAddCommGroup F₀]
  [InnerProductSpace ℝ F₀]

/-- The problem `min f(x) + g0(y0) + g1(y1)` subject to `A0 x - y0 = c0`, `x - y1 = 0`. -/
noncomputable def tbfProblem (A0 : E →L[ℝ] F₀) (A0T : F₀ →L[ℝ] E) (h0 : ∀ x y, ⟪A0 x, y⟫ = ⟪x, A0T y⟫)
    (c0 : F₀) (f : E → ℝ) (hf : ConvexOn ℝ Set.univ f) (g0 : F₀ → ℝ) (hg0 : ConvexOn ℝ Set.univ g0)
    (g1 : E → ℝ) (D1 : Set E) (hg1 : ConvexOn ℝ D1 g1) : Problem E (WithLp 2 (F₀ × E)) (WithLp 2 (F₀ × E)) :=
  let P := tbProblem A0 A0T h0 (ContinuousLinearMap.id ℝ E) (ContinuousLinearMap.id ℝ E) (fun _ _ => rfl) c0 0
    g0 Set.univ hg0 g1 D1 hg1
  { P with f := f, convF := hf }

variable {A0 : E →L[ℝ] F₀} {A0T : F₀ →L[ℝ] E} {h0 : ∀ x y, ⟪A0 x, y⟫ = ⟪x, A0T y⟫}
    {c0 : F₀} {f : E → ℝ} {hf : ConvexOn ℝ Set.univ f} {g0 : F₀ → ℝ} {hg0 : ConvexOn ℝ Set.univ g0}
    {g1 : E → ℝ} {D1 : Set E} {hg1 : ConvexOn ℝ D1 g1}

/-- At a minimiser there is a saddle point. -/
theorem tbf_saddle [FiniteDimensional ℝ E] [FiniteDimensional ℝ F₀] (x : E) (hx : x ∈ D1)
    (hmin : ∀ z ∈ D1, f x + g0 (A0 x - c0) + g1 x ≤ f z + g0 (A0 z - c0) + g1 z) :
    ∃ l, (tbfProblem A0 A0T h0 c0 f hf g0 hg0 g1 D1 hg1).Saddle x (TwoBlock.cat (A0 x - c0) x) l := by
  have hf1 : ConvexOn ℝ D1 f := hf.subset (Set.subset_univ _) hg1.1
  obtain ⟨l, hl⟩ := exists_multiplier A0 c0 (f + g1) D1 g0 Set.univ (hf1.add hg1) hg0
    (f x + g0 (A0 x - c0) + g1 x) (fun z hz _ => by
      have := hmin z hz
      simp only [Pi.add_apply]; linarith) x hx (by simp)
  simp only [Pi.add_apply] at hl
  have hlin : ConvexOn ℝ Set.univ fun z : E => ⟪l, A0 z⟫ :=
    (((innerSL ℝ l).comp A0).toLinearMap.convexOn convex_univ)
  obtain ⟨l1, hl1⟩ := exists_multiplier (ContinuousLinearMap.id ℝ E) 0 g1 D1 (fun z => f z + ⟪l, A0 z⟫) Set.univ hg1
    (hf.add hlin) (g1 x + (f x + ⟪l, A0 x⟫)) (fun z hz _ => by
      have := hl z hz (A0 x - c0) trivial
      rw [show A0 z - (A0 x - c0) - c0 = A0 z - A0 x by abel, inner_sub_right] at this
      simp only [ContinuousLinearMap.id_apply, sub_zero]
      linarith) x hx (by simp)
  simp only [ContinuousLinearMap.id_apply, sub_zero] at hl1
  have hA : ∀ z : E, ⟪TwoBlock.cat l (-l1), catL A0 (ContinuousLinearMap.id ℝ E) z⟫ = ⟪l, A0 z⟫ - ⟪l1, z⟫ := by
    intro z
    rw [WithLp.prod_inner_apply]
    change ⟪l, A0 z⟫ + ⟪-l1, z⟫ = _
    rw [inner_neg_left]; ring
  have hB : ∀ w : WithLp 2 (F₀ × E), ⟪TwoBlock.cat l (-l1),
      (-ContinuousLinearMap.id ℝ (WithLp 2 (F₀ × E))) w⟫ = ⟪l1, w.snd⟫ - ⟪l, w.fst⟫ := by
    intro w
    rw [WithLp.prod_inner_apply]
    change ⟪l, -w.fst⟫ + ⟪-l1, -w.snd⟫ = _
    rw [inner_neg_neg, inner_neg_right]; ring
  refine ⟨TwoBlock.cat l (-l1), trivial, ⟨trivial, hx⟩, ?_, fun z _ => ?_, fun w hw => ?_⟩
  · apply WithLp.ofLp_injective
    change (A0 x + -(A0 x - c0), x + -x) = (c0, 0)
    ext <;> simp
  · simp only [tbfProblem, tbProblem]
    rw [hA, hA]
    have := hl1 x hx z trivial
    rw [inner_sub_right] at this
    linarith
  · simp only [tbfProblem, tbProblem]
    rw [hB, hB]
    change g0 (A0 x - c0) + g1 x + (⟪l1, x⟫ - ⟪l, A0 x - c0⟫) ≤ g0 w.fst + g1 w.snd + (⟪l1, w.snd⟫ - ⟪l, w.fst⟫)
    have e1 := hl x hx w.fst trivial
    have e2 := hl1 w.snd hw.2 x trivial
    rw [inner_sub_right] at e2
    rw [show A0 x - w.fst - c0 = (A0 x - c0) - w.fst by abel, inner_sub_right] at e1
    linarith

/-- Convergence of the residuals and of the objective, and what it means for the two blocks. -/
theorem tbf_convergence {C : Cls E (WithLp 2 (F₀ × E)) (WithLp 2 (F₀ × E)) H} {Inv : ℝ → H → Prop}
    (hC : Implements C (tbfProblem A0 A0T h0 c0 f hf g0 hg0 g1 D1 hg1) Inv)
    (o : Opts) (ha : o.autoRho = false) (hrlx : 0 < o.rlx ∧ o.rlx < 2) (cb) (hcb : CallbackKeeps Inv cb)
    (s : St E (WithLp 2 (F₀ × E)) (WithLp 2 (F₀ × E)) H) (hp : 0 < s.rho) (hI : Inv s.rho s.extra)
    (xs ys l) (hsad : (tbfProblem A0 A0T h0 c0 f hf g0 hg0 g1 D1 hg1).Saddle xs ys l) :
    let T := traj C o cb s
    Tendsto (fun n => C.nrmR (T n).AXnr (T n).Y) atTop (𝓝 0) ∧
    Tendsto (fun n => C.nrmS (T n).rho (T n).Yprev (T n).Y (T n).U) atTop (𝓝 0) ∧
    Tendsto (fun n => f (T n).X + (g0 (T n).Y.fst + g1 (T n).Y.snd)) atTop
      (𝓝 (f xs + (g0 ys.fst + g1 ys.snd))) ∧
    Tendsto (fun n => A0 (T n).X - c0 - (T n).Y.fst) atTop (𝓝 0) ∧
    Tendsto (fun n => (T n).X - (T n).Y.snd) atTop (𝓝 0) ∧
    ∀ n, (T (n + 1)).Y.snd ∈ D1 := by
  intro T
  have hconv := C39_convergence C _ Inv hC o ha hrlx cb hcb s hp hI xs ys l hsad
  have hst : ∀ n, (T (n + 1)).AXnr = catL A0 (ContinuousLinearMap.id ℝ E) (T (n + 1)).X ∧
      (T (n + 1)).Y.snd ∈ D1 := by
    intro n
    have hinv := traj_inv hC o (fun h => by simp [ha] at h) cb hcb s hp hI n
    have h2 := steps_spec hC o (T n) hinv.1 hinv.2
    have h5 := oneIter_steps C o ha cb (T n)
    constructor
    · change (traj C o cb s (n + 1)).AXnr = catL A0 _ (traj C o cb s (n + 1)).X
      rw [traj_succ, h5.2.2.2.2.1, h5.1]
      exact h2.2.2.1
    · have := h2.2.2.2.2.1
      change (traj C o cb s (n + 1)).Y.snd ∈ D1
      rw [traj_succ, h5.2.1]
      exact this.2
  have hr : Tendsto (fun n => TwoBlock.cat (A0 (T (n + 1)).X - c0 - (T (n + 1)).Y.fst)
      ((T (n + 1)).X - (T (n + 1)).Y.snd)) atTop (𝓝 0) := by
    rw [tendsto_zero_iff_norm_tendsto_zero]
    have := (tendsto_add_atTop_iff_nat 1).2 hconv.1
    refine this.congr fun n => ?_
    have e1 : (traj C o cb s (n + 1)).AXnr = catL A0 _ (T (n + 1)).X := (hst n).1
    rw [hC.nrmR, e1]
    congr 1
    apply WithLp.ofLp_injective
    change (A0 (T (n + 1)).X + -(T (n + 1)).Y.fst - c0, (T (n + 1)).X + -(T (n + 1)).Y.snd - 0) =
      (A0 (T (n + 1)).X - c0 - (T (n + 1)).Y.fst, (T (n + 1)).X - (T (n + 1)).Y.snd)
    ext
    · simp only; abel
    · simp only; abel
  have hcont := (WithLp.prodContinuousLinearEquiv 2 ℝ F₀ E).continuous.tendsto
    (0 : WithLp 2 (F₀ × E))
  have hr' := (hcont.comp hr)
  rw [map_zero] at hr'
  have hr0 : Tendsto (fun n => A0 (T (n + 1)).X - c0 - (T (n + 1)).Y.fst) atTop (𝓝 0) :=
    (continuous_fst.tendsto ((0 : F₀), (0 : E))).comp hr'
  have hr1 : Tendsto (fun n => (T (n + 1)).X - (T (n + 1)).Y.snd) atTop (𝓝 0) :=
    (continuous_snd.tendsto ((0 : F₀), (0 : E))).comp hr'
  exact ⟨hconv.1, hconv.2.1, hconv.2.2, (tendsto_add_atTop_iff_nat 1).1 hr0,
    (tendsto_add_atTop_iff_nat 1).1 hr1, fun n => (hst n).2⟩

end Sporco.Admm
