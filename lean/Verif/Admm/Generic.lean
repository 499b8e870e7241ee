import Verif.Admm.Optimal
import Verif.Admm.Slater
import Verif.Admm.TwoBlock

/-!
# Convergence of the objective at X for problems `min f(x) + g(A x - c)`
-/

set_option autoImplicit false
set_option linter.unusedSectionVars false

namespace Sporco.Admm

open scoped RealInnerProductSpace
open Filter Topology

variable {E F H : Type*} [NormedAddCommGroup E] [InnerProductSpace ℝ E] [NormedAddCommGroup F]
  [InnerProductSpace ℝ F]

/-- The problem `min f(x) + g(y)` subject to `A x - y = c`. -/
noncomputable def splitProblem (A : E →L[ℝ] F) (AT : F →L[ℝ] E) (hA : ∀ x y, ⟪A x, y⟫ = ⟪x, AT y⟫) (c : F)
    (f : E → ℝ) (hf : ConvexOn ℝ Set.univ f) (g : F → ℝ) (hg : ConvexOn ℝ Set.univ g) : Problem E F F :=
  ⟨A, AT, -ContinuousLinearMap.id ℝ F, c, f, Set.univ, g, Set.univ, hA, hf, hg⟩

/-- At a minimiser there is a multiplier. -/
theorem split_saddle [FiniteDimensional ℝ F] (A : E →L[ℝ] F) (AT : F →L[ℝ] E)
    (hA : ∀ x y, ⟪A x, y⟫ = ⟪x, AT y⟫) (c : F)
    (f : E → ℝ) (hf : ConvexOn ℝ Set.univ f) (g : F → ℝ) (hg : ConvexOn ℝ Set.univ g) (x : E)
    (hx : ∀ z, f x + g (A x - c) ≤ f z + g (A z - c)) :
    ∃ l, (splitProblem A AT hA c f hf g hg).Saddle x (A x - c) l := by
  obtain ⟨l, hl⟩ := exists_multiplier A c f Set.univ g Set.univ hf hg (f x + g (A x - c))
    (fun z _ _ => hx z) x trivial (by rw [interior_univ]; trivial)
  refine ⟨l, trivial, trivial, ?_, fun z _ => ?_, fun w _ => ?_⟩
  · change A x + -(A x - c) = c
    abel
  · have := hl z trivial (A x - c) trivial
    have e : ⟪l, A z - (A x - c) - c⟫ = ⟪l, A z⟫ - ⟪l, A x⟫ := by
      rw [← inner_sub_right]; congr 1; abel
    rw [e] at this
    change f x + ⟪l, A x⟫ ≤ f z + ⟪l, A z⟫
    linarith
  · have := hl x trivial w trivial
    have e : ⟪l, A x - w - c⟫ = ⟪l, -w⟫ - ⟪l, -(A x - c)⟫ := by
      rw [← inner_sub_right]; congr 1; abel
    rw [e] at this
    change g (A x - c) + ⟪l, -(A x - c)⟫ ≤ g w + ⟪l, -w⟫
    linarith

/-- Convergence of the residuals and of the objective at X, the array returned. `h` bounds the variation
of `g`. -/
theorem split_convergence {A : E →L[ℝ] F} {AT : F →L[ℝ] E}
    {hA : ∀ x y, ⟪A x, y⟫ = ⟪x, AT y⟫} {c : F}
    {f : E → ℝ} {hf : ConvexOn ℝ Set.univ f} {g : F → ℝ} {hg : ConvexOn ℝ Set.univ g}
    {C : Cls E F F H} {Inv : ℝ → H → Prop} (hC : Implements C (splitProblem A AT hA c f hf g hg) Inv)
    (h : F → ℝ) (hh : ContinuousAt h 0) (h0 : h 0 = 0) (hgh : ∀ y z, |g y - g z| ≤ h (y - z))
    (o : Opts) (ha : o.autoRho = false) (hrlx : 0 < o.rlx ∧ o.rlx < 2) (cb) (hcb : CallbackKeeps Inv cb)
    (s : St E F F H) (hp : 0 < s.rho) (hI : Inv s.rho s.extra)
    (xs : E) (ys : F) (l : F) (hsad : (splitProblem A AT hA c f hf g hg).Saddle xs ys l) :
    let T := traj C o cb s
    Tendsto (fun n => C.nrmR (T n).AXnr (T n).Y) atTop (𝓝 0) ∧
    Tendsto (fun n => C.nrmS (T n).rho (T n).Yprev (T n).Y (T n).U) atTop (𝓝 0) ∧
    Tendsto (fun n => f (T n).X + g (A (T n).X - c)) atTop (𝓝 (f xs + g ys)) := by
  intro T
  obtain ⟨c1, c2, c3⟩ := C39_convergence C _ Inv hC o ha hrlx cb hcb s hp hI xs ys l hsad
  refine ⟨c1, c2, ?_⟩
  have hst : ∀ n, (T (n + 1)).AXnr = A (T (n + 1)).X := by
    intro n
    have hinv := traj_inv hC o (fun h => by simp [ha] at h) cb hcb s hp hI n
    have h2 := steps_spec hC o (T n) hinv.1 hinv.2
    have h5 := oneIter_steps C o ha cb (T n)
    change (traj C o cb s (n + 1)).AXnr = A (traj C o cb s (n + 1)).X
    rw [traj_succ, h5.2.2.2.2.1, h5.1]
    exact h2.2.2.1
  have hr : Tendsto (fun n => A (T (n + 1)).X - c - (T (n + 1)).Y) atTop (𝓝 0) := by
    rw [tendsto_zero_iff_norm_tendsto_zero]
    refine ((tendsto_add_atTop_iff_nat 1).2 c1).congr fun n => ?_
    have e1 : (traj C o cb s (n + 1)).AXnr = A (T (n + 1)).X := hst n
    rw [hC.nrmR, e1]
    change ‖A (T (n + 1)).X + -(T (n + 1)).Y - c‖ = _
    congr 1
    abel
  have hg0 : Tendsto (fun n => g (A (T (n + 1)).X - c) - g (T (n + 1)).Y) atTop (𝓝 0) := by
    have hlim : Tendsto (fun n => h (A (T (n + 1)).X - c - (T (n + 1)).Y)) atTop (𝓝 0) := by
      have := hh.tendsto.comp hr
      rw [h0] at this
      exact this
    exact squeeze_zero_norm (fun n => hgh _ _) hlim
  refine (tendsto_add_atTop_iff_nat 1).1 ?_
  have h3 := ((tendsto_add_atTop_iff_nat 1).2 c3).add hg0
  rw [add_zero] at h3
  refine h3.congr fun n => ?_
  change f (T (n + 1)).X + g (T (n + 1)).Y + (g (A (T (n + 1)).X - c) - g (T (n + 1)).Y) = _
  ring

/-! ## Two blocks -/

variable {F₀ F₁ : Type*} [NormedAddCommGroup F₀] [InnerProductSpace ℝ F₀] [NormedAddCommGroup F₁]
  [InnerProductSpace ℝ F₁]

theorem catL_adj (A0 : E →L[ℝ] F₀) (A0T : F₀ →L[ℝ] E) (h0 : ∀ x y, ⟪A0 x, y⟫ = ⟪x, A0T y⟫)
    (A1 : E →L[ℝ] F₁) (A1T : F₁ →L[ℝ] E) (h1 : ∀ x y, ⟪A1 x, y⟫ = ⟪x, A1T y⟫) (x : E) (y : WithLp 2 (F₀ × F₁)) :
    ⟪catL A0 A1 x, y⟫ = ⟪x, catLT A0T A1T y⟫ := by
  rw [catL_apply, catLT_apply]
  exact C37_twoblock_adjoint A0 A1 A0T A1T h0 h1 x y

/-- Convergence of the objective at X, the array returned, for a two-block class. `v0` and `v1` bound the
variation of the two terms. -/
theorem TbExact.convergence_at_x [FiniteDimensional ℝ F₀] [FiniteDimensional ℝ F₁]
    {C : Cls E (WithLp 2 (F₀ × F₁)) (WithLp 2 (F₀ × F₁)) H} {A0 : E →L[ℝ] F₀}
    {A0T : F₀ →L[ℝ] E} {A1 : E →L[ℝ] F₁} {A1T : F₁ →L[ℝ] E} {c0 : F₀} {c1 : F₁}
    {g0 : F₀ → ℝ} {g1 : F₁ → ℝ} {Inv : ℝ → H → Prop}
    (h : TbExact C A0 A0T A1 A1T c0 c1 g0 Set.univ g1 Set.univ Inv)
    (h0 : ∀ x y, ⟪A0 x, y⟫ = ⟪x, A0T y⟫) (h1 : ∀ x y, ⟪A1 x, y⟫ = ⟪x, A1T y⟫)
    (hg0 : ConvexOn ℝ Set.univ g0) (hg1 : ConvexOn ℝ Set.univ g1)
    (v0 : F₀ → ℝ) (hv0 : ContinuousAt v0 0) (z0 : v0 0 = 0) (b0 : ∀ y z, |g0 y - g0 z| ≤ v0 (y - z))
    (v1 : F₁ → ℝ) (hv1 : ContinuousAt v1 0) (z1 : v1 0 = 0) (b1 : ∀ y z, |g1 y - g1 z| ≤ v1 (y - z))
    (o : Opts) (ha : o.autoRho = false) (hrlx : 0 < o.rlx ∧ o.rlx < 2) (cb) (hcb : CallbackKeeps Inv cb)
    (s : St E (WithLp 2 (F₀ × F₁)) (WithLp 2 (F₀ × F₁)) H) (hp : 0 < s.rho) (hI : Inv s.rho s.extra)
    (xs : E) (hxs : ∀ z, g0 (A0 xs - c0) + g1 (A1 xs - c1) ≤ g0 (A0 z - c0) + g1 (A1 z - c1)) :
    let T := traj C o cb s
    Tendsto (fun n => C.nrmR (T n).AXnr (T n).Y) atTop (𝓝 0) ∧
    Tendsto (fun n => C.nrmS (T n).rho (T n).Yprev (T n).Y (T n).U) atTop (𝓝 0) ∧
    Tendsto (fun n => g0 (A0 (T n).X - c0) + g1 (A1 (T n).X - c1)) atTop
      (𝓝 (g0 (A0 xs - c0) + g1 (A1 xs - c1))) := by
  intro T
  set P := tbProblem A0 A0T h0 A1 A1T h1 c0 c1 g0 Set.univ hg0 g1 Set.univ hg1 with hP
  have hcg : ConvexOn ℝ Set.univ fun y : WithLp 2 (F₀ × F₁) => g0 y.fst + g1 y.snd := by
    have := P.convG
    have e : P.Dg = Set.univ := Set.eq_univ_of_forall fun y => ⟨trivial, trivial⟩
    rw [e] at this
    exact this
  obtain ⟨l, -, -, hs3, hs4, hs5⟩ := split_saddle (catL A0 A1) (catLT A0T A1T) (catL_adj A0 A0T h0 A1 A1T h1)
    (TwoBlock.cat c0 c1) (fun _ => 0) (convexOn_const 0 convex_univ)
    (fun y : WithLp 2 (F₀ × F₁) => g0 y.fst + g1 y.snd) hcg xs
    (fun z => by rw [zero_add, zero_add]; exact hxs z)
  have hsad : P.Saddle xs (catL A0 A1 xs - TwoBlock.cat c0 c1) l :=
    ⟨trivial, ⟨trivial, trivial⟩, hs3, hs4, fun v _ => hs5 v trivial⟩
  obtain ⟨k1, k2, k3, k4, k5, -⟩ := h.convergence h0 h1 hg0 hg1 o ha hrlx cb hcb s hp hI _ _ l hsad
  refine ⟨k1, k2, ?_⟩
  have hz : Tendsto (fun n => v0 (A0 (T n).X - c0 - (T n).Y.fst) + v1 (A1 (T n).X - c1 - (T n).Y.snd))
      atTop (𝓝 0) := by
    have := (hv0.tendsto.comp k4).add (hv1.tendsto.comp k5)
    rw [z0, z1, add_zero] at this
    exact this
  have hsub : Tendsto (fun n => g0 (A0 (T n).X - c0) + g1 (A1 (T n).X - c1) -
      (g0 (T n).Y.fst + g1 (T n).Y.snd)) atTop (𝓝 0) := by
    refine squeeze_zero_norm (fun n => ?_) hz
    rw [Real.norm_eq_abs, add_sub_add_comm]
    exact (abs_add_le _ _).trans (add_le_add (b0 _ _) (b1 _ _))
  have := hsub.add k3
  rw [zero_add] at this
  refine this.congr fun n => ?_
  change g0 (A0 (T n).X - c0) + g1 (A1 (T n).X - c1) - (g0 (T n).Y.fst + g1 (T n).Y.snd) +
    (g0 (T n).Y.fst + g1 (T n).Y.snd) = _
  ring

end Sporco.Admm
