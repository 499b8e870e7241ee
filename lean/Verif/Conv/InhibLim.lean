import Verif.Conv.Inhib

/-!
# Convolutional sparse coding with inhibition: the limit of a run (C73)
-/

set_option autoImplicit false
set_option linter.unusedSectionVars false

namespace Sporco.Conv.Inhib

open Finset ComplexConjugate Sporco.Linalg Sporco.Prox Sporco.Admm Filter Topology
open scoped RealInnerProductSpace

variable {d c : ℕ} {N Nd : Fin d → ℕ} [∀ k, NeZero (N k)] {a : Fin d} {K M Γ : Type*} [Fintype K]
  [Fintype M] [Fintype Γ] [DecidableEq M]

/-- Exponential smoothing of a convergent sequence. -/
theorem smooth_tendsto {s : ℝ} (h0 : 0 ≤ s) (h1 : s < 1) {u b : ℕ → ℝ} {l : ℝ}
    (hu : ∀ n, u (n + 1) = s * u n + (1 - s) * b (n + 1)) (hb : Tendsto b atTop (𝓝 l)) : Tendsto u atTop (𝓝 l) := by
  rw [Metric.tendsto_atTop] at hb ⊢
  intro e he
  obtain ⟨n0, hn0⟩ := hb (e / 2) (half_pos he)
  have hk : ∀ k, |u (n0 + k) - l| ≤ s ^ k * |u n0 - l| + e / 2 := by
    intro k
    induction k with
    | zero => simp only [add_zero, pow_zero, one_mul]; linarith
    | succ k ih =>
      have hbk := hn0 (n0 + k + 1) (by omega)
      rw [Real.dist_eq] at hbk
      have e1 : u (n0 + (k + 1)) - l = s * (u (n0 + k) - l) + (1 - s) * (b (n0 + k + 1) - l) := by
        rw [← add_assoc, hu]; ring
      rw [e1]
      refine (abs_add_le _ _).trans ?_
      rw [abs_mul, abs_mul, abs_of_nonneg h0, abs_of_nonneg (by linarith : 0 ≤ 1 - s), pow_succ]
      have h3 := mul_le_mul_of_nonneg_left ih h0
      have h4 := mul_le_mul_of_nonneg_left hbk.le (by linarith : 0 ≤ 1 - s)
      nlinarith
  have hp : Tendsto (fun k => s ^ k * |u n0 - l|) atTop (𝓝 0) := by
    have := (tendsto_pow_atTop_nhds_zero_of_lt_one h0 h1).mul_const |u n0 - l|
    rwa [zero_mul] at this
  rw [Metric.tendsto_atTop] at hp
  obtain ⟨k0, hk0⟩ := hp (e / 2) (half_pos he)
  refine ⟨n0 + k0, fun n hn => ?_⟩
  obtain ⟨k, rfl⟩ : ∃ k, n = n0 + k := ⟨n - n0, by omega⟩
  have h5 := hk0 k (by omega)
  rw [Real.dist_eq, sub_zero] at h5
  rw [Real.dist_eq]
  have := hk k
  have h6 := le_abs_self (s ^ k * |u n0 - l|)
  linarith

theorem inhibW_continuous (cm : M → M → ℝ) (h : Grid N → ℝ) (i : K × M × Grid N) :
    Continuous fun X : Coef K M N => inhibW cm h (part X) i := by
  unfold inhibW rconv
  refine continuous_finsetSum _ fun n _ => continuous_const.mul (continuous_finsetSum _ fun y _ =>
    continuous_const.mul ?_)
  exact ((EuclideanSpace.proj (i.1, n, i.2.2 - y) : Coef K M N →L[ℝ] ℝ).continuous).abs

/-- The coupling of an optional group matrix. -/
def couplingO (G : Option (Γ → M → Bool)) : M → M → ℝ :=
  match G with
  | none => fun _ _ => 0
  | some G => coupling G

variable (q : COpts) (S : Signal c K N) (lmbda : ℝ) (w : K × M × Grid N → ℝ) (P : Par Γ M N)

/-- **C73, the limit.** If the variables of a run with fixed rho converge, then X and Y have the same limit, and it
minimises, over the allowed arrays, the functional whose inhibition weights are those of the documentation for the
limit itself. -/
theorem C73_limit (hN : ∀ n, Nd n ≤ N n) (h2 : q.noBndry = true → ∀ n, 2 ≤ Nd n) (D : Dict c M Nd)
    (G : Option (Γ → M → Bool)) (hG : P.Wg = G.map Wof) (hP : ParOk P) (hsm : P.smooth < 1)
    (hl : 0 ≤ lmbda) (hw : ∀ i, 0 ≤ w i) (fe ge : Bool) (o : Opts) (ha : o.autoRho = false) (hrlx : o.rlx ≠ 0) (cb)
    (hcb : Bpdn.CallbackReads cb) (s : St (Coef K M N) (Coef K M N) (Coef K M N) (AttrI c K M Nd N a))
    (hp : 0 < s.rho) (Xf : Spec K M N a) (hs : s.extra = initI q S s.rho D Xf) (x y u : Coef K M N) :
    let T := traj (clsInhib q S lmbda w P fe ge) o cb s
    Tendsto (fun n => (T n).X) atTop (𝓝 x) → Tendsto (fun n => (T n).Y) atTop (𝓝 y) →
    Tendsto (fun n => (T n).U) atTop (𝓝 u) →
    x = y ∧ IsMin (objInhib D S lmbda P.mu P.gamma w (inhibW (couplingO G) P.Whl (part x)) (inhibW selfC P.Whs (part x)))
      (allowedConv q.nonNeg q.noBndry Nd) (part x) := by
  intro T hX hY hU
  have hrho : ∀ n, (T n).rho = s.rho := traj_rho _ o ha cb s
  have hI := fun n => (traj_keeps (keepsI q S lmbda w P D hP fe ge) o (by rw [ha]; intro h; cases h) cb (hcb.keeps _) s hp
    (by rw [hs]; exact init_inv q S P D _ _) n).2
  have hT : ∀ n, T (n + 1) = oneIter (clsInhib q S lmbda w P fe ge) o cb (T n) := fun n => traj_succ _ _ _ _ _
  have hXn : ∀ n, (T (n + 1)).X = xOf a D S s.rho s.rho (T n).Y (T n).U := by
    intro n
    have hc := (hI n).1
    rw [hT, oneIter_X]
    change (xstep (T n).rho (T n).X (T n).Y (T n).U (T n).extra.base).1 = _
    have hr := hrho n
    rw [show (traj (clsInhib q S lmbda w P fe ge) o cb s n) = T n from rfl] at hc
    rw [hr] at hc
    rw [hr]
    exact xstep_coh hc _ _ _
  have hUn : ∀ n, (T (n + 1)).U = (T n).U + (o.rlx • (T (n + 1)).X + (1 - o.rlx) • (T n).Y) - (T (n + 1)).Y := by
    intro n
    obtain ⟨e1, e2, e3, -⟩ := oneIter_steps (clsInhib q S lmbda w P fe ge) o ha cb (T n)
    rw [hT, e1, e2, e3, ← relax_eq]
    change (T n).U + (_ - _) = _
    rw [← add_sub_assoc]
    rfl
  have hX1 := hX.comp (tendsto_add_atTop_nat 1)
  have hY1 := hY.comp (tendsto_add_atTop_nat 1)
  have hU1 := hU.comp (tendsto_add_atTop_nat 1)
  have hAX : Tendsto (fun n => o.rlx • (T (n + 1)).X + (1 - o.rlx) • (T n).Y) atTop (𝓝 (o.rlx • x + (1 - o.rlx) • y)) :=
    (hX1.const_smul _).add (hY.const_smul _)
  have hxy : x = y := by
    have h1 : Tendsto (fun n => (T (n + 1)).U) atTop (𝓝 (u + (o.rlx • x + (1 - o.rlx) • y) - y)) := by
      simp only [hUn]; exact (hU.add hAX).sub hY1
    have h3 := tendsto_nhds_unique hU1 h1
    have h4 : o.rlx • (x - y) = 0 := by
      have : o.rlx • (x - y) = (u + (o.rlx • x + (1 - o.rlx) • y) - y) - u := by module
      rw [this, ← h3, sub_self]
    rcases smul_eq_zero.1 h4 with h | h
    · exact absurd h hrlx
    · exact sub_eq_zero.1 h
  have hAX' : Tendsto (fun n => o.rlx • (T (n + 1)).X + (1 - o.rlx) • (T n).Y) atTop (𝓝 x) := by
    have : o.rlx • x + (1 - o.rlx) • y = x := by rw [← hxy]; module
    rwa [this] at hAX
  refine ⟨hxy, ?_⟩
  -- the weights
  set om := inhibW (couplingO G) P.Whl (part x) with hom
  set zs := inhibW selfC P.Whs (part x) with hzs
  have hstep := fun n => C73_weights q S lmbda w P D hP fe ge o (by rw [ha]; intro h; cases h) cb hcb s hp Xf hs n
  have hml : ∀ i, Tendsto (fun n => P.mu * (T n).extra.wml i) atTop (𝓝 (P.mu * om i)) := by
    intro i
    rcases hP.mu.eq_or_lt with h | h
    · rw [← h]; simp
    cases hGc : G with
    | none =>
      have hn : P.Wg = none := by rw [hG, hGc]; rfl
      have e : om i = 0 := by rw [hom, hGc]; simp [inhibW, couplingO]
      have e2 : ∀ n, (T n).extra.wml i = 0 := fun n => congrFun ((hI n).2.none hn) i
      simp [e, e2]
    | some G' =>
      have hn : P.Wg = some (Wof G') := by rw [hG, hGc]; rfl
      refine (smooth_tendsto hP.smooth0 hsm (b := fun n => inhibW (coupling G') P.Whl (part (T n).X) i)
        (fun n => (hstep n).1 G' hn h i) ?_).const_mul _
      have : om i = inhibW (coupling G') P.Whl (part x) i := by rw [hom, hGc]; rfl
      rw [this]
      exact ((inhibW_continuous (coupling G') P.Whl i).tendsto x).comp hX
  have hms : ∀ i, Tendsto (fun n => P.gamma * (T n).extra.wms i) atTop (𝓝 (P.gamma * zs i)) := by
    intro i
    rcases hP.gamma.eq_or_lt with h | h
    · rw [← h]; simp
    refine (smooth_tendsto hP.smooth0 hsm (b := fun n => inhibW selfC P.Whs (part (T n).X) i)
      (fun n => (hstep n).2.1 h i) ?_).const_mul _
    exact ((inhibW_continuous selfC P.Whs i).tendsto x).comp hX
  have hom0 : ∀ i, 0 ≤ om i := by
    refine inhibW_nonneg (fun m n => ?_) hP.Whl (part x)
    unfold couplingO
    split
    · exact le_rfl
    · exact coupling_nonneg _ _ _
  have hzs0 : ∀ i, 0 ≤ zs i := inhibW_nonneg selfC_nonneg hP.Whs (part x)
  -- the limit of the combined weights
  let cw : K × M × Grid N → ℝ := fun i => lmbda * w i + P.mu * om i + P.gamma * zs i
  have hcw0 : ∀ i, 0 ≤ cw i := fun i => add_nonneg (add_nonneg (mul_nonneg hl (hw i)) (mul_nonneg hP.mu (hom0 i)))
    (mul_nonneg hP.gamma (hzs0 i))
  have hcw : ∀ (z : ℕ → Coef K M N) (z0 : Coef K M N), Tendsto z atTop (𝓝 z0) →
      Tendsto (fun n => l1w (comb lmbda w P (T n).extra) (z n).ofLp) atTop (𝓝 (l1w cw z0.ofLp)) := by
    intro z z0 hz
    unfold l1w
    refine tendsto_finsetSum _ fun i _ => Tendsto.mul ?_ ?_
    · exact (tendsto_const_nhds.add (hml i)).add (hms i)
    · exact (((EuclideanSpace.proj i : Coef K M N →L[ℝ] ℝ).continuous.norm).tendsto z0).comp hz
  -- the Y update in the limit
  have hYmin := fun n => Y_min q S lmbda w P hN h2 hP hl hw fe ge o cb (T n) (by rw [hrho]; exact hp) (hI n).2
  simp only [← hT, hrho] at hYmin
  have hymem : y ∈ (cset q Nd : Set (Coef K M N)) :=
    (closed_cset q Nd).mem_of_tendsto hY1 (Eventually.of_forall fun n => (hYmin n).1)
  have hy : ∀ z ∈ (cset q Nd : Set (Coef K M N)), l1w cw y.ofLp + s.rho / 2 * ‖x - y + u‖ ^ 2 ≤
      l1w cw z.ofLp + s.rho / 2 * ‖x - z + u‖ ^ 2 := by
    intro z hz
    refine le_of_tendsto_of_tendsto' ((hcw _ _ hY1).add ((((hAX'.sub hY1).add hU).norm.pow 2).const_mul (s.rho / 2)))
      ((hcw _ _ tendsto_const_nhds).add ((((hAX'.sub tendsto_const_nhds).add hU).norm.pow 2).const_mul (s.rho / 2)))
      fun n => (hYmin n).2 z hz
  -- the X update in the limit
  let f : Coef K M N → ℝ := fun v => 1 / 2 * ‖convOp (padD N D) v - join S‖ ^ 2
  have hfc : Continuous f := by
    refine continuous_const.mul ((Continuous.norm ?_).pow 2)
    exact (convOp (padD N D)).continuous.sub continuous_const
  have hx : ∀ z, f x + s.rho / 2 * ‖x - y + u‖ ^ 2 ≤ f z + s.rho / 2 * ‖z - y + u‖ ^ 2 := by
    intro z
    refine le_of_tendsto_of_tendsto' (((hfc.tendsto x).comp hX1).add
      ((((hX1.sub hY).add hU).norm.pow 2).const_mul (s.rho / 2)))
      ((tendsto_const_nhds (x := f z)).add ((((tendsto_const_nhds (x := z)).sub hY).add hU).norm.pow 2 |>.const_mul
        (s.rho / 2))) fun n => ?_
    have := xOf_min (a := a) D S 0 s.rho (by linarith) (T n).Y (T n).U z
    simp only [zero_add, zero_div, zero_mul, add_zero] at this
    change f (T (n + 1)).X + s.rho / 2 * ‖(T (n + 1)).X - (T n).Y + (T n).U‖ ^ 2 ≤ _
    rw [hXn]
    exact this
  -- combine
  have hgc := Bpdn.convex_l1w cw hcw0 _ (convex_cset (K := K) (M := M) (N := N) q Nd) 1 (by norm_num)
  simp only [one_mul] at hgc
  have hobj : ∀ v : Coef K M N, objInhib D S lmbda P.mu P.gamma w om zs (part v) = f v + l1w cw v.ofLp := by
    intro v
    have := l1w_comb lmbda w P (⟨(T 0).extra.base, om, zs⟩ : AttrI c K M Nd N a) v
    change l1w cw v.ofLp = _ at this
    rw [this]
    unfold objInhib
    rw [dataTerm_eq hN]
    ring
  rw [hxy]
  rw [hxy] at hx hy
  refine ⟨hymem, fun z hz => ?_⟩
  have h5 := subgrad_of_min (ls_convex (convOp (padD N D)) (join S)) (LinearMap.id : Coef K M N →ₗ[ℝ] Coef K M N)
    (-y + u) s.rho (x := y) trivial (fun z _ => by
      have := hx z
      simpa only [LinearMap.id_apply, ← add_assoc, ← sub_eq_add_neg] using this) (z := join z) trivial
  have h6 := subgrad_of_min hgc (LinearMap.id : Coef K M N →ₗ[ℝ] Coef K M N) (-(y + u)) s.rho hymem (fun z hz => by
      have := hy z hz
      have e : ∀ v : Coef K M N, ‖(LinearMap.id : Coef K M N →ₗ[ℝ] Coef K M N) v + -(y + u)‖ = ‖y - v + u‖ := by
        intro v
        rw [LinearMap.id_apply, ← norm_neg]
        congr 1; abel
      rw [e, e]; exact this) (z := join z) hz
  simp only [LinearMap.id_apply] at h5 h6
  rw [show y + (-y + u) = u by abel] at h5
  rw [show y + -(y + u) = -u by abel, inner_neg_left] at h6
  have h7 := hobj y
  have h8 := hobj (join z)
  rw [h7]
  have h9 : objInhib D S lmbda P.mu P.gamma w om zs z = objInhib D S lmbda P.mu P.gamma w om zs (part (join z)) := rfl
  rw [h9, h8]
  change f y + l1w cw y.ofLp ≤ f (join z) + l1w cw (join z).ofLp
  have h10 : f y - s.rho * ⟪u, join z - y⟫ ≤ f (join z) := h5
  linarith

end Sporco.Conv.Inhib
