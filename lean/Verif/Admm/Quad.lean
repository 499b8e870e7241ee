import Verif.Admm.Optimal
import Mathlib.Analysis.InnerProductSpace.PiL2
import Mathlib.Analysis.Matrix.Normed
import Mathlib.Topology.Algebra.Module.FiniteDimension

/-!
# Least-squares problems with a regulariser

Facts shared by the concrete solvers whose data term is `½‖L x - b‖²`: minimisers of
quadratics, existence of multipliers, and convergence of the objective at the variable Y
(the array the solvers return).
-/

set_option autoImplicit false

namespace Sporco.Admm

open Filter Topology
open scoped RealInnerProductSpace

/-! ## Two-dimensional arrays -/

/-- A real two-dimensional array of shape `(m, k)`, with the l2 norm of the flattened
array. -/
abbrev Arr (m k : ℕ) := EuclideanSpace ℝ (Fin m × Fin k)

section Arr
variable {m k n : ℕ}

/-- An array as a matrix. -/
def mat (x : Arr m k) : Matrix (Fin m) (Fin k) ℝ := Matrix.of fun i j => x (i, j)

/-- A matrix as an array. -/
def arr (X : Matrix (Fin m) (Fin k) ℝ) : Arr m k := WithLp.toLp 2 fun p => X p.1 p.2

@[simp] theorem mat_arr (X : Matrix (Fin m) (Fin k) ℝ) : mat (arr X) = X := rfl
@[simp] theorem arr_mat (x : Arr m k) : arr (mat x) = x := rfl
@[simp] theorem mat_add (x y : Arr m k) : mat (x + y) = mat x + mat y := rfl
@[simp] theorem mat_sub (x y : Arr m k) : mat (x - y) = mat x - mat y := rfl
@[simp] theorem mat_smul (c : ℝ) (x : Arr m k) : mat (c • x) = c • mat x := rfl
@[simp] theorem arr_add (x y : Matrix (Fin m) (Fin k) ℝ) : arr (x + y) = arr x + arr y := rfl
@[simp] theorem arr_sub (x y : Matrix (Fin m) (Fin k) ℝ) : arr (x - y) = arr x - arr y := rfl
@[simp] theorem arr_smul (c : ℝ) (x : Matrix (Fin m) (Fin k) ℝ) : arr (c • x) = c • arr x := rfl

/-- Sum of the squared entries of a matrix. -/
def fro2 (X : Matrix (Fin m) (Fin k) ℝ) : ℝ := ∑ i, ∑ j, X i j ^ 2

theorem norm_arr (X : Matrix (Fin m) (Fin k) ℝ) : ‖arr X‖ ^ 2 = fro2 X := by
  rw [EuclideanSpace.norm_sq_eq, Fintype.sum_prod_type]
  simp [arr, fro2]

theorem norm_mat (x : Arr m k) : ‖x‖ ^ 2 = fro2 (mat x) := by rw [← norm_arr, arr_mat]

theorem inner_arr (X Y : Matrix (Fin m) (Fin k) ℝ) : ⟪arr X, arr Y⟫ = ∑ i, ∑ j, X i j * Y i j := by
  rw [PiLp.inner_apply, Fintype.sum_prod_type]
  simp [arr, mul_comm]

/-- Multiplication of every column by `D`. -/
noncomputable def dmul (D : Matrix (Fin n) (Fin m) ℝ) : Arr m k →L[ℝ] Arr n k :=
  LinearMap.toContinuousLinearMap
    { toFun := fun x => arr (D * mat x)
      map_add' := fun x y => by rw [mat_add, Matrix.mul_add, arr_add]
      map_smul' := fun c x => by rw [mat_smul, Matrix.mul_smul, arr_smul]; rfl }

theorem dmul_apply (D : Matrix (Fin n) (Fin m) ℝ) (x : Arr m k) : dmul D x = arr (D * mat x) := rfl

theorem dmul_adj (D : Matrix (Fin n) (Fin m) ℝ) (x : Arr m k) (y : Arr n k) :
    ⟪dmul D x, y⟫ = ⟪x, dmul D.transpose y⟫ := by
  rw [dmul_apply, dmul_apply, ← arr_mat y, ← arr_mat x, inner_arr, inner_arr]
  simp only [mat_arr, arr_mat, Matrix.mul_apply, Finset.sum_mul, Finset.mul_sum, Matrix.transpose_apply]
  calc ∑ i, ∑ j, ∑ l, D i l * mat x l j * mat y i j
      = ∑ i, ∑ l, ∑ j, D i l * mat x l j * mat y i j :=
        Finset.sum_congr rfl fun i _ => Finset.sum_comm
    _ = ∑ l, ∑ i, ∑ j, D i l * mat x l j * mat y i j := Finset.sum_comm
    _ = ∑ l, ∑ j, ∑ i, D i l * mat x l j * mat y i j :=
        Finset.sum_congr rfl fun i _ => Finset.sum_comm
    _ = _ := by
        refine Finset.sum_congr rfl fun l _ => Finset.sum_congr rfl fun j _ =>
          Finset.sum_congr rfl fun i _ => ?_
        ring

end Arr

/-! ## Quadratics -/

section Quad
variable {E F₁ F₂ : Type*} [NormedAddCommGroup E] [InnerProductSpace ℝ E]
  [NormedAddCommGroup F₁] [InnerProductSpace ℝ F₁] [NormedAddCommGroup F₂] [InnerProductSpace ℝ F₂]

theorem quad1 (L : E →L[ℝ] F₁) (b : F₁) (x z : E) :
    1 / 2 * ‖L z - b‖ ^ 2 =
      1 / 2 * ‖L x - b‖ ^ 2 + ⟪L x - b, L (z - x)⟫ + 1 / 2 * ‖L (z - x)‖ ^ 2 := by
  have : L z - b = (L x - b) + L (z - x) := by rw [map_sub]; abel
  rw [this, norm_add_sq_real]; ring

/-- A point where the gradient of a sum of two weighted squares vanishes, and the excess
of any other point. -/
theorem quad2 (L₁ : E →L[ℝ] F₁) (L₂ : E →L[ℝ] F₂) (b₁ : F₁) (b₂ : F₂) (w₁ w₂ : ℝ) (x : E)
    (h : ∀ d, w₁ * ⟪L₁ x - b₁, L₁ d⟫ + w₂ * ⟪L₂ x - b₂, L₂ d⟫ = 0) (z : E) :
    w₁ / 2 * ‖L₁ z - b₁‖ ^ 2 + w₂ / 2 * ‖L₂ z - b₂‖ ^ 2 =
      w₁ / 2 * ‖L₁ x - b₁‖ ^ 2 + w₂ / 2 * ‖L₂ x - b₂‖ ^ 2 +
      (w₁ / 2 * ‖L₁ (z - x)‖ ^ 2 + w₂ / 2 * ‖L₂ (z - x)‖ ^ 2) := by
  have h1 := quad1 L₁ b₁ x z
  have h2 := quad1 L₂ b₂ x z
  have h3 := h (z - x)
  linear_combination w₁ * h1 + w₂ * h2 + h3

theorem ls_convex (L : E →L[ℝ] F₁) (b : F₁) :
    ConvexOn ℝ Set.univ (fun x => 1 / 2 * ‖L x - b‖ ^ 2) := by
  refine ⟨convex_univ, fun x _ y _ s t hs ht hst => ?_⟩
  simp only [smul_eq_mul]
  have e : L (s • x + t • y) - b = s • (L x - b) + t • (L y - b) := by
    rw [map_add, map_smul, map_smul]
    have : b = (s + t) • b := by rw [hst, one_smul]
    conv_lhs => rw [this]
    module
  rw [e, norm_add_sq_real, norm_smul, norm_smul, real_inner_smul_left, real_inner_smul_right,
    Real.norm_of_nonneg hs, Real.norm_of_nonneg ht]
  have h1 : ⟪L x - b, L y - b⟫ ≤ (‖L x - b‖ ^ 2 + ‖L y - b‖ ^ 2) / 2 := by
    have := sq_nonneg ‖(L x - b) - (L y - b)‖
    rw [norm_sub_sq_real] at this
    linarith
  have hts : t = 1 - s := by linarith
  have hst0 : 0 ≤ s * t := mul_nonneg hs ht
  have := mul_le_mul_of_nonneg_left h1 hst0
  subst hts
  nlinarith

/-- The problem `min ½‖L x - b‖² + g(y)` s.t. `x = y`, `y ∈ Dg`. -/
noncomputable def lsProblem (L : E →L[ℝ] F₁) (b : F₁) (g : E → ℝ) (Dg : Set E)
    (hg : ConvexOn ℝ Dg g) : Problem E E E :=
  ⟨ContinuousLinearMap.id ℝ E, ContinuousLinearMap.id ℝ E, -ContinuousLinearMap.id ℝ E, 0,
    fun x => 1 / 2 * ‖L x - b‖ ^ 2, Set.univ, g, Dg, fun _ _ => rfl, ls_convex L b, hg⟩

/-- The functional minimised by the problem, as a function of one variable. -/
noncomputable def lsObj (L : E →L[ℝ] F₁) (b : F₁) (g : E → ℝ) (x : E) : ℝ :=
  1 / 2 * ‖L x - b‖ ^ 2 + g x

/-- At a minimiser there is a multiplier, so the hypothesis of the convergence theorem
holds for least-squares problems as soon as a minimiser exists. -/
theorem ls_saddle (L : E →L[ℝ] F₁) (LT : F₁ →L[ℝ] E) (hadj : ∀ x y, ⟪L x, y⟫ = ⟪x, LT y⟫)
    (b : F₁) (g : E → ℝ) (Dg : Set E) (hg : ConvexOn ℝ Dg g) (x : E) (hx : x ∈ Dg)
    (hmin : ∀ z ∈ Dg, lsObj L b g x ≤ lsObj L b g z) :
    (lsProblem L b g Dg hg).Saddle x x (-LT (L x - b)) := by
  refine ⟨trivial, hx, ?_, ?_, ?_⟩
  · simp [lsProblem]
  · intro z _
    simp only [lsProblem, ContinuousLinearMap.id_apply]
    have h := quad1 L b x z
    have e : ⟪-LT (L x - b), z⟫ = ⟪-LT (L x - b), x⟫ - ⟪L x - b, L (z - x)⟫ := by
      have h1 : ∀ y, ⟪LT (L x - b), y⟫ = ⟪L x - b, L y⟫ := fun y => by
        rw [real_inner_comm, ← hadj, real_inner_comm]
      rw [inner_neg_left, inner_neg_left, h1, h1, map_sub, inner_sub_right]
      ring
    rw [h, e]
    have := sq_nonneg ‖L (z - x)‖
    linarith
  · intro w hw
    simp only [lsProblem, _root_.neg_apply, ContinuousLinearMap.id_apply]
    rw [inner_neg_right, inner_neg_right, inner_neg_left, inner_neg_left, neg_neg, neg_neg]
    -- directional derivative
    have key : ∀ t : ℝ, 0 < t → t ≤ 1 →
        0 ≤ ⟪L x - b, L (w - x)⟫ + g w - g x + t * (1 / 2 * ‖L (w - x)‖ ^ 2) := by
      intro t ht ht1
      have hz : (1 - t) • x + t • w ∈ Dg := hg.1 hx hw (by linarith) ht.le (by ring)
      have h1 := hmin _ hz
      have h2 := hg.2 hx hw (by linarith : 0 ≤ 1 - t) ht.le (by ring)
      unfold lsObj at h1
      have h3 := quad1 L b x ((1 - t) • x + t • w)
      have e : (1 - t) • x + t • w - x = t • (w - x) := by module
      rw [e, map_smul, real_inner_smul_right, norm_smul, Real.norm_of_nonneg ht.le] at h3
      simp only [smul_eq_mul] at h2
      have : 0 ≤ t * (⟪L x - b, L (w - x)⟫ + g w - g x + t * (1 / 2 * ‖L (w - x)‖ ^ 2)) := by
        nlinarith
      exact nonneg_of_mul_nonneg_right this ht
    have h0 : 0 ≤ ⟪L x - b, L (w - x)⟫ + g w - g x := by
      by_contra hc
      push Not at hc
      set a := ⟪L x - b, L (w - x)⟫ + g w - g x with ha
      set q := 1 / 2 * ‖L (w - x)‖ ^ 2 with hq
      have hqn : 0 ≤ q := by positivity
      have hpos : 0 < -a / (2 * (q + 1)) := by
        apply div_pos <;> linarith
      by_cases h : -a / (2 * (q + 1)) ≤ 1
      · have := key _ hpos h
        have e : -a / (2 * (q + 1)) * q ≤ -a / 2 := by
          rw [div_mul_eq_mul_div, div_le_div_iff₀ (by linarith) (by norm_num)]
          nlinarith
        linarith
      · push Not at h
        have := key 1 one_pos le_rfl
        rw [lt_div_iff₀ (by linarith)] at h
        linarith
    rw [map_sub, inner_sub_right, real_inner_comm (L w), real_inner_comm (L x), hadj, hadj,
      real_inner_comm _ w, real_inner_comm _ x] at h0
    linarith

/-- If ADMM runs exact steps on a least-squares problem with a non-negative regulariser
and rho fixed, the objective at Y tends to its minimum. -/
theorem ls_convergence {H : Type*} (L : E →L[ℝ] F₁) (LT : F₁ →L[ℝ] E)
    (hadj : ∀ x y, ⟪L x, y⟫ = ⟪x, LT y⟫) (b : F₁) (g : E → ℝ) (Dg : Set E) (hg : ConvexOn ℝ Dg g)
    (hg0 : ∀ y ∈ Dg, 0 ≤ g y) (C : Cls E E E H) (Inv : ℝ → H → Prop)
    (hC : Implements C (lsProblem L b g Dg hg) Inv) (o : Opts) (ha : o.autoRho = false)
    (hrlx : 0 < o.rlx ∧ o.rlx < 2) (cb) (hcb : CallbackKeeps Inv cb) (s : St E E E H) (hp : 0 < s.rho)
    (hI : Inv s.rho s.extra) (x : E) (hx : x ∈ Dg)
    (hmin : ∀ z ∈ Dg, lsObj L b g x ≤ lsObj L b g z) :
    Tendsto (fun n => lsObj L b g (traj C o cb s n).Y) atTop (𝓝 (lsObj L b g x)) ∧
    (∀ n, (traj C o cb s (n + 1)).Y ∈ Dg) := by
  have hsad := ls_saddle L LT hadj b g Dg hg x hx hmin
  obtain ⟨h1, -, h3⟩ := C39_convergence C _ Inv hC o ha hrlx cb hcb s hp hI _ _ _ hsad
  set T := traj C o cb s with hT
  have hmem : ∀ n, (T (n + 1)).Y ∈ Dg := by
    intro n
    have hinv := traj_inv hC o (fun h => by simp [ha] at h) cb hcb s hp hI n
    have h2 := (steps_spec hC o (T n) hinv.1 hinv.2).2.2.2.2.1
    rw [hT, traj_succ, (oneIter_steps C o ha cb _).2.1]
    exact h2
  refine ⟨?_, hmem⟩
  have hAX : ∀ n, (T (n + 1)).AXnr = (T (n + 1)).X := by
    intro n
    have hinv := traj_inv hC o (fun h => by simp [ha] at h) cb hcb s hp hI n
    have h2 := (steps_spec hC o (T n) hinv.1 hinv.2).2.2.1
    have h5 := oneIter_steps C o ha cb (T n)
    rw [hT, traj_succ, h5.2.2.2.2.1, h5.1]
    exact h2
  -- x - y tends to zero
  have hd : Tendsto (fun n => (T (n + 1)).Y - (T (n + 1)).X) atTop (𝓝 0) := by
    have h1' := (tendsto_add_atTop_iff_nat 1).2 h1
    rw [tendsto_zero_iff_norm_tendsto_zero]
    refine h1'.congr fun n => ?_
    rw [hC.nrmR, hAX n]
    simp only [rsdlR, lsProblem, _root_.neg_apply, ContinuousLinearMap.id_apply, sub_zero]
    rw [norm_sub_rev]
    congr 1
    abel
  have h3' := (tendsto_add_atTop_iff_nat 1).2 h3
  -- the data residual at x is bounded
  obtain ⟨K, hK⟩ := (h3'.bddAbove_range)
  have hbd : ∀ n, ‖L (T (n + 1)).X - b‖ ≤ 2 * |K| + 1 := by
    intro n
    have h := hK ⟨n, rfl⟩
    simp only [lsProblem] at h
    have h4 := hg0 _ (hmem n)
    have h5 : ‖L (T (n + 1)).X - b‖ ^ 2 ≤ 2 * |K| := by
      have := le_abs_self K
      linarith
    have := abs_nonneg K
    nlinarith [norm_nonneg (L (T (n + 1)).X - b)]
  have hLd : Tendsto (fun n => ‖L ((T (n + 1)).Y - (T (n + 1)).X)‖) atTop (𝓝 0) := by
    have := (L.continuous.tendsto 0).comp hd
    rw [map_zero] at this
    exact tendsto_zero_iff_norm_tendsto_zero.1 this
  have hin : Tendsto (fun n => ⟪L (T (n + 1)).X - b, L ((T (n + 1)).Y - (T (n + 1)).X)⟫) atTop (𝓝 0) := by
    have hz : Tendsto (fun n => (2 * |K| + 1) * ‖L ((T (n + 1)).Y - (T (n + 1)).X)‖) atTop (𝓝 0) := by
      simpa using hLd.const_mul (2 * |K| + 1)
    refine squeeze_zero_norm (fun n => ?_) hz
    exact (norm_inner_le_norm _ _).trans (mul_le_mul_of_nonneg_right (hbd n) (norm_nonneg _))
  refine (tendsto_add_atTop_iff_nat 1).1 ?_
  have hfin := (h3'.add hin).add ((hLd.pow 2).const_mul (1 / 2))
  simp only [zero_pow two_ne_zero, mul_zero, add_zero] at hfin
  refine hfin.congr fun n => ?_
  simp only [lsProblem, lsObj]
  rw [quad1 L b (T (n + 1)).X (T (n + 1)).Y]
  ring

/-- In finite dimensions a minimiser exists when the regulariser controls the norm. -/
theorem ls_exists_min [FiniteDimensional ℝ E] (L : E →L[ℝ] F₁) (b : F₁) (g : E → ℝ) (Dg : Set E)
    (hDg : IsClosed Dg) (hne : Dg.Nonempty) (hcont : Continuous g) (c : ℝ) (hc : 0 < c)
    (hgrow : ∀ x, c * ‖x‖ ≤ g x) :
    ∃ x ∈ Dg, ∀ z ∈ Dg, lsObj L b g x ≤ lsObj L b g z := by
  obtain ⟨x0, hx0⟩ := hne
  have hcontObj : Continuous (lsObj L b g) := by
    unfold lsObj
    fun_prop
  have : ProperSpace E := FiniteDimensional.proper ℝ E
  have hcpt : IsCompact (Dg ∩ Metric.closedBall 0 (lsObj L b g x0 / c)) :=
    (isCompact_closedBall _ _).inter_left hDg
  have hb : ∀ z, lsObj L b g z ≤ lsObj L b g x0 → z ∈ Metric.closedBall (0 : E) (lsObj L b g x0 / c) := by
    intro z hz
    rw [mem_closedBall_zero_iff, le_div_iff₀ hc]
    have h1 := hgrow z
    have h2 : g z ≤ lsObj L b g z := by unfold lsObj; have := sq_nonneg ‖L z - b‖; linarith
    linarith
  obtain ⟨x, hx, hmin⟩ := hcpt.exists_isMinOn ⟨x0, hx0, hb x0 le_rfl⟩ hcontObj.continuousOn
  refine ⟨x, hx.1, fun z hz => ?_⟩
  by_cases h : lsObj L b g z ≤ lsObj L b g x0
  · exact hmin ⟨hz, hb z h⟩
  · push Not at h
    exact (hmin ⟨hx0, hb x0 le_rfl⟩).trans h.le

end Quad
end Sporco.Admm
