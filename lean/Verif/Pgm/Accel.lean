import Verif.Admm.Conv
import Mathlib.Analysis.Calculus.Gradient.Basic
import Mathlib.Analysis.Calculus.Deriv.MeanValue
import Mathlib.Analysis.Calculus.Deriv.Mul
import Mathlib.Analysis.Calculus.Deriv.Add
import Mathlib.Analysis.Calculus.Deriv.Pow
import Mathlib.Analysis.Convex.Deriv
import Mathlib.Tactic.Positivity

/-!
# Accelerated proximal gradient, on abstract sequences

No reference to the model of the code.
-/

set_option autoImplicit false

namespace Sporco.Pgm

open scoped RealInnerProductSpace

variable {E : Type*} [NormedAddCommGroup E] [InnerProductSpace ℝ E]

/-- `f` is convex with gradient `gf`, and `Lf` bounds its curvature. -/
structure Smooth (f : E → ℝ) (gf : E → E) (Lf : ℝ) : Prop where
  lower : ∀ x y, f y + ⟪gf y, x - y⟫ ≤ f x
  upper : ∀ x y, f x ≤ f y + ⟪gf y, x - y⟫ + Lf / 2 * ‖x - y‖ ^ 2

/-- `prox L` is the proximal map of `g/L` for a convex `g` on `Dg`. -/
structure ProxOf (g : E → ℝ) (Dg : Set E) (prox : ℝ → E → E) : Prop where
  convex : ConvexOn ℝ Dg g
  mem : ∀ L v, 0 < L → prox L v ∈ Dg
  min : ∀ L v, 0 < L → ∀ z ∈ Dg,
    g (prox L v) + L / 2 * ‖prox L v - v‖ ^ 2 ≤ g z + L / 2 * ‖z - v‖ ^ 2

/-- The usual hypotheses (convex, differentiable, Lipschitz gradient) give `Smooth`. -/
theorem Smooth.of_lipschitz [CompleteSpace E] {f : E → ℝ} {gf : E → E} {Lf : ℝ}
    (hc : ConvexOn ℝ Set.univ f) (hg : ∀ x, HasGradientAt f (gf x) x)
    (hL : ∀ x y, ‖gf x - gf y‖ ≤ Lf * ‖x - y‖) : Smooth f gf Lf := by
  have hline : ∀ (y d : E) (s : ℝ), HasDerivAt (fun s : ℝ => f (y + s • d)) ⟪gf (y + s • d), d⟫ s := by
    intro y d s
    have h1 : HasDerivAt (fun s : ℝ => y + s • d) d s := by
      simpa using ((hasDerivAt_id s).smul_const d).const_add y
    have h2 := (hg (y + s • d)).hasFDerivAt.comp_hasDerivAt s h1
    simp only [InnerProductSpace.toDual_apply_apply] at h2
    exact h2
  constructor
  · intro x y
    have hcv : ConvexOn ℝ Set.univ (fun s : ℝ => f (y + s • (x - y))) := by
      refine ⟨convex_univ, fun a _ b _ p q hp hq hpq => ?_⟩
      have := hc.2 (Set.mem_univ (y + a • (x - y))) (Set.mem_univ (y + b • (x - y))) hp hq hpq
      have e : p • (y + a • (x - y)) + q • (y + b • (x - y)) = y + (p • a + q • b) • (x - y) := by
        have : q = 1 - p := by linarith
        subst this
        simp only [smul_eq_mul]
        module
      rw [e] at this
      exact this
    have hd := hline y (x - y) 0
    simp only [zero_smul, add_zero] at hd
    have hs := hcv.le_slope_of_hasDerivAt (Set.mem_univ 0) (Set.mem_univ 1) one_pos hd
    simp [slope_def_field] at hs
    linarith
  · intro x y
    set d := x - y with hd
    have hanti : AntitoneOn (fun s : ℝ => f (y + s • d) - s * ⟪gf y, d⟫ - Lf / 2 * s ^ 2 * ‖d‖ ^ 2)
        (Set.Icc 0 1) := by
      have hder : ∀ s : ℝ, HasDerivAt (fun s : ℝ => f (y + s • d) - s * ⟪gf y, d⟫ - Lf / 2 * s ^ 2 * ‖d‖ ^ 2)
          (⟪gf (y + s • d), d⟫ - 1 * ⟪gf y, d⟫ - Lf / 2 * (2 * s) * ‖d‖ ^ 2) s := by
        intro s
        refine ((hline y d s).sub ((hasDerivAt_id s).mul_const _)).sub ?_
        have := (((hasDerivAt_id s).pow 2).const_mul (Lf / 2)).mul_const (‖d‖ ^ 2)
        simpa using this
      refine antitoneOn_of_deriv_nonpos (convex_Icc 0 1)
        (fun s _ => (hder s).continuousAt.continuousWithinAt)
        (fun s _ => (hder s).differentiableAt.differentiableWithinAt) fun s hs => ?_
      rw [(hder s).deriv]
      rw [interior_Icc] at hs
      have h1 : ⟪gf (y + s • d), d⟫ - 1 * ⟪gf y, d⟫ = ⟪gf (y + s • d) - gf y, d⟫ := by
        rw [inner_sub_left]; ring
      have h2 := real_inner_le_norm (gf (y + s • d) - gf y) d
      have h3 := hL (y + s • d) y
      rw [add_sub_cancel_left, norm_smul, Real.norm_of_nonneg hs.1.le] at h3
      have h4 := mul_le_mul_of_nonneg_right h3 (norm_nonneg d)
      rw [h1]
      nlinarith
    have h := hanti (Set.left_mem_Icc.2 zero_le_one) (Set.right_mem_Icc.2 zero_le_one) zero_le_one
    simp only [one_smul, zero_smul, add_zero, zero_mul] at h
    have e : y + d = x := by rw [hd]; abel
    rw [e] at h
    linarith

/-- The three point inequality of one proximal gradient step. -/
theorem three_point {f g : E → ℝ} {gf : E → E} {Dg : Set E} {prox : ℝ → E → E}
    (hlow : ∀ x y, f y + ⟪gf y, x - y⟫ ≤ f x) (hp : ProxOf g Dg prox) {L : ℝ} (hL : 0 < L) (y : E)
    {z : E} (hz : z = prox L (y - (1 / L) • gf y))
    (hacc : f z ≤ f y + ⟪z - y, gf y⟫ + L / 2 * ‖z - y‖ ^ 2) {u : E} (hu : u ∈ Dg) :
    f z + g z ≤ f u + g u + L / 2 * (‖u - y‖ ^ 2 - ‖u - z‖ ^ 2) := by
  have h1 := Admm.subgrad_of_min hp.convex LinearMap.id (-(y - (1 / L) • gf y)) L
    (x := prox L (y - (1 / L) • gf y)) (hp.mem L _ hL)
    (fun w hw => by
      simp only [LinearMap.id_coe, id_eq, ← sub_eq_add_neg]
      exact hp.min L _ hL w hw) hu
  simp only [LinearMap.id_coe, id_eq, ← hz] at h1
  have h2 := hlow u y
  have e1 : ⟪z + -(y - (1 / L) • gf y), u - z⟫ = ⟪z - y, u - z⟫ + (1 / L) * ⟪gf y, u - z⟫ := by
    rw [show z + -(y - (1 / L) • gf y) = (z - y) + (1 / L) • gf y by abel, inner_add_left,
      real_inner_smul_left]
  have e2 : ‖u - y‖ ^ 2 = ‖u - z‖ ^ 2 + 2 * ⟪u - z, z - y⟫ + ‖z - y‖ ^ 2 := by
    rw [← norm_add_sq_real]; congr 2; abel
  have e3 : ⟪gf y, u - y⟫ = ⟪gf y, u - z⟫ + ⟪gf y, z - y⟫ := by
    rw [← inner_add_right]; congr 1; abel
  have e4 : L * (1 / L * ⟪gf y, u - z⟫) = ⟪gf y, u - z⟫ := by field_simp
  have e5 : ⟪z - y, gf y⟫ = ⟪gf y, z - y⟫ := real_inner_comm _ _
  have e6 : ⟪u - z, z - y⟫ = ⟪z - y, u - z⟫ := real_inner_comm _ _
  rw [e1, mul_add, e4] at h1
  rw [e2, e6]
  rw [e3] at h2
  rw [e5] at hacc
  nlinarith

theorem norm_sq_ident (t : ℝ) (a b y z : E) :
    t * ((t - 1) * (‖a - y‖ ^ 2 - ‖a - z‖ ^ 2) + (‖b - y‖ ^ 2 - ‖b - z‖ ^ 2)) =
      ‖t • y - (t - 1) • a - b‖ ^ 2 - ‖t • z - (t - 1) • a - b‖ ^ 2 := by
  have h : ∀ y : E, ‖t • y - (t - 1) • a - b‖ ^ 2 =
      t ^ 2 * ‖y‖ ^ 2 - 2 * t * ((t - 1) * ⟪a, y⟫ + ⟪b, y⟫) + ‖(t - 1) • a + b‖ ^ 2 := by
    intro y
    rw [sub_sub, norm_sub_sq_real, norm_smul, inner_add_right, real_inner_smul_right, real_inner_smul_left,
      real_inner_smul_left, mul_pow, Real.norm_eq_abs, sq_abs, real_inner_comm a y, real_inner_comm b y]
    ring
  rw [h, h, norm_sub_sq_real, norm_sub_sq_real, norm_sub_sq_real, norm_sub_sq_real]
  ring

/-- An accelerated scheme: `z k` is the proximal point computed from `y k`, `x` are the
accepted iterates (not worse than `z`), `t` the momentum numbers, `L` the step parameters. -/
structure Scheme (F : E → ℝ) (D : Set E) (xs : E) (x y z : ℕ → E) (t L : ℕ → ℝ) : Prop where
  sol : xs ∈ D ∧ ∀ u ∈ D, F xs ≤ F u
  mem : ∀ k, x (k + 1) ∈ D
  Lpos : ∀ k, 0 < L k
  Lmono : ∀ k, L k ≤ L (k + 1)
  t1 : ∀ k, 1 ≤ t k
  tt : ∀ k, t (k + 1) ^ 2 - t (k + 1) ≤ t k ^ 2
  acc : ∀ k, ∀ u ∈ D, F (z k) ≤ F u + L k / 2 * (‖u - y k‖ ^ 2 - ‖u - z k‖ ^ 2)
  le : ∀ k, F (x (k + 1)) ≤ F (z k)
  next : ∀ k, t (k + 1) • y (k + 1) - (t (k + 1) - 1) • x (k + 1) = t k • z k - (t k - 1) • x k

namespace Scheme
variable {F : E → ℝ} {D : Set E} {xs : E} {x y z : ℕ → E} {t L : ℕ → ℝ}

theorem step (h : Scheme F D xs x y z t L) (k : ℕ) (hx : t k = 1 ∨ x k ∈ D) :
    2 / L k * t k ^ 2 * (F (x (k + 1)) - F xs) + ‖t k • z k - (t k - 1) • x k - xs‖ ^ 2 ≤
      2 / L k * (t k ^ 2 - t k) * (F (x k) - F xs) + ‖t k • y k - (t k - 1) • x k - xs‖ ^ 2 := by
  have hL := h.Lpos k
  have ht := h.t1 k
  have h1 : (t k - 1) * F (z k) ≤ (t k - 1) * (F (x k) + L k / 2 * (‖x k - y k‖ ^ 2 - ‖x k - z k‖ ^ 2)) := by
    rcases hx with e | e
    · rw [e]; simp
    · exact mul_le_mul_of_nonneg_left (h.acc k _ e) (by linarith)
  have h2 := h.acc k xs h.sol.1
  have h3 := norm_sq_ident (t k) (x k) xs (y k) (z k)
  have h4 := h.le k
  have h5 : t k * F (z k) ≤ (t k - 1) * F (x k) + F xs + L k / 2 * ((t k - 1) *
      (‖x k - y k‖ ^ 2 - ‖x k - z k‖ ^ 2) + (‖xs - y k‖ ^ 2 - ‖xs - z k‖ ^ 2)) := by nlinarith
  have h6 := mul_le_mul_of_nonneg_left h5 (by linarith : 0 ≤ t k)
  have h7 : t k ^ 2 * F (x (k + 1)) ≤ t k ^ 2 * F (z k) := mul_le_mul_of_nonneg_left h4 (sq_nonneg _)
  have h8 : t k ^ 2 * (F (x (k + 1)) - F xs) ≤ (t k ^ 2 - t k) * (F (x k) - F xs) + L k / 2 *
      (‖t k • y k - (t k - 1) • x k - xs‖ ^ 2 - ‖t k • z k - (t k - 1) • x k - xs‖ ^ 2) := by
    rw [← h3]; nlinarith
  have h9 := mul_le_mul_of_nonneg_left h8 (by positivity : 0 ≤ 2 / L k)
  have e : 2 / L k * ((t k ^ 2 - t k) * (F (x k) - F xs) + L k / 2 *
      (‖t k • y k - (t k - 1) • x k - xs‖ ^ 2 - ‖t k • z k - (t k - 1) • x k - xs‖ ^ 2)) =
      2 / L k * (t k ^ 2 - t k) * (F (x k) - F xs) +
      (‖t k • y k - (t k - 1) • x k - xs‖ ^ 2 - ‖t k • z k - (t k - 1) • x k - xs‖ ^ 2) := by
    field_simp
  rw [e, ← mul_assoc] at h9
  linarith

/-- The potential never increases. -/
theorem potential (h : Scheme F D xs x y z t L) (h0 : t 0 = 1 ∨ x 0 ∈ D) (n : ℕ) :
    2 / L n * t n ^ 2 * (F (x (n + 1)) - F xs) + ‖t n • z n - (t n - 1) • x n - xs‖ ^ 2 ≤
      2 / L 0 * (t 0 ^ 2 - t 0) * (F (x 0) - F xs) + ‖t 0 • y 0 - (t 0 - 1) • x 0 - xs‖ ^ 2 := by
  induction n with
  | zero => exact h.step 0 h0
  | succ n ih =>
    refine (h.step (n + 1) (Or.inr (h.mem n))).trans (le_trans ?_ ih)
    rw [h.next n]
    have hv : 0 ≤ F (x (n + 1)) - F xs := sub_nonneg.2 (h.sol.2 _ (h.mem n))
    have h1 : 2 / L (n + 1) * (t (n + 1) ^ 2 - t (n + 1)) ≤ 2 / L n * t n ^ 2 := by
      have a := h.Lpos n
      have b := h.Lmono n
      have c : 2 / L (n + 1) ≤ 2 / L n := by gcongr
      have d : 0 ≤ t (n + 1) ^ 2 - t (n + 1) := by have := h.t1 (n + 1); nlinarith
      exact mul_le_mul c (h.tt n) d (by positivity)
    have := mul_le_mul_of_nonneg_right h1 hv
    linarith

/-- The rate in terms of the momentum numbers. -/
theorem rate (h : Scheme F D xs x y z t L) (ht0 : t 0 = 1) (hy0 : y 0 = x 0) (n : ℕ) :
    F (x (n + 1)) - F xs ≤ L n * ‖x 0 - xs‖ ^ 2 / (2 * t n ^ 2) := by
  have hp := h.potential (Or.inl ht0) n
  rw [ht0, hy0] at hp
  simp only [one_pow, sub_self, mul_zero, zero_mul, zero_add, one_smul, zero_smul, sub_zero] at hp
  have hL := h.Lpos n
  have ht := h.t1 n
  have h1 : 2 / L n * t n ^ 2 * (F (x (n + 1)) - F xs) ≤ ‖x 0 - xs‖ ^ 2 := by
    have := sq_nonneg ‖t n • z n - (t n - 1) • x n - xs‖; linarith
  rw [le_div_iff₀ (by positivity)]
  have h2 := mul_le_mul_of_nonneg_left h1 hL.le
  have e : L n * (2 / L n * t n ^ 2 * (F (x (n + 1)) - F xs)) = (F (x (n + 1)) - F xs) * (2 * t n ^ 2) := by
    field_simp
  linarith

end Scheme

/-- One step of the robust scheme: `T' = T + t = L t²`, `y = (T x + t z)/T'`, `x'` the
proximal point of `y`, `z' = z + t L (x' - y)`. -/
theorem robust_step {F : E → ℝ} {D : Set E} {xs x y z x' : E} {T t L : ℝ} (hL : 0 < L) (ht : 0 < t)
    (hT : 0 ≤ T) (hxs : xs ∈ D) (hx : T = 0 ∨ x ∈ D) (ht2 : L * t ^ 2 = T + t)
    (hy : (T + t) • y = T • x + t • z)
    (hacc : ∀ u ∈ D, F x' ≤ F u + L / 2 * (‖u - y‖ ^ 2 - ‖u - x'‖ ^ 2)) :
    2 * (T + t) * (F x' - F xs) + ‖z + (t * L) • (x' - y) - xs‖ ^ 2 ≤
      2 * T * (F x - F xs) + ‖z - xs‖ ^ 2 := by
  have h1 : T * F x' ≤ T * (F x + L / 2 * (‖x - y‖ ^ 2 - ‖x - x'‖ ^ 2)) := by
    rcases hx with e | e
    · rw [e]; simp
    · exact mul_le_mul_of_nonneg_left (hacc _ e) hT
  have h2 := mul_le_mul_of_nonneg_left (hacc xs hxs) ht.le
  have e1 : ∀ u : E, ‖u - y‖ ^ 2 - ‖u - x'‖ ^ 2 = 2 * ⟪u - y, x' - y⟫ - ‖x' - y‖ ^ 2 := by
    intro u
    have : u - x' = (u - y) - (x' - y) := by abel
    rw [this, norm_sub_sq_real (u - y) (x' - y)]; ring
  rw [e1] at h1 h2
  have e2 : ‖z + (t * L) • (x' - y) - xs‖ ^ 2 =
      ‖z - xs‖ ^ 2 + 2 * (t * L) * ⟪z - xs, x' - y⟫ + (t * L) ^ 2 * ‖x' - y‖ ^ 2 := by
    rw [show z + (t * L) • (x' - y) - xs = (z - xs) + (t * L) • (x' - y) by abel, norm_add_sq_real,
      real_inner_smul_right, norm_smul, mul_pow, Real.norm_eq_abs, sq_abs]
    ring
  have e3 : T * ⟪x - y, x' - y⟫ + t * ⟪xs - y, x' - y⟫ = -t * ⟪z - xs, x' - y⟫ := by
    rw [← real_inner_smul_left, ← real_inner_smul_left, ← real_inner_smul_left, ← inner_add_left]
    congr 1
    have : T • (x - y) + t • (xs - y) = (T • x + t • z) - (T + t) • y + -t • (z - xs) := by module
    rw [this, hy]; module
  have e4 : (t * L) ^ 2 = L * (T + t) := by rw [← ht2]; ring
  rw [e2, e4]
  nlinarith

end Sporco.Pgm
