import Verif.Admm.BpdnIter
import Verif.Pgm.Bpdn

/-!
# C95: the limit does not depend on the solver and its settings

`BPDN` by ADMM and by PGM, for any two settings: the reconstructions `D X` tend to the same array. With the additional
l2 term of `ElasticNet` the coefficients themselves do.
-/

set_option autoImplicit false

namespace Sporco.Admm

open Filter Topology
open scoped RealInnerProductSpace

section
variable {E F₁ : Type*} [NormedAddCommGroup E] [InnerProductSpace ℝ E] [NormedAddCommGroup F₁]
  [InnerProductSpace ℝ F₁]

/-- How much the objective grows away from a minimiser. -/
theorem ls_growth (L : E →L[ℝ] F₁) (LT : F₁ →L[ℝ] E) (hadj : ∀ x y, ⟪L x, y⟫ = ⟪x, LT y⟫)
    (b : F₁) (g : E → ℝ) (Dg : Set E) (hg : ConvexOn ℝ Dg g) (x : E) (hx : x ∈ Dg)
    (hmin : ∀ z ∈ Dg, lsObj L b g x ≤ lsObj L b g z) (z : E) (hz : z ∈ Dg) :
    1 / 2 * ‖L (z - x)‖ ^ 2 ≤ lsObj L b g z - lsObj L b g x := by
  have h := (ls_saddle L LT hadj b g Dg hg x hx hmin).ymin z hz
  change g x + ⟪-LT (L x - b), -x⟫ ≤ g z + ⟪-LT (L x - b), -z⟫ at h
  rw [inner_neg_neg, inner_neg_neg, real_inner_comm x, real_inner_comm z, ← hadj, ← hadj] at h
  have h1 := quad1 L b x z
  unfold lsObj
  rw [h1, map_sub, inner_sub_right, real_inner_comm (L z), real_inner_comm (L x)]
  linarith

end

namespace Bpdn

open Matrix Sporco.Linalg Sporco.Prox

variable {N M K : ℕ}

theorem convTo_mul (D : Matrix (Fin N) (Fin M) ℝ) {X : ℕ → Matrix (Fin M) (Fin K) ℝ} {L : Matrix (Fin M) (Fin K) ℝ}
    (h : ConvTo X L) : ConvTo (fun n => D * X n) (D * L) := by
  intro i k
  simp only [Matrix.mul_apply]
  exact tendsto_finsetSum _ fun m _ => (h m k).const_mul _

/-- **C95.** Let `Xopt` minimise the BPDN functional. For every dictionary, signal, positive `lmbda` and weights, with or
without `NonNegCoef`, and whatever the fixed rho, the relaxation parameter in (0, 2), the evaluation options and the start
are, the reconstruction from the array the ADMM solver returns tends to `D Xopt`. -/
theorem C95_bpdn_admm (D : Matrix (Fin N) (Fin M) ℝ) (S : Matrix (Fin N) (Fin K) ℝ) (lmbda : ℝ)
    (hl : 0 < lmbda) (w : Fin M × Fin K → ℝ) (hw : ∀ i, 0 < w i) (nonNeg fe ge : Bool)
    (o : Opts) (ha : o.autoRho = false) (hrlx : 0 < o.rlx ∧ o.rlx < 2)
    (cb) (hcb : CallbackReads cb) (s : St (Arr M K) (Arr M K) (Arr M K) (Attr N M K)) (hp : 0 < s.rho)
    (hs : s.extra = setdict S s.rho D) (Xopt : Matrix (Fin M) (Fin K) ℝ)
    (hopt : IsMin (objBPDN D S lmbda w) (allowed nonNeg) Xopt) :
    ConvTo (fun n => D * mat (traj (clsBPDN S lmbda w nonNeg fe ge) o cb s n).Y) (D * Xopt) := by
  obtain ⟨X, hX, -, h2⟩ := C39_bpdn_iterates D S lmbda hl w hw nonNeg fe ge o ha hrlx cb hcb s hp hs
  rw [← recon_unique D S lmbda hl.le w (fun i => (hw i).le) nonNeg hX hopt]
  exact convTo_mul D h2

/-- **C95.** The same for the proximal gradient solver, from any start and with any L at least the largest squared
singular value of the dictionary, so both tend to the same reconstruction; and the distance after `k` iterations is bounded:
`‖D X - D Xopt‖² ≤ 4 L ‖X₀ - Xopt‖² / (k + 1)²`. -/
theorem C95_bpdn_pgm (D : Matrix (Fin N) (Fin M) ℝ) (S : Matrix (Fin N) (Fin K) ℝ) (lmbda : ℝ)
    (hl : 0 ≤ lmbda) (w : Fin M × Fin K → ℝ) (hw : ∀ i, 0 ≤ w i) (nonNeg : Bool) (o : Pgm.Opts)
    (hb : o.backtrack = .none) (hp : o.policy = .none) (hmom : o.momentum = .nesterov)
    (hm : o.monotone = false) (cb) (hcb : Pgm.CallbackReads cb) (s : Pgm.St (Pgm.Vars (Arr M K))) (hs : Pgm.Fresh s)
    (hL : 0 < s.v.L) (hLD : ∀ x : Matrix (Fin M) (Fin K) ℝ, fro2 (D * x) ≤ s.v.L * fro2 x)
    (Xopt : Matrix (Fin M) (Fin K) ℝ) (hopt : IsMin (objBPDN D S lmbda w) (allowed nonNeg) Xopt) :
    let X := fun k => mat (Pgm.iterX (Pgm.clsBPDN D S lmbda w nonNeg) o cb s k)
    (∀ k, 1 ≤ k → fro2 (D * X k - D * Xopt) ≤ 4 * s.v.L * fro2 (mat s.v.X - Xopt) / (k + 1) ^ 2) ∧
    ConvTo (fun k => D * X k) (D * Xopt) := by
  intro X
  have key : ∀ k, 1 ≤ k → fro2 (D * X k - D * Xopt) ≤ 4 * s.v.L * fro2 (mat s.v.X - Xopt) / (k + 1) ^ 2 := by
    intro k hk
    obtain ⟨h1, h2⟩ := Pgm.C45_bpdn D S lmbda hl w hw nonNeg o hb hp hmom hm cb hcb s hs hL hLD Xopt hopt.1
      hopt.2 k hk
    have h3 := ls_growth (dmul D) (dmul Dᵀ) (dmul_adj D) (arr S) (fun y : Arr M K => lmbda * l1w w y.ofLp) (coefs nonNeg)
      (convex_l1w w hw _ (convex_coefs nonNeg) lmbda hl) (arr Xopt) ((coefs_allowed nonNeg _).2 hopt.1)
      (fun z hz => by
        rw [lsObj_bpdn, lsObj_bpdn]
        exact hopt.2 _ ((coefs_allowed nonNeg _).1 hz)) (arr (X k)) ((coefs_allowed nonNeg _).2 h1)
    rw [lsObj_bpdn, lsObj_bpdn, mat_arr, mat_arr, map_sub, dmul_apply, dmul_apply, mat_arr, mat_arr, ← arr_sub,
      norm_arr] at h3
    have h4 : fro2 (D * X k - D * Xopt) ≤ 2 * (2 * s.v.L * fro2 (mat s.v.X - Xopt) / (k + 1) ^ 2) := by
      have := h3.trans h2
      linarith
    refine h4.trans (le_of_eq ?_)
    ring
  refine ⟨key, fun i j => ?_⟩
  have hbound : ∀ k, 1 ≤ k → |(D * X k) i j - (D * Xopt) i j| ^ 2 ≤ 4 * s.v.L * fro2 (mat s.v.X - Xopt) / (k + 1) ^ 2 := by
    intro k hk
    refine le_trans ?_ (key k hk)
    rw [sq_abs]
    unfold fro2
    refine le_trans ?_ (Finset.single_le_sum (f := fun i => ∑ j, (D * X k - D * Xopt) i j ^ 2)
      (fun i _ => Finset.sum_nonneg fun j _ => sq_nonneg _) (Finset.mem_univ i))
    exact Finset.single_le_sum (f := fun j => (D * X k - D * Xopt) i j ^ 2) (fun j _ => sq_nonneg _) (Finset.mem_univ j)
  have hz : Tendsto (fun k : ℕ => 4 * s.v.L * fro2 (mat s.v.X - Xopt) / ((k : ℝ) + 1) ^ 2) atTop (𝓝 0) := by
    refine Tendsto.const_div_atTop ?_ _
    exact (tendsto_pow_atTop two_ne_zero).comp (tendsto_atTop_add_const_right _ 1 tendsto_natCast_atTop_atTop)
  have h5 : Tendsto (fun k => |(D * X k) i j - (D * Xopt) i j| ^ 2) atTop (𝓝 0) := by
    refine squeeze_zero' (Eventually.of_forall fun k => sq_nonneg _) ?_ hz
    filter_upwards [eventually_ge_atTop 1] with k hk using hbound k hk
  have h6 := (Real.continuous_sqrt.tendsto 0).comp h5
  simp only [Function.comp_def, Real.sqrt_sq (abs_nonneg _), Real.sqrt_zero] at h6
  have h7 := (tendsto_zero_iff_abs_tendsto_zero _).2 h6
  simpa using h7.add_const ((D * Xopt) i j)

/-- **C95 for `ElasticNet`.** With positive `mu` the functional has one minimiser, and whatever the fixed rho, the relaxation
parameter in (0, 2) and the start are, X and Y tend to it. -/
theorem C95_elasticnet (D : Matrix (Fin N) (Fin M) ℝ) (S : Matrix (Fin N) (Fin K) ℝ) (lmbda mu : ℝ)
    (hl : 0 < lmbda) (hm : 0 < mu) (w : Fin M × Fin K → ℝ) (hw : ∀ i, 0 < w i) (nonNeg : Bool) :
    ∃ Xopt, IsMin (objEN D S lmbda mu w) (allowed nonNeg) Xopt ∧
      (∀ Z, IsMin (objEN D S lmbda mu w) (allowed nonNeg) Z → Z = Xopt) ∧
      ∀ (fe ge : Bool) (o : Opts), o.autoRho = false → 0 < o.rlx ∧ o.rlx < 2 → ∀ cb, CallbackReads cb →
        ∀ s : St (Arr M K) (Arr M K) (Arr M K) (Attr N M K), 0 < s.rho → s.extra = setdictEN S mu s.rho D →
          let T := traj (clsEN S lmbda mu w nonNeg fe ge) o cb s
          ConvTo (fun n => mat (T n).X) Xopt ∧ ConvTo (fun n => mat (T n).Y) Xopt := by
  have hobj : ∀ y : Arr M K, lsObj (enL D mu) (enB S) (fun y : Arr M K => lmbda * l1w w y.ofLp) y =
      objEN D S lmbda mu w (mat y) := by
    intro y
    unfold lsObj objEN
    rw [enL_norm D S mu hm.le, ← l1w_mat]
    ring
  have hcg := convex_l1w w (fun i => (hw i).le) _ (convex_coefs (ι := Fin M × Fin K) nonNeg) lmbda hl.le
  obtain ⟨c, hc, hgrow⟩ := l1w_grow w hw lmbda hl
  obtain ⟨x, hx, hmin⟩ := ls_exists_min (enL D mu) (enB S) (fun y : Arr M K => lmbda * l1w w y.ofLp) (coefs nonNeg)
    (closed_coefs nonNeg) ⟨0, zero_coefs nonNeg⟩ (continuous_const.mul (continuous_l1w w)) c hc hgrow
  have hxm : IsMin (objEN D S lmbda mu w) (allowed nonNeg) (mat x) := by
    refine ⟨(coefs_allowed nonNeg x).1 hx, fun Z hZ => ?_⟩
    have := hmin (arr Z) ((coefs_allowed nonNeg _).2 hZ)
    rw [hobj, hobj, mat_arr] at this
    exact this
  have huniq : ∀ Z, IsMin (objEN D S lmbda mu w) (allowed nonNeg) Z → Z = mat x := by
    intro Z hZ
    have h1 := ls_growth (enL D mu) (enLT D mu) (enL_adj D mu) (enB S) (fun y : Arr M K => lmbda * l1w w y.ofLp)
      (coefs nonNeg) hcg x hx hmin (arr Z) ((coefs_allowed nonNeg _).2 hZ.1)
    rw [hobj, hobj, mat_arr] at h1
    have h2 := hZ.2 _ hxm.1
    have h3 : ‖enL D mu (arr Z - x)‖ ^ 2 = ‖dmul D (arr Z - x)‖ ^ 2 + ‖Real.sqrt mu • (arr Z - x)‖ ^ 2 :=
      WithLp.prod_norm_sq_eq_of_L2 _
    rw [h3, norm_smul, mul_pow, Real.norm_of_nonneg (Real.sqrt_nonneg _), Real.sq_sqrt hm.le] at h1
    have h4 := sq_nonneg ‖dmul D (arr Z - x)‖
    have h5 : mu * ‖arr Z - x‖ ^ 2 ≤ 0 := by linarith
    have h6 : ‖arr Z - x‖ ^ 2 = 0 := le_antisymm (by nlinarith) (sq_nonneg _)
    have h7 : arr Z - x = 0 := by simpa using h6
    have h8 := congrArg mat (sub_eq_zero.1 h7)
    rw [mat_arr] at h8
    exact h8
  refine ⟨mat x, hxm, huniq, fun fe ge o ha hrlx cb hcb s hp hs => ?_⟩
  obtain ⟨X, hX, h1, h2⟩ := C39_elasticnet_iterates D S lmbda mu hl hm.le w hw nonNeg fe ge o ha hrlx cb hcb s hp hs
  rw [huniq X hX] at h1 h2
  exact ⟨h1, h2⟩

/-- The coefficients of `BPDN` itself are not determined: for two equal atoms 1, the signal 3 and `lmbda = 1` all
`(t, 2 - t)` with `0 ≤ t ≤ 2` minimise the functional, and have the reconstruction 2. -/
example (t : ℝ) (h0 : 0 ≤ t) (h2 : t ≤ 2) :
    IsMin (objBPDN (N := 1) (M := 2) (K := 1) !![1, 1] !![3] 1 fun _ => 1) (allowed false) !![t; 2 - t] ∧
      (!![1, 1] : Matrix (Fin 1) (Fin 2) ℝ) * (!![t; 2 - t] : Matrix (Fin 2) (Fin 1) ℝ) = !![2] := by
  refine ⟨⟨by simp [allowed], fun Z _ => ?_⟩, ?_⟩
  · simp only [objBPDN, fro2, l1wMat, Fin.sum_univ_one, Fin.sum_univ_two, Matrix.sub_apply, Matrix.mul_apply]
    simp
    rw [abs_of_nonneg h0, abs_of_nonneg (sub_nonneg.2 h2)]
    nlinarith [le_abs_self (Z 0 0), le_abs_self (Z 1 0), sq_nonneg (Z 0 0 + Z 1 0 - 2)]
  · ext i j
    fin_cases i; fin_cases j
    simp [Matrix.mul_apply, Fin.sum_univ_two]

end Bpdn

end Sporco.Admm
