import Verif.Admm.BpdnConv

/-!
# `ElasticNet`, `BPDNJoint`, `BPDNProjL1`, `MinL1InL2Ball`: convergence (C39) and residuals (C37, C38)
-/

set_option autoImplicit false
set_option linter.unusedSectionVars false

namespace Sporco.Admm.Bpdn

open Matrix Sporco.Linalg Sporco.Prox Filter Topology
open scoped RealInnerProductSpace

variable {N M K : ℕ}

/-! ## Elastic net -/

/-- `x ↦ (D x, √μ x)`. -/
noncomputable def enL (D : Matrix (Fin N) (Fin M) ℝ) (mu : ℝ) :
    Arr M K →L[ℝ] WithLp 2 (Arr N K × Arr M K) :=
  LinearMap.toContinuousLinearMap
    { toFun := fun x => WithLp.toLp 2 (dmul D x, Real.sqrt mu • x)
      map_add' := fun x y => by rw [map_add, smul_add]; rfl
      map_smul' := fun c x => by rw [map_smul, smul_comm]; rfl }

/-- Adjoint of `enL`. -/
noncomputable def enLT (D : Matrix (Fin N) (Fin M) ℝ) (mu : ℝ) :
    WithLp 2 (Arr N K × Arr M K) →L[ℝ] Arr M K :=
  LinearMap.toContinuousLinearMap
    { toFun := fun y => dmul Dᵀ y.fst + Real.sqrt mu • y.snd
      map_add' := fun x y => by
        change dmul Dᵀ (x.fst + y.fst) + Real.sqrt mu • (x.snd + y.snd) = _
        rw [map_add, smul_add]; abel
      map_smul' := fun c x => by
        change dmul Dᵀ (c • x.fst) + Real.sqrt mu • (c • x.snd) = _
        rw [map_smul, smul_comm, ← smul_add]; rfl }

theorem enL_adj (D : Matrix (Fin N) (Fin M) ℝ) (mu : ℝ) (x : Arr M K) (y) :
    ⟪enL D mu x, y⟫ = ⟪x, enLT D mu y⟫ := by
  rw [WithLp.prod_inner_apply]
  change ⟪dmul D x, y.fst⟫ + ⟪Real.sqrt mu • x, y.snd⟫ = ⟪x, dmul Dᵀ y.fst + Real.sqrt mu • y.snd⟫
  rw [inner_add_right, dmul_adj, real_inner_smul_left, real_inner_smul_right]

/-- The data of `ElasticNet` in the product space. -/
noncomputable def enB (S : Matrix (Fin N) (Fin K) ℝ) : WithLp 2 (Arr N K × Arr M K) :=
  WithLp.toLp 2 (arr S, 0)

theorem enL_norm (D : Matrix (Fin N) (Fin M) ℝ) (S : Matrix (Fin N) (Fin K) ℝ) (mu : ℝ) (hm : 0 ≤ mu)
    (x : Arr M K) : 1 / 2 * ‖enL D mu x - enB S‖ ^ 2 =
      1 / 2 * fro2 (D * mat x - S) + mu / 2 * fro2 (mat x) := by
  rw [WithLp.prod_norm_sq_eq_of_L2]
  change 1 / 2 * (‖dmul D x - arr S‖ ^ 2 + ‖Real.sqrt mu • x - 0‖ ^ 2) = _
  rw [sub_zero, norm_smul, mul_pow, Real.norm_of_nonneg (Real.sqrt_nonneg _), Real.sq_sqrt hm, dmul_apply,
    ← arr_sub, norm_arr, norm_mat]
  ring

theorem implements_en (D : Matrix (Fin N) (Fin M) ℝ) (S : Matrix (Fin N) (Fin K) ℝ) (lmbda mu : ℝ)
    (hl : 0 ≤ lmbda) (hm : 0 ≤ mu) (w : Fin M × Fin K → ℝ) (hw : ∀ i, 0 ≤ w i) (nonNeg fe ge : Bool) :
    Implements (clsEN S lmbda mu w nonNeg fe ge)
      (lsProblem (enL D mu) (enB S) (fun y => lmbda * l1w w y.ofLp) (coefs nonNeg)
        (convex_l1w w hw _ (convex_coefs nonNeg) lmbda hl)) (CohEN D S mu) := by
  refine equal_implements _ _ _ _ (ls_convex _ _) (convex_l1w w hw _ (convex_coefs nonNeg) lmbda hl) _
    _ _ _ _ (fun _ _ _ _ _ _ h => h) (fun _ _ _ _ _ _ _ h => h)
    (fun _ _ _ _ _ h => cohEN_rhochange h) ?_ ?_
  · intro rho X Y U h hp hI
    refine ⟨trivial, fun z _ => ?_⟩
    rw [hI]
    have e : ∀ z : Arr M K, 1 / 2 * ‖enL D mu z - enB S‖ ^ 2 + rho / 2 * ‖z - Y + U‖ ^ 2 =
        augEN D S mu rho (mat Y) (mat U) (mat z) := by
      intro z
      rw [enL_norm D S mu hm, norm_mat (z - Y + U)]; rfl
    rw [e, e]
    have hmn := C40_elasticnet_xstep D S mu rho hm hp X Y U
    by_cases h : mat z = mat (xstepEN mu rho X Y U (setdictEN S mu rho D)).1
    · rw [h]
    · exact (hmn.2 _ trivial h).le
  · intro rho AX X Y U h hp _
    exact ystep_bpdn_min nonNeg lmbda hl w hw rho hp AX X Y U h

/-- **C39 for `ElasticNet`.** Same statement as `C39_bpdn` for the elastic net problem. -/
theorem C39_elasticnet (D : Matrix (Fin N) (Fin M) ℝ) (S : Matrix (Fin N) (Fin K) ℝ) (lmbda mu : ℝ)
    (hl : 0 < lmbda) (hm : 0 ≤ mu) (w : Fin M × Fin K → ℝ) (hw : ∀ i, 0 < w i) (nonNeg fe ge : Bool)
    (o : Opts) (ha : o.autoRho = false) (hrlx : 0 < o.rlx ∧ o.rlx < 2)
    (cb) (hcb : CallbackReads cb) (s : St (Arr M K) (Arr M K) (Arr M K) (Attr N M K)) (hp : 0 < s.rho)
    (hs : s.extra = setdictEN S mu s.rho D) :
    ∃ Xopt : Matrix (Fin M) (Fin K) ℝ, IsMin (objEN D S lmbda mu w) (allowed nonNeg) Xopt ∧
      Tendsto (fun n => objEN D S lmbda mu w (mat (traj (clsEN S lmbda mu w nonNeg fe ge) o cb s n).Y))
        atTop (𝓝 (objEN D S lmbda mu w Xopt)) ∧
      ∀ n, mat (traj (clsEN S lmbda mu w nonNeg fe ge) o cb s (n + 1)).Y ∈ allowed nonNeg := by
  set g : Arr M K → ℝ := fun y => lmbda * l1w w y.ofLp with hg
  have hobj : ∀ y : Arr M K, lsObj (enL D mu) (enB S) g y = objEN D S lmbda mu w (mat y) := by
    intro y
    unfold lsObj objEN
    rw [enL_norm D S mu hm, ← l1w_mat, add_right_comm]
  obtain ⟨c, hc, hgrow⟩ := l1w_grow w hw lmbda hl
  obtain ⟨x, hx, hmin⟩ := ls_exists_min (enL D mu) (enB S) g (coefs nonNeg) (closed_coefs nonNeg)
    ⟨0, zero_coefs nonNeg⟩ (continuous_const.mul (continuous_l1w w)) c hc hgrow
  have hconv := ls_convergence (enL D mu) (enLT D mu) (enL_adj D mu) (enB S) g (coefs nonNeg)
    (convex_l1w w (fun i => (hw i).le) _ (convex_coefs nonNeg) lmbda hl.le)
    (fun y _ => mul_nonneg hl.le (Finset.sum_nonneg fun i _ => mul_nonneg (hw i).le (norm_nonneg _)))
    (clsEN S lmbda mu w nonNeg fe ge) (CohEN D S mu)
    (implements_en D S lmbda mu hl.le hm w (fun i => (hw i).le) nonNeg fe ge) o ha hrlx cb (hcb.keeps _) s hp hs
    x hx hmin
  refine ⟨mat x, ⟨(coefs_allowed nonNeg x).1 hx, fun Z hZ => ?_⟩, ?_, fun n => ?_⟩
  · have := hmin (arr Z) ((coefs_allowed nonNeg (arr Z)).2 hZ)
    rw [hobj, hobj] at this
    exact this
  · have := hconv.1
    simp only [hobj] at this
    exact this
  · exact (coefs_allowed nonNeg _).1 (hconv.2 n)

/-! ## Joint sparsity -/

/-- Row `i` of an array. -/
def row (y : Arr M K) (i : Fin M) : Fin K → ℝ := fun j => y (i, j)

/-- The regulariser of `BPDNJoint`. -/
noncomputable def gJnt (lmbda mu : ℝ) (w : Fin M × Fin K → ℝ) (y : Arr M K) : ℝ :=
  lmbda * l1w w y.ofLp + mu * ∑ i, l2 (row y i)

theorem l2_norm {ι : Type*} [Fintype ι] (v : ι → ℝ) : l2 v = ‖(WithLp.toLp 2 v : EuclideanSpace ℝ ι)‖ := by
  rw [l2, sq_norm, Real.sqrt_sq (norm_nonneg _)]

theorem convex_gJnt (lmbda mu : ℝ) (hl : 0 ≤ lmbda) (hm : 0 ≤ mu) (w : Fin M × Fin K → ℝ)
    (hw : ∀ i, 0 ≤ w i) : ConvexOn ℝ Set.univ (gJnt (M := M) (K := K) lmbda mu w) := by
  refine ⟨convex_univ, fun x _ y _ a b ha hb hab => ?_⟩
  have h1 := (convex_l1w w hw Set.univ convex_univ lmbda hl).2 (Set.mem_univ x) (Set.mem_univ y) ha hb hab
  have h2 : ∀ i, l2 (row (a • x + b • y) i) ≤ a * l2 (row x i) + b * l2 (row y i) := by
    intro i
    rw [l2_norm, l2_norm, l2_norm]
    have e : (WithLp.toLp 2 (row (a • x + b • y) i) : EuclideanSpace ℝ (Fin K)) =
      a • WithLp.toLp 2 (row x i) + b • WithLp.toLp 2 (row y i) := rfl
    rw [e]
    refine (norm_add_le _ _).trans (le_of_eq ?_)
    rw [norm_smul, norm_smul, Real.norm_of_nonneg ha, Real.norm_of_nonneg hb]
  have h3 := Finset.sum_le_sum fun i (_ : i ∈ Finset.univ) => h2 i
  rw [Finset.sum_add_distrib, ← Finset.mul_sum, ← Finset.mul_sum] at h3
  have h4 := mul_le_mul_of_nonneg_left h3 hm
  simp only [smul_eq_mul] at h1 ⊢
  unfold gJnt
  linarith

theorem continuous_gJnt (lmbda mu : ℝ) (w : Fin M × Fin K → ℝ) :
    Continuous (gJnt (M := M) (K := K) lmbda mu w) := by
  unfold gJnt
  refine (continuous_const.mul (continuous_l1w w)).add (continuous_const.mul
    (continuous_finsetSum _ fun i _ => ?_))
  unfold l2 Prox.sq
  refine Real.continuous_sqrt.comp (continuous_finsetSum _ fun j _ => ?_)
  exact ((EuclideanSpace.proj (i, j) : Arr M K →L[ℝ] ℝ).continuous).norm.pow 2

theorem ystep_jnt_min (lmbda mu : ℝ) (hl : 0 ≤ lmbda) (hm : 0 ≤ mu) (w : Fin M × Fin K → ℝ)
    (hw : ∀ i, 0 ≤ w i) (rho : ℝ) (hr : 0 < rho) (AX X Y U : Arr M K) (h : Attr N M K) (z : Arr M K) :
    let y := (ystepJnt false lmbda mu w rho AX X Y U h).1
    gJnt lmbda mu w y + rho / 2 * ‖AX - y + U‖ ^ 2 ≤ gJnt lmbda mu w z + rho / 2 * ‖AX - z + U‖ ^ 2 := by
  have hm := C19_prox_sl1l2 (σ := Fin M) (fun i => row (AX + U) i) (fun i j => lmbda / rho * w (i, j))
    (fun _ => mu / rho) (fun i j => mul_nonneg (by positivity) (hw _)) (fun _ => by positivity)
  have e : ∀ z : Arr M K, gJnt lmbda mu w z + rho / 2 * ‖AX - z + U‖ ^ 2 =
      rho * ∑ i, proxObj (fun y => l1w (fun j => lmbda / rho * w (i, j)) y + mu / rho * l2 y)
        (row (AX + U) i) (row z i) := by
    intro z
    have h1 : ‖AX - z + U‖ ^ 2 = ∑ i, Prox.sq (row z i - row (AX + U) i) := by
      rw [show AX - z + U = -(z - (AX + U)) by abel, norm_neg, EuclideanSpace.norm_sq_eq,
        Fintype.sum_prod_type]
      rfl
    have h2 : l1w w z.ofLp = ∑ i, ∑ j, w (i, j) * ‖row z i j‖ := by
      unfold l1w; rw [Fintype.sum_prod_type]; rfl
    have h3 : ∀ i, l1w (fun j => lmbda / rho * w (i, j)) (row z i) =
        lmbda / rho * ∑ j, w (i, j) * ‖row z i j‖ := by
      intro i; unfold l1w; rw [Finset.mul_sum]
      refine Finset.sum_congr rfl fun j _ => ?_
      ring
    unfold gJnt proxObj
    rw [h1, h2]
    simp only [h3]
    rw [Finset.mul_sum, Finset.mul_sum, Finset.mul_sum, Finset.mul_sum, ← Finset.sum_add_distrib,
      ← Finset.sum_add_distrib]
    refine Finset.sum_congr rfl fun i _ => ?_
    field_simp
    ring
  simp only
  rw [e, e]
  refine mul_le_mul_of_nonneg_left ?_ hr.le
  have hmin : ∀ u : Fin M → Fin K → ℝ, (∑ s, proxObj (fun y => l1w (fun j => lmbda / rho * w (s, j)) y + mu / rho * l2 y)
      (row (AX + U) s) (proxSl1l2 (row (AX + U) s) (fun j => lmbda / rho * w (s, j)) (mu / rho))) ≤
      ∑ s, proxObj (fun y => l1w (fun j => lmbda / rho * w (s, j)) y + mu / rho * l2 y)
      (row (AX + U) s) (u s) := by
    intro u
    by_cases hu : u = fun s => proxSl1l2 (row (AX + U) s) (fun j => lmbda / rho * w (s, j)) (mu / rho)
    · rw [hu]
    · exact (hm.2 u trivial hu).le
  exact hmin fun i => row z i

theorem implements_jnt (D : Matrix (Fin N) (Fin M) ℝ) (S : Matrix (Fin N) (Fin K) ℝ) (lmbda mu : ℝ)
    (hl : 0 ≤ lmbda) (hm : 0 ≤ mu) (w : Fin M × Fin K → ℝ) (hw : ∀ i, 0 ≤ w i) (fe ge : Bool) :
    Implements (clsJnt S lmbda mu w false fe ge)
      (lsProblem (dmul D) (arr S) (gJnt lmbda mu w) Set.univ (convex_gJnt lmbda mu hl hm w hw)) (Coh D S) := by
  refine equal_implements _ _ _ _ (ls_convex _ _) (convex_gJnt lmbda mu hl hm w hw) _
    _ _ _ _ (fun _ _ _ _ _ _ h => h) (fun _ _ _ _ _ _ _ h => h)
    (fun _ _ _ _ _ h => coh_rhochange h) ?_ ?_
  · intro rho X Y U h hp hI
    refine ⟨trivial, fun z _ => ?_⟩
    rw [hI]
    exact xstep_min D S rho hp X Y U z
  · intro rho AX X Y U h hp _
    exact ⟨trivial, fun z _ => ystep_jnt_min lmbda mu hl hm w hw rho hp AX X Y U h z⟩

/-- **C39 for `BPDNJoint`** without `NonNegCoef` (with it the Y update is not exact, see
`C22_joint_refuted`). -/
theorem C39_joint (D : Matrix (Fin N) (Fin M) ℝ) (S : Matrix (Fin N) (Fin K) ℝ) (lmbda mu : ℝ)
    (hl : 0 < lmbda) (hm : 0 ≤ mu) (w : Fin M × Fin K → ℝ) (hw : ∀ i, 0 < w i) (fe ge : Bool)
    (o : Opts) (ha : o.autoRho = false) (hrlx : 0 < o.rlx ∧ o.rlx < 2)
    (cb) (hcb : CallbackReads cb) (s : St (Arr M K) (Arr M K) (Arr M K) (Attr N M K)) (hp : 0 < s.rho)
    (hs : s.extra = setdict S s.rho D) :
    ∃ Xopt : Matrix (Fin M) (Fin K) ℝ, IsMin (objJnt D S lmbda mu w) Set.univ Xopt ∧
      Tendsto (fun n => objJnt D S lmbda mu w (mat (traj (clsJnt S lmbda mu w false fe ge) o cb s n).Y))
        atTop (𝓝 (objJnt D S lmbda mu w Xopt)) := by
  have hobj : ∀ y : Arr M K, lsObj (dmul D) (arr S) (gJnt lmbda mu w) y = objJnt D S lmbda mu w (mat y) := by
    intro y
    unfold lsObj objJnt gJnt
    rw [dmul_apply, ← arr_sub, norm_arr, ← l1w_mat, ← add_assoc]
    congr 2
    refine Finset.sum_congr rfl fun i _ => ?_
    unfold l2 Prox.sq
    congr 1
    refine Finset.sum_congr rfl fun j _ => ?_
    rw [Real.norm_eq_abs, sq_abs]; rfl
  obtain ⟨c, hc, hgrow⟩ := l1w_grow w hw lmbda hl
  have hsum : ∀ y : Arr M K, 0 ≤ mu * ∑ i, l2 (row y i) := fun y =>
    mul_nonneg hm (Finset.sum_nonneg fun i _ => l2_nonneg _)
  obtain ⟨x, -, hmin⟩ := ls_exists_min (dmul D) (arr S) (gJnt lmbda mu w) Set.univ isClosed_univ
    ⟨0, trivial⟩ (continuous_gJnt lmbda mu w) c hc (fun y => by
      unfold gJnt; have := hgrow y; have := hsum y; linarith)
  have hconv := ls_convergence (dmul D) (dmul Dᵀ) (dmul_adj D) (arr S) (gJnt lmbda mu w) Set.univ
    (convex_gJnt lmbda mu hl.le hm w fun i => (hw i).le)
    (fun y _ => add_nonneg (mul_nonneg hl.le
      (Finset.sum_nonneg fun i _ => mul_nonneg (hw i).le (norm_nonneg _))) (hsum y))
    (clsJnt S lmbda mu w false fe ge) (Coh D S)
    (implements_jnt D S lmbda mu hl.le hm w (fun i => (hw i).le) fe ge) o ha hrlx cb (hcb.keeps _) s hp hs
    x trivial hmin
  refine ⟨mat x, ⟨trivial, fun Z _ => ?_⟩, ?_⟩
  · have := hmin (arr Z) trivial
    rw [hobj, hobj] at this
    exact this
  · have := hconv.1
    simp only [hobj] at this
    exact this

/-! ## l1 ball constraint -/

/-- Column `j` of an array. -/
def col (y : Arr M K) (j : Fin K) : Fin M → ℝ := fun i => y (i, j)

/-- The constraint set of `BPDNProjL1`: every column in the l1 ball. -/
def prjSet (gamma : ℝ) : Set (Arr M K) := {y | ∀ j, l1 (col y j) ≤ gamma}

theorem convex_prjSet (gamma : ℝ) : Convex ℝ (prjSet gamma : Set (Arr M K)) := by
  intro x hx y hy a b ha hb hab j
  have h : ∀ i, ‖col (a • x + b • y) j i‖ ≤ a * ‖col x j i‖ + b * ‖col y j i‖ := by
    intro i
    have e : col (a • x + b • y) j i = a * col x j i + b * col y j i := rfl
    rw [e]
    refine (norm_add_le _ _).trans (le_of_eq ?_)
    rw [norm_mul, norm_mul, Real.norm_of_nonneg ha, Real.norm_of_nonneg hb]
  have h2 := Finset.sum_le_sum fun i (_ : i ∈ Finset.univ) => h i
  rw [Finset.sum_add_distrib, ← Finset.mul_sum, ← Finset.mul_sum] at h2
  have h3 := mul_le_mul_of_nonneg_left (hx j) ha
  have h4 := mul_le_mul_of_nonneg_left (hy j) hb
  have h5 : a * gamma + b * gamma = gamma := by rw [← add_mul, hab, one_mul]
  change l1 _ ≤ gamma
  unfold l1 at *
  linarith

theorem closed_prjSet (gamma : ℝ) : IsClosed (prjSet gamma : Set (Arr M K)) := by
  have : (prjSet gamma : Set (Arr M K)) = ⋂ j, {y | l1 (col y j) ≤ gamma} := by
    ext y; simp [prjSet]
  rw [this]
  refine isClosed_iInter fun j => isClosed_le ?_ continuous_const
  unfold l1
  exact continuous_finsetSum _ fun i _ => ((EuclideanSpace.proj (i, j) : Arr M K →L[ℝ] ℝ).continuous).norm

theorem bounded_prjSet (gamma : ℝ) : (prjSet gamma : Set (Arr M K)) ⊆ Metric.closedBall 0 (K * gamma) := by
  intro y hy
  rw [mem_closedBall_zero_iff]
  have h1 : ‖y‖ ≤ ∑ p, ‖y.ofLp p‖ := by
    rw [EuclideanSpace.norm_eq]
    apply Real.sqrt_le_iff.2
    exact ⟨Finset.sum_nonneg fun i _ => norm_nonneg _,
      Finset.sum_sq_le_sq_sum_of_nonneg fun i _ => norm_nonneg _⟩
  have h2 : ∑ p, ‖y.ofLp p‖ = ∑ j, l1 (col y j) := by
    rw [Fintype.sum_prod_type, Finset.sum_comm]; rfl
  have h3 := Finset.sum_le_sum fun j (_ : j ∈ Finset.univ) => hy j
  rw [Finset.sum_const, Finset.card_univ, Fintype.card_fin, nsmul_eq_mul] at h3
  linarith

theorem implements_prj (D : Matrix (Fin N) (Fin M) ℝ) (S : Matrix (Fin N) (Fin K) ℝ) (gamma : ℝ)
    (hγ : 0 ≤ gamma) (fe ge : Bool) :
    Implements (clsPrj S gamma false fe ge)
      (lsProblem (dmul D) (arr S) (fun _ => 0) (prjSet gamma)
        (convexOn_const 0 (convex_prjSet gamma))) (Coh D S) := by
  refine equal_implements _ _ _ _ (ls_convex _ _) (convexOn_const 0 (convex_prjSet gamma)) _
    _ _ _ _ (fun _ _ _ _ _ _ h => h) (fun _ _ _ _ _ _ _ h => h)
    (fun _ _ _ _ _ h => coh_rhochange h) ?_ ?_
  · intro rho X Y U h hp hI
    refine ⟨trivial, fun z _ => ?_⟩
    rw [hI]
    exact xstep_min D S rho hp X Y U z
  · intro rho AX X Y U h hp _
    have hm := C18_proj_l1_sort_axis (σ := Fin K) (fun j => col (AX + U) j) gamma hγ
    have e : ∀ z : Arr M K, ‖AX - z + U‖ ^ 2 = 2 * ∑ j, 1 / 2 * Prox.sq (col z j - col (AX + U) j) := by
      intro z
      rw [show AX - z + U = -(z - (AX + U)) by abel, norm_neg, EuclideanSpace.norm_sq_eq,
        Fintype.sum_prod_type, Finset.sum_comm, ← Finset.mul_sum]
      unfold Prox.sq
      rw [← mul_assoc]
      norm_num
      rfl
    refine ⟨hm.1, fun z hz => ?_⟩
    rw [e, e]
    have : ∑ j, 1 / 2 * Prox.sq (col (ystepPrj false gamma rho AX X Y U h).1 j - col (AX + U) j) ≤
        ∑ j, 1 / 2 * Prox.sq (col z j - col (AX + U) j) := by
      by_cases hu : (fun j => col z j) = fun j => projL1SortAxis (col (AX + U) j) gamma
      · have e2 : ∀ j, col z j = projL1SortAxis (col (AX + U) j) gamma := fun j => congrFun hu j
        simp only [e2]
        exact le_rfl
      · exact (hm.2 (fun j => col z j) hz hu).le
    have h2 := mul_le_mul_of_nonneg_left this (mul_nonneg hp.le zero_le_two)
    linarith

/-- **C39 for `BPDNProjL1`** without `NonNegCoef`: the data fidelity term at the returned
array tends to its minimum over the arrays whose columns have l1 norm at most `gamma`, and
every iterate Y is in that set. -/
theorem C39_projl1 (D : Matrix (Fin N) (Fin M) ℝ) (S : Matrix (Fin N) (Fin K) ℝ) (gamma : ℝ)
    (hγ : 0 ≤ gamma) (fe ge : Bool)
    (o : Opts) (ha : o.autoRho = false) (hrlx : 0 < o.rlx ∧ o.rlx < 2)
    (cb) (hcb : CallbackReads cb) (s : St (Arr M K) (Arr M K) (Arr M K) (Attr N M K)) (hp : 0 < s.rho)
    (hs : s.extra = setdict S s.rho D) :
    let C : Set (Matrix (Fin M) (Fin K) ℝ) := {X | ∀ j, ∑ i, |X i j| ≤ gamma}
    let Y := fun n => mat (traj (clsPrj S gamma false fe ge) o cb s n).Y
    ∃ Xopt, IsMin (fun X => 1 / 2 * fro2 (D * X - S)) C Xopt ∧
      Tendsto (fun n => 1 / 2 * fro2 (D * Y n - S)) atTop (𝓝 (1 / 2 * fro2 (D * Xopt - S))) ∧
      ∀ n, Y (n + 1) ∈ C := by
  have hobj : ∀ y : Arr M K, lsObj (dmul D) (arr S) (fun _ => 0) y = 1 / 2 * fro2 (D * mat y - S) := by
    intro y
    unfold lsObj
    rw [dmul_apply, ← arr_sub, norm_arr, add_zero]
  have hcpt : IsCompact (prjSet gamma : Set (Arr M K)) :=
    (isCompact_closedBall 0 (K * gamma)).of_isClosed_subset (closed_prjSet gamma) (bounded_prjSet gamma)
  have hne : (0 : Arr M K) ∈ prjSet gamma := by
    intro j
    have : l1 (col (0 : Arr M K) j) = 0 := by simp [l1, col]
    rw [this]; exact hγ
  obtain ⟨x, hx, hmin⟩ := hcpt.exists_isMinOn ⟨0, hne⟩
    (f := lsObj (dmul D) (arr S) (fun _ => 0)) (by unfold lsObj; fun_prop)
  have hconv := ls_convergence (dmul D) (dmul Dᵀ) (dmul_adj D) (arr S) (fun _ => 0) (prjSet gamma)
    (convexOn_const 0 (convex_prjSet gamma)) (fun _ _ => le_rfl) (clsPrj S gamma false fe ge) (Coh D S)
    (implements_prj D S gamma hγ fe ge) o ha hrlx cb (hcb.keeps _) s hp hs x hx (fun z hz => hmin hz)
  refine ⟨mat x, ⟨hx, fun Z hZ => ?_⟩, ?_, fun n => hconv.2 n⟩
  · have h : arr Z ∈ prjSet gamma := hZ
    have := hmin h
    simp only [Set.mem_ofPred_eq, hobj] at this
    exact this
  · have := hconv.1
    simp only [hobj] at this
    exact this

end Sporco.Admm.Bpdn
