import Verif.Admm.Iterates
import Verif.Admm.BpdnConv2
import Verif.Pgm.Stay

/-!
# C39, C94: iterates of `BPDN`, `ElasticNet`, `BPDNJoint` and `BPDNProjL1`

X and Y converge to a minimiser (C39). Coefficients that are strictly inactive at the
solution are exactly zero in Y from some iteration on (C94).
-/

set_option autoImplicit false

namespace Sporco.Admm.Bpdn

open Matrix Sporco.Linalg Sporco.Prox Filter Topology
open scoped RealInnerProductSpace

variable {N M K : ℕ}

/-! ## Specification -/

/-- A sequence of matrices converges, entry by entry. -/
def ConvTo (X : ℕ → Matrix (Fin M) (Fin K) ℝ) (L : Matrix (Fin M) (Fin K) ℝ) : Prop :=
  ∀ m k, Tendsto (fun n => X n m k) atTop (𝓝 (L m k))

/-- Coefficient `(m, k)` is strictly inactive at `X`: the correlation of atom `m` with the residual of
signal `k` is strictly below the threshold (and, without a sign constraint, strictly above minus the threshold). -/
def Inactive (D : Matrix (Fin N) (Fin M) ℝ) (S : Matrix (Fin N) (Fin K) ℝ) (lmbda : ℝ)
    (w : Fin M × Fin K → ℝ) (nonNeg : Bool) (X : Matrix (Fin M) (Fin K) ℝ) (m : Fin M) (k : Fin K) : Prop :=
  (∑ i, D i m * (S - D * X) i k) < lmbda * w (m, k) ∧
    (nonNeg = false → -(lmbda * w (m, k)) < ∑ i, D i m * (S - D * X) i k)

/-! ## Convergence of the iterates -/

theorem entry_tendsto {x : ℕ → Arr M K} {l : Arr M K} (h : Tendsto x atTop (𝓝 l)) :
    ConvTo (fun n => mat (x n)) (mat l) := fun m k =>
  (((EuclideanSpace.proj (m, k) : Arr M K →L[ℝ] ℝ).continuous).tendsto l).comp h

theorem lsObj_bpdn (D : Matrix (Fin N) (Fin M) ℝ) (S : Matrix (Fin N) (Fin K) ℝ) (lmbda : ℝ)
    (w : Fin M × Fin K → ℝ) (y : Arr M K) :
    lsObj (dmul D) (arr S) (fun y : Arr M K => lmbda * l1w w y.ofLp) y = objBPDN D S lmbda w (mat y) := by
  unfold lsObj objBPDN
  rw [dmul_apply, ← arr_sub, norm_arr, ← l1w_mat]

theorem bpdn_iter (D : Matrix (Fin N) (Fin M) ℝ) (S : Matrix (Fin N) (Fin K) ℝ) (lmbda : ℝ)
    (hl : 0 < lmbda) (w : Fin M × Fin K → ℝ) (hw : ∀ i, 0 < w i) (nonNeg fe ge : Bool)
    (o : Opts) (ha : o.autoRho = false) (hrlx : 0 < o.rlx ∧ o.rlx < 2)
    (cb) (hcb : CallbackReads cb) (s : St (Arr M K) (Arr M K) (Arr M K) (Attr N M K)) (hp : 0 < s.rho)
    (hs : s.extra = setdict S s.rho D) :
    let T := traj (clsBPDN S lmbda w nonNeg fe ge) o cb s
    ∃ x u : Arr M K, IsMin (objBPDN D S lmbda w) (allowed nonNeg) (mat x) ∧
      s.rho • u = -(dmul Dᵀ) (dmul D x - arr S) ∧
      Tendsto (fun n => (T n).X) atTop (𝓝 x) ∧ Tendsto (fun n => (T n).Y) atTop (𝓝 x) ∧
      Tendsto (fun n => (T n).U) atTop (𝓝 u) := by
  obtain ⟨c, hc, hgrow⟩ := l1w_grow w hw lmbda hl
  have hex := ls_exists_min (dmul D) (arr S) (fun y : Arr M K => lmbda * l1w w y.ofLp) (coefs nonNeg)
    (closed_coefs nonNeg) ⟨0, zero_coefs nonNeg⟩ (continuous_const.mul (continuous_l1w w)) c hc hgrow
  obtain ⟨x, u, hx, hmin, hu, h1, h2, h3⟩ := ls_iterates (dmul D) (dmul Dᵀ) (dmul_adj D) (arr S)
    (fun y : Arr M K => lmbda * l1w w y.ofLp) (coefs nonNeg)
    (convex_l1w w (fun i => (hw i).le) _ (convex_coefs nonNeg) lmbda hl.le)
    (continuous_const.mul (continuous_l1w w)) (closed_coefs nonNeg)
    (clsBPDN S lmbda w nonNeg fe ge) (Coh D S)
    (implements_bpdn D S lmbda hl.le w (fun i => (hw i).le) nonNeg fe ge) o ha hrlx cb (hcb.keeps _) s hp hs hex
  refine ⟨x, u, ⟨(coefs_allowed nonNeg x).1 hx, fun Z hZ => ?_⟩, hu, h1, h2, h3⟩
  have := hmin (arr Z) ((coefs_allowed nonNeg (arr Z)).2 hZ)
  rw [lsObj_bpdn, lsObj_bpdn] at this
  exact this

/-- **C39, iterates of `BPDN`.** For every dictionary, signal, positive `lmbda` and weights, with or without
`NonNegCoef`, fixed rho, relaxation parameter in (0, 2), from any start: X and Y themselves converge, to one and the same
minimiser of the BPDN functional. -/
theorem C39_bpdn_iterates (D : Matrix (Fin N) (Fin M) ℝ) (S : Matrix (Fin N) (Fin K) ℝ) (lmbda : ℝ)
    (hl : 0 < lmbda) (w : Fin M × Fin K → ℝ) (hw : ∀ i, 0 < w i) (nonNeg fe ge : Bool)
    (o : Opts) (ha : o.autoRho = false) (hrlx : 0 < o.rlx ∧ o.rlx < 2)
    (cb) (hcb : CallbackReads cb) (s : St (Arr M K) (Arr M K) (Arr M K) (Attr N M K)) (hp : 0 < s.rho)
    (hs : s.extra = setdict S s.rho D) :
    let T := traj (clsBPDN S lmbda w nonNeg fe ge) o cb s
    ∃ Xopt, IsMin (objBPDN D S lmbda w) (allowed nonNeg) Xopt ∧
      ConvTo (fun n => mat (T n).X) Xopt ∧ ConvTo (fun n => mat (T n).Y) Xopt := by
  obtain ⟨x, u, h0, -, h1, h2, -⟩ := bpdn_iter D S lmbda hl w hw nonNeg fe ge o ha hrlx cb hcb s hp hs
  exact ⟨mat x, h0, entry_tendsto h1, entry_tendsto h2⟩

/-- **C39, iterates of `ElasticNet`.** -/
theorem C39_elasticnet_iterates (D : Matrix (Fin N) (Fin M) ℝ) (S : Matrix (Fin N) (Fin K) ℝ) (lmbda mu : ℝ)
    (hl : 0 < lmbda) (hm : 0 ≤ mu) (w : Fin M × Fin K → ℝ) (hw : ∀ i, 0 < w i) (nonNeg fe ge : Bool)
    (o : Opts) (ha : o.autoRho = false) (hrlx : 0 < o.rlx ∧ o.rlx < 2)
    (cb) (hcb : CallbackReads cb) (s : St (Arr M K) (Arr M K) (Arr M K) (Attr N M K)) (hp : 0 < s.rho)
    (hs : s.extra = setdictEN S mu s.rho D) :
    let T := traj (clsEN S lmbda mu w nonNeg fe ge) o cb s
    ∃ Xopt, IsMin (objEN D S lmbda mu w) (allowed nonNeg) Xopt ∧
      ConvTo (fun n => mat (T n).X) Xopt ∧ ConvTo (fun n => mat (T n).Y) Xopt := by
  have hobj : ∀ y : Arr M K, lsObj (enL D mu) (enB S) (fun y : Arr M K => lmbda * l1w w y.ofLp) y =
      objEN D S lmbda mu w (mat y) := by
    intro y
    unfold lsObj objEN
    rw [enL_norm D S mu hm, ← l1w_mat, add_right_comm]
  obtain ⟨c, hc, hgrow⟩ := l1w_grow w hw lmbda hl
  have hex := ls_exists_min (enL D mu) (enB S) (fun y : Arr M K => lmbda * l1w w y.ofLp) (coefs nonNeg)
    (closed_coefs nonNeg) ⟨0, zero_coefs nonNeg⟩ (continuous_const.mul (continuous_l1w w)) c hc hgrow
  obtain ⟨x, u, hx, hmin, -, h1, h2, -⟩ := ls_iterates (enL D mu) (enLT D mu) (enL_adj D mu) (enB S)
    (fun y : Arr M K => lmbda * l1w w y.ofLp) (coefs nonNeg)
    (convex_l1w w (fun i => (hw i).le) _ (convex_coefs nonNeg) lmbda hl.le)
    (continuous_const.mul (continuous_l1w w)) (closed_coefs nonNeg)
    (clsEN S lmbda mu w nonNeg fe ge) (CohEN D S mu)
    (implements_en D S lmbda mu hl.le hm w (fun i => (hw i).le) nonNeg fe ge) o ha hrlx cb (hcb.keeps _) s hp hs hex
  refine ⟨mat x, ⟨(coefs_allowed nonNeg x).1 hx, fun Z hZ => ?_⟩, entry_tendsto h1, entry_tendsto h2⟩
  have := hmin (arr Z) ((coefs_allowed nonNeg (arr Z)).2 hZ)
  rw [hobj, hobj] at this
  exact this

/-- **C39, iterates of `BPDNJoint`** (without `NonNegCoef`). -/
theorem C39_joint_iterates (D : Matrix (Fin N) (Fin M) ℝ) (S : Matrix (Fin N) (Fin K) ℝ) (lmbda mu : ℝ)
    (hl : 0 < lmbda) (hm : 0 ≤ mu) (w : Fin M × Fin K → ℝ) (hw : ∀ i, 0 < w i) (fe ge : Bool)
    (o : Opts) (ha : o.autoRho = false) (hrlx : 0 < o.rlx ∧ o.rlx < 2)
    (cb) (hcb : CallbackReads cb) (s : St (Arr M K) (Arr M K) (Arr M K) (Attr N M K)) (hp : 0 < s.rho)
    (hs : s.extra = setdict S s.rho D) :
    let T := traj (clsJnt S lmbda mu w false fe ge) o cb s
    ∃ Xopt, IsMin (objJnt D S lmbda mu w) Set.univ Xopt ∧
      ConvTo (fun n => mat (T n).X) Xopt ∧ ConvTo (fun n => mat (T n).Y) Xopt := by
  have hobj : ∀ y : Arr M K, lsObj (dmul D) (arr S) (gJnt lmbda mu w) y = objJnt D S lmbda mu w (mat y) := by
    intro y
    unfold lsObj objJnt gJnt
    rw [dmul_apply, ← arr_sub, norm_arr, ← l1w_mat, ← add_assoc]
    congr 2
    refine Finset.sum_congr rfl fun i _ => ?_
    unfold l2 Prox.sq
    congr 1
    refine Finset.sum_congr rfl fun j _ => ?_
    rw [Real.norm_eq_abs, sq_abs]; rfl
  obtain ⟨c, hc, hgrow⟩ := l1w_grow w hw lmbda hl
  have hsum : ∀ y : Arr M K, 0 ≤ mu * ∑ i, l2 (row y i) := fun y =>
    mul_nonneg hm (Finset.sum_nonneg fun i _ => l2_nonneg _)
  have hex := ls_exists_min (dmul D) (arr S) (gJnt lmbda mu w) Set.univ isClosed_univ
    ⟨0, trivial⟩ (continuous_gJnt lmbda mu w) c hc (fun y => by
      unfold gJnt; have := hgrow y; have := hsum y; linarith)
  obtain ⟨x, u, hx, hmin, -, h1, h2, -⟩ := ls_iterates (dmul D) (dmul Dᵀ) (dmul_adj D) (arr S) (gJnt lmbda mu w) Set.univ
    (convex_gJnt lmbda mu hl.le hm w fun i => (hw i).le) (continuous_gJnt lmbda mu w) isClosed_univ
    (clsJnt S lmbda mu w false fe ge) (Coh D S)
    (implements_jnt D S lmbda mu hl.le hm w (fun i => (hw i).le) fe ge) o ha hrlx cb (hcb.keeps _) s hp hs hex
  refine ⟨mat x, ⟨trivial, fun Z _ => ?_⟩, entry_tendsto h1, entry_tendsto h2⟩
  have := hmin (arr Z) trivial
  rw [hobj, hobj] at this
  exact this

/-- **C39, iterates of `BPDNProjL1`** (without `NonNegCoef`). -/
theorem C39_projl1_iterates (D : Matrix (Fin N) (Fin M) ℝ) (S : Matrix (Fin N) (Fin K) ℝ) (gamma : ℝ)
    (hγ : 0 ≤ gamma) (fe ge : Bool)
    (o : Opts) (ha : o.autoRho = false) (hrlx : 0 < o.rlx ∧ o.rlx < 2)
    (cb) (hcb : CallbackReads cb) (s : St (Arr M K) (Arr M K) (Arr M K) (Attr N M K)) (hp : 0 < s.rho)
    (hs : s.extra = setdict S s.rho D) :
    let C : Set (Matrix (Fin M) (Fin K) ℝ) := {X | ∀ j, ∑ i, |X i j| ≤ gamma}
    let T := traj (clsPrj S gamma false fe ge) o cb s
    ∃ Xopt, IsMin (fun X => 1 / 2 * fro2 (D * X - S)) C Xopt ∧
      ConvTo (fun n => mat (T n).X) Xopt ∧ ConvTo (fun n => mat (T n).Y) Xopt := by
  have hobj : ∀ y : Arr M K, lsObj (dmul D) (arr S) (fun _ => 0) y = 1 / 2 * fro2 (D * mat y - S) := by
    intro y
    unfold lsObj
    rw [dmul_apply, ← arr_sub, norm_arr, add_zero]
  have hcpt : IsCompact (prjSet gamma : Set (Arr M K)) :=
    (isCompact_closedBall 0 (K * gamma)).of_isClosed_subset (closed_prjSet gamma) (bounded_prjSet gamma)
  have hne : (0 : Arr M K) ∈ prjSet gamma := by
    intro j
    have : l1 (col (0 : Arr M K) j) = 0 := by simp [l1, col]
    rw [this]; exact hγ
  obtain ⟨x0, hx0, hmin0⟩ := hcpt.exists_isMinOn ⟨0, hne⟩
    (f := lsObj (dmul D) (arr S) (fun _ => 0)) (by unfold lsObj; fun_prop)
  obtain ⟨x, u, hx, hmin, -, h1, h2, -⟩ := ls_iterates (dmul D) (dmul Dᵀ) (dmul_adj D) (arr S) (fun _ => 0) (prjSet gamma)
    (convexOn_const 0 (convex_prjSet gamma)) continuous_const (closed_prjSet gamma) (clsPrj S gamma false fe ge) (Coh D S)
    (implements_prj D S gamma hγ fe ge) o ha hrlx cb (hcb.keeps _) s hp hs ⟨x0, hx0, fun z hz => hmin0 hz⟩
  refine ⟨mat x, ⟨hx, fun Z hZ => ?_⟩, entry_tendsto h1, entry_tendsto h2⟩
  have h : arr Z ∈ prjSet gamma := hZ
  have := hmin _ h
  rw [hobj, hobj] at this
  exact this

/-! ## Inactive coefficients -/

/-- The dual variable after an iteration tells which branch of the shrinkage was taken. -/
theorem shrink_dual (nonNeg : Bool) (v t : ℝ)
    (h : (if nonNeg then (if proxL1 v t < 0 then 0 else proxL1 v t) else proxL1 v t) ≠ 0) :
    v - (if nonNeg then (if proxL1 v t < 0 then 0 else proxL1 v t) else proxL1 v t) = t ∨
    (nonNeg = false ∧ v - proxL1 v t = -t) := by
  have hcase : proxL1 v t = 0 ∨ (0 < proxL1 v t ∧ v - proxL1 v t = t) ∨ (proxL1 v t < 0 ∧ v - proxL1 v t = -t) := by
    unfold proxL1 npSign
    rcases lt_trichotomy v 0 with hv | hv | hv
    · rw [if_neg (not_lt.2 hv.le), if_pos hv, abs_of_neg hv]
      rcases le_or_gt (-v - t) 0 with h1 | h1
      · left; rw [max_eq_right h1]; ring
      · right; right; rw [max_eq_left h1.le]; constructor <;> linarith
    · left; subst hv; simp
    · rw [if_pos hv, abs_of_pos hv]
      rcases le_or_gt (v - t) 0 with h1 | h1
      · left; rw [max_eq_right h1]; ring
      · right; left; rw [max_eq_left h1.le]; constructor <;> linarith
  cases nonNeg
  · simp only [Bool.false_eq_true, if_false] at h ⊢
    rcases hcase with h1 | h1 | h1
    · exact absurd h1 h
    · exact Or.inl h1.2
    · exact Or.inr ⟨trivial, h1.2⟩
  · simp only [if_true] at h ⊢
    rcases hcase with h1 | h1 | h1
    · rw [if_neg (by rw [h1]; exact lt_irrefl _)] at h
      exact absurd h1 h
    · rw [if_neg (not_lt.2 h1.1.le)]
      exact Or.inl h1.2
    · rw [if_pos h1.1] at h
      exact absurd rfl h

/-- Where Y is not zero after an iteration, U sits at the threshold. -/
theorem dual_at_threshold (S : Matrix (Fin N) (Fin K) ℝ) (lmbda : ℝ)
    (w : Fin M × Fin K → ℝ) (nonNeg fe ge : Bool) (o : Opts) (ha : o.autoRho = false)
    (cb) (s : St (Arr M K) (Arr M K) (Arr M K) (Attr N M K)) (hp : 0 < s.rho) (n : ℕ) (m : Fin M) (k : Fin K)
    (h : (traj (clsBPDN S lmbda w nonNeg fe ge) o cb s (n + 1)).Y (m, k) ≠ 0) :
    s.rho * (traj (clsBPDN S lmbda w nonNeg fe ge) o cb s (n + 1)).U (m, k) = lmbda * w (m, k) ∨
    (nonNeg = false ∧ s.rho * (traj (clsBPDN S lmbda w nonNeg fe ge) o cb s (n + 1)).U (m, k) = -(lmbda * w (m, k))) := by
  set T := traj (clsBPDN S lmbda w nonNeg fe ge) o cb s with hT
  have hstep := oneIter_steps (clsBPDN S lmbda w nonNeg fe ge) o ha cb (T n)
  have hY : (T (n + 1)).Y = (steps (clsBPDN S lmbda w nonNeg fe ge) o (T n)).Y := by rw [hT, traj_succ]; exact hstep.2.1
  have hU : (T (n + 1)).U = (steps (clsBPDN S lmbda w nonNeg fe ge) o (T n)).U := by rw [hT, traj_succ]; exact hstep.2.2.1
  have hrho : (T n).rho = s.rho := traj_rho _ o ha cb s n
  set V := (steps (clsBPDN S lmbda w nonNeg fe ge) o (T n)).AX + (T n).U with hV
  have hY' : (steps (clsBPDN S lmbda w nonNeg fe ge) o (T n)).Y =
      WithLp.toLp 2 (gystep nonNeg (proxL1Arr V.ofLp fun i => lmbda / (T n).rho * w i)) := rfl
  have hU' : (steps (clsBPDN S lmbda w nonNeg fe ge) o (T n)).U =
      V - (steps (clsBPDN S lmbda w nonNeg fe ge) o (T n)).Y := by
    have : (steps (clsBPDN S lmbda w nonNeg fe ge) o (T n)).U = Equal.ustep
      (steps (clsBPDN S lmbda w nonNeg fe ge) o (T n)).AX (steps (clsBPDN S lmbda w nonNeg fe ge) o (T n)).Y (T n).U := rfl
    rw [this]
    unfold Equal.ustep Equal.rsdlR
    rw [hV]; abel
  have hYmk : (T (n + 1)).Y (m, k) = if nonNeg then (if proxL1 (V (m, k)) (lmbda / s.rho * w (m, k)) < 0 then 0
      else proxL1 (V (m, k)) (lmbda / s.rho * w (m, k))) else proxL1 (V (m, k)) (lmbda / s.rho * w (m, k)) := by
    rw [hY, hY', hrho]
    cases nonNeg <;> rfl
  have hUmk : (T (n + 1)).U (m, k) = V (m, k) - (T (n + 1)).Y (m, k) := by
    rw [hU, hU', hY]; rfl
  have e : s.rho * (lmbda / s.rho * w (m, k)) = lmbda * w (m, k) := by field_simp
  rw [hYmk] at h
  rcases shrink_dual nonNeg _ _ h with h1 | ⟨h0, h1⟩
  · left
    rw [hUmk, hYmk, h1, e]
  · right
    refine ⟨h0, ?_⟩
    rw [hUmk, hYmk, h0]
    simp only [Bool.false_eq_true, if_false]
    rw [h1, mul_neg, e]

/-- Two minimisers have the same reconstruction. -/
theorem recon_unique (D : Matrix (Fin N) (Fin M) ℝ) (S : Matrix (Fin N) (Fin K) ℝ) (lmbda : ℝ)
    (hl : 0 ≤ lmbda) (w : Fin M × Fin K → ℝ) (hw : ∀ i, 0 ≤ w i) (nonNeg : Bool)
    {X Z : Matrix (Fin M) (Fin K) ℝ} (hX : IsMin (objBPDN D S lmbda w) (allowed nonNeg) X)
    (hZ : IsMin (objBPDN D S lmbda w) (allowed nonNeg) Z) : D * X = D * Z := by
  have hg := convex_l1w w hw _ (convex_coefs (ι := Fin M × Fin K) nonNeg) lmbda hl
  have hx := (coefs_allowed nonNeg (arr X)).2 hX.1
  have hz := (coefs_allowed nonNeg (arr Z)).2 hZ.1
  have hmem := hg.1 hx hz (by norm_num : (0 : ℝ) ≤ 1 / 2) (by norm_num : (0 : ℝ) ≤ 1 / 2) (by norm_num)
  have h1 := hg.2 hx hz (by norm_num : (0 : ℝ) ≤ 1 / 2) (by norm_num : (0 : ℝ) ≤ 1 / 2) (by norm_num)
  have h2 := hX.2 _ ((coefs_allowed nonNeg _).1 hmem)
  have h3 := hZ.2 X hX.1
  have e1 := lsObj_bpdn D S lmbda w (arr X)
  have e2 := lsObj_bpdn D S lmbda w (arr Z)
  have e3 := lsObj_bpdn D S lmbda w ((1 / 2 : ℝ) • arr X + (1 / 2 : ℝ) • arr Z)
  rw [mat_arr] at e1 e2
  rw [← e1, ← e3] at h2
  rw [← e1, ← e2] at h3
  unfold lsObj at h2 h3
  simp only [smul_eq_mul] at h1
  set a := dmul D (arr X) - arr S with hadef
  set b := dmul D (arr Z) - arr S with hbdef
  have e4 : dmul D ((1 / 2 : ℝ) • arr X + (1 / 2 : ℝ) • arr Z) - arr S = (1 / 2 : ℝ) • (a + b) := by
    rw [map_add, map_smul, map_smul, hadef, hbdef]; module
  rw [e4, norm_smul, mul_pow] at h2
  have h5 := parallelogram_law_with_norm ℝ a b
  have h6 : ‖a - b‖ ^ 2 ≤ 0 := by
    rw [Real.norm_of_nonneg (by norm_num : (0 : ℝ) ≤ 1 / 2)] at h2
    nlinarith
  have h7 : a - b = 0 := by
    rw [← norm_eq_zero]; exact pow_eq_zero_iff two_ne_zero |>.1 (le_antisymm h6 (sq_nonneg _))
  have h8 : dmul D (arr X) = dmul D (arr Z) := by
    have : a - b = dmul D (arr X) - dmul D (arr Z) := by rw [hadef, hbdef]; abel
    exact sub_eq_zero.1 (this ▸ h7)
  rw [dmul_apply, dmul_apply, mat_arr, mat_arr] at h8
  exact congrArg mat h8

/-- **C94.** For every dictionary, signal, positive `lmbda` and weights, with or without `NonNegCoef`, fixed rho,
relaxation parameter in (0, 2), from any start: there is an iteration from which on every coefficient that is strictly
inactive at a minimiser of the BPDN functional is exactly zero in the array `solve()` returns. It does not matter which
minimiser is taken. -/
theorem C94_bpdn (D : Matrix (Fin N) (Fin M) ℝ) (S : Matrix (Fin N) (Fin K) ℝ) (lmbda : ℝ)
    (hl : 0 < lmbda) (w : Fin M × Fin K → ℝ) (hw : ∀ i, 0 < w i) (nonNeg fe ge : Bool)
    (o : Opts) (ha : o.autoRho = false) (hrlx : 0 < o.rlx ∧ o.rlx < 2)
    (cb) (hcb : CallbackReads cb) (s : St (Arr M K) (Arr M K) (Arr M K) (Attr N M K)) (hp : 0 < s.rho)
    (hs : s.extra = setdict S s.rho D) (Xopt : Matrix (Fin M) (Fin K) ℝ)
    (hopt : IsMin (objBPDN D S lmbda w) (allowed nonNeg) Xopt) :
    ∃ n0, ∀ n ≥ n0, ∀ m k, Inactive D S lmbda w nonNeg Xopt m k →
      mat (traj (clsBPDN S lmbda w nonNeg fe ge) o cb s n).Y m k = 0 := by
  obtain ⟨x, u, h0, hu, -, -, hU⟩ := bpdn_iter D S lmbda hl w hw nonNeg fe ge o ha hrlx cb hcb s hp hs
  set T := traj (clsBPDN S lmbda w nonNeg fe ge) o cb s with hT
  have hrec := recon_unique D S lmbda hl.le w (fun i => (hw i).le) nonNeg h0 hopt
  have hcorr : ∀ m k, s.rho * u (m, k) = ∑ i, D i m * (S - D * Xopt) i k := by
    intro m k
    have h1 : (s.rho • u) (m, k) = (-(dmul Dᵀ) (dmul D x - arr S)) (m, k) := by rw [hu]
    have h2 : (s.rho • u) (m, k) = s.rho * u (m, k) := rfl
    rw [h2] at h1
    rw [h1, dmul_apply, dmul_apply, hrec]
    change -((Dᵀ * (D * Xopt - S)) m k) = _
    rw [Matrix.mul_apply, ← Finset.sum_neg_distrib]
    refine Finset.sum_congr rfl fun i _ => ?_
    rw [Matrix.transpose_apply, Matrix.sub_apply, Matrix.sub_apply]; ring
  have hev : ∀ p : Fin M × Fin K, ∀ᶠ n in atTop, Inactive D S lmbda w nonNeg Xopt p.1 p.2 → (T (n + 1)).Y p = 0 := by
    rintro ⟨m, k⟩
    by_cases hin : Inactive D S lmbda w nonNeg Xopt m k
    · have h1 : Tendsto (fun n => s.rho * (T (n + 1)).U (m, k)) atTop (𝓝 (s.rho * u (m, k))) :=
        ((((EuclideanSpace.proj (m, k) : Arr M K →L[ℝ] ℝ).continuous).tendsto u).comp
          ((tendsto_add_atTop_iff_nat 1).2 hU)).const_mul _
      rw [hcorr] at h1
      have h2 := h1.eventually (gt_mem_nhds hin.1)
      have h3 : ∀ᶠ n in atTop, nonNeg = false → -(lmbda * w (m, k)) < s.rho * (T (n + 1)).U (m, k) := by
        by_cases hb : nonNeg = false
        · filter_upwards [h1.eventually (lt_mem_nhds (hin.2 hb))] with n hn _ using hn
        · exact Eventually.of_forall fun n h => absurd h hb
      filter_upwards [h2, h3] with n hn2 hn3 _
      by_contra hne
      rcases dual_at_threshold S lmbda w nonNeg fe ge o ha cb s hp n m k hne with h | ⟨hb, h⟩
      · rw [← hT] at h; linarith
      · rw [← hT] at h
        have := hn3 hb
        linarith
    · exact Eventually.of_forall fun n h => absurd h hin
  obtain ⟨n0, hn0⟩ := eventually_atTop.1 (eventually_all.2 hev)
  refine ⟨n0 + 1, fun n hn m k hin => ?_⟩
  obtain ⟨j, rfl⟩ : ∃ j, n = j + 1 := ⟨n - 1, by omega⟩
  exact hn0 j (by omega) (m, k) hin

/-- **C94.** When every correlation of an atom with a signal is strictly below the threshold, the returned array is exactly
zero after finitely many iterations. -/
theorem C94_bpdn_zero (D : Matrix (Fin N) (Fin M) ℝ) (S : Matrix (Fin N) (Fin K) ℝ) (lmbda : ℝ)
    (hl : 0 < lmbda) (w : Fin M × Fin K → ℝ) (hw : ∀ i, 0 < w i) (nonNeg fe ge : Bool)
    (o : Opts) (ha : o.autoRho = false) (hrlx : 0 < o.rlx ∧ o.rlx < 2)
    (cb) (hcb : CallbackReads cb) (s : St (Arr M K) (Arr M K) (Arr M K) (Attr N M K)) (hp : 0 < s.rho)
    (hs : s.extra = setdict S s.rho D)
    (hc : ∀ m k, (∑ i, D i m * S i k) < lmbda * w (m, k) ∧
      (nonNeg = false → -(lmbda * w (m, k)) < ∑ i, D i m * S i k)) :
    ∃ n0, ∀ n ≥ n0, (traj (clsBPDN S lmbda w nonNeg fe ge) o cb s n).Y = 0 := by
  have hopt : IsMin (objBPDN D S lmbda w) (allowed nonNeg) 0 :=
    (Pgm.C93_bpdn_critical D S lmbda hl.le w (fun i => (hw i).le) nonNeg).2
      fun m k => ⟨(hc m k).1.le, fun h => ((hc m k).2 h).le⟩
  obtain ⟨n0, hn0⟩ := C94_bpdn D S lmbda hl w hw nonNeg fe ge o ha hrlx cb hcb s hp hs 0 hopt
  refine ⟨n0, fun n hn => ?_⟩
  ext ⟨m, k⟩
  refine hn0 n hn m k ?_
  unfold Inactive
  rw [Matrix.mul_zero, sub_zero]
  exact hc m k

/-- The hypotheses are met by the atoms 2 and 1, the signal 6 and `lmbda = 4`: the solution is (2, 0), and the second
coefficient is strictly inactive there. -/
example : IsMin (objBPDN (!![2, 1] : Matrix (Fin 1) (Fin 2) ℝ) (!![6] : Matrix (Fin 1) (Fin 1) ℝ) 4 fun _ => 1)
      (allowed false) !![2; 0] ∧
    Inactive (!![2, 1] : Matrix (Fin 1) (Fin 2) ℝ) (!![6] : Matrix (Fin 1) (Fin 1) ℝ) 4 (fun _ => 1) false !![2; 0] 1 0 ∧
    ¬Inactive (!![2, 1] : Matrix (Fin 1) (Fin 2) ℝ) (!![6] : Matrix (Fin 1) (Fin 1) ℝ) 4 (fun _ => 1) false !![2; 0] 0 0 := by
  refine ⟨⟨by simp [allowed], fun Z _ => ?_⟩, ?_, ?_⟩
  · simp only [objBPDN, fro2, l1wMat, Fin.sum_univ_two, Fin.sum_univ_one, Matrix.sub_apply, Matrix.mul_apply]
    simp
    have h1 := le_abs_self (Z 0 0)
    have h2 := le_abs_self (Z 1 0)
    have h3 := abs_nonneg (Z 1 0)
    nlinarith [sq_nonneg (2 * Z 0 0 + Z 1 0 - 4)]
  · simp [Inactive]
    norm_num
  · simp [Inactive]
    norm_num

/-- The same atoms and signal with `lmbda = 13`: every correlation is strictly below the threshold. -/
example : ∀ (m : Fin 2) (k : Fin 1), (∑ i, (!![2, 1] : Matrix (Fin 1) (Fin 2) ℝ) i m * (!![6] : Matrix (Fin 1) (Fin 1) ℝ) i k) <
      13 * (fun _ => 1 : Fin 2 × Fin 1 → ℝ) (m, k) ∧
    (false = false → -(13 * (fun _ => 1 : Fin 2 × Fin 1 → ℝ) (m, k)) <
      ∑ i, (!![2, 1] : Matrix (Fin 1) (Fin 2) ℝ) i m * (!![6] : Matrix (Fin 1) (Fin 1) ℝ) i k) := by
  intro m k
  fin_cases m <;> fin_cases k <;> norm_num

end Sporco.Admm.Bpdn
