import Verif.Admm.L2Ball

/-!
# `MinL1InL2Ball` (C39, C40, C37)

The array returned by `solve()` tends to a feasible one, and its l1 norm to the smallest l1 norm of
a feasible array, provided some array meets the constraint strictly.
-/

set_option autoImplicit false
set_option linter.unusedSectionVars false

namespace Sporco.Admm.Bpdn

open Matrix Sporco.Linalg Sporco.Prox Filter Topology
open scoped RealInnerProductSpace

variable {N M K : ℕ}

/-! ## Specification -/

/-- l2 norm of a column. -/
noncomputable def colNorm (A : Matrix (Fin N) (Fin K) ℝ) (k : Fin K) : ℝ := Real.sqrt (∑ i, A i k ^ 2)

/-- Coefficient arrays satisfying the constraint of `MinL1InL2Ball` (documentation of the class):
`‖D x - s‖₂ ≤ ε` for every column, and no negative entry with `NonNegCoef`. -/
def feasML1 (D : Matrix (Fin N) (Fin M) ℝ) (S : Matrix (Fin N) (Fin K) ℝ) (eps : ℝ) (nonNeg : Bool) :
    Set (Matrix (Fin M) (Fin K) ℝ) :=
  {X | X ∈ allowed nonNeg ∧ ∀ k, colNorm (D * X - S) k ≤ eps}

/-! ## Proof -/

/-- Columns as slices. -/
def colEquiv (N K : ℕ) : Fin K × Fin N ≃ Fin N × Fin K := Equiv.prodComm _ _

theorem colNorm_slice (y : Arr N K) (k : Fin K) : l2 (slice (colEquiv N K) y k) = colNorm (mat y) k := by
  unfold l2 Prox.sq colNorm
  congr 1
  refine Finset.sum_congr rfl fun i _ => ?_
  rw [Real.norm_eq_abs, sq_abs]
  rfl

/-- The set the second block is confined to. -/
def ball1 (S : Arr N K) (eps : ℝ) : Set (Arr N K) := {y | y - S ∈ sball (colEquiv N K) eps}

theorem convex_ball1 (S : Arr N K) (eps : ℝ) : Convex ℝ (ball1 S eps) := by
  have := (convex_sball (colEquiv N K) eps).translate_preimage_left (-S)
  have e : ball1 S eps = (fun z => z + -S) ⁻¹' sball (colEquiv N K) eps := by
    ext y; simp [ball1, sub_eq_add_neg]
  rw [e]; exact this

theorem exact_ml1 (D : Matrix (Fin N) (Fin M) ℝ) (S : Arr N K) (eps : ℝ) (he : 0 ≤ eps) (nonNeg : Bool)
    (w : Fin M × Fin K → ℝ) (hw : ∀ i, 0 ≤ w i) (av : Bool) :
    TbExact (clsML1 D S eps nonNeg w av) (ContinuousLinearMap.id ℝ _) (ContinuousLinearMap.id ℝ _)
      (dmul D) (dmul Dᵀ) 0 0 (fun y => l1w w y.ofLp) (coefs nonNeg) (fun _ => 0) (ball1 S eps)
      (fun _ h => h = setdictML1 D) := by
  refine ⟨fun _ _ _ => rfl, fun _ _ _ => rfl, fun _ _ => rfl, fun rho yp y u => ?_,
    fun ax y => ?_, fun rho u hr => mul_nonneg hr (norm_nonneg _), fun _ _ _ _ _ _ h => h,
    fun _ _ _ _ _ _ _ h => h, fun _ _ _ _ _ h => h, ?_, ?_, ?_⟩
  · rw [norm_smul]
    change ‖rho * ‖_‖‖ = _
    rw [norm_mul, norm_norm]
    rfl
  · change 0 ≤ TwoBlock.rsdlRn 0 0 ax y
    unfold TwoBlock.rsdlRn
    positivity
  · intro rho X Y U h hp hI z
    subst hI
    have hm := C40_minl1_xstep D 2 two_pos X Y U
    have key : ∀ z : Arr M K, ‖(ContinuousLinearMap.id ℝ (Arr M K)) z - (Y.fst - U.fst + 0)‖ ^ 2 +
        ‖dmul D z - (Y.snd - U.snd + 0)‖ ^ 2 =
        augML1 D 2 (mat Y.fst) (mat U.fst) (mat Y.snd) (mat U.snd) (mat z) := by
      intro z
      unfold augML1
      rw [div_self two_ne_zero, one_mul, add_zero, add_zero, dmul_apply]
      rw [show (ContinuousLinearMap.id ℝ (Arr M K)) z - (Y.fst - U.fst) = z - Y.fst + U.fst by
        rw [ContinuousLinearMap.id_apply]; abel,
        show arr (D * mat z) - (Y.snd - U.snd) = arr (D * mat z) - Y.snd + U.snd by abel,
        norm_mat, norm_mat]
      rfl
    rw [key, key]
    by_cases hz : mat z = mat (xstepML1 2 X Y U (setdictML1 D)).1
    · rw [hz]; exact le_rfl
    · exact (hm.2 _ trivial hz).le
  · intro rho AX X Y U h hp _
    have hm := C22_l1_partial nonNeg (AX.fst + U.fst).ofLp w 1 rho one_pos.le hp hw
    have hy : (ystepML1 S eps nonNeg w rho AX X Y U h).1.fst.ofLp = ystepL1 nonNeg (AX.fst + U.fst).ofLp w 1 rho := by
      unfold ystepML1 ystepL1
      have e : (fun i => w i / rho) = fun i => 1 / rho * w i := by funext i; ring
      simp only [e]
      rfl
    have e : ∀ z : Arr M K, yObj (fun y => 1 * l1w w y) rho (AX.fst + U.fst).ofLp z.ofLp =
        l1w w z.ofLp + rho / 2 * ‖AX.fst + U.fst - 0 - z‖ ^ 2 := by
      intro z
      unfold yObj
      rw [sq_norm, sub_zero]
      beta_reduce
      rw [one_mul]
      rfl
    change (ystepML1 S eps nonNeg w rho AX X Y U h).1.fst ∈ coefs nonNeg ∧ _
    refine ⟨?_, fun z hz => ?_⟩
    · unfold coefs
      rw [Set.mem_ofPred_eq, hy]
      exact hm.1
    · rw [← e z]
      have := hm.isMin.2 z.ofLp hz
      rw [← hy, e] at this
      exact this
  · intro rho AX X Y U h hp _
    have hm := sproj_min (colEquiv N K) eps he (AX.snd + U.snd - S)
    have hy : (ystepML1 S eps nonNeg w rho AX X Y U h).1.snd =
        S + sproj (colEquiv N K) eps (AX.snd + U.snd - S) := rfl
    change (ystepML1 S eps nonNeg w rho AX X Y U h).1.snd ∈ ball1 S eps ∧ _
    refine ⟨?_, fun z hz => ?_⟩
    · rw [hy]
      unfold ball1
      rw [Set.mem_ofPred_eq, add_sub_cancel_left]
      exact hm.1
    · have := hm.2 (z - S) hz
      change (0 : ℝ) + rho / 2 * ‖AX.snd + U.snd - 0 - (ystepML1 S eps nonNeg w rho AX X Y U h).1.snd‖ ^ 2 ≤ _
      rw [hy]
      rw [show AX.snd + U.snd - S - (z - S) = AX.snd + U.snd - 0 - z by abel,
        show AX.snd + U.snd - S - sproj (colEquiv N K) eps (AX.snd + U.snd - S) =
          AX.snd + U.snd - 0 - (S + sproj (colEquiv N K) eps (AX.snd + U.snd - S)) by abel] at this
      have := mul_le_mul_of_nonneg_left this (half_pos hp).le
      linarith

theorem mem_feas (D : Matrix (Fin N) (Fin M) ℝ) (S : Arr N K) (eps : ℝ) (nonNeg : Bool) (x : Arr M K) :
    mat x ∈ feasML1 D (mat S) eps nonNeg ↔ x ∈ coefs nonNeg ∧ dmul D x - 0 ∈ ball1 S eps := by
  unfold feasML1
  rw [Set.mem_ofPred_eq, ← coefs_allowed, sub_zero]
  refine and_congr_right fun _ => ?_
  unfold ball1 sball
  simp only [Set.mem_ofPred_eq, colNorm_slice]
  rfl

/-- **C39 for `MinL1InL2Ball`.** For every dictionary and signal and positive weights, with or without
`NonNegCoef`, if some allowed array meets the constraint strictly: the problem has a solution, the l1
norm of the array `solve()` would return tends to the smallest one, and the array comes arbitrarily
close to satisfying the constraints.  Fixed rho, relaxation parameter in (0, 2), any start. -/
theorem C39_minl1 (D : Matrix (Fin N) (Fin M) ℝ) (S : Arr N K) (eps : ℝ) (he : 0 < eps) (nonNeg : Bool)
    (w : Fin M × Fin K → ℝ) (hw : ∀ i, 0 < w i) (av : Bool)
    (Xb : Matrix (Fin M) (Fin K) ℝ) (hXb : Xb ∈ allowed nonNeg)
    (hsl : ∀ k, colNorm (D * Xb - mat S) k < eps)
    (o : Opts) (ha : o.autoRho = false) (hrlx : 0 < o.rlx ∧ o.rlx < 2) (cb) (hcb : CallbackReads cb)
    (s : St (Arr M K) (Y2 N M K) (Y2 N M K) (AttrML1 N M)) (hp : 0 < s.rho)
    (hs : s.extra = setdictML1 D) :
    let T := traj (clsML1 D S eps nonNeg w av) o cb s
    ∃ Xopt : Matrix (Fin M) (Fin K) ℝ, IsMin (l1wMat w) (feasML1 D (mat S) eps nonNeg) Xopt ∧
      Tendsto (fun n => l1wMat w (mat (T n).X)) atTop (𝓝 (l1wMat w Xopt)) ∧
      ∀ d > 0, ∀ᶠ n in atTop, (nonNeg = true → ∀ i j, -d ≤ mat (T n).X i j) ∧
        ∀ k, colNorm (D * mat (T n).X - mat S) k ≤ eps + d := by
  intro T
  have hw0 : ∀ i, 0 ≤ w i := fun i => (hw i).le
  -- existence of a solution
  obtain ⟨c, hc, hgrow⟩ := l1w_grow w hw 1 one_pos
  have hXb' : arr Xb ∈ coefs nonNeg := (coefs_allowed nonNeg (arr Xb)).2 hXb
  have hstr : ∀ k, l2 (slice (colEquiv N K) (dmul D (arr Xb) - S) k) < eps := by
    intro k
    rw [colNorm_slice]
    exact hsl k
  have hcl : IsClosed {x : Arr M K | x ∈ coefs nonNeg ∧ dmul D x - 0 ∈ ball1 S eps} := by
    refine (closed_coefs nonNeg).inter ?_
    refine (closed_sball (colEquiv N K) eps).preimage (f := fun x : Arr M K => dmul D x - 0 - S) ?_
    fun_prop
  obtain ⟨x, ⟨hx, hx1⟩, hmin⟩ := ls_exists_min (0 : Arr M K →L[ℝ] Arr M K) 0 (fun y => 1 * l1w w y.ofLp) _ hcl
    ⟨arr Xb, hXb', by rw [sub_zero]; exact fun k => (hstr k).le⟩
    (continuous_const.mul (continuous_l1w w)) c hc hgrow
  have hmin' : ∀ z ∈ coefs nonNeg, dmul D z - 0 ∈ ball1 S eps → l1w w x.ofLp ≤ l1w w z.ofLp := by
    intro z hz hz1
    have := hmin z ⟨hz, hz1⟩
    simpa [lsObj] using this
  -- a multiplier
  have hg0 : ConvexOn ℝ (coefs nonNeg) (fun y : Arr M K => l1w w y.ofLp) := by
    have := convex_l1w w hw0 _ (convex_coefs nonNeg) 1 one_pos.le
    simpa only [one_mul] using this
  have hg1 : ConvexOn ℝ (ball1 S eps) (fun _ : Arr N K => (0 : ℝ)) := convexOn_const 0 (convex_ball1 S eps)
  have hint : dmul D (arr Xb) - 0 ∈ interior (ball1 S eps) := by
    rw [sub_zero]
    have h1 := interior_sball (colEquiv N K) eps _ hstr
    have hcont : Continuous fun y : Arr N K => y - S := by fun_prop
    have h2 : (fun y : Arr N K => y - S) ⁻¹' interior (sball (colEquiv N K) eps) ⊆ interior (ball1 S eps) :=
      interior_maximal (fun y hy => interior_subset (s := sball (colEquiv N K) eps) hy)
        (isOpen_interior.preimage hcont)
    exact h2 h1
  obtain ⟨l, hl⟩ := exists_multiplier (dmul D) 0 (fun y : Arr M K => l1w w y.ofLp) (coefs nonNeg)
    (fun _ => 0) (ball1 S eps) hg0 hg1 (l1w w x.ofLp) (fun z hz hz1 => by
      rw [add_zero]; exact hmin' z hz hz1) (arr Xb) hXb' hint
  have hsad := tb_saddle' (A1 := dmul D) (A1T := dmul Dᵀ) (c1 := 0) (g1 := fun _ => (0 : ℝ)) (dmul_adj D)
    (fun y : Arr M K => l1w w y.ofLp) (coefs nonNeg) hg0 hg1 x hx hx1 l (fun z hz y hy => by
      have := hl z hz y hy
      linarith)
  have hconv := (exact_ml1 D S eps he.le nonNeg w hw0 av).convergence (fun _ _ => rfl) (dmul_adj D)
    hg0 hg1 o ha hrlx cb (hcb.keeps _) s hp hs _ _ _ hsad
  obtain ⟨-, -, h3, h4, h5, h6⟩ := hconv
  have h4' : Tendsto (fun n => (T n).X - (T n).Y.fst) atTop (𝓝 0) :=
    h4.congr fun n => by rw [sub_zero]; rfl
  have h5' : Tendsto (fun n => dmul D (T n).X - (T n).Y.snd) atTop (𝓝 0) :=
    h5.congr fun n => by rw [sub_zero]
  have h3' : Tendsto (fun n => l1w w (T n).Y.fst.ofLp) atTop (𝓝 (l1w w x.ofLp)) := by
    simp only [add_zero] at h3
    exact h3
  refine ⟨mat x, ⟨(mem_feas D S eps nonNeg x).2 ⟨hx, hx1⟩, fun Z hZ => ?_⟩, ?_, fun d hd => ?_⟩
  · obtain ⟨h7, h8⟩ := (mem_feas D S eps nonNeg (arr Z)).1 hZ
    have := hmin' (arr Z) h7 h8
    rw [l1w_mat, l1w_mat] at this
    exact this
  · have h7 := l1w_tendsto hw0 (fun n => (T n).X) (fun n => (T n).Y.fst) (l1w w x.ofLp)
      h3' h4'
    simpa only [l1w_mat] using h7
  · have e4 := (tendsto_zero_iff_norm_tendsto_zero.1 h4').eventually (gt_mem_nhds hd)
    have e5 := (tendsto_zero_iff_norm_tendsto_zero.1 h5').eventually (gt_mem_nhds hd)
    filter_upwards [e4, e5, eventually_ge_atTop 1] with n hn4 hn5 hn1
    obtain ⟨m, rfl⟩ : ∃ m, n = m + 1 := ⟨n - 1, by omega⟩
    refine ⟨fun hnn i j => ?_, fun k => ?_⟩
    · have h7 := (mem_coefs nonNeg (T (m + 1)).Y.fst).1 (h6 m).1 hnn (i, j)
      have h8 := (PiLp.norm_apply_le ((T (m + 1)).X - (T (m + 1)).Y.fst) (i, j)).trans hn4.le
      rw [Real.norm_eq_abs, abs_le] at h8
      have h9 := h8.1
      change -d ≤ (T (m + 1)).X (i, j) - (T (m + 1)).Y.fst (i, j) at h9
      change -d ≤ (T (m + 1)).X (i, j)
      linarith
    · have h7 := sball_near (colEquiv N K) eps (dmul D (T (m + 1)).X - S) ((T (m + 1)).Y.snd - S) (h6 m).2 k
      rw [colNorm_slice, sub_sub_sub_cancel_right] at h7
      exact h7.trans (add_le_add le_rfl hn5.le)

/-- The statistics of each iteration (with `AuxVarObj` false): `ObjFun` is the weighted l1 norm of X,
and `Cnstr` is the distance from `D X` to the nearest array all of whose columns are within `ε` of
the signal, so it is zero exactly when the constraint holds. -/
theorem C39_minl1_recorded (D : Matrix (Fin N) (Fin M) ℝ) (S : Arr N K) (eps : ℝ) (he : 0 ≤ eps)
    (nonNeg : Bool) (w : Fin M × Fin K → ℝ) (hw : ∀ i, 0 ≤ w i) (X : Arr M K) (Y : Y2 N M K) (h) :
    let r := (clsML1 D S eps nonNeg w false).objfn X Y h
    r.1 = l1wMat w (mat X) ∧
    (∃ V : Matrix (Fin N) (Fin K) ℝ, (∀ k, colNorm (V - mat S) k ≤ eps) ∧
      r.2.2 = Real.sqrt (fro2 (V - D * mat X))) ∧
    (∀ V : Matrix (Fin N) (Fin K) ℝ, (∀ k, colNorm (V - mat S) k ≤ eps) →
      r.2.2 ≤ Real.sqrt (fro2 (V - D * mat X))) ∧
    (r.2.2 = 0 ↔ ∀ k, colNorm (D * mat X - mat S) k ≤ eps) := by
  intro r
  have hn : ∀ V : Matrix (Fin N) (Fin K) ℝ, Real.sqrt (fro2 (V - D * mat X)) = ‖arr V - dmul D X‖ := by
    intro V
    rw [dmul_apply, ← arr_sub, ← norm_arr, Real.sqrt_sq (norm_nonneg _)]
  have hb : ∀ V : Matrix (Fin N) (Fin K) ℝ, (∀ k, colNorm (V - mat S) k ≤ eps) ↔
      arr V - S ∈ sball (colEquiv N K) eps := by
    intro V
    unfold sball
    simp only [Set.mem_ofPred_eq, colNorm_slice]
    rfl
  set p := sproj (colEquiv N K) eps (dmul D X - S) with hpdef
  have hr : r.2.2 = ‖S + p - dmul D X‖ := rfl
  have hm := sproj_min (colEquiv N K) eps he (dmul D X - S)
  have hle : ∀ V : Matrix (Fin N) (Fin K) ℝ, (∀ k, colNorm (V - mat S) k ≤ eps) →
      r.2.2 ≤ ‖arr V - dmul D X‖ := by
    intro V hV
    have h1 := hm.2 _ ((hb V).1 hV)
    rw [hr]
    refine le_of_sq_le_sq ?_ (norm_nonneg _)
    rw [← norm_neg, ← norm_neg (arr V - _), show -(S + p - dmul D X) = dmul D X - S - p by abel,
      show -(arr V - dmul D X) = dmul D X - S - (arr V - S) by abel]
    exact h1
  refine ⟨?_, ⟨mat (S + p), ?_, ?_⟩, fun V hV => ?_, ?_, fun hf => ?_⟩
  · rw [← l1w_mat]
    change normL1 (fun i => w i * X i) = _
    unfold normL1 l1w
    exact Finset.sum_congr rfl fun i _ => by rw [norm_mul, Real.norm_of_nonneg (hw i)]
  · rw [hb, arr_mat, add_sub_cancel_left]; exact hm.1
  · rw [hn, hr, arr_mat]
  · rw [hn]; exact hle V hV
  · intro h0
    rw [hr, norm_eq_zero, sub_eq_zero] at h0
    rw [hb, ← dmul_apply, ← h0, add_sub_cancel_left]
    exact hm.1
  · have := hle _ hf
    rw [← dmul_apply, sub_self, norm_zero] at this
    exact le_antisymm this (by rw [hr]; exact norm_nonneg _)

/-- **C40.** At every iteration of every `MinL1InL2Ball` run, including after automatic changes of
rho, X is the unique minimiser of the augmented Lagrangian in x. -/
theorem C40_minl1_history (D : Matrix (Fin N) (Fin M) ℝ) (S : Arr N K) (eps : ℝ) (he : 0 ≤ eps)
    (nonNeg : Bool) (w : Fin M × Fin K → ℝ) (hw : ∀ i, 0 ≤ w i) (av : Bool) (o : Opts)
    (ho : o.autoRho = true → o.RhoOk) (cb) (hcb : CallbackReads cb)
    (s : St (Arr M K) (Y2 N M K) (Y2 N M K) (AttrML1 N M)) (hp : 0 < s.rho)
    (hs : s.extra = setdictML1 D) (n : ℕ) :
    let T := traj (clsML1 D S eps nonNeg w av) o cb s
    IsUniqueMin (augML1 D (T n).rho (mat (T n).Y.fst) (mat (T n).U.fst) (mat (T n).Y.snd) (mat (T n).U.snd))
      Set.univ (mat (T (n + 1)).X) := by
  have hg0 : ConvexOn ℝ (coefs nonNeg) (fun y : Arr M K => l1w w y.ofLp) := by
    have := convex_l1w w hw _ (convex_coefs nonNeg) 1 one_pos.le
    simpa only [one_mul] using this
  have hk := ((exact_ml1 D S eps he nonNeg w hw av).implements (fun _ _ => rfl) (dmul_adj D) hg0
    (convexOn_const 0 (convex_ball1 S eps))).keeps
  obtain ⟨h1, h2⟩ := traj_keeps hk o ho cb (hcb.keeps _) s hp hs n
  simp only
  rw [traj_succ, oneIter_X, show (clsML1 D S eps nonNeg w av).xstep = xstepML1 from rfl, h2]
  exact C40_minl1_xstep D _ h1 _ _ _

/-- The hypotheses are met: for the dictionary `exD` and signal `exS` the array `(1, 1)` is strictly
within distance 2. -/
example : (Matrix.of fun _ _ => 1 : Matrix (Fin 2) (Fin 1) ℝ) ∈ allowed true ∧
    ∀ k, colNorm (exD * (Matrix.of fun _ _ => 1 : Matrix (Fin 2) (Fin 1) ℝ) - exS) k < 2 := by
  constructor
  · intro _ i j; simp
  · intro k
    unfold colNorm
    rw [Real.sqrt_lt' two_pos]
    simp [exD, exS, Matrix.mul_apply]
    norm_num

/-- **C37.** With relaxation (the default is 1.8) the dual residual recorded by `MinL1InL2Ball` is not
that of the constraint: after one iteration of this run Y has not changed, so the residual
`rho Aᵀ(Y - Yprev)` is zero, but 4/5 is recorded. -/
theorem C37_minl1_refuted : ∃ (D : Matrix (Fin 1) (Fin 1) ℝ) (S : Arr 1 1) (Y U : Y2 1 1 1),
    let C := clsML1 D S 1 false (fun _ => 1) false
    let X := (C.xstep 1 0 Y U (setdictML1 D)).1
    let AX := (C.relax (9 / 5) X Y).1
    let Y' := (C.ystep 1 AX X Y U (setdictML1 D)).1
    rsdlS (TwoBlock.cnstAT cnstA0 (cnstA1 Dᵀ)) (fun y => -y) 1 Y Y' = 0 ∧
    C.nrmS 1 Y Y' (C.ustep AX Y' U) = 4 / 5 := by
  refine ⟨0, 0, 0, TwoBlock.cat (WithLp.toLp 2 fun _ => 1) 0, ?_⟩
  intro C X AX Y'
  have hX : mat X = Matrix.of fun _ _ => -1 := by
    have h := choSolve_normal (0 : Matrix (Fin 1) (Fin 1) ℝ) 1 one_pos
      (mat (TwoBlock.sep0 ((0 : Y2 1 1 1) - TwoBlock.cat (WithLp.toLp 2 fun _ => 1) 0)) +
        (0 : Matrix (Fin 1) (Fin 1) ℝ)ᵀ * mat (TwoBlock.sep1 ((0 : Y2 1 1 1) - TwoBlock.cat (WithLp.toLp 2 fun _ => 1) 0)))
    rw [Matrix.zero_mul, Matrix.mul_zero, zero_add, one_smul] at h
    refine Eq.trans h ?_
    rw [Matrix.transpose_zero, Matrix.zero_mul, add_zero]
    ext i j
    change (0 : ℝ) - 1 = -1
    norm_num
  have hXe : ∀ i, X i = -1 := fun i => congrFun (congrFun hX i.1) i.2
  have hA0 : ∀ i, AX.fst i = -(9 / 5) := by
    intro i
    have e : AX = ((9 / 5 : ℝ) • TwoBlock.cnstA cnstA0 (cnstA1 0) X + (1 - 9 / 5 : ℝ) • TwoBlock.cat
      (TwoBlock.sep0 (0 : Y2 1 1 1) + 0) (TwoBlock.sep1 (0 : Y2 1 1 1) + 0)) := by
      change (TwoBlock.relaxAX _ _ _ _ _ _ _).1 = _
      unfold TwoBlock.relaxAX
      rw [if_neg (by norm_num)]
    rw [e]
    change (9 / 5 : ℝ) * X i + (1 - 9 / 5) * (0 + 0) = _
    rw [hXe]
    norm_num
  have hA1 : AX.snd = 0 := by
    ext i
    have e : AX = ((9 / 5 : ℝ) • TwoBlock.cnstA cnstA0 (cnstA1 0) X + (1 - 9 / 5 : ℝ) • TwoBlock.cat
      (TwoBlock.sep0 (0 : Y2 1 1 1) + 0) (TwoBlock.sep1 (0 : Y2 1 1 1) + 0)) := by
      change (TwoBlock.relaxAX _ _ _ _ _ _ _).1 = _
      unfold TwoBlock.relaxAX
      rw [if_neg (by norm_num)]
    rw [e]
    change (9 / 5 : ℝ) * ((0 : Matrix (Fin 1) (Fin 1) ℝ) * mat X) i.1 i.2 + (1 - 9 / 5) * (0 + 0) = _
    rw [Matrix.zero_mul]
    simp
  have hY : Y' = 0 := by
    have h0 : Y'.fst = 0 := by
      ext i
      change proxL1 (AX.fst i + 1) (1 / 1) = 0
      rw [hA0]
      unfold proxL1
      norm_num
    have h1 : Y'.snd = 0 := by
      have := (exact_ml1 (0 : Matrix (Fin 1) (Fin 1) ℝ) 0 1 one_pos.le false (fun _ => 1)
        (fun _ => one_pos.le) false).ystep1 1 AX X 0 (TwoBlock.cat (WithLp.toLp 2 fun _ => 1) 0)
        (setdictML1 0) one_pos rfl
      have h2 := this.2 0 (by intro k; rw [sub_zero, colNorm_slice]; simp [colNorm, mat])
      change (0 : ℝ) + 1 / 2 * ‖AX.snd + 0 - 0 - Y'.snd‖ ^ 2 ≤ 0 + 1 / 2 * ‖AX.snd + 0 - 0 - 0‖ ^ 2 at h2
      rw [hA1] at h2
      simp only [add_zero, sub_zero, zero_sub, norm_neg, norm_zero] at h2
      have h3 : ‖Y'.snd‖ ^ 2 = 0 := le_antisymm (by linarith) (by positivity)
      exact norm_eq_zero.1 (pow_eq_zero_iff two_ne_zero |>.1 h3)
    apply WithLp.ofLp_injective
    exact Prod.ext h0 h1
  constructor
  · rw [hY]
    unfold rsdlS
    beta_reduce
    rw [sub_zero, neg_zero]
    have : TwoBlock.cnstAT (cnstA0 : Arr 1 1 →L[ℝ] Arr 1 1) (cnstA1 (0 : Matrix (Fin 1) (Fin 1) ℝ)ᵀ)
      (0 : Y2 1 1 1) = 0 := by
      unfold TwoBlock.cnstAT
      change cnstA0 (0 : Arr 1 1) + cnstA1 _ (0 : Arr 1 1) = 0
      rw [map_zero, map_zero, add_zero]
    rw [this, smul_zero]
  · rw [hY]
    set V := C.ustep AX 0 (TwoBlock.cat (WithLp.toLp 2 fun _ => 1) 0) with hV
    have hV0 : TwoBlock.cnstAT (cnstA0 : Arr 1 1 →L[ℝ] Arr 1 1) (cnstA1 (0 : Matrix (Fin 1) (Fin 1) ℝ)ᵀ) V =
        WithLp.toLp 2 fun _ => -(4 / 5) := by
      ext i
      change (1 + (AX.fst i - (0 + 0))) + ((0 : Matrix (Fin 1) (Fin 1) ℝ)ᵀ * mat V.snd) i.1 i.2 = -(4 / 5)
      rw [hA0, Matrix.transpose_zero, Matrix.zero_mul, Matrix.zero_apply]
      norm_num
    change ‖(1 : ℝ) * ‖TwoBlock.cnstAT (cnstA0 : Arr 1 1 →L[ℝ] Arr 1 1) _ V‖‖ = 4 / 5
    rw [hV0, one_mul, norm_norm, EuclideanSpace.norm_eq]
    simp
    exact Real.sqrt_sq (by norm_num)

end Sporco.Admm.Bpdn
