import Verif.Admm.Bpdn
import Mathlib.Analysis.Convex.Function
import Mathlib.Analysis.Convex.Topology

/-!
# BPDN solvers: every iteration exact, and convergence of the returned array (C40, C39)
-/

set_option autoImplicit false
set_option linter.unusedSectionVars false

namespace Sporco.Admm.Bpdn

open Matrix Sporco.Linalg Sporco.Prox Filter Topology
open scoped RealInnerProductSpace

variable {N M K : ℕ}

/-! ## Cache coherence along every trajectory -/

/-- A callback leaves the dictionary, `DTS` and the factors alone. -/
def CallbackReads {E F G H : Type*} (cb : Option (St E F G H → Bool × H)) : Prop :=
  ∀ f t, cb = some f → (f t).2 = t.extra

theorem CallbackReads.keeps {E F G H : Type*} {cb : Option (St E F G H → Bool × H)}
    (h : CallbackReads cb) (Inv : ℝ → H → Prop) : CallbackKeeps Inv cb := by
  intro f t hf hI
  rw [h f t hf]; exact hI

theorem keeps_bpdn (D : Matrix (Fin N) (Fin M) ℝ) (S : Matrix (Fin N) (Fin K) ℝ)
    (ys : ℝ → Arr M K → Arr M K → Arr M K → Arr M K → Attr N M K → Arr M K × Attr N M K)
    (hys : ∀ rho AX X Y U h, (ys rho AX X Y U h).2 = h) (ob) :
    Keeps (Cls.equal xstep ys rhochange ob) (Coh D S) :=
  ⟨equal_sane _ _ _ _, fun _ _ _ _ _ _ h => h, fun rho AX X Y U h _ hc => by
    change Coh D S rho (ys rho AX X Y U h).2; rw [hys]; exact hc, fun _ _ _ _ _ h => coh_rhochange h⟩

theorem keeps_en (D : Matrix (Fin N) (Fin M) ℝ) (S : Matrix (Fin N) (Fin K) ℝ) (mu : ℝ)
    (ys : ℝ → Arr M K → Arr M K → Arr M K → Arr M K → Attr N M K → Arr M K × Attr N M K)
    (hys : ∀ rho AX X Y U h, (ys rho AX X Y U h).2 = h) (ob) :
    Keeps (Cls.equal (xstepEN mu) ys (rhochangeEN mu) ob) (CohEN D S mu) :=
  ⟨equal_sane _ _ _ _, fun _ _ _ _ _ _ h => h, fun rho AX X Y U h _ hc => by
    change CohEN D S mu rho (ys rho AX X Y U h).2; rw [hys]; exact hc, fun _ _ _ _ _ h => cohEN_rhochange h⟩

theorem history_bpdn {C : Cls (Arr M K) (Arr M K) (Arr M K) (Attr N M K)} {D : Matrix (Fin N) (Fin M) ℝ}
    {S : Matrix (Fin N) (Fin K) ℝ} (hk : Keeps C (Coh D S)) (hx : C.xstep = xstep) (o : Opts)
    (ho : o.autoRho = true → o.RhoOk) (cb) (hcb : CallbackReads cb)
    (s : St (Arr M K) (Arr M K) (Arr M K) (Attr N M K)) (hp : 0 < s.rho)
    (hs : s.extra = setdict S s.rho D) (n : ℕ) :
    IsUniqueMin (augBPDN D S (traj C o cb s n).rho (mat (traj C o cb s n).Y) (mat (traj C o cb s n).U))
      Set.univ (mat (traj C o cb s (n + 1)).X) := by
  obtain ⟨h1, h2⟩ := traj_keeps hk o ho cb (hcb.keeps _) s hp hs n
  rw [traj_succ, oneIter_X, hx, h2]
  exact C40_bpdn_xstep D S _ h1 _ _ _

/-- **C40.** At every iteration of every `BPDN` run, including after automatic changes of
rho, the new X is the unique minimiser of the augmented Lagrangian for the current rho,
Y and U: the cached factors are never stale. -/
theorem C40_bpdn_history (D : Matrix (Fin N) (Fin M) ℝ) (S : Matrix (Fin N) (Fin K) ℝ) (lmbda : ℝ)
    (w : Fin M × Fin K → ℝ) (nonNeg fe ge : Bool) (o : Opts) (ho : o.autoRho = true → o.RhoOk)
    (cb) (hcb : CallbackReads cb) (s : St (Arr M K) (Arr M K) (Arr M K) (Attr N M K)) (hp : 0 < s.rho)
    (hs : s.extra = setdict S s.rho D) (n : ℕ) :
    let T := traj (clsBPDN S lmbda w nonNeg fe ge) o cb s
    IsUniqueMin (augBPDN D S (T n).rho (mat (T n).Y) (mat (T n).U)) Set.univ (mat (T (n + 1)).X) := by
  exact history_bpdn (C := clsBPDN S lmbda w nonNeg fe ge)
    (keeps_bpdn D S _ (fun _ _ _ _ _ _ => rfl) _) rfl o ho cb hcb s hp hs n

/-- **C40.** The same for `BPDNJoint`. -/
theorem C40_joint_history (D : Matrix (Fin N) (Fin M) ℝ) (S : Matrix (Fin N) (Fin K) ℝ) (lmbda mu : ℝ)
    (w : Fin M × Fin K → ℝ) (nonNeg fe ge : Bool) (o : Opts) (ho : o.autoRho = true → o.RhoOk)
    (cb) (hcb : CallbackReads cb) (s : St (Arr M K) (Arr M K) (Arr M K) (Attr N M K)) (hp : 0 < s.rho)
    (hs : s.extra = setdict S s.rho D) (n : ℕ) :
    let T := traj (clsJnt S lmbda mu w nonNeg fe ge) o cb s
    IsUniqueMin (augBPDN D S (T n).rho (mat (T n).Y) (mat (T n).U)) Set.univ (mat (T (n + 1)).X) := by
  exact history_bpdn (C := clsJnt S lmbda mu w nonNeg fe ge)
    (keeps_bpdn D S _ (fun _ _ _ _ _ _ => rfl) _) rfl o ho cb hcb s hp hs n

/-- **C40.** The same for `BPDNProjL1`. -/
theorem C40_projl1_history (D : Matrix (Fin N) (Fin M) ℝ) (S : Matrix (Fin N) (Fin K) ℝ) (gamma : ℝ)
    (nonNeg fe ge : Bool) (o : Opts) (ho : o.autoRho = true → o.RhoOk)
    (cb) (hcb : CallbackReads cb) (s : St (Arr M K) (Arr M K) (Arr M K) (Attr N M K)) (hp : 0 < s.rho)
    (hs : s.extra = setdict S s.rho D) (n : ℕ) :
    let T := traj (clsPrj S gamma nonNeg fe ge) o cb s
    IsUniqueMin (augBPDN D S (T n).rho (mat (T n).Y) (mat (T n).U)) Set.univ (mat (T (n + 1)).X) := by
  exact history_bpdn (C := clsPrj S gamma nonNeg fe ge)
    (keeps_bpdn D S _ (fun _ _ _ _ _ _ => rfl) _) rfl o ho cb hcb s hp hs n

/-- **C40.** The same for `ElasticNet`. -/
theorem C40_elasticnet_history (D : Matrix (Fin N) (Fin M) ℝ) (S : Matrix (Fin N) (Fin K) ℝ) (lmbda mu : ℝ)
    (hm : 0 ≤ mu) (w : Fin M × Fin K → ℝ) (nonNeg fe ge : Bool) (o : Opts)
    (ho : o.autoRho = true → o.RhoOk)
    (cb) (hcb : CallbackReads cb) (s : St (Arr M K) (Arr M K) (Arr M K) (Attr N M K)) (hp : 0 < s.rho)
    (hs : s.extra = setdictEN S mu s.rho D) (n : ℕ) :
    let T := traj (clsEN S lmbda mu w nonNeg fe ge) o cb s
    IsUniqueMin (augEN D S mu (T n).rho (mat (T n).Y) (mat (T n).U)) Set.univ (mat (T (n + 1)).X) := by
  have hk : Keeps (clsEN S lmbda mu w nonNeg fe ge) (CohEN D S mu) :=
    keeps_en D S mu (ystepBPDN nonNeg lmbda w) (fun _ _ _ _ _ _ => rfl) _
  obtain ⟨h1, h2⟩ := traj_keeps hk o ho cb (hcb.keeps _) s hp hs n
  simp only
  rw [traj_succ, oneIter_X, show (clsEN S lmbda mu w nonNeg fe ge).xstep = xstepEN mu from rfl, h2]
  exact C40_elasticnet_xstep D S mu _ hm h1 _ _ _

/-! ## Auxiliary facts -/

theorem sq_norm {ι : Type*} [Fintype ι] (v : ι → ℝ) : Prox.sq v = ‖(WithLp.toLp 2 v : EuclideanSpace ℝ ι)‖ ^ 2 := by
  rw [EuclideanSpace.norm_sq_eq]; rfl

theorem l1w_mat (w : Fin M × Fin K → ℝ) (y : Arr M K) : l1w w y.ofLp = l1wMat w (mat y) := by
  unfold l1w l1wMat
  rw [Fintype.sum_prod_type]; rfl

theorem convex_l1w {ι : Type*} [Fintype ι] (w : ι → ℝ) (hw : ∀ i, 0 ≤ w i) (C : Set (EuclideanSpace ℝ ι))
    (hC : Convex ℝ C) (lmbda : ℝ) (hl : 0 ≤ lmbda) :
    ConvexOn ℝ C (fun y => lmbda * l1w w y.ofLp) := by
  refine ⟨hC, fun x _ y _ a b ha hb _ => ?_⟩
  simp only [smul_eq_mul, l1w]
  have h : ∀ i, w i * ‖(a • x + b • y).ofLp i‖ ≤ a * (w i * ‖x.ofLp i‖) + b * (w i * ‖y.ofLp i‖) := by
    intro i
    have h1 : ‖(a • x + b • y).ofLp i‖ ≤ a * ‖x.ofLp i‖ + b * ‖y.ofLp i‖ := by
      have e : (a • x + b • y).ofLp i = a * x.ofLp i + b * y.ofLp i := rfl
      rw [e]
      refine (norm_add_le _ _).trans (le_of_eq ?_)
      rw [norm_mul, norm_mul, Real.norm_of_nonneg ha, Real.norm_of_nonneg hb]
    have := mul_le_mul_of_nonneg_left h1 (hw i)
    linarith
  have h2 := Finset.sum_le_sum fun i (_ : i ∈ Finset.univ) => h i
  rw [Finset.sum_add_distrib, ← Finset.mul_sum, ← Finset.mul_sum] at h2
  have := mul_le_mul_of_nonneg_left h2 hl
  linarith

/-- The set `NonNegCoef` restricts Y to. -/
def coefs {ι : Type*} [Fintype ι] (nonNeg : Bool) : Set (EuclideanSpace ℝ ι) := {y | y.ofLp ∈ coefSet nonNeg}

theorem mem_coefs {ι : Type*} [Fintype ι] (nonNeg : Bool) (y : EuclideanSpace ℝ ι) :
    y ∈ coefs nonNeg ↔ (nonNeg = true → ∀ i, 0 ≤ y i) := by
  cases nonNeg <;> simp [coefs, coefSet, nonneg]

theorem coefs_allowed (nonNeg : Bool) (y : Arr M K) : y ∈ coefs nonNeg ↔ mat y ∈ allowed nonNeg := by
  rw [mem_coefs]
  unfold allowed
  constructor
  · intro h hn i j; exact h hn (i, j)
  · intro h hn i; exact h hn i.1 i.2

theorem convex_coefs {ι : Type*} [Fintype ι] (nonNeg : Bool) :
    Convex ℝ (coefs nonNeg : Set (EuclideanSpace ℝ ι)) := by
  intro x hx y hy a b ha hb _
  rw [mem_coefs] at *
  intro hn i
  have := add_nonneg (mul_nonneg ha (hx hn i)) (mul_nonneg hb (hy hn i))
  simpa using this

theorem closed_coefs {ι : Type*} [Fintype ι] (nonNeg : Bool) :
    IsClosed (coefs nonNeg : Set (EuclideanSpace ℝ ι)) := by
  have : (coefs nonNeg : Set (EuclideanSpace ℝ ι)) = ⋂ (_ : nonNeg = true), ⋂ i, {y | 0 ≤ y i} := by
    ext y; rw [mem_coefs]; simp
  rw [this]
  refine isClosed_iInter fun _ => isClosed_iInter fun i => ?_
  exact isClosed_le continuous_const (EuclideanSpace.proj i : EuclideanSpace ℝ ι →L[ℝ] ℝ).continuous

theorem zero_coefs {ι : Type*} [Fintype ι] (nonNeg : Bool) :
    (0 : EuclideanSpace ℝ ι) ∈ (coefs nonNeg : Set (EuclideanSpace ℝ ι)) := by
  rw [mem_coefs]; intro _ i; simp

theorem gystep_l1 {rho lmbda : ℝ} (nonNeg : Bool) (w : Fin M × Fin K → ℝ) (v : Fin M × Fin K → ℝ) :
    gystep nonNeg (proxL1Arr v fun i => lmbda / rho * w i) = ystepL1 nonNeg v w lmbda rho := rfl

/-- The Y update of `BPDN` and `ElasticNet` in terms of norms. -/
theorem ystep_bpdn_min (nonNeg : Bool) (lmbda : ℝ) (hl : 0 ≤ lmbda) (w : Fin M × Fin K → ℝ)
    (hw : ∀ i, 0 ≤ w i) (rho : ℝ) (hr : 0 < rho) (AX X Y U : Arr M K) (h : Attr N M K) :
    let y := (ystepBPDN nonNeg lmbda w rho AX X Y U h).1
    y ∈ coefs nonNeg ∧ ∀ z ∈ coefs nonNeg,
      lmbda * l1w w y.ofLp + rho / 2 * ‖AX - y + U‖ ^ 2 ≤ lmbda * l1w w z.ofLp + rho / 2 * ‖AX - z + U‖ ^ 2 := by
  have hm := C22_l1_partial nonNeg (AX + U).ofLp w lmbda rho hl hr hw
  have e : ∀ z : Arr M K, yObj (fun y => lmbda * l1w w y) rho (AX + U).ofLp z.ofLp =
      lmbda * l1w w z.ofLp + rho / 2 * ‖AX - z + U‖ ^ 2 := by
    intro z
    unfold yObj
    rw [sq_norm]
    congr 4
    change AX + U - z = _
    abel
  refine ⟨hm.1, fun z hz => ?_⟩
  rw [← e, ← e]
  by_cases hzy : z.ofLp = ystepL1 nonNeg (AX + U).ofLp w lmbda rho
  · rw [hzy]; exact le_rfl
  · exact (hm.2 z.ofLp hz hzy).le

/-- From a unique minimiser in matrix form to the inequality used by `Implements`. -/
theorem xstep_min (D : Matrix (Fin N) (Fin M) ℝ) (S : Matrix (Fin N) (Fin K) ℝ) (rho : ℝ)
    (hr : 0 < rho) (X Y U z : Arr M K) :
    let x := (xstep rho X Y U (setdict S rho D)).1
    1 / 2 * ‖dmul D x - arr S‖ ^ 2 + rho / 2 * ‖x - Y + U‖ ^ 2 ≤
      1 / 2 * ‖dmul D z - arr S‖ ^ 2 + rho / 2 * ‖z - Y + U‖ ^ 2 := by
  have e : ∀ z : Arr M K, 1 / 2 * ‖dmul D z - arr S‖ ^ 2 + rho / 2 * ‖z - Y + U‖ ^ 2 =
      augBPDN D S rho (mat Y) (mat U) (mat z) := by
    intro z
    rw [dmul_apply, ← arr_sub, norm_arr, norm_mat (z - Y + U)]
    rfl
  simp only
  rw [e, e]
  have hm := C40_bpdn_xstep D S rho hr X Y U
  by_cases h : mat z = mat (xstep rho X Y U (setdict S rho D)).1
  · rw [h]
  · exact (hm.2 _ trivial h).le

theorem continuous_l1w {ι : Type*} [Fintype ι] (w : ι → ℝ) :
    Continuous fun y : EuclideanSpace ℝ ι => l1w w y.ofLp := by
  unfold l1w
  refine continuous_finsetSum _ fun i _ => continuous_const.mul ?_
  exact ((EuclideanSpace.proj i : EuclideanSpace ℝ ι →L[ℝ] ℝ).continuous).norm

/-- With positive weights the weighted l1 norm controls the l2 norm. -/
theorem l1w_grow {ι : Type*} [Fintype ι] (w : ι → ℝ) (hw : ∀ i, 0 < w i) (lmbda : ℝ) (hl : 0 < lmbda) :
    ∃ c, 0 < c ∧ ∀ y : EuclideanSpace ℝ ι, c * ‖y‖ ≤ lmbda * l1w w y.ofLp := by
  -- a positive lower bound for the weights
  obtain ⟨c, hc, hcw⟩ : ∃ c, 0 < c ∧ ∀ i, c ≤ w i := by
    rcases isEmpty_or_nonempty ι with hι | hι
    · exact ⟨1, one_pos, fun i => (hι.false i).elim⟩
    · obtain ⟨i, hi⟩ := Finite.exists_min w
      exact ⟨w i, hw i, hi⟩
  refine ⟨lmbda * c, mul_pos hl hc, fun y => ?_⟩
  have h1 : ‖y‖ ≤ ∑ i, ‖y.ofLp i‖ := by
    rw [EuclideanSpace.norm_eq]
    apply Real.sqrt_le_iff.2
    refine ⟨Finset.sum_nonneg fun i _ => norm_nonneg _, ?_⟩
    exact Finset.sum_sq_le_sq_sum_of_nonneg fun i _ => norm_nonneg _
  have h2 : c * ∑ i, ‖y.ofLp i‖ ≤ l1w w y.ofLp := by
    unfold l1w
    rw [Finset.mul_sum]
    exact Finset.sum_le_sum fun i _ => mul_le_mul_of_nonneg_right (hcw i) (norm_nonneg _)
  have h3 := mul_le_mul_of_nonneg_left h1 hc.le
  have := mul_le_mul_of_nonneg_left (h3.trans h2) hl.le
  linarith

/-! ## BPDN -/

theorem implements_bpdn (D : Matrix (Fin N) (Fin M) ℝ) (S : Matrix (Fin N) (Fin K) ℝ) (lmbda : ℝ)
    (hl : 0 ≤ lmbda) (w : Fin M × Fin K → ℝ) (hw : ∀ i, 0 ≤ w i) (nonNeg fe ge : Bool) :
    Implements (clsBPDN S lmbda w nonNeg fe ge)
      (lsProblem (dmul D) (arr S) (fun y => lmbda * l1w w y.ofLp) (coefs nonNeg)
        (convex_l1w w hw _ (convex_coefs nonNeg) lmbda hl)) (Coh D S) := by
  refine equal_implements _ _ _ _ (ls_convex _ _) (convex_l1w w hw _ (convex_coefs nonNeg) lmbda hl) _
    _ _ _ _ (fun _ _ _ _ _ _ h => h) (fun _ _ _ _ _ _ _ h => h)
    (fun _ _ _ _ _ h => coh_rhochange h) ?_ ?_
  · intro rho X Y U h hp hI
    refine ⟨trivial, fun z _ => ?_⟩
    rw [hI]
    exact xstep_min D S rho hp X Y U z
  · intro rho AX X Y U h hp _
    exact ystep_bpdn_min nonNeg lmbda hl w hw rho hp AX X Y U h

/-- **C39 for `BPDN`.** For every dictionary and signal, positive `lmbda` and weights,
with or without `NonNegCoef`, fixed rho, relaxation parameter in (0, 2), from any start:
the BPDN problem has a minimiser, and the objective at the array `solve()` would return
tends to the minimum; the array satisfies the constraint after every iteration. -/
theorem C39_bpdn (D : Matrix (Fin N) (Fin M) ℝ) (S : Matrix (Fin N) (Fin K) ℝ) (lmbda : ℝ)
    (hl : 0 < lmbda) (w : Fin M × Fin K → ℝ) (hw : ∀ i, 0 < w i) (nonNeg fe ge : Bool)
    (o : Opts) (ha : o.autoRho = false) (hrlx : 0 < o.rlx ∧ o.rlx < 2)
    (cb) (hcb : CallbackReads cb) (s : St (Arr M K) (Arr M K) (Arr M K) (Attr N M K)) (hp : 0 < s.rho)
    (hs : s.extra = setdict S s.rho D) :
    ∃ Xopt : Matrix (Fin M) (Fin K) ℝ, IsMin (objBPDN D S lmbda w) (allowed nonNeg) Xopt ∧
      Tendsto (fun n => objBPDN D S lmbda w (mat (traj (clsBPDN S lmbda w nonNeg fe ge) o cb s n).Y))
        atTop (𝓝 (objBPDN D S lmbda w Xopt)) ∧
      ∀ n, mat (traj (clsBPDN S lmbda w nonNeg fe ge) o cb s (n + 1)).Y ∈ allowed nonNeg := by
  set g : Arr M K → ℝ := fun y => lmbda * l1w w y.ofLp with hg
  have hobj : ∀ y : Arr M K, lsObj (dmul D) (arr S) g y = objBPDN D S lmbda w (mat y) := by
    intro y
    unfold lsObj objBPDN
    rw [dmul_apply, ← arr_sub, norm_arr, ← l1w_mat]
  obtain ⟨c, hc, hgrow⟩ := l1w_grow w hw lmbda hl
  obtain ⟨x, hx, hmin⟩ := ls_exists_min (dmul D) (arr S) g (coefs nonNeg) (closed_coefs nonNeg)
    ⟨0, zero_coefs nonNeg⟩ (continuous_const.mul (continuous_l1w w)) c hc hgrow
  have hconv := ls_convergence (dmul D) (dmul Dᵀ) (dmul_adj D) (arr S) g (coefs nonNeg)
    (convex_l1w w (fun i => (hw i).le) _ (convex_coefs nonNeg) lmbda hl.le)
    (fun y _ => mul_nonneg hl.le (Finset.sum_nonneg fun i _ => mul_nonneg (hw i).le (norm_nonneg _)))
    (clsBPDN S lmbda w nonNeg fe ge) (Coh D S)
    (implements_bpdn D S lmbda hl.le w (fun i => (hw i).le) nonNeg fe ge) o ha hrlx cb (hcb.keeps _) s hp hs
    x hx hmin
  refine ⟨mat x, ⟨(coefs_allowed nonNeg x).1 hx, fun Z hZ => ?_⟩, ?_, fun n => ?_⟩
  · have := hmin (arr Z) ((coefs_allowed nonNeg (arr Z)).2 hZ)
    rw [hobj, hobj] at this
    exact this
  · have := hconv.1
    simp only [hobj] at this
    exact this
  · exact (coefs_allowed nonNeg _).1 (hconv.2 n)

/-- The objective recorded at each iteration when `AuxVarObj` is true is the BPDN
functional at Y (and at X when it is false). -/
theorem C39_bpdn_recorded (D : Matrix (Fin N) (Fin M) ℝ) (S : Matrix (Fin N) (Fin K) ℝ) (lmbda rho : ℝ)
    (w : Fin M × Fin K → ℝ) (hw : ∀ i, 0 ≤ w i) (nonNeg : Bool) (X Y : Arr M K) :
    ((clsBPDN S lmbda w nonNeg false true).objfn X Y (setdict S rho D)).1 = objBPDN D S lmbda w (mat Y) ∧
    ((clsBPDN S lmbda w nonNeg true false).objfn X Y (setdict S rho D)).1 = objBPDN D S lmbda w (mat X) := by
  have h : ∀ y : Arr M K, dfd (setdict S rho D) S y + regBPDN lmbda w y = objBPDN D S lmbda w (mat y) := by
    intro y
    unfold dfd regBPDN objBPDN
    rw [norm_arr, ← l1w_mat]
    congr 2
    unfold normL1 l1w
    refine Finset.sum_congr rfl fun i _ => ?_
    rw [norm_mul, Real.norm_of_nonneg (hw i)]
  exact ⟨h Y, h X⟩

/-- The hypotheses are met by the library's defaults (unit weights, relaxation 1.8). -/
example : ∃ (o : Opts), o.autoRho = false ∧ (0 < o.rlx ∧ o.rlx < 2) ∧
    (∀ i : Fin 2 × Fin 1, (0 : ℝ) < (fun _ => 1) i) ∧
    (⟨0, 0, 0, 0, 0, 0, 1, 0, [], setdict exS 1 exD⟩ : St (Arr 2 1) (Arr 2 1) (Arr 2 1) (Attr 1 2 1)).extra =
      setdict exS 1 exD :=
  ⟨⟨false, 1000, 0, 1, false, 10, true, false, 2, 2, 10, 10, 1, 1.8⟩, rfl, by norm_num, fun _ => one_pos, rfl⟩

end Sporco.Admm.Bpdn
