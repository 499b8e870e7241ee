import Verif.Admm.Settings
import Verif.Pgm.Stay

/-!
# C98 and C99: how the result depends on the signal and on the regularisation parameter

C98: the reconstruction found by the l1 solvers is a nonexpansive function of the signal. C99: a larger `lmbda` never gives a
closer fit nor a larger l1 norm, and the `lmbda` that `BPDN` chooses never gives the zero solution.
-/

set_option autoImplicit false

namespace Sporco.Admm

open Filter Topology
open scoped RealInnerProductSpace

section
variable {E F₁ : Type*} [NormedAddCommGroup E] [InnerProductSpace ℝ E] [NormedAddCommGroup F₁]
  [InnerProductSpace ℝ F₁]

/-- The variational inequality at a minimiser. -/
theorem ls_varineq (L : E →L[ℝ] F₁) (LT : F₁ →L[ℝ] E) (hadj : ∀ x y, ⟪L x, y⟫ = ⟪x, LT y⟫)
    (b : F₁) (g : E → ℝ) (Dg : Set E) (hg : ConvexOn ℝ Dg g) (x : E) (hx : x ∈ Dg)
    (hmin : ∀ z ∈ Dg, lsObj L b g x ≤ lsObj L b g z) (z : E) (hz : z ∈ Dg) :
    g x ≤ g z + ⟪L x - b, L (z - x)⟫ := by
  have h := (ls_saddle L LT hadj b g Dg hg x hx hmin).ymin z hz
  change g x + ⟪-LT (L x - b), -x⟫ ≤ g z + ⟪-LT (L x - b), -z⟫ at h
  rw [inner_neg_neg, inner_neg_neg, real_inner_comm x, real_inner_comm z, ← hadj, ← hadj] at h
  rw [map_sub, inner_sub_right, real_inner_comm (L z), real_inner_comm (L x)]
  linarith

/-- Minimisers for two data vectors. -/
theorem ls_stable (L : E →L[ℝ] F₁) (LT : F₁ →L[ℝ] E) (hadj : ∀ x y, ⟪L x, y⟫ = ⟪x, LT y⟫)
    (b c : F₁) (g : E → ℝ) (Dg : Set E) (hg : ConvexOn ℝ Dg g) (x y : E) (hx : x ∈ Dg) (hy : y ∈ Dg)
    (hxm : ∀ z ∈ Dg, lsObj L b g x ≤ lsObj L b g z) (hym : ∀ z ∈ Dg, lsObj L c g y ≤ lsObj L c g z) :
    ‖L (x - y)‖ ^ 2 ≤ ⟪b - c, L (x - y)⟫ := by
  have h1 := ls_varineq L LT hadj b g Dg hg x hx hxm y hy
  have h2 := ls_varineq L LT hadj c g Dg hg y hy hym x hx
  have e1 : L (y - x) = -L (x - y) := by rw [← map_neg, neg_sub]
  rw [e1, inner_neg_right] at h1
  have e2 : ‖L (x - y)‖ ^ 2 = ⟪L x - b, L (x - y)⟫ - ⟪L y - c, L (x - y)⟫ + ⟪b - c, L (x - y)⟫ := by
    rw [← inner_sub_left, ← inner_add_left, ← real_inner_self_eq_norm_sq]
    congr 1
    rw [map_sub]
    abel
  linarith

/-- The fit of a minimiser is a nonexpansive function of the data. -/
theorem ls_nonexpansive (L : E →L[ℝ] F₁) (LT : F₁ →L[ℝ] E) (hadj : ∀ x y, ⟪L x, y⟫ = ⟪x, LT y⟫)
    (b c : F₁) (g : E → ℝ) (Dg : Set E) (hg : ConvexOn ℝ Dg g) (x y : E) (hx : x ∈ Dg) (hy : y ∈ Dg)
    (hxm : ∀ z ∈ Dg, lsObj L b g x ≤ lsObj L b g z) (hym : ∀ z ∈ Dg, lsObj L c g y ≤ lsObj L c g z) :
    ‖L (x - y)‖ ^ 2 ≤ ‖b - c‖ ^ 2 := by
  have h := (ls_stable L LT hadj b c g Dg hg x y hx hy hxm hym).trans (real_inner_le_norm _ _)
  have h0 := norm_nonneg (L (x - y))
  have h1 := norm_nonneg (b - c)
  nlinarith [sq_nonneg (‖L (x - y)‖ - ‖b - c‖)]

end

/-- Minimisers of `f + l g` for two values of `l`. -/
theorem trade_off {X : Type*} (f g : X → ℝ) (A : Set X) (l1 l2 : ℝ) (h : l1 < l2) (hl : 0 ≤ l1) (x y : X)
    (hx : Prox.IsMin (fun z => f z + l1 * g z) A x) (hy : Prox.IsMin (fun z => f z + l2 * g z) A y) :
    f x ≤ f y ∧ g y ≤ g x := by
  have h1 := hx.2 y hy.1
  have h2 := hy.2 x hx.1
  beta_reduce at h1 h2
  have h3 : g y ≤ g x := by
    by_contra hc
    push Not at hc
    nlinarith
  exact ⟨by nlinarith, h3⟩

namespace Bpdn

open Matrix Sporco.Linalg Sporco.Prox

variable {N M K : ℕ}

/-- **C98 for `BPDN`.** Two runs of the ADMM solver with the same dictionary, `lmbda` and weights, for signals `S` and `S'`
and with any two settings and starts: the reconstructions from the returned arrays tend to arrays whose distance is at most
that of the signals. -/
theorem C98_bpdn (D : Matrix (Fin N) (Fin M) ℝ) (S S' : Matrix (Fin N) (Fin K) ℝ) (lmbda : ℝ)
    (hl : 0 < lmbda) (w : Fin M × Fin K → ℝ) (hw : ∀ i, 0 < w i) (nonNeg fe ge fe' ge' : Bool)
    (o o' : Opts) (ha : o.autoRho = false) (ha' : o'.autoRho = false) (hrlx : 0 < o.rlx ∧ o.rlx < 2)
    (hrlx' : 0 < o'.rlx ∧ o'.rlx < 2) (cb) (hcb : CallbackReads cb) (cb') (hcb' : CallbackReads cb')
    (s s' : St (Arr M K) (Arr M K) (Arr M K) (Attr N M K)) (hp : 0 < s.rho) (hp' : 0 < s'.rho)
    (hs : s.extra = setdict S s.rho D) (hs' : s'.extra = setdict S' s'.rho D) :
    ∃ R R' : Matrix (Fin N) (Fin K) ℝ,
      ConvTo (fun n => D * mat (traj (clsBPDN S lmbda w nonNeg fe ge) o cb s n).Y) R ∧
      ConvTo (fun n => D * mat (traj (clsBPDN S' lmbda w nonNeg fe' ge') o' cb' s' n).Y) R' ∧
      fro2 (R - R') ≤ fro2 (S - S') := by
  obtain ⟨X, hX, -, h1⟩ := C39_bpdn_iterates D S lmbda hl w hw nonNeg fe ge o ha hrlx cb hcb s hp hs
  obtain ⟨X', hX', -, h1'⟩ := C39_bpdn_iterates D S' lmbda hl w hw nonNeg fe' ge' o' ha' hrlx' cb' hcb' s' hp' hs'
  refine ⟨D * X, D * X', convTo_mul D h1, convTo_mul D h1', ?_⟩
  have h := ls_nonexpansive (dmul D) (dmul Dᵀ) (dmul_adj D) (arr S) (arr S') (fun y : Arr M K => lmbda * l1w w y.ofLp)
    (coefs nonNeg) (convex_l1w w (fun i => (hw i).le) _ (convex_coefs nonNeg) lmbda hl.le) (arr X) (arr X')
    ((coefs_allowed nonNeg _).2 hX.1) ((coefs_allowed nonNeg _).2 hX'.1)
    (fun z hz => by
      rw [lsObj_bpdn, lsObj_bpdn]
      exact hX.2 _ ((coefs_allowed nonNeg _).1 hz))
    (fun z hz => by
      rw [lsObj_bpdn, lsObj_bpdn]
      exact hX'.2 _ ((coefs_allowed nonNeg _).1 hz))
  rwa [map_sub, dmul_apply, dmul_apply, mat_arr, mat_arr, ← arr_sub, ← arr_sub, norm_arr, norm_arr] at h

/-- **C98 for `ElasticNet`.** With positive `mu` the coefficients depend continuously on the signal as well:
`‖X - X'‖² ≤ ‖S - S'‖² / (4 mu)` for the limits of any two runs. -/
theorem C98_elasticnet (D : Matrix (Fin N) (Fin M) ℝ) (S S' : Matrix (Fin N) (Fin K) ℝ) (lmbda mu : ℝ)
    (hl : 0 < lmbda) (hm : 0 < mu) (w : Fin M × Fin K → ℝ) (hw : ∀ i, 0 < w i) (nonNeg fe ge fe' ge' : Bool)
    (o o' : Opts) (ha : o.autoRho = false) (ha' : o'.autoRho = false) (hrlx : 0 < o.rlx ∧ o.rlx < 2)
    (hrlx' : 0 < o'.rlx ∧ o'.rlx < 2) (cb) (hcb : CallbackReads cb) (cb') (hcb' : CallbackReads cb')
    (s s' : St (Arr M K) (Arr M K) (Arr M K) (Attr N M K)) (hp : 0 < s.rho) (hp' : 0 < s'.rho)
    (hs : s.extra = setdictEN S mu s.rho D) (hs' : s'.extra = setdictEN S' mu s'.rho D) :
    ∃ X X' : Matrix (Fin M) (Fin K) ℝ,
      ConvTo (fun n => mat (traj (clsEN S lmbda mu w nonNeg fe ge) o cb s n).Y) X ∧
      ConvTo (fun n => mat (traj (clsEN S' lmbda mu w nonNeg fe' ge') o' cb' s' n).Y) X' ∧
      4 * mu * fro2 (X - X') ≤ fro2 (S - S') := by
  have hobj : ∀ (S : Matrix (Fin N) (Fin K) ℝ) (y : Arr M K),
      lsObj (enL D mu) (enB S) (fun y : Arr M K => lmbda * l1w w y.ofLp) y = objEN D S lmbda mu w (mat y) := by
    intro S y
    unfold lsObj objEN
    rw [enL_norm D S mu hm.le, ← l1w_mat]
    ring
  obtain ⟨X, hX, -, hr⟩ := C95_elasticnet D S lmbda mu hl hm w hw nonNeg
  obtain ⟨X', hX', -, hr'⟩ := C95_elasticnet D S' lmbda mu hl hm w hw nonNeg
  refine ⟨X, X', (hr fe ge o ha hrlx cb hcb s hp hs).2, (hr' fe' ge' o' ha' hrlx' cb' hcb' s' hp' hs').2, ?_⟩
  have h := ls_stable (enL D mu) (enLT D mu) (enL_adj D mu) (enB S) (enB S') (fun y : Arr M K => lmbda * l1w w y.ofLp)
    (coefs nonNeg) (convex_l1w w (fun i => (hw i).le) _ (convex_coefs nonNeg) lmbda hl.le) (arr X) (arr X')
    ((coefs_allowed nonNeg _).2 hX.1) ((coefs_allowed nonNeg _).2 hX'.1)
    (fun z hz => by
      rw [hobj, hobj]
      exact hX.2 _ ((coefs_allowed nonNeg _).1 hz))
    (fun z hz => by
      rw [hobj, hobj]
      exact hX'.2 _ ((coefs_allowed nonNeg _).1 hz))
  have h3 : ‖enL D mu (arr X - arr X')‖ ^ 2 =
      ‖dmul D (arr X - arr X')‖ ^ 2 + ‖Real.sqrt mu • (arr X - arr X')‖ ^ 2 := WithLp.prod_norm_sq_eq_of_L2 _
  have h4 : ⟪enB (M := M) S - enB S', enL D mu (arr X - arr X')⟫ = ⟪arr S - arr S', dmul D (arr X - arr X')⟫ := by
    rw [WithLp.prod_inner_apply]
    change ⟪arr S - arr S', dmul D (arr X - arr X')⟫ + ⟪(0 : Arr M K) - 0, _⟫ = _
    rw [sub_zero, inner_zero_left, add_zero]
  rw [h3, h4, norm_smul, mul_pow, Real.norm_of_nonneg (Real.sqrt_nonneg _), Real.sq_sqrt hm.le] at h
  have h5 := real_inner_le_norm (arr S - arr S') (dmul D (arr X - arr X'))
  rw [← norm_arr, ← norm_arr, arr_sub, arr_sub]
  nlinarith [sq_nonneg (‖arr S - arr S'‖ - 2 * ‖dmul D (arr X - arr X')‖)]

/-- **C99 for `BPDN`.** For two values of `lmbda` and any two settings and starts: the arrays returned tend to arrays of which
the one for the larger `lmbda` has the larger or equal data fidelity term and the smaller or equal l1 norm. -/
theorem C99_bpdn_lmbda (D : Matrix (Fin N) (Fin M) ℝ) (S : Matrix (Fin N) (Fin K) ℝ) (lmbda lmbda' : ℝ)
    (hl : 0 < lmbda) (hll : lmbda < lmbda') (w : Fin M × Fin K → ℝ) (hw : ∀ i, 0 < w i) (nonNeg fe ge fe' ge' : Bool)
    (o o' : Opts) (ha : o.autoRho = false) (ha' : o'.autoRho = false) (hrlx : 0 < o.rlx ∧ o.rlx < 2)
    (hrlx' : 0 < o'.rlx ∧ o'.rlx < 2) (cb) (hcb : CallbackReads cb) (cb') (hcb' : CallbackReads cb')
    (s s' : St (Arr M K) (Arr M K) (Arr M K) (Attr N M K)) (hp : 0 < s.rho) (hp' : 0 < s'.rho)
    (hs : s.extra = setdict S s.rho D) (hs' : s'.extra = setdict S s'.rho D) :
    ∃ X X' : Matrix (Fin M) (Fin K) ℝ,
      ConvTo (fun n => mat (traj (clsBPDN S lmbda w nonNeg fe ge) o cb s n).Y) X ∧
      ConvTo (fun n => mat (traj (clsBPDN S lmbda' w nonNeg fe' ge') o' cb' s' n).Y) X' ∧
      fro2 (D * X - S) ≤ fro2 (D * X' - S) ∧ l1wMat w X' ≤ l1wMat w X := by
  obtain ⟨X, hX, -, h1⟩ := C39_bpdn_iterates D S lmbda hl w hw nonNeg fe ge o ha hrlx cb hcb s hp hs
  obtain ⟨X', hX', -, h1'⟩ := C39_bpdn_iterates D S lmbda' (hl.trans hll) w hw nonNeg fe' ge' o' ha' hrlx' cb' hcb' s' hp' hs'
  obtain ⟨h3, h4⟩ := trade_off (fun X => 1 / 2 * fro2 (D * X - S)) (l1wMat w) (allowed nonNeg) lmbda lmbda' hll hl.le X X'
    hX hX'
  exact ⟨X, X', h1, h1', by linarith, h4⟩

/-- `lmbda = 0.1 * abs(DTS).max()` (`admm/bpdn.py` 410-412, `pgm/bpdn.py` 138-140): what the constructor takes when `lmbda` is
not given. -/
noncomputable def lmbdaDefault (D : Matrix (Fin N) (Fin M) ℝ) (S : Matrix (Fin N) (Fin K) ℝ) : ℝ :=
  1 / 10 * ⨆ i : Fin M × Fin K, |(Dᵀ * S) i.1 i.2|

/-- **C99, the default of `BPDN`.** If any atom is correlated with any of the signals, the default `lmbda` is positive, the
zero array is not a solution, and from any start the array that the solver returns tends to one that is not zero. With
`NonNegCoef` some correlation has to exceed a tenth of the largest modulus. -/
theorem C99_bpdn_default (D : Matrix (Fin N) (Fin M) ℝ) (S : Matrix (Fin N) (Fin K) ℝ) (nonNeg fe ge : Bool)
    (h0 : ∃ m k, (Dᵀ * S) m k ≠ 0) (hnn : nonNeg = true → ∃ m k, lmbdaDefault D S < (Dᵀ * S) m k)
    (o : Opts) (ha : o.autoRho = false) (hrlx : 0 < o.rlx ∧ o.rlx < 2) (cb) (hcb : CallbackReads cb)
    (s : St (Arr M K) (Arr M K) (Arr M K) (Attr N M K)) (hp : 0 < s.rho) (hs : s.extra = setdict S s.rho D) :
    0 < lmbdaDefault D S ∧ ¬ IsMin (objBPDN D S (lmbdaDefault D S) fun _ => 1) (allowed nonNeg) 0 ∧
    ∃ X, X ≠ 0 ∧ IsMin (objBPDN D S (lmbdaDefault D S) fun _ => 1) (allowed nonNeg) X ∧
      ConvTo (fun n => mat (traj (clsBPDN S (lmbdaDefault D S) (fun _ => 1) nonNeg fe ge) o cb s n).Y) X := by
  have hb : BddAbove (Set.range fun i : Fin M × Fin K => |(Dᵀ * S) i.1 i.2|) := (Set.finite_range _).bddAbove
  have hle : ∀ m k, |(Dᵀ * S) m k| ≤ 10 * lmbdaDefault D S := by
    intro m k
    have := le_ciSup hb (m, k)
    unfold lmbdaDefault
    linarith
  obtain ⟨m, k, hmk⟩ := h0
  have hpos : 0 < lmbdaDefault D S := by
    have := hle m k
    have := abs_pos.2 hmk
    linarith
  have hmax : ∃ i : Fin M × Fin K, |(Dᵀ * S) i.1 i.2| = 10 * lmbdaDefault D S := by
    have : Nonempty (Fin M × Fin K) := ⟨(m, k)⟩
    obtain ⟨i, hi⟩ := exists_eq_ciSup_of_finite (f := fun i : Fin M × Fin K => |(Dᵀ * S) i.1 i.2|)
    refine ⟨i, ?_⟩
    unfold lmbdaDefault
    rw [← hi]
    ring
  have hcor : ∀ m k, (Dᵀ * S) m k = ∑ i, D i m * S i k := fun m k => by simp [Matrix.mul_apply]
  have hno : ¬ IsMin (objBPDN D S (lmbdaDefault D S) fun _ => 1) (allowed nonNeg) 0 := by
    intro h
    have hc := (Pgm.C93_bpdn_critical D S _ hpos.le (fun _ => 1) (fun _ => zero_le_one) nonNeg).1 h
    cases nonNeg with
    | false =>
      obtain ⟨⟨m, k⟩, hi⟩ := hmax
      have h1 := (hc m k).1
      have h2 := (hc m k).2 rfl
      rw [← hcor] at h1 h2
      have h3 : |(Dᵀ * S) m k| ≤ lmbdaDefault D S := abs_le.2 ⟨by linarith, by linarith⟩
      simp only at hi
      linarith
    | true =>
      obtain ⟨m, k, hi⟩ := hnn rfl
      have h1 := (hc m k).1
      rw [← hcor] at h1
      linarith
  obtain ⟨X, hX, -, h1⟩ := C39_bpdn_iterates D S (lmbdaDefault D S) hpos (fun _ => 1) (fun _ => one_pos) nonNeg fe ge o ha hrlx
    cb hcb s hp hs
  refine ⟨hpos, hno, X, ?_, hX, h1⟩
  rintro rfl
  exact hno hX

/-- Two atoms and a signal of two samples that meet the hypotheses with and without `NonNegCoef`. -/
example : let D : Matrix (Fin 2) (Fin 2) ℝ := !![1, 1; 0, 1]
    let S : Matrix (Fin 2) (Fin 1) ℝ := !![1; 2]
    (∃ m k, (Dᵀ * S) m k ≠ 0) ∧ ∃ m k, lmbdaDefault D S < (Dᵀ * S) m k := by
  intro D S
  have e0 : (Dᵀ * S) 0 0 = 1 := by simp [D, S, Matrix.mul_apply, Fin.sum_univ_two]
  have e1 : (Dᵀ * S) 1 0 = 3 := by
    simp [D, S, Matrix.mul_apply, Fin.sum_univ_two]
    norm_num
  refine ⟨⟨0, 0, by rw [e0]; norm_num⟩, 0, 0, ?_⟩
  have h : (⨆ i : Fin 2 × Fin 1, |(Dᵀ * S) i.1 i.2|) ≤ 3 := by
    refine ciSup_le fun i => ?_
    obtain ⟨i, j⟩ := i
    rw [Subsingleton.elim j 0]
    fin_cases i
    · change |(Dᵀ * S) 0 0| ≤ 3
      rw [e0]
      norm_num
    · change |(Dᵀ * S) 1 0| ≤ 3
      rw [e1]
      norm_num
  rw [e0]
  unfold lmbdaDefault
  linarith

end Bpdn

end Sporco.Admm
