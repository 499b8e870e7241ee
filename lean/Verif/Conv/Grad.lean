import Verif.Conv.GradModel
import Verif.Conv.CbpdnConv
import Verif.Tv.DeconvLemmas

/-!
# `ConvBPDNGradReg`: X update, convergence, recorded values, cached component (C39, C40, C43)
-/

set_option autoImplicit false
set_option linter.unusedSectionVars false

namespace Sporco.Conv.Grd

open Finset ComplexConjugate Sporco.Linalg Sporco.Prox Sporco.Admm Filter Topology Sporco.Conv
open scoped RealInnerProductSpace

variable {d c : ℕ} {N Nd : Fin d → ℕ} [∀ k, NeZero (N k)] {a : Fin d} {K M : Type*} [Fintype K]
  [Fintype M]

/-! ## Specification -/

/-- `∑ᵢ ∑ₘ w_m ‖Gᵢ x_m‖²`, where `Gᵢ` is the circular backward difference along axis `i`. -/
def gradEnergy (wg : M → ℝ) (X : K → M → Grid N → ℝ) : ℝ :=
  ∑ i, ∑ k, ∑ m, wg m * ∑ p, (X k m p - X k m (p - Pi.single i 1)) ^ 2

/-- The `ConvBPDNGradReg` functional. -/
noncomputable def objGrd (D : Dict c M Nd) (S : Signal c K N) (lmbda mu : ℝ) (w : K × M × Grid N → ℝ)
    (wg : M → ℝ) (X : K → M → Grid N → ℝ) : ℝ :=
  dataTerm D S X + lmbda * ∑ k, ∑ m, ∑ p, w (k, m, p) * |X k m p| + mu / 2 * gradEnergy wg X

/-- The augmented Lagrangian as a function of X. -/
noncomputable def augGrd (D : Dict c M Nd) (S : Signal c K N) (mu : ℝ) (wg : M → ℝ) (rho : ℝ)
    (Y U X : K → M → Grid N → ℝ) : ℝ :=
  dataTerm D S X + mu / 2 * gradEnergy wg X + rho / 2 * sumSq (fun k m p => X k m p - Y k m p + U k m p)

/-! ## The linear solve -/

theorem freqSolveD_spec (df : Fin (c + 1) → M → ℂ) (dg : M → ℝ) (hd : ∀ m, 0 < dg m) (b : M → ℂ) (m : M) :
    ∑ i, conj (df i m) * ∑ n, df i n * freqSolveD df (fun m => (dg m : ℂ)) b none n +
      dg m * freqSolveD df (fun m => (dg m : ℂ)) b none m = b m := by
  classical
  by_cases hc : c = 0
  · subst hc
    have h := congrFun (C23_solvedbd (df 0) b dg hd) m
    rw [rankOne_apply] at h
    simp only [Complex.conj_conj, Linalg.inner] at h
    rw [Fin.sum_univ_succ, Fin.sum_univ_zero, add_zero]
    unfold freqSolveD
    rw [if_pos rfl, add_comm]
    exact h
  · have h := congrFun (C24_ism_array (df 0) (List.ofFn fun i : Fin c => df i.succ) dg hd b) m
    rw [sumMatrixD_mulVec] at h
    simp only [List.map_cons, List.sum_cons, List.map_ofFn, List.sum_ofFn, Function.comp_def,
      Complex.conj_conj, Linalg.inner] at h
    rw [Fin.sum_univ_succ]
    unfold freqSolveD
    rw [if_neg hc, add_comm]
    exact h

/-- The spectrum of the solution at every frequency. -/
noncomputable def fullFD (D : Dict c M Nd) (r : M → Grid N → ℝ) (B : K → M → Grid N → ℂ) (k : K) (m : M)
    (ξ : Grid N) : ℂ :=
  freqSolveD (fun i n => rf (padD N D i n) ξ) (fun n => (r n ξ : ℂ)) (fun n => B k n ξ) none m

theorem fullFD_herm (D : Dict c M Nd) (r : M → Grid N → ℝ) (hr : ∀ m ξ, 0 < r m ξ)
    (hre : ∀ m ξ, r m (-ξ) = r m ξ) (B : K → M → Grid N → ℂ) (hB : ∀ k m, Herm (B k m)) (k : K) (m : M) :
    Herm (fullFD D r B k m) :=
  freq_herm (fun i n => rf (padD N D i n)) (fun _ _ => rf_herm _) r hr hre (B k) (fullFD D r B k) (hB k)
    (fun n ξ => freqSolveD_spec (fun i n => rf (padD N D i n) ξ) (fun n => r n ξ) (fun n => hr n ξ) _ n) m

/-- The array with that spectrum. -/
noncomputable def xD (a : Fin d) (D : Dict c M Nd) (r : M → Grid N → ℝ) (B : K → M → Grid N → ℂ) : Coef K M N :=
  join fun k m => irfft N a fun ξ => fullFD D r B k m ξ.1

theorem rf_xD (D : Dict c M Nd) (r : M → Grid N → ℝ) (hr : ∀ m ξ, 0 < r m ξ)
    (hre : ∀ m ξ, r m (-ξ) = r m ξ) (B : K → M → Grid N → ℂ) (hB : ∀ k m, Herm (B k m)) (k : K) (m : M) :
    rf (part (xD a D r B) k m) = fullFD D r B k m := by
  unfold xD
  rw [part_join]
  exact rf_irfft a (fullFD_herm D r hr hre B hB k m)

/-! ## The gradient operator -/

/-- `∑ₖ |Gₖ(ξ)|²`. -/
noncomputable def ghgN (ξ : Grid N) : ℝ := ∑ k, ‖rf (pad N (Tv.Dec.gradG k)) ξ‖ ^ 2

theorem ghg_eq (ξ : Half N a) : ghg a ξ = ghgN ξ.1 := by
  have e2 : ∑ k, conj (rf (pad N (Tv.Dec.gradG k)) ξ.1) * rf (pad N (Tv.Dec.gradG k)) ξ.1 =
      ((∑ k, ‖rf (pad N (Tv.Dec.gradG k)) ξ.1‖ ^ 2 : ℝ) : ℂ) := by
    push_cast
    exact sum_congr rfl fun k _ => Complex.conj_mul' _
  change (∑ k, conj (rf (pad N (Tv.Dec.gradG k)) ξ.1) * rf (pad N (Tv.Dec.gradG k)) ξ.1).re = _
  rw [e2, Complex.ofReal_re]
  rfl

theorem ghgN_nonneg (ξ : Grid N) : 0 ≤ ghgN ξ := sum_nonneg fun _ _ => sq_nonneg _

theorem ghgN_neg (ξ : Grid N) : ghgN (-ξ) = ghgN ξ := by
  unfold ghgN
  refine sum_congr rfl fun k _ => ?_
  rw [rf_herm _ ξ, RCLike.norm_conj]

/-- The diagonal at every frequency. -/
noncomputable def diagN (mu : ℝ) (wg : M → ℝ) (rho : ℝ) (m : M) (ξ : Grid N) : ℝ := mu * (wg m * ghgN ξ) + rho

theorem diagN_pos (mu : ℝ) (hm : 0 ≤ mu) (wg : M → ℝ) (hg : ∀ m, 0 ≤ wg m) (rho : ℝ) (hr : 0 < rho) (m : M)
    (ξ : Grid N) : 0 < diagN mu wg rho m ξ := by
  have := mul_nonneg hm (mul_nonneg (hg m) (ghgN_nonneg ξ))
  unfold diagN; linarith

theorem diagN_neg (mu : ℝ) (wg : M → ℝ) (rho : ℝ) (m : M) (ξ : Grid N) :
    diagN mu wg rho m (-ξ) = diagN mu wg rho m ξ := by unfold diagN; rw [ghgN_neg]

/-- Gradients of coefficient maps. -/
abbrev GArr (K M : Type*) [Fintype K] [Fintype M] {d : ℕ} (N : Fin d → ℕ) [∀ k, NeZero (N k)] : Type _ :=
  EuclideanSpace ℝ (Fin d × (K × M) × Grid N)

/-- `x ↦ (v_m Gᵢ x_m)`. -/
noncomputable def gradW (v : M → ℝ) : Coef K M N →L[ℝ] GArr K M N :=
  LinearMap.toContinuousLinearMap
    { toFun := fun x => join fun i km p => v km.2 * rconv (pad N (Tv.Dec.gradG i)) (part x km.1 km.2) p
      map_add' := fun x y => by
        ext ⟨i, km, p⟩
        change v km.2 * rconv _ (part (x + y) km.1 km.2) p = v km.2 * _ + v km.2 * _
        rw [← mul_add]
        congr 1
        unfold rconv
        rw [← sum_add_distrib]
        refine sum_congr rfl fun y _ => ?_
        simp only [part, PiLp.add_apply]
        ring
      map_smul' := fun r x => by
        ext ⟨i, km, p⟩
        change v km.2 * rconv _ (part (r • x) km.1 km.2) p = r * (v km.2 * _)
        rw [mul_left_comm]
        congr 1
        unfold rconv
        rw [mul_sum]
        refine sum_congr rfl fun y _ => ?_
        simp only [part, PiLp.smul_apply, smul_eq_mul]
        ring }

/-- The adjoint of `gradW`. -/
noncomputable def gradWT (v : M → ℝ) : GArr K M N →L[ℝ] Coef K M N :=
  LinearMap.toContinuousLinearMap
    { toFun := fun y => join fun k m p => v m * ∑ i, rcorr (pad N (Tv.Dec.gradG i)) (part y i (k, m)) p
      map_add' := fun x y => by
        ext ⟨k, m, p⟩
        change v m * ∑ i, rcorr (pad N (Tv.Dec.gradG i)) (part (x + y) i (k, m)) p =
          v m * (∑ i, rcorr (pad N (Tv.Dec.gradG i)) (part x i (k, m)) p) +
            v m * ∑ i, rcorr (pad N (Tv.Dec.gradG i)) (part y i (k, m)) p
        rw [← mul_add, ← sum_add_distrib]
        refine congrArg (v m * ·) (sum_congr rfl fun i _ => ?_)
        unfold rcorr
        rw [← sum_add_distrib]
        refine sum_congr rfl fun y _ => ?_
        simp only [part, PiLp.add_apply]
        ring
      map_smul' := fun r x => by
        ext ⟨k, m, p⟩
        change v m * ∑ i, rcorr (pad N (Tv.Dec.gradG i)) (part (r • x) i (k, m)) p =
          r * (v m * ∑ i, rcorr (pad N (Tv.Dec.gradG i)) (part x i (k, m)) p)
        rw [mul_left_comm, mul_sum (a := r)]
        refine congrArg (v m * ·) (sum_congr rfl fun i _ => ?_)
        unfold rcorr
        rw [mul_sum]
        refine sum_congr rfl fun y _ => ?_
        simp only [part, PiLp.smul_apply, smul_eq_mul]
        ring }

theorem part_gradW (v : M → ℝ) (x : Coef K M N) (i : Fin d) (km : K × M) :
    part (gradW v x) i km = fun p => v km.2 * rconv (pad N (Tv.Dec.gradG i)) (part x km.1 km.2) p := rfl

theorem part_gradWT (v : M → ℝ) (y : GArr K M N) (k : K) (m : M) :
    part (gradWT v y) k m = fun p => v m * ∑ i, rcorr (pad N (Tv.Dec.gradG i)) (part y i (k, m)) p := rfl

theorem gradW_adj (v : M → ℝ) (x : Coef K M N) (y : GArr K M N) :
    ⟪gradW v x, y⟫ = ⟪x, gradWT v y⟫ := by
  rw [inner_part, inner_part]
  simp only [part_gradW, part_gradWT, Fintype.sum_prod_type]
  rw [sum_comm]
  refine sum_congr rfl fun k _ => ?_
  rw [sum_comm]
  refine sum_congr rfl fun m _ => ?_
  have e1 : ∀ i, ∑ p, v m * rconv (pad N (Tv.Dec.gradG i)) (part x k m) p * part y i (k, m) p =
      v m * ∑ p, part x k m p * rcorr (pad N (Tv.Dec.gradG i)) (part y i (k, m)) p := by
    intro i
    rw [← sum_rconv_mul, mul_sum]
    exact sum_congr rfl fun p _ => by ring
  simp only [e1]
  rw [← mul_sum, sum_comm, mul_sum]
  refine sum_congr rfl fun p _ => ?_
  rw [← mul_sum]; ring

theorem rf_gradWT_gradW (v : M → ℝ) (x : Coef K M N) (k : K) (m : M) (ξ : Grid N) :
    rf (part (gradWT v (gradW v x)) k m) ξ = ((v m ^ 2 * ghgN ξ : ℝ) : ℂ) * rf (part x k m) ξ := by
  rw [part_gradWT, rf_smul, rf_sum]
  simp only [rf_rcorr, part_gradW, rf_smul, rf_rconv]
  unfold ghgN
  push_cast
  rw [mul_sum, mul_sum, sum_mul]
  refine sum_congr rfl fun i _ => ?_
  rw [← Complex.conj_mul']
  ring

/-- The squared norm of the weighted gradient. -/
theorem gradW_norm (h2 : ∀ k, 2 ≤ N k) (mu : ℝ) (hm : 0 ≤ mu) (wg : M → ℝ) (hg : ∀ m, 0 ≤ wg m)
    (x : Coef K M N) : ‖gradW (fun m => Real.sqrt (mu * wg m)) x‖ ^ 2 = mu * gradEnergy wg (part x) := by
  rw [norm_part]
  unfold gradEnergy
  rw [mul_sum]
  refine sum_congr rfl fun i _ => ?_
  rw [Fintype.sum_prod_type, mul_sum]
  refine sum_congr rfl fun k _ => ?_
  rw [mul_sum]
  refine sum_congr rfl fun m _ => ?_
  rw [← mul_assoc, mul_sum]
  refine sum_congr rfl fun p _ => ?_
  rw [part_gradW, Tv.Dec.rconv_gradG i (h2 i)]
  simp only
  rw [mul_pow, Real.sq_sqrt (mul_nonneg hm (hg m))]
  rfl

/-! ## The X update -/

/-- Right-hand side at every frequency. -/
noncomputable def rhsN (D : Dict c M Nd) (S : Signal c K N) (rho : ℝ) (Y U : Coef K M N) (k : K) (n : M)
    (ξ : Grid N) : ℂ :=
  ∑ i, conj (rf (padD N D i n) ξ) * rf (S i k) ξ + rho * rf (part (Y - U) k n) ξ

theorem rhsN_herm (D : Dict c M Nd) (S : Signal c K N) (rho : ℝ) (Y U : Coef K M N) (k : K) (n : M) :
    Herm (rhsN D S rho Y U k n) := by
  intro ξ
  unfold rhsN
  simp only [rf_herm _ ξ, map_add, map_sum, map_mul, Complex.conj_ofReal]

/-- The array computed by the X update. -/
noncomputable def xG (a : Fin d) (D : Dict c M Nd) (S : Signal c K N) (mu : ℝ) (wg : M → ℝ) (rho : ℝ)
    (Y U : Coef K M N) : Coef K M N := xD a D (diagN mu wg rho) (rhsN D S rho Y U)

/-- What the attributes hold when the cached component belongs to `rho`. -/
def CohG (q : COpts) (D : Dict c M Nd) (S : Signal c K N) (mu : ℝ) (wg : M → ℝ) (rho : ℝ)
    (h : Attr c K M Nd N a) : Prop := ∃ Xf, h = setdict q S mu wg rho D Xf

theorem freqSolveD_cached (df : Fin (c + 1) → M → ℂ) (dg b : M → ℂ) :
    freqSolveD df dg b (some (solvedbdSmC (df 0) (fun n => conj (df 0 n)) dg)) = freqSolveD df dg b none := rfl

theorem diagG_eq (mu : ℝ) (wg : M → ℝ) (rho : ℝ) (m : M) (ξ : Half N a) :
    diagG a mu wg rho m ξ = diagN mu wg rho m ξ.1 := by
  unfold diagG ghgW diagN
  rw [ghg_eq]

theorem xstep_Xf_eq {q : COpts} {D : Dict c M Nd} {S : Signal c K N} {mu : ℝ} {wg : M → ℝ} {rho : ℝ}
    {h : Attr c K M Nd N a} (hc : CohG q D S mu wg rho h) (X Y U : Coef K M N) (k : K) (m : M) :
    (xstep mu wg rho X Y U h).2.Xf k m =
      fun ξ => fullFD D (diagN mu wg rho) (rhsN D S rho Y U) k m ξ.1 := by
  obtain ⟨Xf, rfl⟩ := hc
  funext ξ
  unfold xstep fullFD setdict
  simp only [diagG_eq]
  by_cases hq : q.caches c
  · rw [if_pos hq]
    have := congrFun (freqSolveD_cached (fun i n => dictF a D i n ξ)
      (fun n => ((diagN mu wg rho n ξ.1 : ℝ) : ℂ)) (fun n => rhsN D S rho Y U k n ξ.1)) m
    refine Eq.trans ?_ this
    unfold cacheD
    simp only [Option.map_some, diagG_eq]
    rfl
  · rw [if_neg hq]
    rfl

theorem xstep_coh {q : COpts} {D : Dict c M Nd} {S : Signal c K N} {mu : ℝ} {wg : M → ℝ} {rho : ℝ}
    {h : Attr c K M Nd N a} (hc : CohG q D S mu wg rho h) (X Y U : Coef K M N) :
    (xstep mu wg rho X Y U h).1 = xG a D S mu wg rho Y U := by
  change join (fun k m => irfft N a ((xstep mu wg rho X Y U h).2.Xf k m)) = _
  simp only [xstep_Xf_eq hc]
  rfl

/-- After the X update `Xf` is the transform of X. -/
theorem xstep_Xf {q : COpts} {D : Dict c M Nd} {S : Signal c K N} {mu : ℝ} (hm : 0 ≤ mu) {wg : M → ℝ}
    (hg : ∀ m, 0 ≤ wg m) {rho : ℝ} (hr : 0 < rho) {h : Attr c K M Nd N a} (hc : CohG q D S mu wg rho h)
    (X Y U : Coef K M N) (k : K) (m : M) :
    (xstep mu wg rho X Y U h).2.Xf k m = rfft N a (part (xstep mu wg rho X Y U h).1 k m) := by
  rw [xstep_coh hc, xstep_Xf_eq hc]
  funext ξ
  exact (congrFun (rf_xD D _ (diagN_pos mu hm wg hg rho hr) (diagN_neg mu wg rho) _
    (rhsN_herm D S rho Y U) k m) ξ.1).symm

/-- The normal equations. -/
theorem xG_normal (D : Dict c M Nd) (S : Signal c K N) (mu : ℝ) (hm : 0 ≤ mu) (wg : M → ℝ)
    (hg : ∀ m, 0 ≤ wg m) (rho : ℝ) (hr : 0 < rho) (Y U : Coef K M N) :
    let x := xG a D S mu wg rho Y U
    let v := fun m => Real.sqrt (mu * wg m)
    convOpT (padD N D) (convOp (padD N D) x) + gradWT v (gradW v x) + rho • x =
      convOpT (padD N D) (join S) + rho • (Y - U) := by
  intro x v
  refine part_ext fun k m ξ => ?_
  have hx : rf (part x k m) = _ := rf_xD D _ (diagN_pos mu hm wg hg rho hr) (diagN_neg mu wg rho) _
    (rhsN_herm D S rho Y U) k m
  have hx' : ∀ n, rf (part x k n) = _ := fun n => rf_xD D _ (diagN_pos mu hm wg hg rho hr) (diagN_neg mu wg rho) _
    (rhsN_herm D S rho Y U) k n
  have hv : v m ^ 2 = mu * wg m := Real.sq_sqrt (mul_nonneg hm (hg m))
  rw [Tv.Dec.rf_part_add, Tv.Dec.rf_part_add, Tv.Dec.rf_part_add, Tv.Dec.rf_part_smul, Tv.Dec.rf_part_smul,
    rf_gradWT_gradW, part_convOpT, part_convOpT, rf_sum, rf_sum, hv]
  simp only [rf_rcorr, part_convOp, part_join, rf_sum, rf_rconv, hx']
  have h := freqSolveD_spec (fun i n => rf (padD N D i n) ξ) (fun n => diagN mu wg rho n ξ)
    (fun n => diagN_pos mu hm wg hg rho hr n ξ) (fun n => rhsN D S rho Y U k n ξ) m
  have e : fullFD D (diagN mu wg rho) (rhsN D S rho Y U) k =
    fun n ξ => freqSolveD (fun i n => rf (padD N D i n) ξ) (fun n => (diagN mu wg rho n ξ : ℂ))
      (fun n => rhsN D S rho Y U k n ξ) none n := rfl
  rw [e]
  simp only
  refine Eq.trans ?_ h
  unfold diagN
  push_cast
  ring

/-- The excess of any array over the one computed by the X update. -/
theorem xG_excess (D : Dict c M Nd) (S : Signal c K N) (mu : ℝ) (hm : 0 ≤ mu) (wg : M → ℝ)
    (hg : ∀ m, 0 ≤ wg m) (rho : ℝ) (hr : 0 < rho) (Y U z : Coef K M N) :
    let x := xG a D S mu wg rho Y U
    let v := fun m => Real.sqrt (mu * wg m)
    1 / 2 * ‖convOp (padD N D) z - join S‖ ^ 2 + 1 / 2 * ‖gradW v z‖ ^ 2 + rho / 2 * ‖z - Y + U‖ ^ 2 =
      1 / 2 * ‖convOp (padD N D) x - join S‖ ^ 2 + 1 / 2 * ‖gradW v x‖ ^ 2 + rho / 2 * ‖x - Y + U‖ ^ 2 +
      1 / 2 * ‖convOp (padD N D) (z - x)‖ ^ 2 + 1 / 2 * ‖gradW v (z - x)‖ ^ 2 + rho / 2 * ‖z - x‖ ^ 2 := by
  intro x v
  have hn : convOpT (padD N D) (convOp (padD N D) x) + gradWT v (gradW v x) + rho • x =
      convOpT (padD N D) (join S) + rho • (Y - U) := xG_normal D S mu hm wg hg rho hr Y U
  have h1 := quad1 (convOp (K := K) (padD N D)) (join S) x z
  have h2 := quad1 (gradW (K := K) (N := N) v) 0 x z
  have h3 := quad1 (ContinuousLinearMap.id ℝ (Coef K M N)) (Y - U) x z
  simp only [ContinuousLinearMap.id_apply, sub_zero] at h2 h3
  have hgr : ⟪convOp (padD N D) x - join S, convOp (padD N D) (z - x)⟫ + ⟪gradW v x, gradW v (z - x)⟫ +
      rho * ⟪x - (Y - U), z - x⟫ = 0 := by
    have e1 : ⟪convOp (padD N D) x - join S, convOp (padD N D) (z - x)⟫ =
        ⟪convOpT (padD N D) (convOp (padD N D) x - join S), z - x⟫ := by
      rw [real_inner_comm, convOp_adj, real_inner_comm]
    have e2 : ⟪gradW v x, gradW v (z - x)⟫ = ⟪gradWT v (gradW v x), z - x⟫ := by
      rw [real_inner_comm, gradW_adj, real_inner_comm]
    rw [e1, e2, ← real_inner_smul_left, ← inner_add_left, ← inner_add_left, map_sub]
    have : convOpT (padD N D) (convOp (padD N D) x) - convOpT (padD N D) (join S) + gradWT v (gradW v x) +
        rho • (x - (Y - U)) = 0 := by
      have e := sub_eq_zero.2 hn
      rw [← e]; module
    rw [this, inner_zero_left]
  rw [show z - Y + U = z - (Y - U) by abel, show x - Y + U = x - (Y - U) by abel]
  linear_combination h1 + h2 + rho * h3 + hgr

theorem augGrd_eq (hN : ∀ k, Nd k ≤ N k) (h2 : ∀ k, 2 ≤ N k) (D : Dict c M Nd) (S : Signal c K N) (mu : ℝ)
    (hm : 0 ≤ mu) (wg : M → ℝ) (hg : ∀ m, 0 ≤ wg m) (rho : ℝ) (Y U x : Coef K M N) :
    augGrd D S mu wg rho (part Y) (part U) (part x) =
      1 / 2 * ‖convOp (padD N D) x - join S‖ ^ 2 +
        1 / 2 * ‖gradW (fun m => Real.sqrt (mu * wg m)) x‖ ^ 2 + rho / 2 * ‖x - Y + U‖ ^ 2 := by
  unfold augGrd
  rw [dataTerm_eq hN, gradW_norm h2 mu hm wg hg, ← sumSq_eq (x - Y + U)]
  have : (fun k m p => part x k m p - part Y k m p + part U k m p) = part (x - Y + U) := rfl
  rw [this]
  ring

/-- **C40.** The X update of `ConvBPDNGradReg`, with a component cached for the current `rho` or without
one, gives the unique minimiser of the augmented Lagrangian, for dictionaries with one or several channels and
any non-negative `mu` and `GradWeight`. -/
theorem C40_convgradreg_xstep (hN : ∀ k, Nd k ≤ N k) (h2 : ∀ k, 2 ≤ N k) (q : COpts) (D : Dict c M Nd)
    (S : Signal c K N) (mu : ℝ) (hm : 0 ≤ mu) (wg : M → ℝ) (hg : ∀ m, 0 ≤ wg m) (rho : ℝ) (hr : 0 < rho)
    (X Y U : Coef K M N) (Xf : Spec K M N a) :
    IsUniqueMin (augGrd D S mu wg rho (part Y) (part U)) Set.univ
      (part (xstep mu wg rho X Y U (setdict q S mu wg rho D Xf)).1) := by
  rw [xstep_coh ⟨Xf, rfl⟩]
  refine ⟨trivial, fun Z _ hne => ?_⟩
  have h := xG_excess (a := a) D S mu hm wg hg rho hr Y U (join Z)
  simp only at h
  change augGrd D S mu wg rho (part Y) (part U) _ <
    augGrd D S mu wg rho (part Y) (part U) (part (join Z))
  rw [augGrd_eq hN h2 D S mu hm wg hg, augGrd_eq hN h2 D S mu hm wg hg, h]
  have hp : 0 < ‖join Z - xG a D S mu wg rho Y U‖ := by
    rw [norm_pos_iff, sub_ne_zero]
    intro he
    apply hne
    rw [← he]; rfl
  have h1 := mul_pos (half_pos hr) (pow_pos hp 2)
  have h2 := sq_nonneg ‖convOp (padD N D) (join Z - xG a D S mu wg rho Y U)‖
  have h3 := sq_nonneg ‖gradW (fun m => Real.sqrt (mu * wg m)) (join Z - xG a D S mu wg rho Y U)‖
  linarith

/-! ## Convergence -/

/-- `x ↦ (D x, √(μ w) G x)`. -/
noncomputable def grdL (D : Dict c M Nd) (v : M → ℝ) :
    Coef K M N →L[ℝ] WithLp 2 (Sig (Fin (c + 1)) K N × GArr K M N) :=
  LinearMap.toContinuousLinearMap
    { toFun := fun x => WithLp.toLp 2 (convOp (padD N D) x, gradW v x)
      map_add' := fun x y => by rw [map_add, map_add]; rfl
      map_smul' := fun c x => by rw [map_smul, map_smul]; rfl }

/-- Adjoint of `grdL`. -/
noncomputable def grdLT (D : Dict c M Nd) (v : M → ℝ) :
    WithLp 2 (Sig (Fin (c + 1)) K N × GArr K M N) →L[ℝ] Coef K M N :=
  LinearMap.toContinuousLinearMap
    { toFun := fun y => convOpT (padD N D) y.fst + gradWT v y.snd
      map_add' := fun x y => by
        change convOpT (padD N D) (x.fst + y.fst) + gradWT v (x.snd + y.snd) = _
        rw [map_add, map_add]; abel
      map_smul' := fun c x => by
        change convOpT (padD N D) (c • x.fst) + gradWT v (c • x.snd) = _
        rw [map_smul, map_smul, ← smul_add]; rfl }

theorem grdL_adj (D : Dict c M Nd) (v : M → ℝ) (x : Coef K M N) (y) :
    ⟪grdL D v x, y⟫ = ⟪x, grdLT D v y⟫ := by
  rw [WithLp.prod_inner_apply]
  change ⟪convOp (padD N D) x, y.fst⟫ + ⟪gradW v x, y.snd⟫ =
    ⟪x, convOpT (padD N D) y.fst + gradWT v y.snd⟫
  rw [inner_add_right, convOp_adj, gradW_adj]

/-- The data in the product space. -/
noncomputable def grdB (S : Signal c K N) : WithLp 2 (Sig (Fin (c + 1)) K N × GArr K M N) :=
  WithLp.toLp 2 (join S, 0)

theorem grdL_norm (D : Dict c M Nd) (S : Signal c K N) (v : M → ℝ) (x : Coef K M N) :
    1 / 2 * ‖grdL D v x - grdB S‖ ^ 2 =
      1 / 2 * ‖convOp (padD N D) x - join S‖ ^ 2 + 1 / 2 * ‖gradW v x‖ ^ 2 := by
  rw [WithLp.prod_norm_sq_eq_of_L2]
  change 1 / 2 * (‖convOp (padD N D) x - join S‖ ^ 2 + ‖gradW v x - 0‖ ^ 2) = _
  rw [sub_zero]
  ring

theorem coh_xstep {q : COpts} {D : Dict c M Nd} {S : Signal c K N} {mu : ℝ} {wg : M → ℝ} {rho : ℝ}
    {h : Attr c K M Nd N a} (hc : CohG q D S mu wg rho h) (X Y U : Coef K M N) :
    CohG q D S mu wg rho (xstep mu wg rho X Y U h).2 := by
  obtain ⟨Xf, rfl⟩ := hc
  exact ⟨_, rfl⟩

theorem coh_any {q : COpts} (hq : q.caches c = false) {D : Dict c M Nd} {S : Signal c K N} {mu : ℝ}
    {wg : M → ℝ} {rho rho' : ℝ} {h : Attr c K M Nd N a} (hc : CohG q D S mu wg rho h) :
    CohG q D S mu wg rho' h := by
  obtain ⟨Xf, rfl⟩ := hc
  exact ⟨Xf, by simp [setdict, hq]⟩

theorem implements_grd (q : COpts) (hq : q.caches c = false)
    (h2 : q.noBndry = true → ∀ n, 2 ≤ Nd n) (hN : ∀ n, Nd n ≤ N n) (D : Dict c M Nd)
    (S : Signal c K N) (lmbda mu : ℝ) (hl : 0 ≤ lmbda) (hm : 0 ≤ mu) (w : K × M × Grid N → ℝ)
    (hw : ∀ i, 0 ≤ w i) (wg : M → ℝ) (hg : ∀ m, 0 ≤ wg m) (fe ge : Bool) :
    Implements (clsGrd q S lmbda mu w wg fe ge)
      (lsProblem (grdL D fun m => Real.sqrt (mu * wg m)) (grdB S) (fun y => lmbda * l1w w y.ofLp) (cset q Nd)
        (Bpdn.convex_l1w w hw _ (convex_cset q Nd) lmbda hl))
      (CohG (a := a) q D S mu wg) := by
  refine equal_implements _ _ _ _ (ls_convex _ _) (Bpdn.convex_l1w w hw _ (convex_cset q Nd) lmbda hl) _
    _ _ _ _ (fun _ X Y U _ _ h => coh_xstep h X Y U) (fun _ _ _ _ _ _ _ h => h)
    (fun _ _ _ _ _ h => by rw [rhochange_none hq]; exact coh_any hq h) ?_ ?_
  · intro rho X Y U h hp hI
    refine ⟨trivial, fun z _ => ?_⟩
    rw [xstep_coh hI, grdL_norm, grdL_norm]
    have h := xG_excess (a := a) D S mu hm wg hg rho hp Y U z
    simp only at h
    have h1 := sq_nonneg ‖convOp (padD N D) (z - xG a D S mu wg rho Y U)‖
    have h2 := mul_nonneg (half_pos hp).le (sq_nonneg ‖z - xG a D S mu wg rho Y U‖)
    have h3 := sq_nonneg ‖gradW (fun m => Real.sqrt (mu * wg m)) (z - xG a D S mu wg rho Y U)‖
    linarith
  · intro rho AX X Y U h hp _
    exact ystep_conv_min q h2 hN lmbda hl w hw rho hp AX X Y U h

theorem lsObj_grd (hN : ∀ n, Nd n ≤ N n) (hN2 : ∀ k, 2 ≤ N k) (D : Dict c M Nd) (S : Signal c K N)
    (lmbda mu : ℝ) (hm : 0 ≤ mu) (w : K × M × Grid N → ℝ) (wg : M → ℝ) (hg : ∀ m, 0 ≤ wg m) (y : Coef K M N) :
    lsObj (grdL D fun m => Real.sqrt (mu * wg m)) (grdB S) (fun y : Coef K M N => lmbda * l1w w y.ofLp) y =
      objGrd D S lmbda mu w wg (part y) := by
  unfold lsObj objGrd
  rw [grdL_norm, dataTerm_eq hN, ← l1w_part, gradW_norm hN2 mu hm wg hg]
  ring

/-- **C39 for `ConvBPDNGradReg`** on signals with at least two samples along every axis, when no component is
cached (`HighMemSolve` off, or a multi-channel dictionary; see `C43_gradreg_refuted` for the other case): for
every dictionary, signal, positive `lmbda` and weights, non-negative `mu` and `GradWeight`, fixed rho, relaxation
parameter in (0, 2), from any start, the objective at the array `solve()` would return tends to the minimum. -/
theorem C39_convgradreg (hN : ∀ n, Nd n ≤ N n) (hN2 : ∀ k, 2 ≤ N k) (q : COpts) (hq : q.caches c = false)
    (h2 : q.noBndry = true → ∀ n, 2 ≤ Nd n)
    (D : Dict c M Nd) (S : Signal c K N) (lmbda mu : ℝ) (hl : 0 < lmbda) (hm : 0 ≤ mu)
    (w : K × M × Grid N → ℝ) (hw : ∀ i, 0 < w i) (wg : M → ℝ) (hg : ∀ m, 0 ≤ wg m) (fe ge : Bool) (o : Opts)
    (ha : o.autoRho = false) (hrlx : 0 < o.rlx ∧ o.rlx < 2) (cb) (hcb : Bpdn.CallbackReads cb)
    (s : St (Coef K M N) (Coef K M N) (Coef K M N) (Attr c K M Nd N a)) (hp : 0 < s.rho)
    (Xf : Spec K M N a) (hs : s.extra = setdict q S mu wg s.rho D Xf) :
    ∃ Xopt, IsMin (objGrd D S lmbda mu w wg) (allowedConv q.nonNeg q.noBndry Nd) Xopt ∧
      Tendsto (fun n => objGrd D S lmbda mu w wg
        (part (traj (clsGrd q S lmbda mu w wg fe ge) o cb s n).Y)) atTop
        (𝓝 (objGrd D S lmbda mu w wg Xopt)) ∧
      ∀ n, part (traj (clsGrd q S lmbda mu w wg fe ge) o cb s (n + 1)).Y ∈
        allowedConv q.nonNeg q.noBndry Nd := by
  have hcg := Bpdn.convex_l1w w (fun i => (hw i).le) _ (convex_cset (K := K) (M := M) (N := N) q Nd) lmbda hl.le
  obtain ⟨r, hr, hgrow⟩ := Bpdn.l1w_grow w hw lmbda hl
  obtain ⟨x, hx, hmin⟩ := ls_exists_min (grdL D fun m => Real.sqrt (mu * wg m)) (grdB S)
    (fun y : Coef K M N => lmbda * l1w w y.ofLp) (cset q Nd) (closed_cset q Nd)
    ⟨0, zero_cset q Nd⟩ (continuous_const.mul (Bpdn.continuous_l1w w)) r hr hgrow
  have hconv := ls_convergence (grdL D fun m => Real.sqrt (mu * wg m)) (grdLT D _) (grdL_adj D _) (grdB S)
    (fun y : Coef K M N => lmbda * l1w w y.ofLp) (cset q Nd) hcg
    (fun y _ => mul_nonneg hl.le (Finset.sum_nonneg fun i _ => mul_nonneg (hw i).le (norm_nonneg _)))
    (clsGrd q S lmbda mu w wg fe ge) (CohG (a := a) q D S mu wg)
    (implements_grd (a := a) q hq h2 hN D S lmbda mu hl.le hm w (fun i => (hw i).le) wg hg fe ge)
    o ha hrlx cb (hcb.keeps _) s hp ⟨Xf, hs⟩ x hx hmin
  refine ⟨part x, ⟨hx, fun Z hZ => ?_⟩, ?_, fun n => hconv.2 n⟩
  · have := hmin (join Z) hZ
    rw [lsObj_grd hN hN2 D S lmbda mu hm w wg hg, lsObj_grd hN hN2 D S lmbda mu hm w wg hg] at this
    exact this
  · have := hconv.1
    simp only [lsObj_grd hN hN2 D S lmbda mu hm w wg hg] at this
    exact this

/-! ## Recorded values -/

theorem sqrt_norm (z : ℂ) : ‖z ^ (1 / 2 : ℂ)‖ ^ 2 = ‖z‖ := by
  rw [← norm_pow]
  congr 1
  have := Complex.cpow_nat_inv_pow z two_ne_zero
  rw [show (1 / 2 : ℂ) = ((2 : ℕ) : ℂ)⁻¹ by norm_num]
  exact this

/-- `rfl2norm2` depends on the absolute values only. -/
theorem rfl2norm2_congr {ι κ : Type*} [Fintype ι] [Fintype κ] (f : ι × Half N a → ℂ)
    (g : (κ × ι) × Half N a → ℂ) (h : ∀ i ξ, ‖f (i, ξ)‖ ^ 2 = ∑ j, ‖g ((j, i), ξ)‖ ^ 2) :
    rfl2norm2 N a f = rfl2norm2 N a g := by
  have e : ∀ (P : ℕ → Prop) [DecidablePred P],
      frob (fun p : ι × Half N a => if P (p.2.1 a).val then f p else 0) =
      frob (fun p : (κ × ι) × Half N a => if P (p.2.1 a).val then g p else 0) := by
    intro P _
    unfold frob
    congr 1
    rw [Fintype.sum_prod_type]
    conv_rhs => rw [Fintype.sum_prod_type, Fintype.sum_prod_type, sum_comm]
    refine sum_congr rfl fun i _ => ?_
    rw [sum_comm]
    refine sum_congr rfl fun ξ _ => ?_
    by_cases hP : P (ξ.1 a).val
    · simp only [if_pos hP]
      exact h i ξ
    · simp only [if_neg hP]
      simp
  unfold rfl2norm2
  simp only
  rw [e fun v => v = 0, e fun v => 1 ≤ v ∧ v < (N a + 1) / 2, e fun v => v = N a / 2 + 1 - 1]

theorem regGrad_eq (h2 : ∀ k, 2 ≤ N k) (wg : M → ℝ) (hg : ∀ m, 0 ≤ wg m) (y : Coef K M N)
    (f : Spec K M N a) (hf : ∀ k m, f k m = rfft N a (part y k m)) :
    regGrad wg f = 1 / 2 * gradEnergy wg (part y) := by
  have h := gradW_norm h2 1 zero_le_one wg hg y
  simp only [one_mul] at h
  unfold regGrad
  rw [← h, norm_part, rfl2norm2_congr _ (fun p : (Fin d × K × M) × Half N a =>
    rfft N a (part (gradW (fun m => Real.sqrt (wg m)) y) p.1.1 p.1.2) p.2),
    C32_rfl2norm2 a (fun i : Fin d × K × M => part (gradW (fun m => Real.sqrt (wg m)) y) i.1 i.2),
    Fintype.sum_prod_type]
  · ring
  · rintro ⟨k, m⟩ ξ
    rw [sqrt_norm]
    have e : ∀ i : Fin d, rfft N a (part (gradW (fun m => Real.sqrt (wg m)) y) i (k, m)) ξ =
        Real.sqrt (wg m) * (rf (pad N (Tv.Dec.gradG i)) ξ.1 * rf (part y k m) ξ.1) := by
      intro i
      change rf (part (gradW (fun m => Real.sqrt (wg m)) y) i (k, m)) ξ.1 = _
      rw [part_gradW, rf_smul, rf_rconv]
    simp only [e, hf]
    have e2 : rfft N a (part y k m) ξ = rf (part y k m) ξ.1 := rfl
    unfold ghgW
    rw [e2, ghg_eq, mul_assoc, Complex.conj_mul', norm_mul, norm_pow, Complex.norm_real, Complex.norm_real,
      Real.norm_of_nonneg (mul_nonneg (hg m) (ghgN_nonneg _)), norm_norm]
    unfold ghgN
    rw [mul_sum, sum_mul]
    refine sum_congr rfl fun i _ => ?_
    rw [norm_mul, norm_mul, mul_pow, mul_pow, Complex.norm_real, Real.norm_of_nonneg (Real.sqrt_nonneg _),
      Real.sq_sqrt (hg m)]
    ring

/-- The values recorded for each iteration: with `AuxVarObj` the `ConvBPDNGradReg` functional, the l1 term and
the gradient term at Y, without it at the X just computed. -/
theorem C39_convgradreg_recorded (hN : ∀ n, Nd n ≤ N n) (hN2 : ∀ k, 2 ≤ N k) (q : COpts) (D : Dict c M Nd)
    (S : Signal c K N) (lmbda mu : ℝ) (hm : 0 ≤ mu) (w : K × M × Grid N → ℝ) (hw : ∀ i, 0 ≤ w i) (wg : M → ℝ)
    (hg : ∀ m, 0 ≤ wg m) (rho : ℝ) (hr : 0 < rho) (X0 X Y Y0 U : Coef K M N) (Xf : Spec K M N a) :
    let x := xstep mu wg rho X0 Y0 U (setdict q S mu wg rho D Xf)
    (clsGrd q S lmbda mu w wg false true).objfn X Y x.2 =
      (objGrd D S lmbda mu w wg (part Y), ∑ k, ∑ m, ∑ p, w (k, m, p) * |part Y k m p|,
        1 / 2 * gradEnergy wg (part Y)) ∧
    (clsGrd q S lmbda mu w wg true false).objfn x.1 Y x.2 =
      (objGrd D S lmbda mu w wg (part x.1), ∑ k, ∑ m, ∑ p, w (k, m, p) * |part x.1 k m p|,
        1 / 2 * gradEnergy wg (part x.1)) := by
  intro x
  have hl : ∀ y : Coef K M N, normL1 (fun i => w i * y i) = ∑ k, ∑ m, ∑ p, w (k, m, p) * |part y k m p| := by
    intro y
    have := regL1_eq 1 w hw y
    rw [one_mul] at this
    rw [← this]
    unfold regL1
    rw [one_mul]
  constructor
  · have h1 : dfd S false Y x.2 = dataTerm D S (part Y) := dfd_eq hN D S Y _ fun _ _ => rfl
    have h2 : regGrad wg (fvarf false Y x.2) = 1 / 2 * gradEnergy wg (part Y) :=
      regGrad_eq hN2 wg hg Y _ fun _ _ => rfl
    have h3 : normL1 (fun i => w i * Bpdn.gvar true X Y i) = _ := hl Y
    change (dfd S false Y x.2 + (lmbda * normL1 (fun i => w i * Bpdn.gvar true X Y i) +
      mu * regGrad wg (fvarf false Y x.2)), _, _) = _
    rw [h1, h2, h3]
    unfold objGrd
    ext
    · simp only; ring
    · rfl
    · rfl
  · have hX : ∀ k m, x.2.Xf k m = rfft N a (part x.1 k m) :=
      fun k m => xstep_Xf hm hg hr ⟨Xf, rfl⟩ X0 Y0 U k m
    have h1 : dfd S true Y x.2 = dataTerm D S (part x.1) := dfd_eq hN D S x.1 _ hX
    have h2 : regGrad wg (fvarf true Y x.2) = 1 / 2 * gradEnergy wg (part x.1) :=
      regGrad_eq hN2 wg hg x.1 _ hX
    have h3 : normL1 (fun i => w i * Bpdn.gvar false x.1 Y i) = _ := hl x.1
    change (dfd S true Y x.2 + (lmbda * normL1 (fun i => w i * Bpdn.gvar false x.1 Y i) +
      mu * regGrad wg (fvarf true Y x.2)), _, _) = _
    rw [h1, h2, h3]
    unfold objGrd
    ext
    · simp only; ring
    · rfl
    · rfl

/-! ## The cached component -/

/-- Two-sample arrays. -/
abbrev N2 : Fin 1 → ℕ := fun _ => 2

instance : ∀ k, NeZero (N2 k) := fun _ => ⟨two_ne_zero⟩

/-- One filter with one sample of value 1. -/
def gD : Dict 0 Unit N1 := fun _ _ _ => 1

/-- One signal with the samples 1, -1. -/
def gS : Signal 0 Unit N2 := fun _ _ => pad N2 (Tv.Dec.gradG 0)

theorem rf_gD (i : Fin (0 + 1)) (n : Unit) (ξ : Grid N2) : rf (padD N2 gD i n) ξ = 1 := by
  have e : ∀ y : Grid N2, padD N2 gD i n y = if y = 0 then 1 else 0 := by
    intro y
    unfold padD pad gD
    by_cases h : y = 0
    · subst h
      simp
    · rw [if_neg h, dif_neg]
      intro hh
      apply h
      funext k
      have := hh k
      exact (ZMod.val_eq_zero _).1 (by simpa using this)
  unfold rf fft
  rw [Finset.sum_eq_single 0]
  · simp only; rw [e, if_pos rfl, chi_zero]; simp
  · intro y _ hy
    simp only; rw [e, if_neg hy]; simp
  · simp

theorem gS_or (ξ : Grid N2) : rf (gS 0 ()) ξ = 0 ∨ ghgN ξ = 4 := by
  have h1 := Tv.Dec.rf_gradG (N := N2) 0 le_rfl ξ
  have hu : Signal.unit N2 0 + Signal.unit N2 0 = 0 := by
    funext k
    fin_cases k
    change (Signal.unit N2 0 0 + Signal.unit N2 0 0 : ZMod 2) = 0
    exact CharTwo.add_self_eq_zero _
  have h2 : chi N2 ξ (Signal.unit N2 0) * chi N2 ξ (Signal.unit N2 0) = 1 := by
    rw [← chi_add, hu, chi_zero]
  rcases mul_self_eq_one_iff.1 h2 with h | h
  · left
    unfold gS
    rw [h1, h]; simp
  · right
    unfold ghgN
    rw [Fin.sum_univ_one, h1, h]
    simp
    norm_num

theorem solve_two (t : ℝ) (cc : Option (Unit → Half N2 0 → ℂ)) (rho : ℝ) (Xf : Spec Unit Unit N2 0)
    (hcc : ∀ ξ : Half N2 0, ghgN ξ.1 = 4 →
      freqSolveD (c := 0) (M := Unit) (fun _ _ => 1) (fun _ => ((4 + rho : ℝ) : ℂ)) (fun _ => rf (gS 0 ()) ξ.1)
        (cc.map fun f n => f n ξ) () = t * rf (gS 0 ()) ξ.1)
    (hc0 : ∀ ξ : Half N2 0, rf (gS 0 ()) ξ.1 = 0 →
      freqSolveD (c := 0) (M := Unit) (fun _ _ => 1) (fun _ => ((ghgN ξ.1 + rho : ℝ) : ℂ))
        (fun _ => rf (gS 0 ()) ξ.1) (cc.map fun f n => f n ξ) () = t * rf (gS 0 ()) ξ.1) :
    part (xstep 1 (fun _ => 1) rho 0 0 0 (⟨gD, dictF 0 gD, dsF (dictF 0 gD) gS, cc, Xf⟩ :
      Attr 0 Unit Unit N1 N2 0)).1 () () 0 = t := by
  have hdf : ∀ (i : Fin (0 + 1)) (n : Unit) (ξ : Half N2 0), dictF (N := N2) 0 gD i n ξ = 1 :=
    fun i n ξ => rf_gD i n ξ.1
  have hds : ∀ (n : Unit) (ξ : Half N2 0), dsF (dictF 0 gD) gS () n ξ = rf (gS 0 ()) ξ.1 := by
    intro n ξ
    unfold dsF
    rw [Fin.sum_univ_succ, Fin.sum_univ_zero, add_zero, hdf, map_one, one_mul]
    rfl
  have h0 : ∀ (n : Unit) (ξ : Half N2 0), rfft N2 0 (part (0 - 0 : Coef Unit Unit N2) () n) ξ = 0 := by
    intro n ξ
    have : part (0 - 0 : Coef Unit Unit N2) () n = fun p => 0 * part (0 : Coef Unit Unit N2) () n p := by
      funext p; simp [part]
    rw [this]
    change rf _ ξ.1 = 0
    rw [rf_smul]; simp
  have hx : (xstep 1 (fun _ => 1) rho 0 0 0 (⟨gD, dictF 0 gD, dsF (dictF 0 gD) gS, cc, Xf⟩ :
      Attr 0 Unit Unit N1 N2 0)).2.Xf () () = rfft N2 0 fun p => t * gS 0 () p := by
    funext ξ
    change _ = rf (fun p => t * gS 0 () p) ξ.1
    rw [rf_smul]
    unfold xstep
    simp only [hdf, hds, h0, mul_zero, add_zero, diagG_eq]
    unfold diagN
    simp only [one_mul]
    by_cases h : rf (gS 0 ()) ξ.1 = 0
    · exact hc0 ξ h
    · have h4 := (gS_or ξ.1).resolve_left h
      rw [h4]
      exact hcc ξ h4
  change irfft N2 0 ((xstep 1 (fun _ => 1) rho 0 0 0 (⟨gD, dictF 0 gD, dsF (dictF 0 gD) gS, cc, Xf⟩ :
      Attr 0 Unit Unit N1 N2 0)).2.Xf () ()) 0 = t
  rw [hx, irfft_rfft]
  have : gS 0 () 0 = 1 := by
    unfold gS
    rw [Tv.Dec.pad_gradG 0 le_rfl, if_pos rfl]
  simp only [this, mul_one]

/-- **C43 refuted for `ConvBPDNGradReg`.** One filter with one sample of value 1, the signal (1, -1), `mu = 1`
and rho changed from 1 to 2: the first entry of the next X is 1/9 with `HighMemSolve` and 1/7 without.  The
inherited `rhochange` caches the component of `solvedbi_sm` for `rho`, the X update uses it as the component of
`solvedbd_sm` for `mu GHGf + rho`. -/
theorem C43_gradreg_refuted :
    part (xstep 1 (fun _ => 1) 2 0 0 0 (rhochange ⟨true, false, false⟩ 2
      (setdict (a := 0) ⟨true, false, false⟩ gS 1 (fun _ => 1) 1 gD (fun _ _ _ => 0)))).1 () () 0 = 1 / 9 ∧
    part (xstep 1 (fun _ => 1) 2 0 0 0 (rhochange ⟨false, false, false⟩ 2
      (setdict (a := 0) ⟨false, false, false⟩ gS 1 (fun _ => 1) 1 gD (fun _ _ _ => 0)))).1 () () 0 = 1 / 7 := by
  have hdf : ∀ (i : Fin (0 + 1)) (n : Unit) (ξ : Half N2 0), dictF (N := N2) 0 gD i n ξ = 1 :=
    fun i n ξ => rf_gD i n ξ.1
  constructor
  · refine solve_two (1 / 9) (some (cacheOf (dictF 0 gD) 2)) 2 _ (fun ξ h => ?_) fun ξ h => ?_
    · unfold freqSolveD solvedbdSm cacheOf solvedbiSmC
      simp only [hdf, Linalg.inner, if_true, Option.map_some, Option.getD_some]
      simp
      ring
    · rw [h]
      unfold freqSolveD solvedbdSm
      simp [Linalg.inner]
  · refine solve_two (1 / 7) none 2 _ (fun ξ h => ?_) fun ξ h => ?_
    · unfold freqSolveD solvedbdSm solvedbdSmC
      simp only [Linalg.inner, if_true, Option.map_none, Option.getD_none]
      simp
      ring
    · rw [h]
      unfold freqSolveD solvedbdSm
      simp [Linalg.inner]

/-- The hypotheses of `C39_convgradreg` on shapes and options are met by this example. -/
example : (∀ n, N1 n ≤ N2 n) ∧ (∀ k, 2 ≤ N2 k) ∧ COpts.caches ⟨false, true, false⟩ 0 = false :=
  ⟨fun _ => by simp, fun _ => le_rfl, rfl⟩

end Sporco.Conv.Grd
