import Verif.Conv.RecTvModel
import Verif.Conv.TvThm

/-!
# `ConvBPDNRecTV`: X update, convergence, recorded values (C39, C40, C43, C67)
-/

set_option autoImplicit false
set_option linter.unusedSectionVars false

namespace Sporco.Conv.RTV

open Finset ComplexConjugate Sporco.Linalg Sporco.Prox Sporco.Admm Filter Topology Sporco.Conv Sporco.Conv.TB
  Sporco.Conv.Grd Sporco.Conv.TVC
open scoped RealInnerProductSpace

variable {d c : ℕ} {N Nd : Fin d → ℕ} [∀ k, NeZero (N k)] {a : Fin d} {K M J : Type*} [Fintype K]
  [Fintype M] [Fintype J] [DecidableEq J]

/-! ## Specification -/

/-- Channel `ch` of the weighted reconstruction `∑ₘ w_m d_m * x_m` (documentation of `ConvBPDNRecTV`). -/
noncomputable def wrecon (wt : M → ℝ) (D : Dict c M Nd) (X : M → Grid N → ℝ) (ch : Fin (c + 1)) (p : Grid N) : ℝ :=
  ∑ m, wt m * filt (D ch m) (X m) p

/-- `‖√(∑ᵢ (Gᵢ (∑ₘ w_m d_m * x_m))²)‖₁` with the sum of squares over the channels as well; `sg k` is the signal
that `k` belongs to. -/
noncomputable def recTV (sg : K → J) (wt : M → ℝ) (D : Dict c M Nd) (X : K → M → Grid N → ℝ) : ℝ :=
  ∑ j, ∑ p, Real.sqrt (∑ k with sg k = j, ∑ ch, ∑ i, diff i (wrecon wt D (X k) ch) p ^ 2)

/-- `(1/2) ‖∑ₘ d_m * x_m - s‖² + λ ‖w ⊙ x‖₁ + μ ‖√(∑ᵢ (Gᵢ (∑ₘ w_m d_m * x_m))²)‖₁`. -/
noncomputable def objR (sg : K → J) (D : Dict c M Nd) (S : Signal c K N) (lmbda mu : ℝ) (w : K × M × Grid N → ℝ)
    (wt : M → ℝ) (X : K → M → Grid N → ℝ) : ℝ :=
  dataTerm D S X + lmbda * l1Conv w X + mu * recTV sg wt D X

/-- The augmented Lagrangian as a function of X:
`(1/2) ‖∑ₘ d_m * x_m - s‖² + (ρ/2)(∑ᵢ ‖Gᵢ ∑ₘ w_m d_m * x_m - yᵢ + uᵢ‖² + ‖x - y_0 + u_0‖²)`. -/
noncomputable def augR (D : Dict c M Nd) (S : Signal c K N) (wt : M → ℝ) (rho : ℝ)
    (Y1 U1 : Fin d × Fin (c + 1) → K → Grid N → ℝ) (Y0 U0 X : K → M → Grid N → ℝ) : ℝ :=
  dataTerm D S X + rho / 2 * (∑ i, ∑ ch, ∑ k, ∑ p,
    (diff i (wrecon wt D (X k) ch) p - Y1 (i, ch) k p + U1 (i, ch) k p) ^ 2 +
      sumSq (fun k m p => X k m p - Y0 k m p + U0 k m p))

/-! ## The operator -/

/-- The filters `w_m Gᵢ d_m`. -/
noncomputable def gF (N : Fin d → ℕ) [∀ k, NeZero (N k)] (wt : M → ℝ) (D : Dict c M Nd) (ic : Fin d × Fin (c + 1))
    (m : M) : Grid N → ℝ :=
  fun p => wt m * rconv (pad N (Tv.Dec.gradG ic.1)) (padD N D ic.2 m) p

theorem rf_gF (wt : M → ℝ) (D : Dict c M Nd) (ic : Fin d × Fin (c + 1)) (m : M) (ξ : Grid N) :
    rf (gF N wt D ic m) ξ = rf (pad N (Tv.Dec.gradG ic.1)) ξ * (wt m * rf (padD N D ic.2 m) ξ) := by
  unfold gF
  rw [rf_smul, rf_rconv]; ring

/-- `x ↦ Gᵢ ∑ₘ w_m d_m * x_m`. -/
noncomputable def gOp (wt : M → ℝ) (D : Dict c M Nd) : Coef K M N →L[ℝ] GR c K N := convOp (gF N wt D)

/-- The adjoint of `gOp`. -/
noncomputable def gOpT (wt : M → ℝ) (D : Dict c M Nd) : GR c K N →L[ℝ] Coef K M N := convOpT (gF N wt D)

theorem gOp_adj (wt : M → ℝ) (D : Dict c M Nd) (x : Coef K M N) (y : GR c K N) :
    ⟪gOp wt D x, y⟫ = ⟪x, gOpT wt D y⟫ := convOp_adj _ x y

theorem part_gOp (hN : ∀ n, Nd n ≤ N n) (h2 : ∀ k, 2 ≤ N k) (wt : M → ℝ) (D : Dict c M Nd) (x : Coef K M N)
    (i : Fin d) (ch : Fin (c + 1)) (k : K) :
    part (gOp wt D x) (i, ch) k = diff i (wrecon wt D (part x k) ch) := by
  have e : part (gOp wt D x) (i, ch) k = rconv (pad N (Tv.Dec.gradG i)) (wrecon wt D (part x k) ch) := by
    unfold gOp
    rw [part_convOp]
    refine rf_injective fun ξ => ?_
    rw [rf_sum, rf_rconv]
    unfold wrecon
    rw [rf_sum, mul_sum]
    refine sum_congr rfl fun m _ => ?_
    rw [rf_rconv, rf_gF, rf_smul, ← rconv_pad hN, rf_rconv]
    unfold padD
    ring
  rw [e, Tv.Dec.rconv_gradG i (h2 i)]
  rfl

theorem cnstA1_eq (wt : M → ℝ) (D : Dict c M Nd) (X : Coef K M N) : cnstA1 a wt D X = gOp wt D X := by
  refine part_ext fun ic k ξ => ?_
  congr 1
  unfold gOp
  rw [part_convOp]
  change irfft N a (fun ξ => ∑ m, rf (pad N (Tv.Dec.gradG ic.1)) ξ.1 * (wt m * rf (padD N D ic.2 m) ξ.1) *
    rf (part X k m) ξ.1) = _
  simp only [← rf_gF, ← rf_rconv, ← rf_sum]
  exact irfft_rfft a _

/-! ## The linear solve -/

theorem freqSolveR_spec (df : Fin (c + 1) → M → ℂ) (gdf : Fin d → Fin (c + 1) → M → ℂ) (rho : ℝ) (hr : 0 < rho)
    (b : M → ℂ) (m : M) :
    ∑ i, conj (df i m) * ∑ n, df i n * freqSolveR df gdf rho b n +
      rho * ∑ j, ∑ i, conj (gdf j i m) * ∑ n, gdf j i n * freqSolveR df gdf rho b n +
      rho * freqSolveR df gdf rho b m = b m := by
  classical
  have h := congrFun (C24_ism (df 0) ((List.ofFn fun i : Fin c => df i.succ) ++
    (List.ofFn fun k : Fin d => List.ofFn fun i : Fin (c + 1) => fun m => (Real.sqrt rho : ℂ) * gdf k i m).flatten)
    rho hr b) m
  rw [sumMatrix_mulVec] at h
  simp only [List.map_cons, List.sum_cons, List.map_append, List.sum_append, List.map_ofFn, List.sum_ofFn,
    Function.comp_def, Complex.conj_conj, Linalg.inner, List.map_flatten, List.sum_flatten] at h
  rw [Fin.sum_univ_succ]
  have e : ∀ (j : Fin d) (i : Fin (c + 1)) (z : M → ℂ), conj ((Real.sqrt rho : ℂ) * gdf j i m) *
      ∑ n, (Real.sqrt rho : ℂ) * gdf j i n * z n = rho * (conj (gdf j i m) * ∑ n, gdf j i n * z n) := by
    intro j i z
    have hs : (Real.sqrt rho : ℂ) * Real.sqrt rho = rho := by
      rw [← Complex.ofReal_mul, Real.mul_self_sqrt hr.le]
    rw [map_mul, Complex.conj_ofReal, ← hs]
    simp only [mul_assoc, ← mul_sum]
    ring
  simp only [e, ← mul_sum] at h
  refine Eq.trans ?_ h
  unfold freqSolveR
  ring

/-! ## The X update -/

/-- What the attributes hold. -/
def CohR (D : Dict c M Nd) (S : Signal c K N) (wt : M → ℝ) (_rho : ℝ) (h : AttrR c K M Nd N a) : Prop :=
  ∃ Xf, h = setdict S wt D Xf

/-- Both blocks of Y (or U) mapped to the space of coefficient arrays. -/
noncomputable def foldR (wt : M → ℝ) (D : Dict c M Nd) (Y : YR c K M N) : Coef K M N := Y.snd + gOpT wt D Y.fst

/-- The spectrum of X at every frequency. -/
noncomputable def fullFR (D : Dict c M Nd) (S : Signal c K N) (wt : M → ℝ) (rho : ℝ) (Y U : YR c K M N) (k : K)
    (m : M) (ξ : Grid N) : ℂ :=
  freqSolveR (fun i n => rf (padD N D i n) ξ) (fun j i n => rf (gF N wt D (j, i) n) ξ) rho
    (fun n => rhsN D S rho (foldR wt D Y) (foldR wt D U) k n ξ) m

theorem rhsR_eq (D : Dict c M Nd) (S : Signal c K N) (wt : M → ℝ) (rho : ℝ) (Y U : YR c K M N) (k : K) (m : M)
    (ξ : Grid N) :
    rho * ∑ ch, ∑ i, conj (rf (gF N wt D (i, ch) m) ξ) * rf (part (Y - U).fst (i, ch) k) ξ +
      (∑ i, conj (rf (padD N D i m) ξ) * rf (S i k) ξ + rho * rf (part (Y - U).snd k m) ξ) =
    rhsN D S rho (foldR wt D Y) (foldR wt D U) k m ξ := by
  unfold rhsN foldR
  have e : Y.snd + gOpT wt D Y.fst - (U.snd + gOpT wt D U.fst) = (Y - U).snd + gOpT wt D (Y - U).fst := by
    change _ = (Y.snd - U.snd) + gOpT wt D (Y.fst - U.fst)
    rw [map_sub]; abel
  rw [e, Tv.Dec.rf_part_add]
  unfold gOpT
  rw [part_convOpT, rf_sum]
  simp only [rf_rcorr]
  rw [Fintype.sum_prod_type, sum_comm]
  ring

theorem fullFR_spec (D : Dict c M Nd) (S : Signal c K N) (wt : M → ℝ) (rho : ℝ) (hr : 0 < rho) (Y U : YR c K M N)
    (k : K) (m : M) (ξ : Grid N) :
    ∑ i, conj (rf (padD N D i m) ξ) * ∑ n, rf (padD N D i n) ξ * fullFR D S wt rho Y U k n ξ +
      rho * ∑ j, ∑ i, conj (rf (gF N wt D (j, i) m) ξ) * ∑ n, rf (gF N wt D (j, i) n) ξ *
        fullFR D S wt rho Y U k n ξ +
      rho * fullFR D S wt rho Y U k m ξ = rhsN D S rho (foldR wt D Y) (foldR wt D U) k m ξ := by
  have h := freqSolveR_spec (fun i n => rf (padD N D i n) ξ) (fun j i n => rf (gF N wt D (j, i) n) ξ) rho hr
    (fun n => rhsN D S rho (foldR wt D Y) (foldR wt D U) k n ξ) m
  unfold fullFR
  exact h

theorem fullFR_herm (D : Dict c M Nd) (S : Signal c K N) (wt : M → ℝ) (rho : ℝ) (hr : 0 < rho) (Y U : YR c K M N)
    (k : K) (m : M) : Herm (fullFR D S wt rho Y U k m) := by
  refine freq_herm (C := Fin (c + 1) ⊕ (Fin d × Fin (c + 1)))
    (fun s n ξ => Sum.elim (fun i => rf (padD N D i n) ξ)
      (fun ji => (Real.sqrt rho : ℂ) * rf (gF N wt D ji n) ξ) s) ?_ (fun _ _ => rho) (fun _ _ => hr)
    (fun _ _ => rfl) (fun n => rhsN D S rho (foldR wt D Y) (foldR wt D U) k n) (fullFR D S wt rho Y U k)
    (fun n => rhsN_herm D S rho _ _ k n) ?_ m
  · rintro (i | ji) n ξ
    · exact rf_herm _ ξ
    · simp only [Sum.elim_inr, map_mul, Complex.conj_ofReal, rf_herm _ ξ]
  · intro n ξ
    refine Eq.trans ?_ (fullFR_spec D S wt rho hr Y U k n ξ)
    rw [Fintype.sum_sum_type, Fintype.sum_prod_type]
    simp only [Sum.elim_inl, Sum.elim_inr]
    congr 2
    rw [mul_sum]
    refine sum_congr rfl fun j _ => ?_
    rw [mul_sum]
    refine sum_congr rfl fun i _ => ?_
    have hs : (Real.sqrt rho : ℂ) * Real.sqrt rho = rho := by
      rw [← Complex.ofReal_mul, Real.mul_self_sqrt hr.le]
    rw [map_mul, Complex.conj_ofReal, ← hs]
    simp only [mul_assoc, ← mul_sum]
    ring

theorem xstep_Xf_eq {D : Dict c M Nd} {S : Signal c K N} {wt : M → ℝ} {rho : ℝ}
    {h : AttrR c K M Nd N a} (hc : CohR D S wt rho h) (X : Coef K M N) (Y U : YR c K M N) (k : K) (m : M) :
    (xstep rho X Y U h).2.Xf k m = fun ξ => fullFR D S wt rho Y U k m ξ.1 := by
  obtain ⟨Xf, rfl⟩ := hc
  funext ξ
  unfold fullFR
  simp only [← rhsR_eq, rf_gF]
  rfl

/-- After the X update `Xf` is the transform of X. -/
theorem xstep_Xf {D : Dict c M Nd} {S : Signal c K N} {wt : M → ℝ} {rho : ℝ}
    (hr : 0 < rho) {h : AttrR c K M Nd N a} (hc : CohR D S wt rho h) (X : Coef K M N) (Y U : YR c K M N) (k : K)
    (m : M) : (xstep rho X Y U h).2.Xf k m = rfft N a (part (xstep rho X Y U h).1 k m) := by
  change _ = rfft N a (irfft N a ((xstep rho X Y U h).2.Xf k m))
  rw [xstep_Xf_eq hc]
  funext ξ
  exact (congrFun (rf_irfft a (fullFR_herm D S wt rho hr Y U k m)) ξ.1).symm

theorem xstep_rf {D : Dict c M Nd} {S : Signal c K N} {wt : M → ℝ} {rho : ℝ}
    (hr : 0 < rho) {h : AttrR c K M Nd N a} (hc : CohR D S wt rho h) (X : Coef K M N) (Y U : YR c K M N) (k : K)
    (m : M) : rf (part (xstep rho X Y U h).1 k m) = fullFR D S wt rho Y U k m := by
  change rf (irfft N a ((xstep rho X Y U h).2.Xf k m)) = _
  rw [xstep_Xf_eq hc]
  exact rf_irfft a (fullFR_herm D S wt rho hr Y U k m)

/-- The normal equations. -/
theorem xstep_normal {D : Dict c M Nd} {S : Signal c K N} {wt : M → ℝ} {rho : ℝ}
    (hr : 0 < rho) {h : AttrR c K M Nd N a} (hc : CohR D S wt rho h) (X : Coef K M N) (Y U : YR c K M N) :
    let x := (xstep rho X Y U h).1
    convOpT (padD N D) (convOp (padD N D) x) + rho • gOpT wt D (gOp wt D x) + rho • x =
      convOpT (padD N D) (join S) + rho • (foldR wt D Y - foldR wt D U) := by
  intro x
  refine part_ext fun k m ξ => ?_
  have hx : ∀ n, rf (part x k n) = _ := fun n => xstep_rf hr hc X Y U k n
  rw [Tv.Dec.rf_part_add, Tv.Dec.rf_part_add, Tv.Dec.rf_part_add, Tv.Dec.rf_part_smul, Tv.Dec.rf_part_smul,
    Tv.Dec.rf_part_smul]
  unfold gOp gOpT
  rw [part_convOpT, part_convOpT, part_convOpT, rf_sum, rf_sum, rf_sum]
  simp only [rf_rcorr, part_convOp, part_join, rf_sum, rf_rconv, hx]
  rw [Fintype.sum_prod_type]
  exact fullFR_spec D S wt rho hr Y U k m ξ

/-- The excess of any array over the one computed by the X update. -/
theorem xstep_excess {D : Dict c M Nd} {S : Signal c K N} {wt : M → ℝ} {rho : ℝ}
    (hr : 0 < rho) {h : AttrR c K M Nd N a} (hc : CohR D S wt rho h) (X : Coef K M N) (Y U : YR c K M N)
    (z : Coef K M N) :
    let x := (xstep rho X Y U h).1
    let F := fun z : Coef K M N => 1 / 2 * ‖convOp (padD N D) z - join S‖ ^ 2 +
      rho / 2 * (‖gOp wt D z - Y.fst + U.fst‖ ^ 2 + ‖z - Y.snd + U.snd‖ ^ 2)
    F x + rho / 2 * ‖z - x‖ ^ 2 ≤ F z := by
  intro x F
  have hn : convOpT (padD N D) (convOp (padD N D) x) + rho • gOpT wt D (gOp wt D x) + rho • x =
      convOpT (padD N D) (join S) + rho • (foldR wt D Y - foldR wt D U) := xstep_normal hr hc X Y U
  have h1 := quad1 (convOp (K := K) (padD N D)) (join S) x z
  have h2 := quad1 (gOp (K := K) (N := N) wt D) (Y.fst - U.fst) x z
  have h3 := quad1 (ContinuousLinearMap.id ℝ (Coef K M N)) (Y.snd - U.snd) x z
  simp only [ContinuousLinearMap.id_apply] at h3
  have hgr : ⟪convOp (padD N D) x - join S, convOp (padD N D) (z - x)⟫ +
      rho * ⟪gOp wt D x - (Y.fst - U.fst), gOp wt D (z - x)⟫ + rho * ⟪x - (Y.snd - U.snd), z - x⟫ = 0 := by
    have e1 : ⟪convOp (padD N D) x - join S, convOp (padD N D) (z - x)⟫ =
        ⟪convOpT (padD N D) (convOp (padD N D) x - join S), z - x⟫ := by
      rw [real_inner_comm, convOp_adj, real_inner_comm]
    have e2 : ⟪gOp wt D x - (Y.fst - U.fst), gOp wt D (z - x)⟫ =
        ⟪gOpT wt D (gOp wt D x - (Y.fst - U.fst)), z - x⟫ := by
      rw [real_inner_comm, gOp_adj, real_inner_comm]
    rw [e1, e2, ← real_inner_smul_left, ← real_inner_smul_left, ← inner_add_left, ← inner_add_left, map_sub, map_sub,
      map_sub]
    have : convOpT (padD N D) (convOp (padD N D) x) - convOpT (padD N D) (join S) +
        rho • (gOpT wt D (gOp wt D x) - (gOpT wt D Y.fst - gOpT wt D U.fst)) +
        rho • (x - (Y.snd - U.snd)) = 0 := by
      have e := sub_eq_zero.2 hn
      unfold foldR at e
      rw [← e]; module
    rw [this, inner_zero_left]
  change 1 / 2 * ‖convOp (padD N D) x - join S‖ ^ 2 +
      rho / 2 * (‖gOp wt D x - Y.fst + U.fst‖ ^ 2 + ‖x - Y.snd + U.snd‖ ^ 2) + rho / 2 * ‖z - x‖ ^ 2 ≤
      1 / 2 * ‖convOp (padD N D) z - join S‖ ^ 2 +
      rho / 2 * (‖gOp wt D z - Y.fst + U.fst‖ ^ 2 + ‖z - Y.snd + U.snd‖ ^ 2)
  have r : ∀ z : Coef K M N, gOp wt D z - Y.fst + U.fst = gOp wt D z - (Y.fst - U.fst) := fun z => by abel
  have r' : ∀ z : Coef K M N, z - Y.snd + U.snd = z - (Y.snd - U.snd) := fun z => by abel
  rw [r, r, r', r']
  have h4 := sq_nonneg ‖convOp (padD N D) (z - x)‖
  have h5 := mul_nonneg hr.le (sq_nonneg ‖gOp wt D (z - x)‖)
  nlinarith [h1, h2, h3, hgr, h4, h5]

theorem augR_eq (hN : ∀ n, Nd n ≤ N n) (h2 : ∀ k, 2 ≤ N k) (D : Dict c M Nd) (S : Signal c K N) (wt : M → ℝ)
    (rho : ℝ) (Y U : YR c K M N) (x : Coef K M N) :
    augR D S wt rho (part Y.fst) (part U.fst) (part Y.snd) (part U.snd) (part x) =
      1 / 2 * ‖convOp (padD N D) x - join S‖ ^ 2 +
      rho / 2 * (‖gOp wt D x - Y.fst + U.fst‖ ^ 2 + ‖x - Y.snd + U.snd‖ ^ 2) := by
  unfold augR
  rw [dataTerm_eq hN]
  have e : (fun k m p => part x k m p - part Y.snd k m p + part U.snd k m p) = part (x - Y.snd + U.snd) := rfl
  rw [e, sumSq_eq, norm_part (gOp wt D x - Y.fst + U.fst)]
  simp only [Fintype.sum_prod_type]
  congr 3
  refine sum_congr rfl fun i _ => sum_congr rfl fun ch _ => sum_congr rfl fun k _ => sum_congr rfl fun p _ => ?_
  change _ = (part (gOp wt D x) (i, ch) k p - part Y.fst (i, ch) k p + part U.fst (i, ch) k p) ^ 2
  rw [part_gOp hN h2]

/-- **C40.** The X update of `ConvBPDNRecTV` gives the unique minimiser of the augmented Lagrangian over all real
arrays, for dictionaries with one or several channels and any `TVWeight` (signals with at least two samples along
every axis). -/
theorem C40_convrectv_xstep (hN : ∀ n, Nd n ≤ N n) (h2 : ∀ k, 2 ≤ N k) (D : Dict c M Nd)
    (S : Signal c K N) (wt : M → ℝ) (rho : ℝ) (hr : 0 < rho)
    (X : Coef K M N) (Y U : YR c K M N) (Xf : Spec K M N a) :
    IsUniqueMin (augR D S wt rho (part Y.fst) (part U.fst) (part Y.snd) (part U.snd)) Set.univ
      (part (xstep rho X Y U (setdict S wt D Xf)).1) := by
  refine ⟨trivial, fun Z _ hne => ?_⟩
  have h1 := xstep_excess (a := a) hr ⟨Xf, rfl⟩ X Y U (join Z) (D := D) (S := S) (wt := wt)
  simp only at h1
  rw [← augR_eq hN h2 D S, ← augR_eq hN h2 D S] at h1
  refine lt_of_lt_of_le (lt_add_of_pos_right _ (mul_pos (half_pos hr) (pow_pos ?_ 2))) h1
  rw [norm_pos_iff, sub_ne_zero]
  intro he
  apply hne
  rw [← he]; rfl

end Sporco.Conv.RTV
