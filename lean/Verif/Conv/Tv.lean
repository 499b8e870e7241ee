import Verif.Conv.GroupNorm
import Verif.Conv.L1L1

/-!
# `ConvBPDNScalarTV` and `ConvBPDNVectorTV`: X update, convergence, recorded values (C39, C40, C43)
-/

set_option autoImplicit false
set_option linter.unusedSectionVars false

namespace Sporco.Conv.TVC

open Finset ComplexConjugate Sporco.Linalg Sporco.Prox Sporco.Admm Filter Topology Sporco.Conv Sporco.Conv.TB
  Sporco.Conv.Grd
open scoped RealInnerProductSpace

variable {d c : ℕ} {N Nd : Fin d → ℕ} [∀ k, NeZero (N k)] {a : Fin d} {K M : Type*} [Fintype K]
  [Fintype M]

/-! ## Specification -/

/-- Backward difference along axis `i`. -/
def diff (i : Fin d) (x : Grid N → ℝ) (p : Grid N) : ℝ := x p - x (p - Pi.single i 1)

/-- `∑ₘ w_m ‖√(∑ᵢ (Gᵢ x_m)²)‖₁` (documentation of `ConvBPDNScalarTV`). -/
noncomputable def scalarTV (wt : M → ℝ) (X : K → M → Grid N → ℝ) : ℝ :=
  ∑ k, ∑ m, wt m * ∑ p, Real.sqrt (∑ i, diff i (X k m) p ^ 2)

/-- `‖√(∑ₘ ∑ᵢ (w_m Gᵢ x_m)²)‖₁` (documentation of `ConvBPDNVectorTV`). -/
noncomputable def vectorTV (wt : M → ℝ) (X : K → M → Grid N → ℝ) : ℝ :=
  ∑ k, ∑ p, Real.sqrt (∑ m, ∑ i, (wt m * diff i (X k m) p) ^ 2)

/-- `√(∑ₘ ∑ᵢ ‖w_m Gᵢ x_m‖²)`. -/
noncomputable def wholeNorm (wt : M → ℝ) (X : K → M → Grid N → ℝ) : ℝ :=
  Real.sqrt (∑ k, ∑ m, ∑ p, ∑ i, (wt m * diff i (X k m) p) ^ 2)

/-- `(1/2) ‖∑ₘ d_m * x_m - s‖² + λ ∑ₘ ‖w_m x_m‖₁ + μ R(x)`. -/
noncomputable def objTV (R : (K → M → Grid N → ℝ) → ℝ) (D : Dict c M Nd) (S : Signal c K N) (lmbda mu : ℝ)
    (wl : L1W M) (X : K → M → Grid N → ℝ) : ℝ :=
  dataTerm D S X + lmbda * l1Conv wl.arr X + mu * R X

/-- The augmented Lagrangian as a function of X:
`(1/2) ‖∑ₘ d_m * x_m - s‖² + (ρ/2)(∑ᵢ ∑ₘ ‖w_m Gᵢ x_m - yᵢ + uᵢ‖² + ‖x - y_L + u_L‖²)`. -/
noncomputable def augTV (D : Dict c M Nd) (S : Signal c K N) (wt : M → ℝ) (rho : ℝ)
    (Y0 U0 : Fin d → K × M → Grid N → ℝ) (Y1 U1 X : K → M → Grid N → ℝ) : ℝ :=
  dataTerm D S X + rho / 2 * (∑ i, ∑ k, ∑ m, ∑ p,
    (wt m * diff i (X k m) p - Y0 i (k, m) p + U0 i (k, m) p) ^ 2 +
      sumSq (fun k m p => X k m p - Y1 k m p + U1 k m p))

/-- The linear solver is used as intended: a multi-channel dictionary or equal weights. -/
def SolverOk (c : ℕ) (wt : M → ℝ) : Prop := c ≠ 0 ∨ ∀ m n, wt m = wt n

/-! ## The linear solve -/

theorem smE_const (ah b : M → ℂ) (r : M → ℂ) (hr : ∀ m, r m ≠ 0) (he : ∀ m n, r m = r n) :
    smE ah r b none = solvedbdSm ah r b none := by
  funext m
  unfold smE solvedbdSm smcE solvedbdSmC Linalg.inner
  simp only [Option.getD_none]
  congr 2
  congr 1
  refine sum_congr rfl fun n _ => ?_
  congr 1
  have h1 : ∑ l, ah l * (conj (ah l) / r l) = (∑ l, ah l * conj (ah l)) / r n := by
    rw [sum_div]
    exact sum_congr rfl fun l _ => by rw [he l n, mul_div_assoc]
  rw [h1, div_div]
  congr 1
  field_simp [hr n]

theorem freqSolveT_eq {wt : M → ℝ} (hs : SolverOk c wt) (df : Fin (c + 1) → M → ℂ) (r : M → ℝ)
    (hr : ∀ m, 0 < r m) (he : (∀ m n, wt m = wt n) → ∀ m n, r m = r n) (b : M → ℂ) :
    freqSolveT df (fun m => (r m : ℂ)) b none = freqSolveD df (fun m => (r m : ℂ)) b none := by
  unfold freqSolveT freqSolveD
  by_cases hc : c = 0
  · rw [if_pos hc, if_pos hc]
    refine smE_const _ _ _ (fun m => Complex.ofReal_ne_zero.2 (hr m).ne') fun m n => ?_
    rw [he (hs.resolve_left (fun h => h hc)) m n]
  · rw [if_neg hc, if_neg hc]

theorem freqSolveT_cached (df : Fin (c + 1) → M → ℂ) (r b : M → ℂ) :
    freqSolveT df r b (some (smcE (df 0) (fun n => conj (df 0 n)) r)) = freqSolveT df r b none := rfl

/-! ## The X update -/

theorem diagT_eq (wt : M → ℝ) (rho : ℝ) (m : M) (ξ : Half N a) :
    diagT a wt rho m ξ = diagN rho (fun m => wt m ^ 2) rho m ξ.1 := by
  unfold diagT ghgT diagN
  rw [ghg_eq]

/-- What the attributes hold when the cached component belongs to `rho`. -/
def CohT (q : COpts) (D : Dict c M Nd) (S : Signal c K N) (wt : M → ℝ) (rho : ℝ) (h : Attr c K M Nd N a) : Prop :=
  ∃ Xf, h = setdict q S wt rho D Xf

/-- Both blocks of Y (or U) mapped to the space of coefficient arrays. -/
noncomputable def fold (wt : M → ℝ) (Y : YT K M N) : Coef K M N := Y.snd + gradWT wt Y.fst

theorem rhs_eq (D : Dict c M Nd) (S : Signal c K N) (wt : M → ℝ) (rho : ℝ) (Y U : YT K M N) (k : K) (m : M)
    (ξ : Grid N) :
    ∑ i, conj (rf (padD N D i m) ξ) * rf (S i k) ξ + rho * (rf (part (Y - U).snd k m) ξ +
      wt m * ∑ i, conj (rf (pad N (Tv.Dec.gradG i)) ξ) * rf (part (Y - U).fst i (k, m)) ξ) =
    rhsN D S rho (fold wt Y) (fold wt U) k m ξ := by
  unfold rhsN fold
  have e : Y.snd + gradWT wt Y.fst - (U.snd + gradWT wt U.fst) = (Y - U).snd + gradWT wt (Y - U).fst := by
    change _ = (Y.snd - U.snd) + gradWT wt (Y.fst - U.fst)
    rw [map_sub]; abel
  rw [e, Tv.Dec.rf_part_add, part_gradWT, rf_smul, rf_sum]
  simp only [rf_rcorr]

theorem xstep_Xf_eq {q : COpts} {D : Dict c M Nd} {S : Signal c K N} {wt : M → ℝ} (hs : SolverOk c wt) {rho : ℝ}
    (hr : 0 < rho) {h : Attr c K M Nd N a} (hc : CohT q D S wt rho h) (X : Coef K M N) (Y U : YT K M N) (k : K)
    (m : M) :
    (xstep wt rho X Y U h).2.Xf k m = fun ξ =>
      fullFD D (diagN rho (fun m => wt m ^ 2) rho) (rhsN D S rho (fold wt Y) (fold wt U)) k m ξ.1 := by
  obtain ⟨Xf, rfl⟩ := hc
  funext ξ
  have hq : (xstep wt rho X Y U (setdict q S wt rho D Xf)).2.Xf k m ξ =
      freqSolveT (fun i n => rf (padD N D i n) ξ.1) (fun n => ((diagT a wt rho n ξ : ℝ) : ℂ))
        (fun n => rhsN D S rho (fold wt Y) (fold wt U) k n ξ.1) none m := by
    simp only [← rhs_eq]
    unfold xstep setdict
    by_cases hq : q.caches c
    · simp only [if_pos hq]; rfl
    · simp only [if_neg hq]; rfl
  rw [hq]
  simp only [diagT_eq]
  rw [freqSolveT_eq hs]
  · rfl
  · exact fun m => diagN_pos rho hr.le _ (fun _ => sq_nonneg _) rho hr m ξ.1
  · intro h m n
    unfold diagN
    simp only [h m n]

theorem xstep_xG {q : COpts} {D : Dict c M Nd} {S : Signal c K N} {wt : M → ℝ} (hs : SolverOk c wt) {rho : ℝ}
    (hr : 0 < rho) {h : Attr c K M Nd N a} (hc : CohT q D S wt rho h) (X : Coef K M N) (Y U : YT K M N) :
    (xstep wt rho X Y U h).1 = xG a D S rho (fun m => wt m ^ 2) rho (fold wt Y) (fold wt U) := by
  change join (fun k m => irfft N a ((xstep wt rho X Y U h).2.Xf k m)) = _
  simp only [xstep_Xf_eq hs hr hc]
  rfl

/-- After the X update `Xf` is the transform of X. -/
theorem xstep_Xf {q : COpts} {D : Dict c M Nd} {S : Signal c K N} {wt : M → ℝ} (hs : SolverOk c wt) {rho : ℝ}
    (hr : 0 < rho) {h : Attr c K M Nd N a} (hc : CohT q D S wt rho h) (X : Coef K M N) (Y U : YT K M N) (k : K)
    (m : M) : (xstep wt rho X Y U h).2.Xf k m = rfft N a (part (xstep wt rho X Y U h).1 k m) := by
  rw [xstep_xG hs hr hc, xstep_Xf_eq hs hr hc]
  funext ξ
  exact (congrFun (rf_xD D _ (diagN_pos rho hr.le _ (fun _ => sq_nonneg _) rho hr) (diagN_neg rho _ rho) _
    (rhsN_herm D S rho _ _) k m) ξ.1).symm

/-- The gradient operator in `cnst_A0`. -/
theorem cnstA0_eq (wt : M → ℝ) (X : Coef K M N) : cnstA0 a wt X = gradW wt X := by
  ext i
  change wt i.2.1.2 * irfft N a (fun ξ => rf (pad N (Tv.Dec.gradG i.1)) ξ.1 * rf (part X i.2.1.1 i.2.1.2) ξ.1) i.2.2 =
    wt i.2.1.2 * rconv (pad N (Tv.Dec.gradG i.1)) (part X i.2.1.1 i.2.1.2) i.2.2
  simp only [← rf_rconv]
  exact congrArg (wt i.2.1.2 * ·) (congrFun (irfft_rfft a _) i.2.2)

theorem cnstAT_eq (wt : M → ℝ) (Y : YT K M N) : cnstAT a wt Y = fold wt Y := by
  ext ⟨k, m, p⟩
  change ∑ i, wt m * irfft N a (fun ξ => conj (rf (pad N (Tv.Dec.gradG i)) ξ.1) * rf (part Y.fst i (k, m)) ξ.1) p +
    part Y.snd k m p = part Y.snd k m p + wt m * ∑ i, rcorr (pad N (Tv.Dec.gradG i)) (part Y.fst i (k, m)) p
  simp only [← rf_rcorr]
  rw [add_comm, mul_sum]
  congr 1
  exact sum_congr rfl fun i _ => congrArg (wt m * ·) (congrFun (irfft_rfft a _) p)

/-- The excess of any array over the one computed by the X update. -/
theorem xstep_excess {q : COpts} {D : Dict c M Nd} {S : Signal c K N} {wt : M → ℝ} (hs : SolverOk c wt) {rho : ℝ}
    (hr : 0 < rho) {h : Attr c K M Nd N a} (hc : CohT q D S wt rho h) (X : Coef K M N) (Y U : YT K M N)
    (z : Coef K M N) :
    let x := (xstep wt rho X Y U h).1
    let F := fun z : Coef K M N => 1 / 2 * ‖convOp (padD N D) z - join S‖ ^ 2 +
      rho / 2 * (‖gradW wt z - Y.fst + U.fst‖ ^ 2 + ‖z - Y.snd + U.snd‖ ^ 2)
    F x + rho / 2 * ‖z - x‖ ^ 2 ≤ F z := by
  intro x F
  have hx : x = _ := xstep_xG hs hr hc X Y U
  have h1 := xG_excess (a := a) D S rho hr.le (fun m => wt m ^ 2) (fun _ => sq_nonneg _) rho hr (fold wt Y)
    (fold wt U) z
  simp only [← hx] at h1
  have hn : ∀ z : Coef K M N, ‖gradW (fun m => Real.sqrt (rho * wt m ^ 2)) z‖ ^ 2 = rho * ‖gradW wt z‖ ^ 2 := by
    intro z
    rw [norm_part, norm_part, mul_sum]
    refine sum_congr rfl fun i _ => ?_
    rw [mul_sum]
    refine sum_congr rfl fun km _ => ?_
    rw [mul_sum]
    refine sum_congr rfl fun p _ => ?_
    rw [part_gradW, part_gradW]
    simp only
    rw [mul_pow, mul_pow, Real.sq_sqrt (mul_nonneg hr.le (sq_nonneg _)), mul_assoc]
  rw [hn, hn] at h1
  obtain ⟨v0, hv0⟩ : ∃ v0, v0 = Y.fst - U.fst := ⟨_, rfl⟩
  obtain ⟨v1, hv1⟩ : ∃ v1, v1 = Y.snd - U.snd := ⟨_, rfl⟩
  have e1 : ∀ z : Coef K M N, ‖gradW wt z - Y.fst + U.fst‖ ^ 2 + ‖z - Y.snd + U.snd‖ ^ 2 =
      ‖gradW wt z‖ ^ 2 + ‖z - fold wt Y + fold wt U‖ ^ 2 +
        (‖v0‖ ^ 2 + ‖v1‖ ^ 2 - ‖v1 + gradWT wt v0‖ ^ 2) := by
    intro z
    rw [show gradW wt z - Y.fst + U.fst = gradW wt z - v0 by rw [hv0]; abel,
      show z - Y.snd + U.snd = z - v1 by rw [hv1]; abel,
      show z - fold wt Y + fold wt U = z - (v1 + gradWT wt v0) by
        rw [hv0, hv1, map_sub]; unfold fold; abel,
      norm_sub_sq_real, norm_sub_sq_real, norm_sub_sq_real, inner_add_right, gradW_adj]
    ring
  change 1 / 2 * ‖convOp (padD N D) x - join S‖ ^ 2 +
      rho / 2 * (‖gradW wt x - Y.fst + U.fst‖ ^ 2 + ‖x - Y.snd + U.snd‖ ^ 2) + rho / 2 * ‖z - x‖ ^ 2 ≤
      1 / 2 * ‖convOp (padD N D) z - join S‖ ^ 2 +
      rho / 2 * (‖gradW wt z - Y.fst + U.fst‖ ^ 2 + ‖z - Y.snd + U.snd‖ ^ 2)
  rw [e1, e1]
  have h4 := sq_nonneg ‖convOp (padD N D) (z - x)‖
  have h5 := sq_nonneg ‖gradW (fun m => Real.sqrt (rho * wt m ^ 2)) (z - x)‖
  linarith

theorem augTV_eq (hN : ∀ n, Nd n ≤ N n) (h2 : ∀ k, 2 ≤ N k) (D : Dict c M Nd) (S : Signal c K N) (wt : M → ℝ)
    (rho : ℝ) (Y U : YT K M N) (x : Coef K M N) :
    augTV D S wt rho (part Y.fst) (part U.fst) (part Y.snd) (part U.snd) (part x) =
      1 / 2 * ‖convOp (padD N D) x - join S‖ ^ 2 +
      rho / 2 * (‖gradW wt x - Y.fst + U.fst‖ ^ 2 + ‖x - Y.snd + U.snd‖ ^ 2) := by
  unfold augTV
  rw [dataTerm_eq hN]
  have e : (fun k m p => part x k m p - part Y.snd k m p + part U.snd k m p) = part (x - Y.snd + U.snd) := rfl
  rw [e, sumSq_eq, norm_part (gradW wt x - Y.fst + U.fst)]
  simp only [Fintype.sum_prod_type]
  congr 3
  refine sum_congr rfl fun i _ => sum_congr rfl fun k _ => sum_congr rfl fun m _ => sum_congr rfl fun p _ => ?_
  change _ = (part (gradW wt x) i (k, m) p - part Y.fst i (k, m) p + part U.fst i (k, m) p) ^ 2
  rw [part_gradW, Tv.Dec.rconv_gradG i (h2 i)]
  rfl

/-- **C40.** The X update of `ConvBPDNScalarTV` and `ConvBPDNVectorTV`, with a component cached for the current
`rho` or without one, gives the unique minimiser of the augmented Lagrangian over all real arrays, for
multi-channel dictionaries or a `TVWeight` that is the same for all filters (signals with at least two samples
along every axis). What is missing: single-channel dictionaries with different weights, for which it is false
(`C40_convtv_xstep_refuted`). -/
theorem C40_convtv_xstep_partial (hN : ∀ n, Nd n ≤ N n) (h2 : ∀ k, 2 ≤ N k) (q : COpts) (D : Dict c M Nd)
    (S : Signal c K N) (wt : M → ℝ) (hs : c ≠ 0 ∨ ∀ m n, wt m = wt n) (rho : ℝ) (hr : 0 < rho)
    (X : Coef K M N) (Y U : YT K M N) (Xf : Spec K M N a) :
    IsUniqueMin (augTV D S wt rho (part Y.fst) (part U.fst) (part Y.snd) (part U.snd)) Set.univ
      (part (xstep wt rho X Y U (setdict q S wt rho D Xf)).1) := by
  refine ⟨trivial, fun Z _ hne => ?_⟩
  have h1 := xstep_excess (a := a) (q := q) hs hr ⟨Xf, rfl⟩ X Y U (join Z) (D := D) (S := S)
  simp only at h1
  rw [← augTV_eq hN h2 D S, ← augTV_eq hN h2 D S] at h1
  refine lt_of_lt_of_le (lt_add_of_pos_right _ (mul_pos (half_pos hr) (pow_pos ?_ 2))) h1
  rw [norm_pos_iff, sub_ne_zero]
  intro he
  apply hne
  rw [← he]; rfl

/-! ## Exact steps -/

section Conv
variable {Gy Gr : Type*} [Fintype Gy] [DecidableEq Gy] [Fintype Gr] [DecidableEq Gr]

theorem coh_rho {q : COpts} {D : Dict c M Nd} {S : Signal c K N} {wt : M → ℝ} {rho : ℝ} (rho' : ℝ)
    {h : Attr c K M Nd N a} (hc : CohT q D S wt rho h) : CohT q D S wt rho' (rhochange q wt rho' h) := by
  obtain ⟨Xf, rfl⟩ := hc
  refine ⟨Xf, ?_⟩
  unfold rhochange setdict
  by_cases hq : q.caches c
  · simp only [if_pos hq]
  · simp only [if_neg hq]

/-- The problem solved if the norms in `ystep` are taken over the groups of `g`. -/
noncomputable def probTV (g : GIdx K M N → Gy) (D : Dict c M Nd) (S : Signal c K N) (lmbda : ℝ) (hl : 0 ≤ lmbda)
    (mu : ℝ) (hm : 0 ≤ mu) (w : K × M × Grid N → ℝ) (hw : ∀ i, 0 ≤ w i) (wt : M → ℝ) :
    Problem (Coef K M N) (YT K M N) (YT K M N) :=
  tbfProblem (gradW (K := K) (N := N) wt) (gradWT (K := K) (N := N) wt) (gradW_adj (K := K) (N := N) wt) 0
    (fun x : Coef K M N => 1 / 2 * ‖convOp (padD N D) x - join S‖ ^ 2) (ls_convex (convOp (K := K) (padD N D)) (join S))
    (fun y : GArr K M N => mu * sumGrp g y.ofLp) (sumGrp_convex g mu hm)
    (fun y : Coef K M N => lmbda * l1w w y.ofLp) Set.univ
    (Bpdn.convex_l1w w hw _ convex_univ lmbda hl)

theorem implements_tv (gy : GIdx K M N → Gy) (gr : GIdx K M N → Gr) (q : COpts) (D : Dict c M Nd) (S : Signal c K N)
    (lmbda : ℝ) (hl : 0 ≤ lmbda) (mu : ℝ) (hm : 0 ≤ mu) (wl : L1W M)
    (hw : ∀ i : K × M × Grid N, 0 ≤ wl.arr i) (wt : M → ℝ) (hs : SolverOk c wt) (fe ge : Bool) :
    Implements (cls gy gr q S lmbda mu wl wt fe ge : Cls _ _ _ (Attr c K M Nd N a))
      (probTV gy D S lmbda hl mu hm wl.arr hw wt) (CohT q D S wt) := by
  have eA : (cnstA a wt : Coef K M N → YT K M N) =
      catL (gradW (K := K) (N := N) wt) (ContinuousLinearMap.id ℝ (Coef K M N)) :=
    funext fun X => by
      change WithLp.toLp 2 (cnstA0 a wt X, X) = WithLp.toLp 2 (gradW wt X, X)
      rw [cnstA0_eq]
  have eAT : (cnstAT a wt : YT K M N → Coef K M N) =
      catLT (gradWT (K := K) (N := N) wt) (ContinuousLinearMap.id ℝ (Coef K M N)) :=
    funext fun Y => by
      rw [cnstAT_eq]
      change Y.snd + gradWT wt Y.fst = gradWT wt Y.fst + Y.snd
      rw [add_comm]
  refine ⟨fun rlx x y => ?_, fun ax y u => rfl, fun ax y => rfl, Or.inl fun rho yp y u => ?_, fun ax y => ?_,
    fun rho u hr => mul_nonneg hr (norm_nonneg _), fun rho X Y U _ _ h => ?_, fun _ _ _ _ _ _ _ h => h,
    fun _ rho' _ _ _ h => coh_rho rho' h, ?_, ?_⟩
  · change relaxAX (cnstA a wt) _ _ _ _ _ = _
    rw [eA]; rfl
  · change ‖Admm.rsdlS (cnstAT a wt) _ _ _ _‖ = _
    rw [eAT]; rfl
  · exact le_max_of_le_right (norm_nonneg _)
  · obtain ⟨Xf, rfl⟩ := h
    exact ⟨_, rfl⟩
  · intro rho X Y U h hp hI
    refine ⟨trivial, fun z _ => ?_⟩
    have key : ∀ z : Coef K M N, ‖catL (gradW wt) (ContinuousLinearMap.id ℝ (Coef K M N)) z +
        (-ContinuousLinearMap.id ℝ (YT K M N)) Y - TwoBlock.cat 0 0 + U‖ ^ 2 =
        ‖gradW wt z - Y.fst + U.fst‖ ^ 2 + ‖z - Y.snd + U.snd‖ ^ 2 := by
      intro z
      rw [WithLp.prod_norm_sq_eq_of_L2]
      change ‖gradW wt z + -Y.fst - 0 + U.fst‖ ^ 2 + ‖z + -Y.snd - 0 + U.snd‖ ^ 2 = _
      rw [show gradW wt z + -Y.fst - 0 + U.fst = gradW wt z - Y.fst + U.fst by abel,
        show z + -Y.snd - 0 + U.snd = z - Y.snd + U.snd by abel]
    have h1 := xstep_excess hs hp hI X Y U z
    have h3 := mul_nonneg (half_pos hp).le (sq_nonneg ‖z - (xstep wt rho X Y U h).1‖)
    change 1 / 2 * ‖convOp (padD N D) (xstep wt rho X Y U h).1 - join S‖ ^ 2 + rho / 2 *
      ‖catL (gradW wt) (ContinuousLinearMap.id ℝ (Coef K M N)) (xstep wt rho X Y U h).1 +
        (-ContinuousLinearMap.id ℝ (YT K M N)) Y - TwoBlock.cat 0 0 + U‖ ^ 2 ≤
      1 / 2 * ‖convOp (padD N D) z - join S‖ ^ 2 + rho / 2 *
      ‖catL (gradW wt) (ContinuousLinearMap.id ℝ (Coef K M N)) z +
        (-ContinuousLinearMap.id ℝ (YT K M N)) Y - TwoBlock.cat 0 0 + U‖ ^ 2
    rw [key, key]
    simp only at h1
    linarith
  · intro rho AX X Y U h hp _
    obtain ⟨y, hy⟩ : ∃ y, y = (ystep (a := a) (c := c) (Nd := Nd) gy lmbda mu wl.arr rho AX X Y U h).1 := ⟨_, rfl⟩
    have e0 := proxGrp_min gy mu hm rho hp (AX.fst + U.fst)
    have e1 := LG.prox_min wl.arr hw lmbda hl rho hp (AX.snd + U.snd)
    have key : ∀ z : YT K M N, ‖AX + (-ContinuousLinearMap.id ℝ (YT K M N)) z - TwoBlock.cat 0 0 + U‖ ^ 2 =
        ‖AX.fst + U.fst - z.fst‖ ^ 2 + ‖AX.snd + U.snd - z.snd‖ ^ 2 := by
      intro z
      rw [WithLp.prod_norm_sq_eq_of_L2]
      change ‖AX.fst + -z.fst - 0 + U.fst‖ ^ 2 + ‖AX.snd + -z.snd - 0 + U.snd‖ ^ 2 = _
      rw [show AX.fst + -z.fst - 0 + U.fst = AX.fst + U.fst - z.fst by abel,
        show AX.snd + -z.snd - 0 + U.snd = AX.snd + U.snd - z.snd by abel]
    have hyc : ((cls gy gr q S lmbda mu wl wt fe ge).ystep rho AX X Y U h).1 = y := hy.symm
    rw [hyc]
    refine ⟨⟨trivial, trivial⟩, fun z hz => ?_⟩
    change mu * sumGrp gy y.fst.ofLp + lmbda * l1w wl.arr y.snd.ofLp + rho / 2 *
      ‖AX + (-ContinuousLinearMap.id ℝ (YT K M N)) y - TwoBlock.cat 0 0 + U‖ ^ 2 ≤
      mu * sumGrp gy z.fst.ofLp + lmbda * l1w wl.arr z.snd.ofLp + rho / 2 *
      ‖AX + (-ContinuousLinearMap.id ℝ (YT K M N)) z - TwoBlock.cat 0 0 + U‖ ^ 2
    rw [key, key]
    have a0 : mu * sumGrp gy y.fst.ofLp + rho / 2 * ‖AX.fst + U.fst - y.fst‖ ^ 2 +
        rho / 2 * ‖z.fst - y.fst‖ ^ 2 ≤
      mu * sumGrp gy z.fst.ofLp + rho / 2 * ‖AX.fst + U.fst - z.fst‖ ^ 2 := by rw [hy]; exact e0 z.fst
    have a1 : lmbda * l1w wl.arr y.snd.ofLp + rho / 2 * ‖AX.snd + U.snd - y.snd‖ ^ 2 ≤
      lmbda * l1w wl.arr z.snd.ofLp + rho / 2 * ‖AX.snd + U.snd - z.snd‖ ^ 2 := by rw [hy]; exact e1 z.snd
    have a2 := mul_nonneg (half_pos hp).le (sq_nonneg ‖z.fst - y.fst‖)
    linarith

/-! ## Convergence -/

/-- The two non-smooth terms as a function of one array. -/
noncomputable def gSumT (g : GIdx K M N → Gy) (lmbda mu : ℝ) (w : K × M × Grid N → ℝ) (wt : M → ℝ)
    (y : Coef K M N) : ℝ := mu * sumGrp g (gradW wt y).ofLp + lmbda * l1w w y.ofLp

theorem exists_tv (g : GIdx K M N → Gy) (D : Dict c M Nd) (S : Signal c K N) (lmbda mu : ℝ) (hl : 0 < lmbda)
    (hm : 0 ≤ mu) (w : K × M × Grid N → ℝ) (hw : ∀ i, 0 < w i) (wt : M → ℝ) :
    ∃ x : Coef K M N, ∀ z : Coef K M N,
      1 / 2 * ‖convOp (padD N D) x - join S‖ ^ 2 + gSumT g lmbda mu w wt x ≤
        1 / 2 * ‖convOp (padD N D) z - join S‖ ^ 2 + gSumT g lmbda mu w wt z := by
  obtain ⟨r, hr, hgrow⟩ := Bpdn.l1w_grow w hw lmbda hl
  have hcont : Continuous (gSumT g lmbda mu w wt) :=
    (continuous_const.mul ((continuous_sumGrp g).comp (gradW wt).continuous)).add
      (continuous_const.mul (Bpdn.continuous_l1w w))
  have hg : ∀ y : Coef K M N, r * ‖y‖ ≤ gSumT g lmbda mu w wt y := fun y =>
    (hgrow y).trans (le_add_of_nonneg_left (mul_nonneg hm (sumGrp_nonneg g _)))
  obtain ⟨x, -, hmin⟩ := ls_exists_min (convOp (K := K) (padD N D)) (join S) (gSumT g lmbda mu w wt) Set.univ
    isClosed_univ ⟨0, trivial⟩ hcont r hr hg
  exact ⟨x, fun z => hmin z trivial⟩

theorem saddle_tv (g : GIdx K M N → Gy) (D : Dict c M Nd) (S : Signal c K N) (lmbda : ℝ) (hl : 0 ≤ lmbda)
    (mu : ℝ) (hm : 0 ≤ mu) (w : K × M × Grid N → ℝ) (hw : ∀ i, 0 ≤ w i) (wt : M → ℝ) (x : Coef K M N)
    (hmin : ∀ z : Coef K M N, 1 / 2 * ‖convOp (padD N D) x - join S‖ ^ 2 + gSumT g lmbda mu w wt x ≤
        1 / 2 * ‖convOp (padD N D) z - join S‖ ^ 2 + gSumT g lmbda mu w wt z) :
    ∃ l, (probTV g D S lmbda hl mu hm w hw wt).Saddle x (TwoBlock.cat (gradW wt x - 0) x) l := by
  have hm' : ∀ z ∈ (Set.univ : Set (Coef K M N)),
      (fun x : Coef K M N => 1 / 2 * ‖convOp (padD N D) x - join S‖ ^ 2) x +
      (fun y : GArr K M N => mu * sumGrp g y.ofLp) (gradW wt x - 0) +
      (fun y : Coef K M N => lmbda * l1w w y.ofLp) x ≤
      (fun x : Coef K M N => 1 / 2 * ‖convOp (padD N D) x - join S‖ ^ 2) z +
      (fun y : GArr K M N => mu * sumGrp g y.ofLp) (gradW wt z - 0) +
      (fun y : Coef K M N => lmbda * l1w w y.ofLp) z := by
    intro z _
    have := hmin z
    unfold gSumT at this
    simp only [sub_zero]
    linarith
  have h0 := gradW_adj (K := K) (N := N) wt
  have hf := ls_convex (convOp (K := K) (padD N D)) (join S)
  have hg0 := sumGrp_convex g mu hm
  have hg1 := Bpdn.convex_l1w w hw _ (convex_univ (𝕜 := ℝ) (E := Coef K M N)) lmbda hl
  exact tbf_saddle (h0 := h0) (hf := hf) (hg0 := hg0) (hg1 := hg1) x trivial hm'

theorem near_tv (g : GIdx K M N → Gy) (D : Dict c M Nd) (S : Signal c K N) (lmbda : ℝ) (hl : 0 ≤ lmbda)
    (mu : ℝ) (hm : 0 ≤ mu) (w : K × M × Grid N → ℝ) (hw : ∀ i, 0 ≤ w i) (wt : M → ℝ)
    (X : ℕ → Coef K M N) (Y : ℕ → YT K M N) (p : ℝ)
    (h : Tendsto (fun n => 1 / 2 * ‖convOp (padD N D) (X n) - join S‖ ^ 2 +
      (mu * sumGrp g (Y n).fst.ofLp + lmbda * l1w w (Y n).snd.ofLp)) atTop (𝓝 p))
    (h0 : Tendsto (fun n => gradW wt (X n) - 0 - (Y n).fst) atTop (𝓝 0))
    (h1 : Tendsto (fun n => X n - (Y n).snd) atTop (𝓝 0)) :
    Tendsto (fun n => 1 / 2 * ‖convOp (padD N D) (Y n).snd - join S‖ ^ 2 + gSumT g lmbda mu w wt (Y n).snd)
      atTop (𝓝 p) := by
  have hd : Tendsto (fun n => (convOp (padD N D) (Y n).snd - join S) - (convOp (padD N D) (X n) - join S)) atTop
      (𝓝 0) := by
    have := ((convOp (K := K) (padD N D)).continuous.tendsto (0 : Coef K M N)).comp h1
    rw [map_zero] at this
    have := this.neg
    rw [neg_zero] at this
    refine this.congr fun n => ?_
    simp only [Function.comp]
    rw [map_sub]; abel
  have h2 := half_sq_near (fun n => convOp (padD N D) (X n) - join S) (fun n => convOp (padD N D) (Y n).snd - join S)
    (fun n => mu * sumGrp g (Y n).fst.ofLp + lmbda * l1w w (Y n).snd.ofLp) p (fun n =>
      add_nonneg (mul_nonneg hm (sumGrp_nonneg g _))
        (mul_nonneg hl (sum_nonneg fun i _ => mul_nonneg (hw i) (norm_nonneg _)))) h hd
  have hnear : Tendsto (fun n => gradW wt (Y n).snd - (Y n).fst) atTop (𝓝 0) := by
    have h7 := ((gradW (K := K) (N := N) wt).continuous.tendsto (0 : Coef K M N)).comp h1
    rw [map_zero] at h7
    have h8 := h0.sub h7
    rw [sub_zero] at h8
    refine h8.congr fun n => ?_
    simp only [Function.comp]
    rw [map_sub]
    abel
  have h3 : Tendsto (fun n => sumGrp g (gradW wt (Y n).snd).ofLp - sumGrp g (Y n).fst.ofLp) atTop (𝓝 0) := by
    have h4 := ((continuous_sumGrp g).tendsto 0).comp hnear
    have e : sumGrp g (0 : GArr K M N).ofLp = 0 := sumGrp_zero g
    rw [e] at h4
    exact squeeze_zero_norm (fun n => sumGrp_sub g _ _) h4
  have h5 := h2.add (h3.const_mul mu)
  rw [mul_zero, add_zero] at h5
  refine h5.congr fun n => ?_
  unfold gSumT
  ring

theorem convergence_tv (gy : GIdx K M N → Gy) (gr : GIdx K M N → Gr) (q : COpts) (D : Dict c M Nd)
    (S : Signal c K N) (lmbda mu : ℝ) (hl : 0 < lmbda) (hm : 0 ≤ mu) (wl : L1W M)
    (hw : ∀ i : K × M × Grid N, 0 < wl.arr i) (wt : M → ℝ) (hs : SolverOk c wt) (fe ge : Bool)
    (o : Opts) (ha : o.autoRho = false) (hrlx : 0 < o.rlx ∧ o.rlx < 2) (cb) (hcb : Bpdn.CallbackReads cb)
    (s : St (Coef K M N) (YT K M N) (YT K M N) (Attr c K M Nd N a)) (hp : 0 < s.rho)
    (hI : CohT q D S wt s.rho s.extra) :
    let C : Cls _ _ _ (Attr c K M Nd N a) := cls gy gr q S lmbda mu wl wt fe ge
    let T := traj C o cb s
    let F := fun z : Coef K M N => 1 / 2 * ‖convOp (padD N D) z - join S‖ ^ 2 + gSumT gy lmbda mu wl.arr wt z
    ∃ x, (∀ z, F x ≤ F z) ∧
      Tendsto (fun n => C.nrmR (T n).AXnr (T n).Y) atTop (𝓝 0) ∧
      Tendsto (fun n => C.nrmS (T n).rho (T n).Yprev (T n).Y (T n).U) atTop (𝓝 0) ∧
      Tendsto (fun n => F (T n).Y.snd) atTop (𝓝 (F x)) := by
  intro C T F
  have hw0 : ∀ i : K × M × Grid N, 0 ≤ wl.arr i := fun i => (hw i).le
  obtain ⟨x, hmin⟩ := exists_tv gy D S lmbda mu hl hm wl.arr hw wt
  obtain ⟨l, hsad⟩ := saddle_tv gy D S lmbda hl.le mu hm wl.arr hw0 wt x hmin
  have hC := implements_tv (a := a) gy gr q D S lmbda hl.le mu hm wl hw0 wt hs fe ge
  have hk : CallbackKeeps (CohT (a := a) q D S wt) cb := hcb.keeps _
  obtain ⟨k1, k2, k3, k4, k5, -⟩ := tbf_convergence hC o ha hrlx cb hk s hp hI _ _ _ hsad
  refine ⟨x, hmin, k1, k2, ?_⟩
  have k7 := near_tv gy D S lmbda hl.le mu hm wl.arr hw0 wt (fun n => (T n).X) (fun n => (T n).Y) _ k3 k4 k5
  change Tendsto _ _ (𝓝 (1 / 2 * ‖convOp (padD N D) x - join S‖ ^ 2 +
    (mu * sumGrp gy (gradW wt x - 0).ofLp + lmbda * l1w wl.arr x.ofLp))) at k7
  rw [sub_zero] at k7
  exact k7

end Conv

end Sporco.Conv.TVC
