import Verif.Conv.L1L1Model
import Verif.Conv.Grad
import Verif.Conv.TwoBlock
import Verif.Admm.TwoBlockF
import Verif.Tv.DeconvL1

/-!
# `ConvL1L1Grd`: X update, convergence, recorded values, cached component (C39, C40, C43)
-/

set_option autoImplicit false
set_option linter.unusedSectionVars false

namespace Sporco.Conv.LG

open Finset ComplexConjugate Sporco.Linalg Sporco.Prox Sporco.Admm Filter Topology Sporco.Conv Sporco.Conv.TB
  Sporco.Conv.Grd
open scoped RealInnerProductSpace

variable {d c : ℕ} {N Nd : Fin d → ℕ} [∀ k, NeZero (N k)] {a : Fin d} {K M : Type*} [Fintype K]
  [Fintype M]

/-! ## Specification -/

/-- `‖W(∑ₘ d_m * x_m - s)‖₁`. -/
noncomputable def l1Data (D : Dict c M Nd) (S W : Signal c K N) (X : K → M → Grid N → ℝ) : ℝ :=
  ∑ i, ∑ k, ∑ p, |W i k p * (recon D X i k p - S i k p)|

/-- The problem of `ConvL1L1Grd` (class documentation): `‖W(∑ₘ d_m * x_m - s)‖₁ + λ ∑ₘ ‖w_m x_m‖₁ +
(μ/2) ∑ᵢ ∑ₘ w'_m ‖Gᵢ x_m‖²`. -/
noncomputable def objL1L1 (D : Dict c M Nd) (S W : Signal c K N) (lmbda mu : ℝ) (w : K × M × Grid N → ℝ)
    (wg : M → ℝ) (X : K → M → Grid N → ℝ) : ℝ :=
  l1Data D S W X + lmbda * l1Conv w X + mu / 2 * gradEnergy wg X

/-- The functional the X update minimises:
`(μ/2) ∑ ‖G x‖² + (ρ/2)(‖∑ₘ d_m * x_m - s - y₀ + u₀‖² + ‖x - y₁ + u₁‖²)`. -/
noncomputable def augLG (D : Dict c M Nd) (S : Signal c K N) (mu : ℝ) (wg : M → ℝ) (rho : ℝ)
    (Y0 U0 : Signal c K N) (Y1 U1 X : K → M → Grid N → ℝ) : ℝ :=
  mu / 2 * gradEnergy wg X + augTB D S rho Y0 U0 Y1 U1 X

/-! ## The X update -/

/-- What the attributes hold when the cached component belongs to `rho`. -/
def CohL (q : COpts) (D : Dict c M Nd) (mu : ℝ) (wg : M → ℝ) (rho : ℝ) (h : AttrTB K M N a) : Prop :=
  h.cc = cacheL q D mu wg rho

theorem diagL_eq (mu : ℝ) (wg : M → ℝ) (rho : ℝ) (m : M) (ξ : Half N a) :
    diagL a mu wg rho m ξ = diagG a (mu / rho) wg 1 m ξ := rfl

/-- The update is that of `ConvBPDNGradReg` with other data. -/
theorem xstep_eq {q : COpts} {D : Dict c M Nd} {mu : ℝ} {wg : M → ℝ} {rho : ℝ} {h : AttrTB K M N a}
    (hc : CohL q D mu wg rho h) (S : Signal c K N) (X : Coef K M N) (Y U : YY c K M N) :
    (xstep D S mu wg rho X Y U h).1 = (Grd.xstep (mu / rho) wg 1 X Y.snd U.snd
      (Grd.setdict q (target S Y U) (mu / rho) wg 1 D h.Xf)).1 ∧
    (xstep D S mu wg rho X Y U h).2.Xf = (Grd.xstep (mu / rho) wg 1 X Y.snd U.snd
      (Grd.setdict q (target S Y U) (mu / rho) wg 1 D h.Xf)).2.Xf := by
  have e : (xstep D S mu wg rho X Y U h).2.Xf = (Grd.xstep (mu / rho) wg 1 X Y.snd U.snd
      (Grd.setdict q (target S Y U) (mu / rho) wg 1 D h.Xf)).2.Xf := by
    have hcc : h.cc = if q.caches c then some (cacheD (dictF a D) (diagG a (mu / rho) wg 1)) else none := hc
    unfold xstep Grd.xstep Grd.setdict
    rw [hcc]
    simp only [Complex.ofReal_one, one_mul]
    rfl
  refine ⟨?_, e⟩
  change join (fun k m => irfft N a ((xstep D S mu wg rho X Y U h).2.Xf k m)) = _
  rw [e]
  rfl

theorem xstep_xG {q : COpts} {D : Dict c M Nd} {mu : ℝ} {wg : M → ℝ} {rho : ℝ} {h : AttrTB K M N a}
    (hc : CohL q D mu wg rho h) (S : Signal c K N) (X : Coef K M N) (Y U : YY c K M N) :
    (xstep D S mu wg rho X Y U h).1 = xG a D (target S Y U) (mu / rho) wg 1 Y.snd U.snd := by
  rw [(xstep_eq hc S X Y U).1]
  exact Grd.xstep_coh ⟨_, rfl⟩ X Y.snd U.snd

/-- After the X update `Xf` is the transform of X. -/
theorem xstep_Xf {q : COpts} {D : Dict c M Nd} {mu : ℝ} (hm : 0 ≤ mu) {wg : M → ℝ} (hg : ∀ m, 0 ≤ wg m)
    {rho : ℝ} (hr : 0 < rho) {h : AttrTB K M N a} (hc : CohL q D mu wg rho h) (S : Signal c K N)
    (X : Coef K M N) (Y U : YY c K M N) (k : K) (m : M) :
    (xstep D S mu wg rho X Y U h).2.Xf k m = rfft N a (part (xstep D S mu wg rho X Y U h).1 k m) := by
  obtain ⟨h1, h2⟩ := xstep_eq hc S X Y U
  rw [h1, h2]
  exact Grd.xstep_Xf (div_nonneg hm hr.le) hg one_pos ⟨_, rfl⟩ X Y.snd U.snd k m

/-- The quadratic part of the objective. -/
noncomputable def quadE (mu : ℝ) (wg : M → ℝ) (x : Coef K M N) : ℝ :=
  1 / 2 * ‖gradW (fun m => Real.sqrt (mu * wg m)) x‖ ^ 2

theorem sqrt_div_norm (mu : ℝ) (hm : 0 ≤ mu) (wg : M → ℝ) (hg : ∀ m, 0 ≤ wg m) (rho : ℝ) (hr : 0 < rho)
    (x : Coef K M N) :
    rho * ‖gradW (fun m => Real.sqrt (mu / rho * wg m)) x‖ ^ 2 =
      ‖gradW (fun m => Real.sqrt (mu * wg m)) x‖ ^ 2 := by
  rw [norm_part, norm_part, mul_sum]
  refine sum_congr rfl fun i _ => ?_
  rw [mul_sum]
  refine sum_congr rfl fun km _ => ?_
  rw [mul_sum]
  refine sum_congr rfl fun p _ => ?_
  rw [part_gradW, part_gradW]
  simp only
  rw [mul_pow, mul_pow, Real.sq_sqrt (mul_nonneg (div_nonneg hm hr.le) (hg _)),
    Real.sq_sqrt (mul_nonneg hm (hg _))]
  field_simp

/-- The excess of any array over the one computed by the X update. -/
theorem xstep_excess {q : COpts} {D : Dict c M Nd} {mu : ℝ} (hm : 0 ≤ mu) {wg : M → ℝ} (hg : ∀ m, 0 ≤ wg m)
    {rho : ℝ} (hr : 0 < rho) {h : AttrTB K M N a} (hc : CohL q D mu wg rho h) (S : Signal c K N)
    (X : Coef K M N) (Y U : YY c K M N) (z : Coef K M N) :
    let x := (xstep D S mu wg rho X Y U h).1
    let F := fun z : Coef K M N => quadE mu wg z +
      rho / 2 * (‖convOp (padD N D) z - (Y.fst - U.fst + join S)‖ ^ 2 + ‖z - Y.snd + U.snd‖ ^ 2)
    F x + rho / 2 * ‖z - x‖ ^ 2 ≤ F z := by
  intro x F
  have hx : x = xG a D (target S Y U) (mu / rho) wg 1 Y.snd U.snd := xstep_xG hc S X Y U
  have h1 := xG_excess (a := a) D (target S Y U) (mu / rho) (div_nonneg hm hr.le) wg hg 1 one_pos Y.snd U.snd z
  simp only [← hx] at h1
  have e2 : (join (target S Y U) : Sig (Fin (c + 1)) K N) = Y.fst - U.fst + join S := rfl
  rw [e2] at h1
  have h2 := sqrt_div_norm mu hm wg hg rho hr z
  have h3 := sqrt_div_norm mu hm wg hg rho hr x
  have h4 := mul_nonneg hr.le (sq_nonneg ‖convOp (padD N D) (z - x)‖)
  have h5 := mul_nonneg hr.le (sq_nonneg ‖gradW (fun m => Real.sqrt (mu / rho * wg m)) (z - x)‖)
  change quadE mu wg x + rho / 2 * (‖convOp (padD N D) x - (Y.fst - U.fst + join S)‖ ^ 2 +
    ‖x - Y.snd + U.snd‖ ^ 2) + rho / 2 * ‖z - x‖ ^ 2 ≤ quadE mu wg z +
    rho / 2 * (‖convOp (padD N D) z - (Y.fst - U.fst + join S)‖ ^ 2 + ‖z - Y.snd + U.snd‖ ^ 2)
  unfold quadE
  rw [← h2, ← h3]
  have h6 := congrArg (rho * ·) h1
  linarith

theorem quadE_eq (h2 : ∀ k, 2 ≤ N k) (mu : ℝ) (hm : 0 ≤ mu) (wg : M → ℝ) (hg : ∀ m, 0 ≤ wg m)
    (x : Coef K M N) : quadE mu wg x = mu / 2 * gradEnergy wg (part x) := by
  unfold quadE
  rw [gradW_norm h2 mu hm wg hg]
  ring

theorem augLG_eq (hN : ∀ n, Nd n ≤ N n) (h2 : ∀ k, 2 ≤ N k) (D : Dict c M Nd) (S : Signal c K N) (mu : ℝ)
    (hm : 0 ≤ mu) (wg : M → ℝ) (hg : ∀ m, 0 ≤ wg m) (rho : ℝ) (Y U : YY c K M N) (x : Coef K M N) :
    augLG D S mu wg rho (part Y.fst) (part U.fst) (part Y.snd) (part U.snd) (part x) =
      quadE mu wg x +
      rho / 2 * (‖convOp (padD N D) x - (Y.fst - U.fst + join S)‖ ^ 2 + ‖x - Y.snd + U.snd‖ ^ 2) := by
  unfold augLG
  rw [quadE_eq h2 mu hm wg hg, augTB_eq hN]
  unfold augConv
  rw [dataTerm_eq hN]
  have e : (fun k m p => part x k m p - part Y.snd k m p + part U.snd k m p) = part (x - Y.snd + U.snd) := rfl
  rw [e, sumSq_eq]
  have e2 : (join (target S Y U) : Sig (Fin (c + 1)) K N) = Y.fst - U.fst + join S := rfl
  rw [e2]
  ring

/-- **C40.** The X update of `ConvL1L1Grd`, with a component cached for the current `rho` or without one, gives
the unique minimiser of the augmented Lagrangian over all real arrays, for dictionaries with one or several
channels, every non-negative `mu` and `GradWeight` (signals with at least two samples along every axis). -/
theorem C40_convl1l1grd_xstep (hN : ∀ n, Nd n ≤ N n) (h2 : ∀ k, 2 ≤ N k) (q : COpts) (D : Dict c M Nd)
    (S : Signal c K N) (mu : ℝ) (hm : 0 ≤ mu) (wg : M → ℝ) (hg : ∀ m, 0 ≤ wg m) (rho : ℝ) (hr : 0 < rho)
    (X : Coef K M N) (Y U : YY c K M N) (h : AttrTB K M N a) (hc : h.cc = cacheL q D mu wg rho) :
    IsUniqueMin (augLG D S mu wg rho (part Y.fst) (part U.fst) (part Y.snd) (part U.snd)) Set.univ
      (part (xstep D S mu wg rho X Y U h).1) := by
  refine ⟨trivial, fun Z _ hne => ?_⟩
  have h1 := xstep_excess hm hg hr hc S X Y U (join Z)
  simp only at h1
  rw [← augLG_eq hN h2 D S mu hm wg hg, ← augLG_eq hN h2 D S mu hm wg hg] at h1
  refine lt_of_lt_of_le (lt_add_of_pos_right _ (mul_pos (half_pos hr) (pow_pos ?_ 2))) h1
  rw [norm_pos_iff, sub_ne_zero]
  intro he
  apply hne
  rw [← he]; rfl

/-! ## Exact steps -/

/-- The weights of the data term as a function on the index set. -/
def wA (W : Signal c K N) (i : Fin (c + 1) × K × Grid N) : ℝ := W i.1 i.2.1 i.2.2

theorem coh_xstep {q : COpts} {D : Dict c M Nd} {mu : ℝ} {wg : M → ℝ} {rho : ℝ} {h : AttrTB K M N a}
    (hc : CohL q D mu wg rho h) (S : Signal c K N) (X : Coef K M N) (Y U : YY c K M N) :
    CohL q D mu wg rho (xstep D S mu wg rho X Y U h).2 := hc

theorem coh_rho {q : COpts} {D : Dict c M Nd} {mu : ℝ} {wg : M → ℝ} {rho : ℝ} (rho' : ℝ) {h : AttrTB K M N a}
    (hc : CohL q D mu wg rho h) : CohL q D mu wg rho' (rhochange q D mu wg rho' h) := by
  unfold CohL rhochange cacheL at *
  by_cases hq : q.caches c
  · simp only [if_pos hq]
  · simp only [if_neg hq] at hc ⊢
    exact hc

theorem prox_min {ι : Type*} [Fintype ι] (w : ι → ℝ) (hw : ∀ i, 0 ≤ w i) (lmbda : ℝ) (hl : 0 ≤ lmbda) (rho : ℝ)
    (hr : 0 < rho) (v z : EuclideanSpace ℝ ι) :
    let y : EuclideanSpace ℝ ι := WithLp.toLp 2 (proxL1Arr v.ofLp fun i => lmbda / rho * w i)
    lmbda * l1w w y.ofLp + rho / 2 * ‖v - y‖ ^ 2 ≤ lmbda * l1w w z.ofLp + rho / 2 * ‖v - z‖ ^ 2 := by
  intro y
  have h := C22_l1_partial false v.ofLp w lmbda rho hl hr hw
  by_cases hz : z.ofLp = y.ofLp
  · rw [WithLp.ofLp_injective 2 hz]
  · have h1 := (h.2 z.ofLp trivial hz).le
    unfold yObj at h1
    rw [show Prox.sq (v.ofLp - z.ofLp) = ‖v - z‖ ^ 2 from Bpdn.sq_norm (v - z)] at h1
    refine le_trans (le_of_eq ?_) h1
    rw [← Bpdn.sq_norm (v - y)]
    rfl

theorem convex_quadE (mu : ℝ) (wg : M → ℝ) : ConvexOn ℝ Set.univ (quadE mu wg : Coef K M N → ℝ) := by
  have := ls_convex (gradW (K := K) (N := N) fun m => Real.sqrt (mu * wg m)) 0
  simp only [sub_zero] at this
  exact this

/-- The problem the class solves. -/
noncomputable def probL1L1 (q : COpts) (D : Dict c M Nd) (S W : Signal c K N) (hW : ∀ i, 0 ≤ wA W i) (lmbda : ℝ)
    (hl : 0 ≤ lmbda) (mu : ℝ) (w : K × M × Grid N → ℝ) (hw : ∀ i, 0 ≤ w i) (wg : M → ℝ) :
    Problem (Coef K M N) (YY c K M N) (YY c K M N) :=
  tbfProblem (convOp (K := K) (padD N D)) (convOpT (K := K) (padD N D)) (convOp_adj (K := K) (padD N D)) (join S)
    (quadE (K := K) (N := N) mu wg) (convex_quadE (K := K) (N := N) mu wg)
    (fun y : Sig (Fin (c + 1)) K N => 1 * l1w (wA W) y.ofLp)
    (Bpdn.convex_l1w (wA W) hW _ convex_univ 1 zero_le_one)
    (fun y : Coef K M N => lmbda * l1w w y.ofLp) (cset (K := K) (M := M) (N := N) q Nd)
    (Bpdn.convex_l1w w hw _ (convex_cset (K := K) (M := M) (N := N) q Nd) lmbda hl)

theorem implements_l1l1 (hN : ∀ n, Nd n ≤ N n) (q : COpts) (h2 : q.noBndry = true → ∀ n, 2 ≤ Nd n)
    (D : Dict c M Nd) (S W : Signal c K N) (hW : ∀ i, 0 ≤ wA W i) (lmbda : ℝ) (hl : 0 ≤ lmbda) (mu : ℝ)
    (hm : 0 ≤ mu) (w : K × M × Grid N → ℝ) (hw : ∀ i, 0 ≤ w i) (wg : M → ℝ) (hg : ∀ m, 0 ≤ wg m) (av : Bool) :
    Implements (clsL1L1 a q D S W lmbda mu w wg av)
      (probL1L1 q D S W hW lmbda hl mu w hw wg)
      (CohL q D mu wg) := by
  have hA : (cnstA0 a D : Coef K M N → Sig (Fin (c + 1)) K N) = convOp (padD N D) :=
    funext fun X => cnstA0_eq D X
  have hT : (cnstA0T a D : Sig (Fin (c + 1)) K N → Coef K M N) = convOpT (padD N D) :=
    funext fun X => cnstA0T_eq D X
  have t := fun (rho rlx : ℝ) (X : Coef K M N) (Y Yp AX U : YY c K M N) =>
    C37_twoblock (convOp (K := K) (padD N D)).toLinearMap (ContinuousLinearMap.id ℝ (Coef K M N)).toLinearMap
      (convOpT (K := K) (padD N D)).toLinearMap (ContinuousLinearMap.id ℝ (Coef K M N)).toLinearMap
      (join S) 0 rho rlx X Y Yp AX U
  refine ⟨fun rlx x y => ?_, fun ax y u => ?_, fun ax y => ?_, Or.inl fun rho yp y u => ?_,
    fun ax y => ?_, fun rho u hr => mul_nonneg hr (norm_nonneg _),
    fun rho X Y U _ _ h => coh_xstep h S X Y U, fun _ _ _ _ _ _ _ h => h,
    fun _ rho' _ _ _ h => coh_rho rho' h, ?_, ?_⟩
  · change TwoBlock.relaxAX (cnstA0 a D) (fun x => x) (join S) 0 rlx x y = _
    rw [hA]
    exact (t 0 rlx x y 0 0 0).2.2.2.2.1
  · exact (t 0 0 0 y 0 ax u).2.2.2.2.2
  · exact congrArg norm (t 0 0 0 y 0 ax 0).1
  · change ‖rho • TwoBlock.cnstAT (cnstA0T a D) (fun y => y) (yp - y)‖ = _
    rw [hT]
    unfold rsdlS
    have e : (-ContinuousLinearMap.id ℝ (YY c K M N)) (y - yp) = yp - y := by
      change -(y - yp) = _
      abel
    change _ = ‖rho • catLT (convOpT (padD N D)) (ContinuousLinearMap.id ℝ (Coef K M N))
      ((-ContinuousLinearMap.id ℝ (YY c K M N)) (y - yp))‖
    rw [e]
    rfl
  · change 0 ≤ TwoBlock.rsdlRn (join S) 0 ax y
    unfold TwoBlock.rsdlRn
    positivity
  · intro rho X Y U h hp hI
    refine ⟨trivial, fun z _ => ?_⟩
    have key : ∀ z : Coef K M N, ‖catL (convOp (padD N D)) (ContinuousLinearMap.id ℝ (Coef K M N)) z +
        (-ContinuousLinearMap.id ℝ (YY c K M N)) Y - TwoBlock.cat (join S) 0 + U‖ ^ 2 =
        ‖convOp (padD N D) z - (Y.fst - U.fst + join S)‖ ^ 2 + ‖z - Y.snd + U.snd‖ ^ 2 := by
      intro z
      rw [WithLp.prod_norm_sq_eq_of_L2]
      change ‖convOp (padD N D) z + -Y.fst - join S + U.fst‖ ^ 2 + ‖z + -Y.snd - 0 + U.snd‖ ^ 2 = _
      rw [show convOp (padD N D) z + -Y.fst - join S + U.fst =
        convOp (padD N D) z - (Y.fst - U.fst + join S) by abel,
        show z + -Y.snd - 0 + U.snd = z - Y.snd + U.snd by abel]
    have h1 := xstep_excess hm hg hp hI S X Y U z
    have h3 := mul_nonneg (half_pos hp).le (sq_nonneg ‖z - (xstep D S mu wg rho X Y U h).1‖)
    change quadE mu wg (xstep D S mu wg rho X Y U h).1 + rho / 2 *
      ‖catL (convOp (padD N D)) (ContinuousLinearMap.id ℝ (Coef K M N)) (xstep D S mu wg rho X Y U h).1 +
        (-ContinuousLinearMap.id ℝ (YY c K M N)) Y - TwoBlock.cat (join S) 0 + U‖ ^ 2 ≤
      quadE mu wg z + rho / 2 * ‖catL (convOp (padD N D)) (ContinuousLinearMap.id ℝ (Coef K M N)) z +
        (-ContinuousLinearMap.id ℝ (YY c K M N)) Y - TwoBlock.cat (join S) 0 + U‖ ^ 2
    rw [key, key]
    simp only at h1
    linarith
  · intro rho AX X Y U h hp _
    obtain ⟨y, hy⟩ : ∃ y, y = (ystep q Nd S W lmbda w rho AX X Y U h).1 := ⟨_, rfl⟩
    have e1 := gystep_l1 a q h2 hN lmbda hl w hw rho hp AX.snd U.snd
    have e0 := prox_min (wA W) hW 1 zero_le_one rho hp (AX.fst + U.fst - join S)
    have key : ∀ z : YY c K M N, ‖AX + (-ContinuousLinearMap.id ℝ (YY c K M N)) z -
        TwoBlock.cat (join S) 0 + U‖ ^ 2 =
        ‖AX.fst + U.fst - join S - z.fst‖ ^ 2 + ‖AX.snd + U.snd - 0 - z.snd‖ ^ 2 := by
      intro z
      rw [WithLp.prod_norm_sq_eq_of_L2]
      change ‖AX.fst + -z.fst - join S + U.fst‖ ^ 2 + ‖AX.snd + -z.snd - 0 + U.snd‖ ^ 2 = _
      rw [show AX.fst + -z.fst - join S + U.fst = AX.fst + U.fst - join S - z.fst by abel,
        show AX.snd + -z.snd - 0 + U.snd = AX.snd + U.snd - 0 - z.snd by abel]
    have hyc : ((clsL1L1 a q D S W lmbda mu w wg av).ystep rho AX X Y U h).1 = y := hy.symm
    rw [hyc]
    refine ⟨⟨trivial, by rw [hy]; exact e1.1⟩, fun z hz => ?_⟩
    change 1 * l1w (wA W) y.fst.ofLp + lmbda * l1w w y.snd.ofLp + rho / 2 *
      ‖AX + (-ContinuousLinearMap.id ℝ (YY c K M N)) y - TwoBlock.cat (join S) 0 + U‖ ^ 2 ≤
      1 * l1w (wA W) z.fst.ofLp + lmbda * l1w w z.snd.ofLp + rho / 2 *
      ‖AX + (-ContinuousLinearMap.id ℝ (YY c K M N)) z - TwoBlock.cat (join S) 0 + U‖ ^ 2
    rw [key, key]
    have a0 : 1 * l1w (wA W) y.fst.ofLp + rho / 2 * ‖AX.fst + U.fst - join S - y.fst‖ ^ 2 ≤
      1 * l1w (wA W) z.fst.ofLp + rho / 2 * ‖AX.fst + U.fst - join S - z.fst‖ ^ 2 := by rw [hy]; exact e0 z.fst
    have a1 : lmbda * l1w w y.snd.ofLp + rho / 2 * ‖AX.snd + U.snd - 0 - y.snd‖ ^ 2 ≤
      lmbda * l1w w z.snd.ofLp + rho / 2 * ‖AX.snd + U.snd - 0 - z.snd‖ ^ 2 := by rw [hy]; exact e1.2 z.snd hz.2
    linarith

/-! ## Convergence -/

theorem l1Data_eq (hN : ∀ n, Nd n ≤ N n) (D : Dict c M Nd) (S W : Signal c K N) (hW : ∀ i, 0 ≤ wA W i)
    (x : Coef K M N) : l1Data D S W (part x) = l1w (wA W) (convOp (padD N D) x - join S).ofLp := by
  unfold l1Data l1w recon
  rw [Fintype.sum_prod_type]
  refine sum_congr rfl fun i _ => ?_
  rw [Fintype.sum_prod_type]
  refine sum_congr rfl fun k _ => sum_congr rfl fun p _ => ?_
  have h0 : 0 ≤ W i k p := hW (i, k, p)
  rw [abs_mul, abs_of_nonneg h0]
  simp only [← rconv_pad hN]
  rfl

theorem objL1L1_eq (hN : ∀ n, Nd n ≤ N n) (hN2 : ∀ k, 2 ≤ N k) (D : Dict c M Nd) (S W : Signal c K N)
    (hW : ∀ i, 0 ≤ wA W i) (lmbda mu : ℝ) (hm : 0 ≤ mu) (w : K × M × Grid N → ℝ) (wg : M → ℝ)
    (hg : ∀ m, 0 ≤ wg m) (x : Coef K M N) :
    objL1L1 D S W lmbda mu w wg (part x) =
      quadE mu wg x + (1 * l1w (wA W) (convOp (padD N D) x - join S).ofLp + lmbda * l1w w x.ofLp) := by
  unfold objL1L1
  rw [quadE_eq hN2 mu hm wg hg, l1Data_eq hN D S W hW, l1w_part w]
  unfold l1Conv
  ring

/-- The sum of the two l1 terms. -/
noncomputable def gSum (D : Dict c M Nd) (S W : Signal c K N) (lmbda : ℝ) (w : K × M × Grid N → ℝ)
    (y : Coef K M N) : ℝ := 1 * l1w (wA W) (convOp (padD N D) y - join S).ofLp + lmbda * l1w w y.ofLp

theorem exists_l1l1 (q : COpts) (D : Dict c M Nd) (S W : Signal c K N) (hW : ∀ i, 0 ≤ wA W i) (lmbda mu : ℝ)
    (hl : 0 < lmbda) (w : K × M × Grid N → ℝ) (hw : ∀ i, 0 < w i) (wg : M → ℝ) :
    ∃ x ∈ (cset q Nd : Set (Coef K M N)), ∀ z ∈ (cset q Nd : Set (Coef K M N)),
      quadE mu wg x + gSum D S W lmbda w x ≤ quadE mu wg z + gSum D S W lmbda w z := by
  obtain ⟨r, hr, hgrow⟩ := Bpdn.l1w_grow w hw lmbda hl
  have hcont : Continuous (gSum D S W lmbda w) :=
    (continuous_const.mul ((Bpdn.continuous_l1w (wA W)).comp (by fun_prop))).add
      (continuous_const.mul (Bpdn.continuous_l1w w))
  have hg : ∀ y : Coef K M N, r * ‖y‖ ≤ gSum D S W lmbda w y := fun y =>
    (hgrow y).trans (le_add_of_nonneg_left
      (by rw [one_mul]; exact sum_nonneg fun i _ => mul_nonneg (hW i) (norm_nonneg _)))
  obtain ⟨x, hx, hmin⟩ := ls_exists_min (gradW (K := K) (N := N) fun m => Real.sqrt (mu * wg m)) 0
    (gSum D S W lmbda w) (cset q Nd) (closed_cset q Nd) ⟨0, zero_cset q Nd⟩ hcont r hr hg
  refine ⟨x, hx, fun z hz => ?_⟩
  have := hmin z hz
  unfold lsObj at this
  rw [sub_zero, sub_zero] at this
  exact this

theorem saddle_l1l1 (q : COpts) (D : Dict c M Nd) (S W : Signal c K N) (hW : ∀ i, 0 ≤ wA W i) (lmbda mu : ℝ)
    (hl : 0 ≤ lmbda) (w : K × M × Grid N → ℝ) (hw : ∀ i, 0 ≤ w i) (wg : M → ℝ) (x : Coef K M N)
    (hx : x ∈ (cset q Nd : Set (Coef K M N)))
    (hmin : ∀ z ∈ (cset q Nd : Set (Coef K M N)),
      quadE mu wg x + gSum D S W lmbda w x ≤ quadE mu wg z + gSum D S W lmbda w z) :
    ∃ l, (probL1L1 q D S W hW lmbda hl mu w hw wg).Saddle x
          (TwoBlock.cat (convOp (padD N D) x - join S) x) l := by
  have hm' : ∀ z ∈ (cset q Nd : Set (Coef K M N)), quadE mu wg x +
      (fun y : Sig (Fin (c + 1)) K N => 1 * l1w (wA W) y.ofLp) (convOp (padD N D) x - join S) +
      (fun y : Coef K M N => lmbda * l1w w y.ofLp) x ≤ quadE mu wg z +
      (fun y : Sig (Fin (c + 1)) K N => 1 * l1w (wA W) y.ofLp) (convOp (padD N D) z - join S) +
      (fun y : Coef K M N => lmbda * l1w w y.ofLp) z := by
    intro z hz
    have := hmin z hz
    unfold gSum at this
    simp only
    linarith
  have h0 := convOp_adj (K := K) (padD N D)
  have hf := convex_quadE (K := K) (N := N) mu wg
  have hg0 := Bpdn.convex_l1w (wA W) hW _ convex_univ 1 zero_le_one
  have hg1 := Bpdn.convex_l1w w hw _ (convex_cset (K := K) (N := N) (M := M) q Nd) lmbda hl
  exact tbf_saddle (h0 := h0) (hf := hf) (hg0 := hg0) (hg1 := hg1) x hx hm'

theorem near_l1l1 (D : Dict c M Nd) (S W : Signal c K N) (hW : ∀ i, 0 ≤ wA W i) (lmbda mu : ℝ) (hl : 0 ≤ lmbda)
    (w : K × M × Grid N → ℝ) (hw : ∀ i, 0 ≤ w i) (wg : M → ℝ) (X : ℕ → Coef K M N) (Y : ℕ → YY c K M N) (p : ℝ)
    (h : Tendsto (fun n => quadE mu wg (X n) + (1 * l1w (wA W) (Y n).fst.ofLp + lmbda * l1w w (Y n).snd.ofLp))
      atTop (𝓝 p))
    (h0 : Tendsto (fun n => convOp (padD N D) (X n) - join S - (Y n).fst) atTop (𝓝 0))
    (h1 : Tendsto (fun n => X n - (Y n).snd) atTop (𝓝 0)) :
    Tendsto (fun n => quadE mu wg (Y n).snd + gSum D S W lmbda w (Y n).snd) atTop (𝓝 p) := by
  obtain ⟨G, hG⟩ : ∃ G, G = gradW (K := K) (N := N) fun m : M => Real.sqrt (mu * wg m) := ⟨_, rfl⟩
  have hq : ∀ x, quadE mu wg x = 1 / 2 * ‖G x‖ ^ 2 := fun x => by rw [hG]; rfl
  have hd : Tendsto (fun n => G (Y n).snd - G (X n)) atTop (𝓝 0) := by
    have := (G.continuous.tendsto (0 : Coef K M N)).comp h1
    rw [map_zero] at this
    have := this.neg
    rw [neg_zero] at this
    refine this.congr fun n => ?_
    simp only [Function.comp]
    rw [map_sub]; abel
  simp only [hq] at h ⊢
  have h2 := half_sq_near (fun n => G (X n)) (fun n => G (Y n).snd)
    (fun n => 1 * l1w (wA W) (Y n).fst.ofLp + lmbda * l1w w (Y n).snd.ofLp) p (fun n => by
      rw [one_mul]
      exact add_nonneg (sum_nonneg fun i _ => mul_nonneg (hW i) (norm_nonneg _))
        (mul_nonneg hl (sum_nonneg fun i _ => mul_nonneg (hw i) (norm_nonneg _)))) h hd
  have hnear : Tendsto (fun n => convOp (padD N D) (Y n).snd - join S - (Y n).fst) atTop (𝓝 0) := by
    have h7 := ((convOp (padD N D)).continuous.tendsto (0 : Coef K M N)).comp h1
    rw [map_zero] at h7
    have h8 := h0.sub h7
    rw [sub_zero] at h8
    refine h8.congr fun n => ?_
    simp only [Function.comp]
    rw [map_sub]
    abel
  have h3 : Tendsto (fun n => l1w (wA W) (convOp (padD N D) (Y n).snd - join S).ofLp -
      l1w (wA W) (Y n).fst.ofLp) atTop (𝓝 0) := by
    have h4 := ((Bpdn.continuous_l1w (wA W)).tendsto 0).comp hnear
    have e : l1w (wA W) (0 : Sig (Fin (c + 1)) K N).ofLp = 0 := by simp [l1w]
    rw [e] at h4
    exact squeeze_zero_norm (fun n => Tv.Dec.l1w_sub (wA W) hW _ _) h4
  have h5 := h2.add h3
  rw [add_zero] at h5
  refine h5.congr fun n => ?_
  unfold gSum
  ring

/-- **C39 for `ConvL1L1Grd`** on signals with at least two samples along every axis: for every dictionary
(single or multi-channel), signal, non-negative mask, positive `lmbda` and weights, non-negative `mu` and
`GradWeight`, with or without `NonNegCoef` and `NoBndryCross`, the problem has a solution, the primal and dual
residuals tend to zero, the objective at the array `solve()` would return tends to the minimum, as does the
recorded objective with `AuxVarObj`, and the array always meets the constraints. Fixed rho, relaxation parameter
in (0, 2), any start. -/
theorem C39_convl1l1grd (hN : ∀ n, Nd n ≤ N n) (hN2 : ∀ k, 2 ≤ N k) (q : COpts)
    (h2 : q.noBndry = true → ∀ n, 2 ≤ Nd n)
    (D : Dict c M Nd) (S W : Signal c K N) (hW : ∀ i k p, 0 ≤ W i k p) (lmbda mu : ℝ) (hl : 0 < lmbda)
    (hm : 0 ≤ mu) (w : K × M × Grid N → ℝ) (hw : ∀ i, 0 < w i) (wg : M → ℝ) (hg : ∀ m, 0 ≤ wg m) (av : Bool)
    (o : Opts) (ha : o.autoRho = false) (hrlx : 0 < o.rlx ∧ o.rlx < 2) (cb) (hcb : Bpdn.CallbackReads cb)
    (s : St (Coef K M N) (YY c K M N) (YY c K M N) (AttrTB K M N a)) (hp : 0 < s.rho)
    (hs : s.extra.cc = cacheL q D mu wg s.rho) :
    let C := clsL1L1 a q D S W lmbda mu w wg av
    let T := traj C o cb s
    ∃ Xopt, IsMin (objL1L1 D S W lmbda mu w wg) (allowedConv q.nonNeg q.noBndry Nd) Xopt ∧
      Tendsto (fun n => C.nrmR (T n).AXnr (T n).Y) atTop (𝓝 0) ∧
      Tendsto (fun n => C.nrmS (T n).rho (T n).Yprev (T n).Y (T n).U) atTop (𝓝 0) ∧
      Tendsto (fun n => objL1L1 D S W lmbda mu w wg (part (T n).Y.snd)) atTop
        (𝓝 (objL1L1 D S W lmbda mu w wg Xopt)) ∧
      (∀ n, part (T (n + 1)).Y.snd ∈ allowedConv q.nonNeg q.noBndry Nd) := by
  intro C T
  have hW' : ∀ i, 0 ≤ wA W i := fun i => hW _ _ _
  have hw0 : ∀ i, 0 ≤ w i := fun i => (hw i).le
  obtain ⟨x, hx, hmin⟩ := exists_l1l1 q D S W hW' lmbda mu hl w hw wg
  obtain ⟨l, hsad⟩ := saddle_l1l1 q D S W hW' lmbda mu hl.le w hw0 wg x hx hmin
  have hC := implements_l1l1 (a := a) hN q h2 D S W hW' lmbda hl.le mu hm w hw0 wg hg av
  have hk : CallbackKeeps (CohL (a := a) (K := K) q D mu wg) cb := hcb.keeps _
  obtain ⟨k1, k2, k3, k4, k5, k6⟩ := tbf_convergence hC o ha hrlx cb hk s hp hs _ _ _ hsad
  have k7 := near_l1l1 D S W hW' lmbda mu hl.le w hw0 wg (fun n => (T n).X) (fun n => (T n).Y) _ k3 k4 k5
  have e : ∀ z : Coef K M N, objL1L1 D S W lmbda mu w wg (part z) = quadE mu wg z + gSum D S W lmbda w z :=
    objL1L1_eq hN hN2 D S W hW' lmbda mu hm w wg hg
  refine ⟨part x, ⟨hx, fun Z hZ => ?_⟩, k1, k2, ?_, fun n => k6 n⟩
  · have := hmin (join Z) hZ
    rw [← e, ← e] at this
    exact this
  · simp only [e]
    exact k7

/-- **C40.** At every iteration of every `ConvL1L1Grd` run, including after automatic changes of rho (the
cached component, if there is one, is recomputed), X is the unique minimiser of the augmented Lagrangian in x. -/
theorem C40_C43_convl1l1grd_history (hN : ∀ n, Nd n ≤ N n) (hN2 : ∀ k, 2 ≤ N k) (q : COpts)
    (h2 : q.noBndry = true → ∀ n, 2 ≤ Nd n)
    (D : Dict c M Nd) (S W : Signal c K N) (hW : ∀ i k p, 0 ≤ W i k p) (lmbda mu : ℝ) (hl : 0 ≤ lmbda)
    (hm : 0 ≤ mu) (w : K × M × Grid N → ℝ) (hw : ∀ i, 0 ≤ w i) (wg : M → ℝ) (hg : ∀ m, 0 ≤ wg m) (av : Bool)
    (o : Opts) (ho : o.autoRho = true → o.RhoOk) (cb) (hcb : Bpdn.CallbackReads cb)
    (s : St (Coef K M N) (YY c K M N) (YY c K M N) (AttrTB K M N a)) (hp : 0 < s.rho)
    (hs : s.extra.cc = cacheL q D mu wg s.rho) (n : ℕ) :
    let T := traj (clsL1L1 a q D S W lmbda mu w wg av) o cb s
    IsUniqueMin (augLG D S mu wg (T n).rho (part (T n).Y.fst) (part (T n).U.fst) (part (T n).Y.snd)
      (part (T n).U.snd)) Set.univ (part (T (n + 1)).X) := by
  have hC := implements_l1l1 (a := a) hN q h2 D S W (fun i => hW _ _ _) lmbda hl mu hm w hw wg hg av
  have hk : CallbackKeeps (CohL (a := a) (K := K) q D mu wg) cb := hcb.keeps _
  obtain ⟨h1, h3⟩ := traj_inv hC o ho cb hk s hp hs n
  simp only
  rw [traj_succ, oneIter_X, show (clsL1L1 a q D S W lmbda mu w wg av).xstep = xstep D S mu wg from rfl]
  exact C40_convl1l1grd_xstep hN hN2 q D S mu hm wg hg _ h1 _ _ _ _ h3

/-! ## Recorded values -/

theorem g0var_x {q : COpts} {D : Dict c M Nd} {mu : ℝ} (hm : 0 ≤ mu) {wg : M → ℝ} (hg : ∀ m, 0 ≤ wg m)
    {rho : ℝ} (hr : 0 < rho) {h : AttrTB K M N a} (hc : CohL q D mu wg rho h) (S : Signal c K N)
    (X : Coef K M N) (Y U Y' : YY c K M N) :
    g0var a D S false Y' (xstep D S mu wg rho X Y U h).2 =
      convOp (padD N D) (xstep D S mu wg rho X Y U h).1 - join S := by
  rw [← cnstA0_eq (a := a)]
  unfold g0var cnstA0
  simp only [← xstep_Xf hm hg hr hc S X Y U]
  rfl

/-- The statistics of each iteration of `ConvL1L1Grd` (with `AuxVarObj` false, as by default) are the
objective, weighted l1 data term, weighted l1 norm and gradient term of X. -/
theorem C39_convl1l1grd_recorded (hN : ∀ n, Nd n ≤ N n) (hN2 : ∀ k, 2 ≤ N k) (q : COpts) (D : Dict c M Nd)
    (S W : Signal c K N) (lmbda mu : ℝ) (hm : 0 ≤ mu) (w : K × M × Grid N → ℝ) (hw : ∀ i, 0 ≤ w i)
    (wg : M → ℝ) (hg : ∀ m, 0 ≤ wg m) (rho : ℝ) (hr : 0 < rho) (X0 : Coef K M N) (Y0 U0 Y : YY c K M N)
    (h : AttrTB K M N a) (hc : h.cc = cacheL q D mu wg rho) :
    let x := xstep D S mu wg rho X0 Y0 U0 h
    evalObjfn a D S W lmbda mu w wg false x.1 Y x.2 =
      (objL1L1 D S W lmbda mu w wg (part x.1), l1Data D S W (part x.1), l1Conv w (part x.1),
        1 / 2 * gradEnergy wg (part x.1)) := by
  intro x
  have e0 : ∑ i, ∑ k, ∑ p, |W i k p * part (g0var a D S false Y x.2) i k p| = l1Data D S W (part x.1) := by
    rw [g0var_x hm hg hr hc]
    unfold l1Data recon
    simp only [← rconv_pad hN]
    rfl
  have e1 : (normL1 fun i => w i * g1var false x.1 Y i) = l1Conv w (part x.1) := by
    unfold g1var l1Conv
    rw [← l1w_part, ← normL1_part hw]
    simp
  have e2 : regGrad wg x.2.Xf = 1 / 2 * gradEnergy wg (part x.1) :=
    regGrad_eq hN2 wg hg x.1 _ fun k m => xstep_Xf hm hg hr hc S X0 Y0 U0 k m
  change (_ + lmbda * _ + mu * _, _, _, _) = _
  rw [e0, e1, e2]
  unfold objL1L1
  ext
  · simp only; ring
  all_goals rfl

/-! ## Construction -/

/-- **C43 is false of `ConvL1L1Grd`.** With `HighMemSolve` and a single-channel dictionary the constructor raises
an exception whatever the other arguments, because `setdict` is called before `mu` is set; otherwise it succeeds
without a cached component, as the other theorems about this class require. -/
theorem C43_convl1l1grd_refuted (q : COpts) (D : Dict c M Nd) (mu : ℝ) (wg : M → ℝ) (rho : ℝ)
    (Xf : Spec K M N a) :
    (q.highMem = true ∧ c = 0 → init q D mu wg rho Xf = none) ∧
    (¬ (q.highMem = true ∧ c = 0) → ∃ h, init q D mu wg rho Xf = some (h, (mu, wg)) ∧
      h.cc = cacheL q D mu wg rho) := by
  have hq : q.caches c = true ↔ q.highMem = true ∧ c = 0 := by
    unfold COpts.caches
    simp
  constructor
  · intro h
    unfold init setdict
    rw [if_pos (hq.2 h)]
    rfl
  · intro h
    unfold init setdict cacheL
    rw [if_neg (fun h' => h (hq.1 h')), if_neg (fun h' => h (hq.1 h'))]
    exact ⟨_, rfl, rfl⟩

/-- The hypotheses of `C39_convl1l1grd` are met: two filters of two samples, a signal of four samples, a mask
with a zero, default options. -/
example : ∃ (W : Signal 0 (Fin 1) (fun _ : Fin 1 => 4)) (D : Dict 0 (Fin 2) (fun _ : Fin 1 => 2))
    (h : AttrTB (Fin 1) (Fin 2) (fun _ : Fin 1 => 4) 0),
    (∀ i k p, 0 ≤ W i k p) ∧ (∃ i k p, W i k p = 0) ∧ D 0 0 ≠ D 0 1 ∧
    h.cc = cacheL ⟨false, false, false⟩ D 1 (fun _ => 1) 1 := by
  refine ⟨fun _ _ p => if p = 0 then 0 else 1, fun _ m _ => m.val, ⟨none, fun _ _ _ => 0⟩, fun i k p => ?_,
    ⟨0, 0, 0, by simp⟩, fun h => ?_, rfl⟩
  · simp only; split_ifs <;> norm_num
  · have := congrFun h (fun _ => 0)
    simp at this

end Sporco.Conv.LG
