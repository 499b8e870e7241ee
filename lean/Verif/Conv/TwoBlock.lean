import Verif.Conv.TwoBlockModel
import Verif.Conv.CbpdnConv
import Verif.Admm.L2Ball
import Verif.Pgm.ConvGrad

/-!
# `ConvBPDNMaskDcpl` and `ConvMinL1InL2Ball` (C39, C40)
-/

set_option autoImplicit false
set_option linter.unusedSectionVars false

namespace Sporco.Conv.TB

open Finset ComplexConjugate Sporco.Prox Sporco.Admm Sporco.Conv Filter Topology
open Sporco.PgmConv (maskTerm mulL mulL_adj maskTerm_eq)
open scoped RealInnerProductSpace

variable {d c : ℕ} {N Nd : Fin d → ℕ} [∀ k, NeZero (N k)] {a : Fin d} {K M : Type*} [Fintype K]
  [Fintype M]

/-! ## Specification -/

/-- The functional the X update minimises:
`(ρ/2)(‖∑ₘ d_m * x_m - s - y₀ + u₀‖² + ‖x - y₁ + u₁‖²)`. -/
noncomputable def augTB (D : Dict c M Nd) (S : Signal c K N) (rho : ℝ) (Y0 U0 : Signal c K N)
    (Y1 U1 X : K → M → Grid N → ℝ) : ℝ :=
  rho / 2 * (∑ i, ∑ k, ∑ p, (recon D X i k p - S i k p - Y0 i k p + U0 i k p) ^ 2 +
    sumSq fun k m p => X k m p - Y1 k m p + U1 k m p)

/-- The problem of `ConvBPDNMaskDcpl` (class documentation):
`(1/2)‖W(∑ₘ d_m * x_m - s)‖² + λ ∑ₘ ‖w_m x_m‖₁`. -/
noncomputable def objMask (D : Dict c M Nd) (S W : Signal c K N) (lmbda : ℝ) (w : K × M × Grid N → ℝ)
    (X : K → M → Grid N → ℝ) : ℝ :=
  maskTerm D S W X + lmbda * ∑ k, ∑ m, ∑ p, w (k, m, p) * |X k m p|

/-- Weighted l1 norm of coefficient maps. -/
def l1Conv (w : K × M × Grid N → ℝ) (X : K → M → Grid N → ℝ) : ℝ := ∑ k, ∑ m, ∑ p, w (k, m, p) * |X k m p|

/-- `‖∑ₘ d_m * x_m - s‖₂` for one channel and signal. -/
noncomputable def residual (D : Dict c M Nd) (S : Signal c K N) (X : K → M → Grid N → ℝ)
    (i : Fin (c + 1)) (k : K) : ℝ := Real.sqrt (∑ p, (recon D X i k p - S i k p) ^ 2)

/-! ## The operators -/

theorem cnstA0_eq (D : Dict c M Nd) (X : Coef K M N) : cnstA0 a D X = convOp (padD N D) X := by
  refine part_ext fun i k ξ => ?_
  have hh : Herm fun ξ => ∑ m, rf (padD N D i m) ξ * rf (part X k m) ξ := by
    intro ξ
    simp only [rf_herm _ ξ, map_sum, map_mul]
  have h1 := congrFun (rf_irfft a hh) ξ
  rw [part_convOp, rf_sum]
  simp only [rf_rconv]
  exact h1

theorem cnstA0T_eq (D : Dict c M Nd) (Y : Sig (Fin (c + 1)) K N) :
    cnstA0T a D Y = convOpT (padD N D) Y := by
  refine part_ext fun k m ξ => ?_
  have hh : Herm fun ξ => ∑ i, conj (rf (padD N D i m) ξ) * rf (part Y i k) ξ := by
    intro ξ
    simp only [rf_herm _ ξ, map_sum, map_mul]
  have h1 := congrFun (rf_irfft a hh) ξ
  rw [part_convOpT, rf_sum]
  simp only [rf_rcorr]
  exact h1

/-! ## The X update -/

/-- The signal the X update fits. -/
noncomputable def target (S : Signal c K N) (Y U : YY c K M N) : Signal c K N :=
  part (Y.fst - U.fst + join S)

/-- The attributes with a cache that belongs to the dictionary. -/
def CohTB (q : COpts) (D : Dict c M Nd) (h : AttrTB K M N a) : Prop := ∃ Xf, h = setdict q D Xf

theorem xstep_eq (D : Dict c M Nd) (S : Signal c K N) (rho : ℝ) (X : Coef K M N) (Y U : YY c K M N)
    (h : AttrTB K M N a) :
    (xstep D S rho X Y U h).1 = (Conv.xstep 1 X Y.snd U.snd
        { D := D, Df := dictF a D, DSf := dsF (dictF a D) (target S Y U), cc := h.cc, Xf := h.Xf }).1 ∧
    (xstep D S rho X Y U h).2.Xf = (Conv.xstep 1 X Y.snd U.snd
        { D := D, Df := dictF a D, DSf := dsF (dictF a D) (target S Y U), cc := h.cc, Xf := h.Xf }).2.Xf ∧
    (xstep D S rho X Y U h).2.cc = h.cc := by
  refine ⟨?_, ?_, rfl⟩
  · unfold xstep Conv.xstep solveF
    simp only [Complex.ofReal_one, one_mul]
    rfl
  · unfold xstep Conv.xstep solveF
    simp only [Complex.ofReal_one, one_mul]
    rfl

theorem coh_attr {q : COpts} {D : Dict c M Nd} (S' : Signal c K N) {h : AttrTB K M N a} (hc : CohTB q D h) :
    Coh q D S' 1 ({ D := D, Df := dictF a D, DSf := dsF (dictF a D) S', cc := h.cc, Xf := h.Xf } :
      Attr c K M Nd N a) := by
  obtain ⟨Xf, rfl⟩ := hc
  exact ⟨Xf, rfl⟩

theorem xstep_xOf {q : COpts} {D : Dict c M Nd} {h : AttrTB K M N a} (hc : CohTB q D h) (S : Signal c K N)
    (rho : ℝ) (X : Coef K M N) (Y U : YY c K M N) :
    (xstep D S rho X Y U h).1 = xOf a D (target S Y U) 1 1 Y.snd U.snd := by
  rw [(xstep_eq D S rho X Y U h).1]
  exact xstep_coh (coh_attr (target S Y U) hc) X Y.snd U.snd

/-- After the X update `Xf` is the transform of X. -/
theorem xstep_Xf {q : COpts} {D : Dict c M Nd} {h : AttrTB K M N a} (hc : CohTB q D h) (S : Signal c K N)
    (rho : ℝ) (X : Coef K M N) (Y U : YY c K M N) (k : K) (m : M) :
    (xstep D S rho X Y U h).2.Xf k m = rfft N a (part (xstep D S rho X Y U h).1 k m) := by
  obtain ⟨h1, h2, -⟩ := xstep_eq D S rho X Y U h
  rw [h1, h2]
  exact Conv.xstep_Xf one_pos (coh_attr (target S Y U) hc) X Y.snd U.snd k m

theorem coh_xstep {q : COpts} {D : Dict c M Nd} {h : AttrTB K M N a} (hc : CohTB q D h) (S : Signal c K N)
    (rho : ℝ) (X : Coef K M N) (Y U : YY c K M N) : CohTB q D (xstep D S rho X Y U h).2 := by
  obtain ⟨Xf, rfl⟩ := hc
  exact ⟨_, rfl⟩

theorem augTB_eq (hN : ∀ n, Nd n ≤ N n) (D : Dict c M Nd) (S : Signal c K N) (rho : ℝ)
    (Y U : YY c K M N) (X : K → M → Grid N → ℝ) :
    augTB D S rho (part Y.fst) (part U.fst) (part Y.snd) (part U.snd) X =
      rho * augConv D (target S Y U) 1 (part Y.snd) (part U.snd) X := by
  unfold augTB augConv dataTerm
  have : ∀ i k p, recon D X i k p - S i k p - part Y.fst i k p + part U.fst i k p =
      recon D X i k p - target S Y U i k p := by
    intro i k p
    change _ = recon D X i k p - (part Y.fst i k p - part U.fst i k p + S i k p)
    ring
  simp only [this]
  ring

/-- **C40.** The X update of `ConvBPDNMaskDcpl` and `ConvMinL1InL2Ball` gives the unique minimiser of
the augmented Lagrangian over all real arrays, for dictionaries with one or several channels, with and
without `HighMemSolve`, and whatever the value of rho when the dictionary was set. -/
theorem C40_twoblock_xstep (hN : ∀ n, Nd n ≤ N n) (q : COpts) (D : Dict c M Nd) (S : Signal c K N)
    (rho : ℝ) (hr : 0 < rho) (X : Coef K M N) (Y U : YY c K M N) (Xf : Spec K M N a) :
    IsUniqueMin (augTB D S rho (part Y.fst) (part U.fst) (part Y.snd) (part U.snd)) Set.univ
      (part (xstep D S rho X Y U (setdict q D Xf)).1) := by
  have h1 := C40_convbpdn_xstep (a := a) hN q D (target S Y U) 1 one_pos X Y.snd U.snd Xf
  rw [xstep_coh ⟨Xf, rfl⟩] at h1
  rw [xstep_xOf ⟨Xf, rfl⟩]
  refine ⟨trivial, fun Z _ hne => ?_⟩
  rw [augTB_eq hN, augTB_eq hN]
  exact mul_lt_mul_of_pos_left (h1.2 Z trivial hne) hr

/-! ## Exact steps -/

theorem gystep_l1 (a : Fin d) (q : COpts) (h2 : q.noBndry = true → ∀ n, 2 ≤ Nd n) (hN : ∀ n, Nd n ≤ N n)
    (lmbda : ℝ) (hl : 0 ≤ lmbda) (w : K × M × Grid N → ℝ) (hw : ∀ i, 0 ≤ w i) (rho : ℝ) (hr : 0 < rho)
    (AX U : Coef K M N) :
    let y : Coef K M N := WithLp.toLp 2 (gystep q Nd (proxL1Arr (AX + U).ofLp fun i => lmbda / rho * w i))
    y ∈ (cset q Nd : Set (Coef K M N)) ∧ ∀ z ∈ (cset q Nd : Set (Coef K M N)),
      lmbda * l1w w y.ofLp + rho / 2 * ‖AX + U - 0 - y‖ ^ 2 ≤
        lmbda * l1w w z.ofLp + rho / 2 * ‖AX + U - 0 - z‖ ^ 2 := by
  intro y
  have := ystep_conv_min (a := a) (c := 0) q h2 hN lmbda hl w hw rho hr AX 0 0 U
    (Conv.setdict q (fun _ _ _ => 0) rho (fun _ _ _ => 0) fun _ _ _ => 0)
  refine ⟨this.1, fun z hz => ?_⟩
  have h3 := this.2 z hz
  rw [show AX - z + U = AX + U - 0 - z by abel] at h3
  refine le_trans (le_of_eq ?_) h3
  rw [show AX + U - 0 - y = AX - y + U by abel]
  rfl

theorem xstep_tb {q : COpts} {D : Dict c M Nd} {h : AttrTB K M N a} (hc : CohTB q D h) (S : Signal c K N)
    (rho : ℝ) (X : Coef K M N) (Y U : YY c K M N) (z : Coef K M N) :
    ‖convOp (padD N D) (xstep D S rho X Y U h).1 - (Y.fst - U.fst + join S)‖ ^ 2 +
        ‖ContinuousLinearMap.id ℝ (Coef K M N) (xstep D S rho X Y U h).1 - (Y.snd - U.snd + 0)‖ ^ 2 ≤
      ‖convOp (padD N D) z - (Y.fst - U.fst + join S)‖ ^ 2 +
        ‖ContinuousLinearMap.id ℝ (Coef K M N) z - (Y.snd - U.snd + 0)‖ ^ 2 := by
  rw [xstep_xOf hc]
  have h := xOf_min (a := a) D (target S Y U) 0 1 (by norm_num) Y.snd U.snd z
  simp only [zero_add, zero_div, zero_mul, add_zero] at h
  have e : ∀ x : Coef K M N, ContinuousLinearMap.id ℝ (Coef K M N) x - (Y.snd - U.snd + 0) =
      x - Y.snd + U.snd := fun x => by rw [ContinuousLinearMap.id_apply]; abel
  rw [e, e]
  have e2 : (join (target S Y U) : Sig (Fin (c + 1)) K N) = Y.fst - U.fst + join S := rfl
  rw [e2] at h
  linarith

/-! ## `ConvBPDNMaskDcpl` -/

/-- The first block's functional. -/
noncomputable def gMask (W : Signal c K N) (y : Sig (Fin (c + 1)) K N) : ℝ := 1 / 2 * ‖mulL W y‖ ^ 2

theorem gMask_part (W : Signal c K N) (y : Sig (Fin (c + 1)) K N) :
    gMask W y = 1 / 2 * ∑ i, ∑ k, ∑ p, (W i k p * part y i k p) ^ 2 := by
  unfold gMask
  rw [norm_part]
  rfl

theorem convex_gMask (W : Signal c K N) : ConvexOn ℝ Set.univ (gMask W) := by
  have := ls_convex (mulL W) (0 : Sig (Fin (c + 1)) K N)
  simp only [sub_zero] at this
  exact this

theorem yMask_min (S W : Signal c K N) (rho : ℝ) (hr : 0 < rho) (v z : Sig (Fin (c + 1)) K N) :
    let y : Sig (Fin (c + 1)) K N :=
      join fun i k p => rho * (part v i k p - S i k p) / (W i k p ^ 2 + rho)
    gMask W y + rho / 2 * ‖v - join S - y‖ ^ 2 ≤ gMask W z + rho / 2 * ‖v - join S - z‖ ^ 2 := by
  intro y
  rw [gMask_part, gMask_part, norm_part, norm_part]
  simp only [mul_sum, ← sum_add_distrib]
  refine sum_le_sum fun i _ => sum_le_sum fun k _ => sum_le_sum fun p _ => ?_
  have e : ∀ z : Sig (Fin (c + 1)) K N, part (v - join S - z) i k p =
      part v i k p - S i k p - part z i k p := fun z => rfl
  rw [e, e]
  have ey : part y i k p = rho * (part v i k p - S i k p) / (W i k p ^ 2 + rho) := rfl
  have hd : 0 < W i k p ^ 2 + rho := by positivity
  obtain ⟨t, ht⟩ : ∃ t, t = part v i k p - S i k p := ⟨_, rfl⟩
  rw [← ht] at ey ⊢
  have hy : (W i k p ^ 2 + rho) * part y i k p = rho * t := by rw [ey]; field_simp
  have h1 : 0 ≤ (W i k p ^ 2 + rho) * (part z i k p - part y i k p) ^ 2 := by positivity
  nlinarith [congrArg (fun r => r * (part z i k p - part y i k p)) hy]

theorem exact_mask (hN : ∀ n, Nd n ≤ N n) (q : COpts) (h2 : q.noBndry = true → ∀ n, 2 ≤ Nd n)
    (D : Dict c M Nd) (S W : Signal c K N) (lmbda : ℝ) (hl : 0 ≤ lmbda) (w : K × M × Grid N → ℝ)
    (hw : ∀ i, 0 ≤ w i) (av : Bool) :
    TbExact (clsMask a q D S W lmbda w av) (convOp (padD N D)) (convOpT (padD N D))
      (ContinuousLinearMap.id ℝ _) (ContinuousLinearMap.id ℝ _) (join S) 0 (gMask W) Set.univ
      (fun y => lmbda * l1w w y.ofLp) (cset q Nd) (fun _ h => CohTB q D h) := by
  refine ⟨fun rlx x y => ?_, fun _ _ _ => rfl, fun _ _ => rfl, fun rho yp y u => ?_,
    fun ax y => ?_, fun rho u hr => mul_nonneg hr (norm_nonneg _),
    fun rho X Y U _ _ h => coh_xstep h S rho X Y U,
    fun _ _ _ _ _ _ _ h => h, fun _ _ _ _ _ h => h, ?_, ?_, ?_⟩
  · change TwoBlock.relaxAX (cnstA0 a D) (fun x => x) (join S) 0 rlx x y = _
    rw [show (cnstA0 a D : Coef K M N → Sig (Fin (c + 1)) K N) = convOp (padD N D) from
      funext fun X => cnstA0_eq D X]
    rfl
  · change ‖rho • TwoBlock.cnstAT (cnstA0T a D) (fun y => y) u‖ = _
    rw [show (cnstA0T a D : Sig (Fin (c + 1)) K N → Coef K M N) = convOpT (padD N D) from
      funext fun X => cnstA0T_eq D X]
    rfl
  · change 0 ≤ TwoBlock.rsdlRn (join S) 0 ax y
    unfold TwoBlock.rsdlRn
    positivity
  · intro rho X Y U h _ hI z
    exact xstep_tb hI S rho X Y U z
  · intro rho AX X Y U h hp _
    exact ⟨trivial, fun z _ => yMask_min S W rho hp (AX.fst + U.fst) z⟩
  · intro rho AX X Y U h hp _
    exact gystep_l1 a q h2 hN lmbda hl w hw rho hp AX.snd U.snd

theorem normL1_part {w : K × M × Grid N → ℝ} (hw : ∀ i, 0 ≤ w i) (x : Coef K M N) :
    (normL1 fun i => w i * x i) = l1w w x.ofLp :=
  sum_congr rfl fun i _ => by rw [norm_mul, Real.norm_of_nonneg (hw i)]

/-- A quadratic term evaluated at nearby points. -/
theorem half_sq_near {E : Type*} [NormedAddCommGroup E] (u v : ℕ → E) (r : ℕ → ℝ) (p : ℝ)
    (hr : ∀ n, 0 ≤ r n) (h : Tendsto (fun n => 1 / 2 * ‖u n‖ ^ 2 + r n) atTop (𝓝 p))
    (hd : Tendsto (fun n => v n - u n) atTop (𝓝 0)) :
    Tendsto (fun n => 1 / 2 * ‖v n‖ ^ 2 + r n) atTop (𝓝 p) := by
  have hd' := tendsto_zero_iff_norm_tendsto_zero.1 hd
  have hb : Tendsto (fun n => 1 / 2 * (‖v n - u n‖ * (2 * (2 * (1 / 2 * ‖u n‖ ^ 2 + r n) + 1) + ‖v n - u n‖)))
      atTop (𝓝 (1 / 2 * (0 * (2 * (2 * p + 1) + 0)))) :=
    (hd'.mul ((((h.const_mul 2).add_const 1).const_mul 2).add hd')).const_mul (1 / 2)
  rw [zero_mul, mul_zero] at hb
  have h0 : Tendsto (fun n => 1 / 2 * ‖v n‖ ^ 2 - 1 / 2 * ‖u n‖ ^ 2) atTop (𝓝 0) := by
    refine squeeze_zero_norm (fun n => ?_) hb
    have e1 := abs_norm_sub_norm_le (v n) (u n)
    have e2 : ‖v n‖ ≤ ‖u n‖ + ‖v n - u n‖ := by
      have := norm_add_le (u n) (v n - u n)
      rwa [add_sub_cancel] at this
    have e3 : ‖u n‖ ≤ 2 * (1 / 2 * ‖u n‖ ^ 2 + r n) + 1 := by
      have := hr n
      nlinarith [sq_nonneg (‖u n‖ - 1)]
    rw [Real.norm_eq_abs, show 1 / 2 * ‖v n‖ ^ 2 - 1 / 2 * ‖u n‖ ^ 2 =
      1 / 2 * ((‖v n‖ - ‖u n‖) * (‖v n‖ + ‖u n‖)) by ring, abs_mul, abs_mul,
      abs_of_nonneg (by norm_num : (0 : ℝ) ≤ 1 / 2),
      abs_of_nonneg (add_nonneg (norm_nonneg (v n)) (norm_nonneg (u n)))]
    refine mul_le_mul_of_nonneg_left ?_ (by norm_num)
    refine mul_le_mul e1 ?_ (by positivity) (norm_nonneg _)
    linarith
  have := h.add h0
  rw [add_zero] at this
  exact this.congr fun n => by ring

theorem objMask_eq (hN : ∀ n, Nd n ≤ N n) (D : Dict c M Nd) (S W : Signal c K N) (lmbda : ℝ)
    (w : K × M × Grid N → ℝ) (x : Coef K M N) : objMask D S W lmbda w (part x) =
      gMask W (convOp (padD N D) x - join S) + lmbda * l1w w x.ofLp := by
  unfold objMask gMask
  rw [maskTerm_eq hN, ← l1w_part]

/-- **C39 for `ConvBPDNMaskDcpl`.** For every dictionary (single or multi-channel), signal, mask,
positive `lmbda` and weights, with or without `NonNegCoef` and `NoBndryCross`: the problem has a
solution, and the objective at the array `solve()` would return tends to the minimum, as does the
recorded objective with `AuxVarObj`; the array always meets the constraints.  Fixed rho, relaxation
parameter in (0, 2), any start. -/
theorem C39_convmask (hN : ∀ n, Nd n ≤ N n) (q : COpts) (h2 : q.noBndry = true → ∀ n, 2 ≤ Nd n)
    (D : Dict c M Nd) (S W : Signal c K N) (lmbda : ℝ) (hl : 0 < lmbda) (w : K × M × Grid N → ℝ)
    (hw : ∀ i, 0 < w i) (av : Bool) (o : Opts) (ha : o.autoRho = false)
    (hrlx : 0 < o.rlx ∧ o.rlx < 2) (cb) (hcb : Bpdn.CallbackReads cb)
    (s : St (Coef K M N) (YY c K M N) (YY c K M N) (AttrTB K M N a)) (hp : 0 < s.rho)
    (Xf : Spec K M N a) (hs : s.extra = setdict q D Xf) :
    let T := traj (clsMask a q D S W lmbda w av) o cb s
    ∃ Xopt, IsMin (objMask D S W lmbda w) (allowedConv q.nonNeg q.noBndry Nd) Xopt ∧
      Tendsto (fun n => objMask D S W lmbda w (part (T n).Y.snd)) atTop (𝓝 (objMask D S W lmbda w Xopt)) ∧
      (av = true → Tendsto (fun n => ((clsMask a q D S W lmbda w av).objfn (T n).X (T n).Y (T n).extra).1)
        atTop (𝓝 (objMask D S W lmbda w Xopt))) ∧
      ∀ n, part (T (n + 1)).Y.snd ∈ allowedConv q.nonNeg q.noBndry Nd := by
  intro T
  have hw0 : ∀ i, 0 ≤ w i := fun i => (hw i).le
  obtain ⟨r, hr, hgrow⟩ := Bpdn.l1w_grow w hw lmbda hl
  obtain ⟨x, hx, hmin⟩ := ls_exists_min ((mulL W).comp (convOp (padD N D))) (mulL W (join S))
    (fun y : Coef K M N => lmbda * l1w w y.ofLp) (cset q Nd) (closed_cset q Nd) ⟨0, zero_cset q Nd⟩
    (continuous_const.mul (Bpdn.continuous_l1w w)) r hr hgrow
  have hobj : ∀ z : Coef K M N, lsObj ((mulL W).comp (convOp (padD N D))) (mulL W (join S))
      (fun y : Coef K M N => lmbda * l1w w y.ofLp) z = gMask W (convOp (padD N D) z - join S) +
        lmbda * l1w w z.ofLp := by
    intro z
    unfold lsObj gMask
    rw [map_sub]
    rfl
  simp only [hobj] at hmin
  have hg1 := Bpdn.convex_l1w w hw0 _ (convex_cset (K := K) (M := M) (N := N) q Nd) lmbda hl.le
  obtain ⟨l, hl'⟩ := exists_multiplier (convOp (padD N D)) (join S)
    (fun y : Coef K M N => lmbda * l1w w y.ofLp) (cset q Nd) (gMask W) Set.univ hg1 (convex_gMask W)
    _ (fun z hz _ => by rw [add_comm (lmbda * _)]; exact hmin z hz) x hx (by simp)
  have hsad := tb_saddle (A0 := convOp (padD N D)) (A0T := convOpT (padD N D)) (c0 := join S)
    (convOp_adj (padD N D)) (fun y : Coef K M N => lmbda * l1w w y.ofLp) (cset q Nd) (convex_gMask W) hg1
    x hx trivial l (fun z hz y hy => by
      have := hl' z hz y hy
      linarith)
  have hconv := (exact_mask (a := a) hN q h2 D S W lmbda hl.le w hw0 av).convergence
    (convOp_adj (padD N D)) (fun _ _ => rfl) (convex_gMask W) hg1 o ha hrlx cb (hcb.keeps _) s hp
    ⟨Xf, hs⟩ _ _ _ hsad
  obtain ⟨-, -, h3, h4, h5, h6⟩ := hconv
  have hnear : Tendsto (fun n => convOp (padD N D) (T n).Y.snd - join S - (T n).Y.fst) atTop (𝓝 0) := by
    have h7 := ((convOp (padD N D)).continuous.tendsto (0 : Coef K M N)).comp h5
    rw [map_zero] at h7
    have h8 := h4.sub h7
    rw [sub_zero] at h8
    refine h8.congr fun n => ?_
    simp only [Function.comp]
    rw [map_sub, sub_zero, ContinuousLinearMap.id_apply]
    abel
  have hnearW : Tendsto (fun n => mulL W (convOp (padD N D) (T n).Y.snd - join S) - mulL W (T n).Y.fst)
      atTop (𝓝 0) := by
    have h7 := ((mulL W).continuous.tendsto (0 : Sig (Fin (c + 1)) K N)).comp hnear
    rw [map_zero] at h7
    exact h7.congr fun n => by simp only [Function.comp]; rw [map_sub]
  refine ⟨part x, ⟨hx, fun Z hZ => ?_⟩, ?_, ?_, fun n => (h6 n).2⟩
  · have h7 := hmin (join Z) hZ
    rw [← objMask_eq hN, ← objMask_eq hN] at h7
    exact h7
  · simp only [objMask_eq hN]
    exact half_sq_near _ _ _ _ (fun n => mul_nonneg hl.le (sum_nonneg fun i _ => mul_nonneg (hw0 i) (norm_nonneg _))) h3 hnearW
  · intro hav
    subst hav
    rw [objMask_eq hN]
    refine Tendsto.congr (fun n => ?_) h3
    change gMask W (T n).Y.fst + lmbda * l1w w (T n).Y.snd.ofLp =
      ‖mulL W (T n).Y.fst‖ ^ 2 / 2 + lmbda * normL1 fun i => w i * (T n).Y.snd i
    rw [normL1_part hw0, gMask]
    ring

/-- What `obfn_g0var` gives with `AuxVarObj` false, after an X update. -/
theorem g0var_x {q : COpts} {D : Dict c M Nd} {h : AttrTB K M N a} (hc : CohTB q D h) (S : Signal c K N)
    (rho : ℝ) (X : Coef K M N) (Y U Y' : YY c K M N) :
    g0var a D S false Y' (xstep D S rho X Y U h).2 =
      convOp (padD N D) (xstep D S rho X Y U h).1 - join S := by
  rw [← cnstA0_eq (a := a)]
  unfold g0var cnstA0
  simp only [← xstep_Xf hc S rho X Y U]
  rfl

/-- The statistics of each iteration of `ConvBPDNMaskDcpl` (with `AuxVarObj` false, as by default) are
the objective, masked data term and weighted l1 norm of X. -/
theorem C39_convmask_recorded (hN : ∀ n, Nd n ≤ N n) (q : COpts) (D : Dict c M Nd) (S W : Signal c K N)
    (lmbda rho : ℝ) (w : K × M × Grid N → ℝ) (hw : ∀ i, 0 ≤ w i) (X0 : Coef K M N)
    (Y0 U0 Y : YY c K M N) (Xf : Spec K M N a) :
    let x := xstep D S rho X0 Y0 U0 (setdict q D Xf)
    (clsMask a q D S W lmbda w false).objfn x.1 Y x.2 =
      (objMask D S W lmbda w (part x.1), maskTerm D S W (part x.1), l1Conv w (part x.1)) := by
  intro x
  have e0 : ‖(join fun i k p => W i k p * part (g0var a D S false Y x.2) i k p :
      Sig (Fin (c + 1)) K N)‖ ^ 2 / 2 = maskTerm D S W (part x.1) := by
    rw [g0var_x ⟨Xf, rfl⟩, maskTerm_eq hN, div_eq_mul_one_div, mul_comm]
    rfl
  have e1 : (normL1 fun i => w i * g1var false x.1 Y i) = l1Conv w (part x.1) := by
    unfold g1var l1Conv
    rw [← l1w_part, ← normL1_part hw]
    simp
  change (_ + lmbda * _, _, _) = _
  rw [e0, e1]
  rfl

/-! ## `ConvMinL1InL2Ball` -/

/-- Coefficient maps satisfying the constraint of `ConvMinL1InL2Ball` (class documentation):
`‖∑ₘ d_m * x_m - s‖₂ ≤ ε` for every channel and signal, and the constraints of the options. -/
def feasConv (D : Dict c M Nd) (S : Signal c K N) (eps : ℝ) (q : COpts) : Set (K → M → Grid N → ℝ) :=
  {X | X ∈ allowedConv q.nonNeg q.noBndry Nd ∧ ∀ i k, residual D S X i k ≤ eps}

/-- One slice for each channel and signal. -/
def sigEquiv (c : ℕ) (K : Type*) {d : ℕ} (N : Fin d → ℕ) :
    (Fin (c + 1) × K) × Grid N ≃ Fin (c + 1) × K × Grid N := Equiv.prodAssoc _ _ _

theorem l2_residual (hN : ∀ n, Nd n ≤ N n) (D : Dict c M Nd) (S : Signal c K N) (x : Coef K M N)
    (i : Fin (c + 1)) (k : K) :
    l2 (slice (sigEquiv c K N) (convOp (padD N D) x - join S) (i, k)) = residual D S (part x) i k := by
  unfold l2 Prox.sq residual recon
  congr 1
  refine sum_congr rfl fun p _ => ?_
  rw [Real.norm_eq_abs, sq_abs]
  simp only [← rconv_pad hN]
  rfl

theorem projN_eq (eps : ℝ) (y : Sig (Fin (c + 1)) K N) : projN eps y = sproj (sigEquiv c K N) eps y := rfl

theorem mem_feasConv (hN : ∀ n, Nd n ≤ N n) (D : Dict c M Nd) (S : Signal c K N) (eps : ℝ) (q : COpts)
    (x : Coef K M N) : part x ∈ feasConv D S eps q ↔
      x ∈ (cset q Nd : Set (Coef K M N)) ∧ convOp (padD N D) x - join S ∈ sball (sigEquiv c K N) eps := by
  refine and_congr_right fun _ => ?_
  simp only [← l2_residual hN]
  exact ⟨fun h k => h k.1 k.2, fun h i k => h (i, k)⟩

theorem exact_ball (hN : ∀ n, Nd n ≤ N n) (q : COpts) (h2 : q.noBndry = true → ∀ n, 2 ≤ Nd n)
    (D : Dict c M Nd) (S : Signal c K N) (eps : ℝ) (he : 0 ≤ eps) (w : K × M × Grid N → ℝ)
    (hw : ∀ i, 0 ≤ w i) (av : Bool) :
    TbExact (clsBall a q D S eps w av) (convOp (padD N D)) (convOpT (padD N D))
      (ContinuousLinearMap.id ℝ _) (ContinuousLinearMap.id ℝ _) (join S) 0 (fun _ => 0)
      (sball (sigEquiv c K N) eps) (fun y => 1 * l1w w y.ofLp) (cset q Nd) (fun _ h => CohTB q D h) := by
  refine ⟨fun rlx x y => ?_, fun _ _ _ => rfl, fun _ _ => rfl, fun rho yp y u => ?_,
    fun ax y => ?_, fun rho u hr => mul_nonneg hr (norm_nonneg _),
    fun rho X Y U _ _ h => coh_xstep h S rho X Y U,
    fun _ _ _ _ _ _ _ h => h, fun _ _ _ _ _ h => h, ?_, ?_, ?_⟩
  · change TwoBlock.relaxAX (cnstA0 a D) (fun x => x) (join S) 0 rlx x y = _
    rw [show (cnstA0 a D : Coef K M N → Sig (Fin (c + 1)) K N) = convOp (padD N D) from
      funext fun X => cnstA0_eq D X]
    rfl
  · change ‖rho • TwoBlock.cnstAT (cnstA0T a D) (fun y => y) u‖ = _
    rw [show (cnstA0T a D : Sig (Fin (c + 1)) K N → Coef K M N) = convOpT (padD N D) from
      funext fun X => cnstA0T_eq D X]
    rfl
  · change 0 ≤ TwoBlock.rsdlRn (join S) 0 ax y
    unfold TwoBlock.rsdlRn
    positivity
  · intro rho X Y U h _ hI z
    exact xstep_tb hI S rho X Y U z
  · intro rho AX X Y U h hp _
    have hm := sproj_min (sigEquiv c K N) eps he (AX.fst + U.fst - join S)
    refine ⟨hm.1, fun z hz => ?_⟩
    have := mul_le_mul_of_nonneg_left (hm.2 z hz) (half_pos hp).le
    rw [zero_add, zero_add]
    exact this
  · intro rho AX X Y U h hp _
    have h3 := gystep_l1 a q h2 hN 1 zero_le_one w hw rho hp AX.snd U.snd
    have e : (fun i => w i / rho) = fun i => 1 / rho * w i := by funext i; ring
    have e2 : (ystepBall q Nd S eps w rho AX X Y U h).1.snd =
        WithLp.toLp 2 (gystep q Nd (proxL1Arr (AX.snd + U.snd).ofLp fun i => 1 / rho * w i)) := by
      rw [← e]; rfl
    change (ystepBall q Nd S eps w rho AX X Y U h).1.snd ∈ (cset q Nd : Set (Coef K M N)) ∧
      ∀ z ∈ (cset q Nd : Set (Coef K M N)),
        1 * l1w w (ystepBall q Nd S eps w rho AX X Y U h).1.snd.ofLp +
          rho / 2 * ‖AX.snd + U.snd - 0 - (ystepBall q Nd S eps w rho AX X Y U h).1.snd‖ ^ 2 ≤ _
    rw [e2]
    exact h3

/-- **C39 for `ConvMinL1InL2Ball`.** For every dictionary (single or multi-channel) and signal and
positive weights, with or without `NonNegCoef` and `NoBndryCross`, if some allowed array meets the l2
constraint strictly: the problem has a solution, the l1 norm of the array `solve()` would return tends
to the smallest one, the array always meets the constraints of the options and comes arbitrarily close
to meeting the l2 constraint.  Fixed rho, relaxation parameter in (0, 2), any start. -/
theorem C39_convminl1 (hN : ∀ n, Nd n ≤ N n) (q : COpts) (h2 : q.noBndry = true → ∀ n, 2 ≤ Nd n)
    (D : Dict c M Nd) (S : Signal c K N) (eps : ℝ) (he : 0 < eps) (w : K × M × Grid N → ℝ)
    (hw : ∀ i, 0 < w i) (av : Bool)
    (Xb : K → M → Grid N → ℝ) (hXb : Xb ∈ allowedConv q.nonNeg q.noBndry Nd)
    (hsl : ∀ i k, residual D S Xb i k < eps)
    (o : Opts) (ha : o.autoRho = false) (hrlx : 0 < o.rlx ∧ o.rlx < 2) (cb) (hcb : Bpdn.CallbackReads cb)
    (s : St (Coef K M N) (YY c K M N) (YY c K M N) (AttrTB K M N a)) (hp : 0 < s.rho)
    (Xf : Spec K M N a) (hs : s.extra = setdict q D Xf) :
    let T := traj (clsBall a q D S eps w av) o cb s
    ∃ Xopt, IsMin (l1Conv w) (feasConv D S eps q) Xopt ∧
      Tendsto (fun n => l1Conv w (part (T n).Y.snd)) atTop (𝓝 (l1Conv w Xopt)) ∧
      (∀ n, part (T (n + 1)).Y.snd ∈ allowedConv q.nonNeg q.noBndry Nd) ∧
      ∀ e > 0, ∀ᶠ n in atTop, ∀ i k, residual D S (part (T n).Y.snd) i k ≤ eps + e := by
  intro T
  have hw0 : ∀ i, 0 ≤ w i := fun i => (hw i).le
  obtain ⟨r, hr, hgrow⟩ := Bpdn.l1w_grow w hw 1 one_pos
  have hstr : ∀ k, l2 (slice (sigEquiv c K N) (convOp (padD N D) (join Xb) - join S) k) < eps := by
    intro k
    have := l2_residual hN D S (join Xb) k.1 k.2
    rw [Prod.mk.eta] at this
    rw [this]
    exact hsl k.1 k.2
  have hcl : IsClosed {x : Coef K M N | x ∈ (cset q Nd : Set (Coef K M N)) ∧
      convOp (padD N D) x - join S ∈ sball (sigEquiv c K N) eps} := by
    refine (closed_cset q Nd).inter ?_
    refine (closed_sball (sigEquiv c K N) eps).preimage
      (f := fun x : Coef K M N => convOp (padD N D) x - join S) ?_
    fun_prop
  obtain ⟨x, ⟨hx, hx1⟩, hmin⟩ := ls_exists_min (0 : Coef K M N →L[ℝ] Coef K M N) 0
    (fun y => 1 * l1w w y.ofLp) _ hcl ⟨join Xb, hXb, fun k => (hstr k).le⟩
    (continuous_const.mul (Bpdn.continuous_l1w w)) r hr hgrow
  have hmin' : ∀ z ∈ (cset q Nd : Set (Coef K M N)), convOp (padD N D) z - join S ∈ sball (sigEquiv c K N) eps →
      1 * l1w w x.ofLp ≤ 1 * l1w w z.ofLp := by
    intro z hz hz1
    have := hmin z ⟨hz, hz1⟩
    simpa [lsObj] using this
  have hg1 := Bpdn.convex_l1w w hw0 _ (convex_cset (K := K) (M := M) (N := N) q Nd) 1 one_pos.le
  have hg0 : ConvexOn ℝ (sball (sigEquiv c K N) eps) (fun _ : Sig (Fin (c + 1)) K N => (0 : ℝ)) :=
    convexOn_const 0 (convex_sball _ eps)
  obtain ⟨l, hl⟩ := exists_multiplier (convOp (padD N D)) (join S)
    (fun y : Coef K M N => 1 * l1w w y.ofLp) (cset q Nd) (fun _ => 0) (sball (sigEquiv c K N) eps) hg1 hg0
    (1 * l1w w x.ofLp) (fun z hz hz1 => by rw [add_zero]; exact hmin' z hz hz1) (join Xb) hXb
    (interior_sball _ eps _ hstr)
  have hsad := tb_saddle (A0 := convOp (padD N D)) (A0T := convOpT (padD N D)) (c0 := join S)
    (g0 := fun _ => (0 : ℝ)) (convOp_adj (padD N D)) (fun y : Coef K M N => 1 * l1w w y.ofLp) (cset q Nd)
    hg0 hg1 x hx hx1 l (fun z hz y hy => by
      have := hl z hz y hy
      linarith)
  have hconv := (exact_ball (a := a) hN q h2 D S eps he.le w hw0 av).convergence
    (convOp_adj (padD N D)) (fun _ _ => rfl) hg0 hg1 o ha hrlx cb (hcb.keeps _) s hp
    ⟨Xf, hs⟩ _ _ _ hsad
  obtain ⟨-, -, h3, h4, h5, h6⟩ := hconv
  have hnear : Tendsto (fun n => convOp (padD N D) (T n).Y.snd - join S - (T n).Y.fst) atTop (𝓝 0) := by
    have h7 := ((convOp (padD N D)).continuous.tendsto (0 : Coef K M N)).comp h5
    rw [map_zero] at h7
    have h8 := h4.sub h7
    rw [sub_zero] at h8
    refine h8.congr fun n => ?_
    simp only [Function.comp]
    rw [map_sub, sub_zero, ContinuousLinearMap.id_apply]
    abel
  have hl1 : ∀ x : Coef K M N, l1Conv w (part x) = l1w w x.ofLp := fun x => (l1w_part w x).symm
  refine ⟨part x, ⟨(mem_feasConv hN D S eps q x).2 ⟨hx, hx1⟩, fun Z hZ => ?_⟩, ?_, fun n => (h6 n).2,
    fun e hpe => ?_⟩
  · obtain ⟨h7, h8⟩ := (mem_feasConv hN D S eps q (join Z)).1 hZ
    have := hmin' (join Z) h7 h8
    rw [one_mul, one_mul, ← hl1, ← hl1] at this
    exact this
  · simp only [hl1]
    simp only [zero_add, one_mul] at h3
    exact h3
  · have e5 := (tendsto_zero_iff_norm_tendsto_zero.1 hnear).eventually (gt_mem_nhds hpe)
    filter_upwards [e5, eventually_ge_atTop 1] with n hn5 hn1
    obtain ⟨m, rfl⟩ : ∃ m, n = m + 1 := ⟨n - 1, by omega⟩
    intro i k
    have h7 := sball_near (sigEquiv c K N) eps (convOp (padD N D) (T (m + 1)).Y.snd - join S)
      (T (m + 1)).Y.fst (h6 m).1 (i, k)
    rw [l2_residual hN] at h7
    exact h7.trans (add_le_add le_rfl hn5.le)

/-- The statistics of each iteration of `ConvMinL1InL2Ball` (with `AuxVarObj` false): `ObjFun` is the
weighted l1 norm of X, and `Cnstr` is the distance from the reconstruction residual to the nearest array
of norm at most `ε` in every channel and signal, so it is zero exactly when the constraint holds. -/
theorem C39_convminl1_recorded (hN : ∀ n, Nd n ≤ N n) (q : COpts) (D : Dict c M Nd) (S : Signal c K N)
    (eps rho : ℝ) (he : 0 ≤ eps) (w : K × M × Grid N → ℝ) (hw : ∀ i, 0 ≤ w i) (X0 : Coef K M N)
    (Y0 U0 Y : YY c K M N) (Xf : Spec K M N a) :
    let x := xstep D S rho X0 Y0 U0 (setdict q D Xf)
    let r := (clsBall a q D S eps w false).objfn x.1 Y x.2
    let dist (V : Signal c K N) :=
      Real.sqrt (∑ i, ∑ k, ∑ p, (V i k p - (recon D (part x.1) i k p - S i k p)) ^ 2)
    let ball := {V : Signal c K N | ∀ i k, Real.sqrt (∑ p, V i k p ^ 2) ≤ eps}
    r.1 = l1Conv w (part x.1) ∧ (∃ V ∈ ball, r.2.2 = dist V) ∧ (∀ V ∈ ball, r.2.2 ≤ dist V) ∧
    (r.2.2 = 0 ↔ ∀ i k, residual D S (part x.1) i k ≤ eps) := by
  intro x r dist ball
  obtain ⟨y, hy⟩ : ∃ y, y = convOp (padD N D) x.1 - join S := ⟨_, rfl⟩
  have hrec : ∀ i k p, part y i k p = recon D (part x.1) i k p - S i k p := by
    intro i k p
    rw [hy]
    unfold recon
    simp only [← rconv_pad hN]
    rfl
  have hdist : ∀ V, dist V = ‖join V - y‖ := by
    intro V
    change Real.sqrt _ = _
    rw [← Real.sqrt_sq (norm_nonneg (join V - y)), norm_part]
    congr 1
    refine sum_congr rfl fun i _ => sum_congr rfl fun k _ => sum_congr rfl fun p _ => ?_
    rw [← hrec]
    rfl
  have hball : ∀ V : Signal c K N, V ∈ ball ↔ join V ∈ sball (sigEquiv c K N) eps := by
    intro V
    have e : ∀ k : Fin (c + 1) × K, l2 (slice (sigEquiv c K N) (join V) k) =
        Real.sqrt (∑ p, V k.1 k.2 p ^ 2) := by
      intro k
      unfold l2 Prox.sq
      congr 1
      refine sum_congr rfl fun p _ => ?_
      rw [Real.norm_eq_abs, sq_abs]
      rfl
    unfold sball
    simp only [Set.mem_ofPred_eq, e]
    exact ⟨fun h k => h k.1 k.2, fun h i k => h (i, k)⟩
  have hg : g0var a D S false Y x.2 = y := by rw [hy]; exact g0var_x ⟨Xf, rfl⟩ S rho X0 Y0 U0 Y
  have hr : r.2.2 = ‖sproj (sigEquiv c K N) eps y - y‖ := by
    change ‖projN eps (g0var a D S false Y x.2) - g0var a D S false Y x.2‖ = _
    rw [hg, projN_eq]
  have hm := sproj_min (sigEquiv c K N) eps he y
  have hle : ∀ V ∈ ball, r.2.2 ≤ dist V := by
    intro V hV
    rw [hr, hdist, norm_sub_rev, norm_sub_rev _ y]
    exact le_of_sq_le_sq (hm.2 _ ((hball V).1 hV)) (norm_nonneg _)
  refine ⟨?_, ⟨part (sproj (sigEquiv c K N) eps y), (hball _).2 hm.1, ?_⟩, hle, ?_, fun hf => ?_⟩
  · change (normL1 fun i => w i * g1var false x.1 Y i) = l1Conv w (part x.1)
    unfold g1var l1Conv
    rw [← l1w_part, ← normL1_part hw]
    simp
  · rw [hr, hdist]; rfl
  · intro h0 i k
    rw [hr, norm_eq_zero, sub_eq_zero] at h0
    rw [← l2_residual hN, ← hy, ← h0]
    exact hm.1 (i, k)
  · have hin : part y ∈ ball := by
      rw [hball]
      intro k
      have := l2_residual hN D S x.1 k.1 k.2
      rw [Prod.mk.eta, ← hy] at this
      change l2 (slice (sigEquiv c K N) y k) ≤ eps
      rw [this]
      exact hf k.1 k.2
    have h1 := hle _ hin
    rw [hdist] at h1
    rw [show join (part y) = y from rfl, sub_self, norm_zero] at h1
    exact le_antisymm h1 (by rw [hr]; exact norm_nonneg _)

/-! ## Histories -/

/-- **C40.** At every iteration of every `ConvBPDNMaskDcpl` run, including after automatic changes of
rho, X is the unique minimiser of the augmented Lagrangian in x. -/
theorem C40_convmask_history (hN : ∀ n, Nd n ≤ N n) (q : COpts) (h2 : q.noBndry = true → ∀ n, 2 ≤ Nd n)
    (D : Dict c M Nd) (S W : Signal c K N) (lmbda : ℝ) (hl : 0 ≤ lmbda) (w : K × M × Grid N → ℝ)
    (hw : ∀ i, 0 ≤ w i) (av : Bool) (o : Opts) (ho : o.autoRho = true → o.RhoOk) (cb)
    (hcb : Bpdn.CallbackReads cb)
    (s : St (Coef K M N) (YY c K M N) (YY c K M N) (AttrTB K M N a)) (hp : 0 < s.rho)
    (Xf : Spec K M N a) (hs : s.extra = setdict q D Xf) (n : ℕ) :
    let T := traj (clsMask a q D S W lmbda w av) o cb s
    IsUniqueMin (augTB D S (T n).rho (part (T n).Y.fst) (part (T n).U.fst) (part (T n).Y.snd)
      (part (T n).U.snd)) Set.univ (part (T (n + 1)).X) := by
  have hk := ((exact_mask (a := a) hN q h2 D S W lmbda hl w hw av).implements (convOp_adj (padD N D))
    (fun _ _ => rfl) (convex_gMask W)
    (Bpdn.convex_l1w w hw _ (convex_cset (K := K) (M := M) (N := N) q Nd) lmbda hl)).keeps
  obtain ⟨h1, Xf', h2'⟩ := traj_keeps hk o ho cb (hcb.keeps _) s hp ⟨Xf, hs⟩ n
  simp only
  rw [traj_succ, oneIter_X, show (clsMask a q D S W lmbda w av).xstep = xstep D S from rfl, h2']
  exact C40_twoblock_xstep hN q D S _ h1 _ _ _ _

/-- **C40.** The same for `ConvMinL1InL2Ball`. -/
theorem C40_convminl1_history (hN : ∀ n, Nd n ≤ N n) (q : COpts) (h2 : q.noBndry = true → ∀ n, 2 ≤ Nd n)
    (D : Dict c M Nd) (S : Signal c K N) (eps : ℝ) (he : 0 ≤ eps) (w : K × M × Grid N → ℝ)
    (hw : ∀ i, 0 ≤ w i) (av : Bool) (o : Opts) (ho : o.autoRho = true → o.RhoOk) (cb)
    (hcb : Bpdn.CallbackReads cb)
    (s : St (Coef K M N) (YY c K M N) (YY c K M N) (AttrTB K M N a)) (hp : 0 < s.rho)
    (Xf : Spec K M N a) (hs : s.extra = setdict q D Xf) (n : ℕ) :
    let T := traj (clsBall a q D S eps w av) o cb s
    IsUniqueMin (augTB D S (T n).rho (part (T n).Y.fst) (part (T n).U.fst) (part (T n).Y.snd)
      (part (T n).U.snd)) Set.univ (part (T (n + 1)).X) := by
  have hk := ((exact_ball (a := a) hN q h2 D S eps he w hw av).implements (convOp_adj (padD N D))
    (fun _ _ => rfl) (convexOn_const 0 (convex_sball _ eps))
    (Bpdn.convex_l1w w hw _ (convex_cset (K := K) (M := M) (N := N) q Nd) 1 zero_le_one)).keeps
  obtain ⟨h1, Xf', h2'⟩ := traj_keeps hk o ho cb (hcb.keeps _) s hp ⟨Xf, hs⟩ n
  simp only
  rw [traj_succ, oneIter_X, show (clsBall a q D S eps w av).xstep = xstep D S from rfl, h2']
  exact C40_twoblock_xstep hN q D S _ h1 _ _ _ _

/-- **C37.** `cnst_A0` and `cnst_A0T` of the convolutional two-block classes, which work on half spectra,
are adjoint, and `cnst_A0` is the reconstruction. -/
theorem C37_convtwoblock_adjoint (hN : ∀ n, Nd n ≤ N n) (D : Dict c M Nd) (X : Coef K M N)
    (Y : Sig (Fin (c + 1)) K N) :
    (∀ i k p, part (cnstA0 a D X) i k p = recon D (part X) i k p) ∧
    ⟪cnstA0 a D X, Y⟫ = ⟪X, cnstA0T a D Y⟫ := by
  constructor
  · intro i k p
    rw [cnstA0_eq]
    unfold recon
    simp only [← rconv_pad hN]
    rfl
  · rw [cnstA0_eq, cnstA0T_eq, convOp_adj]

/-- The hypotheses are met: two samples of a filter of ones, a signal of constant value 2 and length 4. The
constant array 1 meets the constraint strictly, and the zero array does not meet it. -/
example : let D : Dict 0 (Fin 1) (fun _ : Fin 1 => 2) := fun _ _ _ => 1
    let S : Signal 0 (Fin 1) (fun _ : Fin 1 => 4) := fun _ _ _ => 2
    (∀ i k, residual D S (fun _ _ _ => 1) i k < 1) ∧ ¬ residual D S (fun _ _ _ => 0) 0 0 ≤ 1 := by
  intro D S
  constructor
  · intro i k
    unfold residual recon
    simp [D, S, filt, Grid, Fintype.card_pi]
  · unfold residual recon
    simp [D, S, filt, Grid, Fintype.card_pi]
    rw [show (4 : ℝ) = 2 ^ 2 by norm_num, Real.sqrt_sq two_pos.le]
    norm_num

end Sporco.Conv.TB
