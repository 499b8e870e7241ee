import Verif.Pgm.ConvRate

/-!
# Spectra, line search and step sizes of the convolutional PGM classes (C45, C46, C49)
-/

set_option autoImplicit false
set_option linter.unusedSectionVars false

namespace Sporco.PgmConv

open Finset ComplexConjugate Sporco.Prox
open Sporco.Conv
open Sporco.Pgm (ClsF VarsF St cauchyUpdate C49_cauchy_partial smooth_ls)
open scoped RealInnerProductSpace

variable {d c : ℕ} {N Nd : Fin d → ℕ} [∀ k, NeZero (N k)] {A B K M : Type*} [Fintype A] [Fintype B]
  [Fintype K] [Fintype M] {a : Fin d}

/-! ## Bounds on the convolution operator, frequency by frequency -/

/-- The real part of a plane wave. -/
noncomputable def wave (ξ : Grid N) (z : ℂ) (p : Grid N) : ℝ := (chi N ξ p * z).re

theorem wave_sum {ι : Type*} (s : Finset ι) (ξ : Grid N) (z : ι → ℂ) (p : Grid N) :
    ∑ i ∈ s, wave ξ (z i) p = wave ξ (∑ i ∈ s, z i) p := by
  unfold wave
  rw [← Complex.re_sum, mul_sum]

theorem rconv_wave (h : Grid N → ℝ) (ξ : Grid N) (z : ℂ) :
    rconv h (wave ξ z) = wave ξ (rf h ξ * z) := by
  funext p
  unfold rconv wave rf fft
  have e : chi N ξ p * ((∑ x, conj (chi N ξ x) * (h x : ℂ)) * z) =
      ∑ y, (h y : ℂ) * (chi N ξ (p - y) * z) := by
    rw [sum_mul, mul_sum]
    refine sum_congr rfl fun y _ => ?_
    rw [sub_eq_add_neg, chi_add, chi_neg]
    ring
  rw [e, Complex.re_sum]
  exact sum_congr rfl fun y _ => (Complex.re_ofReal_mul _ _).symm

theorem chi_norm (ξ p : Grid N) : ‖chi N ξ p‖ = 1 := by
  have h := chi_conj_mul ξ p
  have h2 : ‖conj (chi N ξ p) * chi N ξ p‖ = 1 := by rw [h, norm_one]
  rw [norm_mul, RCLike.norm_conj] at h2
  nlinarith [norm_nonneg (chi N ξ p)]

theorem wave_sq (ξ p : Grid N) (z : ℂ) : wave ξ z p ^ 2 + wave ξ (-Complex.I * z) p ^ 2 = ‖z‖ ^ 2 := by
  have e : (chi N ξ p * (-Complex.I * z)).re = (chi N ξ p * z).im := by
    have : chi N ξ p * (-Complex.I * z) = -Complex.I * (chi N ξ p * z) := by ring
    rw [this]
    simp [Complex.mul_re]
  unfold wave
  rw [e]
  have := Complex.sq_norm_sub_sq_re (chi N ξ p * z)
  rw [norm_mul, chi_norm, one_mul] at this
  linarith

theorem part_join' (f : A → B → Grid N → ℝ) : part (join f) = f := rfl

/-- The convolution operator on the plane waves of one frequency. -/
theorem conv_wave (D : Dict c M Nd) (hN : ∀ n, Nd n ≤ N n) (ξ : Grid N) (z : K → M → ℂ)
    (i : Fin (c + 1)) (k : K) (p : Grid N) :
    recon D (fun k m => wave (N := N) ξ (z k m)) i k p =
      wave ξ (∑ m, rf (padD N D i m) ξ * z k m) p := by
  unfold recon
  simp only [← rconv_pad hN]
  rw [← wave_sum]
  refine sum_congr rfl fun m _ => ?_
  exact congrFun (rconv_wave _ _ _) p

/-- Bounds for real arrays hold at each frequency. -/
theorem freq_bounds (hN : ∀ n, Nd n ≤ N n) (D : Dict c M Nd) (lo hi : ℝ)
    (h : ∀ X : K → M → Grid N → ℝ, lo * sumSq X ≤ reconSq D X ∧ reconSq D X ≤ hi * sumSq X)
    (ξ : Grid N) (z : K → M → ℂ) :
    lo * ∑ k, ∑ m, ‖z k m‖ ^ 2 ≤ ∑ i, ∑ k, ‖∑ m, rf (padD N D i m) ξ * z k m‖ ^ 2 ∧
    ∑ i, ∑ k, ‖∑ m, rf (padD N D i m) ξ * z k m‖ ^ 2 ≤ hi * ∑ k, ∑ m, ‖z k m‖ ^ 2 := by
  obtain ⟨a1, a2⟩ := h fun k m => wave ξ (z k m)
  obtain ⟨b1, b2⟩ := h fun k m => wave ξ (-Complex.I * z k m)
  have e1 : sumSq (fun k m => wave (N := N) ξ (z k m)) + sumSq (fun k m => wave ξ (-Complex.I * z k m)) =
      Fintype.card (Grid N) * ∑ k, ∑ m, ‖z k m‖ ^ 2 := by
    unfold sumSq
    simp only [← sum_add_distrib, wave_sq, sum_const, mul_sum, nsmul_eq_mul, card_univ]
  have e2 : reconSq D (fun k m => wave (N := N) ξ (z k m)) +
      reconSq D (fun k m => wave (N := N) ξ (-Complex.I * z k m)) =
      Fintype.card (Grid N) * ∑ i, ∑ k, ‖∑ m, rf (padD N D i m) ξ * z k m‖ ^ 2 := by
    unfold reconSq
    simp only [conv_wave D hN]
    have : ∀ i k, ∑ m, rf (padD N D i m) ξ * (-Complex.I * z k m) =
        -Complex.I * ∑ m, rf (padD N D i m) ξ * z k m := by
      intro i k
      rw [mul_sum]
      exact sum_congr rfl fun m _ => by ring
    simp only [this, ← sum_add_distrib, wave_sq, sum_const, nsmul_eq_mul, card_univ]
    rw [mul_sum]
    exact sum_congr rfl fun i _ => (mul_sum _ _ _).symm
  have hc : (0 : ℝ) < Fintype.card (Grid N) := by exact_mod_cast Fintype.card_pos
  constructor
  · refine le_of_mul_le_mul_left ?_ hc
    rw [← e2]
    calc _ = lo * (Fintype.card (Grid N) * ∑ k, ∑ m, ‖z k m‖ ^ 2) := by ring
      _ ≤ _ := by rw [← e1, mul_add]; exact add_le_add a1 b1
  · refine le_of_mul_le_mul_left ?_ hc
    rw [← e2]
    calc _ ≤ hi * (Fintype.card (Grid N) * ∑ k, ∑ m, ‖z k m‖ ^ 2) := by
          rw [← e1, mul_add]; exact add_le_add a2 b2
      _ = _ := by ring

theorem norm_opF (D : Dict c M Nd) (V : HS K M N a) :
    ‖opF D V‖ ^ 2 = ∑ ξ : Half N a, ∑ i, ∑ k, ‖∑ m, rf (padD N D i m) ξ.1 * V (k, m, ξ)‖ ^ 2 := by
  rw [norm_hs]
  have : ∀ i : Fin (c + 1), ∑ k, ∑ ξ, ‖opF D V (i, k, ξ)‖ ^ 2 = ∑ ξ, ∑ k, ‖opF D V (i, k, ξ)‖ ^ 2 :=
    fun i => sum_comm
  simp only [this]
  rw [sum_comm]
  rfl

theorem norm_hs' (V : HS K M N a) : ‖V‖ ^ 2 = ∑ ξ : Half N a, ∑ k, ∑ m, ‖V (k, m, ξ)‖ ^ 2 := by
  rw [norm_hs]
  have : ∀ k : K, ∑ m, ∑ ξ, ‖V (k, m, ξ)‖ ^ 2 = ∑ ξ, ∑ m, ‖V (k, m, ξ)‖ ^ 2 := fun k => sum_comm
  simp only [this]
  rw [sum_comm]

/-- The bounds of the convolution operator are bounds of the operator on half spectra. -/
theorem opF_bounds (hN : ∀ n, Nd n ≤ N n) (D : Dict c M Nd) (lo hi : ℝ)
    (h : ∀ X : K → M → Grid N → ℝ, lo * sumSq X ≤ reconSq D X ∧ reconSq D X ≤ hi * sumSq X)
    (V : HS K M N a) : lo * ‖V‖ ^ 2 ≤ ‖opF D V‖ ^ 2 ∧ ‖opF D V‖ ^ 2 ≤ hi * ‖V‖ ^ 2 := by
  rw [norm_opF, norm_hs', mul_sum, mul_sum]
  exact ⟨sum_le_sum fun ξ _ => (freq_bounds hN D lo hi h ξ.1 fun k m => V (k, m, ξ)).1,
    sum_le_sum fun ξ _ => (freq_bounds hN D lo hi h ξ.1 fun k m => V (k, m, ξ)).2⟩

/-- A sufficient condition for the hypothesis on L, to be read off the transform of the dictionary. -/
theorem lip_of_freq (hN : ∀ n, Nd n ≤ N n) (D : Dict c M Nd) (L : ℝ)
    (h : ∀ ξ : Grid N, ∑ i, ∑ m, ‖rf (padD N D i m) ξ‖ ^ 2 ≤ L) (X : K → M → Grid N → ℝ) :
    reconSq D X ≤ L * sumSq X := by
  have hc : (0 : ℝ) < Fintype.card (Grid N) := by exact_mod_cast Fintype.card_pos
  have pv : ∀ x : Grid N → ℝ, ∑ p, x p ^ 2 = (∑ ξ, ‖rf x ξ‖ ^ 2) / Fintype.card (Grid N) := by
    intro x
    have := parseval fun p => (x p : ℂ)
    simpa [Complex.norm_real, rf] using this
  have e1 : sumSq X = (∑ ξ, ∑ k, ∑ m, ‖rf (X k m) ξ‖ ^ 2) / Fintype.card (Grid N) := by
    unfold sumSq
    simp only [fun k m => pv (X k m), ← sum_div]
    congr 1
    have : ∀ k : K, ∑ m, ∑ ξ, ‖rf (X k m) ξ‖ ^ 2 = ∑ ξ, ∑ m, ‖rf (X k m) ξ‖ ^ 2 := fun k => sum_comm
    simp only [this]
    rw [sum_comm]
  have e2 : reconSq D X =
      (∑ ξ, ∑ i, ∑ k, ‖∑ m, rf (padD N D i m) ξ * rf (X k m) ξ‖ ^ 2) / Fintype.card (Grid N) := by
    unfold reconSq
    have er : ∀ i k, recon D X i k = fun p => ∑ m, rconv (padD N D i m) (X k m) p := by
      intro i k
      funext p
      unfold recon
      simp only [← rconv_pad hN]
      rfl
    simp only [er, fun i k => pv fun p => ∑ m, rconv (padD N D i m) (X k m) p, rf_sum, rf_rconv, ← sum_div]
    congr 1
    have : ∀ i : Fin (c + 1), ∑ k, ∑ ξ, ‖∑ m, rf (padD N D i m) ξ * rf (X k m) ξ‖ ^ 2 =
        ∑ ξ, ∑ k, ‖∑ m, rf (padD N D i m) ξ * rf (X k m) ξ‖ ^ 2 := fun i => sum_comm
    simp only [this]
    rw [sum_comm]
  rw [e1, e2, ← mul_div_assoc]
  refine div_le_div_of_nonneg_right ?_ hc.le
  rw [mul_sum]
  refine sum_le_sum fun ξ _ => ?_
  have cs : ∀ i k, ‖∑ m, rf (padD N D i m) ξ * rf (X k m) ξ‖ ^ 2 ≤
      (∑ m, ‖rf (padD N D i m) ξ‖ ^ 2) * ∑ m, ‖rf (X k m) ξ‖ ^ 2 := by
    intro i k
    have h1 : ‖∑ m, rf (padD N D i m) ξ * rf (X k m) ξ‖ ≤
        ∑ m, ‖rf (padD N D i m) ξ‖ * ‖rf (X k m) ξ‖ :=
      (norm_sum_le _ _).trans (le_of_eq (sum_congr rfl fun m _ => norm_mul _ _))
    exact (pow_le_pow_left₀ (norm_nonneg _) h1 2).trans (sum_mul_sq_le_sq_mul_sq _ _ _)
  calc ∑ i, ∑ k, ‖∑ m, rf (padD N D i m) ξ * rf (X k m) ξ‖ ^ 2
      ≤ ∑ i, ∑ k, (∑ m, ‖rf (padD N D i m) ξ‖ ^ 2) * ∑ m, ‖rf (X k m) ξ‖ ^ 2 :=
        sum_le_sum fun i _ => sum_le_sum fun k _ => cs i k
    _ = (∑ i, ∑ m, ‖rf (padD N D i m) ξ‖ ^ 2) * ∑ k, ∑ m, ‖rf (X k m) ξ‖ ^ 2 := by
        rw [sum_mul_sum]
    _ ≤ _ := mul_le_mul_of_nonneg_right (h ξ)
        (sum_nonneg fun k _ => sum_nonneg fun m _ => sq_nonneg _)

/-- The problem has a solution if `lmbda` and the weights are positive. -/
theorem exists_min_conv (hN : ∀ n, Nd n ≤ N n) (q : COpts) (D : Dict c M Nd) (S : Signal c K N)
    (lmbda : ℝ) (hl : 0 < lmbda) (w : K × M × Grid N → ℝ) (hw : ∀ i, 0 < w i) :
    ∃ Xs, IsMin (objConv D S lmbda w) (allowedConv q.nonNeg q.noBndry Nd) Xs := by
  obtain ⟨r, hr, hgrow⟩ := Admm.Bpdn.l1w_grow w hw lmbda hl
  obtain ⟨x, hx, hmin⟩ := Admm.ls_exists_min (convOp (padD N D)) (join S)
    (fun y : Coef K M N => lmbda * l1w w y.ofLp) (cset q Nd) (closed_cset q Nd)
    ⟨0, zero_cset q Nd⟩ (continuous_const.mul (Admm.Bpdn.continuous_l1w w)) r hr hgrow
  refine ⟨part x, hx, fun Z hZ => ?_⟩
  have := hmin (join Z) hZ
  rw [lsObj_conv hN, lsObj_conv hN] at this
  exact this

/-- The hypotheses of `C45_convbpdn` can be met for every dictionary, signal and start. -/
example (hN : ∀ n, Nd n ≤ N n) (q : COpts) (D : Dict c M Nd) (S : Signal c K N) (lmbda : ℝ)
    (hl : 0 < lmbda) (w : K × M × Grid N → ℝ) (hw : ∀ i, 0 < w i) (X0 : Coef K M N) :
    ∃ (s : St (VarsF (Coef K M N) (HS K M N a))) (Xs : K → M → Grid N → ℝ),
      Fresh (clsBPDN a q D S lmbda w) s ∧ s.v.X = X0 ∧ 0 < s.v.L ∧
      (∀ X : K → M → Grid N → ℝ, reconSq D X ≤ s.v.L * sumSq X) ∧
      IsMin (objConv D S lmbda w) (allowedConv q.nonNeg q.noBndry Nd) Xs := by
  obtain ⟨Xs, hXs⟩ := exists_min_conv hN q D S lmbda hl w hw
  have hnn : ∀ ξ : Grid N, 0 ≤ ∑ i, ∑ m, ‖rf (padD N D i m) ξ‖ ^ 2 := fun ξ =>
    sum_nonneg fun i _ => sum_nonneg fun m _ => sq_nonneg _
  refine ⟨⟨0, [], ⟨X0, fwd a X0, fwd a X0, 0, 0, 0, 1 + ∑ ξ : Grid N, ∑ i, ∑ m, ‖rf (padD N D i m) ξ‖ ^ 2, 1,
    0, 0, .none, .none, .none, 0, 0, 0, .none⟩⟩, Xs, ⟨rfl, rfl, rfl, rfl, rfl⟩, rfl, ?_, ?_, hXs⟩
  · exact lt_of_lt_of_le one_pos (le_add_of_nonneg_right (sum_nonneg fun ξ _ => hnn ξ))
  · refine lip_of_freq hN D _ fun ξ => ?_
    have := single_le_sum (f := fun ξ : Grid N => ∑ i, ∑ m, ‖rf (padD N D i m) ξ‖ ^ 2)
      (fun ξ _ => hnn ξ) (mem_univ ξ)
    simp only at this ⊢
    linarith

/-! ## C49 -/

/-- **C49 for `ConvBPDN` with the Cauchy policy.** If the squared singular values of the convolution
operator lie between `lo` and `hi`, the step parameter computed from any nonzero gradient (over half
spectra) does too, although its sums run over the half spectrum.  Missing: at a stationary point the
parameter is not a number (`C49_cauchy_zero_refuted`). -/
theorem C49_convbpdn_cauchy_partial (hN : ∀ n, Nd n ≤ N n) (q : COpts) (D : Dict c M Nd)
    (S : Signal c K N) (lmbda : ℝ) (w : K × M × Grid N → ℝ) (lo hi : ℝ)
    (h : ∀ X : K → M → Grid N → ℝ, lo * sumSq X ≤ reconSq D X ∧ reconSq D X ≤ hi * sumSq X)
    (Yf : HS K M N a) :
    let C := clsBPDN a q D S lmbda w
    C.gradF Yf ≠ 0 → ∃ L, cauchyUpdate C.hessF (C.gradF Yf) = some L ∧ lo ≤ L ∧ L ≤ hi := by
  intro C hg
  refine C49_cauchy_partial _ lo hi (fun v => ?_) _ hg
  have e : ⟪v, C.hessF v⟫ = ‖opF D v‖ ^ 2 := by
    change ⟪v, opFT D (opF D v)⟫ = _
    rw [← opF_adj, real_inner_self_eq_norm_sq]
  rw [e]
  exact opF_bounds hN D lo hi h v

/-- **C49 fails for `ConvBPDNMask`.** With one unit impulse as the dictionary and a mask that is 2
everywhere, `grad_f` is 4 times the identity, and the Cauchy policy yields 1. -/
theorem C49_mask_refuted (q : COpts) (lmbda : ℝ) (w : Fin 1 × Fin 1 × Grid N3 → ℝ) (x : One3) (hx : x ≠ 0) :
    let C := clsBPDNMask 0 q dOne (fun _ _ _ => 0) lmbda w (fun _ _ _ => 2)
    (∀ y : One3, C.gradF (C.rfftn y) = (4 : ℝ) • C.rfftn y) ∧
    cauchyUpdate C.hessF (C.gradF (C.rfftn x)) = some 1 := by
  intro C
  have hg : ∀ y : One3, C.gradF (fwd 0 y) = (4 : ℝ) • fwd 0 y := by
    intro y
    have := gradF_mask_fwd (a := 0) q dOne (fun _ _ _ => 0) lmbda w (fun _ _ _ => 2) y
    rw [padD_dOne, convOpT_imp, convOp_imp] at this
    refine Eq.trans this ?_
    rw [← fwd_smul]
    congr 1
    ext ⟨i, j, p⟩
    change 2 * (2 * (part y i j p - 0)) = 4 * part y i j p
    ring
  have hh : ∀ y : One3, C.hessF (fwd 0 y) = fwd 0 y := by
    intro y
    change conjDf dOne (opF dOne (fwd 0 y)) = _
    rw [opF_fwd, conjDf_fwd, padD_dOne, convOp_imp, convOpT_imp]
  refine ⟨hg, ?_⟩
  change cauchyUpdate C.hessF (C.gradF (fwd 0 x)) = some 1
  rw [hg, ← fwd_smul]
  have h0 : fwd (N := N3) 0 ((4 : ℝ) • x) ≠ 0 := by
    intro h
    have := congrArg (bwd 0) h
    have e0 : (0 : HS (Fin 1) (Fin 1) N3 0) = fwd 0 (0 : One3) := by
      have := fwd_smul (a := (0 : Fin 1)) (0 : ℝ) (0 : One3)
      rw [zero_smul, zero_smul] at this
      exact this.symm
    rw [e0, bwd_fwd, bwd_fwd] at this
    exact hx ((smul_eq_zero.1 this).resolve_left (by norm_num))
  unfold cauchyUpdate Pgm.npDiv
  rw [hh, if_neg (by rw [real_inner_self_eq_norm_sq]; positivity),
    div_self (by rw [real_inner_self_eq_norm_sq]; positivity)]

/-! ## C46 -/

section Search
variable {E Ef : Type*} [NormedAddCommGroup E] [InnerProductSpace ℝ E] [NormedAddCommGroup Ef]
  [InnerProductSpace ℝ Ef]

/-- A pass of the line search with parameter `L` from `y` that failed the test. -/
def RejectedF (C : ClsF E Ef) (L : ℝ) (y : Ef) : Prop :=
  ∃ x, Pgm.DFT.quadQ C L x y (C.gradF y) < C.obfnF x

/-- How the search ends. -/
def SearchEndF (C : ClsF E Ef) (mono : Bool) (Y : Ef) (gu L0 : ℝ) (n it : ℕ) (r : VarsF E Ef) : Prop :=
  ∃ j f Q, j < n ∧ r.iterBT = some (it + j + 1) ∧ r.F = some f ∧ r.Q = some Q ∧ f = C.obfnF r.Xf ∧
    r.Yf = Y ∧ Q = Pgm.DFT.quadQ C (L0 * gu ^ j) r.Xf Y (C.gradF Y) ∧
    (mono = false → r.X = C.proxG (L0 * gu ^ j) (C.irfftn (Y - (1 / (L0 * gu ^ j)) • C.gradF Y)) ∧
      r.Xf = C.rfftn r.X) ∧
    (∀ i < j, RejectedF C (L0 * gu ^ i) Y) ∧
    ((f ≤ Q ∧ r.L = L0 * gu ^ j) ∨ (Q < f ∧ j + 1 = n ∧ r.L = L0 * gu ^ n))

theorem xstepG_fieldsF (C : ClsF E Ef) (o : Pgm.Opts) (hp : o.stepPolicy = .none) (k : ℕ) (g : Ef)
    (v : VarsF E Ef) :
    let r := Pgm.DFT.xstepG C o k g v
    r.L = v.L ∧ r.Yf = v.Yf ∧
      (o.monotone = false → r.X = C.proxG v.L (C.irfftn (v.Yf - (1 / v.L) • g)) ∧ r.Xf = C.rfftn r.X) := by
  simp only [Pgm.DFT.xstepG, Pgm.DFT.stepL, Pgm.DFT.storeBB, hp, Pgm.DFT.safeguard]
  refine ⟨?_, ?_, ?_⟩
  · split_ifs <;> rfl
  · split_ifs <;> rfl
  · intro hm
    simp [hm]

theorem btLoop_endF (C : ClsF E Ef) (o : Pgm.Opts) (hp : o.stepPolicy = .none) (k : ℕ) (gu : ℝ) :
    ∀ (n it : ℕ) (v : VarsF E Ef), 1 ≤ n →
      SearchEndF C o.monotone v.Yf gu v.L n it (Pgm.DFT.btLoop C o k gu (C.gradF v.Yf) n it v) := by
  intro n
  induction n with
  | zero => intro it v h; omega
  | succ n ih =>
    intro it v _
    obtain ⟨h1, h2, h3⟩ := xstepG_fieldsF C o hp k (C.gradF v.Yf) v
    unfold Pgm.DFT.btLoop
    simp only
    set w := Pgm.DFT.xstepG C o k (C.gradF v.Yf) v with hw
    by_cases hacc : C.obfnF w.Xf ≤ Pgm.DFT.quadQ C w.L w.Xf w.Yf (C.gradF v.Yf)
    · rw [if_pos hacc]
      refine ⟨0, _, _, by omega, rfl, rfl, rfl, rfl, h2, ?_, ?_, by simp, Or.inl ⟨hacc, ?_⟩⟩
      · simp only [h1, h2, pow_zero, mul_one]
      · intro hm
        have := h3 hm
        simpa only [pow_zero, mul_one] using this
      · simp only [h1, pow_zero, mul_one]
    · rw [if_neg hacc]
      rcases Nat.eq_zero_or_pos n with h0 | h0
      · subst h0
        unfold Pgm.DFT.btLoop
        refine ⟨0, _, _, by omega, rfl, rfl, rfl, rfl, h2, ?_, ?_, by simp, Or.inr ⟨not_le.1 hacc, rfl, ?_⟩⟩
        · simp only [h1, h2, pow_zero, mul_one]
        · intro hm
          have := h3 hm
          simpa only [pow_zero, mul_one] using this
        · simp only [h1, zero_add, pow_one]
      · have := ih (it + 1) { w with
          F := some (C.obfnF w.Xf), Q := some (Pgm.DFT.quadQ C w.L w.Xf w.Yf (C.gradF v.Yf)),
          iterBT := some (it + 1), L := w.L * gu } h0
        simp only [h1, h2] at this
        rw [h1, h2]
        obtain ⟨j, f, Q, a1, a2, a3, a4, a5, a6, a7, a8, a9, a10⟩ := this
        have e : ∀ i, v.L * gu * gu ^ i = v.L * gu ^ (i + 1) := fun i => by ring
        simp only [e] at a7 a8 a9 a10
        refine ⟨j + 1, f, Q, by omega, ?_, a3, a4, a5, a6, a7, a8, ?_, ?_⟩
        · rw [a2]; congr 1; omega
        · intro i hi
          cases i with
          | zero =>
            rw [pow_zero, mul_one]
            rw [h1, h2] at hacc
            exact ⟨w.Xf, not_le.1 hacc⟩
          | succ i => exact a9 i (by omega)
        · rcases a10 with ⟨c1, c2⟩ | ⟨c1, c2, c3⟩
          · exact Or.inl ⟨c1, c2⟩
          · exact Or.inr ⟨c1, by omega, c3⟩

theorem ystep_fieldsF (o : Pgm.Opts) (k : ℕ) (v : VarsF E Ef) :
    let r := Pgm.DFT.ystep o k v
    r.X = v.X ∧ r.Xf = v.Xf ∧ r.L = v.L ∧ r.F = v.F ∧ r.Q = v.Q ∧ r.iterBT = v.iterBT := by
  simp only [Pgm.DFT.ystep]
  split_ifs <;> simp

/-- **C46, standard backtracking in the DFT domain.** As `C46_standard`, for the functions of the half
spectrum.  Missing: the test is not made with the data fidelity term of the problem but with
unweighted sums over the half spectrum, see `C46_dft_refuted`. -/
theorem C46_dft_partial (C : ClsF E Ef) (o : Pgm.Opts) (gu : ℝ) (n : ℕ) (hb : o.backtrack = .standard gu n)
    (hn : 1 ≤ n) (k : ℕ) (v : VarsF E Ef) :
    let v' := Pgm.DFT.mainStep C o k v
    ∃ j < n, ∃ f Q, v'.iterBT = some (j + 1) ∧ v'.F = some f ∧ v'.Q = some Q ∧
      f = C.obfnF v'.Xf ∧
      Q = C.obfnF v.Yf + ⟪v'.Xf - v.Yf, C.gradF v.Yf⟫ + v.L * gu ^ j / 2 * ‖v'.Xf - v.Yf‖ ^ 2 ∧
      ((f ≤ Q ∧ v'.L = v.L * gu ^ j) ∨ (Q < f ∧ j + 1 = n ∧ v'.L = v.L * gu ^ n)) ∧
      (o.monotone = false → v'.X = C.proxG (v.L * gu ^ j)
        (C.irfftn (v.Yf - (1 / (v.L * gu ^ j)) • C.gradF v.Yf)) ∧ v'.Xf = C.rfftn v'.X) := by
  have hp : o.stepPolicy = .none := by unfold Pgm.Opts.stepPolicy; rw [hb]
  simp only
  unfold Pgm.DFT.mainStep
  rw [hb]
  simp only
  obtain ⟨j, f, Q, a1, a2, a3, a4, a5, a6, a7, a8, a9, a10⟩ := btLoop_endF C o hp k gu n 0 v hn
  obtain ⟨b1, b2, b3, b4, b5, b6⟩ := ystep_fieldsF o k (Pgm.DFT.btLoop C o k gu (C.gradF v.Yf) n 0 v)
  rw [zero_add] at a2
  refine ⟨j, a1, f, Q, b6.trans a2, b4.trans a3, b5.trans a4, by rw [b2, a5], ?_, ?_, ?_⟩
  · rw [a7, b2]; rfl
  · rw [b3]; exact a10
  · intro hm; rw [b1, b2]; exact a8 hm

/-- **C46, smooth `f`, in the DFT domain.** -/
theorem C46_dft_smooth_partial (C : ClsF E Ef) (o : Pgm.Opts) (gu : ℝ) (n : ℕ)
    (hb : o.backtrack = .standard gu n) (hgu : 1 ≤ gu) (k : ℕ) (v : VarsF E Ef) (hL : 0 < v.L) (Lf : ℝ)
    (hf : ∀ x y, C.obfnF x ≤ C.obfnF y + ⟪C.gradF y, x - y⟫ + Lf / 2 * ‖x - y‖ ^ 2)
    (m : ℕ) (hm : Lf ≤ v.L * gu ^ m) (hmn : m < n) :
    let v' := Pgm.DFT.mainStep C o k v
    v'.L ≤ max v.L (gu * Lf) ∧ ∃ j ≤ m, v'.iterBT = some (j + 1) ∧ v'.L = v.L * gu ^ j ∧
      C.obfnF v'.Xf ≤ C.obfnF v.Yf + ⟪v'.Xf - v.Yf, C.gradF v.Yf⟫ + v'.L / 2 * ‖v'.Xf - v.Yf‖ ^ 2 := by
  have hp : o.stepPolicy = .none := by unfold Pgm.Opts.stepPolicy; rw [hb]
  simp only
  unfold Pgm.DFT.mainStep
  rw [hb]
  simp only
  obtain ⟨j, f, Q, a1, a2, a3, a4, a5, a6, a7, a8, a9, a10⟩ := btLoop_endF C o hp k gu n 0 v (by omega)
  obtain ⟨b1, b2, b3, b4, b5, b6⟩ := ystep_fieldsF o k (Pgm.DFT.btLoop C o k gu (C.gradF v.Yf) n 0 v)
  rw [zero_add] at a2
  have nr : ∀ L, Lf ≤ L → ∀ x y, C.obfnF x ≤ Pgm.DFT.quadQ C L x y (C.gradF y) := by
    intro L hL x y
    have h := hf x y
    rw [real_inner_comm] at h
    have := mul_le_mul_of_nonneg_right hL (sq_nonneg ‖x - y‖)
    unfold Pgm.DFT.quadQ
    linarith
  have hpow : ∀ a b, a ≤ b → v.L * gu ^ a ≤ v.L * gu ^ b := fun a b hab =>
    mul_le_mul_of_nonneg_left (pow_le_pow_right₀ hgu hab) hL.le
  have hrej : ∀ i < j, v.L * gu ^ i < Lf := by
    intro i hi
    by_contra hc
    obtain ⟨x, hx⟩ := a9 i hi
    exact absurd (nr _ (not_lt.1 hc) x v.Yf) (not_le.2 hx)
  have hjm : j ≤ m := by
    by_contra hc
    exact absurd hm (not_le.2 (hrej m (by omega)))
  rcases a10 with ⟨c1, c2⟩ | ⟨c1, c2, c3⟩
  · refine ⟨?_, j, hjm, b6.trans a2, b3.trans c2, ?_⟩
    · rw [b3, c2]
      cases j with
      | zero => rw [pow_zero, mul_one]; exact le_max_left _ _
      | succ j =>
        refine le_trans ?_ (le_max_right _ _)
        have := mul_le_mul_of_nonneg_left (hrej j (by omega)).le (by linarith : 0 ≤ gu)
        rw [pow_succ]; linarith
    · rw [b2, b3, c2, ← a5]
      rw [a7] at c1
      exact c1
  · exfalso
    have := nr _ (hm.trans (hpow m j (by omega))) (Pgm.DFT.btLoop C o k gu (C.gradF v.Yf) n 0 v).Xf v.Yf
    rw [← a5, ← a7] at this
    exact absurd this (not_le.2 c1)

theorem xstepG_keepsF (C : ClsF E Ef) (o : Pgm.Opts) (k : ℕ) (g : Ef) (v : VarsF E Ef) :
    let r := Pgm.DFT.xstepG C o k g v
    r.Tk = v.Tk ∧ r.Xfprv = v.Xfprv := by
  have hs : ∀ w : VarsF E Ef, (Pgm.DFT.safeguard C o k w).Tk = w.Tk ∧ (Pgm.DFT.safeguard C o k w).Xfprv = w.Xfprv := by
    intro w
    unfold Pgm.DFT.safeguard
    simp only
    split_ifs <;> exact ⟨rfl, rfl⟩
  unfold Pgm.DFT.xstepG Pgm.DFT.storeBB
  cases o.stepPolicy <;> exact hs _

/-- How the robust search ends: as `SearchEndF`, but the point `Y` depends on the parameter. -/
def SearchEndR (C : ClsF E Ef) (mono : Bool) (Y : ℝ → Ef) (gu L0 : ℝ) (n it : ℕ) (r : VarsF E Ef) : Prop :=
  ∃ j f Q, j < n ∧ r.iterBT = some (it + j + 1) ∧ r.F = some f ∧ r.Q = some Q ∧ f = C.obfnF r.Xf ∧
    r.Yf = Y (L0 * gu ^ j) ∧ Q = Pgm.DFT.quadQ C (L0 * gu ^ j) r.Xf r.Yf (C.gradF r.Yf) ∧
    (mono = false → r.X = C.proxG (L0 * gu ^ j) (C.irfftn (r.Yf - (1 / (L0 * gu ^ j)) • C.gradF r.Yf)) ∧
      r.Xf = C.rfftn r.X) ∧
    (∀ i < j, RejectedF C (L0 * gu ^ i) (Y (L0 * gu ^ i))) ∧
    ((f ≤ Q ∧ r.L = L0 * gu ^ j) ∨ (Q < f ∧ j + 1 = n ∧ r.L = L0 * gu ^ n))

theorem rbLoop_endF (C : ClsF E Ef) (o : Pgm.Opts) (hp : o.stepPolicy = .none) (k : ℕ) (gu : ℝ) (Z : Ef) :
    ∀ (n it : ℕ) (t0 : ℝ) (v : VarsF E Ef), 1 ≤ n →
      let r := Pgm.DFT.rbLoop C o k gu Z n it (t0, v)
      SearchEndR C o.monotone (fun L => Pgm.robustY L v.Tk v.Xfprv Z) gu v.L n it r.2 ∧
        (∀ f Q, r.2.F = some f → r.2.Q = some Q → f ≤ Q → r.1 = Pgm.robustT r.2.L v.Tk) ∧
        r.2.Tk = v.Tk ∧ r.2.Xfprv = v.Xfprv := by
  intro n
  induction n with
  | zero => intro it t0 v h; omega
  | succ n ih =>
    intro it t0 v _
    simp only
    unfold Pgm.DFT.rbLoop
    simp only
    generalize hv1 : ({ v with Yf := (1 / (v.Tk + Pgm.robustT v.L v.Tk)) •
      (v.Tk • v.Xfprv + Pgm.robustT v.L v.Tk • Z) } : VarsF E Ef) = v1
    have hY : (1 / (v.Tk + Pgm.robustT v.L v.Tk)) • (v.Tk • v.Xfprv + Pgm.robustT v.L v.Tk • Z) = v1.Yf := by
      rw [← hv1]
    have hY' : v1.Yf = Pgm.robustY v.L v.Tk v.Xfprv Z := hY.symm
    have hL1 : v1.L = v.L := by rw [← hv1]
    have hT1 : v1.Tk = v.Tk := by rw [← hv1]
    have hX1 : v1.Xfprv = v.Xfprv := by rw [← hv1]
    simp only [hY]
    obtain ⟨h1, h2, h3⟩ := xstepG_fieldsF C o hp k (C.gradF v1.Yf) v1
    obtain ⟨h4, h5⟩ := xstepG_keepsF C o k (C.gradF v1.Yf) v1
    generalize Pgm.DFT.xstepG C o k (C.gradF v1.Yf) v1 = w at *
    rw [hL1] at h1
    rw [hT1] at h4
    rw [hX1] at h5
    by_cases hacc : C.obfnF w.Xf ≤ Pgm.DFT.quadQ C w.L w.Xf w.Yf (C.gradF v1.Yf)
    · simp only [if_pos hacc]
      refine ⟨⟨0, _, _, by omega, rfl, rfl, rfl, rfl, ?_, ?_, ?_, by simp, Or.inl ⟨hacc, ?_⟩⟩, ?_, h4, h5⟩
      · simp only [h2, hY', pow_zero, mul_one]
      · simp only [h1, h2, pow_zero, mul_one]
      · intro hm
        have := h3 hm
        simpa only [hL1, h2, pow_zero, mul_one] using this
      · simp only [h1, pow_zero, mul_one]
      · intro f Q _ _ _
        simp only [h1]
    · simp only [if_neg hacc]
      rcases Nat.eq_zero_or_pos n with h0 | h0
      · subst h0
        unfold Pgm.DFT.rbLoop
        refine ⟨⟨0, _, _, by omega, rfl, rfl, rfl, rfl, ?_, ?_, ?_, by simp, Or.inr ⟨not_le.1 hacc, rfl, ?_⟩⟩, ?_,
          h4, h5⟩
        · simp only [h2, hY', pow_zero, mul_one]
        · simp only [h1, h2, pow_zero, mul_one]
        · intro hm
          have := h3 hm
          simpa only [hL1, h2, pow_zero, mul_one] using this
        · simp only [h1, zero_add, pow_one]
        · intro f Q hf hQ hle
          simp only [Option.some.injEq] at hf hQ
          exact absurd hle (by rw [← hf, ← hQ]; exact hacc)
      · obtain ⟨⟨j, f, Q, a1, a2, a3, a4, a5, a6, a7, a8, a9, a10⟩, b2, b3, b4⟩ :=
          ih (it + 1) (Pgm.robustT v.L v.Tk) { w with
            F := some (C.obfnF w.Xf), Q := some (Pgm.DFT.quadQ C w.L w.Xf w.Yf (C.gradF v1.Yf)),
            iterBT := some (it + 1), L := w.L * gu } h0
        have e : ∀ i, v.L * gu * gu ^ i = v.L * gu ^ (i + 1) := fun i => by ring
        generalize Pgm.DFT.rbLoop C o k gu Z n (it + 1) (Pgm.robustT v.L v.Tk, _) = r at *
        simp only [h1, h4, h5, e] at a6 a7 a8 a9 a10
        refine ⟨⟨j + 1, f, Q, by omega, ?_, a3, a4, a5, a6, a7, a8, ?_, ?_⟩, ?_, b3.trans h4, b4.trans h5⟩
        · rw [a2]; congr 1; omega
        · intro i hi
          cases i with
          | zero =>
            rw [pow_zero, mul_one]
            rw [h1, h2, hY'] at hacc
            exact ⟨w.Xf, not_le.1 hacc⟩
          | succ i => exact a9 i (by omega)
        · rcases a10 with ⟨c1, c2⟩ | ⟨c1, c2, c3⟩
          · exact Or.inl ⟨c1, c2⟩
          · exact Or.inr ⟨c1, by omega, c3⟩
        · intro f Q hf hQ hle
          exact (b2 f Q hf hQ hle).trans (by rw [h4])

/-- **C46, robust backtracking in the DFT domain.** As `C46_robust`, for the functions of the half spectrum.
Missing: as in `C46_dft_partial`. -/
theorem C46_dft_robust_partial (C : ClsF E Ef) (o : Pgm.Opts) (gd gu : ℝ) (n : ℕ)
    (hb : o.backtrack = .robust gd gu n) (hn : 1 ≤ n) (k : ℕ) (v : VarsF E Ef) :
    let v' := Pgm.DFT.mainStep C o k v
    ∃ j < n, ∃ f Q, v'.iterBT = some (j + 1) ∧ v'.F = some f ∧ v'.Q = some Q ∧
      f = C.obfnF v'.Xf ∧
      Q = C.obfnF v'.Yf + ⟪v'.Xf - v'.Yf, C.gradF v'.Yf⟫ + v.L * gd * gu ^ j / 2 * ‖v'.Xf - v'.Yf‖ ^ 2 ∧
      ((f ≤ Q ∧ v'.L = v.L * gd * gu ^ j) ∨ (Q < f ∧ j + 1 = n ∧ v'.L = v.L * gd * gu ^ n)) ∧
      (o.monotone = false → v'.X = C.proxG (v.L * gd * gu ^ j)
        (C.irfftn (v'.Yf - (1 / (v.L * gd * gu ^ j)) • C.gradF v'.Yf)) ∧ v'.Xf = C.rfftn v'.X) := by
  have hp : o.stepPolicy = .none := by unfold Pgm.Opts.stepPolicy; rw [hb]
  simp only
  unfold Pgm.DFT.mainStep
  rw [hb]
  simp only [Pgm.DFT.btRobust]
  obtain ⟨⟨j, f, Q, a1, a2, a3, a4, a5, a6, a7, a8, a9, a10⟩, -⟩ :=
    rbLoop_endF C o hp k gu (v.Zrb.getD v.Xf) n 0 0 { v with L := v.L * gd } hn
  rw [zero_add] at a2
  exact ⟨j, a1, f, Q, a2, a3, a4, a5, a7, a10, a8⟩

/-- **C46, smooth `f`, robust backtracking in the DFT domain.** -/
theorem C46_dft_robust_smooth_partial (C : ClsF E Ef) (o : Pgm.Opts) (gd gu : ℝ) (n : ℕ)
    (hb : o.backtrack = .robust gd gu n) (hgd : 0 < gd) (hgd1 : gd ≤ 1) (hgu : 1 ≤ gu) (k : ℕ)
    (v : VarsF E Ef) (hL : 0 < v.L) (Lf : ℝ)
    (hf : ∀ x y, C.obfnF x ≤ C.obfnF y + ⟪C.gradF y, x - y⟫ + Lf / 2 * ‖x - y‖ ^ 2)
    (m : ℕ) (hm : Lf ≤ v.L * gd * gu ^ m) (hmn : m < n) :
    let v' := Pgm.DFT.mainStep C o k v
    v'.L ≤ max v.L (gu * Lf) ∧ ∃ j ≤ m, v'.iterBT = some (j + 1) ∧ v'.L = v.L * gd * gu ^ j ∧
      C.obfnF v'.Xf ≤ C.obfnF v'.Yf + ⟪v'.Xf - v'.Yf, C.gradF v'.Yf⟫ + v'.L / 2 * ‖v'.Xf - v'.Yf‖ ^ 2 := by
  have hp : o.stepPolicy = .none := by unfold Pgm.Opts.stepPolicy; rw [hb]
  simp only
  unfold Pgm.DFT.mainStep
  rw [hb]
  simp only [Pgm.DFT.btRobust]
  obtain ⟨⟨j, f, Q, a1, a2, a3, a4, a5, a6, a7, a8, a9, a10⟩, -⟩ :=
    rbLoop_endF C o hp k gu (v.Zrb.getD v.Xf) n 0 0 { v with L := v.L * gd } (by omega)
  rw [zero_add] at a2
  simp only at a6 a7 a8 a9 a10
  have nr : ∀ L, Lf ≤ L → ∀ x y, C.obfnF x ≤ Pgm.DFT.quadQ C L x y (C.gradF y) := by
    intro L hL x y
    have h := hf x y
    rw [real_inner_comm] at h
    have := mul_le_mul_of_nonneg_right hL (sq_nonneg ‖x - y‖)
    unfold Pgm.DFT.quadQ
    linarith
  have hLg : 0 < v.L * gd := mul_pos hL hgd
  have hpow : ∀ a b, a ≤ b → v.L * gd * gu ^ a ≤ v.L * gd * gu ^ b := fun a b hab =>
    mul_le_mul_of_nonneg_left (pow_le_pow_right₀ hgu hab) hLg.le
  have hrej : ∀ i < j, v.L * gd * gu ^ i < Lf := by
    intro i hi
    by_contra hc
    obtain ⟨x, hx⟩ := a9 i hi
    exact absurd (nr _ (not_lt.1 hc) x _) (not_le.2 hx)
  have hjm : j ≤ m := by
    by_contra hc
    exact absurd hm (not_le.2 (hrej m (by omega)))
  rcases a10 with ⟨c1, c2⟩ | ⟨c1, c2, c3⟩
  · refine ⟨?_, j, hjm, a2, c2, ?_⟩
    · rw [c2]
      cases j with
      | zero =>
        rw [pow_zero, mul_one]
        exact le_trans (mul_le_of_le_one_right hL.le hgd1) (le_max_left _ _)
      | succ j =>
        refine le_trans ?_ (le_max_right _ _)
        have := mul_le_mul_of_nonneg_left (hrej j (by omega)).le (by linarith : 0 ≤ gu)
        rw [pow_succ]; linarith
    · rw [c2, ← a5]
      rw [a7] at c1
      exact c1
  · exfalso
    have := nr _ (hm.trans (hpow m j (by omega)))
      (Pgm.DFT.rbLoop C o k gu (v.Zrb.getD v.Xf) n 0 (0, { v with L := v.L * gd })).2.Xf
      (Pgm.DFT.rbLoop C o k gu (v.Zrb.getD v.Xf) n 0 (0, { v with L := v.L * gd })).2.Yf
    rw [← a5, ← a7] at this
    exact absurd this (not_le.2 c1)

end Search

/-- **C46 for `ConvBPDN`**: with `Lf` a bound of the squared singular values of the convolution
operator, the search stops as soon as L reaches `Lf`, and L never exceeds `max(L, gamma_u Lf)`. -/
theorem C46_convbpdn_partial (hN : ∀ n, Nd n ≤ N n) (q : COpts) (D : Dict c M Nd)
    (S : Signal c K N) (lmbda : ℝ) (w : K × M × Grid N → ℝ) (o : Pgm.Opts) (gu : ℝ) (n : ℕ)
    (hb : o.backtrack = .standard gu n) (hgu : 1 ≤ gu) (k : ℕ)
    (v : VarsF (Coef K M N) (HS K M N a)) (hL : 0 < v.L) (Lf : ℝ)
    (h : ∀ X : K → M → Grid N → ℝ, reconSq D X ≤ Lf * sumSq X)
    (m : ℕ) (hm : Lf ≤ v.L * gu ^ m) (hmn : m < n) :
    let v' := Pgm.DFT.mainStep (clsBPDN a q D S lmbda w) o k v
    v'.L ≤ max v.L (gu * Lf) ∧ ∃ j ≤ m, v'.iterBT = some (j + 1) ∧ v'.L = v.L * gu ^ j := by
  have hr0 : ∀ X : K → M → Grid N → ℝ, (0 : ℝ) * sumSq X ≤ reconSq D X := by
    intro X
    rw [zero_mul]
    exact sum_nonneg fun i _ => sum_nonneg fun k _ => sum_nonneg fun p _ => sq_nonneg _
  have hs := smooth_ls (opF (K := K) (a := a) D) (fwd a (join S)) (fun y => opFT D y)
    (fun x y => opF_adj D x y) Lf fun x => (opF_bounds hN D 0 Lf (fun X => ⟨hr0 X, h X⟩) x).2
  obtain ⟨h1, j, h2, h3, h4, -⟩ := C46_dft_smooth_partial (clsBPDN a q D S lmbda w) o gu n hb hgu k v hL Lf
    (fun x y => hs.upper x y) m hm hmn
  exact ⟨h1, j, h2, h3, h4⟩

/-- **C46 for `ConvBPDN` with robust backtracking.** -/
theorem C46_convbpdn_robust_partial (hN : ∀ n, Nd n ≤ N n) (q : COpts) (D : Dict c M Nd)
    (S : Signal c K N) (lmbda : ℝ) (w : K × M × Grid N → ℝ) (o : Pgm.Opts) (gd gu : ℝ) (n : ℕ)
    (hb : o.backtrack = .robust gd gu n) (hgd : 0 < gd) (hgd1 : gd ≤ 1) (hgu : 1 ≤ gu) (k : ℕ)
    (v : VarsF (Coef K M N) (HS K M N a)) (hL : 0 < v.L) (Lf : ℝ)
    (h : ∀ X : K → M → Grid N → ℝ, reconSq D X ≤ Lf * sumSq X)
    (m : ℕ) (hm : Lf ≤ v.L * gd * gu ^ m) (hmn : m < n) :
    let v' := Pgm.DFT.mainStep (clsBPDN a q D S lmbda w) o k v
    v'.L ≤ max v.L (gu * Lf) ∧ ∃ j ≤ m, v'.iterBT = some (j + 1) ∧ v'.L = v.L * gd * gu ^ j := by
  have hr0 : ∀ X : K → M → Grid N → ℝ, (0 : ℝ) * sumSq X ≤ reconSq D X := by
    intro X
    rw [zero_mul]
    exact sum_nonneg fun i _ => sum_nonneg fun k _ => sum_nonneg fun p _ => sq_nonneg _
  have hs := smooth_ls (opF (K := K) (a := a) D) (fwd a (join S)) (fun y => opFT D y)
    (fun x y => opF_adj D x y) Lf fun x => (opF_bounds hN D 0 Lf (fun X => ⟨hr0 X, h X⟩) x).2
  obtain ⟨h1, j, h2, h3, h4, -⟩ := C46_dft_robust_smooth_partial (clsBPDN a q D S lmbda w) o gd gu n hb hgd hgd1
    hgu k v hL Lf (fun x y => hs.upper x y) m hm hmn
  exact ⟨h1, j, h2, h3, h4⟩

end Sporco.PgmConv
