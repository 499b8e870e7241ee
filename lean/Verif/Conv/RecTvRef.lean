import Verif.Conv.RecTvThm

/-!
# `ConvBPDNRecTV`: where the documentation is not met (C22, C61, C67)
-/

set_option autoImplicit false
set_option linter.unusedSectionVars false

namespace Sporco.Conv.RTV

open Finset ComplexConjugate Sporco.Linalg Sporco.Prox Sporco.Admm Filter Topology Sporco.Conv Sporco.Conv.TB
  Sporco.Conv.Grd Sporco.Conv.TVC
open scoped RealInnerProductSpace

variable {d c : ℕ} {N Nd : Fin d → ℕ} [∀ k, NeZero (N k)] {a : Fin d} {K M J : Type*} [Fintype K]
  [Fintype M] [Fintype J] [DecidableEq J]

/-! ## The adjoint -/

/-- **C61.** For `ConvBPDNScalarTV` and `ConvBPDNVectorTV` the operator used as the transpose of the constraint
operator is its adjoint. -/
theorem C61_convtv (wt : M → ℝ) (x : Coef K M N) (y : YT K M N) :
    ⟪TVC.cnstA a wt x, y⟫ = ⟪x, TVC.cnstAT a wt y⟫ := by
  rw [TVC.cnstAT_eq, WithLp.prod_inner_apply]
  change ⟪TVC.cnstA0 a wt x, y.fst⟫ + ⟪x, y.snd⟫ = ⟪x, y.snd + gradWT wt y.fst⟫
  rw [TVC.cnstA0_eq, gradW_adj, inner_add_right, add_comm]

/-- **C61.** For `ConvBPDNRecTV` this holds if the dictionary has one channel. -/
theorem C61_convrectv_partial (wt : M → ℝ) (D : Dict 0 M Nd) (x : Coef K M N) (y : YR 0 K M N) :
    ⟪cnstA a wt D x, y⟫ = ∑ k, ∑ m, ∑ p, part x k m p * part (cnstAT a wt D y) (0, k) m p := by
  rw [WithLp.prod_inner_apply]
  change ⟪cnstA1 a wt D x, y.fst⟫ + ⟪x, y.snd⟫ = _
  rw [cnstA1_eq, gOp_adj, ← inner_add_right, inner_part]
  refine sum_congr rfl fun k _ => sum_congr rfl fun m _ => sum_congr rfl fun p _ => ?_
  congr 1
  rw [cnstAT_part]
  change part (gOpT wt D y.fst) k m p + part y.snd k m p = _
  unfold gOpT
  rw [part_convOpT]
  simp only
  rw [Fintype.sum_prod_type, add_comm]
  congr 1
  exact sum_congr rfl fun i _ => sum_chn _

/-- **With a multi-channel dictionary `cnst_AT` is not the adjoint.** The result has a channel axis, and the norm
of the dual residual is wrong: for a change of the coefficient block it is too large by the square root of the
number of channels, whatever the dictionary. -/
theorem C61_convrectv_refuted (hc : c ≠ 0) (wt : M → ℝ) (D : Dict c M Nd) (AT : YR c K M N → Coef K M N)
    (hA : ∀ x y, ⟪cnstA a wt D x, y⟫ = ⟪x, AT y⟫) (y : Coef K M N) (hy : y ≠ 0) :
    let Y : YR c K M N := WithLp.toLp 2 (0, y)
    ‖cnstAT a wt D Y‖ = Real.sqrt (c + 1) * ‖AT Y‖ ∧ ‖cnstAT a wt D Y‖ ≠ ‖AT Y‖ := by
  intro Y
  have e1 : AT Y = y := by
    refine ext_inner_left ℝ fun x => ?_
    rw [← hA, WithLp.prod_inner_apply]
    change ⟪_, (0 : GR c K N)⟫ + ⟪x, y⟫ = _
    rw [inner_zero_right, zero_add]
  have e2 : ∀ ch k m p, part (cnstAT a wt D Y) (ch, k) m p = part y k m p := by
    intro ch k m p
    rw [cnstAT_part]
    have h : ∀ i, rcorr (gF N wt D (i, ch) m) (part Y.fst (i, ch) k) p = 0 := fun i =>
      sum_eq_zero fun y _ => mul_zero _
    simp only [h, sum_const_zero]
    exact add_zero _
  have e3 : ‖cnstAT a wt D Y‖ = Real.sqrt (c + 1) * ‖y‖ := by
    have h : ‖cnstAT a wt D Y‖ ^ 2 = (Real.sqrt (c + 1) * ‖y‖) ^ 2 := by
      rw [mul_pow, Real.sq_sqrt (by positivity), norm_part, norm_part, Fintype.sum_prod_type]
      simp only [e2, sum_const, card_univ, Fintype.card_fin, nsmul_eq_mul]
      push_cast
      rfl
    exact (pow_left_inj₀ (norm_nonneg _) (by positivity) two_ne_zero).1 h
  rw [e1]
  refine ⟨e3, ?_⟩
  rw [e3]
  intro h
  have hp : 0 < ‖y‖ := norm_pos_iff.2 hy
  have h1 : Real.sqrt (c + 1) = 1 := by
    have := mul_right_cancel₀ hp.ne' (h.trans (one_mul _).symm)
    exact this
  have h2 : (c : ℝ) + 1 = 1 := by
    have := Real.sq_sqrt (show (0 : ℝ) ≤ c + 1 by positivity)
    rw [h1] at this
    linarith
  exact hc (by exact_mod_cast (by linarith : (c : ℝ) = 0))

/-- An adjoint as in the hypothesis exists. -/
example (wt : M → ℝ) (D : Dict c M Nd) : ∃ AT : YR c K M N → Coef K M N,
    ∀ x y, ⟪cnstA a wt D x, y⟫ = ⟪x, AT y⟫ := by
  refine ⟨foldR wt D, fun x y => ?_⟩
  rw [WithLp.prod_inner_apply]
  change ⟪cnstA1 a wt D x, y.fst⟫ + ⟪x, y.snd⟫ = ⟪x, y.snd + gOpT wt D y.fst⟫
  rw [cnstA1_eq, gOp_adj, inner_add_right, add_comm]

/-! ## The first block of Y -/

theorem updateRho_keep {E F G H : Type*} [AddCommGroup G] [Module ℝ G] (C : Cls E F G H) (o : Opts) (k : ℕ) (r t : ℝ)
    (st : St E F G H) : (updateRho C o k r t st).Y = st.Y ∧ (updateRho C o k r t st).X = st.X ∧
      (updateRho C o k r t st).AXnr = st.AXnr := by
  unfold updateRho
  simp only
  split_ifs <;> exact ⟨rfl, rfl, rfl⟩

theorem oneIter_Y {E F G H : Type*} [NormedAddCommGroup E] [NormedSpace ℝ E] [NormedAddCommGroup F] [NormedSpace ℝ F]
    [NormedAddCommGroup G] [NormedSpace ℝ G] (C : Cls E F G H) (o : Opts) (cb) (s : St E F G H) :
    (oneIter C o cb s).Y = (steps C o s).Y ∧ (oneIter C o cb s).X = (steps C o s).X ∧
      (oneIter C o cb s).AXnr = (steps C o s).AXnr := by
  unfold oneIter body
  cases o.fastSolve <;> cases o.withRsdl <;>
    simp only [if_true, if_false, Bool.false_eq_true, (updateRho_keep C o _ _ _ _).1,
      (updateRho_keep C o _ _ _ _).2.1, (updateRho_keep C o _ _ _ _).2.2, and_self]

/-- **The gradient block of Y is never updated** with a multi-channel dictionary and a number of signals that is
neither one nor the number of channels: whatever the options, the dictionary and the signals, it keeps its initial
value. -/
theorem C67_convrectv_block_refuted (sg : K → J) (hc : c ≠ 0) (h1 : Fintype.card K ≠ 1) (h2 : Fintype.card K ≠ c + 1)
    (D : Dict c M Nd) (S : Signal c K N) (lmbda mu : ℝ) (w : K × M × Grid N → ℝ) (wt : M → ℝ) (fe ge : Bool)
    (o : Opts) (cb) (s : St (Coef K M N) (YR c K M N) (YR c K M N) (AttrR c K M Nd N a)) (n : ℕ) :
    (traj (cls sg D S lmbda mu w wt fe ge) o cb s n).Y.fst = s.Y.fst := by
  induction n with
  | zero => rfl
  | succ n ih =>
    rw [traj_succ, (oneIter_Y _ o cb _).1, ← ih]
    exact if_neg fun h => h.elim hc fun h => h.elim h1 h2

/-- Unit impulses in both channels. -/
def dR : Dict 1 Unit N1 := fun _ _ _ => 1

/-- Three signals with two channels, each (8, -8). -/
def sR : Signal 1 (Fin 3) N2 := fun _ _ p => if p = p0 then 8 else -8

/-- The objective in the documentation. -/
noncomputable def docR : (Fin 3 → Unit → Grid N2 → ℝ) → ℝ :=
  objR (fun k : Fin 3 => k) dR sR 1 1 (fun _ => 1) (fun _ => 1)

theorem wrecon_R (X : Unit → Grid N2 → ℝ) (ch : Fin 2) : wrecon (fun _ => 1) dR X ch = X () := by
  funext p
  unfold wrecon
  rw [Fintype.sum_unique, one_mul, filt_one _ (dR ch default) fun _ => rfl]

theorem data_R (X : Fin 3 → Unit → Grid N2 → ℝ) :
    dataTerm dR sR X = ∑ k, ((X k () p0 - 8) ^ 2 + (X k () p1 + 8) ^ 2) := by
  unfold dataTerm recon
  have e : ∀ (i : Fin (1 + 1)) (k : Fin 3), ∑ p, (∑ m, filt (dR i m) (X k m) p - sR i k p) ^ 2 =
      (X k () p0 - 8) ^ 2 + (X k () p1 + 8) ^ 2 := by
    intro i k
    rw [sum_grid2]
    simp only [Fintype.sum_unique]
    rw [filt_one _ (dR i default) fun _ => rfl, filt_one _ (dR i default) fun _ => rfl]
    unfold sR
    rw [if_pos rfl, if_neg p1_ne, sub_neg_eq_add]
  simp only [e]
  rw [Fin.sum_univ_two, ← two_mul, ← mul_assoc]
  norm_num

/-- The array (8, -8) for every signal. -/
def xR : Fin 3 → Unit → Grid N2 → ℝ := fun _ _ p => if p = p0 then 8 else -8

theorem docR_x : docR xR ≤ 186 := by
  unfold docR objR
  rw [data_R]
  have e0 : ∀ k, xR k () p0 = 8 := fun k => if_pos rfl
  have e1 : ∀ k, xR k () p1 = -8 := fun k => if_neg p1_ne
  have hl : l1Conv (fun _ => (1 : ℝ)) xR = 48 := by
    unfold l1Conv
    simp only [Fintype.sum_unique, sum_grid2, one_mul]
    have : (default : Unit) = () := rfl
    simp only [this, e0, e1]
    norm_num
  have hs : Real.sqrt 512 ≤ 23 := by
    rw [Real.sqrt_le_left (by norm_num)]; norm_num
  have ht : recTV (fun k : Fin 3 => k) (fun _ => 1) dR xR = 6 * Real.sqrt 512 := by
    unfold recTV
    have e : ∀ (j : Fin 3) (p : Grid N2), ∑ k with k = j, ∑ ch : Fin (1 + 1), ∑ i,
        diff i (wrecon (fun _ => 1) dR (xR k) ch) p ^ 2 = 2 * diff 0 (xR j ()) p ^ 2 := by
      intro j p
      rw [sum_filter, sum_eq_single j (fun k _ hk => if_neg hk) (fun h => absurd (mem_univ _) h), if_pos rfl]
      simp only [wrecon_R]
      rw [Fin.sum_univ_two, Fintype.sum_unique, ← two_mul]
      rfl
    simp only [e, sum_grid2, diff_p0, diff_p1, e0, e1]
    rw [Fin.sum_univ_three]
    norm_num
    ring
  rw [hl, ht]
  simp only [e0, e1]
  norm_num
  linarith

/-- **With several signals and a multi-channel dictionary `ConvBPDNRecTV` does not solve the problem in its
documentation.** Three signals with two channels, one unit impulse as filter, `lmbda` and `mu` equal to one:
started as documented with Y zero it does not happen, whatever the options, that the primal residual tends to zero
and the objective at Y tends to the minimum. -/
theorem C67_convrectv_refuted (fe ge : Bool) (o : Opts) (cb)
    (s : St (Coef (Fin 3) Unit N2) (YR 1 (Fin 3) Unit N2) (YR 1 (Fin 3) Unit N2) (AttrR 1 (Fin 3) Unit N1 N2 0))
    (hY : s.Y = 0) :
    let C : Cls _ _ _ (AttrR 1 (Fin 3) Unit N1 N2 0) :=
      cls (fun k : Fin 3 => k) dR sR 1 1 (fun _ => 1) (fun _ => 1) fe ge
    let T := traj C o cb s
    ¬ (Tendsto (fun n => C.nrmR (T n).AXnr (T n).Y) atTop (𝓝 0) ∧
      ∃ Xopt, IsMin docR Set.univ Xopt ∧ Tendsto (fun n => docR (part (T n).Y.snd)) atTop (𝓝 (docR Xopt))) := by
  rintro C T ⟨hr, Xo, hmin, hF⟩
  have hA : ∀ n, (T (n + 1)).AXnr = cnstA 0 (fun _ => 1) dR (T (n + 1)).X := by
    intro n
    obtain ⟨-, hx, ha⟩ := oneIter_Y C o cb (T n)
    change (traj C o cb s (n + 1)).AXnr = cnstA 0 (fun _ => 1) dR (traj C o cb s (n + 1)).X
    rw [traj_succ, ha, hx]
    change (relaxAX (cnstA 0 (fun _ => 1) dR) _ 0 _ _ _).2 = _
    unfold relaxAX
    simp only
    split_ifs <;> rfl
  have hfst : ∀ n, (T n).Y.fst = 0 := by
    intro n
    refine (C67_convrectv_block_refuted (fun k : Fin 3 => k) one_ne_zero (by simp) (by simp) dR sR 1 1 _ _ fe ge o cb s
      n).trans ?_
    rw [hY]; rfl
  have hv : Tendsto (fun n => cnstA 0 (fun _ => 1) dR (T (n + 1)).X - (T (n + 1)).Y) atTop (𝓝 0) := by
    rw [tendsto_zero_iff_norm_tendsto_zero]
    refine ((tendsto_add_atTop_iff_nat 1).2 hr).congr fun n => ?_
    change ‖rsdlR (fun y => -y) 0 (T (n + 1)).AXnr (T (n + 1)).Y‖ = _
    rw [hA]
    change ‖cnstA 0 (fun _ => 1) dR (T (n + 1)).X + -(T (n + 1)).Y - 0‖ = _
    rw [sub_zero, ← sub_eq_add_neg]
  have h1 : Tendsto (fun n => gOp (K := Fin 3) (N := N2) (fun _ => 1) dR (T (n + 1)).X) atTop (𝓝 0) := by
    have := ((WithLp.continuous_fst 2 (GR 1 (Fin 3) N2) (Coef (Fin 3) Unit N2)).tendsto 0).comp hv
    refine this.congr fun n => ?_
    change cnstA1 0 (fun _ => 1) dR (T (n + 1)).X - (T (n + 1)).Y.fst = _
    rw [cnstA1_eq, hfst, sub_zero]
  have h2 : Tendsto (fun n => (T (n + 1)).X - (T (n + 1)).Y.snd) atTop (𝓝 0) :=
    ((WithLp.continuous_snd 2 (GR 1 (Fin 3) N2) (Coef (Fin 3) Unit N2)).tendsto 0).comp hv
  have h3 : Tendsto (fun n => gOp (K := Fin 3) (N := N2) (fun _ => 1) dR (T (n + 1)).Y.snd) atTop (𝓝 0) := by
    have h4 := ((gOp (K := Fin 3) (N := N2) (fun _ => 1) dR).continuous.tendsto 0).comp h2
    rw [map_zero] at h4
    have h5 := h1.sub h4
    rw [sub_zero] at h5
    refine h5.congr fun n => ?_
    simp only [Function.comp]
    rw [map_sub]; abel
  have h4 : ∀ k, Tendsto (fun n => part (T (n + 1)).Y.snd k () p0 - part (T (n + 1)).Y.snd k () p1) atTop (𝓝 0) := by
    intro k
    have := ((EuclideanSpace.proj (𝕜 := ℝ) (((0 : Fin 1), (0 : Fin 2)), k, p0)).continuous.tendsto
      (0 : GR 1 (Fin 3) N2)).comp h3
    refine this.congr fun n => ?_
    change part (gOp (fun _ => 1) dR (T (n + 1)).Y.snd) (0, 0) k p0 = _
    rw [part_gOp (fun _ => (by decide : (1 : ℕ) ≤ 2)) (fun _ => le_refl 2), wrecon_R, diff_p0]
  have hlow : ∀ᶠ n in atTop, 294 ≤ docR (part (T (n + 1)).Y.snd) := by
    have h5 : ∀ k, ∀ᶠ n in atTop, |part (T (n + 1)).Y.snd k () p0 - part (T (n + 1)).Y.snd k () p1| < 2 := by
      intro k
      have := (h4 k).abs
      rw [abs_zero] at this
      exact this.eventually (gt_mem_nhds (by norm_num))
    filter_upwards [eventually_all.2 h5] with n hn
    have h6 : ∀ k, 98 ≤ (part (T (n + 1)).Y.snd k () p0 - 8) ^ 2 + (part (T (n + 1)).Y.snd k () p1 + 8) ^ 2 := by
      intro k
      have := abs_lt.1 (hn k)
      nlinarith [sq_nonneg (part (T (n + 1)).Y.snd k () p0 - 8 + (part (T (n + 1)).Y.snd k () p1 + 8)), this.1, this.2]
    unfold docR objR
    rw [data_R, Fin.sum_univ_three]
    have h7 : 0 ≤ l1Conv (fun _ => (1 : ℝ)) (part (T (n + 1)).Y.snd) :=
      sum_nonneg fun _ _ => sum_nonneg fun _ _ => sum_nonneg fun _ _ => mul_nonneg zero_le_one (abs_nonneg _)
    have h8 : 0 ≤ recTV (fun k : Fin 3 => k) (fun _ => 1) dR (part (T (n + 1)).Y.snd) :=
      sum_nonneg fun _ _ => sum_nonneg fun _ _ => Real.sqrt_nonneg _
    linarith [h6 0, h6 1, h6 2]
  have h9 := ge_of_tendsto ((tendsto_add_atTop_iff_nat 1).2 hF) hlow
  have := hmin.2 xR trivial
  linarith [docR_x]

/-! ## Options without effect -/

/-- **C22 fails: `NonNegCoef` and `NoBndryCross` have no effect** for `ConvBPDNRecTV`. Whatever the options the
coefficients in Y after an update are the soft-thresholded ones, and there are negative ones. -/
theorem C22_convrectv_refuted :
    ∃ (AX : YR 0 Unit Unit N2) (h : AttrR 0 Unit Unit N1 N2 0), ∀ (X : Coef Unit Unit N2) (Y : YR 0 Unit Unit N2),
      part (ystep (fun k : Unit => k) 1 1 (fun _ => 1) 1 AX X Y 0 h).1.snd () () p0 = -2 := by
  refine ⟨WithLp.toLp 2 (0, WithLp.toLp 2 fun _ => -3), setdict 0 (fun _ => 1) (fun _ _ _ => 1) 0, fun X Y => ?_⟩
  change proxL1 (-3 + 0) (1 / 1 * 1) = -2
  unfold proxL1
  norm_num [npSign]

/-- The hypotheses of `C39_C67_convrectv_partial` hold for a two-channel dictionary, two signals and the
initial state of the class. -/
example : ∃ (s : St (Coef (Fin 2) Unit N2) (YR 1 (Fin 2) Unit N2) (YR 1 (Fin 2) Unit N2)
      (AttrR 1 (Fin 2) Unit N1 N2 0)) (Xf : Spec (Fin 2) Unit N2 0),
    (∀ n, N1 n ≤ N2 n) ∧ (∀ k, 2 ≤ N2 k) ∧
    ((1 : ℕ) = 0 ∨ Fintype.card (Fin 2) = 1 ∨ Fintype.card (Fin 2) = 1 + 1) ∧ 0 < s.rho ∧
    s.extra = setdict (fun _ _ p => if p = p0 then 8 else 3) (fun _ => 2) dR Xf := by
  refine ⟨{ X := 0, Y := 0, Yprev := 0, U := 0, AX := 0, AXnr := 0, rho := 51, k := 0, itstat := []
            extra := setdict (fun _ _ p => if p = p0 then 8 else 3) (fun _ => 2) dR 0 }, 0,
    fun _ => (by decide : (1 : ℕ) ≤ 2), fun _ => le_refl 2, Or.inr (Or.inr (by simp)), ?_, rfl⟩
  norm_num

end Sporco.Conv.RTV
