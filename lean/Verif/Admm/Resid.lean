import Verif.Admm.Model
import Mathlib.Analysis.InnerProductSpace.Adjoint
import Mathlib.Tactic.Linarith
import Mathlib.Tactic.Module
import Mathlib.Tactic.NormNum
import Mathlib.Tactic.Abel

/-!
# Specialised residual and relaxation formulas (C37)

For each specialised class the constraint `A x + B y = c` is written down from the class
documentation, and every overridden method is compared with the generic method of class
`ADMM` for that constraint.
-/

set_option linter.unusedSectionVars false

namespace Sporco.Admm

open scoped RealInnerProductSpace

/-! ## `ADMMEqual`: `x = y`, that is `A = I`, `B = -I`, `c = 0` -/

section Equal
variable {E : Type*} [NormedAddCommGroup E] [InnerProductSpace ℝ E]

/-- **C37.** `ADMMEqual`: all overridden formulas equal the generic ones for `x - y = 0`. -/
theorem C37_equal (rho rlx : ℝ) (X Y Yprev AX U : E) :
    Equal.rsdlR AX Y = rsdlR (fun y => -y) 0 AX Y ∧
    Equal.rsdlS rho Yprev Y = rsdlS (fun g => g) (fun y => -y) rho Yprev Y ∧
    Equal.rsdlRn AX Y = rsdlRn (fun y : E => -y) 0 AX Y ∧
    Equal.rsdlSn rho U = rsdlSn (fun g : E => g) rho U ∧
    Equal.relaxAX rlx X Y = relaxAX (fun x => x) (fun y => -y) 0 rlx X Y ∧
    Equal.ustep AX Y U = ustep (fun y => -y) 0 AX Y U := by
  refine ⟨?_, ?_, ?_, rfl, ?_, ?_⟩
  · simp [Equal.rsdlR, rsdlR, sub_eq_add_neg]
  · simp [Equal.rsdlS, rsdlS]
  · simp [Equal.rsdlRn, rsdlRn, norm_neg]
  · unfold Equal.relaxAX relaxAX
    simp only
    split_ifs
    · rfl
    · congr 1
      simp
  · simp [Equal.ustep, ustep, Equal.rsdlR, rsdlR, sub_eq_add_neg]

/-- A concrete value where relaxation and residuals are non-trivial. -/
example : Equal.relaxAX (3 / 2 : ℝ) (2 : ℝ) (1 : ℝ) = (5 / 2, 2) ∧
    Equal.rsdlRn (2 : ℝ) (-3 : ℝ) = 3 := by
  constructor
  · unfold Equal.relaxAX; rw [if_neg (by norm_num)]; norm_num
  · unfold Equal.rsdlRn; simp; norm_num

end Equal

/-! ## `ADMMTwoBlockCnstrnt`: `(A0; A1) x - (y0; y1) = (c0; c1)` -/

section TwoBlock
variable {E F₀ F₁ : Type*} [NormedAddCommGroup F₀] [NormedAddCommGroup F₁] [NormedAddCommGroup E]
  [InnerProductSpace ℝ F₀] [InnerProductSpace ℝ F₁] [InnerProductSpace ℝ E]

theorem cat_sep (Y : WithLp 2 (F₀ × F₁)) : TwoBlock.cat (TwoBlock.sep0 Y) (TwoBlock.sep1 Y) = Y := rfl

theorem norm_cat (c0 : F₀) (c1 : F₁) : ‖TwoBlock.cat c0 c1‖ = Real.sqrt (‖c0‖ ^ 2 + ‖c1‖ ^ 2) := by
  rw [WithLp.prod_norm_eq_of_L2]; rfl

theorem cat_add (a a' : F₀) (b b' : F₁) :
    TwoBlock.cat (a + a') (b + b') = TwoBlock.cat a b + TwoBlock.cat a' b' := rfl

/-- **C37.** Block separation and concatenation are inverse to each other. -/
theorem C37_blocks (Y : WithLp 2 (F₀ × F₁)) (y0 : F₀) (y1 : F₁) :
    TwoBlock.cat (TwoBlock.sep0 Y) (TwoBlock.sep1 Y) = Y ∧
    TwoBlock.sep0 (TwoBlock.cat y0 y1) = y0 ∧ TwoBlock.sep1 (TwoBlock.cat y0 y1) = y1 ∧
    ‖TwoBlock.cat y0 y1‖ = Real.sqrt (‖y0‖ ^ 2 + ‖y1‖ ^ 2) :=
  ⟨rfl, rfl, rfl, norm_cat y0 y1⟩

/-- **C37.** `ADMMTwoBlockCnstrnt`: all overridden formulas equal the generic ones for the
stacked constraint (`AT` linear is used for the dual residual's sign). -/
theorem C37_twoblock (A0 : E → F₀) (A1 : E → F₁) (A0T : F₀ →ₗ[ℝ] E) (A1T : F₁ →ₗ[ℝ] E) (c0 : F₀)
    (c1 : F₁) (rho rlx : ℝ) (X : E) (Y Yprev AX U : WithLp 2 (F₀ × F₁)) :
    let A := TwoBlock.cnstA A0 A1
    let AT := TwoBlock.cnstAT A0T A1T
    let B : WithLp 2 (F₀ × F₁) → WithLp 2 (F₀ × F₁) := fun y => -y
    let c := TwoBlock.cat c0 c1
    TwoBlock.rsdlR c0 c1 AX Y = rsdlR B c AX Y ∧
    TwoBlock.rsdlS A0T A1T rho Yprev Y = rsdlS AT B rho Yprev Y ∧
    TwoBlock.rsdlRn c0 c1 AX Y = rsdlRn B c AX Y ∧
    TwoBlock.rsdlSn A0T A1T rho U = rsdlSn AT rho U ∧
    TwoBlock.relaxAX A0 A1 c0 c1 rlx X Y = relaxAX A B c rlx X Y ∧
    TwoBlock.ustep c0 c1 AX Y U = ustep B c AX Y U := by
  have hr : TwoBlock.rsdlR c0 c1 AX Y = rsdlR (fun y => -y) (TwoBlock.cat c0 c1) AX Y := by
    unfold TwoBlock.rsdlR rsdlR
    rw [cat_add, cat_sep, sub_add_eq_sub_sub, sub_eq_add_neg AX Y]
  refine ⟨hr, ?_, ?_, rfl, ?_, ?_⟩
  · unfold TwoBlock.rsdlS rsdlS
    simp only [neg_sub]
  · unfold TwoBlock.rsdlRn rsdlRn
    rw [norm_neg, norm_cat]
  · unfold TwoBlock.relaxAX relaxAX
    simp only
    split_ifs
    · rfl
    · rw [cat_add, cat_sep]
      congr 1
      module
  · unfold TwoBlock.ustep ustep
    rw [hr]

/-- **C37.** `cnst_AT` is the adjoint of `cnst_A` when the block operators are. -/
theorem C37_twoblock_adjoint (A0 : E → F₀) (A1 : E → F₁) (A0T : F₀ → E) (A1T : F₁ → E)
    (h0 : ∀ x y, ⟪A0 x, y⟫ = ⟪x, A0T y⟫) (h1 : ∀ x y, ⟪A1 x, y⟫ = ⟪x, A1T y⟫) (x : E)
    (y : WithLp 2 (F₀ × F₁)) :
    ⟪TwoBlock.cnstA A0 A1 x, y⟫ = ⟪x, TwoBlock.cnstAT A0T A1T y⟫ := by
  unfold TwoBlock.cnstA TwoBlock.cnstAT
  rw [WithLp.prod_inner_apply, inner_add_right]
  exact congrArg₂ (· + ·) (h0 x _) (h1 x _)

end TwoBlock

/-! ## `ADMMConsensus`: `x_i = y` for every block -/

section Consensus
variable {F : Type*} [NormedAddCommGroup F] [InnerProductSpace ℝ F] {Nb : ℕ}

theorem norm_rep (Y : F) : ‖Consensus.rep Nb Y‖ = Real.sqrt Nb * ‖Y‖ := by
  rw [PiLp.norm_eq_of_L2]
  have : ∑ i : Fin Nb, ‖(Consensus.rep Nb Y) i‖ ^ 2 = Nb * ‖Y‖ ^ 2 := by
    simp [Consensus.rep]
  rw [this, Real.sqrt_mul (Nat.cast_nonneg _), Real.sqrt_sq (norm_nonneg _)]

theorem rep_sub (Y Y' : F) : Consensus.rep Nb (Y - Y') = Consensus.rep Nb Y - Consensus.rep Nb Y' := rfl

/-- **C37.** `ADMMConsensus`: with `A = I`, `B y = -(y, y, ...)` and `c = 0`, the norms of
the residuals, the normalisations, the relaxation and the dual update all equal the
generic ones. (The code returns a scaled vector of the right norm for the dual residual.) -/
theorem C37_consensus (rho rlx : ℝ) (X AX U : Blocks F Nb) (Y Yprev : F) :
    let B : F → Blocks F Nb := fun y => -Consensus.rep Nb y
    let I : Blocks F Nb → Blocks F Nb := fun x => x
    Consensus.rsdlR AX Y = rsdlR B 0 AX Y ∧
    ‖Consensus.rsdlS Nb rho Yprev Y‖ = ‖rsdlS I B rho Yprev Y‖ ∧
    Consensus.rsdlRn AX Y = rsdlRn B 0 AX Y ∧
    Consensus.rsdlSn rho U = rsdlSn I rho U ∧
    Consensus.relaxAX rlx X Y = relaxAX I B 0 rlx X Y ∧
    Consensus.ustep AX Y U = ustep B 0 AX Y U := by
  refine ⟨?_, ?_, ?_, rfl, ?_, ?_⟩
  · simp [Consensus.rsdlR, rsdlR, sub_eq_add_neg]
  · unfold Consensus.rsdlS rsdlS
    simp only
    rw [norm_smul, norm_smul, norm_neg, norm_rep, norm_mul, norm_sub_rev Yprev Y, Real.norm_eq_abs,
      Real.norm_eq_abs, abs_of_nonneg (Real.sqrt_nonneg _)]
    ring
  · unfold Consensus.rsdlRn rsdlRn
    simp [norm_neg, norm_rep]
  · unfold Consensus.relaxAX relaxAX
    simp only
    split_ifs
    · rfl
    · congr 1
      simp
  · simp [Consensus.ustep, ustep, Consensus.rsdlR, rsdlR, sub_eq_add_neg]

theorem norm_sq_blocks (V : Blocks F Nb) : ‖V‖ ^ 2 = ∑ i, ‖V i‖ ^ 2 := PiLp.norm_sq_eq_of_L2 _ V

/-- Sum of weighted squared distances to the blocks, as one squared distance to the
weighted mean plus a term without `y`. -/
theorem weighted_var (a : Fin Nb → ℝ) (hS : ∑ i, a i ≠ 0) (W : Fin Nb → F) (y : F) :
    ∑ i, a i * ‖W i - y‖ ^ 2 =
      (∑ i, a i) * ‖(∑ i, a i)⁻¹ • ∑ i, a i • W i - y‖ ^ 2 +
        (∑ i, a i * ‖W i‖ ^ 2 - (∑ i, a i) * ‖(∑ i, a i)⁻¹ • ∑ i, a i • W i‖ ^ 2) := by
  set S := ∑ i, a i with hSd
  set m := S⁻¹ • ∑ i, a i • W i with hm
  have hin : ∑ i, a i * ⟪W i, y⟫ = S * ⟪m, y⟫ := by
    rw [hm, real_inner_smul_left, sum_inner, ← mul_assoc, mul_inv_cancel₀ hS, one_mul]
    exact Finset.sum_congr rfl fun i _ => (real_inner_smul_left _ _ _).symm
  have e : ∀ i, a i * ‖W i - y‖ ^ 2 = a i * ‖W i‖ ^ 2 - 2 * (a i * ⟪W i, y⟫) + a i * ‖y‖ ^ 2 := by
    intro i; rw [norm_sub_sq_real]; ring
  rw [Finset.sum_congr rfl fun i _ => e i, Finset.sum_add_distrib, Finset.sum_sub_distrib,
    ← Finset.mul_sum, hin, ← Finset.sum_mul, ← hSd, norm_sub_sq_real]
  ring

/-- What a proximal operator `prox_g(v, rho)` is documented to return
(`admm/admm.py` 1595-1604): a minimiser of `g(y) + (rho/2)||y - v||^2`. -/
def IsProxG (g : F → ℝ) (D : Set F) (proxg : F → ℝ → F) : Prop :=
  ∀ v rho, 0 < rho → proxg v rho ∈ D ∧
    ∀ z ∈ D, g (proxg v rho) + rho / 2 * ‖proxg v rho - v‖ ^ 2 ≤ g z + rho / 2 * ‖z - v‖ ^ 2

/-- **C37, consensus y update.** `prox_g` of the mean with parameter `Nb * rho` minimises
the augmented Lagrangian in `y`. -/
theorem C37_consensus_ystep (g : F → ℝ) (D : Set F) (proxg : F → ℝ → F) (hp : IsProxG g D proxg)
    (rho : ℝ) (hr : 0 < rho) (hN : 0 < Nb) (AX U : Blocks F Nb) (z : F) (hz : z ∈ D) :
    Consensus.ystep proxg rho AX U ∈ D ∧
    g (Consensus.ystep proxg rho AX U) +
        rho / 2 * ‖AX - Consensus.rep Nb (Consensus.ystep proxg rho AX U) + U‖ ^ 2 ≤
      g z + rho / 2 * ‖AX - Consensus.rep Nb z + U‖ ^ 2 := by
  have hN' : (0 : ℝ) < Nb := Nat.cast_pos.2 hN
  obtain ⟨hm, h⟩ := hp (Consensus.mean (AX + U)) (Nb * rho) (mul_pos hN' hr)
  have key : ∀ y, ‖AX - Consensus.rep Nb y + U‖ ^ 2 = Nb * ‖y - Consensus.mean (AX + U)‖ ^ 2 +
      (∑ i, (1 : ℝ) * ‖(AX + U) i‖ ^ 2 - Nb * ‖Consensus.mean (AX + U)‖ ^ 2) := by
    intro y
    have := weighted_var (fun _ : Fin Nb => (1 : ℝ)) (by simp; omega) (fun i => (AX + U) i) y
    simp only [Finset.sum_const, Finset.card_univ, Fintype.card_fin, nsmul_eq_mul, mul_one,
      one_smul] at this
    rw [norm_sq_blocks, norm_sub_rev y]
    unfold Consensus.mean
    rw [← this]
    refine Finset.sum_congr rfl fun i _ => ?_
    have : (AX - Consensus.rep Nb y + U) i = (AX + U) i - y := by
      change AX i - y + U i = AX i + U i - y
      abel
    rw [this, one_mul]
  refine ⟨hm, ?_⟩
  have h' := h z hz
  unfold Consensus.ystep
  rw [key, key]
  nlinarith

/-! ## `WeightedADMMConsensus`: `sqrt(alpha_i) x_i = sqrt(alpha_i) y` -/

theorem norm_sqrtScale_sq (alpha : Fin Nb → ℝ) (ha : ∀ i, 0 ≤ alpha i) (V : Blocks F Nb) :
    ‖WConsensus.sqrtScale alpha V‖ ^ 2 = ∑ i, alpha i * ‖V i‖ ^ 2 := by
  rw [norm_sq_blocks]
  refine Finset.sum_congr rfl fun i _ => ?_
  change ‖Real.sqrt (alpha i) • V i‖ ^ 2 = _
  rw [norm_smul, mul_pow, Real.norm_eq_abs, sq_abs, Real.sq_sqrt (ha i)]

theorem sqrtScale_comp (alpha : Fin Nb → ℝ) (ha : ∀ i, 0 ≤ alpha i) (V : Blocks F Nb) (i : Fin Nb) :
    (WConsensus.sqrtScale alpha (WConsensus.sqrtScale alpha V)) i = alpha i • V i := by
  change Real.sqrt (alpha i) • Real.sqrt (alpha i) • V i = _
  rw [smul_smul, Real.mul_self_sqrt (ha i)]

/-- **C37.** `WeightedADMMConsensus`, the parts that agree with the documented constraint
`A x = (√α_i x_i)_i`, `B y = -(√α_i y)_i`, `c = 0` (with generic `AX` equal to the scaled
`AX` of the code): primal and dual residual norms; the dual update is the generic one for
the scaled dual `√α_i U_i`. Missing for the full property: `rsdl_rn` and `rsdl_sn`, see
`C37_weighted_rn_refuted` and `C37_weighted_sn_refuted`. -/
theorem C37_weighted_partial (alpha : Fin Nb → ℝ) (ha : ∀ i, 0 ≤ alpha i) (rho : ℝ)
    (AX U : Blocks F Nb) (Y Yprev : F) :
    let S := WConsensus.sqrtScale (F := F) alpha
    let B : F → Blocks F Nb := fun y => -S (Consensus.rep Nb y)
    WConsensus.rsdlR alpha AX Y = rsdlR B 0 (S AX) Y ∧
    ‖WConsensus.rsdlS alpha rho Yprev Y‖ = ‖rsdlS S B rho Yprev Y‖ ∧
    S (WConsensus.ustep AX Y U) = ustep B 0 (S AX) Y (S U) := by
  have hadd : ∀ V W : Blocks F Nb, WConsensus.sqrtScale alpha (V + W) =
      WConsensus.sqrtScale alpha V + WConsensus.sqrtScale alpha W := by
    intro V W; ext i; exact smul_add _ _ _
  have hsub : ∀ V W : Blocks F Nb, WConsensus.sqrtScale alpha (V - W) =
      WConsensus.sqrtScale alpha V - WConsensus.sqrtScale alpha W := by
    intro V W; ext i; exact smul_sub _ _ _
  refine ⟨?_, ?_, ?_⟩
  · unfold WConsensus.rsdlR rsdlR
    rw [hsub, sub_zero, sub_eq_add_neg]
  · unfold WConsensus.rsdlS rsdlS
    simp only
    have hneg : ∀ V : Blocks F Nb, WConsensus.sqrtScale alpha (-V) = -WConsensus.sqrtScale alpha V := by
      intro V; ext i; exact smul_neg _ _
    have hn : ‖WConsensus.sqrtScale alpha (WConsensus.sqrtScale alpha (Consensus.rep Nb (Y - Yprev)))‖ =
        Real.sqrt (∑ i, alpha i ^ 2) * ‖Y - Yprev‖ := by
      rw [← Real.sqrt_sq (norm_nonneg (WConsensus.sqrtScale alpha
        (WConsensus.sqrtScale alpha (Consensus.rep Nb (Y - Yprev))))), norm_sq_blocks]
      have : ∀ i, ‖(WConsensus.sqrtScale alpha (WConsensus.sqrtScale alpha
          (Consensus.rep Nb (Y - Yprev)))) i‖ ^ 2 = alpha i ^ 2 * ‖Y - Yprev‖ ^ 2 := by
        intro i
        rw [sqrtScale_comp alpha ha, norm_smul, mul_pow, Real.norm_eq_abs, sq_abs]
        rfl
      rw [Finset.sum_congr rfl fun i _ => this i, ← Finset.sum_mul,
        Real.sqrt_mul (Finset.sum_nonneg fun i _ => sq_nonneg _), Real.sqrt_sq (norm_nonneg _)]
    rw [hneg, norm_smul, norm_smul, norm_neg, hn, norm_mul, norm_sub_rev Yprev Y, Real.norm_eq_abs,
      Real.norm_eq_abs, abs_of_nonneg (Real.sqrt_nonneg _)]
    ring
  · unfold WConsensus.ustep ustep rsdlR
    rw [hadd, hsub]
    simp [sub_eq_add_neg]

/-- **C37, weighted consensus y update.** The weighted average with parameter
`(Σ alpha) * rho` minimises the augmented Lagrangian of the documented constraint. -/
theorem C37_weighted_ystep (alpha : Fin Nb → ℝ) (ha : ∀ i, 0 ≤ alpha i) (hS : 0 < ∑ i, alpha i)
    (g : F → ℝ) (D : Set F) (proxg : F → ℝ → F) (hp : IsProxG g D proxg) (rho : ℝ) (hr : 0 < rho)
    (AX U : Blocks F Nb) (z : F) (hz : z ∈ D) :
    WConsensus.ystep alpha proxg rho AX U ∈ D ∧
    g (WConsensus.ystep alpha proxg rho AX U) + rho / 2 * ‖WConsensus.sqrtScale alpha
        (AX - Consensus.rep Nb (WConsensus.ystep alpha proxg rho AX U) + U)‖ ^ 2 ≤
      g z + rho / 2 * ‖WConsensus.sqrtScale alpha (AX - Consensus.rep Nb z + U)‖ ^ 2 := by
  obtain ⟨hm, h⟩ := hp (WConsensus.wmean alpha (AX + U)) ((∑ i, alpha i) * rho) (mul_pos hS hr)
  have key : ∀ y, ‖WConsensus.sqrtScale alpha (AX - Consensus.rep Nb y + U)‖ ^ 2 =
      (∑ i, alpha i) * ‖y - WConsensus.wmean alpha (AX + U)‖ ^ 2 +
      (∑ i, alpha i * ‖(AX + U) i‖ ^ 2 - (∑ i, alpha i) * ‖WConsensus.wmean alpha (AX + U)‖ ^ 2) := by
    intro y
    have := weighted_var alpha hS.ne' (fun i => (AX + U) i) y
    rw [norm_sqrtScale_sq alpha ha, norm_sub_rev y]
    unfold WConsensus.wmean
    rw [← this]
    refine Finset.sum_congr rfl fun i _ => ?_
    have : (AX - Consensus.rep Nb y + U) i = (AX + U) i - y := by
      change AX i - y + U i = AX i + U i - y
      abel
    rw [this]
  refine ⟨hm, ?_⟩
  have h' := h z hz
  unfold WConsensus.ystep
  rw [key, key]
  nlinarith

/-- **C37 fails for `WeightedADMMConsensus.rsdl_rn`**: with one block of weight 4 the
generic value is `‖B y‖ = 2 ‖y‖` but the code gives `4 ‖y‖`. -/
theorem C37_weighted_rn_refuted :
    ∃ (alpha : Fin 1 → ℝ) (AX : Blocks ℝ 1) (Y : ℝ), (∀ i, 0 < alpha i) ∧
      WConsensus.rsdlRn alpha AX Y ≠
        rsdlRn (fun y => -WConsensus.sqrtScale alpha (Consensus.rep 1 y)) 0
          (WConsensus.sqrtScale alpha AX) Y := by
  refine ⟨fun _ => 4, 0, 1, fun _ => by norm_num, ?_⟩
  have h1 : WConsensus.sqrtScale (F := ℝ) (fun _ : Fin 1 => (4 : ℝ)) 0 = 0 := by
    ext i; exact smul_zero _
  have h2 : ‖WConsensus.sqrtScale (fun _ : Fin 1 => (4 : ℝ)) (Consensus.rep 1 (1 : ℝ))‖ = 2 := by
    have h := norm_sqrtScale_sq (fun _ : Fin 1 => (4 : ℝ)) (fun _ => by norm_num) (Consensus.rep 1 (1 : ℝ))
    have h3 : ∑ i : Fin 1, (4 : ℝ) * ‖(Consensus.rep 1 (1 : ℝ)) i‖ ^ 2 = 2 ^ 2 := by
      simp [Consensus.rep]; norm_num
    rw [h3] at h
    have := norm_nonneg (WConsensus.sqrtScale (fun _ : Fin 1 => (4 : ℝ)) (Consensus.rep 1 (1 : ℝ)))
    nlinarith
  have h4 : Real.sqrt (∑ _i : Fin 1, (4 : ℝ) ^ 2) = 4 := by
    simp only [Finset.univ_unique, Finset.sum_const, Finset.card_singleton, one_smul]
    exact Real.sqrt_sq (by norm_num)
  unfold WConsensus.rsdlRn rsdlRn
  rw [h1, norm_neg, h2, h4]
  norm_num

/-- **C37 fails for `WeightedADMMConsensus.rsdl_sn`**: the generic value for the scaled
dual is `rho ‖(alpha_i U_i)_i‖`; with weight 4 it is four times the value in the code. -/
theorem C37_weighted_sn_refuted :
    ∃ (alpha : Fin 1 → ℝ) (U : Blocks ℝ 1), (∀ i, 0 < alpha i) ∧
      WConsensus.rsdlSn 1 U ≠
        rsdlSn (WConsensus.sqrtScale (F := ℝ) alpha) 1 (WConsensus.sqrtScale alpha U) := by
  refine ⟨fun _ => 4, Consensus.rep 1 1, fun _ => by norm_num, ?_⟩
  unfold WConsensus.rsdlSn rsdlSn
  have h1 : ‖Consensus.rep 1 (1 : ℝ)‖ = 1 := by rw [norm_rep]; simp
  have h2 : ‖WConsensus.sqrtScale (fun _ : Fin 1 => (4 : ℝ)) (WConsensus.sqrtScale
      (fun _ : Fin 1 => (4 : ℝ)) (Consensus.rep 1 (1 : ℝ)))‖ ^ 2 = 16 := by
    rw [norm_sq_blocks]
    rw [Finset.univ_unique, Finset.sum_singleton, sqrtScale_comp _ (fun _ => by norm_num)]
    have : (Consensus.rep 1 (1 : ℝ)) default = 1 := rfl
    rw [this]; norm_num
  rw [h1]
  intro h
  have h3 := congrArg (· ^ 2) h
  simp only [mul_pow] at h3
  rw [h2] at h3
  norm_num at h3

end Consensus

end Sporco.Admm
