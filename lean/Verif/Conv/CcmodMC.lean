import Verif.Conv.Ccmod

/-!
# `ConvCnstrMODMaskDcpl_Consensus` (C36, C37, C40)
-/

set_option autoImplicit false
set_option linter.unusedSectionVars false

namespace Sporco.Conv.Mod

open Finset ComplexConjugate Sporco.Linalg Sporco.Prox Sporco.Admm Sporco.Conv
open Sporco.PgmConv (coefF dictTerm dictMaskTerm modOp modOpT modOp_adj dictTerm_eq mulL)
open scoped RealInnerProductSpace

variable {d : ℕ} {N : Fin d → ℕ} [∀ k, NeZero (N k)] {a : Fin d} {A M : Type*} [Fintype A] [Fintype M]
  {Nb : ℕ}

/-! ## Specification: the constraint `A x + B y = c` of the method -/

/-- `A x = (x₀, x₁, …; z₀ * x₀, z₁ * x₁, …)`. -/
noncomputable def opA (Z : Fin Nb → M → Grid N → ℝ) (X : Blocks (Coef A M N) Nb) : UC A Nb M N :=
  WithLp.toLp 2 (X, join fun i k p => ∑ m, ∑ y, Z k m y * part (X k) i m (p - y))

/-- The adjoint of `A`. -/
noncomputable def opAT (Z : Fin Nb → M → Grid N → ℝ) (U : UC A Nb M N) : Blocks (Coef A M N) Nb :=
  WithLp.toLp 2 fun k => U.fst k + join fun i m p => ∑ y, Z k m y * part U.snd i k (p + y)

/-- `B (y, y¹) = -(y, y, …; y¹)`. -/
noncomputable def opB (y : WithLp 2 (Coef A M N × Sig A (Fin Nb) N)) : UC A Nb M N :=
  WithLp.toLp 2 (WithLp.toLp 2 fun _ => -y.fst, -y.snd)

/-- `c = (0; s)`. -/
noncomputable def rhsC (S : A → Fin Nb → Grid N → ℝ) : UC A Nb M N := WithLp.toLp 2 (0, join S)

/-! ## The X update -/

/-- What block `k` fits. -/
noncomputable def tgt (S : A → Fin Nb → Grid N → ℝ) (Y : WithLp 2 (Coef A M N × Sig A (Fin Nb) N))
    (U : UC A Nb M N) (k : Fin Nb) : Sig A Unit N :=
  join (oneS (part Y.snd) k) - join (oneS (part U.snd) k) + join (oneS S k)

theorem xstepMC_eq (Z : Fin Nb → M → Grid N → ℝ) (S : A → Fin Nb → Grid N → ℝ) (rho : ℝ)
    (X : Blocks (Coef A M N) Nb) (Y : WithLp 2 (Coef A M N × Sig A (Fin Nb) N)) (U : UC A Nb M N)
    (h : Fin Nb → Spec A M N a) (k : Fin Nb) :
    (xstepMC Z S rho X Y U h).1 k = genX a (fullB (Z k) 1 (tgt S Y U k) (Y.fst - U.fst k)) ∧
    ∀ i m, (xstepMC Z S rho X Y U h).2 k i m =
      fun ξ => fullB (Z k) 1 (tgt S Y U k) (Y.fst - U.fst k) i m ξ.1 := by
  have e : ∀ i (ξ : Grid N), rf (part (tgt S Y U k) i ()) ξ =
      rf (S i k) ξ + rf (part (Y.snd - U.snd) i k) ξ := by
    intro i ξ
    rw [add_comm, ← rf_add]
    rfl
  constructor
  · unfold genX fullB
    simp only [e]
    rfl
  · intro i m
    unfold fullB
    simp only [e]
    rfl

/-- After the X update `Xf` is the transform of X. -/
theorem xstepMC_Xf (Z : Fin Nb → M → Grid N → ℝ) (S : A → Fin Nb → Grid N → ℝ) (rho : ℝ)
    (X : Blocks (Coef A M N) Nb) (Y : WithLp 2 (Coef A M N × Sig A (Fin Nb) N)) (U : UC A Nb M N)
    (h : Fin Nb → Spec A M N a) (k : Fin Nb) (i : A) (m : M) :
    (xstepMC Z S rho X Y U h).2 k i m = rfft N a (part ((xstepMC Z S rho X Y U h).1 k) i m) := by
  obtain ⟨h1, h2⟩ := xstepMC_eq Z S rho X Y U h k
  rw [h1, h2]
  funext ξ
  exact (congrFun (rf_genX (a := a) one_pos (fullB_solves (Z k) one_pos _ _) i m) ξ.1).symm

theorem xstepMC_normal (Z : Fin Nb → M → Grid N → ℝ) (S : A → Fin Nb → Grid N → ℝ) (rho : ℝ)
    (X : Blocks (Coef A M N) Nb) (Y : WithLp 2 (Coef A M N × Sig A (Fin Nb) N)) (U : UC A Nb M N)
    (h : Fin Nb → Spec A M N a) (k : Fin Nb) :
    let x := (xstepMC Z S rho X Y U h).1 k
    modOpT (one Z k) (modOp (one Z k) x) + (1 : ℝ) • x =
      modOpT (one Z k) (tgt S Y U k) + (1 : ℝ) • (Y.fst - U.fst k) := by
  intro x
  change modOpT (one Z k) (modOp (one Z k) ((xstepMC Z S rho X Y U h).1 k)) +
    (1 : ℝ) • (xstepMC Z S rho X Y U h).1 k = _
  rw [(xstepMC_eq Z S rho X Y U h k).1]
  exact gen_normal one_pos (fullB_solves (Z k) one_pos _ _)

/-- **C40.** The X update of `ConvCnstrMODMaskDcpl_Consensus`: whatever the state, every block is the
unique minimiser of its part of the augmented Lagrangian,
`(ρ/2)(‖∑ₘ z_{k,m} * d_m - s_k - y¹_k + u¹_k‖² + ‖d - y + u_k‖²)`. -/
theorem C40_ccmodmd_cns (Z : Fin Nb → M → Grid N → ℝ) (S : A → Fin Nb → Grid N → ℝ) (rho : ℝ)
    (hr : 0 < rho) (X : Blocks (Coef A M N) Nb) (Y : WithLp 2 (Coef A M N × Sig A (Fin Nb) N))
    (U : UC A Nb M N) (h : Fin Nb → Spec A M N a) (k : Fin Nb) :
    IsUniqueMin (augModMask (one Z k) (oneS S k) rho (oneS (part Y.snd) k) (oneS (part U.snd) k)
      (part Y.fst) (part (U.fst k))) Set.univ (part ((xstepMC Z S rho X Y U h).1 k)) :=
  augModMask_unique (Y0 := join (oneS (part Y.snd) k)) (U0 := join (oneS (part U.snd) k)) hr
    (xstepMC_normal Z S rho X Y U h k)

/-- **C40.** The Y updates of `ConvCnstrMODMaskDcpl_Consensus` minimise the augmented Lagrangian in
`(y, y¹)`, with y in the constraint set, if `Pcn` gives a nearest point. -/
theorem C40_ccmodmd_cns_ystep (Pcn : Coef A M N → Coef A M N) (D : Set (Coef A M N)) (Z : Fin Nb → M → Grid N → ℝ)
    (S W : A → Fin Nb → Grid N → ℝ) (rho : ℝ) (hr : 0 < rho) (hN : 0 < Nb) (AX U : UC A Nb M N)
    (X : Blocks (Coef A M N) Nb) (Y : WithLp 2 (Coef A M N × Sig A (Fin Nb) N)) (h : Fin Nb → Spec A M N a)
    (hP : Nearest Pcn D ((Nb : ℝ)⁻¹ • ∑ k, (AX.fst k + U.fst k))) :
    let y := ((clsMC a Pcn Z S W).ystep rho AX X Y U h).1
    let L (y : Coef A M N) (y1 : Sig A (Fin Nb) N) : ℝ :=
      1 / 2 * ∑ i, ∑ k, ∑ p, (W i k p * part y1 i k p) ^ 2 +
        rho / 2 * (∑ k, ‖AX.fst k - y + U.fst k‖ ^ 2 + ‖AX.snd - y1 - join S + U.snd‖ ^ 2)
    y.fst ∈ D ∧ ∀ z ∈ D, ∀ z1, L y.fst y.snd ≤ L z z1 := by
  intro y L
  have h1 := C40_ccmod_cns_ystep (a := a) Pcn D S true true rho hr hN AX.fst U.fst X Y.fst
    (setcoefC S Z h) hP
  refine ⟨h1.1, fun z hz z1 => ?_⟩
  have h2 := h1.2 z hz
  have h3 := maskDiv_min S W rho hr (AX.snd + U.snd) z1
  have h4 : 0 ≤ rho / 2 * ‖z1 - maskDiv S W rho (AX.snd + U.snd)‖ ^ 2 := by positivity
  have e : ∀ z1, AX.snd - z1 - join S + U.snd = AX.snd + U.snd - join S - z1 := fun z1 => by abel
  change 1 / 2 * _ + rho / 2 * (_ + ‖AX.snd - maskDiv S W rho (AX.snd + U.snd) - join S + U.snd‖ ^ 2) ≤
    1 / 2 * _ + rho / 2 * (_ + ‖AX.snd - z1 - join S + U.snd‖ ^ 2)
  rw [e, e, mul_add, mul_add]
  unfold gW at h3
  have h5 : rho / 2 * ∑ k, ‖AX.fst k - y.fst + U.fst k‖ ^ 2 ≤ rho / 2 * ∑ k, ‖AX.fst k - z + U.fst k‖ ^ 2 := h2
  have h6 : 1 / 2 * ∑ i, ∑ k, ∑ p, (W i k p * part y.snd i k p) ^ 2 =
    1 / 2 * ∑ i, ∑ k, ∑ p, (W i k p * part (maskDiv S W rho (AX.snd + U.snd)) i k p) ^ 2 := rfl
  linarith

/-- **C40.** The recorded data fidelity of `ConvCnstrMODMaskDcpl_Consensus` (with `fEvalX`) is the sum
over the signals of `(1/2)‖W_k(∑ₘ z_{k,m} * d_m - s_k)‖²` at the block of that signal. -/
theorem C40_ccmodmd_cns_recorded (Pcn : Coef A M N → Coef A M N) (Z : Fin Nb → M → Grid N → ℝ)
    (S W : A → Fin Nb → Grid N → ℝ) (rho : ℝ) (X : Blocks (Coef A M N) Nb)
    (Y0 Y : WithLp 2 (Coef A M N × Sig A (Fin Nb) N)) (U : UC A Nb M N) (h : Fin Nb → Spec A M N a) :
    let x := xstepMC Z S rho X Y0 U h
    ((clsMC a Pcn Z S W).objfn x.1 Y x.2).1 =
      ∑ k, dictMaskTerm (one Z k) (oneS S k) (oneS W k) (part (x.1 k)) := by
  intro x
  have e : ∀ i k, irfft N a (fun ξ => Linalg.inner (fun m => coefF a Z k m ξ) (fun m => x.2 k i m ξ) -
      rfft N a (S i k) ξ) = fun p => ∑ m, ∑ y, Z k m y * part (x.1 k) i m (p - y) - S i k p := by
    intro i k
    have hh : Herm fun ξ => ∑ m, rf (Z k m) ξ * rf (part (x.1 k) i m) ξ - rf (S i k) ξ := by
      intro ξ
      simp only [rf_herm _ ξ, map_sub, map_sum, map_mul]
    have h1 := rf_irfft a hh
    simp only [x, xstepMC_Xf Z S rho X Y0 U h]
    apply rf_injective
    intro ξ
    have e : (fun p => ∑ m, ∑ y, Z k m y * part (x.1 k) i m (p - y) - S i k p) =
        fun p => (∑ m, rconv (Z k m) (part (x.1 k) i m) p) - S i k p := rfl
    simp only [x] at e
    rw [e, rf_sub, rf_sum]
    simp only [rf_rconv]
    exact congrFun h1 ξ
  change ‖(join fun i k p => W i k p * irfft N a (fun ξ => Linalg.inner (fun m => coefF a Z k m ξ)
    (fun m => x.2 k i m ξ) - rfft N a (S i k) ξ) p : Sig A (Fin Nb) N)‖ ^ 2 / 2 = _
  simp only [e]
  rw [norm_part, div_eq_mul_one_div, mul_comm, sum_comm, mul_sum]
  refine sum_congr rfl fun k _ => ?_
  unfold dictMaskTerm
  simp only [univ_unique, sum_singleton]
  rfl

/-! ## Residuals -/

theorem ax1_eq (Z : Fin Nb → M → Grid N → ℝ) (X : Blocks (Coef A M N) Nb) :
    ax1 a Z X = (opA Z X).snd := by
  refine part_ext fun i k ξ => ?_
  have hh : Herm fun ξ => ∑ m, rf (Z k m) ξ * rf (part (X k) i m) ξ := by
    intro ξ
    simp only [rf_herm _ ξ, map_sum, map_mul]
  have h1 := congrFun (rf_irfft a hh) ξ
  have e : part (opA Z X).snd i k = fun p => ∑ m, rconv (Z k m) (part (X k) i m) p := rfl
  rw [e, rf_sum]
  simp only [rf_rconv]
  exact h1

theorem atu_eq (Z : Fin Nb → M → Grid N → ℝ) (U : UC A Nb M N) : atu a Z U = opAT Z U := by
  unfold atu opAT
  congr 1
  funext k
  congr 1
  refine part_ext fun i m ξ => ?_
  have hh : Herm fun ξ => conj (rf (Z k m) ξ) * rf (part U.snd i k) ξ := by
    intro ξ
    simp only [rf_herm _ ξ, map_mul]
  have h1 := congrFun (rf_irfft a hh) ξ
  have e : part (join fun i m p => ∑ y, Z k m y * part U.snd i k (p + y) : Coef A M N) i m =
    rcorr (Z k m) (part U.snd i k) := rfl
  rw [e, rf_rcorr]
  exact h1

theorem norm_uc (U : UC A Nb M N) : ‖U‖ = Real.sqrt (‖U.fst‖ ^ 2 + ‖U.snd‖ ^ 2) := by
  rw [← WithLp.prod_norm_sq_eq_of_L2, Real.sqrt_sq (norm_nonneg _)]

/-- `opAT` is the adjoint of `opA`. -/
theorem opA_adj (Z : Fin Nb → M → Grid N → ℝ) (X : Blocks (Coef A M N) Nb) (U : UC A Nb M N) :
    ⟪opA Z X, U⟫ = ⟪X, opAT Z U⟫ := by
  have h1 : ⟪opA Z X, U⟫ = ⟪X, U.fst⟫ + ⟪(opA Z X).snd, U.snd⟫ := WithLp.prod_inner_apply _ _
  have h2 : ⟪X, opAT Z U⟫ = ∑ k, ⟪X k, opAT Z U k⟫ := PiLp.inner_apply _ _
  have h3 : ⟪X, U.fst⟫ = ∑ k, ⟪X k, U.fst k⟫ := PiLp.inner_apply _ _
  rw [h1, h2, h3, inner_part, sum_comm, ← sum_add_distrib]
  refine sum_congr rfl fun k _ => ?_
  change _ = ⟪X k, U.fst k + _⟫
  rw [inner_add_right]
  congr 1
  have h4 := modOp_adj (one Z k) (X k) (join fun i _ => part U.snd i k)
  rw [inner_part] at h4
  simp only [univ_unique, sum_singleton] at h4
  refine Eq.trans ?_ (h4.trans ?_)
  · rfl
  · congr 1
    ext ⟨i, m, p⟩
    change ∑ _u : Unit, rcorr (Z k m) (part U.snd i k) p = _
    simp only [univ_unique, sum_singleton]
    rfl

theorem norm_rhsC (S : A → Fin Nb → Grid N → ℝ) :
    ‖(rhsC S : UC A Nb M N)‖ = ‖(join S : Sig A (Fin Nb) N)‖ := by
  rw [norm_uc]
  change Real.sqrt (‖(0 : Blocks (Coef A M N) Nb)‖ ^ 2 + _) = _
  rw [norm_zero, zero_pow two_ne_zero, zero_add, Real.sqrt_sq (norm_nonneg _)]
  rfl

theorem norm_opB (Y : WithLp 2 (Coef A M N × Sig A (Fin Nb) N)) :
    ‖opB Y‖ = Real.sqrt (Nb * ‖Y.fst‖ ^ 2 + ‖Y.snd‖ ^ 2) := by
  rw [norm_uc]
  change Real.sqrt (‖(WithLp.toLp 2 fun _ => -Y.fst : Blocks (Coef A M N) Nb)‖ ^ 2 + ‖-Y.snd‖ ^ 2) = _
  rw [norm_sq_blocks, norm_neg]
  simp

/-- `opAT` as a linear map. -/
noncomputable def opATL (Z : Fin Nb → M → Grid N → ℝ) : UC A Nb M N →ₗ[ℝ] Blocks (Coef A M N) Nb where
  toFun := opAT Z
  map_add' u v := by
    refine PiLp.ext fun k => ?_
    ext ⟨i, m, p⟩
    change (u.fst k (i, m, p) + v.fst k (i, m, p)) + ∑ y, Z k m y * (u.snd (i, k, p + y) + v.snd (i, k, p + y)) =
      (u.fst k (i, m, p) + ∑ y, Z k m y * u.snd (i, k, p + y)) +
        (v.fst k (i, m, p) + ∑ y, Z k m y * v.snd (i, k, p + y))
    simp only [mul_add, sum_add_distrib]
    ring
  map_smul' r u := by
    refine PiLp.ext fun k => ?_
    ext ⟨i, m, p⟩
    change r * u.fst k (i, m, p) + ∑ y, Z k m y * (r * u.snd (i, k, p + y)) =
      r * (u.fst k (i, m, p) + ∑ y, Z k m y * u.snd (i, k, p + y))
    rw [mul_add, mul_sum]
    congr 1
    exact sum_congr rfl fun y _ => by ring

/-- **C37.** `ConvCnstrMODMaskDcpl_Consensus`: the relaxation, the dual update, the primal residual and
the dual variable used for the dual residual are those of the constraint `A x + B y = c`.  (Missing:
the normalisation of the primal residual, `C37_ccmodmd_cns_rn_refuted`, and with relaxation the dual
residual, `C37_ccmodmd_cns_dual_partial`.) -/
theorem C37_ccmodmd_cns_partial (Pcn : Coef A M N → Coef A M N) (Z : Fin Nb → M → Grid N → ℝ)
    (S W : A → Fin Nb → Grid N → ℝ) (rho rlx : ℝ) (X : Blocks (Coef A M N) Nb) (AX U : UC A Nb M N)
    (Y Yp : WithLp 2 (Coef A M N × Sig A (Fin Nb) N)) :
    let C := clsMC a Pcn Z S W
    C.relax rlx X Y = relaxAX (opA Z) opB (rhsC S) rlx X Y ∧
    C.ustep AX Y U = ustep opB (rhsC S) AX Y U ∧
    C.nrmR AX Y = ‖rsdlR opB (rhsC S) AX Y‖ ∧
    C.nrmS rho Yp Y U = rho * ‖opAT Z U‖ ∧
    C.rsdlSn rho U = rho * ‖U‖ ∧
    (1 ≤ Nb → C.rsdlRn AX Y ≤ rsdlRn opB (rhsC S) AX Y) ∧
    (Nb = 1 → C.rsdlRn AX Y = rsdlRn opB (rhsC S) AX Y) := by
  intro C
  have hrn : C.rsdlRn AX Y = max (max ‖AX‖ ‖Y‖) ‖(rhsC S : UC A Nb M N)‖ := by
    change max (max (Real.sqrt (‖AX.fst‖ ^ 2 + ‖AX.snd‖ ^ 2)) (Real.sqrt (‖Y.fst‖ ^ 2 + ‖Y.snd‖ ^ 2)))
      ‖(join S : Sig A (Fin Nb) N)‖ = _
    rw [← norm_uc, ← WithLp.prod_norm_sq_eq_of_L2, Real.sqrt_sq (norm_nonneg _), norm_rhsC]
  refine ⟨?_, ?_, ?_, ?_, ?_, fun hb => ?_, fun hb => ?_⟩
  · change relaxMC a Z S rlx X Y = _
    unfold relaxMC relaxAX Consensus.relaxAX
    simp only [ax1_eq]
    split_ifs
    · rfl
    · refine Prod.ext ?_ rfl
      change WithLp.toLp 2 (rlx • X + (1 - rlx) • Consensus.rep Nb Y.fst,
          rlx • (opA Z X).snd + (1 - rlx) • (Y.snd + join S)) =
        WithLp.toLp 2 (rlx • X - (1 - rlx) • ((WithLp.toLp 2 fun _ => -Y.fst) - 0),
          rlx • (opA Z X).snd - (1 - rlx) • (-Y.snd - join S))
      have e : (WithLp.toLp 2 fun _ => -Y.fst : Blocks (Coef A M N) Nb) = -Consensus.rep Nb Y.fst := rfl
      rw [e]
      congr 2 <;> module
  · change WithLp.toLp 2 (U.fst + (AX.fst - Consensus.rep Nb Y.fst), U.snd + (AX.snd - Y.snd - join S)) =
      WithLp.toLp 2 (U.fst + (AX.fst + -Consensus.rep Nb Y.fst - 0), U.snd + (AX.snd + -Y.snd - join S))
    congr 2 <;> abel
  · rw [norm_uc]
    change Real.sqrt (‖AX.fst - Consensus.rep Nb Y.fst‖ ^ 2 + ‖AX.snd - Y.snd - join S‖ ^ 2) =
      Real.sqrt (‖AX.fst + -Consensus.rep Nb Y.fst - 0‖ ^ 2 + ‖AX.snd + -Y.snd - join S‖ ^ 2)
    rw [sub_zero, sub_eq_add_neg AX.fst, sub_eq_add_neg AX.snd]
  · change rho * ‖atu a Z U‖ = _
    rw [atu_eq]
  · rw [norm_uc]; rfl
  · rw [hrn]
    refine max_le_max (max_le_max le_rfl ?_) le_rfl
    rw [norm_opB, ← Real.sqrt_sq (norm_nonneg Y), WithLp.prod_norm_sq_eq_of_L2]
    refine Real.sqrt_le_sqrt (add_le_add ?_ le_rfl)
    have h1 : (1 : ℝ) ≤ Nb := by exact_mod_cast hb
    nlinarith [sq_nonneg ‖Y.fst‖]
  · rw [hrn]
    unfold rsdlRn
    have hc : (Nb : ℝ) = 1 := by exact_mod_cast hb
    rw [norm_opB, hc, one_mul, ← WithLp.prod_norm_sq_eq_of_L2, Real.sqrt_sq (norm_nonneg Y)]

/-- **C37, not as stated for `ConvCnstrMODMaskDcpl_Consensus`.** The normalisation of the primal
residual is not `max(‖A x‖, ‖B y‖, ‖c‖)`: it uses the norm of y instead of that of its `K` copies, so
with two signals it can be smaller by a factor of almost `√2`. -/
theorem C37_ccmodmd_cns_rn_refuted (a : Fin d) :
    ∃ (S : Unit → Fin 2 → Grid N → ℝ) (Pcn : Coef Unit Unit N → Coef Unit Unit N)
      (Z : Fin 2 → Unit → Grid N → ℝ) (W : Unit → Fin 2 → Grid N → ℝ)
      (AX : UC Unit 2 Unit N) (Y : WithLp 2 (Coef Unit Unit N × Sig Unit (Fin 2) N)),
      (clsMC a Pcn Z S W).rsdlRn AX Y < rsdlRn opB (rhsC S) AX Y := by
  have h0 : (rhsC fun _ _ _ => 0 : UC Unit 2 Unit N) = 0 := rfl
  refine ⟨fun _ _ _ => 0, fun v => v, fun _ _ _ => 0, fun _ _ _ => 1, 0,
    WithLp.toLp 2 (EuclideanSpace.single ((), (), 0) 1, 0), ?_⟩
  change max (max (Real.sqrt (‖(0 : Blocks (Coef Unit Unit N) 2)‖ ^ 2 + ‖(0 : Sig Unit (Fin 2) N)‖ ^ 2))
    (Real.sqrt (‖(EuclideanSpace.single ((), (), 0) 1 : Coef Unit Unit N)‖ ^ 2 + ‖(0 : Sig Unit (Fin 2) N)‖ ^ 2)))
    ‖(0 : Sig Unit (Fin 2) N)‖ < _
  unfold rsdlRn
  rw [norm_opB, h0]
  change _ < max (max ‖(0 : UC Unit 2 Unit N)‖ (Real.sqrt ((2 : ℕ) *
    ‖(EuclideanSpace.single ((), (), 0) 1 : Coef Unit Unit N)‖ ^ 2 + ‖(0 : Sig Unit (Fin 2) N)‖ ^ 2))) ‖(0 : UC Unit 2 Unit N)‖
  have h1 : Real.sqrt 2 ≤ max (max 0 (Real.sqrt 2)) 0 := (le_max_right _ _).trans (le_max_left _ _)
  have h2 : (1 : ℝ) < Real.sqrt 2 := by
    rw [Real.lt_sqrt (by norm_num)]; norm_num
  simp only [norm_zero, EuclideanSpace.norm_single, norm_one]
  norm_num
  try linarith

/-- **C37.** The dual residual `rho Aᵀ u` of `ConvCnstrMODMaskDcpl_Consensus` is the dual residual
`rho Aᵀ B (y' - y)` of the method plus `1 - RelaxParam` times its own previous value; the two agree
without relaxation.  (Missing: with relaxation, by default 1.8, they differ.) -/
theorem C37_ccmodmd_cns_dual_partial (Pcn : Coef A M N → Coef A M N) (Z : Fin Nb → M → Grid N → ℝ)
    (S W : A → Fin Nb → Grid N → ℝ) (rho rlx : ℝ) (hp : 0 ≤ rho) (X0 : Blocks (Coef A M N) Nb)
    (Y Y' : WithLp 2 (Coef A M N × Sig A (Fin Nb) N)) (U : UC A Nb M N) (e : Fin Nb → Spec A M N a) :
    let C := clsMC a Pcn Z S W
    let X := (C.xstep rho X0 Y U e).1
    let U' := C.ustep (C.relax rlx X Y).1 Y' U
    rho • opAT Z U' = rsdlS (opAT Z) opB rho Y Y' + (1 - rlx) • (rho • opAT Z U) ∧
    (rlx = 1 → C.nrmS rho Y Y' U' = ‖rsdlS (opAT Z) opB rho Y Y'‖) := by
  intro C X U'
  have hn : opATL Z (opA Z X + opB Y - rhsC S + U) = 0 := by
    refine PiLp.ext fun k => ?_
    have h1 := xstepMC_normal Z S rho X0 Y U e k
    have h2 : (opAT Z (opA Z X + opB Y - rhsC S + U)) k =
        X k - (Y.fst - U.fst k) + (modOpT (one Z k) (modOp (one Z k) (X k)) - modOpT (one Z k) (tgt S Y U k)) := by
      rw [← map_sub]
      change (X k + -Y.fst - 0 + U.fst k) + _ = _
      congr 1
      · abel
      · ext ⟨i, m, p⟩
        change ∑ y, Z k m y * part (opA Z X + opB Y - rhsC S + U).snd i k (p + y) =
          ∑ _u : Unit, rcorr (Z k m) (part (modOp (one Z k) (X k) - tgt S Y U k) i ()) p
        simp only [univ_unique, sum_singleton]
        unfold rcorr
        refine sum_congr rfl fun y _ => ?_
        congr 1
        change part (opA Z X).snd i k (p + y) + -part Y.snd i k (p + y) - S i k (p + y) + part U.snd i k (p + y) =
          part (opA Z X).snd i k (p + y) - (part Y.snd i k (p + y) - part U.snd i k (p + y) + S i k (p + y))
        ring
    change (opAT Z (opA Z X + opB Y - rhsC S + U)) k = 0
    rw [h2]
    have h3 : modOpT (one Z k) (modOp (one Z k) (X k)) + (1 : ℝ) • X k =
      modOpT (one Z k) (tgt S Y U k) + (1 : ℝ) • (Y.fst - U.fst k) := h1
    rw [← sub_eq_zero] at h3
    rw [← h3]
    module
  have hU : U' = U + rlx • (opA Z X + opB Y - rhsC S) + (opB Y' - opB Y) := by
    have h1 := C37_ccmodmd_cns_partial (a := a) Pcn Z S W rho rlx X (C.relax rlx X Y).1 U Y' Y
    have h2 := C37_ccmodmd_cns_partial (a := a) Pcn Z S W rho rlx X 0 U Y Y
    change C.ustep (C.relax rlx X Y).1 Y' U = _
    rw [h1.2.1, show C.relax rlx X Y = _ from h2.1]
    unfold ustep rsdlR relaxAX
    simp only
    split_ifs with hr
    · rw [hr]; module
    · simp only; module
  have key : rho • opAT Z U' = rsdlS (opAT Z) opB rho Y Y' + (1 - rlx) • (rho • opAT Z U) := by
    have e1 : opB (Y' - Y) = opB Y' - opB Y := by
      change WithLp.toLp 2 (WithLp.toLp 2 fun _ => -(Y'.fst - Y.fst), -(Y'.snd - Y.snd)) =
        WithLp.toLp 2 ((WithLp.toLp 2 fun _ => -Y'.fst) - WithLp.toLp 2 fun _ => -Y.fst, -Y'.snd - -Y.snd)
      have e2 : (WithLp.toLp 2 fun _ => -(Y'.fst - Y.fst) : Blocks (Coef A M N) Nb) =
          (WithLp.toLp 2 fun _ => -Y'.fst) - WithLp.toLp 2 fun _ => -Y.fst := by
        refine PiLp.ext fun k => ?_
        change -(Y'.fst - Y.fst) = -Y'.fst - -Y.fst
        abel
      rw [e2]
      congr 2
      abel
    unfold rsdlS
    rw [e1, hU]
    change rho • opATL Z _ = rho • opATL Z _ + (1 - rlx) • (rho • opATL Z U)
    have h3 : opATL Z (opA Z X + opB Y - rhsC S) = -opATL Z U := by
      rw [map_add] at hn
      exact eq_neg_of_add_eq_zero_left hn
    rw [map_add, map_add, map_smul, h3]
    module
  refine ⟨key, fun hr => ?_⟩
  have h4 := (C37_ccmodmd_cns_partial (a := a) Pcn Z S W rho rlx X 0 U' Y Y).2.2.2.1
  change rho * ‖atu a Z U'‖ = _
  rw [atu_eq, ← abs_of_nonneg hp, ← Real.norm_eq_abs, ← norm_smul, Real.norm_eq_abs, abs_of_nonneg hp, key, hr]
  simp

/-! ## Adaptation of rho -/

/-- **C36, not as stated for `ConvCnstrMODMaskDcpl_Consensus`.** An automatic change of rho leaves `U1`
as it is, so that block of the unscaled dual variable `rho u` is multiplied by the factor. -/
theorem C36_ccmodmd_cns_refuted (a : Fin d) :
    ∃ (o : Opts) (st : St (Blocks (Coef Unit Unit N) 1) (WithLp 2 (Coef Unit Unit N × Sig Unit (Fin 1) N))
      (UC Unit 1 Unit N) (Fin 1 → Spec Unit Unit N a)) (k : ℕ) (r s : ℝ),
      o.RhoOk ∧ 0 < st.rho ∧ 0 ≤ r ∧ 0 ≤ s ∧
      (updateRhoMC o k r s st).rho • (updateRhoMC o k r s st).U ≠ st.rho • st.U := by
  refine ⟨⟨false, 10, 0, 0, true, 1, false, false, 1, 1, 2, 10, 1, 1⟩,
    ⟨0, 0, 0, WithLp.toLp 2 (0, EuclideanSpace.single ((), 0, 0) 1), 0, 0, 1, 1, [], fun _ _ _ _ => 0⟩, 1, 1, 0,
    ⟨by norm_num, by norm_num, by norm_num⟩, one_pos, zero_le_one, le_rfl, fun h => ?_⟩
  have h1 := congrArg (fun u : UC Unit 1 Unit N => u.snd ((), 0, 0)) h
  unfold updateRhoMC rsf rhomlt npMod at h1
  norm_num [TwoBlock.cat] at h1

/-- **C36 for `ConvCnstrMODMaskDcpl_Consensus`.** The block `rho U` of the unscaled dual variable is the
same before and after the automatic update.  (Missing: `rho U1`, which is multiplied by the factor.) -/
theorem C36_ccmodmd_cns_partial (o : Opts) (ho : o.RhoOk) (k : ℕ) (r s : ℝ) (hr : 0 ≤ r) (hs : 0 ≤ s)
    (st : St (Blocks (Coef A M N) Nb) (WithLp 2 (Coef A M N × Sig A (Fin Nb) N)) (UC A Nb M N)
      (Fin Nb → Spec A M N a)) (hp : 0 < st.rho) :
    let st' := updateRhoMC o k r s st
    0 < st'.rho ∧ st'.rho • st'.U.fst = st.rho • st.U.fst ∧
    st'.rho • st'.U.snd = (st'.rho / st.rho) • (st.rho • st.U.snd) := by
  obtain ⟨-, -, h⟩ := rsf_bounds ho hr hs
  intro st'
  have hsnd : st'.U.snd = st.U.snd := by
    change (updateRhoMC o k r s st).U.snd = _
    unfold updateRhoMC
    split_ifs <;> rfl
  refine ⟨?_, ?_, ?_⟩
  · change 0 < (updateRhoMC o k r s st).rho
    unfold updateRhoMC
    split_ifs
    · exact mul_pos hp h
    · exact hp
  · change (updateRhoMC o k r s st).rho • (updateRhoMC o k r s st).U.fst = _
    unfold updateRhoMC
    split_ifs
    · change (st.rho * rsf o r s) • ((rsf o r s)⁻¹ • st.U.fst) = _
      rw [smul_smul, mul_assoc, mul_inv_cancel₀ h.ne', mul_one]
    · rfl
  · rw [hsnd, smul_smul, div_mul_cancel₀ _ hp.ne']

/-! ## The recorded constraint violation -/

theorem nearest_dist {E : Type*} [NormedAddCommGroup E] {Pcn : E → E} {D : Set E} {v : E} (h : Nearest Pcn D v) :
    ‖Pcn v - v‖ = Metric.infDist v D := by
  refine le_antisymm ?_ ?_
  · refine (Metric.le_infDist ⟨_, h.1⟩).2 fun z hz => ?_
    rw [dist_eq_norm, norm_sub_rev v z]
    exact h.2 z hz
  · rw [norm_sub_rev, ← dist_eq_norm]
    exact Metric.infDist_le_dist_of_mem h.1

/-- **C40.** The constraint violation recorded by the dictionary updates is the distance from the
constraint set: of Y if `gEvalY` (`AuxVarObj`) is set, and otherwise of X, or of the mean of the blocks.
`Pcn` must give a nearest point there; for the unit norm constraint this is so if no filter is zero. -/
theorem C40_ccmod_cnstr_recorded {κ : ℕ} (Pcn : Coef A M N → Coef A M N) (D : Set (Coef A M N)) (fe ge : Bool) :
    (∀ (S : A → Fin (κ + 1) → Grid N → ℝ) (X Y : Coef A M N) (h : AttrD A (Fin (κ + 1)) M N a),
      Nearest Pcn D (if ge then Y else X) →
      ((clsISM Pcn S fe ge).objfn X Y h).2.1 = Metric.infDist (if ge then Y else X) D) ∧
    (∀ (S : A → Fin Nb → Grid N → ℝ) (X : Blocks (Coef A M N) Nb) (Y : Coef A M N) (h : AttrC A Nb M N a),
      Nearest Pcn D (if ge then Y else (Nb : ℝ)⁻¹ • ∑ k, X k) →
      ((clsCns Pcn S fe ge).objfn X Y h).2.1 =
        Metric.infDist (if ge then Y else (Nb : ℝ)⁻¹ • ∑ k, X k) D) ∧
    (∀ (Z : Fin (κ + 1) → M → Grid N → ℝ) (S W : A → Fin (κ + 1) → Grid N → ℝ) (X : Coef A M N)
      (Y : YD A (Fin (κ + 1)) M N) (h : Spec A M N a), Nearest Pcn D (if ge then Y.snd else X) →
      ((clsMD a Pcn Z S W ge).objfn X Y h).2.1 = Metric.infDist (if ge then Y.snd else X) D) ∧
    (∀ (Z : Fin Nb → M → Grid N → ℝ) (S W : A → Fin Nb → Grid N → ℝ) (X : Blocks (Coef A M N) Nb)
      (Y : WithLp 2 (Coef A M N × Sig A (Fin Nb) N)) (h : Fin Nb → Spec A M N a), Nearest Pcn D Y.fst →
      ((clsMC a Pcn Z S W).objfn X Y h).2.1 = Metric.infDist Y.fst D) := by
  refine ⟨fun S X Y h hP => ?_, fun S X Y h hP => ?_, fun Z S W X Y h hP => ?_,
    fun Z S W X Y h hP => nearest_dist hP⟩
  · rw [← nearest_dist hP]
    cases ge <;> rfl
  · rw [← nearest_dist hP]
    cases ge <;> rfl
  · rw [← nearest_dist hP]
    cases ge
    · change ‖Pcn (X - 0) - (X - 0)‖ = _
      rw [sub_zero]
      rfl
    · rfl

end Sporco.Conv.Mod
