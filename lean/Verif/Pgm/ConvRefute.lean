import Verif.Pgm.ConvGrad

/-!
# Half-spectrum sums in the convolutional PGM classes

`obfn_f`, the linear term and the quadratic term of the backtracking test of the convolutional
classes are sums over the half spectrum, in which most frequencies stand for two.  Consequences
for C46, C49 and C51.
-/

set_option autoImplicit false
set_option linter.unusedSectionVars false

namespace Sporco.PgmConv

open Finset ComplexConjugate Sporco.Prox
open Sporco.Conv
open Sporco.Pgm (ClsF grad_ls HessianOf)
open scoped RealInnerProductSpace

variable {d c : ℕ} {N Nd : Fin d → ℕ} [∀ k, NeZero (N k)] {A B K M : Type*} [Fintype A] [Fintype B]
  [Fintype K] [Fintype M] {a : Fin d}

theorem parseval_part (x : EuclideanSpace ℝ (A × B × Grid N)) :
    ∑ ξ, ∑ i, ∑ j, ‖rf (part x i j) ξ‖ ^ 2 = Fintype.card (Grid N) * ‖x‖ ^ 2 := by
  rw [norm_part, sum_comm, mul_sum]
  refine sum_congr rfl fun i _ => ?_
  rw [sum_comm, mul_sum]
  refine sum_congr rfl fun j _ => ?_
  have h := parseval (fun p => (part x i j p : ℂ))
  have hc : (Fintype.card (Grid N) : ℝ) ≠ 0 := by exact_mod_cast Fintype.card_ne_zero
  rw [eq_div_iff hc] at h
  change ∑ ξ, ‖fft N (fun p => (part x i j p : ℂ)) ξ‖ ^ 2 = _
  rw [← h, mul_comm]
  congr 1
  exact sum_congr rfl fun p _ => by rw [Complex.norm_real, Real.norm_eq_abs, sq_abs]

/-- The norm of the half spectrum when the halved axis has odd length. -/
theorem norm_fwd_odd (ho : N a % 2 = 1) (x : EuclideanSpace ℝ (A × B × Grid N)) :
    2 * ‖fwd a x‖ ^ 2 = Fintype.card (Grid N) * ‖x‖ ^ 2 +
      ∑ ξ : Half N a, if (ξ.1 a).val = 0 then ∑ i, ∑ j, ‖rf (part x i j) ξ.1‖ ^ 2 else 0 := by
  obtain ⟨g, hg⟩ : ∃ g : Grid N → ℝ, g = fun ξ => ∑ i, ∑ j, ‖rf (part x i j) ξ‖ ^ 2 := ⟨_, rfl⟩
  have hs : ∀ ξ, g (-ξ) = g ξ := by
    intro ξ
    rw [hg]
    refine sum_congr rfl fun i _ => sum_congr rfl fun j _ => ?_
    rw [rf_herm (part x i j) ξ, RCLike.norm_conj]
  have h1 := sum_half a g hs
  have h2 : ∑ ξ, g ξ = Fintype.card (Grid N) * ‖x‖ ^ 2 := by rw [hg]; exact parseval_part x
  have h3 : ‖fwd a x‖ ^ 2 = ∑ ξ : Half N a, g ξ.1 := by
    rw [norm_hs, hg]
    have e : ∀ i, ∑ j, ∑ ξ : Half N a, ‖fwd a x (i, j, ξ)‖ ^ 2 =
        ∑ ξ : Half N a, ∑ j, ‖rf (part x i j) ξ.1‖ ^ 2 := fun i => sum_comm
    simp only [e]
    exact sum_comm
  have h4 : ∑ ξ : Half N a, g ξ.1 = (∑ ξ : Half N a, if (ξ.1 a).val = 0 then g ξ.1 else 0) +
      ∑ ξ : Half N a, if 1 ≤ (ξ.1 a).val ∧ (ξ.1 a).val < (N a + 1) / 2 then g ξ.1 else 0 := by
    rw [← sum_add_distrib]
    refine sum_congr rfl fun ξ _ => ?_
    have := ξ.2
    by_cases h0 : (ξ.1 a).val = 0
    · rw [if_pos h0, if_neg (by omega), add_zero]
    · rw [if_neg h0, if_pos (by omega), zero_add]
  rw [if_neg (by omega)] at h1
  rw [h3, h4, ← h2, h1, hg]
  ring

/-! ## Signals with three samples -/

/-- One axis of length 3. -/
abbrev N3 : Fin 1 → ℕ := fun _ => 3

instance : ∀ k, NeZero (N3 k) := fun _ => inferInstanceAs (NeZero 3)

/-- A point of the grid. -/
def pt (z : ZMod 3) : Grid N3 := fun _ => z

theorem sum3 {R : Type*} [AddCommMonoid R] (f : Grid N3 → R) : ∑ p, f p = f (pt 0) + f (pt 1) + f (pt 2) := by
  rw [← Equiv.sum_comp (Equiv.funUnique (Fin 1) (ZMod 3)).symm]
  exact Fin.sum_univ_three (fun z : Fin 3 => f (pt z))

/-- One map. -/
abbrev One3 : Type := EuclideanSpace ℝ (Fin 1 × Fin 1 × Grid N3)

/-- The map with the given samples. -/
def sig3 (u : ZMod 3 → ℝ) : One3 := join fun _ _ p => u (p 0)

theorem norm3 (x : One3) : ‖x‖ ^ 2 = part x 0 0 (pt 0) ^ 2 + part x 0 0 (pt 1) ^ 2 + part x 0 0 (pt 2) ^ 2 := by
  rw [norm_part, Fin.sum_univ_one, Fin.sum_univ_one, sum3]

theorem card3 : Fintype.card (Grid N3) = 3 := by rw [card_grid]; rfl

theorem rf_zero (x : Grid N → ℝ) : rf x 0 = ((∑ p, x p : ℝ) : ℂ) := by
  unfold rf fft
  push_cast
  refine sum_congr rfl fun p _ => ?_
  rw [chi_comm, chi_zero]
  simp

/-- The half spectrum norm. -/
theorem norm_fwd3 (x : One3) : 2 * ‖fwd 0 x‖ ^ 2 = 3 * ‖x‖ ^ 2 +
    (part x 0 0 (pt 0) + part x 0 0 (pt 1) + part x 0 0 (pt 2)) ^ 2 := by
  rw [norm_fwd_odd rfl x, card3]
  push_cast
  congr 1
  rw [sum_eq_single (⟨0, by simp⟩ : Half N3 0)]
  · rw [if_pos (by simp), Fin.sum_univ_one, Fin.sum_univ_one, rf_zero, Complex.norm_real, Real.norm_eq_abs,
      sq_abs, sum3]
  · intro ξ _ hξ
    rw [if_neg]
    intro h
    apply hξ
    apply Subtype.ext
    funext k
    rw [Subsingleton.elim k 0]
    exact (ZMod.val_eq_zero _).1 h
  · simp

theorem part_add (x y : EuclideanSpace ℝ (A × B × Grid N)) (i : A) (j : B) (p : Grid N) :
    part (x + y) i j p = part x i j p + part y i j p := rfl

theorem part_sub (x y : EuclideanSpace ℝ (A × B × Grid N)) (i : A) (j : B) (p : Grid N) :
    part (x - y) i j p = part x i j p - part y i j p := rfl

theorem inner_fwd3 (x y : One3) : 2 * ⟪fwd 0 x, fwd 0 y⟫ = 3 * ⟪x, y⟫ +
    (part x 0 0 (pt 0) + part x 0 0 (pt 1) + part x 0 0 (pt 2)) *
    (part y 0 0 (pt 0) + part y 0 0 (pt 1) + part y 0 0 (pt 2)) := by
  have h1 := norm_fwd3 (x + y)
  have h2 := norm_fwd3 x
  have h3 := norm_fwd3 y
  rw [fwd_add, norm_add_sq_real, norm_add_sq_real] at h1
  simp only [part_add] at h1
  linarith

/-! ## C51 for the mask classes -/

/-- The unit impulse. -/
def imp : Fin 1 → Fin 1 → Grid N3 → ℝ := fun _ _ p => if p = 0 then 1 else 0

/-- A dictionary with one filter with one sample, equal to one. -/
def dOne : Dict 0 (Fin 1) (d := 1) (fun _ => 1) := fun _ _ _ => 1

theorem padD_dOne : padD N3 dOne = imp := by
  funext i m p
  unfold padD pad imp dOne
  by_cases h : p = 0
  · rw [if_pos h, dif_pos (by intro k; rw [h]; simp)]
  · rw [if_neg h, dif_neg]
    intro h2
    apply h
    funext k
    exact (ZMod.val_eq_zero _).1 (Nat.lt_one_iff.1 (h2 k))

theorem convOp_imp (x : One3) : convOp imp x = x := by
  rw [← join_part (convOp imp x), ← join_part x]
  congr 1
  funext i j p
  rw [part_convOp]
  beta_reduce
  rw [Fin.sum_univ_one, Subsingleton.elim i 0, Subsingleton.elim j 0, join_part]
  unfold rconv imp
  simp

theorem convOpT_imp (x : One3) : convOpT imp x = x := by
  rw [← join_part (convOpT imp x), ← join_part x]
  congr 1
  funext i j p
  rw [part_convOpT]
  beta_reduce
  rw [Fin.sum_univ_one, Subsingleton.elim i 0, Subsingleton.elim j 0, join_part]
  unfold rcorr imp
  simp

/-- A mask that removes the first sample. -/
def msk : Fin 1 → Fin 1 → Grid N3 → ℝ := fun _ _ p => if p 0 = 0 then 0 else 1

/-- The signal. -/
def sOne : Fin 1 → Fin 1 → Grid N3 → ℝ := fun _ _ _ => -1

/-- The direction changed by no mask. -/
def eOne : One3 := sig3 fun z => if z = 0 then 1 else 0

theorem mul_eOne (t : ℝ) : mulL msk (t • eOne) = 0 := by
  ext ⟨i, j, p⟩
  change (if p 0 = 0 then (0 : ℝ) else 1) * (t * if p 0 = 0 then 1 else 0) = 0
  split_ifs <;> simp

theorem msk_line (t : ℝ) : mulL msk (t • eOne - join sOne) = - mulL msk (join sOne) := by
  rw [map_sub, mul_eOne, zero_sub]

theorem inner_msk : ⟪fwd 0 (mulL msk (mulL msk (-join sOne))), fwd 0 eOne⟫ = 1 := by
  have h := inner_fwd3 (mulL msk (mulL msk (-join sOne))) eOne
  have e : ∀ z : ZMod 3, part (mulL msk (mulL msk (-join sOne))) 0 0 (pt z) = if z = 0 then 0 else 1 := by
    intro z
    change (if z = 0 then (0 : ℝ) else 1) * ((if z = 0 then (0 : ℝ) else 1) * -(-1)) = _
    split_ifs <;> norm_num
  have e2 : ∀ z : ZMod 3, part eOne 0 0 (pt z) = if z = 0 then 1 else 0 := fun z => rfl
  rw [inner_part, Fin.sum_univ_one, Fin.sum_univ_one, sum3] at h
  simp only [e, e2] at h
  have h1 : ¬ (1 : ZMod 3) = 0 := by decide
  have h2 : ¬ (2 : ZMod 3) = 0 := by decide
  rw [if_pos trivial, if_pos trivial, if_neg h1, if_neg h1, if_neg h2, if_neg h2] at h
  linarith

theorem not_grad (f : HS (Fin 1) (Fin 1) N3 0 → ℝ)
    (hf : ∀ t : ℝ, f (fwd 0 (t • eOne)) = f (fwd 0 (0 : One3))) :
    ¬ HasGradientAt f (fwd 0 (mulL msk (mulL msk (-join sOne)))) (fwd 0 (0 : One3)) := by
  intro h
  rw [hasGradientAt_iff_hasFDerivAt] at h
  have hd : HasDerivAt (fun t : ℝ => fwd 0 (0 : One3) + t • fwd 0 eOne) (fwd 0 eOne) 0 := by
    simpa using ((hasDerivAt_id (0 : ℝ)).smul_const (fwd 0 eOne)).const_add (fwd 0 (0 : One3))
  have h2 := HasFDerivAt.comp_hasDerivAt (0 : ℝ) (f := fun t : ℝ => fwd 0 (0 : One3) + t • fwd 0 eOne)
    (by beta_reduce; rw [zero_smul, add_zero]; exact h) hd
  have e : (f ∘ fun t : ℝ => fwd 0 (0 : One3) + t • fwd 0 eOne) = fun _ => f (fwd 0 (0 : One3)) := by
    funext t
    change f (fwd 0 0 + t • fwd 0 eOne) = _
    rw [← fwd_smul, ← fwd_add, zero_add]
    exact hf t
  rw [e] at h2
  have h3 := h2.unique (hasDerivAt_const (0 : ℝ) _)
  rw [InnerProductSpace.toDual_apply_apply, inner_msk] at h3
  norm_num at h3

theorem not_hess (g h : HS (Fin 1) (Fin 1) N3 0 → HS (Fin 1) (Fin 1) N3 0)
    (hg : ∀ t : ℝ, g (fwd 0 (t • eOne)) = fwd 0 (mulL msk (-mulL msk (join sOne))))
    (hh : h (fwd 0 eOne) = fwd 0 eOne) : ¬ HessianOf g h := by
  rintro ⟨H, hH, hD⟩
  have hd : HasDerivAt (fun t : ℝ => t • fwd 0 eOne) (fwd 0 eOne) (0 : ℝ) := by
    simpa using ((hasDerivAt_id (0 : ℝ)).smul_const (fwd 0 eOne))
  have h2 := HasFDerivAt.comp_hasDerivAt (0 : ℝ) (hD _) hd
  have e : (g ∘ fun t : ℝ => t • fwd 0 eOne) = fun _ => fwd 0 (mulL msk (-mulL msk (join sOne))) := by
    funext t
    change g (t • fwd 0 eOne) = _
    rw [← fwd_smul]
    exact hg t
  rw [e] at h2
  have h3 := h2.unique (hasDerivAt_const (0 : ℝ) _)
  rw [hH, hh] at h3
  have h5 := congrArg (bwd 0) h3
  have h6 : (0 : HS (Fin 1) (Fin 1) N3 0) = fwd 0 (0 : One3) := by
    have := fwd_sub (a := 0) eOne eOne
    rw [sub_self, sub_self] at this
    exact this.symm
  rw [h6, bwd_fwd, bwd_fwd] at h5
  have h7 : part eOne 0 0 (pt 0) = part (0 : One3) 0 0 (pt 0) := by rw [h5]
  have h8 : part eOne 0 0 (pt 0) = 1 := rfl
  have h9 : part (0 : One3) 0 0 (pt 0) = 0 := rfl
  rw [h8, h9] at h7
  norm_num at h7

/-- **C51, `obfn_f` of `ConvBPDNMask`.** Its gradient is not `grad_f`: with the impulse as dictionary
and a mask that removes the first of three samples, `obfn_f` does not depend on the first coefficient,
while `grad_f` says it increases with it. -/
theorem C51_mask_obfn_refuted (q : COpts) (lmbda : ℝ) (w : Fin 1 × Fin 1 × Grid N3 → ℝ) :
    let C := clsBPDNMask 0 q dOne sOne lmbda w msk
    (∀ t : ℝ, C.obfnF (C.rfftn (t • eOne)) = C.obfnF (C.rfftn 0)) ∧
    ¬ HasGradientAt C.obfnF (C.gradF (C.rfftn 0)) (C.rfftn 0) := by
  intro C
  have hl : ∀ t : ℝ, C.obfnF (fwd 0 (t • eOne)) = C.obfnF (fwd 0 (0 : One3)) := by
    have key : ∀ t : ℝ, C.obfnF (fwd 0 (t • eOne)) = 1 / 2 * ‖fwd (N := N3) 0 (-mulL msk (join sOne))‖ ^ 2 := by
      intro t
      change 1 / 2 * ‖fwd 0 (mulL msk (bwd 0 (evalRf dOne sOne (fwd 0 (t • eOne)))))‖ ^ 2 = _
      rw [evalRf_fwd, bwd_fwd, padD_dOne, convOp_imp, msk_line]
    intro t
    have h0 := key 0
    rw [zero_smul] at h0
    rw [key, h0]
  refine ⟨hl, ?_⟩
  have hg : C.gradF (C.rfftn 0) = fwd 0 (mulL msk (mulL msk (-join sOne))) := by
    have := gradF_mask_fwd (a := 0) q dOne sOne lmbda w msk (0 : One3)
    rw [padD_dOne, convOpT_imp, convOp_imp, zero_sub] at this
    exact this
  rw [hg]
  exact not_grad _ hl

/-- **C51, `hessian_f` of `ConvBPDNMask`.** It is inherited from `ConvBPDN` and ignores the mask, so
it is not the derivative of `grad_f`. -/
theorem C51_mask_hessian_refuted (q : COpts) (lmbda : ℝ) (w : Fin 1 × Fin 1 × Grid N3 → ℝ) :
    let C := clsBPDNMask 0 q dOne sOne lmbda w msk
    ¬ HessianOf C.gradF C.hessF := by
  intro C
  refine not_hess _ _ (fun t => ?_) ?_
  · have := gradF_mask_fwd (a := 0) q dOne sOne lmbda w msk (t • eOne)
    rw [padD_dOne, convOpT_imp, convOp_imp, msk_line] at this
    exact this
  · change conjDf dOne (opF dOne (fwd 0 eOne)) = _
    rw [opF_fwd, conjDf_fwd, padD_dOne, convOp_imp, convOpT_imp]

theorem swp_one (x : One3) : swp x = x := by
  ext ⟨i, j, p⟩
  change x (j, i, p) = x (i, j, p)
  rw [Subsingleton.elim i j]

theorem modOp_imp (x : One3) : modOp imp x = x := by
  change swp (convOp imp x) = x
  rw [convOp_imp, swp_one]

theorem modOpT_imp (x : One3) : modOpT imp x = x := by
  change convOpT imp (swp x) = x
  rw [convOpT_imp, swp_one]

/-- **C51, `obfn_f` of `ConvCnstrMODMask`**, in the same way. -/
theorem C51_dictmask_obfn_refuted (Pcn : One3 → One3) :
    let C := clsMODMask 0 Pcn imp sOne msk
    (∀ t : ℝ, C.obfnF (C.rfftn (t • eOne)) = C.obfnF (C.rfftn 0)) ∧
    ¬ HasGradientAt C.obfnF (C.gradF (C.rfftn 0)) (C.rfftn 0) := by
  intro C
  have hl : ∀ t : ℝ, C.obfnF (fwd 0 (t • eOne)) = C.obfnF (fwd 0 (0 : One3)) := by
    have key : ∀ t : ℝ, C.obfnF (fwd 0 (t • eOne)) = 1 / 2 * ‖fwd (N := N3) 0 (-mulL msk (join sOne))‖ ^ 2 := by
      intro t
      change 1 / 2 * ‖fwd 0 (mulL msk (bwd 0 (evalRfD imp sOne (fwd 0 (t • eOne)))))‖ ^ 2 = _
      rw [evalRfD_fwd, bwd_fwd, modOp_imp, msk_line]
    intro t
    have h0 := key 0
    rw [zero_smul] at h0
    rw [key, h0]
  refine ⟨hl, ?_⟩
  have hg : C.gradF (C.rfftn 0) = fwd 0 (mulL msk (mulL msk (-join sOne))) := by
    change conjZf imp (fwd 0 (mulW _ (bwd 0 (evalRfD imp sOne (fwd 0 (0 : One3)))))) = _
    rw [evalRfD_fwd, bwd_fwd, mulW_sq, conjZf_fwd, modOpT_imp, modOp_imp, zero_sub]
  rw [hg]
  exact not_grad _ hl

/-- **C51, `hessian_f` of `ConvCnstrMODMask`**, in the same way. -/
theorem C51_dictmask_hessian_refuted (Pcn : One3 → One3) :
    let C := clsMODMask 0 Pcn imp sOne msk
    ¬ HessianOf C.gradF C.hessF := by
  intro C
  refine not_hess _ _ (fun t => ?_) ?_
  · change conjZf imp (fwd 0 (mulW _ (bwd 0 (evalRfD imp sOne (fwd 0 (t • eOne)))))) = _
    rw [evalRfD_fwd, bwd_fwd, mulW_sq, conjZf_fwd, modOpT_imp, modOp_imp, msk_line]
  · change conjZf imp (opZ imp (fwd 0 eOne)) = _
    rw [opZ_fwd, conjZf_fwd, modOp_imp, modOpT_imp]

/-! ## C46: the backtracking test -/

/-- A dictionary with one filter `(1, -1/2)`. -/
noncomputable def dTwo : Dict 0 (Fin 1) (d := 1) (fun _ => 2) :=
  fun _ _ i => if (i 0).val = 0 then 1 else -(1 / 2)

/-- The signal `(5, 2, 2)`. -/
def sTwo : Fin 1 → Fin 1 → Grid N3 → ℝ := fun _ _ p => if p 0 = 0 then 5 else 2

/-- The options without constraints. -/
def qNone : COpts := ⟨false, false, false⟩

/-- `ConvBPDN` with this data and `lmbda = 1/2`. -/
noncomputable def cTwo : ClsF (Coef (Fin 1) (Fin 1) N3) (HS (Fin 1) (Fin 1) N3 0) :=
  clsBPDN 0 qNone dTwo sTwo (1 / 2) fun _ => 1

/-- The point the first step leads to, `(7/2, 1/2, 0)`. -/
noncomputable def xTwo : One3 := sig3 fun z => if z = 0 then 7 / 2 else if z = 1 then 1 / 2 else 0

theorem padD_dTwo (z : ZMod 3) : padD N3 dTwo 0 0 (pt z) = if z = 0 then 1 else if z = 1 then -(1 / 2) else 0 := by
  unfold padD pad dTwo pt
  by_cases h0 : z = 0
  · subst h0; simp
  by_cases h1 : z = 1
  · subst h1
    rw [if_neg (by decide), if_pos rfl, dif_pos (fun k => show (1 : ZMod 3).val < 2 by decide)]
    exact if_neg (by decide)
  · have : z = 2 := by revert h0 h1; revert z; decide
    subst this
    rw [if_neg (by decide), if_neg (by decide), dif_neg]
    intro h
    exact absurd (h 0) (by decide)

theorem convOp_two (x : One3) (z : ZMod 3) : part (convOp (padD N3 dTwo) x) 0 0 (pt z) =
    part x 0 0 (pt z) - 1 / 2 * part x 0 0 (pt (z - 1)) := by
  rw [part_convOp]
  beta_reduce
  rw [Fin.sum_univ_one]
  unfold rconv
  rw [sum3, padD_dTwo, padD_dTwo, padD_dTwo, if_pos rfl, if_neg (by decide), if_pos rfl,
    if_neg (by decide), if_neg (by decide)]
  have e : ∀ y : ZMod 3, pt z - pt y = pt (z - y) := fun y => rfl
  rw [e, e, sub_zero]
  ring

theorem convOpT_two (x : One3) (z : ZMod 3) : part (convOpT (padD N3 dTwo) x) 0 0 (pt z) =
    part x 0 0 (pt z) - 1 / 2 * part x 0 0 (pt (z + 1)) := by
  rw [part_convOpT]
  beta_reduce
  rw [Fin.sum_univ_one]
  unfold rcorr
  rw [sum3, padD_dTwo, padD_dTwo, padD_dTwo, if_pos rfl, if_neg (by decide), if_pos rfl,
    if_neg (by decide), if_neg (by decide)]
  have e : ∀ y : ZMod 3, pt z + pt y = pt (z + y) := fun y => rfl
  rw [e, e, add_zero]
  ring

theorem ext3 {x y : One3} (h : ∀ z, part x 0 0 (pt z) = part y 0 0 (pt z)) : x = y := by
  ext ⟨i, j, p⟩
  rw [Subsingleton.elim i 0, Subsingleton.elim j 0]
  have : p = pt (p 0) := by funext k; rw [Subsingleton.elim k 0]; rfl
  rw [this]
  exact h _

/-- The spatial gradient at zero, `(-4, -1, 1/2)`. -/
noncomputable def gTwo : One3 := sig3 fun z => if z = 0 then -4 else if z = 1 then -1 else 1 / 2

theorem all3 {P : ZMod 3 → Prop} (h0 : P 0) (h1 : P 1) (h2 : P 2) (z : ZMod 3) : P z := by
  have : z = 0 ∨ z = 1 ∨ z = 2 := by revert z; decide
  rcases this with h | h | h <;> rw [h] <;> assumption

theorem vals3 {α : Type*} (a b c : α) : (fun z : ZMod 3 => if z = 0 then a else if z = 1 then b else c) 0 = a ∧
    (fun z : ZMod 3 => if z = 0 then a else if z = 1 then b else c) 1 = b ∧
    (fun z : ZMod 3 => if z = 0 then a else if z = 1 then b else c) 2 = c :=
  ⟨if_pos rfl, (if_neg (by decide)).trans (if_pos rfl), (if_neg (by decide)).trans (if_neg (by decide))⟩

theorem sTwo_vals : part (join sTwo) 0 0 (pt 0) = 5 ∧ part (join sTwo) 0 0 (pt 1) = 2 ∧
    part (join sTwo) 0 0 (pt 2) = 2 := by
  have e : ∀ z : ZMod 3, part (join sTwo) 0 0 (pt z) = if z = 0 then 5 else 2 := fun z => rfl
  rw [e, e, e]
  exact ⟨if_pos rfl, if_neg (by decide), if_neg (by decide)⟩

theorem xTwo_vals : part xTwo 0 0 (pt 0) = 7 / 2 ∧ part xTwo 0 0 (pt 1) = 1 / 2 ∧ part xTwo 0 0 (pt 2) = 0 :=
  vals3 _ _ _

theorem gTwo_vals : part gTwo 0 0 (pt 0) = -4 ∧ part gTwo 0 0 (pt 1) = -1 ∧ part gTwo 0 0 (pt 2) = 1 / 2 :=
  vals3 _ _ _

theorem part_neg (x : EuclideanSpace ℝ (A × B × Grid N)) (i : A) (j : B) (p : Grid N) :
    part (-x) i j p = -part x i j p := rfl

theorem part_smul' (r : ℝ) (x : EuclideanSpace ℝ (A × B × Grid N)) (i : A) (j : B) (p : Grid N) :
    part (r • x) i j p = r * part x i j p := rfl

theorem grad_two : convOpT (padD N3 dTwo) (convOp (padD N3 dTwo) 0 - join sTwo) = gTwo := by
  obtain ⟨s0, s1, s2⟩ := sTwo_vals
  obtain ⟨g0, g1, g2⟩ := gTwo_vals
  refine ext3 (all3 ?_ ?_ ?_) <;> rw [convOpT_two, map_zero, zero_sub, part_neg, part_neg]
  · rw [s0, g0, show (0 : ZMod 3) + 1 = 1 from rfl, s1]; norm_num
  · rw [s1, g1, show (1 : ZMod 3) + 1 = 2 from rfl, s2]; norm_num
  · rw [s2, g2, show (2 : ZMod 3) + 1 = 0 from rfl, s0]; norm_num

/-- Samples of the residual at `xTwo`. -/
theorem res_two : part (convOp (padD N3 dTwo) xTwo - join sTwo) 0 0 (pt 0) = -3 / 2 ∧
    part (convOp (padD N3 dTwo) xTwo - join sTwo) 0 0 (pt 1) = -13 / 4 ∧
    part (convOp (padD N3 dTwo) xTwo - join sTwo) 0 0 (pt 2) = -9 / 4 := by
  obtain ⟨s0, s1, s2⟩ := sTwo_vals
  obtain ⟨x0, x1, x2⟩ := xTwo_vals
  refine ⟨?_, ?_, ?_⟩ <;> rw [part_sub, convOp_two]
  · rw [s0, x0, show (0 : ZMod 3) - 1 = 2 from rfl, x2]; norm_num
  · rw [s1, x1, show (1 : ZMod 3) - 1 = 0 from rfl, x0]; norm_num
  · rw [s2, x2, show (2 : ZMod 3) - 1 = 1 from rfl, x1]; norm_num

theorem prox_two : cTwo.proxG 1 (-gTwo) = xTwo := by
  obtain ⟨x0, x1, x2⟩ := xTwo_vals
  obtain ⟨g0, g1, g2⟩ := gTwo_vals
  have key : ∀ z, part (cTwo.proxG 1 (-gTwo)) 0 0 (pt z) =
      proxL1 (-part gTwo 0 0 (pt z)) (1 / 2) := by
    intro z
    change proxL1 (-part gTwo 0 0 (pt z)) (1 / 2 / 1 * 1) = _
    norm_num
  refine ext3 (all3 ?_ ?_ ?_) <;> rw [key]
  · rw [g0, x0]; norm_num [proxL1, npSign, abs_of_pos]
  · rw [g1, x1]; norm_num [proxL1, npSign, abs_of_pos]
  · rw [g2, x2]; norm_num [proxL1, npSign, abs_of_pos]

theorem f_two : cTwo.obfnF (fwd 0 xTwo) = 821 / 32 := by
  change 1 / 2 * ‖evalRf dTwo sTwo (fwd 0 xTwo)‖ ^ 2 = _
  obtain ⟨r0, r1, r2⟩ := res_two
  have h := norm_fwd3 (convOp (padD N3 dTwo) xTwo - join sTwo)
  rw [norm3, r0, r1, r2] at h
  rw [evalRf_fwd]
  linarith

theorem q_two : Pgm.DFT.quadQ cTwo 1 (fwd 0 xTwo) (fwd 0 0) (cTwo.gradF (fwd 0 (0 : One3))) = 221 / 8 := by
  obtain ⟨s0, s1, s2⟩ := sTwo_vals
  obtain ⟨x0, x1, x2⟩ := xTwo_vals
  obtain ⟨g0, g1, g2⟩ := gTwo_vals
  have hg : cTwo.gradF (fwd 0 (0 : One3)) = fwd 0 gTwo := by
    have := gradF_fwd (a := 0) qNone dTwo sTwo (1 / 2) (fun _ => 1) (0 : One3)
    rw [grad_two] at this
    exact this
  unfold Pgm.DFT.quadQ
  rw [hg, ← fwd_sub, sub_zero]
  change 1 / 2 * ‖evalRf dTwo sTwo (fwd 0 (0 : One3))‖ ^ 2 + _ + _ = _
  have h1 := norm_fwd3 (convOp (padD N3 dTwo) 0 - join sTwo)
  rw [map_zero, zero_sub, norm3, part_neg, part_neg, part_neg, s0, s1, s2] at h1
  have h2 := inner_fwd3 xTwo gTwo
  rw [inner_part, Fin.sum_univ_one, Fin.sum_univ_one, sum3, x0, x1, x2, g0, g1, g2] at h2
  have h3 := norm_fwd3 xTwo
  rw [norm3, x0, x1, x2] at h3
  rw [evalRf_fwd, map_zero, zero_sub]
  linarith

/-- **C46 fails for the solvers working in the DFT domain.** The test compares sums over the half
spectrum, which do not weight the frequencies that stand for two.  With the filter `(1, -1/2)`, the
signal `(5, 2, 2)`, `lmbda = 1/2`, `L = 1` and the default start the first trial step is accepted
and L stays 1, but the quadratic model with `L = 1` is no upper bound at the accepted point for the
data fidelity term the solver minimises and records. -/
theorem C46_dft_refuted (o : Pgm.Opts) (gu : ℝ) (n : ℕ) (hb : o.backtrack = .standard gu (n + 1))
    (hm : o.monotone = false) (k : ℕ)
    (v : Pgm.VarsF (Coef (Fin 1) (Fin 1) N3) (HS (Fin 1) (Fin 1) N3 0)) (hY : v.Yf = cTwo.rfftn 0)
    (hL : v.L = 1) :
    let v' := Pgm.DFT.mainStep cTwo o k v
    v'.iterBT = some 1 ∧ v'.L = 1 ∧ v'.F = some (821 / 32) ∧ v'.Q = some (221 / 8) ∧
    ∀ g, HasGradientAt (fun x : Coef (Fin 1) (Fin 1) N3 => dataTerm dTwo sTwo (part x)) g 0 →
      dataTerm dTwo sTwo (part (0 : Coef (Fin 1) (Fin 1) N3)) + ⟪g, v'.X - 0⟫ +
        v'.L / 2 * ‖v'.X - 0‖ ^ 2 < dataTerm dTwo sTwo (part v'.X) := by
  intro v'
  have hp : o.stepPolicy = .none := by unfold Pgm.Opts.stepPolicy; rw [hb]
  obtain ⟨u, hu⟩ : ∃ u, u = Pgm.DFT.xstepG cTwo o k (cTwo.gradF v.Yf) v := ⟨_, rfl⟩
  have hg : cTwo.gradF (fwd 0 (0 : One3)) = fwd 0 gTwo := by
    have := gradF_fwd (a := 0) qNone dTwo sTwo (1 / 2) (fun _ => 1) (0 : One3)
    rw [grad_two] at this
    exact this
  have hY' : v.Yf = fwd 0 (0 : One3) := hY
  have hX : cTwo.proxG v.L (cTwo.irfftn (v.Yf - (1 / v.L) • cTwo.gradF v.Yf)) = xTwo := by
    rw [hL, hY', hg, div_one, one_smul, ← fwd_sub, zero_sub]
    change cTwo.proxG 1 (bwd 0 (fwd 0 (-gTwo))) = _
    rw [bwd_fwd, prox_two]
  have hu' : u = { v with X := xTwo, Xf := fwd 0 xTwo } := by
    rw [hu]
    simp only [Pgm.DFT.xstepG, Pgm.DFT.stepL, Pgm.DFT.storeBB, hp, Pgm.DFT.safeguard, hm]
    rw [hX]
    rfl
  have hacc : cTwo.obfnF u.Xf ≤ Pgm.DFT.quadQ cTwo u.L u.Xf u.Yf (cTwo.gradF v.Yf) := by
    rw [hu']
    change cTwo.obfnF (fwd 0 xTwo) ≤ Pgm.DFT.quadQ cTwo v.L (fwd 0 xTwo) v.Yf (cTwo.gradF v.Yf)
    rw [hL, hY', q_two, f_two]
    norm_num
  have hv : v' = Pgm.DFT.ystep o k { u with
      F := some (cTwo.obfnF u.Xf), Q := some (Pgm.DFT.quadQ cTwo u.L u.Xf u.Yf (cTwo.gradF v.Yf)),
      iterBT := some (0 + 1) } := by
    change Pgm.DFT.mainStep cTwo o k v = _
    unfold Pgm.DFT.mainStep
    rw [hb]
    simp only
    unfold Pgm.DFT.btLoop
    simp only
    rw [← hu, if_pos hacc]
  have hvX : v'.X = xTwo ∧ v'.L = 1 ∧ v'.iterBT = some 1 ∧ v'.F = some (821 / 32) ∧ v'.Q = some (221 / 8) := by
    rw [hv]
    simp only [Pgm.DFT.ystep, hm, hu', f_two, hL, hY', q_two]
    simp
  refine ⟨hvX.2.2.1, hvX.2.1, hvX.2.2.2.1, hvX.2.2.2.2, fun g hgr => ?_⟩
  have hN : ∀ k : Fin 1, (fun _ : Fin 1 => 2) k ≤ N3 k := fun _ => show 2 ≤ 3 by norm_num
  have h1 := (C51_convbpdn_spatial (a := 0) hN qNone dTwo sTwo (1 / 2) (fun _ => 1) (0 : One3)).2
  have h2 : g = gTwo := by
    rw [hgr.unique h1]
    change bwd 0 (cTwo.gradF (fwd 0 0)) = _
    rw [hg, bwd_fwd]
  obtain ⟨s0, s1, s2⟩ := sTwo_vals
  obtain ⟨x0, x1, x2⟩ := xTwo_vals
  obtain ⟨g0, g1, g2⟩ := gTwo_vals
  obtain ⟨r0, r1, r2⟩ := res_two
  rw [h2, hvX.1, hvX.2.1, sub_zero, dataTerm_eq hN, dataTerm_eq hN, map_zero, zero_sub, norm_neg, norm3, norm3,
    norm3, inner_part, Fin.sum_univ_one, Fin.sum_univ_one, sum3, x0, x1, x2, g0, g1, g2, s0, s1, s2, r0, r1, r2]
  norm_num

end Sporco.PgmConv
