import Verif.Pgm.ConvModel

/-!
# The gradients of the convolutional PGM classes (C51)
-/

set_option autoImplicit false
set_option linter.unusedSectionVars false

namespace Sporco.PgmConv

open Finset ComplexConjugate Sporco.Prox
open Sporco.Conv
open Sporco.Pgm (ClsF grad_ls HessianOf)
open scoped RealInnerProductSpace

variable {d c : ℕ} {N Nd : Fin d → ℕ} [∀ k, NeZero (N k)] {A B K M : Type*} [Fintype A] [Fintype B]
  [Fintype K] [Fintype M] {a : Fin d}

/-! ## Specification -/

/-- `(1/2) ‖W (∑ₘ d_m * x_m - s)‖²`. -/
noncomputable def maskTerm (D : Dict c M Nd) (S W : Signal c K N) (X : K → M → Grid N → ℝ) : ℝ :=
  1 / 2 * ∑ i, ∑ k, ∑ p, (W i k p * (recon D X i k p - S i k p)) ^ 2

/-- `(1/2) ∑ₖ ‖∑ₘ z_{k,m} * d_m - s_k‖²` as a function of the dictionary `X`. -/
noncomputable def dictTerm (Z : K → M → Grid N → ℝ) (S : A → K → Grid N → ℝ) (X : A → M → Grid N → ℝ) : ℝ :=
  1 / 2 * ∑ i, ∑ k, ∑ p, (∑ m, ∑ y, Z k m y * X i m (p - y) - S i k p) ^ 2

/-- `(1/2) ∑ₖ ‖W (∑ₘ z_{k,m} * d_m - s_k)‖²`. -/
noncomputable def dictMaskTerm (Z : K → M → Grid N → ℝ) (S W : A → K → Grid N → ℝ)
    (X : A → M → Grid N → ℝ) : ℝ :=
  1 / 2 * ∑ i, ∑ k, ∑ p, (W i k p * (∑ m, ∑ y, Z k m y * X i m (p - y) - S i k p)) ^ 2

/-! ## Half spectra -/

theorem hs_ext {u v : HS A B N a} (h : ∀ i j ξ, u (i, j, ξ) = v (i, j, ξ)) : u = v := by
  ext ⟨i, j, ξ⟩; exact h i j ξ

theorem inner_hs (u v : HS A B N a) :
    ⟪u, v⟫ = ∑ i, ∑ j, ∑ ξ, (conj (u (i, j, ξ)) * v (i, j, ξ)).re := by
  rw [PiLp.inner_apply, Fintype.sum_prod_type]
  refine sum_congr rfl fun i _ => ?_
  rw [Fintype.sum_prod_type]
  refine sum_congr rfl fun j _ => sum_congr rfl fun ξ _ => ?_
  rw [Complex.inner, mul_comm]

theorem norm_hs (u : HS A B N a) : ‖u‖ ^ 2 = ∑ i, ∑ j, ∑ ξ, ‖u (i, j, ξ)‖ ^ 2 := by
  rw [EuclideanSpace.norm_sq_eq, Fintype.sum_prod_type]
  refine sum_congr rfl fun i _ => ?_
  rw [Fintype.sum_prod_type]

theorem fwd_apply (x : EuclideanSpace ℝ (A × B × Grid N)) (i : A) (j : B) (ξ : Half N a) :
    fwd a x (i, j, ξ) = rf (part x i j) ξ.1 := rfl

theorem fwd_add (x y : EuclideanSpace ℝ (A × B × Grid N)) : fwd a (x + y) = fwd a x + fwd a y :=
  hs_ext fun i j ξ => rf_add (part x i j) (part y i j) ξ.1

theorem fwd_sub (x y : EuclideanSpace ℝ (A × B × Grid N)) : fwd a (x - y) = fwd a x - fwd a y :=
  hs_ext fun i j ξ => rf_sub (part x i j) (part y i j) ξ.1

theorem fwd_smul (r : ℝ) (x : EuclideanSpace ℝ (A × B × Grid N)) : fwd a (r • x) = r • fwd a x :=
  hs_ext fun i j ξ => by
    change rf (fun p => r * part x i j p) ξ.1 = r • rf (part x i j) ξ.1
    rw [rf_smul, Complex.real_smul]

theorem bwd_fwd (x : EuclideanSpace ℝ (A × B × Grid N)) : bwd a (fwd a x) = x := by
  have : bwd a (fwd a x) = join (part x) := by
    unfold bwd
    congr 1
    funext i j
    exact irfft_rfft a (part x i j)
  rw [this, join_part]

/-! ## `ConvBPDN` -/

/-- `inner(self.Df, V, axis=self.cri.axisM)` as a linear map. -/
noncomputable def opF (D : Dict c M Nd) : HS K M N a →L[ℝ] HS (Fin (c + 1)) K N a :=
  LinearMap.toContinuousLinearMap
    { toFun := fun V => WithLp.toLp 2 fun i =>
        Linalg.inner (fun m => dictF a D i.1 m i.2.2) (fun m => V (i.2.1, m, i.2.2))
      map_add' := fun x y => hs_ext fun i j ξ => by
        change ∑ m, _ * (x (j, m, ξ) + y (j, m, ξ)) = ∑ m, _ + ∑ m, _
        simp only [mul_add, sum_add_distrib]
      map_smul' := fun r x => hs_ext fun i j ξ => by
        change ∑ m, _ * (r • x (j, m, ξ)) = r • ∑ m, _
        rw [smul_sum]
        exact sum_congr rfl fun m _ => mul_smul_comm _ _ _ }

/-- `conjDf` as a linear map. -/
noncomputable def opFT (D : Dict c M Nd) : HS (Fin (c + 1)) K N a →L[ℝ] HS K M N a :=
  LinearMap.toContinuousLinearMap
    { toFun := conjDf D
      map_add' := fun x y => hs_ext fun k m ξ => by
        change ∑ i, _ * (x (i, k, ξ) + y (i, k, ξ)) = ∑ i, _ + ∑ i, _
        simp only [mul_add, sum_add_distrib]
      map_smul' := fun r x => hs_ext fun k m ξ => by
        change ∑ i, _ * (r • x (i, k, ξ)) = r • ∑ i, _
        rw [smul_sum]
        exact sum_congr rfl fun m _ => mul_smul_comm _ _ _ }

theorem opF_apply (D : Dict c M Nd) (V : HS K M N a) (i : Fin (c + 1)) (k : K) (ξ : Half N a) :
    opF D V (i, k, ξ) = ∑ m, dictF a D i m ξ * V (k, m, ξ) := rfl

theorem conjDf_apply (D : Dict c M Nd) (R : HS (Fin (c + 1)) K N a) (k : K) (m : M) (ξ : Half N a) :
    conjDf D R (k, m, ξ) = ∑ i, conj (dictF a D i m ξ) * R (i, k, ξ) := rfl

theorem opF_adj (D : Dict c M Nd) (x : HS K M N a) (y : HS (Fin (c + 1)) K N a) :
    ⟪opF D x, y⟫ = ⟪x, opFT D y⟫ := by
  rw [inner_hs, inner_hs]
  change _ = ∑ k, ∑ m, ∑ ξ, (conj (x (k, m, ξ)) * ∑ i, conj (dictF a D i m ξ) * y (i, k, ξ)).re
  simp only [opF_apply, map_sum, map_mul, sum_mul, mul_sum, Complex.re_sum]
  rw [sum_comm]
  refine sum_congr rfl fun k _ => ?_
  have e1 : ∀ i : Fin (c + 1), ∑ ξ, ∑ m, (conj (dictF a D i m ξ) * conj (x (k, m, ξ)) * y (i, k, ξ)).re =
      ∑ m, ∑ ξ, (conj (dictF a D i m ξ) * conj (x (k, m, ξ)) * y (i, k, ξ)).re := fun i => sum_comm
  simp only [e1]
  rw [sum_comm]
  refine sum_congr rfl fun m _ => ?_
  rw [sum_comm]
  refine sum_congr rfl fun ξ _ => sum_congr rfl fun i _ => ?_
  congr 1
  ring

theorem evalRf_eq (D : Dict c M Nd) (S : Signal c K N) (V : HS K M N a) :
    evalRf D S V = opF D V - fwd a (join S) := rfl

theorem opF_fwd (D : Dict c M Nd) (x : Coef K M N) :
    opF D (fwd a x) = fwd a (convOp (padD N D) x) := hs_ext fun i k ξ => by
  rw [opF_apply, fwd_apply, part_convOp, rf_sum]
  exact sum_congr rfl fun m _ => (rf_rconv _ _ _).symm

theorem conjDf_fwd (D : Dict c M Nd) (r : Sig (Fin (c + 1)) K N) :
    conjDf D (fwd a r) = fwd a (convOpT (padD N D) r) := hs_ext fun k m ξ => by
  rw [conjDf_apply, fwd_apply, part_convOpT, rf_sum]
  exact sum_congr rfl fun i _ => (rf_rcorr _ _ _).symm

theorem evalRf_fwd (D : Dict c M Nd) (S : Signal c K N) (x : Coef K M N) :
    evalRf D S (fwd a x) = fwd a (convOp (padD N D) x - join S) := by
  rw [evalRf_eq, opF_fwd, fwd_sub]

theorem hnorm2_fwd (x : EuclideanSpace ℝ (A × B × Grid N)) : hnorm2 (fwd a x) = ‖x‖ ^ 2 := by
  have h := C32_rfl2norm2 a (fun p : A × B => part x p.1 p.2)
  rw [norm_part, ← Fintype.sum_prod_type' (f := fun i j => ∑ p, part x i j p ^ 2), ← h]
  rfl

theorem gradF_fwd (q : COpts) (D : Dict c M Nd) (S : Signal c K N) (lmbda : ℝ)
    (w : K × M × Grid N → ℝ) (x : Coef K M N) :
    (clsBPDN a q D S lmbda w).gradF (fwd a x) =
      fwd a (convOpT (padD N D) (convOp (padD N D) x - join S)) := by
  change conjDf D (evalRf D S (fwd a x)) = _
  rw [evalRf_fwd, conjDf_fwd]

theorem dfd_fwd (hN : ∀ k, Nd k ≤ N k) (q : COpts) (D : Dict c M Nd) (S : Signal c K N) (lmbda : ℝ)
    (w : K × M × Grid N → ℝ) (x : Coef K M N) :
    ((clsBPDN a q D S lmbda w).evalObj x (fwd a x)).2.1 = dataTerm D S (part x) := by
  change hnorm2 (evalRf D S (fwd a x)) / 2 = _
  rw [evalRf_fwd, hnorm2_fwd, dataTerm_eq hN]
  ring

/-- **C51 for `ConvBPDN`.** In the array of half spectra, `grad_f` is the gradient of `obfn_f` and
`hessian_f` its derivative. -/
theorem C51_convbpdn (q : COpts) (D : Dict c M Nd) (S : Signal c K N) (lmbda : ℝ)
    (w : K × M × Grid N → ℝ) :
    let C := clsBPDN a q D S lmbda w
    (∀ x, HasGradientAt C.obfnF (C.gradF x) x) ∧ HessianOf C.gradF C.hessF := by
  refine ⟨fun x => ?_, (opFT D).comp (opF (K := K) D), fun _ => rfl, fun x => ?_⟩
  · exact grad_ls (opF (K := K) D) (fwd a (join S)) (fun y => opFT D y) (fun x y => opF_adj D x y) x
  have e : (clsBPDN a q D S lmbda w).gradF =
      fun V => ((opFT D).comp (opF D)) V - opFT D (fwd a (join S)) := by
    funext V
    change opFT D (opF D V - fwd a (join S)) = _
    rw [map_sub]
    rfl
  rw [e]
  exact (ContinuousLinearMap.hasFDerivAt _).sub_const _

/-- **C51 for `ConvBPDN`, spatial domain.** The data fidelity term recorded by the solver is
`(1/2) ‖∑ₘ d_m * x_m - s‖²`, and the inverse transform of `grad_f` is the gradient of that term with
respect to the coefficient maps. -/
theorem C51_convbpdn_spatial (hN : ∀ k, Nd k ≤ N k) (q : COpts) (D : Dict c M Nd) (S : Signal c K N)
    (lmbda : ℝ) (w : K × M × Grid N → ℝ) (x : Coef K M N) :
    let C := clsBPDN a q D S lmbda w
    (C.evalObj x (C.rfftn x)).2.1 = dataTerm D S (part x) ∧
    HasGradientAt (fun x : Coef K M N => dataTerm D S (part x)) (C.irfftn (C.gradF (C.rfftn x))) x := by
  refine ⟨dfd_fwd hN q D S lmbda w x, ?_⟩
  change HasGradientAt _ (bwd a ((clsBPDN a q D S lmbda w).gradF (fwd a x))) x
  rw [gradF_fwd, bwd_fwd]
  simp only [dataTerm_eq hN]
  exact grad_ls (convOp (K := K) (padD N D)) (join S) (fun y => convOpT (padD N D) y)
    (fun x y => convOp_adj (padD N D) x y) x

/-! ## `ConvBPDNMask` -/

/-- `mulW` as a linear map. -/
noncomputable def mulL (W : A → B → Grid N → ℝ) :
    EuclideanSpace ℝ (A × B × Grid N) →L[ℝ] EuclideanSpace ℝ (A × B × Grid N) :=
  LinearMap.toContinuousLinearMap
    { toFun := mulW W
      map_add' := fun x y => by
        ext ⟨i, j, p⟩
        exact mul_add _ _ _
      map_smul' := fun r x => by
        ext ⟨i, j, p⟩
        change W i j p * (r * x (i, j, p)) = r * (W i j p * x (i, j, p))
        ring }

theorem mulL_adj (W : A → B → Grid N → ℝ) (x y : EuclideanSpace ℝ (A × B × Grid N)) :
    ⟪mulL W x, y⟫ = ⟪x, mulL W y⟫ := by
  rw [inner_part, inner_part]
  refine sum_congr rfl fun i _ => sum_congr rfl fun j _ => sum_congr rfl fun p _ => ?_
  change W i j p * part x i j p * part y i j p = part x i j p * (W i j p * part y i j p)
  ring

theorem mulW_sq (W : A → B → Grid N → ℝ) (x : EuclideanSpace ℝ (A × B × Grid N)) :
    mulW (fun i j p => W i j p ^ 2) x = mulL W (mulL W x) := by
  ext ⟨i, j, p⟩
  change W i j p ^ 2 * x (i, j, p) = W i j p * (W i j p * x (i, j, p))
  ring

theorem maskTerm_eq (hN : ∀ k, Nd k ≤ N k) (D : Dict c M Nd) (S W : Signal c K N) (x : Coef K M N) :
    maskTerm D S W (part x) = 1 / 2 * ‖mulL W (convOp (padD N D) x - join S)‖ ^ 2 := by
  unfold maskTerm recon
  rw [norm_part]
  congr 1
  refine sum_congr rfl fun i _ => sum_congr rfl fun k _ => sum_congr rfl fun p _ => ?_
  simp only [← rconv_pad hN]
  rfl

theorem gradF_mask_fwd (q : COpts) (D : Dict c M Nd) (S : Signal c K N) (lmbda : ℝ)
    (w : K × M × Grid N → ℝ) (W : Signal c K N) (x : Coef K M N) :
    (clsBPDNMask a q D S lmbda w W).gradF (fwd a x) =
      fwd a (convOpT (padD N D) (mulL W (mulL W (convOp (padD N D) x - join S)))) := by
  change conjDf D (fwd a (mulW _ (bwd a (evalRf D S (fwd a x))))) = _
  rw [evalRf_fwd, bwd_fwd, mulW_sq, conjDf_fwd]

/-- **C51 for `ConvBPDNMask`, spatial domain.** The recorded data fidelity term is
`(1/2) ‖W (∑ₘ d_m * x_m - s)‖²`, and the inverse transform of `grad_f` is its gradient.  (Missing:
`obfn_f` and `hessian_f`, see `C51_mask_obfn_refuted` and `C51_mask_hessian_refuted`.) -/
theorem C51_convbpdnmask_spatial_partial (hN : ∀ k, Nd k ≤ N k) (q : COpts) (D : Dict c M Nd)
    (S : Signal c K N) (lmbda : ℝ) (w : K × M × Grid N → ℝ) (W : Signal c K N) (x : Coef K M N) :
    let C := clsBPDNMask a q D S lmbda w W
    (C.evalObj x (C.rfftn x)).2.1 = maskTerm D S W (part x) ∧
    HasGradientAt (fun x : Coef K M N => maskTerm D S W (part x)) (C.irfftn (C.gradF (C.rfftn x))) x := by
  constructor
  · change ‖mulL W (bwd a (evalRf D S (fwd a x)))‖ ^ 2 / 2 = _
    rw [evalRf_fwd, bwd_fwd, maskTerm_eq hN]
    ring
  · change HasGradientAt _ (bwd a ((clsBPDNMask a q D S lmbda w W).gradF (fwd a x))) x
    rw [gradF_mask_fwd, bwd_fwd]
    simp only [maskTerm_eq hN]
    have h := grad_ls ((mulL W).comp (convOp (K := K) (padD N D))) (mulL W (join S))
      (fun y => convOpT (padD N D) (mulL W y)) (fun x y => by
        rw [ContinuousLinearMap.comp_apply, mulL_adj, convOp_adj]) x
    simp only [ContinuousLinearMap.comp_apply, ← map_sub (mulL W)] at h
    exact h

/-! ## `ConvCnstrMOD` -/

/-- `inner(self.Zf, V, axis=self.cri.axisM)` as a linear map. -/
noncomputable def opZ (Z : K → M → Grid N → ℝ) : HS A M N a →L[ℝ] HS A K N a :=
  LinearMap.toContinuousLinearMap
    { toFun := fun V => WithLp.toLp 2 fun i =>
        Linalg.inner (fun m => coefF a Z i.2.1 m i.2.2) (fun m => V (i.1, m, i.2.2))
      map_add' := fun x y => hs_ext fun i j ξ => by
        change ∑ m, _ * (x (i, m, ξ) + y (i, m, ξ)) = ∑ m, _ + ∑ m, _
        simp only [mul_add, sum_add_distrib]
      map_smul' := fun r x => hs_ext fun i j ξ => by
        change ∑ m, _ * (r • x (i, m, ξ)) = r • ∑ m, _
        rw [smul_sum]
        exact sum_congr rfl fun m _ => mul_smul_comm _ _ _ }

/-- `conjZf` as a linear map. -/
noncomputable def opZT (Z : K → M → Grid N → ℝ) : HS A K N a →L[ℝ] HS A M N a :=
  LinearMap.toContinuousLinearMap
    { toFun := conjZf Z
      map_add' := fun x y => hs_ext fun i m ξ => by
        change ∑ k, _ * (x (i, k, ξ) + y (i, k, ξ)) = ∑ k, _ + ∑ k, _
        simp only [mul_add, sum_add_distrib]
      map_smul' := fun r x => hs_ext fun i m ξ => by
        change ∑ k, _ * (r • x (i, k, ξ)) = r • ∑ k, _
        rw [smul_sum]
        exact sum_congr rfl fun m _ => mul_smul_comm _ _ _ }

theorem opZ_apply (Z : K → M → Grid N → ℝ) (V : HS A M N a) (i : A) (k : K) (ξ : Half N a) :
    opZ Z V (i, k, ξ) = ∑ m, rf (Z k m) ξ.1 * V (i, m, ξ) := rfl

theorem conjZf_apply (Z : K → M → Grid N → ℝ) (R : HS A K N a) (i : A) (m : M) (ξ : Half N a) :
    conjZf Z R (i, m, ξ) = ∑ k, conj (rf (Z k m) ξ.1) * R (i, k, ξ) := rfl

theorem opZ_adj (Z : K → M → Grid N → ℝ) (x : HS A M N a) (y : HS A K N a) :
    ⟪opZ Z x, y⟫ = ⟪x, opZT Z y⟫ := by
  rw [inner_hs, inner_hs]
  change _ = ∑ i, ∑ m, ∑ ξ, (conj (x (i, m, ξ)) * ∑ k, conj (rf (Z k m) ξ.1) * y (i, k, ξ)).re
  simp only [opZ_apply, map_sum, map_mul, sum_mul, mul_sum, Complex.re_sum]
  refine sum_congr rfl fun i _ => ?_
  have e1 : ∀ k : K, ∑ ξ : Half N a, ∑ m, (conj (rf (Z k m) ξ.1) * conj (x (i, m, ξ)) * y (i, k, ξ)).re =
      ∑ m, ∑ ξ : Half N a, (conj (rf (Z k m) ξ.1) * conj (x (i, m, ξ)) * y (i, k, ξ)).re := fun i => sum_comm
  simp only [e1]
  rw [sum_comm]
  refine sum_congr rfl fun m _ => ?_
  rw [sum_comm]
  refine sum_congr rfl fun ξ _ => sum_congr rfl fun i _ => ?_
  congr 1
  ring

/-- Exchange of the first two indices. -/
noncomputable def swp : EuclideanSpace ℝ (A × B × Grid N) →L[ℝ] EuclideanSpace ℝ (B × A × Grid N) :=
  LinearMap.toContinuousLinearMap
    { toFun := fun x => join fun i j => part x j i
      map_add' := fun _ _ => rfl
      map_smul' := fun _ _ => rfl }

theorem swp_adj (x : EuclideanSpace ℝ (A × B × Grid N)) (y : EuclideanSpace ℝ (B × A × Grid N)) :
    ⟪swp x, y⟫ = ⟪x, swp y⟫ := by
  rw [inner_part, inner_part, sum_comm]
  rfl

/-- The sum of convolutions as a function of the dictionary. -/
noncomputable def modOp (Z : K → M → Grid N → ℝ) : Coef A M N →L[ℝ] Sig A K N := swp.comp (convOp Z)

/-- Its adjoint. -/
noncomputable def modOpT (Z : K → M → Grid N → ℝ) : Sig A K N →L[ℝ] Coef A M N := (convOpT Z).comp swp

theorem modOp_adj (Z : K → M → Grid N → ℝ) (x : Coef A M N) (s : Sig A K N) :
    ⟪modOp Z x, s⟫ = ⟪x, modOpT Z s⟫ := by
  unfold modOp modOpT
  rw [ContinuousLinearMap.comp_apply, ContinuousLinearMap.comp_apply, swp_adj, convOp_adj]

theorem dictTerm_eq (Z : K → M → Grid N → ℝ) (S : A → K → Grid N → ℝ) (x : Coef A M N) :
    dictTerm Z S (part x) = 1 / 2 * ‖modOp Z x - join S‖ ^ 2 := by
  unfold dictTerm
  rw [norm_part]
  rfl

theorem dictMaskTerm_eq (Z : K → M → Grid N → ℝ) (S W : A → K → Grid N → ℝ) (x : Coef A M N) :
    dictMaskTerm Z S W (part x) = 1 / 2 * ‖mulL W (modOp Z x - join S)‖ ^ 2 := by
  unfold dictMaskTerm
  rw [norm_part]
  rfl

theorem opZ_fwd (Z : K → M → Grid N → ℝ) (x : Coef A M N) :
    opZ Z (fwd a x) = fwd a (modOp Z x) := hs_ext fun i k ξ => by
  have e : part (modOp Z x) i k = fun p => ∑ m, rconv (Z k m) (part x i m) p := rfl
  rw [opZ_apply, fwd_apply, e, rf_sum]
  exact sum_congr rfl fun m _ => (rf_rconv _ _ _).symm

theorem conjZf_fwd (Z : K → M → Grid N → ℝ) (r : Sig A K N) :
    conjZf Z (fwd a r) = fwd a (modOpT Z r) := hs_ext fun i m ξ => by
  have e : part (modOpT Z r) i m = fun p => ∑ k, rcorr (Z k m) (part r i k) p := rfl
  rw [conjZf_apply, fwd_apply, e, rf_sum]
  exact sum_congr rfl fun i _ => (rf_rcorr _ _ _).symm

theorem evalRfD_eq (Z : K → M → Grid N → ℝ) (S : A → K → Grid N → ℝ) (V : HS A M N a) :
    evalRfD Z S V = opZ Z V - fwd a (join S) := rfl

theorem evalRfD_fwd (Z : K → M → Grid N → ℝ) (S : A → K → Grid N → ℝ) (x : Coef A M N) :
    evalRfD Z S (fwd a x) = fwd a (modOp Z x - join S) := by
  rw [evalRfD_eq, opZ_fwd, fwd_sub]

/-- **C51 for `ConvCnstrMOD`.** -/
theorem C51_convcnstrmod (Pcn : Coef A M N → Coef A M N) (Z : K → M → Grid N → ℝ)
    (S : A → K → Grid N → ℝ) :
    let C := clsMOD a Pcn Z S
    (∀ x, HasGradientAt C.obfnF (C.gradF x) x) ∧ HessianOf C.gradF C.hessF := by
  refine ⟨fun x => ?_, (opZT Z).comp (opZ (A := A) Z), fun _ => rfl, fun x => ?_⟩
  · exact grad_ls (opZ (A := A) Z) (fwd a (join S)) (fun y => opZT Z y) (fun x y => opZ_adj Z x y) x
  have e : (clsMOD a Pcn Z S).gradF =
      fun V => ((opZT Z).comp (opZ Z)) V - opZT Z (fwd a (join S)) := by
    funext V
    change opZT Z (opZ Z V - fwd a (join S)) = _
    rw [map_sub]
    rfl
  rw [e]
  exact (ContinuousLinearMap.hasFDerivAt _).sub_const _

/-- **C51 for `ConvCnstrMOD`, spatial domain.** The recorded data fidelity term is
`(1/2) ∑ₖ ‖∑ₘ z_{k,m} * d_m - s_k‖²`, and the inverse transform of `grad_f` is its gradient with
respect to the dictionary. -/
theorem C51_convcnstrmod_spatial (Pcn : Coef A M N → Coef A M N) (Z : K → M → Grid N → ℝ)
    (S : A → K → Grid N → ℝ) (x : Coef A M N) :
    let C := clsMOD a Pcn Z S
    (C.evalObj x (C.rfftn x)).1 = dictTerm Z S (part x) ∧
    HasGradientAt (fun x : Coef A M N => dictTerm Z S (part x)) (C.irfftn (C.gradF (C.rfftn x))) x := by
  constructor
  · change hnorm2 (evalRfD Z S (fwd a x)) / 2 = _
    rw [evalRfD_fwd, hnorm2_fwd, dictTerm_eq]
    ring
  · change HasGradientAt _ (bwd a (conjZf Z (evalRfD Z S (fwd a x)))) x
    rw [evalRfD_fwd, conjZf_fwd, bwd_fwd]
    simp only [dictTerm_eq]
    exact grad_ls (modOp (A := A) Z) (join S) (fun y => modOpT Z y) (fun x y => modOp_adj Z x y) x

/-- **C51 for `ConvCnstrMODMask`, spatial domain.** (Missing: `obfn_f` and `hessian_f`, see
`C51_dictmask_obfn_refuted` and `C51_dictmask_hessian_refuted`.) -/
theorem C51_convcnstrmodmask_spatial_partial (Pcn : Coef A M N → Coef A M N) (Z : K → M → Grid N → ℝ)
    (S W : A → K → Grid N → ℝ) (x : Coef A M N) :
    let C := clsMODMask a Pcn Z S W
    (C.evalObj x (C.rfftn x)).1 = dictMaskTerm Z S W (part x) ∧
    HasGradientAt (fun x : Coef A M N => dictMaskTerm Z S W (part x))
      (C.irfftn (C.gradF (C.rfftn x))) x := by
  constructor
  · change ‖mulL W (bwd a (evalRfD Z S (fwd a x)))‖ ^ 2 / 2 = _
    rw [evalRfD_fwd, bwd_fwd, dictMaskTerm_eq]
    ring
  · change HasGradientAt _ (bwd a (conjZf Z (fwd a (mulW _ (bwd a (evalRfD Z S (fwd a x))))))) x
    rw [evalRfD_fwd, bwd_fwd, mulW_sq, conjZf_fwd, bwd_fwd]
    simp only [dictMaskTerm_eq]
    have h := grad_ls ((mulL W).comp (modOp (A := A) Z)) (mulL W (join S))
      (fun y => modOpT Z (mulL W y)) (fun x y => by
        rw [ContinuousLinearMap.comp_apply, mulL_adj, modOp_adj]) x
    simp only [ContinuousLinearMap.comp_apply, ← map_sub (mulL W)] at h
    exact h

end Sporco.PgmConv
