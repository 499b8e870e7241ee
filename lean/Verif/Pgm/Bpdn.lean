import Verif.Pgm.Mono
import Verif.Admm.BpdnConv
import Mathlib.Analysis.InnerProductSpace.Calculus

/-!
# `pgm/bpdn.py` and `pgm/cmod.py`: gradients (C51), step-size policies (C49), rate (C45)

Real data.  `L1Weight` and `W` are already broadcast to the shape of the array they multiply.
-/

set_option autoImplicit false

namespace Sporco.Pgm

open Matrix
open Sporco.Admm (Arr mat arr dmul dmul_apply dmul_adj norm_arr norm_mat fro2 inner_arr)
open Sporco.Admm.Bpdn (gystep coefs objBPDN allowed coefs_allowed l1wMat)
open Sporco.Prox (proxL1Arr normL1 l1w)
open scoped RealInnerProductSpace

variable {N M K : ℕ}

/-! ## Model -/

/-- `BPDN` of `pgm/bpdn.py`: `grad_f` 176-182, `prox_g` 186-193, `hessian_f` 197-201,
`obfn_f` 227-233, `obfn_reg` 217-223. -/
noncomputable def clsBPDN (D : Matrix (Fin N) (Fin M) ℝ) (S : Matrix (Fin N) (Fin K) ℝ) (lmbda : ℝ)
    (wl1 : Fin M × Fin K → ℝ) (nonNeg : Bool) : Cls (Arr M K) where
  gradF V := arr (Dᵀ * (D * mat V - S))
  proxG L V := WithLp.toLp 2 (gystep nonNeg (proxL1Arr V.ofLp fun i => lmbda / L * wl1 i))
  hessF V := arr (Dᵀ * (D * mat V))
  obfnF X := 1 / 2 * ‖arr (D * mat X - S)‖ ^ 2
  obfnG X := lmbda * normL1 (fun i => wl1 i * X i)

/-- Entry-wise product of arrays. -/
def had {m k : ℕ} (W R : Matrix (Fin m) (Fin k) ℝ) : Matrix (Fin m) (Fin k) ℝ :=
  Matrix.of fun i j => W i j * R i j

/-- `WeightedBPDN` of `pgm/bpdn.py`: `grad_f` 352-358, `obfn_f` 362-369; `hessian_f` is
inherited from `BPDN`. -/
noncomputable def clsWBPDN (D : Matrix (Fin N) (Fin M) ℝ) (S : Matrix (Fin N) (Fin K) ℝ) (lmbda : ℝ)
    (wl1 : Fin M × Fin K → ℝ) (nonNeg : Bool) (W : Matrix (Fin N) (Fin K) ℝ) : Cls (Arr M K) where
  gradF V := arr (Dᵀ * had W (D * mat V - S))
  proxG := (clsBPDN D S lmbda wl1 nonNeg).proxG
  hessF := (clsBPDN D S lmbda wl1 nonNeg).hessF
  obfnF X := 1 / 2 * ‖arr (had (Matrix.of fun i j => Real.sqrt (W i j)) (D * mat X - S))‖ ^ 2
  obfnG := (clsBPDN D S lmbda wl1 nonNeg).obfnG

/-- `CnstrMOD` of `pgm/cmod.py`: `grad_f` 169-176, `prox_g` 180-183, `hessian_f` 187-192,
`obfn_f` 207-214.  The dictionary has shape `(N, M)`, `Z` shape `(M, K)`.  `Pcn` is the
projection chosen by `getPcn` (342-369).  `eval_objfn` (196-203) returns `obfn_f` first. -/
noncomputable def clsCMOD (Z : Matrix (Fin M) (Fin K) ℝ) (S : Matrix (Fin N) (Fin K) ℝ)
    (Pcn : Arr N M → Arr N M) : Cls (Arr N M) where
  gradF V := arr ((mat V * Z - S) * Zᵀ)
  proxG _ V := Pcn V
  hessF V := arr (mat V * Z * Zᵀ)
  obfnF X := 1 / 2 * ‖arr (mat X * Z - S)‖ ^ 2
  obfnG _ := 0

/-- `WeightedCnstrMOD` of `pgm/cmod.py`: `grad_f` 317-324, `obfn_f` 328-336; `hessian_f`
inherited. -/
noncomputable def clsWCMOD (Z : Matrix (Fin M) (Fin K) ℝ) (S : Matrix (Fin N) (Fin K) ℝ)
    (Pcn : Arr N M → Arr N M) (W : Matrix (Fin N) (Fin K) ℝ) : Cls (Arr N M) where
  gradF V := arr (had W (mat V * Z - S) * Zᵀ)
  proxG _ V := Pcn V
  hessF := (clsCMOD Z S Pcn).hessF
  obfnF X := 1 / 2 * ‖arr (had (Matrix.of fun i j => Real.sqrt (W i j)) (mat X * Z - S))‖ ^ 2
  obfnG _ := 0

/-! ## Quadratics -/

section Gen
variable {E F : Type*} [NormedAddCommGroup E] [InnerProductSpace ℝ E] [CompleteSpace E]
  [NormedAddCommGroup F] [InnerProductSpace ℝ F]

theorem grad_ls (A : E →L[ℝ] F) (b : F) (At : F → E) (hA : ∀ x y, ⟪A x, y⟫ = ⟪x, At y⟫) (x : E) :
    HasGradientAt (fun x => 1 / 2 * ‖A x - b‖ ^ 2) (At (A x - b)) x := by
  rw [hasGradientAt_iff_hasFDerivAt]
  have h1 : HasFDerivAt (fun x => A x - b) A x := (A.hasFDerivAt).sub_const b
  have h2 := (h1.norm_sq).const_mul (1 / 2 : ℝ)
  refine h2.congr_fderiv ?_
  ext d
  simp only [InnerProductSpace.toDual_apply_apply]
  rw [real_inner_comm, ← hA, real_inner_comm]
  simp [inner_sub_left]

/-- The curvature of a least squares term. -/
theorem smooth_ls (A : E →L[ℝ] F) (b : F) (At : F → E) (hA : ∀ x y, ⟪A x, y⟫ = ⟪x, At y⟫) (Lf : ℝ)
    (hL : ∀ x, ‖A x‖ ^ 2 ≤ Lf * ‖x‖ ^ 2) :
    Smooth (fun x => 1 / 2 * ‖A x - b‖ ^ 2) (fun x => At (A x - b)) Lf := by
  have key : ∀ x y, 1 / 2 * ‖A x - b‖ ^ 2 =
      1 / 2 * ‖A y - b‖ ^ 2 + ⟪At (A y - b), x - y⟫ + 1 / 2 * ‖A (x - y)‖ ^ 2 := by
    intro x y
    rw [Admm.quad1 A b y x, real_inner_comm (x - y) (At _), ← hA, real_inner_comm]
  constructor
  · intro x y
    rw [key x y]
    have := sq_nonneg ‖A (x - y)‖
    linarith
  · intro x y
    rw [key x y]
    have := hL (x - y)
    linarith

end Gen

/-! ## C51 -/

/-- The derivative of the gradient is the function the class computes. -/
def HessianOf {E : Type*} [NormedAddCommGroup E] [InnerProductSpace ℝ E] (gradF hessF : E → E) : Prop :=
  ∃ H : E →L[ℝ] E, (∀ v, H v = hessF v) ∧ ∀ x, HasFDerivAt gradF H x

theorem hessian_of {m k : ℕ} (H : Matrix (Fin m) (Fin k) ℝ →ₗ[ℝ] Matrix (Fin m) (Fin k) ℝ)
    (c : Matrix (Fin m) (Fin k) ℝ) (g h : Arr m k → Arr m k) (hg : ∀ V, g V = arr (H (mat V) - c))
    (hh : ∀ V, h V = arr (H (mat V))) : HessianOf g h := by
  let H' : Arr m k →L[ℝ] Arr m k := LinearMap.toContinuousLinearMap
    { toFun := fun V => arr (H (mat V))
      map_add' := fun x y => by rw [Admm.mat_add, map_add, Admm.arr_add]
      map_smul' := fun c x => by rw [Admm.mat_smul, map_smul, Admm.arr_smul]; rfl }
  refine ⟨H', fun v => (hh v).symm, fun x => ?_⟩
  have e : g = fun V => H' V - arr c := by
    funext V; rw [hg, Admm.arr_sub]; rfl
  rw [e]
  exact H'.hasFDerivAt.sub_const _

/-- Left multiplication. -/
def lmulLin {m k n : ℕ} (A : Matrix (Fin n) (Fin m) ℝ) :
    Matrix (Fin m) (Fin k) ℝ →ₗ[ℝ] Matrix (Fin n) (Fin k) ℝ where
  toFun X := A * X
  map_add' := Matrix.mul_add A
  map_smul' c X := Matrix.mul_smul A c X

/-- Right multiplication. -/
def rmulLin {m k n : ℕ} (A : Matrix (Fin k) (Fin n) ℝ) :
    Matrix (Fin m) (Fin k) ℝ →ₗ[ℝ] Matrix (Fin m) (Fin n) ℝ where
  toFun X := X * A
  map_add' X Y := Matrix.add_mul X Y A
  map_smul' c X := Matrix.smul_mul c X A

/-- Entry-wise multiplication. -/
def hadLin {m k : ℕ} (W : Matrix (Fin m) (Fin k) ℝ) :
    Matrix (Fin m) (Fin k) ℝ →ₗ[ℝ] Matrix (Fin m) (Fin k) ℝ where
  toFun X := had W X
  map_add' X Y := by ext i j; simp [had, mul_add]
  map_smul' c X := by ext i j; simp [had]; ring

/-- A linear map of matrices as a map of arrays. -/
noncomputable def onArr {m k m' k' : ℕ} (H : Matrix (Fin m) (Fin k) ℝ →ₗ[ℝ] Matrix (Fin m') (Fin k') ℝ) :
    Arr m k →L[ℝ] Arr m' k' := LinearMap.toContinuousLinearMap
  { toFun := fun V => arr (H (mat V))
    map_add' := fun x y => by rw [Admm.mat_add, map_add, Admm.arr_add]
    map_smul' := fun c x => by rw [Admm.mat_smul, map_smul, Admm.arr_smul]; rfl }

theorem onArr_apply {m k m' k' : ℕ} (H : Matrix (Fin m) (Fin k) ℝ →ₗ[ℝ] Matrix (Fin m') (Fin k') ℝ)
    (x : Arr m k) : onArr H x = arr (H (mat x)) := rfl

/-- Two linear maps of matrices are adjoint to each other. -/
def Adj {m k m' k' : ℕ} (A : Matrix (Fin m) (Fin k) ℝ →ₗ[ℝ] Matrix (Fin m') (Fin k') ℝ)
    (B : Matrix (Fin m') (Fin k') ℝ →ₗ[ℝ] Matrix (Fin m) (Fin k) ℝ) : Prop :=
  ∀ x y, ⟪onArr A x, y⟫ = ⟪x, onArr B y⟫

theorem Adj.comp {m k m' k' m'' k'' : ℕ} {A : Matrix (Fin m) (Fin k) ℝ →ₗ[ℝ] Matrix (Fin m') (Fin k') ℝ}
    {B : Matrix (Fin m') (Fin k') ℝ →ₗ[ℝ] Matrix (Fin m) (Fin k) ℝ}
    {A' : Matrix (Fin m') (Fin k') ℝ →ₗ[ℝ] Matrix (Fin m'') (Fin k'') ℝ}
    {B' : Matrix (Fin m'') (Fin k'') ℝ →ₗ[ℝ] Matrix (Fin m') (Fin k') ℝ}
    (h' : Adj A' B') (h : Adj A B) : Adj (A' ∘ₗ A) (B ∘ₗ B') := fun x y =>
  (h' (onArr A x) y).trans (h x (onArr B' y))

theorem adj_lmul {m k n : ℕ} (A : Matrix (Fin n) (Fin m) ℝ) : Adj (lmulLin (k := k) A) (lmulLin Aᵀ) :=
  dmul_adj A

theorem adj_had {m k : ℕ} (W : Matrix (Fin m) (Fin k) ℝ) : Adj (hadLin W) (hadLin W) := by
  intro x y
  rw [onArr_apply, onArr_apply]
  conv_lhs => rw [← Admm.arr_mat y]
  conv_rhs => rw [← Admm.arr_mat x]
  rw [inner_arr, inner_arr]
  refine Finset.sum_congr rfl fun i _ => Finset.sum_congr rfl fun j _ => ?_
  simp [hadLin, had]; ring

theorem adj_rmul {m k n : ℕ} (A : Matrix (Fin k) (Fin n) ℝ) : Adj (rmulLin (m := m) A) (rmulLin Aᵀ) := by
  intro x y
  rw [onArr_apply, onArr_apply]
  conv_lhs => rw [← Admm.arr_mat y]
  conv_rhs => rw [← Admm.arr_mat x]
  rw [inner_arr, inner_arr]
  refine Finset.sum_congr rfl fun i _ => ?_
  simp only [rmulLin, LinearMap.coe_mk, AddHom.coe_mk, Matrix.mul_apply, Finset.sum_mul, Finset.mul_sum,
    Matrix.transpose_apply]
  rw [Finset.sum_comm]
  refine Finset.sum_congr rfl fun j _ => Finset.sum_congr rfl fun l _ => ?_
  ring

/-- Gradient of a least squares term in matrix form. -/
theorem grad_mat {m k m' k' : ℕ} {A : Matrix (Fin m) (Fin k) ℝ →ₗ[ℝ] Matrix (Fin m') (Fin k') ℝ}
    {B : Matrix (Fin m') (Fin k') ℝ →ₗ[ℝ] Matrix (Fin m) (Fin k) ℝ} (h : Adj A B)
    (S : Matrix (Fin m') (Fin k') ℝ) (x : Arr m k) :
    HasGradientAt (fun x => 1 / 2 * ‖arr (A (mat x) - S)‖ ^ 2) (arr (B (A (mat x) - S))) x :=
  grad_ls (onArr A) (arr S) (onArr B) h x

theorem had_had_sqrt {m k : ℕ} (W : Matrix (Fin m) (Fin k) ℝ) (hW : ∀ i j, 0 ≤ W i j)
    (R : Matrix (Fin m) (Fin k) ℝ) :
    had (Matrix.of fun i j => Real.sqrt (W i j)) (had (Matrix.of fun i j => Real.sqrt (W i j)) R) = had W R := by
  ext i j
  simp only [had, Matrix.of_apply]
  rw [← mul_assoc, Real.mul_self_sqrt (hW i j)]

/-- **C51 for `BPDN`.** -/
theorem C51_bpdn (D : Matrix (Fin N) (Fin M) ℝ) (S : Matrix (Fin N) (Fin K) ℝ) (lmbda : ℝ)
    (wl1 : Fin M × Fin K → ℝ) (nonNeg : Bool) :
    let C := clsBPDN D S lmbda wl1 nonNeg
    (∀ x, HasGradientAt C.obfnF (C.gradF x) x) ∧ HessianOf C.gradF C.hessF := by
  refine ⟨fun x => grad_ls (dmul D) (arr S) (dmul Dᵀ) (dmul_adj D) x, ?_⟩
  refine hessian_of (lmulLin (Dᵀ * D)) (Dᵀ * S) _ _ (fun V => ?_) (fun V => ?_)
  · simp only [clsBPDN, lmulLin, LinearMap.coe_mk, AddHom.coe_mk, Matrix.mul_sub, Matrix.mul_assoc]
  · simp only [clsBPDN, lmulLin, LinearMap.coe_mk, AddHom.coe_mk, Matrix.mul_assoc]

/-- **C51 for `CnstrMOD`.** -/
theorem C51_cmod (Z : Matrix (Fin M) (Fin K) ℝ) (S : Matrix (Fin N) (Fin K) ℝ) (Pcn : Arr N M → Arr N M) :
    let C := clsCMOD Z S Pcn
    (∀ x, HasGradientAt C.obfnF (C.gradF x) x) ∧ HessianOf C.gradF C.hessF := by
  refine ⟨fun x => grad_mat (adj_rmul Z) S x, ?_⟩
  refine hessian_of (rmulLin (Z * Zᵀ)) (S * Zᵀ) _ _ (fun V => ?_) (fun V => ?_)
  · simp only [clsCMOD, rmulLin, LinearMap.coe_mk, AddHom.coe_mk, Matrix.sub_mul, Matrix.mul_assoc]
  · simp only [clsCMOD, rmulLin, LinearMap.coe_mk, AddHom.coe_mk, Matrix.mul_assoc]

/-- **C51 for `WeightedBPDN`, the gradient.** (Missing: `hessian_f`, see
`C51_weighted_bpdn_refuted`.) -/
theorem C51_weighted_bpdn_partial (D : Matrix (Fin N) (Fin M) ℝ) (S : Matrix (Fin N) (Fin K) ℝ)
    (lmbda : ℝ) (wl1 : Fin M × Fin K → ℝ) (nonNeg : Bool) (W : Matrix (Fin N) (Fin K) ℝ)
    (hW : ∀ i j, 0 ≤ W i j) (x : Arr M K) :
    HasGradientAt (clsWBPDN D S lmbda wl1 nonNeg W).obfnF ((clsWBPDN D S lmbda wl1 nonNeg W).gradF x) x := by
  set W' : Matrix (Fin N) (Fin K) ℝ := Matrix.of fun i j => Real.sqrt (W i j) with hW'
  have h := grad_mat ((adj_had W').comp (adj_lmul D)) (hadLin W' S) x
  have e1 : ∀ x : Arr M K, (hadLin W' ∘ₗ lmulLin D) (mat x) - hadLin W' S = had W' (D * mat x - S) := by
    intro x; rw [LinearMap.comp_apply, ← map_sub]; rfl
  simp only [e1] at h
  have e2 : (lmulLin Dᵀ ∘ₗ hadLin W') (had W' (D * mat x - S)) = Dᵀ * had W (D * mat x - S) := by
    rw [LinearMap.comp_apply]
    change Dᵀ * had W' (had W' _) = _
    rw [hW', had_had_sqrt W hW]
  rw [e2] at h
  exact h

/-- **C51 for `WeightedCnstrMOD`, the gradient.** (Missing: `hessian_f`, see
`C51_weighted_cmod_refuted`.) -/
theorem C51_weighted_cmod_partial (Z : Matrix (Fin M) (Fin K) ℝ) (S : Matrix (Fin N) (Fin K) ℝ)
    (Pcn : Arr N M → Arr N M) (W : Matrix (Fin N) (Fin K) ℝ) (hW : ∀ i j, 0 ≤ W i j) (x : Arr N M) :
    HasGradientAt (clsWCMOD Z S Pcn W).obfnF ((clsWCMOD Z S Pcn W).gradF x) x := by
  set W' : Matrix (Fin N) (Fin K) ℝ := Matrix.of fun i j => Real.sqrt (W i j) with hW'
  have h := grad_mat ((adj_had W').comp (adj_rmul Z)) (hadLin W' S) x
  have e1 : ∀ x : Arr N M, (hadLin W' ∘ₗ rmulLin Z) (mat x) - hadLin W' S = had W' (mat x * Z - S) := by
    intro x; rw [LinearMap.comp_apply, ← map_sub]; rfl
  simp only [e1] at h
  have e2 : (rmulLin Zᵀ ∘ₗ hadLin W') (had W' (mat x * Z - S)) = had W (mat x * Z - S) * Zᵀ := by
    rw [LinearMap.comp_apply]
    change had W' (had W' _) * Zᵀ = _
    rw [hW', had_had_sqrt W hW]
  rw [e2] at h
  exact h

/-- The one by one matrix. -/
def one1 (c : ℝ) : Matrix (Fin 1) (Fin 1) ℝ := Matrix.of fun _ _ => c

/-- If the Hessian the class computes were the derivative of the gradient, it would be the
difference of gradients, for affine gradients. -/
theorem hessian_affine {E : Type*} [NormedAddCommGroup E] [InnerProductSpace ℝ E] {gradF hessF : E → E}
    (h : HessianOf gradF hessF) (H' : E →L[ℝ] E) (c : E) (hg : ∀ x, gradF x = H' x - c) (v : E) :
    hessF v = H' v := by
  obtain ⟨H, h1, h2⟩ := h
  have e : gradF = fun x => H' x - c := funext hg
  have h3 := h2 0
  rw [e] at h3
  have h4 := h3.unique (H'.hasFDerivAt.sub_const c)
  rw [← h1, h4]

/-- **C51 fails for `WeightedBPDN`**: `hessian_f` ignores the weights.  One coefficient,
one sample, `D = 1`, weight 4. -/
theorem C51_weighted_bpdn_refuted :
    let C := clsWBPDN (K := 1) (one1 1) (one1 0) 0 (fun _ => 1) false (one1 4)
    ¬ HessianOf C.gradF C.hessF := by
  intro C h
  have := hessian_affine h (onArr (lmulLin (one1 4))) 0 (fun x => by
    simp only [C, clsWBPDN, onArr_apply, sub_zero]
    congr 1
    ext i j
    simp [lmulLin, had, one1, Matrix.mul_apply]) (arr (one1 1))
  have h2 := congrFun (congrFun (congrArg mat this) 0) 0
  simp [C, clsWBPDN, clsBPDN, onArr_apply, lmulLin, one1, Matrix.mul_apply] at h2

/-- **C51 fails for `WeightedCnstrMOD`** in the same way. -/
theorem C51_weighted_cmod_refuted :
    let C := clsWCMOD (N := 1) (one1 1) (one1 0) id (one1 4)
    ¬ HessianOf C.gradF C.hessF := by
  intro C h
  have := hessian_affine h (onArr (lmulLin (one1 4))) 0 (fun x => by
    simp only [C, clsWCMOD, onArr_apply, sub_zero]
    congr 1
    ext i j
    simp [lmulLin, had, one1, Matrix.mul_apply]
    rw [Subsingleton.elim i 0, Subsingleton.elim j 0]) (arr (one1 1))
  have h2 := congrFun (congrFun (congrArg mat this) 0) 0
  simp [C, clsWCMOD, clsCMOD, onArr_apply, lmulLin, one1, Matrix.mul_apply] at h2

/-! ## C45 for BPDN -/

/-- The problem data satisfy the hypotheses of the rate theorems. -/
theorem bpdn_convex (D : Matrix (Fin N) (Fin M) ℝ) (S : Matrix (Fin N) (Fin K) ℝ) (lmbda : ℝ)
    (hl : 0 ≤ lmbda) (wl1 : Fin M × Fin K → ℝ) (hw : ∀ i, 0 ≤ wl1 i) (nonNeg : Bool) (Lf : ℝ)
    (hL : ∀ x : Arr M K, fro2 (D * mat x) ≤ Lf * fro2 (mat x)) :
    Convex (clsBPDN D S lmbda wl1 nonNeg) (coefs nonNeg) Lf := by
  have eg : ∀ x, (clsBPDN D S lmbda wl1 nonNeg).obfnG x = lmbda * l1w wl1 x.ofLp := by
    intro x
    simp only [clsBPDN, normL1, l1w]
    congr 1
    refine Finset.sum_congr rfl fun i _ => ?_
    rw [norm_mul, Real.norm_of_nonneg (hw i)]
  refine ⟨smooth_ls (dmul D) (arr S) (dmul Dᵀ) (dmul_adj D) Lf fun x => ?_, ?_, ?_, ?_⟩
  · rw [dmul_apply, norm_arr, norm_mat]; exact hL x
  · have := Admm.Bpdn.convex_l1w wl1 hw _ (Admm.Bpdn.convex_coefs nonNeg) lmbda hl
    exact this.congr fun x _ => (eg x).symm
  · intro L v hL0
    have := (Admm.Bpdn.ystep_bpdn_min nonNeg lmbda hl wl1 hw L hL0 v 0 0 0 (Admm.Bpdn.setdict S L D)).1
    simpa [Admm.Bpdn.ystepBPDN, clsBPDN] using this
  · intro L v hL0 z hz
    have := (Admm.Bpdn.ystep_bpdn_min nonNeg lmbda hl wl1 hw L hL0 v 0 0 0 (Admm.Bpdn.setdict S L D)).2 z hz
    rw [eg, eg]
    simp only [Admm.Bpdn.ystepBPDN, add_zero] at this
    rw [norm_sub_rev v, norm_sub_rev v] at this
    exact this

/-- **C45 for `BPDN`.** For every dictionary, signal, nonnegative `lmbda` and weights, with
or without `NonNegCoef`, from any starting point, with `L` at least the largest squared
singular value of `D` and the default momentum: after `k` iterations the objective
exceeds that of any coefficient array `Xs` minimising it by at most
`2 L ‖X₀ - Xs‖² / (k + 1)²`. -/
theorem C45_bpdn (D : Matrix (Fin N) (Fin M) ℝ) (S : Matrix (Fin N) (Fin K) ℝ) (lmbda : ℝ)
    (hl : 0 ≤ lmbda) (wl1 : Fin M × Fin K → ℝ) (hw : ∀ i, 0 ≤ wl1 i) (nonNeg : Bool) (o : Opts)
    (hb : o.backtrack = .none) (hp : o.policy = .none) (hmom : o.momentum = .nesterov)
    (hm : o.monotone = false) (cb) (hcb : CallbackReads cb) (s : St (Vars (Arr M K))) (hs : Fresh s)
    (hL : 0 < s.v.L) (hLD : ∀ x : Matrix (Fin M) (Fin K) ℝ, fro2 (D * x) ≤ s.v.L * fro2 x)
    (Xs : Matrix (Fin M) (Fin K) ℝ) (hXs : Xs ∈ allowed nonNeg)
    (hmin : ∀ X ∈ allowed nonNeg, objBPDN D S lmbda wl1 Xs ≤ objBPDN D S lmbda wl1 X) (k : ℕ) (hk : 1 ≤ k) :
    let X := mat (iterX (clsBPDN D S lmbda wl1 nonNeg) o cb s k)
    X ∈ allowed nonNeg ∧
    objBPDN D S lmbda wl1 X - objBPDN D S lmbda wl1 Xs ≤
      2 * s.v.L * fro2 (mat s.v.X - Xs) / (k + 1) ^ 2 := by
  have eF : ∀ x : Arr M K, (clsBPDN D S lmbda wl1 nonNeg).F x = objBPDN D S lmbda wl1 (mat x) := by
    intro x
    simp only [Cls.F, clsBPDN, objBPDN, norm_arr, normL1, l1wMat]
    congr 2
    rw [Fintype.sum_prod_type]
    refine Finset.sum_congr rfl fun i _ => Finset.sum_congr rfl fun j _ => ?_
    rw [norm_mul, Real.norm_of_nonneg (hw _)]; rfl
  have h := C45_rate _ _ _ (bpdn_convex D S lmbda hl wl1 hw nonNeg s.v.L fun x => hLD (mat x)) o hb hp hmom cb hcb
    s hs hL le_rfl (by rw [hm]; simp) (arr Xs) ((coefs_allowed _ _).2 hXs) (fun u hu => by
      rw [eF, eF]; exact hmin _ ((coefs_allowed _ _).1 hu)) k hk
  refine ⟨(coefs_allowed _ _).1 h.1, ?_⟩
  have h2 := h.2
  rw [eF, eF, norm_mat] at h2
  exact h2

/-- The hypotheses of `C45_bpdn` are met: one atom `D = 2`, signal 6, `lmbda = 4`, with
minimiser 2; `L = 4`. -/
example : (∀ x : Matrix (Fin 1) (Fin 1) ℝ, fro2 (one1 2 * x) ≤ 4 * fro2 x) ∧
    one1 2 ∈ allowed (M := 1) (K := 1) false ∧
    (∀ X ∈ allowed (M := 1) (K := 1) false, objBPDN (one1 2) (one1 6) 4 (fun _ => 1) (one1 2) ≤
      objBPDN (one1 2) (one1 6) 4 (fun _ => 1) X) ∧
    objBPDN (one1 2) (one1 6) 4 (fun _ => 1) (one1 2) = 10 := by
  refine ⟨fun x => ?_, by simp [allowed], fun X _ => ?_, ?_⟩
  · simp [fro2, one1, Matrix.mul_apply]; nlinarith
  · simp [objBPDN, fro2, l1wMat, one1, Matrix.mul_apply]
    cases abs_cases (X 0 0) <;> nlinarith [sq_nonneg (X 0 0 - 2)]
  · norm_num [objBPDN, fro2, l1wMat, one1, Matrix.mul_apply]

/-- The hypotheses of `C45_rate_backtrack` and `C46_standard_smooth` are met by `2x²`, `L = 1`,
`gamma_u = 2`, at most 3 passes. -/
example (o : Opts) (ho : o.backtrack = .standard 2 3) (hm : o.monotone = false)
    (hmom : o.momentum = .nesterov) (k : ℕ) (hk : 1 ≤ k) :
    exQuad.F (iterX exQuad o .none (exAt 1 1) k) - exQuad.F 0 ≤
      2 * max (exAt 1 1).v.L (2 * 4) * ‖(exAt 1 1).v.X - 0‖ ^ 2 / (k + 1) ^ 2 :=
  (C45_rate_backtrack exQuad o 2 3 .none (exAt 1 1) Set.univ 4 exQuad_convex one_le_two ho hm hmom
    (fun _ _ h => by cases h) (exAt_fresh 1 1) one_pos (by norm_num) (by norm_num [exAt]) 0 trivial
    (fun u _ => by simp only [exQuad, Cls.F]; nlinarith [sq_nonneg u]) k hk).2

/-! ## C49 -/

section C49
variable {E : Type*} [NormedAddCommGroup E] [InnerProductSpace ℝ E]

/-- All eigenvalues of `H` lie between `m` and `M`. -/
def Spectrum (H : E → E) (m M : ℝ) : Prop := ∀ v, m * ‖v‖ ^ 2 ≤ ⟪v, H v⟫ ∧ ⟪v, H v⟫ ≤ M * ‖v‖ ^ 2

/-- **C49, Cauchy policy, for a class whose `hessian_f` is the Hessian.** With a non-zero
gradient the step parameter is a number between the extreme eigenvalues. -/
theorem C49_cauchy_partial (hess : E → E) (m M : ℝ) (hH : Spectrum hess m M) (grad : E) (hg : grad ≠ 0) :
    ∃ L, cauchyUpdate hess grad = some L ∧ m ≤ L ∧ L ≤ M := by
  have h0 : (0 : ℝ) < ⟪grad, grad⟫ := by rw [real_inner_self_eq_norm_sq]; positivity
  refine ⟨⟪grad, hess grad⟫ / ⟪grad, grad⟫, ?_, ?_, ?_⟩
  · unfold cauchyUpdate npDiv; rw [if_neg h0.ne']
  · rw [le_div_iff₀ h0, real_inner_self_eq_norm_sq]; exact (hH grad).1
  · rw [div_le_iff₀ h0, real_inner_self_eq_norm_sq]; exact (hH grad).2

/-- **C49, Cauchy policy at a stationary point**: zero divided by zero. -/
theorem C49_cauchy_zero_refuted (hess : E → E) : cauchyUpdate hess (0 : E) = .none := by
  unfold cauchyUpdate npDiv; simp

/-- **C49, Barzilai-Borwein policy**, when the gradients it is given are gradients at the
points it is given: for a quadratic with Hessian `H` the step parameter is a number
between the extreme eigenvalues.  (In the solver the gradients are those at Y and the
points are X: see `C49_bb_refuted`.) -/
theorem C49_bb_partial (H : E →ₗ[ℝ] E) (hsym : ∀ x y, ⟪H x, y⟫ = ⟪x, H y⟫) (m M : ℝ) (hm : 0 < m)
    (hH : Spectrum H m M) (L : ℝ) (x xprv grad gradprv : E) (hx : x ≠ xprv)
    (hg : grad - gradprv = H (x - xprv)) :
    ∃ L', bbUpdate L x xprv grad gradprv = some L' ∧ m ≤ L' ∧ L' ≤ M := by
  obtain ⟨d, hd⟩ : ∃ d, d = x - xprv := ⟨_, rfl⟩
  rw [← hd] at hg
  have hd0 : d ≠ 0 := by rw [hd]; exact sub_ne_zero.2 hx
  have hdn : 0 < ‖d‖ := norm_pos_iff.2 hd0
  have hM : 0 < M := by
    have := hH d
    have h1 : 0 < ‖d‖ ^ 2 := by positivity
    nlinarith
  have hden : 0 < ⟪d, H d⟫ := lt_of_lt_of_le (by positivity) (hH d).1
  have hlow : m * ⟪d, H d⟫ ≤ ⟪H d, H d⟫ := by
    have h1 := (hH d).1
    have h2 := real_inner_le_norm d (H d)
    have h3 : m * ‖d‖ ≤ ‖H d‖ := by
      have : m * ‖d‖ * ‖d‖ ≤ ‖H d‖ * ‖d‖ := by nlinarith
      exact le_of_mul_le_mul_right this hdn
    rw [real_inner_self_eq_norm_sq]
    have h4 := mul_le_mul_of_nonneg_left h2 hm.le
    have h5 := mul_le_mul_of_nonneg_right h3 (norm_nonneg (H d))
    nlinarith
  have hup : ⟪H d, H d⟫ ≤ M * ⟪d, H d⟫ := by
    have h1 := (hH (M • d - H d)).1
    have h2 := (hH (H d)).2
    have e : ⟪M • d - H d, H (M • d - H d)⟫ =
        M ^ 2 * ⟪d, H d⟫ - 2 * M * ⟪H d, H d⟫ + ⟪H d, H (H d)⟫ := by
      rw [map_sub, map_smul, inner_sub_left, inner_sub_right, inner_sub_right, real_inner_smul_left,
        real_inner_smul_right, real_inner_smul_left, real_inner_smul_right, ← hsym d (H d)]
      ring
    rw [e] at h1
    rw [real_inner_self_eq_norm_sq] at *
    have h3 : 0 ≤ m * ‖M • d - H d‖ ^ 2 := by positivity
    have h4 : M * ‖H d‖ ^ 2 ≤ M * (M * ⟪d, H d⟫) := by nlinarith
    exact le_of_mul_le_mul_left h4 hM
  have hnn : ¬ ⟪H d, H d⟫ / ⟪d, H d⟫ < 0 := not_lt.2 (by rw [real_inner_self_eq_norm_sq]; positivity)
  refine ⟨⟪H d, H d⟫ / ⟪d, H d⟫, ?_, ?_, ?_⟩
  · unfold bbUpdate npDiv
    simp only
    rw [← hd, hg, if_neg hden.ne']
    rw [Option.map_some, if_neg hnn]
  · rw [le_div_iff₀ hden]; exact hlow
  · rw [div_le_iff₀ hden]; exact hup

end C49

/-- **C49 for `BPDN` with the Cauchy policy**: while the gradient is not zero, the step
parameter lies between any bounds `m`, `M` of the squared singular values of `D`. -/
theorem C49_bpdn_cauchy_partial (D : Matrix (Fin N) (Fin M) ℝ) (S : Matrix (Fin N) (Fin K) ℝ) (lmbda : ℝ)
    (wl1 : Fin M × Fin K → ℝ) (nonNeg : Bool) (a b : ℝ)
    (hab : ∀ V : Matrix (Fin M) (Fin K) ℝ, a * fro2 V ≤ fro2 (D * V) ∧ fro2 (D * V) ≤ b * fro2 V)
    (y : Arr M K) (hy : Dᵀ * (D * mat y - S) ≠ 0) :
    let C := clsBPDN D S lmbda wl1 nonNeg
    ∃ L, cauchyUpdate C.hessF (C.gradF y) = some L ∧ a ≤ L ∧ L ≤ b := by
  refine C49_cauchy_partial _ a b (fun v => ?_) _ (fun h => hy ?_)
  · have e : ⟪v, (clsBPDN D S lmbda wl1 nonNeg).hessF v⟫ = fro2 (D * mat v) := by
      change ⟪v, dmul Dᵀ (dmul D v)⟫ = _
      rw [← dmul_adj, real_inner_self_eq_norm_sq, dmul_apply, norm_arr]
    rw [e, norm_mat]
    exact hab (mat v)
  · exact congrArg mat h

/-- **C49 fails for `WeightedBPDN`**: with `D = 1` and weight 4 the Hessian is 4, and the
Cauchy policy yields 1. -/
theorem C49_weighted_refuted :
    let C := clsWBPDN (K := 1) (one1 1) (one1 0) 0 (fun _ => 1) false (one1 4)
    let y : Arr 1 1 := arr (one1 1)
    (∀ v, C.gradF v = (4 : ℝ) • v) ∧ cauchyUpdate C.hessF (C.gradF y) = some 1 := by
  intro C y
  have hg : ∀ v, C.gradF v = (4 : ℝ) • v := by
    intro v
    have e : v = arr (mat v) := rfl
    rw [e, ← Admm.arr_smul]
    simp only [C, clsWBPDN]
    congr 1
    ext i j
    simp [had, one1, Matrix.mul_apply]
    rw [Subsingleton.elim i 0]
  have hh : ∀ v, C.hessF v = v := by
    intro v
    conv_rhs => rw [← Admm.arr_mat v]
    simp only [C, clsWBPDN, clsBPDN]
    congr 1
    ext i j
    simp [one1, Matrix.mul_apply]
    rw [Subsingleton.elim i 0]
  refine ⟨hg, ?_⟩
  have h0 : C.gradF y ≠ 0 := by
    rw [hg]
    intro h
    have := congrFun (congrFun (congrArg mat h) 0) 0
    have e : mat (0 : Arr 1 1) 0 0 = 0 := rfl
    simp [y, one1, e] at this
  unfold cauchyUpdate npDiv
  rw [hh, if_neg (by rw [real_inner_self_eq_norm_sq]; positivity), div_self (by rw [real_inner_self_eq_norm_sq]; positivity)]

/-- Default options with the Barzilai-Borwein policy. -/
noncomputable def exBB : Opts := ⟨false, 100, 0, false, 0, false, .nesterov, .bb, .none⟩

/-- **C49 fails for the Barzilai-Borwein policy in a run of the solver.** For `x²/2`, whose
Hessian is 1, started at 1 with `L = 2`, the step parameter of the third iteration is
larger than 1. -/
theorem C49_bb_refuted :
    1 < (traj (ops exCls exBB) exBB .none (exAt 2 1) 3).v.L := by
  have hv : ∀ n, (traj (ops exCls exBB) exBB .none (exAt 2 1) (n + 1)).v =
      mainStep exCls exBB n (onStart exCls exBB n (traj (ops exCls exBB) exBB .none (exAt 2 1) n).v) := by
    intro n
    rw [traj_v]
    unfold after
    rw [traj_k]
    simp [exAt, ops]
  have st : ∀ k ≤ 1, ∀ v : Vars ℝ, v.L = 2 →
      let v' := mainStep exCls exBB k (onStart exCls exBB k v)
      v'.L = 2 ∧ v'.t = nesterovUpdate v.t ∧ v'.X = v.Y / 2 ∧
        v'.Y = v.Y / 2 + (v.t - 1) / nesterovUpdate v.t * (v.Y / 2 - v.X) ∧ v'.bbX = v.X ∧ v'.bbG = v.Y := by
    intro k hk v hL
    have hk' : ¬ 1 < k := by omega
    have e : v.Y - 2⁻¹ * v.Y = v.Y / 2 := by ring
    refine ⟨?_, ?_, ?_, ?_, ?_, ?_⟩ <;>
      simp [mainStep, exBB, ystep, xstep, xstepG, stepL, storeBB, Opts.stepPolicy, safeguard, onStart, exCls,
        hk', hL, Momentum.next, e, Opts.isRobust]
  set v0 := (traj (ops exCls exBB) exBB .none (exAt 2 1) 0).v with hv0
  have e0 : v0.L = 2 ∧ v0.t = 1 ∧ v0.X = 1 ∧ v0.Y = 1 := ⟨rfl, rfl, rfl, rfl⟩
  obtain ⟨a1, a2, a3, a4, a5, a6⟩ := st 0 (by norm_num) v0 e0.1
  rw [← hv] at a1 a2 a3 a4 a5 a6
  rw [e0.2.1, e0.2.2.1, e0.2.2.2, sub_self, zero_div, zero_mul, add_zero] at a4
  rw [e0.2.2.2] at a3
  rw [e0.2.1] at a2
  set v1 := (traj (ops exCls exBB) exBB .none (exAt 2 1) (0 + 1)).v
  obtain ⟨b1, b2, b3, b4, b5, b6⟩ := st 1 (by norm_num) v1 a1
  rw [← hv] at b1 b2 b3 b4 b5 b6
  rw [a4] at b3 b4 b6
  rw [a3] at b4 b5
  set v2 := (traj (ops exCls exBB) exBB .none (exAt 2 1) (1 + 1)).v
  have h1 : (1 : ℝ) < v1.t := by
    rw [a2]
    have : (momSeq .nesterov 1) = nesterovUpdate 1 := rfl
    rw [← this]
    have := (C48_nesterov 1).1
    norm_num at this
    linarith
  have h2 : 0 < nesterovUpdate v1.t := by unfold nesterovUpdate; positivity
  have hc : 0 < (v1.t - 1) / nesterovUpdate v1.t := div_pos (by linarith) h2
  set c := (v1.t - 1) / nesterovUpdate v1.t
  have e3 : (traj (ops exCls exBB) exBB .none (exAt 2 1) (2 + 1)).v.L =
      (bbUpdate v2.L v2.X v2.bbX v2.Y v2.bbG).getD 0 := by
    rw [hv]
    change (mainStep exCls exBB 2 (onStart exCls exBB 2 v2)).L = _
    simp [mainStep, exBB, ystep, xstep, xstepG, stepL, storeBB, Opts.stepPolicy, safeguard, onStart, exCls,
      Opts.isRobust]
  change 1 < (traj (ops exCls exBB) exBB .none (exAt 2 1) (2 + 1)).v.L
  rw [e3, b3, b4, b5, b6]
  unfold bbUpdate npDiv
  simp only [RCLike.inner_apply, conj_trivial]
  have hne : ((1 / 2 / 2 + c * (1 / 2 / 2 - 1 / 2) - 1 / 2) * (1 / 2 / 2 - 1 / 2) : ℝ) ≠ 0 := by
    have : ((1 / 2 / 2 + c * (1 / 2 / 2 - 1 / 2) - 1 / 2) * (1 / 2 / 2 - 1 / 2) : ℝ) = (1 + c) / 16 := by ring
    rw [this]; positivity
  rw [if_neg hne]
  simp only [Option.map_some, Option.getD_some]
  have e4 : ((1 / 2 / 2 + c * (1 / 2 / 2 - 1 / 2) - 1 / 2) * (1 / 2 / 2 + c * (1 / 2 / 2 - 1 / 2) - 1 / 2) /
      ((1 / 2 / 2 + c * (1 / 2 / 2 - 1 / 2) - 1 / 2) * (1 / 2 / 2 - 1 / 2)) : ℝ) = 1 + c := by
    rw [div_eq_iff hne]; ring
  rw [e4, if_neg (by linarith)]
  linarith

end Sporco.Pgm
