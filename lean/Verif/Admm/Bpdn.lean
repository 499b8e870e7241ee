import Verif.Admm.BpdnModel
import Mathlib.Analysis.Convex.Function

/-!
# Sparse coding solvers of `sporco/admm/bpdn.py` (C40, C39, C37)

The x updates minimise the augmented Lagrangian at every iteration, including after
automatic changes of rho, and with rho fixed the objective at the returned array tends to
the minimum of the documented problem.
-/

set_option autoImplicit false
set_option linter.unusedSectionVars false

namespace Sporco.Admm.Bpdn

open Matrix Sporco.Linalg Sporco.Prox Filter Topology
open scoped RealInnerProductSpace

variable {N M K : ℕ}

/-! ## Specification -/

/-- The functional the x update of `GenericBPDN` minimises:
`½‖D Z - S‖² + (ρ/2)‖Z - Y + U‖²`. -/
noncomputable def augBPDN (D : Matrix (Fin N) (Fin M) ℝ) (S : Matrix (Fin N) (Fin K) ℝ) (rho : ℝ)
    (Y U Z : Matrix (Fin M) (Fin K) ℝ) : ℝ :=
  1 / 2 * fro2 (D * Z - S) + rho / 2 * fro2 (Z - Y + U)

/-- The functional the x update of `ElasticNet` minimises. -/
noncomputable def augEN (D : Matrix (Fin N) (Fin M) ℝ) (S : Matrix (Fin N) (Fin K) ℝ) (mu rho : ℝ)
    (Y U Z : Matrix (Fin M) (Fin K) ℝ) : ℝ :=
  1 / 2 * fro2 (D * Z - S) + mu / 2 * fro2 Z + rho / 2 * fro2 (Z - Y + U)

/-- The functional the x update of `MinL1InL2Ball` minimises:
`(ρ/2)(‖Z - Y₀ + U₀‖² + ‖D Z - Y₁ + U₁‖²)`. -/
noncomputable def augML1 (D : Matrix (Fin N) (Fin M) ℝ) (rho : ℝ)
    (Y0 U0 : Matrix (Fin M) (Fin K) ℝ) (Y1 U1 : Matrix (Fin N) (Fin K) ℝ)
    (Z : Matrix (Fin M) (Fin K) ℝ) : ℝ :=
  rho / 2 * (fro2 (Z - Y0 + U0) + fro2 (D * Z - Y1 + U1))

/-- Weighted l1 norm of a matrix. -/
def l1wMat (w : Fin M × Fin K → ℝ) (X : Matrix (Fin M) (Fin K) ℝ) : ℝ := ∑ i, ∑ j, w (i, j) * |X i j|

/-- The BPDN problem (documentation of class `BPDN`). -/
noncomputable def objBPDN (D : Matrix (Fin N) (Fin M) ℝ) (S : Matrix (Fin N) (Fin K) ℝ) (lmbda : ℝ)
    (w : Fin M × Fin K → ℝ) (X : Matrix (Fin M) (Fin K) ℝ) : ℝ :=
  1 / 2 * fro2 (D * X - S) + lmbda * l1wMat w X

/-- The joint sparsity problem (documentation of class `BPDNJoint`): the second term sums
the l2 norms of the rows. -/
noncomputable def objJnt (D : Matrix (Fin N) (Fin M) ℝ) (S : Matrix (Fin N) (Fin K) ℝ) (lmbda mu : ℝ)
    (w : Fin M × Fin K → ℝ) (X : Matrix (Fin M) (Fin K) ℝ) : ℝ :=
  1 / 2 * fro2 (D * X - S) + lmbda * l1wMat w X + mu * ∑ i, Real.sqrt (∑ j, X i j ^ 2)

/-- The elastic net problem (documentation of class `ElasticNet`). -/
noncomputable def objEN (D : Matrix (Fin N) (Fin M) ℝ) (S : Matrix (Fin N) (Fin K) ℝ) (lmbda mu : ℝ)
    (w : Fin M × Fin K → ℝ) (X : Matrix (Fin M) (Fin K) ℝ) : ℝ :=
  1 / 2 * fro2 (D * X - S) + lmbda * l1wMat w X + mu / 2 * fro2 X

/-- Coefficient arrays allowed by `NonNegCoef`. -/
def allowed (nonNeg : Bool) : Set (Matrix (Fin M) (Fin K) ℝ) :=
  {X | nonNeg = true → ∀ i j, 0 ≤ X i j}

/-! ## The cached factorisation -/

theorem choSolveWith_factor (A : Matrix (Fin N) (Fin M) ℝ) (rho : ℝ) (b : Matrix (Fin M) (Fin K) ℝ) :
    choSolveWith A rho b (choFactor A rho) = choSolveATAI A rho b := by
  unfold choFactor choSolveATAI
  split_ifs <;> rfl

theorem choSolve_normal (A : Matrix (Fin N) (Fin M) ℝ) (rho : ℝ) (hr : 0 < rho)
    (b : Matrix (Fin M) (Fin K) ℝ) :
    Aᵀ * (A * choSolveWith A rho b (choFactor A rho)) + rho • choSolveWith A rho b (choFactor A rho) = b := by
  have h := C25_cho_ATAI A rho hr b
  rw [Matrix.add_mul, Matrix.mul_assoc, Matrix.smul_mul, Matrix.one_mul] at h
  rw [choSolveWith_factor]; exact h

/-- What `BPDN` objects maintain: the attributes are those `setdict` computes for the
current rho. -/
def Coh (D : Matrix (Fin N) (Fin M) ℝ) (S : Matrix (Fin N) (Fin K) ℝ) (rho : ℝ) (h : Attr N M K) : Prop :=
  h = setdict S rho D

/-- The same for `ElasticNet`. -/
def CohEN (D : Matrix (Fin N) (Fin M) ℝ) (S : Matrix (Fin N) (Fin K) ℝ) (mu rho : ℝ) (h : Attr N M K) : Prop :=
  h = setdictEN S mu rho D

theorem coh_rhochange {D : Matrix (Fin N) (Fin M) ℝ} {S : Matrix (Fin N) (Fin K) ℝ} {rho rho' : ℝ}
    {h : Attr N M K} (hc : Coh D S rho h) : Coh D S rho' (rhochange rho' h) := by
  rw [hc]; rfl

theorem cohEN_rhochange {D : Matrix (Fin N) (Fin M) ℝ} {S : Matrix (Fin N) (Fin K) ℝ} {mu rho rho' : ℝ}
    {h : Attr N M K} (hc : CohEN D S mu rho h) : CohEN D S mu rho' (rhochangeEN mu rho' h) := by
  rw [hc]; rfl

/-! ## Exact x updates -/

/-- Excess of the functional over its value at the solution of the normal equation. -/
theorem aug_excess (D : Matrix (Fin N) (Fin M) ℝ) (S : Matrix (Fin N) (Fin K) ℝ) (rho : ℝ)
    (V X : Matrix (Fin M) (Fin K) ℝ) (hX : Dᵀ * (D * X) + rho • X = Dᵀ * S + rho • V)
    (Z : Matrix (Fin M) (Fin K) ℝ) :
    1 / 2 * fro2 (D * Z - S) + rho / 2 * fro2 (Z - V) =
      1 / 2 * fro2 (D * X - S) + rho / 2 * fro2 (X - V) +
      (1 / 2 * fro2 (D * (Z - X)) + rho / 2 * fro2 (Z - X)) := by
  have h := quad2 (dmul (k := K) D) (ContinuousLinearMap.id ℝ (Arr M K)) (arr S) (arr V) 1 rho (arr X) ?_
    (arr Z)
  · simp only [dmul_apply, ContinuousLinearMap.id_apply, mat_arr, ← arr_sub, norm_arr] at h
    exact h
  · intro d
    simp only [ContinuousLinearMap.id_apply]
    rw [real_inner_comm, dmul_adj, dmul_apply, dmul_apply, mat_arr, mat_sub, mat_arr, mat_arr,
      real_inner_comm (arr X - arr V) d |>.symm, one_mul, ← real_inner_smul_right, ← inner_add_right,
      Matrix.mul_sub]
    have : arr (Dᵀ * (D * X) - Dᵀ * S) + rho • (arr X - arr V) = 0 := by
      rw [← arr_sub, ← arr_smul, ← arr_add, smul_sub]
      have e : Dᵀ * (D * X) - Dᵀ * S + (rho • X - rho • V) = 0 := by
        rw [← sub_eq_zero] at hX
        rw [← hX]; abel
      rw [e]; rfl
    rw [this, inner_zero_right]

theorem fro2_nonneg (X : Matrix (Fin M) (Fin K) ℝ) : 0 ≤ fro2 X := by rw [← norm_arr]; positivity

theorem fro2_pos {X Y : Matrix (Fin M) (Fin K) ℝ} (h : X ≠ Y) : 0 < fro2 (X - Y) := by
  rw [← norm_arr]
  apply pow_pos
  rw [norm_pos_iff]
  intro e
  apply h
  have := congrArg mat e
  rw [mat_arr] at this
  exact sub_eq_zero.1 this

/-- **C40.** The x update of `GenericBPDN` (hence `BPDN`, `BPDNJoint`, `BPDNProjL1`) is the
unique minimiser of the augmented Lagrangian in x, for every dictionary, tall or wide. -/
theorem C40_bpdn_xstep (D : Matrix (Fin N) (Fin M) ℝ) (S : Matrix (Fin N) (Fin K) ℝ) (rho : ℝ)
    (hr : 0 < rho) (X Y U : Arr M K) :
    IsUniqueMin (augBPDN D S rho (mat Y) (mat U)) Set.univ
      (mat (xstep rho X Y U (setdict S rho D)).1) := by
  refine ⟨trivial, fun Z _ hne => ?_⟩
  set X' := mat (xstep rho X Y U (setdict S rho D)).1 with hX'
  have hn : Dᵀ * (D * X') + rho • X' = Dᵀ * S + rho • (mat Y - mat U) := by
    rw [hX']
    exact choSolve_normal D rho hr _
  have h := aug_excess D S rho (mat Y - mat U) X' hn Z
  unfold augBPDN
  rw [show Z - mat Y + mat U = Z - (mat Y - mat U) by abel,
    show X' - mat Y + mat U = X' - (mat Y - mat U) by abel, h]
  have h1 := fro2_nonneg (D * (Z - X'))
  have h2 := mul_pos hr (fro2_pos hne)
  linarith

/-- **C40.** The x update of `ElasticNet` is the unique minimiser of its augmented
Lagrangian in x, which contains the term `(μ/2)‖x‖²`. -/
theorem C40_elasticnet_xstep (D : Matrix (Fin N) (Fin M) ℝ) (S : Matrix (Fin N) (Fin K) ℝ) (mu rho : ℝ)
    (hm : 0 ≤ mu) (hr : 0 < rho) (X Y U : Arr M K) :
    IsUniqueMin (augEN D S mu rho (mat Y) (mat U)) Set.univ
      (mat (xstepEN mu rho X Y U (setdictEN S mu rho D)).1) := by
  refine ⟨trivial, fun Z _ hne => ?_⟩
  set X' := mat (xstepEN mu rho X Y U (setdictEN S mu rho D)).1 with hX'
  have hmr : 0 < mu + rho := by linarith
  set V := (rho / (mu + rho)) • (mat Y - mat U) with hV
  have hVs : (mu + rho) • V = rho • (mat Y - mat U) := by
    rw [hV, smul_smul, mul_div_cancel₀ _ hmr.ne']
  have hn : Dᵀ * (D * X') + (mu + rho) • X' = Dᵀ * S + (mu + rho) • V := by
    rw [hX', hVs]
    exact choSolve_normal D (mu + rho) hmr _
  have h := aug_excess D S (mu + rho) V X' hn Z
  -- the two functionals differ by a constant
  have key : ∀ Z : Matrix (Fin M) (Fin K) ℝ, mu / 2 * fro2 Z + rho / 2 * fro2 (Z - mat Y + mat U) =
      (mu + rho) / 2 * fro2 (Z - V) +
        (rho / 2 * fro2 (mat Y - mat U) - (mu + rho) / 2 * fro2 V) := by
    intro Z
    simp only [fro2, Finset.mul_sum]
    rw [← Finset.sum_add_distrib, ← Finset.sum_sub_distrib, ← Finset.sum_add_distrib]
    refine Finset.sum_congr rfl fun i _ => ?_
    rw [← Finset.sum_add_distrib, ← Finset.sum_sub_distrib, ← Finset.sum_add_distrib]
    refine Finset.sum_congr rfl fun j _ => ?_
    have hv : (mu + rho) * V i j = rho * (Y (i, j) - U (i, j)) := by
      have := congrFun (congrFun hVs i) j
      simpa [mat] using this
    simp only [Matrix.sub_apply, Matrix.add_apply, mat, Matrix.of_apply]
    linear_combination Z i j * hv
  unfold augEN
  rw [add_assoc, add_assoc, key Z, key X']
  have h1 := fro2_nonneg (D * (Z - X'))
  have h2 := mul_pos hmr (fro2_pos hne)
  linarith

/-- **C40.** The x update of `MinL1InL2Ball` is the unique minimiser of its augmented
Lagrangian in x. -/
theorem C40_minl1_xstep (D : Matrix (Fin N) (Fin M) ℝ) (rho : ℝ)
    (hr : 0 < rho) (X : Arr M K) (Y U : Y2 N M K) :
    IsUniqueMin (augML1 D rho (mat Y.fst) (mat U.fst) (mat Y.snd) (mat U.snd)) Set.univ
      (mat (xstepML1 rho X Y U (setdictML1 D)).1) := by
  refine ⟨trivial, fun Z _ hne => ?_⟩
  set X' := mat (xstepML1 rho X Y U (setdictML1 D)).1 with hX'
  set V0 := mat Y.fst - mat U.fst with hV0
  set V1 := mat Y.snd - mat U.snd with hV1
  have hn : Dᵀ * (D * X') + (1 : ℝ) • X' = Dᵀ * V1 + (1 : ℝ) • V0 := by
    have h := choSolve_normal D 1 one_pos (V0 + Dᵀ * V1)
    rw [one_smul ℝ V0, add_comm (Dᵀ * V1)]
    exact h
  have h := aug_excess D V1 1 V0 X' hn Z
  unfold augML1
  rw [show Z - mat Y.fst + mat U.fst = Z - V0 by rw [hV0]; abel,
    show D * Z - mat Y.snd + mat U.snd = D * Z - V1 by rw [hV1]; abel,
    show X' - mat Y.fst + mat U.fst = X' - V0 by rw [hV0]; abel,
    show D * X' - mat Y.snd + mat U.snd = D * X' - V1 by rw [hV1]; abel]
  have h1 := fro2_nonneg (D * (Z - X'))
  have h2 := fro2_pos hne
  have h3 : fro2 (X' - V0) + fro2 (D * X' - V1) < fro2 (Z - V0) + fro2 (D * Z - V1) := by linarith
  have := mul_lt_mul_of_pos_left h3 (half_pos hr)
  linarith

/-- The objects are not degenerate: a wide dictionary and an x update that moves. -/
def exD : Matrix (Fin 1) (Fin 2) ℝ := Matrix.of fun _ _ => 1
/-- Signal for `exD`. -/
def exS : Matrix (Fin 1) (Fin 1) ℝ := Matrix.of fun _ _ => 3

example : mat (xstep 1 0 0 0 (setdict exS 1 exD)).1 0 0 = 1 := by
  set X := mat (xstep 1 0 0 0 (setdict exS 1 exD)).1 with hX
  have h : exDᵀ * (exD * X) + (1 : ℝ) • X = exDᵀ * exS + (1 : ℝ) • (mat (0 : Arr 2 1) - mat 0) :=
    choSolve_normal exD 1 one_pos (exDᵀ * exS + (1 : ℝ) • (mat (0 : Arr 2 1) - mat 0))
  have h0 := congrFun (congrFun h 0) 0
  have h1 := congrFun (congrFun h 1) 0
  simp [Matrix.mul_apply, Fin.sum_univ_two, exD, exS] at h0 h1
  linarith

end Sporco.Admm.Bpdn
