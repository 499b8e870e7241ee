import Verif.Admm.Bpdn
import Verif.Linalg.Solve

/-!
# What `XSlvRelRes` certifies for the solvers of `bpdn.py` (C89)
-/

set_option autoImplicit false

namespace Sporco.Admm.Bpdn

open Matrix Sporco.Linalg Sporco.Prox
open scoped RealInnerProductSpace

variable {N M K : ℕ}

/-- `self.xrrs` as set by `GenericBPDN.xstep` (`bpdn.py` 201-206), where `dg` is `rho`, and by
`ElasticNet.xstep` (720-725), where `dg` is `mu + rho`, for the array `X` just computed. -/
noncomputable def xrrs (linSolveCheck : Bool) (dg rho : ℝ) (Y U : Arr M K) (h : Attr N M K) (X : Arr M K) :
    Option ℝ :=
  let b := h.DTS + rho • (mat Y - mat U)
  let ax := h.Dᵀ * (h.D * mat X) + dg • mat X
  if linSolveCheck then some (rrs (arr ax).ofLp (arr b).ofLp) else none

/-! ## Specification -/

/-- The value `v` computed for a candidate array says how far it is from the array `Xs`. -/
def Certifies (v : Arr M K → ℝ) (Xs : Arr M K) (scale : ℝ) : Prop :=
  ∀ X, 0 ≤ v X ∧ (v X = 0 ↔ X = Xs) ∧ (v X < 1 → ‖X - Xs‖ ≤ v X / (1 - v X) * scale)

/-! ## Proofs -/

theorem rrs_resid (ax b : Arr M K) (h : rrs ax.ofLp b.ofLp < 1) :
    ‖ax - b‖ ≤ rrs ax.ofLp b.ofLp / (1 - rrs ax.ofLp b.ofLp) * ‖b‖ := by
  have hn : ∀ x : Arr M K, Real.sqrt (∑ i, x.ofLp i ^ 2) = ‖x‖ := by
    intro x
    rw [EuclideanSpace.norm_eq]
    simp only [Real.norm_eq_abs, sq_abs]
  have h0 := (C58_rrs ax.ofLp b.ofLp).1
  have hd : Real.sqrt (∑ i, (ax.ofLp i - b.ofLp i) ^ 2) = ‖ax - b‖ := hn (ax - b)
  have h1 : ‖ax - b‖ = rrs ax.ofLp b.ofLp * max ‖ax‖ ‖b‖ := by
    unfold rrs
    simp only [hn, hd]
    split_ifs with hz
    · have e1 : ‖ax‖ = 0 := le_antisymm (hz ▸ le_max_left _ _) (norm_nonneg _)
      have e2 : ‖b‖ = 0 := le_antisymm (hz ▸ le_max_right _ _) (norm_nonneg _)
      rw [norm_eq_zero] at e1 e2
      rw [e1, e2, sub_zero, norm_zero, zero_mul]
    · rw [div_mul_cancel₀ _ hz]
  have h2 : ‖ax‖ ≤ ‖ax - b‖ + ‖b‖ := by
    have := norm_add_le (ax - b) b
    rwa [sub_add_cancel] at this
  have h3 : max ‖ax‖ ‖b‖ ≤ ‖ax - b‖ + ‖b‖ := max_le h2 (le_add_of_nonneg_left (norm_nonneg _))
  have h4 := mul_le_mul_of_nonneg_left h3 h0
  rw [← h1] at h4
  rw [div_mul_eq_mul_div, le_div_iff₀ (by linarith)]
  nlinarith

theorem normal_coercive (D : Matrix (Fin N) (Fin M) ℝ) (dg : ℝ) (z : Arr M K) :
    dg * ‖z‖ ≤ ‖arr (Dᵀ * (D * mat z) + dg • mat z)‖ := by
  rcases eq_or_ne z 0 with rfl | hz
  · rw [norm_zero, mul_zero]; exact norm_nonneg _
  have hp : 0 < ‖z‖ := norm_pos_iff.2 hz
  have e : ⟪z, arr (Dᵀ * (D * mat z) + dg • mat z)⟫ = ‖dmul (k := K) D z‖ ^ 2 + dg * ‖z‖ ^ 2 := by
    rw [arr_add, arr_smul, arr_mat, inner_add_right, real_inner_smul_right, real_inner_self_eq_norm_sq,
      ← real_inner_self_eq_norm_sq (dmul D z), dmul_adj, dmul_apply, dmul_apply, mat_arr]
  have h1 := real_inner_le_norm z (arr (Dᵀ * (D * mat z) + dg • mat z))
  rw [e] at h1
  have h2 := sq_nonneg ‖dmul (k := K) D z‖
  have h3 : ‖z‖ * (dg * ‖z‖) ≤ ‖z‖ * ‖arr (Dᵀ * (D * mat z) + dg • mat z)‖ := by nlinarith
  exact le_of_mul_le_mul_left h3 hp

theorem xrrs_certifies (D : Matrix (Fin N) (Fin M) ℝ) (dg : ℝ) (hd : 0 < dg)
    (b : Matrix (Fin M) (Fin K) ℝ) (Xs : Arr M K) (hX : Dᵀ * (D * mat Xs) + dg • mat Xs = b) :
    Certifies (fun X => rrs (arr (Dᵀ * (D * mat X) + dg • mat X)).ofLp (arr b).ofLp) Xs
      (‖arr b‖ / dg) := by
  have key : ∀ X : Arr M K, dg * ‖X - Xs‖ ≤ ‖arr (Dᵀ * (D * mat X) + dg • mat X) - arr b‖ := by
    intro X
    refine (normal_coercive D dg (X - Xs)).trans (le_of_eq ?_)
    rw [← hX, ← arr_sub, mat_sub]
    congr 2
    rw [Matrix.mul_sub, Matrix.mul_sub, smul_sub]
    abel
  intro X
  refine ⟨(C58_rrs _ _).1, ?_, fun h => ?_⟩
  · simp only
    rw [(C58_rrs _ _).2]
    constructor
    · intro h
      have h1 : arr (Dᵀ * (D * mat X) + dg • mat X) = arr b := by ext i; exact congrFun h i
      have h2 := key X
      rw [h1, sub_self, norm_zero] at h2
      have h3 : ‖X - Xs‖ = 0 := le_antisymm (by nlinarith [norm_nonneg (X - Xs)]) (norm_nonneg _)
      exact sub_eq_zero.1 (norm_eq_zero.1 h3)
    · intro h; rw [h, hX]
  · have h1 := (key X).trans (rrs_resid _ _ h)
    rw [← mul_div_assoc, le_div_iff₀ hd]
    linarith

/-- **C89.** `BPDN` and the classes that share its X update, with `LinSolveCheck`: the value recorded as
`XSlvRelRes` is zero at the X update the code makes, and for any other way of computing X it certifies the
distance to the unique minimiser of the augmented Lagrangian. -/
theorem C89_bpdn (D : Matrix (Fin N) (Fin M) ℝ) (S : Matrix (Fin N) (Fin K) ℝ) (rho : ℝ) (hr : 0 < rho)
    (Y U : Arr M K) :
    (∀ X, xrrs true rho rho Y U (setdict S rho D) (xstep rho X Y U (setdict S rho D)).1 = some 0) ∧
    ∃ Xs : Arr M K, IsUniqueMin (augBPDN D S rho (mat Y) (mat U)) Set.univ (mat Xs) ∧
      ∃ v : Arr M K → ℝ, (∀ X, xrrs true rho rho Y U (setdict S rho D) X = some (v X)) ∧
        Certifies v Xs (‖arr (Dᵀ * S + rho • (mat Y - mat U))‖ / rho) := by
  have hc := xrrs_certifies D rho hr (Dᵀ * S + rho • (mat Y - mat U)) (xstep rho 0 Y U (setdict S rho D)).1
    (choSolve_normal D rho hr _)
  exact ⟨fun X => congrArg some ((hc _).2.1.2 rfl), _, C40_bpdn_xstep D S rho hr 0 Y U, _, fun X => rfl, hc⟩

/-- **C89.** The same for `ElasticNet`. -/
theorem C89_elasticnet (D : Matrix (Fin N) (Fin M) ℝ) (S : Matrix (Fin N) (Fin K) ℝ) (mu rho : ℝ)
    (hm : 0 ≤ mu) (hr : 0 < rho) (Y U : Arr M K) :
    (∀ X, xrrs true (mu + rho) rho Y U (setdictEN S mu rho D)
      (xstepEN mu rho X Y U (setdictEN S mu rho D)).1 = some 0) ∧
    ∃ Xs : Arr M K, IsUniqueMin (augEN D S mu rho (mat Y) (mat U)) Set.univ (mat Xs) ∧
      ∃ v : Arr M K → ℝ, (∀ X, xrrs true (mu + rho) rho Y U (setdictEN S mu rho D) X = some (v X)) ∧
        Certifies v Xs (‖arr (Dᵀ * S + rho • (mat Y - mat U))‖ / (mu + rho)) := by
  have hd : 0 < mu + rho := by linarith
  have hc := xrrs_certifies D (mu + rho) hd (Dᵀ * S + rho • (mat Y - mat U))
    (xstepEN mu rho 0 Y U (setdictEN S mu rho D)).1 (choSolve_normal D (mu + rho) hd _)
  exact ⟨fun X => congrArg some ((hc _).2.1.2 rfl), _, C40_elasticnet_xstep D S mu rho hm hr 0 Y U, _,
    fun X => rfl, hc⟩

/-- A candidate with a value strictly between zero and one: `D = 1`, `S = 4`, `ρ = 1` and `X = 1` instead
of 2; the value is 1/2 and the bound 4, where the distance is 1. -/
example : xrrs true 1 1 0 0 (setdict (N := 1) (M := 1) (K := 1) (Matrix.of fun _ _ => 4) 1
    (Matrix.of fun _ _ => 1)) (arr (Matrix.of fun _ _ => 1)) = some (1 / 2) := by
  unfold xrrs
  simp only [if_true]
  congr 1
  simp only [rrs, setdict, arr, mat, Fintype.sum_prod_type, Fin.sum_univ_succ, Fin.sum_univ_zero,
    Matrix.mul_apply, Matrix.add_apply, Matrix.smul_apply, Matrix.sub_apply, Matrix.transpose_apply,
    Matrix.of_apply]
  norm_num

end Sporco.Admm.Bpdn
