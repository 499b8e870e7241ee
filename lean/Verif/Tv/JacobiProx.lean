import Verif.Tv.Jacobi
import Mathlib.LinearAlgebra.BilinearForm.Basic
import Mathlib.Tactic.Abel

/-!
# An even number of Jacobi passes is a proximal step

For a symmetric problem, `2j` Jacobi passes from `x` give the exact minimiser of the quadratic plus a
positive semidefinite quadratic form of the displacement.
-/

set_option autoImplicit false

namespace Sporco.Tv

open Finset Filter

variable {I : Type*} [Fintype I]

section

variable (N : I → I → ℝ) (W : I → ℝ) (ρ : ℝ)

/-- The diagonal. -/
noncomputable def dia (i : I) : ℝ := W i + ρ * ∑ j, N i j

/-- The linear part of a Jacobi pass. -/
noncomputable def jacL : Module.End ℝ (I → ℝ) where
  toFun := jac N W ρ 0
  map_add' x y := by
    funext i
    have : ∑ j, N i j * (x j + y j) = ∑ j, N i j * x j + ∑ j, N i j * y j := by
      rw [← sum_add_distrib]; exact sum_congr rfl fun j _ => by ring
    simp only [jac, Pi.add_apply, this, Pi.zero_apply, add_zero]
    ring
  map_smul' c x := funext fun i => jac_smul c x i

/-- The weighted inner product. -/
noncomputable def ipD (a b : I → ℝ) : ℝ := ∑ i, dia N W ρ i * a i * b i

variable {N W ρ}

theorem ipD_add (a b c : I → ℝ) : ipD N W ρ (a + b) c = ipD N W ρ a c + ipD N W ρ b c := by
  unfold ipD; rw [← sum_add_distrib]; exact sum_congr rfl fun i _ => by simp only [Pi.add_apply]; ring

theorem ipD_sub (a b c : I → ℝ) : ipD N W ρ (a - b) c = ipD N W ρ a c - ipD N W ρ b c := by
  unfold ipD; rw [← sum_sub_distrib]; exact sum_congr rfl fun i _ => by simp only [Pi.sub_apply]; ring

theorem ipD_smul (s : ℝ) (a c : I → ℝ) : ipD N W ρ (s • a) c = s * ipD N W ρ a c := by
  unfold ipD; rw [mul_sum]; exact sum_congr rfl fun i _ => by simp only [Pi.smul_apply, smul_eq_mul]; ring

theorem ipD_comm (a b : I → ℝ) : ipD N W ρ a b = ipD N W ρ b a :=
  sum_congr rfl fun i _ => by ring

theorem ipD_sub_right (a b c : I → ℝ) : ipD N W ρ c (a - b) = ipD N W ρ c a - ipD N W ρ c b := by
  rw [ipD_comm, ipD_sub, ipD_comm a, ipD_comm b]

theorem dia_jacL (hD : ∀ i, 0 < W i + ρ * ∑ j, N i j) (a : I → ℝ) (i : I) :
    dia N W ρ i * jacL N W ρ a i = ρ * ∑ j, N i j * a j := by
  change (W i + ρ * ∑ j, N i j) * ((ρ * ∑ j, N i j * a j + 0) / (W i + ρ * ∑ j, N i j)) = _
  rw [mul_div_cancel₀ _ (hD i).ne', add_zero]

theorem jacL_sa (hs : ∀ i j, N i j = N j i) (hD : ∀ i, 0 < W i + ρ * ∑ j, N i j) (a b : I → ℝ) :
    ipD N W ρ (jacL N W ρ a) b = ipD N W ρ a (jacL N W ρ b) := by
  have h1 : ipD N W ρ (jacL N W ρ a) b = ρ * ∑ i, ∑ j, N i j * a j * b i := by
    unfold ipD
    rw [mul_sum]
    refine sum_congr rfl fun i _ => ?_
    rw [dia_jacL hD, mul_assoc, sum_mul]
  have h2 : ipD N W ρ a (jacL N W ρ b) = ρ * ∑ i, ∑ j, N i j * b j * a i := by
    rw [ipD_comm]
    unfold ipD
    rw [mul_sum]
    refine sum_congr rfl fun i _ => ?_
    rw [dia_jacL hD, mul_assoc, sum_mul]
  rw [h1, h2, sum_comm]
  congr 1
  refine sum_congr rfl fun i _ => sum_congr rfl fun j _ => ?_
  rw [hs j i]; ring

theorem jacL_pow_sa (hs : ∀ i j, N i j = N j i) (hD : ∀ i, 0 < W i + ρ * ∑ j, N i j) (k : ℕ) (a b : I → ℝ) :
    ipD N W ρ ((jacL N W ρ ^ k) a) b = ipD N W ρ a ((jacL N W ρ ^ k) b) := by
  induction k generalizing a b with
  | zero => rfl
  | succ k ih =>
    have e1 : (jacL N W ρ ^ (k + 1)) a = (jacL N W ρ ^ k) (jacL N W ρ a) := by rw [pow_succ]; rfl
    have e2 : (jacL N W ρ ^ (k + 1)) b = jacL N W ρ ((jacL N W ρ ^ k) b) := by rw [pow_succ']; rfl
    rw [e1, e2, ih, jacL_sa hs hD]

/-- The energy of the homogeneous problem. -/
noncomputable def energy (N : I → I → ℝ) (W : I → ℝ) (ρ : ℝ) (c : I → ℝ) : ℝ := ipD N W ρ (c - jacL N W ρ c) c

theorem ipD_add_nonneg (hN : ∀ i j, 0 ≤ N i j) (hs : ∀ i j, N i j = N j i) (hW : ∀ i, 0 ≤ W i) (hρ : 0 ≤ ρ)
    (hD : ∀ i, 0 < W i + ρ * ∑ j, N i j) (c : I → ℝ) : 0 ≤ ipD N W ρ (c + jacL N W ρ c) c := by
  have h1 : ipD N W ρ (c + jacL N W ρ c) c =
      ∑ i, W i * c i ^ 2 + ρ / 2 * ∑ i, ∑ j, N i j * (c i + c j) ^ 2 := by
    have e1 : ipD N W ρ (c + jacL N W ρ c) c = ∑ i, (W i * c i ^ 2 + ρ * ∑ j, N i j * (c i ^ 2 + c i * c j)) := by
      unfold ipD
      refine sum_congr rfl fun i _ => ?_
      have := dia_jacL hD c i
      have e2 : dia N W ρ i * (c + jacL N W ρ c) i * c i =
          (W i + ρ * ∑ j, N i j) * c i * c i + (ρ * ∑ j, N i j * c j) * c i := by
        rw [← this]; simp only [Pi.add_apply, dia]; ring
      have e3 : ∑ j, N i j * (c i ^ 2 + c i * c j) = (∑ j, N i j) * c i ^ 2 + (∑ j, N i j * c j) * c i := by
        rw [sum_mul, sum_mul, ← sum_add_distrib]; exact sum_congr rfl fun j _ => by ring
      rw [e2, e3]; ring
    have e4 : ∑ i, ∑ j, N i j * (c i + c j) ^ 2 = 2 * ∑ i, ∑ j, N i j * (c i ^ 2 + c i * c j) := by
      have e5 : ∑ i, ∑ j, N i j * c j ^ 2 = ∑ i, ∑ j, N i j * c i ^ 2 := by
        rw [sum_comm]
        exact sum_congr rfl fun i _ => sum_congr rfl fun j _ => by rw [hs j i]
      have e6 : ∀ i j, N i j * (c i + c j) ^ 2 = 2 * (N i j * (c i ^ 2 + c i * c j)) + (N i j * c j ^ 2 -
          N i j * c i ^ 2) := fun i j => by ring
      simp only [e6, sum_add_distrib, sum_sub_distrib, ← mul_sum]
      rw [e5]; ring
    rw [e1, sum_add_distrib, e4, ← mul_sum]; ring
  rw [h1]
  have h2 : 0 ≤ ∑ i, W i * c i ^ 2 := sum_nonneg fun i _ => mul_nonneg (hW i) (sq_nonneg _)
  have h3 : 0 ≤ ∑ i, ∑ j, N i j * (c i + c j) ^ 2 :=
    sum_nonneg fun i _ => sum_nonneg fun j _ => mul_nonneg (hN i j) (sq_nonneg _)
  positivity

theorem energy_jac (hN : ∀ i j, 0 ≤ N i j) (hs : ∀ i j, N i j = N j i) (hW : ∀ i, 0 ≤ W i) (hρ : 0 ≤ ρ)
    (hD : ∀ i, 0 < W i + ρ * ∑ j, N i j) (c : I → ℝ) : energy N W ρ (jacL N W ρ c) ≤ energy N W ρ c := by
  have h := ipD_add_nonneg hN hs hW hρ hD (c - jacL N W ρ c)
  set K := jacL N W ρ with hK
  have e1 : c - K c + K (c - K c) = c - K (K c) := by rw [map_sub]; abel
  rw [e1] at h
  have e2 : ipD N W ρ (c - K (K c)) (c - K c) = energy N W ρ c - energy N W ρ (K c) := by
    unfold energy
    rw [← hK]
    have s1 := jacL_sa hs hD (K c) c
    have s2 := jacL_sa hs hD (K c) (K c)
    rw [← hK] at s1 s2
    simp only [ipD_sub, ipD_sub_right]
    rw [s1, ipD_comm c (K c), ipD_comm (K (K c)) (K c)]
    ring
  linarith

theorem energy_pow (hN : ∀ i j, 0 ≤ N i j) (hs : ∀ i j, N i j = N j i) (hW : ∀ i, 0 ≤ W i) (hρ : 0 ≤ ρ)
    (hD : ∀ i, 0 < W i + ρ * ∑ j, N i j) (k : ℕ) (c : I → ℝ) :
    energy N W ρ ((jacL N W ρ ^ k) c) ≤ energy N W ρ c := by
  induction k with
  | zero => exact le_rfl
  | succ k ih =>
    have e2 : (jacL N W ρ ^ (k + 1)) c = jacL N W ρ ((jacL N W ρ ^ k) c) := by rw [pow_succ']; rfl
    rw [e2]
    exact (energy_jac hN hs hW hρ hD _).trans ih

theorem jac_iter_eq (k : ℕ) (x : I → ℝ) : (jac N W ρ 0)^[k] x = (jacL N W ρ ^ k) x := by
  rw [Module.End.pow_apply]; rfl

/-- `2j` Jacobi passes are an exact step for the quadratic plus a positive semidefinite form of the displacement,
which does not depend on the right hand side. -/
theorem jac_prox (hN : ∀ i j, 0 ≤ N i j) (hs : ∀ i j, N i j = N j i) (hW : ∀ i, 0 ≤ W i) (hρ : 0 < ρ)
    (hA : Anchored N W) (j : ℕ) (hj : 0 < j) :
    ∃ Q : LinearMap.BilinForm ℝ (I → ℝ), (∀ a b, Q a b = Q b a) ∧ (∀ a, 0 ≤ Q a a) ∧
      ∀ (b x z : I → ℝ), ∑ i, ((W i + ρ * ∑ l, N i l) * ((jac N W ρ b)^[2 * j] x) i -
        ρ * ∑ l, N i l * ((jac N W ρ b)^[2 * j] x) l - b i) * z i + Q ((jac N W ρ b)^[2 * j] x - x) z = 0 := by
  have hD := den_pos hN hW hρ hA
  set K := jacL N W ρ with hK
  let T : Module.End ℝ (I → ℝ) := 1 - K ^ (2 * j)
  have hTa : ∀ a, T a = a - (K ^ (2 * j)) a := fun a => rfl
  have hinj : Function.Injective T := by
    rw [← LinearMap.ker_eq_bot, LinearMap.ker_eq_bot']
    intro x hx
    have h1 : (K ^ (2 * j)) x = x := (sub_eq_zero.1 hx).symm
    have h2 : ∀ k, (jac N W ρ 0)^[2 * j * k] x = x := by
      intro k
      rw [jac_iter_eq, pow_mul, Module.End.pow_apply]
      exact Function.iterate_fixed h1 k
    funext i
    have h3 := (iter_tendsto_zero hN hW hρ hA x i).comp
      (tendsto_id.const_mul_atTop' (r := 2 * j) (by omega))
    have h4 : (fun k => ((jac N W ρ 0)^[k] x) i) ∘ (fun k => 2 * j * id k) = fun _ => x i := by
      funext k; simp only [Function.comp, id, h2]
    rw [h4] at h3
    exact tendsto_nhds_unique tendsto_const_nhds h3
  let Te : (I → ℝ) ≃ₗ[ℝ] (I → ℝ) := LinearEquiv.ofInjectiveEndo T hinj
  have hTe : ∀ a, Te a = T a := fun a => rfl
  let L : Module.End ℝ (I → ℝ) := (1 - K) * K ^ (2 * j) * Te.symm.toLinearMap
  have hL : ∀ a, L (T a) = (K ^ (2 * j)) a - K ((K ^ (2 * j)) a) := by
    intro a
    have : L (T a) = (1 - K) ((K ^ (2 * j)) (Te.symm (Te a))) := rfl
    rw [this, LinearEquiv.symm_apply_apply]; rfl
  let Q : LinearMap.BilinForm ℝ (I → ℝ) := LinearMap.mk₂ ℝ (fun a b => ipD N W ρ (L a) b)
    (fun a a' b => by rw [map_add, ipD_add]) (fun c a b => by rw [map_smul, ipD_smul]; rfl)
    (fun a b b' => by rw [ipD_comm, ipD_add, ipD_comm b, ipD_comm b'])
    (fun c a b => by rw [ipD_comm, ipD_smul, ipD_comm b]; rfl)
  have hQ : ∀ a b, Q a b = ipD N W ρ (L a) b := fun a b => rfl
  have sa := fun k a b => jacL_pow_sa hs hD k a b
  have sa1 := fun a b => jacL_sa hs hD a b
  rw [← hK] at sa sa1
  have hcomm : ∀ k a, K ((K ^ k) a) = (K ^ k) (K a) := by
    intro k a
    have : K ((K ^ k) a) = (K * K ^ k) a := rfl
    rw [this, ← pow_succ', pow_succ]; rfl
  have hsurj : ∀ a, ∃ a', T a' = a := fun a => ⟨Te.symm a, Te.apply_symm_apply a⟩
  have hQT : ∀ a b, Q (T a) (T b) = ipD N W ρ ((K ^ (2 * j)) a - K ((K ^ (2 * j)) a)) (b - (K ^ (2 * j)) b) := by
    intro a b; rw [hQ, hL, hTa]
  refine ⟨Q, fun a b => ?_, fun a => ?_, fun b x z => ?_⟩
  · obtain ⟨a, rfl⟩ := hsurj a
    obtain ⟨b, rfl⟩ := hsurj b
    rw [hQT, hQT]
    generalize 2 * j = m
    have e : ∀ a b, ipD N W ρ ((K ^ m) a - K ((K ^ m) a)) (b - (K ^ m) b) =
        ipD N W ρ ((K ^ m) a) b - ipD N W ρ (K ((K ^ m) a)) b - (ipD N W ρ ((K ^ m) a) ((K ^ m) b) -
          ipD N W ρ (K ((K ^ m) a)) ((K ^ m) b)) := by
      intro a b; rw [ipD_sub_right, ipD_sub, ipD_sub]
    have q1 : ipD N W ρ ((K ^ m) b) a = ipD N W ρ ((K ^ m) a) b := by rw [ipD_comm, sa]
    have q2 : ipD N W ρ (K ((K ^ m) b)) a = ipD N W ρ (K ((K ^ m) a)) b := by
      rw [ipD_comm, hcomm, sa1, sa]
    have q3 : ipD N W ρ (K ((K ^ m) b)) ((K ^ m) a) = ipD N W ρ (K ((K ^ m) a)) ((K ^ m) b) := by
      rw [ipD_comm, sa1]
    rw [e, e, ipD_comm ((K ^ m) b) ((K ^ m) a), q1, q2, q3]
  · obtain ⟨a, rfl⟩ := hsurj a
    rw [hQT]
    have e1 : K ^ (2 * j) = K ^ j * K ^ j := by rw [two_mul, pow_add]
    have e2 : ∀ a, (K ^ (2 * j)) a = (K ^ j) ((K ^ j) a) := fun a => by rw [e1]; rfl
    have h1 := energy_pow hN hs hW hρ.le hD j ((K ^ j) a)
    rw [← hK] at h1
    have e3 : ipD N W ρ ((K ^ (2 * j)) a - K ((K ^ (2 * j)) a)) (a - (K ^ (2 * j)) a) =
        energy N W ρ ((K ^ j) a) - energy N W ρ ((K ^ j) ((K ^ j) a)) := by
      unfold energy
      rw [← hK, ipD_sub_right, e2]
      congr 1
      rw [hcomm j, ← map_sub, sa]
    rw [e3]; linarith
  · obtain ⟨xh, hxh, -, -⟩ := jacobi hN hW hρ hA b
    have hb : ∀ i, b i = dia N W ρ i * xh i - ρ * ∑ l, N i l * xh l := by
      intro i
      have h := congrFun hxh i
      unfold jac at h
      rw [div_eq_iff (hD i).ne'] at h
      unfold dia; linarith
    set x' := (jac N W ρ b)^[2 * j] x with hx'
    have h1 : x' - xh = (K ^ (2 * j)) (x - xh) := by
      funext i
      have := jac_iter_sub (N := N) (W := W) (ρ := ρ) b (2 * j) x xh i
      rw [Function.iterate_fixed hxh, jac_iter_eq] at this
      exact this
    have h2 : x' - x = -T (x - xh) := by
      rw [hTa, ← h1]; abel
    rw [h2, map_neg, LinearMap.neg_apply, hQ, hL, ← h1]
    have h3 : ∀ i, (W i + ρ * ∑ l, N i l) * x' i - ρ * ∑ l, N i l * x' l - b i =
        dia N W ρ i * (x' - xh - K (x' - xh)) i := by
      intro i
      have h4 := dia_jacL hD (x' - xh) i
      rw [← hK] at h4
      have h5 : ∑ l, N i l * (x' - xh) l = ∑ l, N i l * x' l - ∑ l, N i l * xh l := by
        rw [← sum_sub_distrib]; exact sum_congr rfl fun l _ => by simp only [Pi.sub_apply]; ring
      rw [h5] at h4
      have h6 : dia N W ρ i * (x' - xh - K (x' - xh)) i = dia N W ρ i * x' i - dia N W ρ i * xh i -
          dia N W ρ i * K (x' - xh) i := by simp only [Pi.sub_apply]; ring
      rw [h6, h4, hb]; unfold dia; ring
    have h7 : ∑ i, ((W i + ρ * ∑ l, N i l) * x' i - ρ * ∑ l, N i l * x' l - b i) * z i =
        ipD N W ρ (x' - xh - K (x' - xh)) z := by
      unfold ipD
      exact sum_congr rfl fun i _ => by rw [h3]
    rw [h7]; ring

end

end Sporco.Tv
