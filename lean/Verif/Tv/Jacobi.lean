import Mathlib.Algebra.BigOperators.Field
import Mathlib.Algebra.Order.BigOperators.Ring.Finset
import Mathlib.Analysis.SpecificLimits.Basic
import Mathlib.LinearAlgebra.FiniteDimensional.Basic
import Mathlib.Logic.Relation
import Mathlib.Tactic.Positivity
import Mathlib.Tactic.FieldSimp
import Mathlib.Tactic.Linarith

/-!
# Convergence of the Jacobi iteration for weighted graph Laplacians

`(W + ρ (D - N)) x = b` with `N ≥ 0`, `D` the row sums of `N`, `W ≥ 0`, where from every node a
node with positive `W` can be reached.
-/

set_option autoImplicit false

namespace Sporco.Tv

open Finset

variable {I : Type*} [Fintype I]

/-- One Jacobi step. -/
noncomputable def jac (N : I → I → ℝ) (W : I → ℝ) (ρ : ℝ) (b x : I → ℝ) (i : I) : ℝ :=
  (ρ * ∑ j, N i j * x j + b i) / (W i + ρ * ∑ j, N i j)

/-- From every node a node with positive weight can be reached. -/
def Anchored (N : I → I → ℝ) (W : I → ℝ) : Prop :=
  ∀ i, ∃ j, Relation.ReflTransGen (fun a b => 0 < N a b) i j ∧ 0 < W j

section

variable {N : I → I → ℝ} {W : I → ℝ} {ρ : ℝ}

theorem den_pos (hN : ∀ i j, 0 ≤ N i j) (hW : ∀ i, 0 ≤ W i) (hρ : 0 < ρ) (hA : Anchored N W)
    (i : I) : 0 < W i + ρ * ∑ j, N i j := by
  obtain ⟨j, h, hj⟩ := hA i
  rcases Relation.ReflTransGen.cases_head h with rfl | ⟨k, hk, -⟩
  · have : 0 ≤ ∑ j, N i j := sum_nonneg fun j _ => hN i j
    positivity
  · have : 0 < ∑ j, N i j := lt_of_lt_of_le hk
      (single_le_sum (f := fun j => N i j) (fun j _ => hN i j) (mem_univ k))
    have := hW i
    positivity

/-- The homogeneous step. -/
theorem jac_sub (b x y : I → ℝ) (i : I) :
    jac N W ρ b x i - jac N W ρ b y i = jac N W ρ 0 (fun i => x i - y i) i := by
  unfold jac
  rw [← sub_div]
  congr 1
  simp only [mul_sub, sum_sub_distrib, Pi.zero_apply]
  ring

theorem jac_iter_sub (b : I → ℝ) (k : ℕ) (x y : I → ℝ) (i : I) :
    ((jac N W ρ b)^[k] x) i - ((jac N W ρ b)^[k] y) i =
      ((jac N W ρ 0)^[k] (fun i => x i - y i)) i := by
  induction k generalizing x y with
  | zero => rfl
  | succ k ih =>
    rw [Function.iterate_succ_apply, Function.iterate_succ_apply, Function.iterate_succ_apply, ih]
    exact congrFun (congrArg _ (funext fun i => jac_sub b x y i)) i

theorem jac_mono (hN : ∀ i j, 0 ≤ N i j) (hρ : 0 < ρ) (hD : ∀ i, 0 < W i + ρ * ∑ j, N i j)
    {x y : I → ℝ} (h : ∀ i, x i ≤ y i) (i : I) : jac N W ρ 0 x i ≤ jac N W ρ 0 y i := by
  unfold jac
  refine div_le_div_of_nonneg_right ?_ (hD i).le
  have : ∑ j, N i j * x j ≤ ∑ j, N i j * y j :=
    sum_le_sum fun j _ => mul_le_mul_of_nonneg_left (h j) (hN i j)
  have := mul_le_mul_of_nonneg_left this hρ.le
  simpa using this

theorem jac_iter_mono (hN : ∀ i j, 0 ≤ N i j) (hρ : 0 < ρ) (hD : ∀ i, 0 < W i + ρ * ∑ j, N i j)
    (k : ℕ) {x y : I → ℝ} (h : ∀ i, x i ≤ y i) (i : I) :
    ((jac N W ρ 0)^[k] x) i ≤ ((jac N W ρ 0)^[k] y) i := by
  induction k generalizing x y with
  | zero => exact h i
  | succ k ih =>
    rw [Function.iterate_succ_apply, Function.iterate_succ_apply]
    exact ih (jac_mono hN hρ hD h)

theorem jac_smul (c : ℝ) (x : I → ℝ) (i : I) :
    jac N W ρ 0 (fun i => c * x i) i = c * jac N W ρ 0 x i := by
  unfold jac
  have : ∑ j, N i j * (c * x j) = c * ∑ j, N i j * x j := by
    rw [mul_sum]; exact sum_congr rfl fun j _ => by ring
  rw [this]
  simp only [Pi.zero_apply, add_zero]
  ring

theorem jac_iter_smul (k : ℕ) (c : ℝ) (x : I → ℝ) (i : I) :
    ((jac N W ρ 0)^[k] (fun i => c * x i)) i = c * ((jac N W ρ 0)^[k] x) i := by
  induction k generalizing x with
  | zero => rfl
  | succ k ih =>
    rw [Function.iterate_succ_apply, Function.iterate_succ_apply, ← ih]
    exact congrFun (congrArg _ (funext fun i => jac_smul c x i)) i

/-- The image of the constant one after `k` steps. -/
noncomputable def amp (N : I → I → ℝ) (W : I → ℝ) (ρ : ℝ) (k : ℕ) : I → ℝ :=
  (jac N W ρ 0)^[k] fun _ => 1

theorem amp_succ (k : ℕ) : amp N W ρ (k + 1) = jac N W ρ 0 (amp N W ρ k) :=
  Function.iterate_succ_apply' _ _ _

theorem amp_nonneg (hN : ∀ i j, 0 ≤ N i j) (hρ : 0 < ρ) (hD : ∀ i, 0 < W i + ρ * ∑ j, N i j)
    (k : ℕ) (i : I) : 0 ≤ amp N W ρ k i := by
  induction k generalizing i with
  | zero => exact zero_le_one
  | succ k ih =>
    rw [amp_succ]
    unfold jac
    refine div_nonneg ?_ (hD i).le
    have : 0 ≤ ∑ j, N i j * amp N W ρ k j := sum_nonneg fun j _ => mul_nonneg (hN i j) (ih j)
    simp only [Pi.zero_apply, add_zero]
    positivity

theorem amp_one_le (hW : ∀ i, 0 ≤ W i)
    (hD : ∀ i, 0 < W i + ρ * ∑ j, N i j) (i : I) : amp N W ρ 1 i ≤ 1 := by
  rw [amp_succ]
  unfold jac
  rw [div_le_one (hD i)]
  have h1 : amp N W ρ 0 = fun _ => 1 := rfl
  have := hW i
  simp only [h1, mul_one, Pi.zero_apply, add_zero]
  linarith

theorem amp_antitone (hN : ∀ i j, 0 ≤ N i j) (hW : ∀ i, 0 ≤ W i) (hρ : 0 < ρ)
    (hD : ∀ i, 0 < W i + ρ * ∑ j, N i j) (k : ℕ) (i : I) :
    amp N W ρ (k + 1) i ≤ amp N W ρ k i := by
  have h := jac_iter_mono hN hρ hD k (amp_one_le hW hD) i
  have e : (jac N W ρ 0)^[k] (amp N W ρ 1) = amp N W ρ (k + 1) := by
    unfold amp
    rw [← Function.iterate_add_apply]
  rw [e] at h
  exact h

theorem amp_le_of_le (hN : ∀ i j, 0 ≤ N i j) (hW : ∀ i, 0 ≤ W i) (hρ : 0 < ρ)
    (hD : ∀ i, 0 < W i + ρ * ∑ j, N i j) {k m : ℕ} (h : k ≤ m) (i : I) :
    amp N W ρ m i ≤ amp N W ρ k i := by
  induction m, h using Nat.le_induction with
  | base => exact le_rfl
  | succ m _ ih => exact (amp_antitone hN hW hρ hD m i).trans ih

/-- After enough steps the amplification is below one at a node from which a node with positive
weight can be reached. -/
theorem amp_lt_one (hN : ∀ i j, 0 ≤ N i j) (hW : ∀ i, 0 ≤ W i) (hρ : 0 < ρ)
    (hD : ∀ i, 0 < W i + ρ * ∑ j, N i j) {i j : I}
    (h : Relation.ReflTransGen (fun a b => 0 < N a b) i j) (hj : 0 < W j) :
    ∃ k, amp N W ρ k i < 1 := by
  induction h using Relation.ReflTransGen.head_induction_on with
  | refl =>
    refine ⟨1, ?_⟩
    rw [amp_succ]
    unfold jac
    rw [div_lt_one (hD j)]
    have h1 : amp N W ρ 0 = fun _ => 1 := rfl
    simp only [h1, mul_one, Pi.zero_apply, add_zero]
    linarith
  | head h _ ih =>
    rename_i a c _
    obtain ⟨k, hk⟩ := ih
    refine ⟨k + 1, ?_⟩
    rw [amp_succ]
    unfold jac
    rw [div_lt_one (hD a)]
    simp only [Pi.zero_apply, add_zero]
    have : ∑ l, N a l * amp N W ρ k l < ∑ l, N a l := by
      refine sum_lt_sum (fun l _ => ?_) ⟨c, mem_univ _, ?_⟩
      · have := amp_le_of_le hN hW hρ hD (Nat.zero_le k) l
        exact mul_le_of_le_one_right (hN a l) this
      · have := mul_lt_mul_of_pos_left hk h
        simpa using this
    have := mul_lt_mul_of_pos_left this hρ
    have := hW a
    linarith

/-- A number of steps after which the homogeneous iteration contracts. -/
theorem exists_contraction (hN : ∀ i j, 0 ≤ N i j) (hW : ∀ i, 0 ≤ W i) (hρ : 0 < ρ)
    (hA : Anchored N W) : ∃ (m : ℕ) (γ : ℝ), 0 ≤ γ ∧ γ < 1 ∧ ∀ i, amp N W ρ m i ≤ γ := by
  have hD := den_pos hN hW hρ hA
  have h : ∀ i, ∃ k, amp N W ρ k i < 1 := fun i => by
    obtain ⟨j, h, hj⟩ := hA i
    exact amp_lt_one hN hW hρ hD h hj
  choose k hk using h
  let m := univ.sup k
  have hm : ∀ i, amp N W ρ m i < 1 := fun i =>
    (amp_le_of_le hN hW hρ hD (le_sup (f := k) (mem_univ i)) i).trans_lt (hk i)
  rcases isEmpty_or_nonempty I with hI | hI
  · exact ⟨0, 0, le_rfl, zero_lt_one, fun i => (hI.false i).elim⟩
  · obtain ⟨i₀, -, hi₀⟩ := exists_max_image univ (amp N W ρ m) univ_nonempty
    exact ⟨m, amp N W ρ m i₀, amp_nonneg hN hρ hD m i₀, hm i₀, fun i => hi₀ i (mem_univ i)⟩

theorem iter_abs_le (hN : ∀ i j, 0 ≤ N i j) (hρ : 0 < ρ)
    (hD : ∀ i, 0 < W i + ρ * ∑ j, N i j) (k : ℕ) (e : I → ℝ) (c : ℝ)
    (he : ∀ i, |e i| ≤ c) (i : I) : |((jac N W ρ 0)^[k] e) i| ≤ c * amp N W ρ k i := by
  rw [abs_le]
  have h1 := jac_iter_mono hN hρ hD k (x := e) (y := fun _ => c * 1)
    (fun i => by have := (abs_le.1 (he i)).2; simpa using this) i
  have h2 := jac_iter_mono hN hρ hD k (x := fun _ => (-c) * 1) (y := e)
    (fun i => by have := (abs_le.1 (he i)).1; simpa using this) i
  rw [jac_iter_smul k c (fun _ => 1)] at h1
  rw [jac_iter_smul k (-c) (fun _ => 1)] at h2
  have e : ((jac N W ρ 0)^[k] fun _ => 1) i = amp N W ρ k i := rfl
  rw [e] at h1 h2
  constructor <;> linarith

/-- The homogeneous iteration tends to zero from every start. -/
theorem iter_tendsto_zero (hN : ∀ i j, 0 ≤ N i j) (hW : ∀ i, 0 ≤ W i) (hρ : 0 < ρ)
    (hA : Anchored N W) (e : I → ℝ) (i : I) :
    Filter.Tendsto (fun k => ((jac N W ρ 0)^[k] e) i) Filter.atTop (nhds 0) := by
  have hD := den_pos hN hW hρ hA
  obtain ⟨m, γ, hγ0, hγ1, hγ⟩ := exists_contraction hN hW hρ hA
  set c := ∑ i, |e i| with hc
  have hc0 : 0 ≤ c := sum_nonneg fun _ _ => abs_nonneg _
  have hec : ∀ i, |e i| ≤ c := fun i =>
    single_le_sum (f := fun i => |e i|) (fun _ _ => abs_nonneg _) (mem_univ i)
  have hpow : ∀ t i, |((jac N W ρ 0)^[m * t] e) i| ≤ c * γ ^ t := by
    intro t
    induction t with
    | zero => intro i; simpa using hec i
    | succ t ih =>
      intro i
      rw [Nat.mul_succ, Nat.add_comm, Function.iterate_add_apply]
      refine (iter_abs_le hN hρ hD m _ _ ih i).trans ?_
      rw [pow_succ, ← mul_assoc]
      exact mul_le_mul_of_nonneg_left (hγ i) (by positivity)
  have hle1 : ∀ k i, amp N W ρ k i ≤ 1 := fun k i => amp_le_of_le hN hW hρ hD (Nat.zero_le k) i
  have hall : ∀ t k, m * t ≤ k → ∀ i, |((jac N W ρ 0)^[k] e) i| ≤ c * γ ^ t := by
    intro t k h i
    obtain ⟨l, rfl⟩ := Nat.exists_eq_add_of_le h
    rw [Nat.add_comm, Function.iterate_add_apply]
    refine (iter_abs_le hN hρ hD l _ _ (hpow t) i).trans ?_
    exact mul_le_of_le_one_right (by positivity) (hle1 l i)
  have hlim : Filter.Tendsto (fun t : ℕ => c * γ ^ t) Filter.atTop (nhds 0) := by
    simpa using (tendsto_pow_atTop_nhds_zero_of_lt_one hγ0 hγ1).const_mul c
  rw [Metric.tendsto_atTop]
  intro ε hε
  obtain ⟨t, ht⟩ := (Metric.tendsto_atTop.1 hlim) ε hε
  refine ⟨m * t, fun k hk => ?_⟩
  rw [Real.dist_eq, sub_zero]
  refine (hall t k hk i).trans_lt ?_
  have := ht t le_rfl
  rw [Real.dist_eq, sub_zero, abs_of_nonneg (by positivity)] at this
  exact this

/-- The Jacobi iteration has exactly one fixed point and converges to it from every start. -/
theorem jacobi (hN : ∀ i j, 0 ≤ N i j) (hW : ∀ i, 0 ≤ W i) (hρ : 0 < ρ) (hA : Anchored N W)
    (b : I → ℝ) : ∃ x, jac N W ρ b x = x ∧ (∀ y, jac N W ρ b y = y → y = x) ∧
      ∀ x0 i, Filter.Tendsto (fun k => ((jac N W ρ b)^[k] x0) i) Filter.atTop (nhds (x i)) := by
  have hD := den_pos hN hW hρ hA
  let L : (I → ℝ) →ₗ[ℝ] (I → ℝ) :=
    { toFun := fun x i => (W i + ρ * ∑ j, N i j) * x i - ρ * ∑ j, N i j * x j
      map_add' := fun x y => by
        funext i
        simp only [Pi.add_apply, mul_add, sum_add_distrib]
        ring
      map_smul' := fun c x => by
        funext i
        have : ∑ j, N i j * (c * x j) = c * ∑ j, N i j * x j := by
          rw [mul_sum]; exact sum_congr rfl fun j _ => by ring
        simp only [Pi.smul_apply, smul_eq_mul, this, RingHom.id_apply]
        ring }
  have hfix : ∀ b x, jac N W ρ b x = x ↔ L x = b := by
    intro b x
    have : ∀ i, jac N W ρ b x i = x i ↔ L x i = b i := by
      intro i
      change _ / _ = _ ↔ (W i + ρ * ∑ j, N i j) * x i - ρ * ∑ j, N i j * x j = b i
      rw [div_eq_iff (hD i).ne']
      constructor <;> intro h <;> linarith
    exact ⟨fun h => funext fun i => (this i).1 (congrFun h i),
      fun h => funext fun i => (this i).2 (congrFun h i)⟩
  have hinj : Function.Injective L := by
    rw [← LinearMap.ker_eq_bot, LinearMap.ker_eq_bot']
    intro x hx
    have h1 := (hfix 0 x).2 hx
    funext i
    have h2 := iter_tendsto_zero hN hW hρ hA x i
    have h3 : ∀ k, (jac N W ρ 0)^[k] x = x := fun k => Function.iterate_fixed h1 k
    simp only [h3] at h2
    exact tendsto_nhds_unique tendsto_const_nhds h2
  have hsurj := LinearMap.injective_iff_surjective.1 hinj
  obtain ⟨x, hx⟩ := hsurj b
  refine ⟨x, (hfix b x).2 hx, fun y hy => hinj (((hfix b y).1 hy).trans hx.symm), ?_⟩
  intro x0 i
  have h := iter_tendsto_zero hN hW hρ hA (fun i => x0 i - x i) i
  have h3 : ∀ k, (jac N W ρ b)^[k] x = x := fun k => Function.iterate_fixed ((hfix b x).2 hx) k
  have h4 : ∀ k, ((jac N W ρ b)^[k] x0) i = ((jac N W ρ 0)^[k] (fun i => x0 i - x i)) i + x i := by
    intro k
    rw [← jac_iter_sub b k x0 x i, h3]
    ring
  simp only [h4]
  simpa using h.add_const (x i)

end

end Sporco.Tv
