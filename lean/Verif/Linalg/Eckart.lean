import Mathlib.Analysis.InnerProductSpace.PiL2
import Mathlib.Analysis.InnerProductSpace.Orthonormal
import Mathlib.Algebra.Order.BigOperators.Ring.Finset

/-!
# Best approximation of a matrix by a sum of `n` rank-one matrices

The theorem of Eckart and Young for the Frobenius norm, used for `nkp`, `kpsvd` (C28) and
`pca` (C60).
-/

set_option autoImplicit false

namespace Sporco.Linalg

open Finset

variable {P Q : Type*} [Fintype P] [Fintype Q]

/-- A family of orthonormal real vectors. -/
def OrthoFam {ι : Type*} [DecidableEq ι] (u : ι → P → ℝ) : Prop :=
  ∀ r s, ∑ p, u r p * u s p = if r = s then 1 else 0

/-- Parseval for an orthonormal family. -/
theorem OrthoFam.sum_sq {ι : Type*} [Fintype ι] [DecidableEq ι] {v : ι → Q → ℝ} (hv : OrthoFam v)
    (α : ι → ℝ) : ∑ q, (∑ r, α r * v r q) ^ 2 = ∑ r, α r ^ 2 := by
  have h1 : ∀ q, (∑ r, α r * v r q) ^ 2 = ∑ r, ∑ s, α r * α s * (v r q * v s q) := by
    intro q
    rw [pow_two, sum_mul_sum]
    refine sum_congr rfl fun r _ => sum_congr rfl fun s _ => by ring
  simp only [h1]
  rw [sum_comm]
  refine sum_congr rfl fun r _ => ?_
  rw [sum_comm]
  have h2 : ∀ s, ∑ q, α r * α s * (v r q * v s q) = if r = s then α r * α s else 0 := by
    intro s
    rw [← mul_sum, hv r s]
    split_ifs <;> simp
  simp only [h2, sum_ite_eq, mem_univ, if_true]
  ring

/-- Bessel's inequality. -/
theorem OrthoFam.bessel {ι : Type*} [Fintype ι] [DecidableEq ι] {u : ι → P → ℝ} (hu : OrthoFam u)
    (e : P → ℝ) : ∑ r, (∑ p, e p * u r p) ^ 2 ≤ ∑ p, e p ^ 2 := by
  have h0 : 0 ≤ ∑ p, (e p - ∑ r, (∑ p, e p * u r p) * u r p) ^ 2 := sum_nonneg fun _ _ => sq_nonneg _
  have h1 : ∑ p, (e p - ∑ r, (∑ p, e p * u r p) * u r p) ^ 2 =
      ∑ p, e p ^ 2 - 2 * ∑ p, e p * (∑ r, (∑ p, e p * u r p) * u r p) +
        ∑ p, (∑ r, (∑ p, e p * u r p) * u r p) ^ 2 := by
    rw [mul_sum, ← sum_sub_distrib, ← sum_add_distrib]
    refine sum_congr rfl fun p _ => by ring
  rw [h1, hu.sum_sq] at h0
  have h2 : ∑ p, e p * (∑ r, (∑ p, e p * u r p) * u r p) = ∑ r, (∑ p, e p * u r p) ^ 2 := by
    simp only [mul_sum]
    rw [sum_comm]
    refine sum_congr rfl fun r _ => ?_
    rw [pow_two, mul_sum]
    refine sum_congr rfl fun p _ => by ring
  rw [h2] at h0
  linarith

/-- The energy in a family of at most `n` directions is at most that of the `n` largest values. -/
theorem weighted_le {R n m : ℕ} (hm : m ≤ n) (σ : Fin R → ℝ) (hσ : Antitone σ) (h0 : ∀ r, 0 ≤ σ r)
    (p : Fin R → ℝ) (hp0 : ∀ r, 0 ≤ p r) (hp1 : ∀ r, p r ≤ 1) (hps : ∑ r, p r ≤ m) :
    ∑ r, σ r ^ 2 * p r ≤ ∑ r, if r.val < n then σ r ^ 2 else 0 := by
  by_cases hn : n < R
  · set s := σ ⟨n, hn⟩ ^ 2 with hs
    have h1 : ∀ r : Fin R, σ r ^ 2 * p r ≤
        (if r.val < n then σ r ^ 2 else 0) + s * (p r - if r.val < n then 1 else 0) := by
      intro r
      split_ifs with hr
      · have h2 : s ≤ σ r ^ 2 := by
          have : σ ⟨n, hn⟩ ≤ σ r := hσ (by simp only [Fin.le_def]; omega)
          exact pow_le_pow_left₀ (h0 _) this 2
        nlinarith [hp1 r]
      · have h2 : σ r ^ 2 ≤ s := by
          have : σ r ≤ σ ⟨n, hn⟩ := hσ (by simp only [Fin.le_def]; omega)
          exact pow_le_pow_left₀ (h0 _) this 2
        nlinarith [hp0 r]
    refine (sum_le_sum fun r _ => h1 r).trans ?_
    rw [sum_add_distrib, ← mul_sum, sum_sub_distrib]
    have h3 : ∑ r : Fin R, (if r.val < n then (1 : ℝ) else 0) = n := by
      rw [Fin.sum_univ_eq_sum_range (fun i => if i < n then (1 : ℝ) else 0) R, ← sum_filter]
      have : (range R).filter (· < n) = range n := by ext; simp; omega
      rw [this]; simp
    rw [h3]
    have : (m : ℝ) ≤ n := by exact_mod_cast hm
    have : s * (∑ r, p r - n) ≤ 0 := mul_nonpos_of_nonneg_of_nonpos (sq_nonneg _) (by linarith)
    linarith
  · refine sum_le_sum fun r _ => ?_
    rw [if_pos (by omega)]
    nlinarith [hp1 r, hp0 r, sq_nonneg (σ r)]

/-- **Eckart-Young**: a sum of `n` rank-one matrices misses at least the energy of the values
after the first `n`. -/
theorem eckart_young {R n : ℕ} (σ : Fin R → ℝ) (hσ : Antitone σ) (h0 : ∀ r, 0 ≤ σ r)
    (u : Fin R → P → ℝ) (v : Fin R → Q → ℝ) (hu : OrthoFam u) (hv : OrthoFam v)
    (b : Fin n → P → ℝ) (c : Fin n → Q → ℝ) :
    (∑ r, if r.val < n then 0 else σ r ^ 2) ≤
      ∑ p, ∑ q, (∑ r, σ r * u r p * v r q - ∑ t, b t p * c t q) ^ 2 := by
  classical
  let B : Fin n → EuclideanSpace ℝ P := fun t => WithLp.toLp 2 (b t)
  let W : Submodule ℝ (EuclideanSpace ℝ P) := Submodule.span ℝ (Set.range B)
  let m := Module.finrank ℝ W
  have hm : m ≤ n := by
    have := finrank_range_le_card (R := ℝ) B
    simpa [Set.finrank, m, W] using this
  let e := stdOrthonormalBasis ℝ W
  let E : Fin m → P → ℝ := fun t p => (e t : EuclideanSpace ℝ P) p
  have hE : OrthoFam E := by
    intro t s
    have := (orthonormal_iff_ite.1 e.orthonormal) s t
    have h2 : inner ℝ (e s) (e t) = ∑ p, E t p * E s p := by
      change inner ℝ (e s : EuclideanSpace ℝ P) (e t : EuclideanSpace ℝ P) = _
      rw [PiLp.inner_apply]
      simp [E, RCLike.inner_apply]
    rw [← h2, this]
    simp only [eq_comm]
  -- the columns of the sum lie in the span
  have hcol : ∀ q, ∃ y : Fin m → ℝ, ∀ p, ∑ t, b t p * c t q = ∑ t, y t * E t p := by
    intro q
    have hmem : ∑ t, c t q • B t ∈ W :=
      Submodule.sum_mem _ fun t _ => Submodule.smul_mem _ _ (Submodule.subset_span ⟨t, rfl⟩)
    refine ⟨fun t => e.repr ⟨_, hmem⟩ t, fun p => ?_⟩
    have h1 := e.sum_repr ⟨_, hmem⟩
    have h2 := congrArg (fun w : W => (w : EuclideanSpace ℝ P) p) h1
    simp only [Submodule.coe_sum, Submodule.coe_smul] at h2
    have h3 : ∀ {T : Type} [Fintype T] (f : T → EuclideanSpace ℝ P), (∑ t, f t) p = ∑ t, f t p := by
      intro T _ f
      simp
    rw [h3, h3] at h2
    simp only [PiLp.smul_apply, smul_eq_mul] at h2
    rw [show ∑ t, b t p * c t q = ∑ t, c t q * B t p from
      sum_congr rfl fun t _ => by rw [mul_comm]]
    exact h2.symm
  choose y hy using hcol
  -- column-wise lower bound
  let a : Fin m → Fin R → ℝ := fun t r => ∑ p, E t p * u r p
  have hMsq : ∑ q, ∑ p, (∑ r, σ r * u r p * v r q) ^ 2 = ∑ r, σ r ^ 2 := by
    rw [sum_comm]
    have h1 : ∀ p, ∑ q, (∑ r, σ r * u r p * v r q) ^ 2 = ∑ r, (σ r * u r p) ^ 2 :=
      fun p => hv.sum_sq fun r => σ r * u r p
    simp only [h1]
    rw [sum_comm]
    refine sum_congr rfl fun r _ => ?_
    have h2 := hu r r
    simp only [if_true] at h2
    have h3 : ∀ p, (σ r * u r p) ^ 2 = σ r ^ 2 * (u r p * u r p) := fun p => by ring
    simp only [h3, ← mul_sum, h2, mul_one]
  have hproj : ∀ q t, ∑ p, E t p * (∑ r, σ r * u r p * v r q) = ∑ r, σ r * a t r * v r q := by
    intro q t
    simp only [mul_sum, a, sum_mul]
    rw [sum_comm]
    refine sum_congr rfl fun r _ => sum_congr rfl fun p _ => by ring
  have hlow : ∀ q, ∑ p, (∑ r, σ r * u r p * v r q) ^ 2 - ∑ t, (∑ r, σ r * a t r * v r q) ^ 2 ≤
      ∑ p, (∑ r, σ r * u r p * v r q - ∑ t, b t p * c t q) ^ 2 := by
    intro q
    have h1 : ∑ p, (∑ r, σ r * u r p * v r q - ∑ t, b t p * c t q) ^ 2 =
        ∑ p, (∑ r, σ r * u r p * v r q) ^ 2 -
          2 * ∑ t, y q t * ∑ p, E t p * (∑ r, σ r * u r p * v r q) + ∑ t, y q t ^ 2 := by
      rw [← hE.sum_sq (y q)]
      have h2 : ∀ f : P → ℝ, ∑ t, y q t * ∑ p, E t p * f p = ∑ p, f p * ∑ t, y q t * E t p := by
        intro f
        simp only [mul_sum]
        rw [sum_comm]
        exact sum_congr rfl fun p _ => sum_congr rfl fun t _ => by ring
      rw [h2, mul_sum, ← sum_sub_distrib, ← sum_add_distrib]
      refine sum_congr rfl fun p _ => ?_
      rw [hy q p]; ring
    rw [h1]
    simp only [hproj]
    have h3 : ∀ t, 2 * (y q t * ∑ r, σ r * a t r * v r q) - y q t ^ 2 ≤
        (∑ r, σ r * a t r * v r q) ^ 2 := fun t => by
      nlinarith [sq_nonneg (y q t - ∑ r, σ r * a t r * v r q)]
    have h4 := sum_le_sum (s := univ) fun t (_ : t ∈ univ) => h3 t
    rw [sum_sub_distrib, ← mul_sum] at h4
    linarith
  have htot := sum_le_sum (s := univ) fun q (_ : q ∈ univ) => hlow q
  rw [sum_sub_distrib, hMsq] at htot
  have ha : ∑ q, ∑ t, (∑ r, σ r * a t r * v r q) ^ 2 = ∑ r, σ r ^ 2 * ∑ t, a t r ^ 2 := by
    rw [sum_comm]
    have : ∀ t, ∑ q, (∑ r, σ r * a t r * v r q) ^ 2 = ∑ r, (σ r * a t r) ^ 2 :=
      fun t => hv.sum_sq fun r => σ r * a t r
    simp only [this]
    rw [sum_comm]
    refine sum_congr rfl fun r _ => ?_
    rw [mul_sum]
    refine sum_congr rfl fun t _ => by ring
  rw [ha] at htot
  have hw := weighted_le hm σ hσ h0 (fun r => ∑ t, a t r ^ 2) (fun r => sum_nonneg fun _ _ => sq_nonneg _)
    (fun r => by
      have := hE.bessel (u r)
      have h2 := hu r r
      simp only [if_true] at h2
      refine le_trans (le_of_eq ?_) (this.trans (le_of_eq ?_))
      · refine sum_congr rfl fun t _ => ?_
        simp only [a]; congr 1; exact sum_congr rfl fun p _ => by ring
      · rw [← h2]; exact sum_congr rfl fun p _ => by ring)
    (by
      rw [sum_comm]
      have : ∀ t, ∑ r, a t r ^ 2 ≤ 1 := fun t => by
        refine (hu.bessel (E t)).trans (le_of_eq ?_)
        have h2 := hE t t
        simp only [if_true] at h2
        rw [← h2]; exact sum_congr rfl fun p _ => by ring
      refine (sum_le_sum fun t _ => this t).trans ?_
      simp)
  have hsplit : ∑ r, σ r ^ 2 = (∑ r : Fin R, if r.val < n then σ r ^ 2 else 0) +
      ∑ r : Fin R, if r.val < n then 0 else σ r ^ 2 := by
    rw [← sum_add_distrib]
    refine sum_congr rfl fun r _ => by split_ifs <;> simp
  rw [sum_comm]
  linarith

/-- The first `n` terms of the decomposition miss exactly that energy. -/
theorem truncation_error {R : ℕ} (n : ℕ) (σ : Fin R → ℝ)
    (u : Fin R → P → ℝ) (v : Fin R → Q → ℝ) (hu : OrthoFam u) (hv : OrthoFam v) :
    ∑ p, ∑ q, (∑ r, σ r * u r p * v r q -
      ∑ r : Fin R, if r.val < n then σ r * u r p * v r q else 0) ^ 2 =
      ∑ r, if r.val < n then 0 else σ r ^ 2 := by
  have h1 : ∀ p q, (∑ r, σ r * u r p * v r q -
      ∑ r : Fin R, if r.val < n then σ r * u r p * v r q else 0) =
      ∑ r : Fin R, ((if r.val < n then 0 else σ r) * u r p) * v r q := by
    intro p q
    rw [← sum_sub_distrib]
    refine sum_congr rfl fun r _ => by split_ifs <;> simp
  simp only [h1]
  have h2 : ∀ p, ∑ q, (∑ r : Fin R, ((if r.val < n then 0 else σ r) * u r p) * v r q) ^ 2 =
      ∑ r : Fin R, ((if r.val < n then 0 else σ r) * u r p) ^ 2 :=
    fun p => hv.sum_sq fun r => (if r.val < n then 0 else σ r) * u r p
  simp only [h2]
  rw [sum_comm]
  refine sum_congr rfl fun r _ => ?_
  have h3 := hu r r
  simp only [if_true] at h3
  have h4 : ∀ p, ((if r.val < n then 0 else σ r) * u r p) ^ 2 =
      (if r.val < n then 0 else σ r) ^ 2 * (u r p * u r p) := fun p => by ring
  simp only [h4, ← mul_sum, h3, mul_one]
  split_ifs <;> simp

end Sporco.Linalg
