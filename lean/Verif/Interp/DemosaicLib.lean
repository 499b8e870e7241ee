import Verif.Interp.Demosaic
import Mathlib.LinearAlgebra.Lagrange

/-!
# Demosaicing (C75): the contracts can be met

Polynomial interpolation meets the contract of the spline routine, and a choice of barycentric coordinates meets that of
`griddata`; the theorems about `bilinear_demosaic` therefore speak about something.
-/

set_option autoImplicit false

namespace Sporco.Interp

open Finset Polynomial

/-- The `i`-th Lagrange polynomial of the points, at `s`. -/
noncomputable def lag (x : List ℕ) (i : Fin x.length) (s : ℝ) : ℝ :=
  (Lagrange.basis univ (fun i : Fin x.length => (x[i] : ℝ)) i).eval s

theorem nodes_inj {x : List ℕ} (h : x.Pairwise (· < ·)) :
    Set.InjOn (fun i : Fin x.length => (x[i] : ℝ)) (univ : Finset (Fin x.length)) := by
  intro i _ j _ hij
  have h1 : x[i] = x[j] := Nat.cast_injective (R := ℝ) hij
  have hn : x.Nodup := h.imp fun {a b} hab => by omega
  exact Fin.ext ((List.Nodup.getElem_inj_iff hn).1 h1)

theorem lag_node {x : List ℕ} (h : x.Pairwise (· < ·)) (i j : Fin x.length) : lag x i (x[j] : ℝ) = if i = j then 1 else 0 := by
  unfold lag
  by_cases e : i = j
  · rw [if_pos e, e]
    exact Lagrange.eval_basis_self (nodes_inj h) (mem_univ j)
  · rw [if_neg e]
    exact Lagrange.eval_basis_of_ne (v := fun i : Fin x.length => (x[i] : ℝ)) e (mem_univ j)

theorem lag_pow {x : List ℕ} (h : x.Pairwise (· < ·)) (p : ℕ) (hp : p < x.length) (s : ℝ) :
    ∑ i : Fin x.length, (x[i] : ℝ) ^ p * lag x i s = s ^ p := by
  have h1 := Lagrange.eq_interpolate (f := (X ^ p : ℝ[X])) (nodes_inj h) (by
    rw [degree_X_pow, card_univ, Fintype.card_fin]
    exact_mod_cast hp)
  have h2 := congrArg (eval s) h1
  rw [Lagrange.interpolate_apply, eval_finsetSum] at h2
  simp only [eval_pow, eval_X, eval_mul, eval_C] at h2
  exact h2.symm

open Classical in
/-- Interpolation by polynomials on the product grid. -/
noncomputable def lagrangeLib : SplineLib where
  fit x y z := if x.length ≤ 3 ∨ y.length ≤ 3 ∨ ¬x.Pairwise (· < ·) ∨ ¬y.Pairwise (· < ·) then none else
    some fun s t => ∑ i : Fin x.length, ∑ j : Fin y.length, z i j * lag x i s * lag y j t
  raises x y z := by
    by_cases h : x.length ≤ 3 ∨ y.length ≤ 3 ∨ ¬x.Pairwise (· < ·) ∨ ¬y.Pairwise (· < ·)
    · rw [if_pos h]; exact ⟨fun _ => h, fun _ => rfl⟩
    · rw [if_neg h]; exact ⟨fun e => absurd e (Option.some_ne_none _), fun e => absurd e h⟩
  interp x y z f hf i j hi hj := by
    by_cases h : x.length ≤ 3 ∨ y.length ≤ 3 ∨ ¬x.Pairwise (· < ·) ∨ ¬y.Pairwise (· < ·)
    · rw [if_pos h] at hf; cases hf
    · rw [if_neg h] at hf
      cases hf
      push Not at h
      have e : ∀ a b, z (a : Fin x.length) (b : Fin y.length) * lag x a (x[i] : ℝ) * lag y b (y[j] : ℝ) =
          if a = ⟨i, hi⟩ then (if b = ⟨j, hj⟩ then z a b else 0) else 0 := by
        intro a b
        rw [show lag x a (x[i] : ℝ) = _ from lag_node h.2.2.1 a ⟨i, hi⟩,
          show lag y b (y[j] : ℝ) = _ from lag_node h.2.2.2 b ⟨j, hj⟩]
        by_cases h1 : a = ⟨i, hi⟩ <;> by_cases h2 : b = ⟨j, hj⟩ <;> simp [h1, h2]
      simp only [e]
      simp
  poly x y z f c hf hz s t _ _ := by
    by_cases h : x.length ≤ 3 ∨ y.length ≤ 3 ∨ ¬x.Pairwise (· < ·) ∨ ¬y.Pairwise (· < ·)
    · rw [if_pos h] at hf; cases hf
    · rw [if_neg h] at hf
      cases hf
      push Not at h
      calc ∑ i : Fin x.length, ∑ j : Fin y.length, z i j * lag x i s * lag y j t
          = ∑ i : Fin x.length, ∑ j : Fin y.length, ∑ p, ∑ q,
              c p q * ((x[i] : ℝ) ^ (p : ℕ) * lag x i s) * ((y[j] : ℝ) ^ (q : ℕ) * lag y j t) := by
            refine sum_congr rfl fun i _ => sum_congr rfl fun j _ => ?_
            rw [hz i j i.2 j.2, sum_mul, sum_mul]
            refine sum_congr rfl fun p _ => ?_
            rw [sum_mul, sum_mul]
            refine sum_congr rfl fun q _ => ?_
            simp only [Fin.getElem_fin]
            ring
        _ = ∑ p, ∑ q, ∑ i : Fin x.length, ∑ j : Fin y.length,
              c p q * ((x[i] : ℝ) ^ (p : ℕ) * lag x i s) * ((y[j] : ℝ) ^ (q : ℕ) * lag y j t) := by
            rw [sum_congr rfl fun i _ => sum_comm, sum_comm]
            refine sum_congr rfl fun p _ => ?_
            rw [sum_congr rfl fun i _ => sum_comm, sum_comm]
        _ = ∑ p, ∑ q, c p q * (∑ i : Fin x.length, (x[i] : ℝ) ^ (p : ℕ) * lag x i s) *
              (∑ j : Fin y.length, (y[j] : ℝ) ^ (q : ℕ) * lag y j t) := by
            refine sum_congr rfl fun p _ => sum_congr rfl fun q _ => ?_
            rw [mul_assoc, sum_mul_sum, mul_sum]
            refine sum_congr rfl fun i _ => ?_
            rw [mul_sum]
            exact sum_congr rfl fun j _ => mul_assoc _ _ _
        _ = ∑ p, ∑ q, c p q * s ^ (p : ℕ) * t ^ (q : ℕ) := by
            refine sum_congr rfl fun p _ => sum_congr rfl fun q _ => ?_
            rw [lag_pow h.2.2.1 p (by omega), lag_pow h.2.2.2 q (by omega)]

/-- Barycentric coordinates of a pixel with respect to the points. -/
def IsBary (ps : List (ℕ × ℕ)) (q : ℕ × ℕ) (w : Fin ps.length → ℝ) : Prop :=
  (∀ i, 0 ≤ w i) ∧ ∑ i, w i = 1 ∧ ∑ i, w i • pt (ps.get i) = pt q

theorem hull_iff (ps : List (ℕ × ℕ)) (q : ℕ × ℕ) :
    pt q ∈ convexHull ℝ {v | ∃ p ∈ ps, pt p = v} ↔ ∃ w, IsBary ps q w := by
  constructor
  · intro h
    have hconv : Convex ℝ {v : ℝ × ℝ | ∃ w : Fin ps.length → ℝ, (∀ i, 0 ≤ w i) ∧ ∑ i, w i = 1 ∧
        ∑ i, w i • pt (ps.get i) = v} := by
      rintro u ⟨w, h0, h1, h2⟩ v ⟨w', h0', h1', h2'⟩ a b ha hb hab
      refine ⟨fun i => a * w i + b * w' i, fun i => add_nonneg (mul_nonneg ha (h0 i)) (mul_nonneg hb (h0' i)), ?_, ?_⟩
      · rw [sum_add_distrib, ← mul_sum, ← mul_sum, h1, h1', mul_one, mul_one, hab]
      · rw [← h2, ← h2', smul_sum, smul_sum, ← sum_add_distrib]
        refine sum_congr rfl fun i _ => ?_
        rw [add_smul, mul_smul, mul_smul]
    refine convexHull_min ?_ hconv h
    rintro v ⟨p, hp, rfl⟩
    obtain ⟨k, hk, rfl⟩ := List.getElem_of_mem hp
    refine ⟨fun i => if i = ⟨k, hk⟩ then 1 else 0, fun i => by by_cases h : i = ⟨k, hk⟩ <;> simp [h], by simp, by simp⟩
  · rintro ⟨w, h0, h1, h2⟩
    rw [← h2]
    exact (convex_convexHull ℝ _).sum_mem (fun i _ => h0 i) h1 fun i _ =>
      subset_convexHull ℝ _ ⟨ps.get i, List.get_mem _ _, rfl⟩

open Classical in
/-- Interpolation with some barycentric coordinates, the trivial ones at a point. -/
noncomputable def baryLib : GridLib where
  lin ps zs q := if q ∈ ps then some (zs.getD (ps.idxOf q) 0) else
    if h : ∃ w, IsBary ps q w then some (∑ i, h.choose i * zs.getD i 0) else none
  hull ps zs q _ _ := by
    rw [hull_iff]
    by_cases hq : q ∈ ps
    · rw [if_pos hq, ← hull_iff]
      have hm : pt q ∈ convexHull ℝ {v | ∃ p ∈ ps, pt p = v} := subset_convexHull ℝ _ ⟨q, hq, rfl⟩
      exact ⟨fun e => absurd e (Option.some_ne_none _), fun e => absurd hm e⟩
    · rw [if_neg hq]
      by_cases h : ∃ w, IsBary ps q w
      · rw [dif_pos h]
        exact ⟨fun e => absurd e (Option.some_ne_none _), fun e => absurd h e⟩
      · rw [dif_neg h]
        exact ⟨fun _ => h, fun _ => rfl⟩
  node ps zs i h h' _ hn := by
    rw [if_pos (List.getElem_mem h), hn.idxOf_getElem i h, List.getD_eq_getElem?_getD, List.getElem?_eq_getElem h']
    rfl
  comb ps zs q v hl hn hv := by
    by_cases hq : q ∈ ps
    · rw [if_pos hq] at hv
      cases hv
      have hk : ps.idxOf q < ps.length := List.idxOf_lt_length_of_mem hq
      refine ⟨fun i => if i = ⟨ps.idxOf q, hk⟩ then 1 else 0, fun i => by
        by_cases h : i = ⟨ps.idxOf q, hk⟩ <;> simp [h], by simp, by simp, by simp⟩
    · rw [if_neg hq] at hv
      by_cases h : ∃ w, IsBary ps q w
      · rw [dif_pos h] at hv
        cases hv
        obtain ⟨a, b, c⟩ := h.choose_spec
        exact ⟨h.choose, a, b, c, rfl⟩
      · rw [dif_neg h] at hv
        cases hv

/-- The hypotheses of `C75_demosaic_partial` and `C75_bilinear_refuted` hold of these routines: an 8 by 9 image is
processed and its samples are kept. -/
example (img : ℕ → ℕ → ℝ) : ∃ out, demosaic lagrangeLib baryLib img 8 9 = some out ∧ out 3 5 0 = some (img 3 5) ∧
    out 3 4 1 = some (img 3 4) ∧ out 4 6 2 = some (img 4 6) ∧ out 0 0 1 = some ((img 1 0 + img 0 1) / 2) := by
  have h := C75_demosaic_partial lagrangeLib baryLib img 8 9
  obtain ⟨out, ho⟩ := Option.ne_none_iff_exists'.1 (mt h.1.1 (by omega))
  refine ⟨out, ho, (h.2 out ho 3 5 (by omega) (by omega)).2.1 rfl rfl,
    (h.2 out ho 3 4 (by omega) (by omega)).2.2.1 (by decide), (h.2 out ho 4 6 (by omega) (by omega)).2.2.2.1 rfl rfl, ?_⟩
  obtain ⟨k, l, -, -, hk, hl, e⟩ := (h.2 out ho 0 0 (by omega) (by omega)).2.2.2.2.2 (Or.inl rfl) (Or.inl rfl) rfl
  obtain rfl : k = 1 := by omega
  obtain rfl : l = 1 := by omega
  exact e

end Sporco.Interp
