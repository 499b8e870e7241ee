import Verif.Prox.Lemmas
import Mathlib.Algebra.Order.Chebyshev

/-!
# Helper lemmas for `prox_dl1l2`
-/

set_option linter.unusedSectionVars false
set_option linter.unusedVariables false

namespace Sporco.Prox

variable {ι : Type*} [Fintype ι]

theorem argmaxFin_spec {n : ℕ} (f : Fin (n + 1) → ℝ) (i : Fin (n + 1)) :
    f i ≤ f (argmaxFin f) := by
  induction n with
  | zero =>
    have : i = argmaxFin f := Fin.ext (by omega)
    rw [← this]
  | succ n ih =>
    have ih' := ih (fun i => f i.succ)
    unfold argmaxFin
    simp only
    split_ifs with h
    · refine Fin.cases le_rfl (fun j => ?_) i
      exact (ih' j).trans h
    · refine Fin.cases (not_le.1 h).le (fun j => ?_) i
      exact ih' j

/-- The objective of `prox_dl1l2`. -/
noncomputable def dObj (α β : ℝ) (v x : ι → ℝ) : ℝ :=
  1 / 2 * sq (x - v) + α * (l1 x - β * l2 x)

theorem rdot_real (x y : ι → ℝ) : rdot x y = ∑ i, x i * y i := by
  refine Finset.sum_congr rfl fun i _ => ?_
  simp [mul_comm]

theorem dObj_eq (α β : ℝ) (v x : ι → ℝ) :
    dObj α β v x = 1 / 2 * sq v + 1 / 2 * l2 x ^ 2 - (rdot x v - α * l1 x) - α * β * l2 x := by
  have h : sq (x - v) = sq x - 2 * rdot x v + sq v := by
    rw [rdot_real]
    simp only [sq, Finset.mul_sum, ← Finset.sum_sub_distrib, ← Finset.sum_add_distrib]
    refine Finset.sum_congr rfl fun i _ => ?_
    simp only [Pi.sub_apply, Real.norm_eq_abs, sq_abs]; ring
  rw [l2_sq, dObj, h]; ring

/-- Thresholded magnitudes. -/
noncomputable def zmag (v : ι → ℝ) (α : ℝ) : ι → ℝ := fun i => max (|v i| - α) 0

theorem l2_abs (x : ι → ℝ) : l2 (fun i => |x i|) = l2 x := by simp [l2, sq]

theorem bound_z (v x : ι → ℝ) (α : ℝ) : rdot x v - α * l1 x ≤ l2 x * l2 (zmag v α) := by
  have h1 : rdot x v - α * l1 x ≤ rdot (fun i => |x i|) (zmag v α) := by
    rw [rdot_real, rdot_real, l1, Finset.mul_sum, ← Finset.sum_sub_distrib]
    refine Finset.sum_le_sum fun i _ => ?_
    have h2 : x i * v i ≤ |x i| * |v i| := by rw [← abs_mul]; exact le_abs_self _
    have h3 : |x i| * (|v i| - α) ≤ |x i| * zmag v α i :=
      mul_le_mul_of_nonneg_left (le_max_left _ _) (abs_nonneg _)
    rw [Real.norm_eq_abs]; linarith
  have h4 := rdot_le_l2 (fun i => |x i|) (zmag v α)
  rw [l2_abs] at h4
  exact h1.trans h4

theorem l2_le_l1 (x : ι → ℝ) : l2 x ≤ l1 x := by
  have h1 : 0 ≤ l1 x := Finset.sum_nonneg fun _ _ => norm_nonneg _
  rw [l2, Real.sqrt_le_left h1]
  exact Finset.sum_sq_le_sq_sum_of_nonneg fun _ _ => norm_nonneg _

theorem bound_M (v x : ι → ℝ) (α M : ℝ) (hM : ∀ i, |v i| ≤ M) (hα : M ≤ α) :
    rdot x v - α * l1 x ≤ (M - α) * l2 x := by
  have h1 : rdot x v - α * l1 x ≤ (M - α) * l1 x := by
    rw [rdot_real, l1, Finset.mul_sum, Finset.mul_sum, ← Finset.sum_sub_distrib]
    refine Finset.sum_le_sum fun i _ => ?_
    have h2 : x i * v i ≤ |x i| * |v i| := by rw [← abs_mul]; exact le_abs_self _
    have h3 : |x i| * |v i| ≤ |x i| * M := mul_le_mul_of_nonneg_left (hM i) (abs_nonneg _)
    rw [Real.norm_eq_abs]; linarith
  have h2 := mul_le_mul_of_nonneg_left (l2_le_l1 x) (sub_nonneg.2 hα)
  linarith

theorem dObj_case1 (v : ι → ℝ) (α β : ℝ) (hα : 0 ≤ α) (hβ : 0 ≤ β) (k : ι) (hk : α < |v k|) :
    let u := fun i => max (|v i| - α) 0 * npSign (v i)
    0 < l2 u ∧ IsMin (dObj α β v) Set.univ (((l2 u + α * β) / l2 u) • u) := by
  intro u
  have hs : ∀ i, npSign (v i) * v i = |v i| := by
    intro i
    unfold npSign
    rcases lt_trichotomy (v i) 0 with h | h | h
    · rw [if_neg (not_lt.2 h.le), if_pos h, abs_of_neg h]; ring
    · simp [h]
    · rw [if_pos h, abs_of_pos h]; ring
  have habs : ∀ i, |u i| = zmag v α i := by
    intro i
    have := abs_proxL1 (v i) α hα
    simp only [proxL1] at this
    simp only [u, zmag]; rw [mul_comm, this]
  have hN : l2 u = l2 (zmag v α) := by
    rw [← l2_abs u]; congr 1; funext i; exact habs i
  have hpos : 0 < l2 u := by
    rw [hN]
    refine lt_of_le_of_ne (l2_nonneg _) (fun h => ?_)
    have h0 := (l2_eq_zero_iff (zmag v α)).1 h.symm
    have h1 := congrFun h0 k
    simp only [zmag, Pi.zero_apply] at h1
    rw [max_eq_left (by linarith)] at h1
    linarith
  refine ⟨hpos, Set.mem_univ _, fun x _ => ?_⟩
  set c := (l2 u + α * β) / l2 u with hc
  have hc0 : 0 ≤ c := by rw [hc]; positivity
  have hcN : c * l2 u = l2 u + α * β := by rw [hc]; field_simp
  have hdot : rdot (c • u) v - α * l1 (c • u) = c * l2 u ^ 2 := by
    have h1 : l1 (c • u) = c * l1 u := by
      simp [l1, Finset.mul_sum, abs_mul, abs_of_nonneg hc0]
    have h2 : rdot u v - α * l1 u = l2 u ^ 2 := by
      rw [l2_sq, rdot_real, l1, sq, Finset.mul_sum, ← Finset.sum_sub_distrib]
      refine Finset.sum_congr rfl fun i _ => ?_
      rw [Real.norm_eq_abs, habs i]
      have h3 : u i * v i = zmag v α i * |v i| := by
        rw [← hs i]; simp only [u, zmag]; ring
      rw [h3]
      unfold zmag
      rcases max_cases (|v i| - α) 0 with ⟨h, -⟩ | ⟨h, -⟩ <;> rw [h] <;> ring
    rw [rdot_smul_left, h1, ← h2]; ring
  rw [dObj_eq, dObj_eq, hdot, l2_smul c hc0, hcN]
  have hb := bound_z v x α
  rw [← hN] at hb
  have e : c * l2 u ^ 2 = (l2 u + α * β) * l2 u := by rw [← hcN]; ring
  rw [e]
  nlinarith [sq_nonneg (l2 x - (l2 u + α * β))]

theorem dObj_case2 [DecidableEq ι] (v : ι → ℝ) (α β : ℝ) (k : ι)
    (hk : ∀ i, |v i| ≤ |v k|) (hk0 : 0 < |v k|) (hkα : |v k| ≤ α) (hρ : (1 - β) * α ≤ |v k|) :
    IsMin (dObj α β v) Set.univ
      (Function.update (fun _ => 0) k ((|v k| + (β - 1) * α) * npSign (v k))) := by
  refine ⟨Set.mem_univ _, fun x _ => ?_⟩
  set ρ := |v k| + (β - 1) * α with hρdef
  have hρ0 : 0 ≤ ρ := by rw [hρdef]; linarith
  have hne : v k ≠ 0 := abs_pos.1 hk0
  have hsv : npSign (v k) * v k = |v k| := by
    unfold npSign
    rcases lt_or_gt_of_ne hne with h | h
    · rw [if_neg (not_lt.2 h.le), if_pos h, abs_of_neg h]; ring
    · rw [if_pos h, abs_of_pos h]; ring
  have hss : |npSign (v k)| = 1 := by
    unfold npSign
    rcases lt_or_gt_of_ne hne with h | h
    · rw [if_neg (not_lt.2 h.le), if_pos h]; norm_num
    · rw [if_pos h]; norm_num
  set y : ι → ℝ := Function.update (fun _ => 0) k (ρ * npSign (v k)) with hy
  have hyk : y k = ρ * npSign (v k) := by simp [hy]
  have hyi : ∀ i, i ≠ k → y i = 0 := by intro i hi; simp [hy, hi]
  have hsum : ∀ g : ι → ℝ, (∀ i, i ≠ k → g i = 0) → ∑ i, g i = g k := by
    intro g hg
    exact Finset.sum_eq_single k (fun i _ hi => hg i hi) (by simp)
  have hay : |y k| = ρ := by rw [hyk, abs_mul, hss, mul_one, abs_of_nonneg hρ0]
  have hl1 : l1 y = ρ := by
    unfold l1; rw [hsum _ (fun i hi => by simp [hyi i hi]), Real.norm_eq_abs, hay]
  have hl2 : l2 y = ρ := by
    unfold l2 sq
    rw [hsum _ (fun i hi => by simp [hyi i hi]), Real.norm_eq_abs, hay, Real.sqrt_sq hρ0]
  have hdot : rdot y v = ρ * |v k| := by
    rw [rdot_real, hsum _ (fun i hi => by simp [hyi i hi]), hyk, mul_assoc, hsv]
  rw [dObj_eq, dObj_eq, hl1, hl2, hdot]
  have hb := bound_M v x α |v k| hk hkα
  have e : |v k| = ρ - (β - 1) * α := by rw [hρdef]; ring
  rw [e] at hb
  rw [e]
  nlinarith [sq_nonneg (l2 x - ρ)]

theorem dObj_case3 (v : ι → ℝ) (α β M : ℝ) (hM : ∀ i, |v i| ≤ M) (hMα : M ≤ α)
    (hρ : M ≤ (1 - β) * α) : IsMin (dObj α β v) Set.univ 0 := by
  refine ⟨Set.mem_univ _, fun x _ => ?_⟩
  have hb := bound_M v x α M hM hMα
  have h0 : l2 (0 : ι → ℝ) = 0 := (l2_eq_zero_iff _).2 rfl
  have h1 : l1 (0 : ι → ℝ) = 0 := by simp [l1]
  have h2 : rdot (0 : ι → ℝ) v = 0 := by simp [rdot]
  rw [dObj_eq, dObj_eq, h0, h1, h2]
  have h3 := mul_nonneg (sub_nonneg.2 hρ) (l2_nonneg x)
  nlinarith [sq_nonneg (l2 x)]

end Sporco.Prox
