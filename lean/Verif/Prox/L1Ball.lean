import Verif.Prox.Lemmas
import Mathlib.Data.List.GetD

/-!
# Helper lemmas for the projection onto the `ℓ₁` ball
-/

set_option linter.unusedSectionVars false
set_option linter.unusedVariables false

namespace Sporco.Prox

/-- The `k`-th entry of a list, `0` beyond its end. -/
noncomputable def nthz (vs : List ℝ) (k : ℕ) : ℝ := vs.getD k 0

theorem take_succ_sum (vs : List ℝ) (k : ℕ) :
    (vs.take (k + 1)).sum = (vs.take k).sum + nthz vs k := by
  unfold nthz
  induction vs generalizing k with
  | nil => simp
  | cons a vs ih =>
    cases k with
    | zero => simp
    | succ k =>
      rw [List.take_succ_cons, List.sum_cons, ih, List.take_succ_cons, List.sum_cons]
      simp [add_assoc]

theorem sortT_le_iff (vs : List ℝ) (γ : ℝ) (k : ℕ) (x : ℝ) :
    sortT vs γ k ≤ x ↔ (vs.take (k + 1)).sum - ((k : ℝ) + 1) * x ≤ γ := by
  unfold sortT
  have hk : (0 : ℝ) < (k : ℝ) + 1 := by positivity
  rw [one_div, inv_mul_le_iff₀ hk]
  constructor <;> intro h <;> linarith

theorem filter_zipIdx_prefix {p : ℝ × ℕ → Bool} (vs : List ℝ) (n K : ℕ)
    (h : ∀ i, i < vs.length → (p (nthz vs i, n + i) = true ↔ i < K)) :
    (vs.zipIdx n).filter p = (vs.zipIdx n).take K := by
  induction vs generalizing n K with
  | nil => simp
  | cons a vs ih =>
    rw [List.zipIdx_cons]
    cases K with
    | zero =>
      rw [List.take_zero, List.filter_eq_nil_iff]
      rw [← List.zipIdx_cons]
      intro x hx
      obtain ⟨hx1, hx2, hx3⟩ := List.mem_zipIdx hx
      have := h (x.2 - n) (by omega)
      have e : n + (x.2 - n) = x.2 := by omega
      have e2 : nthz (a :: vs) (x.2 - n) = x.1 := by
        rw [hx3]; unfold nthz; rw [List.getD_eq_getElem _ _ (by omega)]
      rw [e, e2] at this
      simpa using this
    | succ K =>
      have h0 := h 0 (by simp)
      have : p (a, n) = true := by simpa [nthz] using h0
      rw [List.filter_cons_of_pos this, List.take_succ_cons, ih]
      intro i hi
      have := h (i + 1) (by simpa using hi)
      have e : n + (i + 1) = n + 1 + i := by omega
      rw [e] at this
      simpa [nthz] using this

theorem map_fst_take_zipIdx (vs : List ℝ) (K n : ℕ) :
    ((vs.zipIdx n).take K).map Prod.fst = vs.take K := by
  rw [List.map_take]
  congr 1
  exact List.zipIdx_map_fst n vs

/-- Facts about the threshold of the sorting algorithm when the sorted list is a
list of non-negative numbers in descending order with sum above `γ`. -/
theorem sortsumThresh_spec (vs : List ℝ) (γ : ℝ) (hγ : 0 ≤ γ) (hs : vs.Pairwise (· ≥ ·))
    (hp : ∀ x ∈ vs, 0 ≤ x) (hsum : γ < vs.sum) :
    0 ≤ sortsumThresh vs γ ∧ (vs.map fun x => max 0 (x - sortsumThresh vs γ)).sum = γ := by
  have hanti : ∀ i j, i ≤ j → nthz vs j ≤ nthz vs i := by
    intro i j hij
    unfold nthz
    by_cases hj : j < vs.length
    · rw [List.getD_eq_getElem _ _ hj, List.getD_eq_getElem _ _ (by omega)]
      rcases eq_or_lt_of_le hij with h | h
      · subst h; exact le_rfl
      · exact List.pairwise_iff_getElem.1 hs i j (by omega) hj h
    · rw [List.getD_eq_default _ _ (by omega)]
      by_cases hi : i < vs.length
      · rw [List.getD_eq_getElem _ _ hi]; exact hp _ (List.getElem_mem _)
      · rw [List.getD_eq_default _ _ (by omega)]
  let D : ℕ → ℝ := fun k => (vs.take (k + 1)).sum - ((k : ℝ) + 1) * nthz vs k
  have hD : ∀ k, D k ≤ D (k + 1) := by
    intro k
    have h1 := take_succ_sum vs (k + 1)
    have h2 := hanti k (k + 1) (by omega)
    have hk : (0 : ℝ) ≤ (k : ℝ) + 1 := by positivity
    have h3 := mul_le_mul_of_nonneg_left h2 hk
    simp only [D]; rw [h1]; push_cast; nlinarith
  have hDm : Monotone D := monotone_nat_of_le_succ hD
  have hlen : 0 < vs.length := by
    rcases vs with _ | ⟨a, vs⟩
    · simp at hsum; linarith
    · simp
  -- the number of selected entries
  classical
  have hex : ∃ K, 1 ≤ K ∧ K ≤ vs.length ∧ (∀ i, i < vs.length → (D i ≤ γ ↔ i < K)) := by
    let P : ℕ → Prop := fun k => k ≤ vs.length ∧ ∀ i, i < k → D i ≤ γ
    have hP1 : P 1 := by
      refine ⟨hlen, fun i hi => ?_⟩
      have : i = 0 := by omega
      subst this
      have h1 := take_succ_sum vs 0
      simp only [D]; rw [h1]; simp [hγ]
    refine ⟨Nat.findGreatest P vs.length, ?_, Nat.findGreatest_le _, ?_⟩
    · exact Nat.le_findGreatest hlen hP1
    · have hPg : P (Nat.findGreatest P vs.length) := Nat.findGreatest_spec hlen hP1
      intro i hi
      constructor
      · intro hle
        by_contra hcon
        have hP' : P (i + 1) := ⟨hi, fun j hj => (hDm (by omega)).trans hle⟩
        have := Nat.le_findGreatest hi hP'
        omega
      · intro h; exact hPg.2 i h
  obtain ⟨K, hK1, hK2, hK⟩ := hex
  have hsel : vs.zipIdx.filter (fun p => decide (sortT vs γ p.2 ≤ p.1)) = vs.zipIdx.take K := by
    apply filter_zipIdx_prefix
    intro i hi
    rw [decide_eq_true_iff]
    simp only [zero_add]
    rw [sortT_le_iff]
    exact hK i hi
  have hKpos : (0 : ℝ) < K := by exact_mod_cast hK1
  let θ : ℝ := ((vs.take K).sum - γ) / K
  have hθ : sortsumThresh vs γ = max 0 θ := by
    unfold sortsumThresh
    simp only [hsel, map_fst_take_zipIdx]
    have : (vs.zipIdx.take K).length = K := by simp [hK2]
    rw [this]
  have hθ' : (K : ℝ) * θ = (vs.take K).sum - γ := by simp only [θ]; field_simp
  -- entries before `K` are at least `θ`
  have hbefore : ∀ i, i < K → θ ≤ nthz vs i := by
    intro i hi
    have h1 := (hK (K - 1) (by omega)).2 (by omega)
    have hc : ((K - 1 : ℕ) : ℝ) + 1 = K := by
      rw [Nat.cast_sub hK1]; simp
    simp only [D] at h1
    rw [hc, Nat.sub_add_cancel hK1] at h1
    have h2 : θ ≤ nthz vs (K - 1) := by
      have : (K : ℝ) * θ ≤ K * nthz vs (K - 1) := by rw [hθ']; linarith
      exact le_of_mul_le_mul_left this hKpos
    exact h2.trans (hanti _ _ (by omega))
  -- entries from `K` on are below `θ`
  have hafter : ∀ i, K ≤ i → i < vs.length → nthz vs i < θ := by
    intro i hi hil
    have h1 : ¬ D K ≤ γ := fun h => by have := (hK K (by omega)).1 h; omega
    have h2 := take_succ_sum vs K
    simp only [D] at h1
    rw [h2] at h1
    have h3 : nthz vs K < θ := by
      have : (K : ℝ) * nthz vs K < K * θ := by rw [hθ']; push Not at h1; linarith
      exact lt_of_mul_lt_mul_left this hKpos.le
    exact lt_of_le_of_lt (hanti _ _ hi) h3
  have hθnn : 0 ≤ θ := by
    rcases eq_or_lt_of_le hK2 with h | h
    · have : (vs.take K).sum = vs.sum := by rw [h, List.take_length]
      have h4 : 0 ≤ (K : ℝ) * θ := by rw [hθ', this]; linarith
      exact nonneg_of_mul_nonneg_right h4 hKpos
    · refine le_trans ?_ (hafter K le_rfl h).le
      unfold nthz; rw [List.getD_eq_getElem _ _ h]; exact hp _ (List.getElem_mem _)
  rw [hθ, max_eq_right hθnn]
  refine ⟨hθnn, ?_⟩
  conv_lhs => rw [← List.take_append_drop K vs]
  rw [List.map_append, List.sum_append]
  have h1 : ((vs.take K).map fun x => max 0 (x - θ)) = (vs.take K).map fun x => x - θ := by
    apply List.map_congr_left
    intro x hx
    obtain ⟨i, hi, rfl⟩ := List.getElem_of_mem hx
    have hiK : i < K := by simp at hi; omega
    have := hbefore i hiK
    unfold nthz at this
    rw [List.getD_eq_getElem _ _ (by omega)] at this
    rw [List.getElem_take, max_eq_right (by linarith)]
  have h2 : ((vs.drop K).map fun x => max 0 (x - θ)) = (vs.drop K).map fun x => 0 := by
    apply List.map_congr_left
    intro x hx
    obtain ⟨i, hi, rfl⟩ := List.getElem_of_mem hx
    have hi' : K + i < vs.length := by simp at hi; omega
    have := hafter (K + i) (by omega) hi'
    unfold nthz at this
    rw [List.getD_eq_getElem _ _ hi'] at this
    rw [List.getElem_drop, max_eq_left (by linarith)]
  rw [h1, h2]
  have h3 : ∀ l : List ℝ, (l.map fun x => x - θ).sum = l.sum - (l.length : ℝ) * θ := by
    intro l
    induction l with
    | nil => simp
    | cons a l ih => simp [ih]; ring
  rw [h3]
  have h5 : ((vs.take K).length : ℝ) = K := by simp [hK2]
  rw [h5, hθ']; simp

/-- If the sum is at most `γ`, the threshold is `0`. -/
theorem sortsumThresh_zero (vs : List ℝ) (γ : ℝ) (hp : ∀ x ∈ vs, 0 ≤ x) (hsum : vs.sum ≤ γ) :
    sortsumThresh vs γ = 0 := by
  have htake : ∀ k, (vs.take k).sum ≤ vs.sum := by
    intro k
    have h := congrArg List.sum (List.take_append_drop k vs)
    rw [List.sum_append] at h
    have h2 : 0 ≤ (vs.drop k).sum :=
      List.sum_nonneg fun x hx => hp x (List.mem_of_mem_drop hx)
    linarith
  have hsel : vs.zipIdx.filter (fun p => decide (sortT vs γ p.2 ≤ p.1)) = vs.zipIdx := by
    rw [List.filter_eq_self]
    intro x hx
    obtain ⟨hx1, hx2, hx3⟩ := List.mem_zipIdx hx
    rw [decide_eq_true_iff, sortT_le_iff]
    have h1 := htake (x.2 + 1)
    have h2 : 0 ≤ x.1 := by rw [hx3]; exact hp _ (List.getElem_mem _)
    have h3 : 0 ≤ ((x.2 : ℝ) + 1) * x.1 := by positivity
    linarith
  unfold sortsumThresh
  simp only [hsel, List.zipIdx_map_fst]
  apply max_eq_left
  apply div_nonpos_of_nonpos_of_nonneg
  · linarith
  · positivity

theorem sortsumOut_eq (v t : ℝ) : sortsumOut v t = proxL1 v t := by
  unfold sortsumOut proxL1
  congr 1
  split_ifs with h
  · rw [max_eq_left]; linarith
  · rw [max_eq_right]; linarith

theorem perm_sortedMags {n : ℕ} (v : Fin n → ℝ) :
    (sortedMags v).Perm (List.ofFn fun i => |v i|) :=
  (List.reverse_perm _).trans (List.mergeSort_perm _ _)

theorem sorted_sortedMags {n : ℕ} (v : Fin n → ℝ) : (sortedMags v).Pairwise (· ≥ ·) := by
  unfold sortedMags
  rw [List.pairwise_reverse]
  have := List.pairwise_mergeSort (le := fun a b : ℝ => decide (a ≤ b))
    (by intro a b c; simp only [decide_eq_true_iff]; exact le_trans)
    (by intro a b; simp only [Bool.or_eq_true, decide_eq_true_iff]; exact le_total a b)
    (List.ofFn fun i => |v i|)
  exact this.imp (by intro a b h; simpa using h)

theorem sum_sortedMags {n : ℕ} (v : Fin n → ℝ) (g : ℝ → ℝ) :
    ((sortedMags v).map g).sum = ∑ i, g |v i| := by
  rw [((perm_sortedMags v).map g).sum_eq, List.map_ofFn, List.sum_ofFn]
  rfl

theorem nonneg_sortedMags {n : ℕ} (v : Fin n → ℝ) : ∀ x ∈ sortedMags v, 0 ≤ x := by
  intro x hx
  have := (perm_sortedMags v).mem_iff.1 hx
  rw [List.mem_ofFn] at this
  obtain ⟨i, rfl⟩ := this
  exact abs_nonneg _

/-- Soft thresholding at a level that brings the `ℓ₁` norm to `γ` is the
projection onto the `ℓ₁` ball. -/
theorem proj_of_thresh {ι : Type*} [Fintype ι] (v : ι → ℝ) (γ t : ℝ) (ht : 0 ≤ t)
    (hsum : ∑ i, max 0 (|v i| - t) = γ) :
    IsUniqueMin (fun x => 1 / 2 * sq (x - v)) {x | l1 x ≤ γ} (fun i => proxL1 (v i) t) := by
  have hl : l1 (fun i => proxL1 (v i) t) = γ := by
    rw [← hsum]
    refine Finset.sum_congr rfl fun i _ => ?_
    rw [Real.norm_eq_abs, abs_proxL1 _ _ ht, max_comm]
  refine uniqueMin_of_margin (by simp [hl]) ?_
  intro u hu
  have h1 := proxL1Arr_subgrad v (fun _ => t) (fun _ => ht) u
  have h2 := prox_of_subgrad (f := l1w fun _ => t) h1
  have e : ∀ x : ι → ℝ, l1w (fun _ => t) x = t * l1 x := by
    intro x; simp [l1w, l1, Finset.mul_sum]
  have e2 : (proxL1Arr v fun _ => t) = fun i => proxL1 (v i) t := rfl
  unfold proxObj at h2
  rw [e, e, e2, hl] at h2
  have h3 : t * l1 u ≤ t * γ := mul_le_mul_of_nonneg_left hu ht
  linarith

theorem proj_inside {ι : Type*} [Fintype ι] (v : ι → ℝ) (C : Set (ι → ℝ)) (h : v ∈ C) :
    IsUniqueMin (fun x => 1 / 2 * sq (x - v)) C v := by
  refine uniqueMin_of_margin h ?_
  intro u _
  simp [sq]

end Sporco.Prox
