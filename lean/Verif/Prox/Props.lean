import Verif.Prox.L1Ball
import Verif.Prox.Dl1l2
import Verif.Prox.Nuclear
import Mathlib.Analysis.Complex.Basic
import Mathlib.Analysis.Complex.Norm
import Mathlib.Tactic.NormNum.RealSqrt

/-!
# Properties C15–C20 and C22: proximal operators
-/

set_option linter.unusedSectionVars false
set_option linter.unusedVariables false

namespace Sporco.Prox

variable {ι σ E : Type*} [Fintype ι] [Fintype σ] [NormedAddCommGroup E] [InnerProductSpace ℝ E]

/-! ## C15: `prox_l1` -/

/-- **C15.** On a real array, `prox_l1(v, α)` is the unique minimiser of
`(1/2)‖x - v‖² + ∑ αᵢ|xᵢ|`, for all non-negative thresholds. -/
theorem C15_prox_l1_real (v α : ι → ℝ) (hα : ∀ i, 0 ≤ α i) :
    IsUniqueMin (proxObj (l1w α) v) Set.univ (proxL1Arr v α) :=
  uniqueMin_of_margin (Set.mem_univ _) fun u _ => prox_of_subgrad (proxL1Arr_subgrad v α hα u)

/-- **C15.** The result does not depend on whether `numexpr` is installed. -/
theorem C15_numexpr_same (v α : ι → ℝ) (hα : ∀ i, 0 ≤ α i) :
    (fun i => proxL1Ne (v i) (α i)) = proxL1Arr v α :=
  funext fun i => proxL1Ne_eq _ _ (hα i)

theorem clip_eq (x : ι → ℝ) (i : ι) : clip x i = max (x i) 0 := by
  unfold clip
  split_ifs with h
  · rw [max_eq_right h.le]
  · rw [max_eq_left (not_lt.1 h)]

/-- **C15.** Followed by the non-negativity clip, it is the unique minimiser of the
same functional over the non-negative arrays. -/
theorem C15_prox_l1_nonneg (v α : ι → ℝ) (hα : ∀ i, 0 ≤ α i) :
    IsUniqueMin (proxObj (l1w α) v) nonneg (clip (proxL1Arr v α)) := by
  have hy : ∀ i, clip (proxL1Arr v α) i = max (v i - α i) 0 := by
    intro i
    have ha := hα i
    rw [clip_eq]
    simp only [proxL1Arr, proxL1, npSign]
    rcases lt_trichotomy (v i) 0 with h | h | h
    · rw [if_neg (not_lt.2 h.le), if_pos h, max_eq_right (by linarith : v i - α i ≤ 0)]
      have := le_max_right (|v i| - α i) 0
      rw [max_eq_right (by linarith)]
    · rw [h]; simp [ha]
    · rw [if_pos h, abs_of_pos h, one_mul, max_eq_left (le_max_right _ _)]
  refine uniqueMin_of_margin (fun i => by rw [hy]; exact le_max_right _ _) fun u hu => ?_
  refine prox_of_subgrad ?_
  rw [rdot_real, l1w, l1w, ← Finset.sum_add_distrib]
  refine Finset.sum_le_sum fun i _ => ?_
  have hui := hu i
  have ha := hα i
  have hyi : 0 ≤ clip (proxL1Arr v α) i := by rw [hy]; exact le_max_right _ _
  simp only [Pi.sub_apply, Real.norm_eq_abs]
  rw [abs_of_nonneg hui, abs_of_nonneg hyi, hy]
  rcases le_total (v i - α i) 0 with h | h
  · rw [max_eq_right h]; nlinarith
  · rw [max_eq_left h]; nlinarith

/-- **C15, complex arrays.** On a complex array without zero entries `prox_l1` is the
unique minimiser.  The full property is false: see `C15_complex_zero_is_nan`. -/
theorem C15_prox_l1_complex_partial (v : ι → ℂ) (α : ι → ℝ) (hα : ∀ i, 0 ≤ α i)
    (hv : ∀ i, v i ≠ 0) :
    ∃ x : ι → ℂ, (∀ i, proxL1C (v i) (α i) = some (x i)) ∧
      IsUniqueMin (proxObj (l1w α) v) Set.univ x := by
  let c : ι → ℝ := fun i => max (‖v i‖ - α i) 0 / ‖v i‖
  refine ⟨fun i => c i • v i, fun i => ?_, ?_⟩
  · rw [proxL1C, if_neg (hv i)]
    congr 1
    simp only [c, Complex.real_smul]
    push_cast
    ring
  · have hn : ∀ i, 0 < ‖v i‖ := fun i => norm_pos_iff.2 (hv i)
    have hc : ∀ i, 0 ≤ c i := fun i => div_nonneg (le_max_right _ _) (hn i).le
    have hc1 : ∀ i, c i ≤ 1 := fun i => by
      simp only [c]; rw [div_le_one (hn i)]
      exact max_le (by linarith [hα i]) (hn i).le
    have hcn : ∀ i, c i * ‖v i‖ = max (‖v i‖ - α i) 0 := fun i => by
      simp only [c]; have := (hn i).ne'; field_simp
    refine uniqueMin_of_margin (Set.mem_univ _) fun u _ => prox_of_subgrad ?_
    have hsub : ∀ i, v i - c i • v i = (1 - c i) • v i := fun i => by
      rw [sub_smul, one_smul]
    refine l1w_subgrad (c := 1) zero_le_one (w := fun i => c i • v i) (fun i => ?_) (fun i => ?_)
      (by simp) u
    · rw [Pi.sub_apply, hsub, norm_smul, Real.norm_of_nonneg (by linarith [hc1 i]), sub_mul,
        one_mul, hcn]
      linarith [le_max_left (‖v i‖ - α i) 0]
    · rw [Pi.sub_apply, hsub, real_inner_smul_left, real_inner_smul_right,
        real_inner_self_eq_norm_sq, norm_smul, Real.norm_of_nonneg (hc i)]
      have h1 : c i * ‖v i‖ ^ 2 = max (‖v i‖ - α i) 0 * ‖v i‖ := by rw [← hcn]; ring
      rw [h1, hcn]
      have h2 : (1 - c i) * (max (‖v i‖ - α i) 0 * ‖v i‖) =
          (‖v i‖ - c i * ‖v i‖) * max (‖v i‖ - α i) 0 := by ring
      rw [h2, hcn]
      rcases max_choice (‖v i‖ - α i) 0 with h | h <;> rw [h] <;> ring

/-- **C15 fails for complex zeros.** A zero entry of a complex array is mapped to
NaN, whereas the minimiser there is zero. -/
theorem C15_complex_zero_is_nan (α : ℝ) (hα : 0 ≤ α) :
    proxL1C 0 α = none ∧
    IsUniqueMin (proxObj (l1w fun _ : Fin 1 => α) (fun _ => (0 : ℂ))) Set.univ 0 := by
  refine ⟨by simp [proxL1C], uniqueMin_of_margin (Set.mem_univ _) fun u _ => ?_⟩
  have h : (fun _ : Fin 1 => (0 : ℂ)) = 0 := rfl
  have : 0 ≤ α * ‖u 0‖ := mul_nonneg hα (norm_nonneg _)
  simp [proxObj, sq, l1w, h, this]

/-- Hypotheses met by an array of mixed signs and thresholds. -/
example : proxL1Arr ![3, -1/2, -2] ![1, 1, 0] = ![2, 0, -2] := by
  funext i
  fin_cases i
  · simp [proxL1Arr, proxL1, npSign]; norm_num
  · have h : |(-1 / 2 : ℝ)| = 1 / 2 := by rw [abs_of_neg (by norm_num)]; norm_num
    simp only [proxL1Arr, proxL1, Fin.mk_one, Matrix.cons_val_one, Matrix.cons_val_zero, h]
    norm_num
  · simp [proxL1Arr, proxL1, npSign]

/-! ## C16: `prox_l0` -/

open Classical in
/-- **C16.** `prox_l0(v, α)` minimises `(1/2)‖x - v‖² + ∑ αᵢ [xᵢ ≠ 0]` (real or
complex arrays, scalar or array thresholds). -/
theorem C16_prox_l0_weighted (v : ι → E) (α : ι → ℝ) (hα : ∀ i, 0 ≤ α i) :
    IsMin (proxObj (fun x => ∑ i, α i * (if x i ≠ 0 then 1 else 0)) v) Set.univ
      (fun i => proxL0 (v i) (α i)) := by
  refine ⟨Set.mem_univ _, fun u _ => ?_⟩
  simp only [proxObj, sq, Finset.mul_sum]
  rw [← Finset.sum_add_distrib, ← Finset.sum_add_distrib]
  refine Finset.sum_le_sum fun i _ => ?_
  simp only [Pi.sub_apply]
  have ha := hα i
  have hs : Real.sqrt (2 * α i) ^ 2 = 2 * α i := Real.sq_sqrt (by linarith)
  have hs0 := Real.sqrt_nonneg (2 * α i)
  have hv0 := norm_nonneg (v i)
  unfold proxL0
  by_cases hu : u i = 0
  · rw [hu, zero_sub, norm_neg]
    split_ifs with h1 h2 h3
    · rw [one_smul, sub_self, norm_zero]; nlinarith
    · rw [one_smul, sub_self, norm_zero]; nlinarith
    all_goals simp_all
  · have hun := sq_nonneg ‖u i - v i‖
    split_ifs with h1 h2 h3
    · rw [one_smul, sub_self, norm_zero]; nlinarith
    · rw [one_smul, sub_self, norm_zero]; nlinarith
    · simp at h3
    · rw [zero_smul, zero_sub, norm_neg]
      have h4 : ‖v i‖ ^ 2 ≤ 2 * α i := by
        rw [← hs]; exact pow_le_pow_left₀ hv0 (not_le.1 h1).le 2
      simp; linarith

/-- **C16.** With one threshold: `prox_l0(v, α)` minimises `(1/2)‖x - v‖² + α‖x‖₀`. -/
theorem C16_prox_l0 (v : ι → E) (α : ℝ) (hα : 0 ≤ α) :
    IsMin (proxObj (fun x => α * (l0 x : ℝ)) v) Set.univ (fun i => proxL0 (v i) α) := by
  classical
  have h := C16_prox_l0_weighted v (fun _ => α) (fun _ => hα)
  have e : (fun x : ι → E => α * (l0 x : ℝ)) =
      fun x => ∑ i, α * (if x i ≠ 0 then (1 : ℝ) else 0) := by
    funext x
    rw [← Finset.mul_sum, l0, Finset.card_filter]
    push_cast
    rfl
  rw [e]
  exact h

/-- **C16.** `norm_l0` with its default threshold counts the non-zero entries. -/
theorem C16_norm_l0 (x : ι → E) : normL0 0 x = l0 x := by
  unfold normL0 l0
  congr 1
  ext i
  simp

example : proxL0 (2 : ℝ) 2 = 2 ∧ proxL0 (1 : ℝ) 2 = 0 := by
  have h : Real.sqrt (2 * 2) = 2 := by
    rw [show (2 * 2 : ℝ) = 2 ^ 2 by norm_num]; exact Real.sqrt_sq (by norm_num)
  constructor
  · simp [proxL0, h]
  · simp [proxL0, h]

/-! ## C17: `prox_l2` and `proj_l2` -/

/-- **C17.** `prox_l2(v, α)`, applied along axes, is the unique minimiser of the sum
over slices `s` of `(1/2)‖x_s - v_s‖² + α_s‖x_s‖₂`. -/
theorem C17_prox_l2 (v : σ → ι → E) (α : σ → ℝ) (hα : ∀ s, 0 ≤ α s) :
    IsUniqueMin (fun x : σ → ι → E => ∑ s, proxObj (fun y => α s * l2 y) (v s) (x s)) Set.univ
      (fun s => proxL2 (v s) (α s)) := by
  have := IsUniqueMin.sum (C := fun _ => Set.univ) (fun s =>
    uniqueMin_of_margin (Set.mem_univ (proxL2 (v s) (α s))) fun u _ =>
      prox_of_subgrad (f := fun y => α s * l2 y) (proxL2_subgrad (v s) (α s) (hα s) u))
  simpa using this

theorem projL2_slice (v : ι → E) (γ : ℝ) (hγ : 0 ≤ γ) :
    IsUniqueMin (fun x => 1 / 2 * sq (x - v)) {x | l2 x ≤ γ} (projL2 v γ) := by
  by_cases h : l2 v ≤ γ
  · have e : projL2 v γ = v := by
      funext i
      have h1 : normL2 v ≤ γ := h
      simp only [projL2, if_pos h1, if_neg (not_lt.2 h1)]
      simp
    rw [e]
    exact uniqueMin_of_margin h fun u _ => by simp [sq]
  · have h' := not_le.1 h
    have hpos : 0 < l2 v := lt_of_le_of_lt hγ h'
    have e : projL2 v γ = (γ / l2 v) • v := by
      funext i
      have h1 : ¬ normL2 v ≤ γ := h
      have h2 : normL2 v ≠ 0 := hpos.ne'
      simp only [projL2, if_neg h1, if_pos (not_le.1 h1), if_pos h2]
      rw [zero_smul, zero_add, one_smul, smul_smul, Pi.smul_apply, normL2_eq]
      congr 1; ring
    have hl : l2 (projL2 v γ) = γ := by
      rw [e, l2_smul _ (by positivity)]; field_simp
    refine uniqueMin_of_margin hl.le fun u hu => ?_
    have hexp := sq_expand u v (projL2 v γ)
    have hd : rdot (v - projL2 v γ) (u - projL2 v γ) ≤ 0 := by
      have hsub : v - projL2 v γ = (1 - γ / l2 v) • v := by
        rw [e, sub_smul, one_smul]
      have hc : 0 ≤ 1 - γ / l2 v := by
        rw [sub_nonneg, div_le_one hpos]; exact h'.le
      have h1 : rdot v (projL2 v γ) = γ * l2 v := by
        rw [e, rdot_smul_right, rdot_self, ← l2_sq]; field_simp
      have h2 : rdot v u ≤ γ * l2 v := by
        rw [mul_comm]
        exact (rdot_le_l2 v u).trans (mul_le_mul_of_nonneg_left hu hpos.le)
      rw [hsub, rdot_smul_left, rdot_sub_right, h1]
      exact mul_nonpos_of_nonneg_of_nonpos hc (by linarith)
    linarith

/-- **C17.** `proj_l2(v, γ)`, applied along axes, gives on every slice the unique
nearest point of the `ℓ₂` ball of radius `γ`. -/
theorem C17_proj_l2 (v : σ → ι → E) (γ : ℝ) (hγ : 0 ≤ γ) :
    IsUniqueMin (fun x : σ → ι → E => ∑ s, 1 / 2 * sq (x s - v s)) {x | ∀ s, l2 (x s) ≤ γ}
      (fun s => projL2 (v s) γ) :=
  IsUniqueMin.sum fun s => projL2_slice (v s) γ hγ

/-- **C17.** The deprecated `linalg.proj_l2ball(b, s, r)` is the nearest point to `b`
of the ball of centre `s` and radius `r`. -/
theorem C17_proj_l2ball (b s : ι → ℝ) (r : ℝ) (hr : 0 ≤ r) :
    IsUniqueMin (fun x => 1 / 2 * sq (x - b)) {x | l2 (x - s) ≤ r} (projL2Ball b s r) := by
  have h := projL2_slice (b - s) r hr
  have e : projL2Ball b s r = s + projL2 (b - s) r := by
    funext i
    have hd : Real.sqrt (∑ i, (b i - s i) ^ 2) = normL2 (b - s) := by simp [normL2]
    unfold projL2Ball projL2 zdivide
    rw [hd]
    by_cases h1 : normL2 (b - s) ≤ r
    · simp [if_pos h1, if_neg (not_lt.2 h1)]
    · by_cases h2 : normL2 (b - s) = 0
      · exact absurd (by rw [h2]; exact hr) h1
      · simp only [if_neg h1, if_pos (not_le.1 h1), if_pos h2, Pi.add_apply, Pi.sub_apply, smul_eq_mul]
        ring
  rw [e]
  refine ⟨?_, fun u hu hne => ?_⟩
  · have := h.1
    simpa using this
  · have h1 := h.2 (u - s) hu (fun e2 => hne (by rw [← e2]; abel))
    have e1 : s + projL2 (b - s) r - b = projL2 (b - s) r - (b - s) := by abel
    have e2 : u - b = u - s - (b - s) := by abel
    simp only
    rw [e1, e2]
    exact h1

/-- Hypotheses met: thresholds that shrink one slice and annihilate another. -/
example : proxL2 (![3, 4] : Fin 2 → ℝ) 1 = ![12 / 5, 16 / 5] ∧
    proxL2 (![3, 4] : Fin 2 → ℝ) 6 = 0 := by
  have h : l2 (![3, 4] : Fin 2 → ℝ) = 5 := by
    have : sq (![3, 4] : Fin 2 → ℝ) = 5 ^ 2 := by simp [sq, Fin.sum_univ_two]; norm_num
    rw [l2, this]; exact Real.sqrt_sq (by norm_num)
  constructor
  · rw [proxL2_eq, l2fac, h]
    funext i; fin_cases i <;> simp [zdivide] <;> norm_num
  · rw [proxL2_eq, l2fac, h]
    funext i; fin_cases i <;> simp [zdivide] <;> norm_num

/-! ## C18: `proj_l1` -/

/-- **C18.** `proj_l1` by the sorting method along an axis gives on every slice the
unique nearest point of the `ℓ₁` ball of radius `γ`. -/
theorem C18_proj_l1_sort_axis {n : ℕ} (v : σ → Fin n → ℝ) (γ : ℝ) (hγ : 0 ≤ γ) :
    IsUniqueMin (fun x : σ → Fin n → ℝ => ∑ s, 1 / 2 * sq (x s - v s)) {x | ∀ s, l1 (x s) ≤ γ}
      (fun s => projL1SortAxis (v s) γ) := by
  refine IsUniqueMin.sum (F := fun s x => 1 / 2 * sq (x - v s))
    (C := fun _ => {x : Fin n → ℝ | l1 x ≤ γ}) (fun s => ?_)
  have hout : projL1SortAxis (v s) γ =
      fun i => proxL1 (v s i) (sortsumThresh (sortedMags (v s)) γ) := by
    funext i; exact sortsumOut_eq _ _
  have hsum : (sortedMags (v s)).sum = l1 (v s) := by
    have := sum_sortedMags (v s) id
    simpa [l1] using this
  rw [hout]
  by_cases h : l1 (v s) ≤ γ
  · rw [sortsumThresh_zero _ _ (nonneg_sortedMags (v s)) (by rw [hsum]; exact h)]
    have e : (fun i => proxL1 (v s i) 0) = v s := by
      funext i
      rw [proxL1, sub_zero, max_eq_left (abs_nonneg _), npSign_mul_abs]
    rw [e]
    exact proj_inside (v s) _ h
  · obtain ⟨h0, h1⟩ := sortsumThresh_spec (sortedMags (v s)) γ hγ (sorted_sortedMags (v s))
      (nonneg_sortedMags (v s)) (by rw [hsum]; exact not_le.1 h)
    rw [sum_sortedMags (v s) (fun x => max 0 (x - sortsumThresh (sortedMags (v s)) γ))] at h1
    exact proj_of_thresh (v s) γ _ h0 h1

/-- **C18.** `proj_l1` by the sorting method with `axis=None`. -/
theorem C18_proj_l1_sort {n : ℕ} (v : Fin n → ℝ) (γ : ℝ) (hγ : 0 ≤ γ) :
    IsUniqueMin (fun x => 1 / 2 * sq (x - v)) {x | l1 x ≤ γ} (projL1Sort v γ) := by
  unfold projL1Sort
  split_ifs with h
  · exact proj_inside v _ h
  · have hk := C18_proj_l1_sort_axis (σ := Unit) (fun _ => v) γ hγ
    refine ⟨hk.1 (), fun u hu hne => ?_⟩
    have := hk.2 (fun _ => u) (fun _ => hu) (fun e => hne (congrFun e ()))
    simpa using this

/-- **C18.** `proj_l1` by scalar root finding, for any root `t` in the bracket
that `brentq` is given. -/
theorem C18_proj_l1_root (v : ι → ℝ) (γ t : ℝ) (ht : 0 ≤ t) (hroot : rootFn v γ t = 0) :
    IsUniqueMin (fun x => 1 / 2 * sq (x - v)) {x | l1 x ≤ γ} (projL1Root v γ t) := by
  unfold projL1Root
  split_ifs with h
  · exact proj_inside v _ h
  · exact proj_of_thresh v γ t ht (by unfold rootFn at hroot; linarith)

/-- **C18.** When the root finder is called the bracket is valid and contains a
root: the function changes sign between `0` and `max |v|`. -/
theorem C18_root_exists {n : ℕ} (v : Fin (n + 1) → ℝ) (γ : ℝ) (hγ : 0 ≤ γ) (h : γ < l1 v) :
    0 ≤ rootFn v γ 0 ∧ rootFn v γ |v (argmaxFin fun i => |v i|)| ≤ 0 ∧
    ∃ t, 0 ≤ t ∧ t ≤ |v (argmaxFin fun i => |v i|)| ∧ rootFn v γ t = 0 := by
  have hM := argmaxFin_spec fun i => |v i|
  have hz : rootFn v γ |v (argmaxFin fun i => |v i|)| = -γ := by
    unfold rootFn
    rw [Finset.sum_eq_zero]
    · ring
    · intro i _
      apply max_eq_left
      have := hM i
      linarith
  have h0 : rootFn v γ 0 = l1 v - γ := by
    unfold rootFn l1
    congr 1
    refine Finset.sum_congr rfl fun i _ => ?_
    rw [sub_zero, max_eq_right (abs_nonneg _), Real.norm_eq_abs]
  refine ⟨by rw [h0]; linarith, by rw [hz]; linarith, ?_⟩
  have hc : ContinuousOn (rootFn v γ) (Set.Icc 0 |v (argmaxFin fun i => |v i|)|) := by
    apply Continuous.continuousOn
    unfold rootFn
    fun_prop
  have hsub := intermediate_value_Icc' (abs_nonneg _) hc
  have hmem : (0 : ℝ) ∈ Set.Icc (rootFn v γ |v (argmaxFin fun i => |v i|)|) (rootFn v γ 0) :=
    ⟨by rw [hz]; linarith, by rw [h0]; linarith⟩
  obtain ⟨t, ht, hr⟩ := hsub hmem
  exact ⟨t, ht.1, ht.2, hr⟩

/-- Hypotheses met: a vector outside the ball, and the root for it. -/
example : rootFn (![3, -1] : Fin 2 → ℝ) 2 1 = 0 ∧
    projL1Root (![3, -1] : Fin 2 → ℝ) 2 1 = ![2, 0] := by
  constructor
  · simp [rootFn, Fin.sum_univ_two]; norm_num
  · have : ¬ normL1 (![3, -1] : Fin 2 → ℝ) ≤ 2 := by
      simp [normL1, Fin.sum_univ_two]; norm_num
    rw [projL1Root, if_neg this]
    funext i; fin_cases i
    · simp [proxL1, npSign]; norm_num
    · simp [proxL1, npSign]

/-! ## C19: `prox_sl1l2` -/

/-- **C19.** `prox_sl1l2(v, α, β)` is on every slice the unique minimiser of
`(1/2)‖x - v‖² + ∑ αᵢ|xᵢ| + β‖x‖₂`. -/
theorem C19_prox_sl1l2 (v : σ → ι → ℝ) (α : σ → ι → ℝ) (β : σ → ℝ) (hα : ∀ s i, 0 ≤ α s i)
    (hβ : ∀ s, 0 ≤ β s) :
    IsUniqueMin
      (fun x : σ → ι → ℝ => ∑ s, proxObj (fun y => l1w (α s) y + β s * l2 y) (v s) (x s)) Set.univ
      (fun s => proxSl1l2 (v s) (α s) (β s)) := by
  have := IsUniqueMin.sum (C := fun _ => Set.univ)
    (F := fun s x => proxObj (fun y => l1w (α s) y + β s * l2 y) (v s) x)
    (x := fun s => proxSl1l2 (v s) (α s) (β s)) (fun s => by
      refine uniqueMin_of_margin (Set.mem_univ _) fun u _ => prox_of_subgrad ?_
      set w := proxL1Arr (v s) (α s) with hw
      have h1 : proxSl1l2 (v s) (α s) (β s) = l2fac w (β s) • w := by
        rw [proxSl1l2, proxL2_eq]
      have h2 := proxL2_subgrad w (β s) (hβ s) u
      have h3 := l1w_subgrad (α := α s) (g := v s - w) (w := w)
        (x := proxSl1l2 (v s) (α s) (β s)) (l2fac_nonneg w (β s))
        (fun i => abs_sub_proxL1 _ _ (hα s i))
        (fun i => by
          have := sub_proxL1_mul (v s i) (α s i) (hα s i)
          simp only [Pi.sub_apply, hw, proxL1Arr, Real.norm_eq_abs]
          rw [← this]; simp [mul_comm]) h1 u
      have h4 : v s - proxSl1l2 (v s) (α s) (β s) =
          (v s - w) + (w - proxL2 w (β s)) := by
        rw [proxSl1l2]; abel
      have h5 : proxSl1l2 (v s) (α s) (β s) = proxL2 w (β s) := rfl
      rw [h4, rdot_add_left]
      rw [h5] at h3 ⊢
      linarith)
  simpa using this

/-- Hypotheses met by a slice with a negative entry. -/
example : proxL1Arr (![4, -5] : Fin 2 → ℝ) (fun _ => 1) = ![3, -4] := by
  funext i; fin_cases i <;> simp [proxL1Arr, proxL1, npSign] <;> norm_num

/-! ## C20: `prox_dl1l2` -/

theorem proxDl1l2_min {n : ℕ} (v : Fin (n + 1) → ℝ) (α β : ℝ) (hα : 0 ≤ α) (hβ : 0 ≤ β)
    (hβ1 : β ≤ 1) : IsMin (dObj α β v) Set.univ (proxDl1l2 v α β) := by
  have hM := argmaxFin_spec fun i => |v i|
  set k := argmaxFin fun i => |v i| with hk
  have hb : 0 ≤ (1 - β) * α := mul_nonneg (by linarith) hα
  unfold proxDl1l2
  simp only [← hk]
  split_ifs with h1 h2 h3
  · obtain ⟨-, h⟩ := dObj_case1 v α β hα hβ k h2
    convert h using 1
    funext i
    rw [Pi.smul_apply, smul_eq_mul, mul_comm]
    rfl
  · exact dObj_case2 v α β k hM h1 (not_lt.1 h2) h3
  · exact dObj_case3 v α β |v k| hM (not_lt.1 h2) (not_le.1 h3).le
  · exact dObj_case3 v α β |v k| hM (by linarith [not_lt.1 h1]) (by linarith [not_lt.1 h1])

theorem proxDl1l2Axis_eq {n : ℕ} (v : Fin (n + 1) → ℝ) (α β : ℝ) (hα : 0 ≤ α) (hβ : 0 ≤ β)
    (hβ1 : β ≤ 1) : proxDl1l2Axis v α β = proxDl1l2 v α β := by
  set k := argmaxFin fun i => |v i| with hk
  have hb : 0 ≤ (1 - β) * α := mul_nonneg (by linarith) hα
  funext i
  unfold proxDl1l2Axis proxDl1l2
  simp only [← hk]
  by_cases h1 : 0 < |v k|
  · rw [if_pos h1]
    by_cases h2 : α < |v k|
    · obtain ⟨hpos, -⟩ := dObj_case1 v α β hα hβ k h2
      have hpos' : normL2 (fun i => max (|v i| - α) 0 * npSign (v i)) ≠ 0 := hpos.ne'
      have h5 : ¬ ((1 - β) * α < |v k| ∧ |v k| ≤ α) := fun h => absurd h2 (not_lt.2 h.2)
      rw [if_pos h2, if_pos h2, if_neg h5, if_pos hpos']
      field_simp
      ring
    · rw [if_neg h2, if_neg h2]
      by_cases h3 : (1 - β) * α < |v k|
      · have h5 : (1 - β) * α < |v k| ∧ |v k| ≤ α := ⟨h3, not_lt.1 h2⟩
        rw [if_pos h5, if_pos h3.le]; ring
      · have h5 : ¬ ((1 - β) * α < |v k| ∧ |v k| ≤ α) := fun h => h3 h.1
        rw [if_neg h5]
        by_cases h4 : (1 - β) * α ≤ |v k|
        · rw [if_pos h4]
          have e : |v k| + (β - 1) * α = 0 := by linarith [not_lt.1 h3]
          rw [e, zero_mul]
          simp [Function.update_apply]
        · rw [if_neg h4]; ring
  · have h5 : ¬ ((1 - β) * α < |v k| ∧ |v k| ≤ α) := fun h => by linarith [not_lt.1 h1, h.1]
    rw [if_neg h1, if_neg (by linarith [not_lt.1 h1] : ¬ α < |v k|), if_neg h5]
    ring

/-- **C20.** `prox_dl1l2(v, α, β)` with `axis=None` is a global minimiser of the
non-convex functional `(1/2)‖x - v‖² + α(‖x‖₁ - β‖x‖₂)`, for `α ≥ 0` and
`0 ≤ β ≤ 1`. -/
theorem C20_prox_dl1l2 {n : ℕ} (v : Fin (n + 1) → ℝ) (α β : ℝ) (hα : 0 ≤ α) (hβ : 0 ≤ β)
    (hβ1 : β ≤ 1) :
    IsMin (proxObj (fun x => α * (l1 x - β * l2 x)) v) Set.univ (proxDl1l2 v α β) :=
  proxDl1l2_min v α β hα hβ hβ1

/-- **C20.** The same along an axis, for the sum over slices. -/
theorem C20_prox_dl1l2_axis {n : ℕ} (v : σ → Fin (n + 1) → ℝ) (α β : ℝ) (hα : 0 ≤ α)
    (hβ : 0 ≤ β) (hβ1 : β ≤ 1) :
    IsMin (fun x : σ → Fin (n + 1) → ℝ =>
        ∑ s, proxObj (fun y => α * (l1 y - β * l2 y)) (v s) (x s)) Set.univ
      (fun s => proxDl1l2Axis (v s) α β) := by
  have := IsMin.sum (F := fun s x => proxObj (fun y => α * (l1 y - β * l2 y)) (v s) x)
    (C := fun _ => Set.univ) (fun s => proxDl1l2_min (v s) α β hα hβ hβ1)
  simp only [proxDl1l2Axis_eq _ α β hα hβ hβ1]
  simpa using this

/-- Outside the documented range of `β` the result need not be a minimiser: for
`β = 2` and `v = 0` the code returns `0`. -/
theorem C20_beta_range_needed :
    ¬ IsMin (proxObj (fun x => 1 * (l1 x - 2 * l2 x)) (0 : Fin 1 → ℝ)) Set.univ
      (proxDl1l2 (0 : Fin 1 → ℝ) 1 2) := by
  intro h
  have h1 := h.2 (fun _ => 1) (Set.mem_univ _)
  have h2 : proxDl1l2 (0 : Fin 1 → ℝ) 1 2 = 0 := by
    funext i; simp [proxDl1l2]
  rw [h2] at h1
  simp [proxObj, sq, l1, l2] at h1
  linarith

example : (proxDl1l2 (![3] : Fin 1 → ℝ) 1 1) = ![3] := by
  have h0 : (fun i => max (|(![3] : Fin 1 → ℝ) i| - 1) 0 * npSign ((![3] : Fin 1 → ℝ) i)) =
      fun _ => 2 := by
    funext i; fin_cases i; simp [npSign]; norm_num
  have h1 : normL2 (fun _ : Fin 1 => (2 : ℝ)) = 2 := by
    simp [normL2]
  funext i
  fin_cases i
  simp only [proxDl1l2]
  rw [h0, h1]
  simp [argmaxFin, npSign]
  norm_num

/-! ## C22: the `NonNegCoef` option -/

/-- Auxiliary variable update of the `ℓ₁` solvers, e.g. `BPDN.ystep`
(`sporco/admm/bpdn.py:447-454`, `:219-220`) and `ConvBPDN.ystep`
(`sporco/admm/cbpdn.py:614-620`): `prox_l1(AX + U, (lmbda/rho) * wl1)`, then the clip. -/
noncomputable def ystepL1 (nonNeg : Bool) (axu w : ι → ℝ) (lmbda rho : ℝ) : ι → ℝ :=
  let y := proxL1Arr axu fun i => lmbda / rho * w i
  if nonNeg then clip y else y

/-- Auxiliary variable update of the joint sparsity solvers, one slice, e.g.
`BPDNJoint.ystep` (`sporco/admm/bpdn.py:567-574`), `ConvBPDNJoint.ystep`
(`sporco/admm/cbpdn.py:786-794`). -/
noncomputable def ystepJoint (nonNeg : Bool) (axu w : ι → ℝ) (lmbda mu rho : ℝ) : ι → ℝ :=
  let y := proxSl1l2 axu (fun i => lmbda / rho * w i) (mu / rho)
  if nonNeg then clip y else y

/-- Auxiliary variable update of the `ℓ₁`-ball solvers, one slice, e.g.
`BPDNProjL1.ystep` (`sporco/admm/bpdn.py:895-902`), `ConvBPDNProjL1.ystep`
(`sporco/admm/cbpdn.py:1373-1381`). -/
noncomputable def ystepProjL1 {n : ℕ} (nonNeg : Bool) (axu : Fin n → ℝ) (γ : ℝ) : Fin n → ℝ :=
  let y := projL1SortAxis axu γ
  if nonNeg then clip y else y

/-- The functional an ADMM `y`-update minimises: `g(y) + (ρ/2)‖ax + u - y‖²`. -/
noncomputable def yObj (g : (ι → ℝ) → ℝ) (rho : ℝ) (axu y : ι → ℝ) : ℝ :=
  g y + rho / 2 * sq (axu - y)

/-- The set `NonNegCoef` restricts to. -/
def coefSet (nonNeg : Bool) : Set (ι → ℝ) := if nonNeg then nonneg else Set.univ

/-- **C22, `ℓ₁` regularisation.** With or without `NonNegCoef`, the update is the
unique minimiser of `λ ∑ wᵢ|yᵢ| + (ρ/2)‖ax + u - y‖²` over the allowed arrays. -/
theorem C22_l1_partial (nonNeg : Bool) (axu w : ι → ℝ) (lmbda rho : ℝ) (hl : 0 ≤ lmbda)
    (hr : 0 < rho) (hw : ∀ i, 0 ≤ w i) :
    IsUniqueMin (yObj (fun y => lmbda * l1w w y) rho axu) (coefSet nonNeg)
      (ystepL1 nonNeg axu w lmbda rho) := by
  have hα : ∀ i, 0 ≤ lmbda / rho * w i := fun i => mul_nonneg (by positivity) (hw i)
  have e : ∀ y, yObj (fun y => lmbda * l1w w y) rho axu y =
      rho * proxObj (l1w fun i => lmbda / rho * w i) axu y := by
    intro y
    have h1 : sq (axu - y) = sq (y - axu) := by
      simp only [sq, Pi.sub_apply]
      refine Finset.sum_congr rfl fun i _ => ?_
      rw [norm_sub_rev]
    have h2 : l1w (fun i => lmbda / rho * w i) y = lmbda / rho * l1w w y := by
      simp only [l1w, Finset.mul_sum, mul_assoc]
    rw [yObj, proxObj, h1, h2]
    field_simp
    ring
  have main : IsUniqueMin (proxObj (l1w fun i => lmbda / rho * w i) axu) (coefSet nonNeg)
      (ystepL1 nonNeg axu w lmbda rho) := by
    cases nonNeg
    · exact C15_prox_l1_real axu _ hα
    · exact C15_prox_l1_nonneg axu _ hα
  refine ⟨main.1, fun u hu hne => ?_⟩
  rw [e, e]
  exact mul_lt_mul_of_pos_left (main.2 u hu hne) hr

/-- **C22, no regularisation** (the base-class update, `sporco/admm/bpdn.py:209-220`):
the clip is the nearest non-negative array. -/
theorem C22_clip_partial (x : ι → ℝ) :
    IsUniqueMin (fun y => 1 / 2 * sq (y - x)) nonneg (clip x) := by
  have h := C15_prox_l1_nonneg x (fun _ => 0) (fun _ => le_rfl)
  have e : proxL1Arr x (fun _ => 0) = x := by
    funext i
    simp [proxL1Arr, proxL1, npSign_mul_abs]
  rw [e] at h
  have e2 : proxObj (l1w fun _ : ι => 0) x = fun y => 1 / 2 * sq (y - x) := by
    funext y; simp [proxObj, l1w]
  rwa [e2] at h

/-- **C22, joint sparsity without the option.** -/
theorem C22_joint_partial (axu w : ι → ℝ) (lmbda mu rho : ℝ) (hl : 0 ≤ lmbda) (hm : 0 ≤ mu)
    (hr : 0 < rho) (hw : ∀ i, 0 ≤ w i) :
    IsUniqueMin (yObj (fun y => lmbda * l1w w y + mu * l2 y) rho axu) Set.univ
      (ystepJoint false axu w lmbda mu rho) := by
  have hα : ∀ i, 0 ≤ lmbda / rho * w i := fun i => mul_nonneg (by positivity) (hw i)
  have main := C19_prox_sl1l2 (σ := Unit) (fun _ => axu) (fun _ i => lmbda / rho * w i)
    (fun _ => mu / rho) (fun _ => hα) (fun _ => by positivity)
  have e : ∀ y, yObj (fun y => lmbda * l1w w y + mu * l2 y) rho axu y =
      rho * proxObj (fun y => l1w (fun i => lmbda / rho * w i) y + mu / rho * l2 y) axu y := by
    intro y
    have h1 : sq (axu - y) = sq (y - axu) := by
      simp only [sq, Pi.sub_apply]
      refine Finset.sum_congr rfl fun i _ => ?_
      rw [norm_sub_rev]
    have h2 : l1w (fun i => lmbda / rho * w i) y = lmbda / rho * l1w w y := by
      simp only [l1w, Finset.mul_sum, mul_assoc]
    rw [yObj, proxObj, h1, h2]
    field_simp
    ring
  refine ⟨Set.mem_univ _, fun u _ hne => ?_⟩
  rw [e, e]
  refine mul_lt_mul_of_pos_left ?_ hr
  have := main.2 (fun _ => u) (Set.mem_univ _) (fun h => hne (congrFun h ()))
  simpa [ystepJoint] using this

/-- **C22 fails for joint sparsity.** With `NonNegCoef`, the update of the joint
sparsity solvers need not minimise the constrained functional. -/
theorem C22_joint_refuted :
    ¬ IsMin (yObj (fun y => 1 * l1w (fun _ => 1) y + 1 * l2 y) 1 (![4, -5] : Fin 2 → ℝ))
        (coefSet true) (ystepJoint true (![4, -5] : Fin 2 → ℝ) (fun _ => 1) 1 1 1) := by
  intro h
  have hp : proxL1Arr (![4, -5] : Fin 2 → ℝ) (fun _ => 1 / 1 * 1) = ![3, -4] := by
    funext i; fin_cases i <;> simp [proxL1Arr, proxL1, npSign] <;> norm_num
  have hl : l2 (![3, -4] : Fin 2 → ℝ) = 5 := by
    have : sq (![3, -4] : Fin 2 → ℝ) = 5 ^ 2 := by simp [sq, Fin.sum_univ_two]; norm_num
    rw [l2, this]; exact Real.sqrt_sq (by norm_num)
  have hy : ystepJoint true (![4, -5] : Fin 2 → ℝ) (fun _ => 1) 1 1 1 = ![12 / 5, 0] := by
    simp only [ystepJoint, if_true, proxSl1l2, hp]
    rw [proxL2_eq, l2fac, hl]
    funext i; fin_cases i <;> simp [clip, zdivide] <;> norm_num
  have h1 := h.2 ![2, 0] (fun i => by fin_cases i <;> simp)
  rw [hy] at h1
  have a1 : l2 (![12 / 5, 0] : Fin 2 → ℝ) = 12 / 5 := by
    have : sq (![12 / 5, 0] : Fin 2 → ℝ) = (12 / 5) ^ 2 := by simp [sq, Fin.sum_univ_two]
    rw [l2, this]; exact Real.sqrt_sq (by norm_num)
  have a2 : l2 (![2, 0] : Fin 2 → ℝ) = 2 := by
    have : sq (![2, 0] : Fin 2 → ℝ) = 2 ^ 2 := by simp [sq, Fin.sum_univ_two]
    rw [l2, this]; exact Real.sqrt_sq (by norm_num)
  simp only [yObj, a1, a2, l1w, sq, Fin.sum_univ_two, Pi.sub_apply, Real.norm_eq_abs, sq_abs,
    Matrix.cons_val_zero, Matrix.cons_val_one, abs_zero] at h1
  rw [abs_of_pos (by norm_num : (0 : ℝ) < 12 / 5), abs_of_pos (by norm_num : (0 : ℝ) < 2)] at h1
  norm_num at h1

/-- **C22 fails for the `ℓ₁` ball.** With `NonNegCoef`, the update of the `ℓ₁`-ball
solvers need not be the nearest point of the intersection of the ball with the
non-negative arrays. -/
theorem C22_projl1_refuted :
    ¬ IsMin (fun x => 1 / 2 * sq (x - (![1, -1] : Fin 2 → ℝ))) ({x | l1 x ≤ 1} ∩ coefSet true)
        (ystepProjL1 true (![1, -1] : Fin 2 → ℝ) 1) := by
  intro h
  -- the projection onto the ball is `(1/2, -1/2)`
  have hu := C18_proj_l1_sort_axis (σ := Unit) (fun _ => (![1, -1] : Fin 2 → ℝ)) 1 zero_le_one
  have hr := proj_of_thresh (![1, -1] : Fin 2 → ℝ) 1 (1 / 2) (by norm_num)
    (by simp [Fin.sum_univ_two]; norm_num)
  have hv : (fun i => proxL1 ((![1, -1] : Fin 2 → ℝ) i) (1 / 2)) = ![1 / 2, -1 / 2] := by
    funext i; fin_cases i <;> simp [proxL1, npSign] <;> norm_num
  rw [hv] at hr
  have he : projL1SortAxis (![1, -1] : Fin 2 → ℝ) 1 = ![1 / 2, -1 / 2] := by
    by_contra hne
    have h1 := hr.2 _ (hu.1 ()) hne
    have h2 := hu.2 (fun _ => ![1 / 2, -1 / 2]) (fun _ => hr.1)
      (fun e => hne (congrFun e ()).symm)
    simp only [Finset.univ_unique, Finset.sum_singleton] at h2
    linarith
  have hy : ystepProjL1 true (![1, -1] : Fin 2 → ℝ) 1 = ![1 / 2, 0] := by
    simp only [ystepProjL1, if_true, he]
    funext i; fin_cases i <;> simp [clip] <;> norm_num
  have h1 := h.2 ![1, 0] ⟨by simp [l1, Fin.sum_univ_two], fun i => by fin_cases i <;> simp⟩
  rw [hy] at h1
  simp [sq, Fin.sum_univ_two] at h1
  norm_num at h1

/-- Hypotheses of the positive results are met. -/
example : ystepL1 true (![3, -2] : Fin 2 → ℝ) (fun _ => 1) 1 2 = ![5 / 2, 0] := by
  simp only [ystepL1, if_true]
  funext i; fin_cases i <;> simp [clip, proxL1Arr, proxL1, npSign] <;> norm_num

end Sporco.Prox
