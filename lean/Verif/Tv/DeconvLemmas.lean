import Verif.Tv.DeconvModel
import Verif.Signal.Tikhonov
import Verif.Admm.Quad
import Verif.Prox.Props

/-!
# Difference operators and linear systems of the TV deconvolution solvers
-/

set_option autoImplicit false
set_option linter.unusedSectionVars false

namespace Sporco.Tv.Dec

open Finset ComplexConjugate Sporco.Conv Sporco.Admm Sporco.Signal
open scoped RealInnerProductSpace

variable {d : ℕ} {N Nd : Fin d → ℕ} [∀ k, NeZero (N k)] {a : Fin d} {γ χ : Type*} [Fintype γ] [Fintype χ]

/-! ## Filters -/

theorem pad_gradG (k : Fin d) (hk : 2 ≤ N k) (y : Grid N) :
    pad N (gradG k) y = if y = 0 then 1 else if y = unit N k then -1 else 0 := by
  have hf : Fact (1 < N k) := ⟨hk⟩
  have h1 : (1 : ZMod (N k)).val = 1 := ZMod.val_one _
  have hu : unit N k ≠ 0 := unit_ne k hk
  by_cases hj : ∀ j, j ≠ k → y j = 0
  · by_cases h0 : (y k).val = 0
    · have hy0 : y = 0 := funext fun j => by
        by_cases h : j = k
        · subst h; exact (ZMod.val_eq_zero _).1 h0
        · exact hj j h
      subst hy0
      rw [if_pos rfl]
      unfold pad
      rw [dif_pos fun j => by simp]
      unfold gradG
      simp
    · have hy0 : y ≠ 0 := fun h => h0 (by rw [h]; simp)
      rw [if_neg hy0]
      by_cases h2 : (y k).val = 1
      · have : y = unit N k := funext fun j => by
          by_cases h : j = k
          · subst h
            rw [unit, Pi.single_eq_same]
            exact ZMod.val_injective _ (by rw [h2, h1])
          · rw [hj j h, unit, Pi.single_eq_of_ne h]
        rw [if_pos this]
        unfold pad
        rw [dif_pos fun j => by
          by_cases h : j = k
          · subst h; exact lt_of_eq_of_lt h2 one_lt_two
          · rw [hj j h]; simp]
        unfold gradG
        rw [if_pos fun j h => by simp [hj j h], if_neg (by simp only; omega)]
      · rw [if_neg fun h => h2 (by rw [h, unit, Pi.single_eq_same, h1])]
        unfold pad
        rw [dif_neg fun h => by have : (y k).val < 2 := h k; omega]
  · have hy0 : y ≠ 0 := fun h => hj fun j _ => by rw [h]; rfl
    have hy1 : y ≠ unit N k := fun h => hj fun j hjk => by rw [h, unit, Pi.single_eq_of_ne hjk]
    rw [if_neg hy0, if_neg hy1]
    unfold pad
    split_ifs with h
    · unfold gradG
      rw [if_neg]
      intro hc
      exact hj fun j hjk => (ZMod.val_eq_zero _).1 (by simpa using hc j hjk)
    · rfl

theorem pad_gradG_one (k : Fin d) (hk : N k = 1) (y : Grid N) :
    pad N (gradG k) y = if y = 0 then 1 else 0 := by
  have hyk : (y k).val = 0 := by have := ZMod.val_lt (y k); omega
  by_cases hj : ∀ j, j ≠ k → y j = 0
  · have hy0 : y = 0 := funext fun j => by
      by_cases h : j = k
      · subst h; exact (ZMod.val_eq_zero _).1 hyk
      · exact hj j h
    subst hy0
    rw [if_pos rfl]
    unfold pad
    rw [dif_pos fun j => by simp]
    unfold gradG
    simp
  · have hy0 : y ≠ 0 := fun h => hj fun j _ => by rw [h]; rfl
    rw [if_neg hy0]
    unfold pad
    split_ifs with h
    · unfold gradG
      rw [if_neg]
      intro hc
      exact hj fun j hjk => (ZMod.val_eq_zero _).1 (by simpa using hc j hjk)
    · rfl

/-- Circular backward difference along axis `k`. -/
def cdiff (k : Fin d) (x : Grid N → ℝ) (p : Grid N) : ℝ := x p - x (p - Pi.single k 1)

theorem rconv_gradG (k : Fin d) (hk : 2 ≤ N k) (x : Grid N → ℝ) :
    rconv (pad N (gradG k)) x = cdiff k x := by
  funext p
  unfold rconv cdiff
  simp only [pad_gradG k hk]
  have e : ∀ y : Grid N, (if y = 0 then (1 : ℝ) else if y = unit N k then -1 else 0) * x (p - y) =
      (if y = 0 then x (p - y) else 0) + if y = unit N k then -x (p - y) else 0 := by
    intro y
    by_cases h0 : y = 0
    · subst h0
      rw [if_pos rfl, if_pos rfl, if_neg (unit_ne k hk).symm, one_mul, add_zero]
    · rw [if_neg h0, if_neg h0]
      split <;> simp
  simp only [e, sum_add_distrib]
  rw [sum_ite_eq' univ, sum_ite_eq' univ, if_pos (mem_univ _), if_pos (mem_univ _), sub_zero, unit]
  ring

theorem rconv_gradG_one (k : Fin d) (hk : N k = 1) (x : Grid N → ℝ) : rconv (pad N (gradG k)) x = x := by
  funext p
  unfold rconv
  simp only [pad_gradG_one k hk, ite_mul, one_mul, zero_mul]
  rw [sum_ite_eq' univ, if_pos (mem_univ _), sub_zero]

/-- The spectrum of a difference filter vanishes only where the character is one on the unit step. -/
theorem rf_gradG (k : Fin d) (hk : 2 ≤ N k) (ξ : Grid N) :
    rf (pad N (gradG k)) ξ = 1 - conj (chi N ξ (unit N k)) := by
  unfold rf fft
  simp only [pad_gradG k hk]
  have e : ∀ y : Grid N, conj (chi N ξ y) *
      ((if y = 0 then 1 else if y = unit N k then -1 else 0 : ℝ) : ℂ) =
      (if y = 0 then conj (chi N ξ y) else 0) + if y = unit N k then -conj (chi N ξ y) else 0 := by
    intro y
    by_cases h0 : y = 0
    · subst h0
      rw [if_pos rfl, if_pos rfl, if_neg (unit_ne k hk).symm]
      push_cast; ring
    · rw [if_neg h0, if_neg h0]
      split <;> simp
  simp only [e, sum_add_distrib]
  rw [sum_ite_eq' univ, sum_ite_eq' univ, if_pos (mem_univ _), if_pos (mem_univ _), chi_zero, map_one]
  ring

theorem chi_units {ξ : Grid N} (h : ∀ k, chi N ξ (unit N k) = 1) : ξ = 0 := by
  have hx : ∀ x, chi N ξ x = 1 := by
    intro x
    have hm : ∀ k (n : ℕ), chi N ξ (n • unit N k) = 1 := by
      intro k n
      induction n with
      | zero => rw [zero_smul, chi_zero]
      | succ n ih => rw [succ_nsmul, chi_add, ih, h, one_mul]
    have hs : ∀ s : Finset (Fin d), chi N ξ (∑ k ∈ s, (x k).val • unit N k) = 1 := by
      intro s
      classical
      induction s using Finset.induction_on with
      | empty => rw [sum_empty, chi_zero]
      | insert k s hk ih => rw [sum_insert hk, chi_add, hm, ih, one_mul]
    have e : x = ∑ k, (x k).val • unit N k := by
      funext j
      rw [Finset.sum_apply]
      simp only [Pi.smul_apply, unit]
      rw [sum_eq_single j (fun k _ hk => by rw [Pi.single_eq_of_ne hk.symm, smul_zero]) (by simp),
        Pi.single_eq_same, nsmul_eq_mul, mul_one, ZMod.natCast_zmod_val]
    rw [e]; exact hs univ
  have := sum_chi ξ
  by_contra hne
  rw [if_neg hne] at this
  simp only [hx, sum_const, card_univ, nsmul_eq_mul, mul_one] at this
  exact (Fintype.card_ne_zero (α := Grid N)) (by exact_mod_cast this)

theorem rf_zero_freq (x : Grid N → ℝ) : rf x 0 = ((∑ p, x p : ℝ) : ℂ) := by
  unfold rf fft
  push_cast
  refine sum_congr rfl fun p _ => ?_
  rw [chi_comm, chi_zero, map_one, one_mul]

theorem sum_pad (hN : ∀ k, Nd k ≤ N k) (h : NArr Nd ℝ) : ∑ p, pad N h p = ∑ i, h i := by
  simp only [pad_eq hN]
  rw [sum_comm]
  refine sum_congr rfl fun i _ => ?_
  rw [sum_ite_eq univ, if_pos (mem_univ _)]

/-! ## Stacks of convolutions -/

section Stack
variable {I J : Type*} [Fintype I] [Fintype J]

/-- `x ↦ (h_{i,j} * x_i)_{i,j}`. -/
noncomputable def stk (h : I → J → Grid N → ℝ) : Coef I Unit N →L[ℝ] Coef I J N :=
  LinearMap.toContinuousLinearMap
    { toFun := fun x => join fun i j p => rconv (h i j) (part x i ()) p
      map_add' := fun x y => by
        ext ⟨i, j, p⟩
        change rconv (h i j) (part (x + y) i ()) p = rconv _ _ p + rconv _ _ p
        unfold rconv
        rw [← sum_add_distrib]
        refine sum_congr rfl fun y _ => ?_
        simp only [part, PiLp.add_apply]
        ring
      map_smul' := fun r x => by
        ext ⟨i, j, p⟩
        change rconv (h i j) (part (r • x) i ()) p = r * rconv _ _ p
        unfold rconv
        rw [mul_sum]
        refine sum_congr rfl fun y _ => ?_
        simp only [part, PiLp.smul_apply, smul_eq_mul]
        ring }

/-- The adjoint of `stk`. -/
noncomputable def stkT (h : I → J → Grid N → ℝ) : Coef I J N →L[ℝ] Coef I Unit N :=
  LinearMap.toContinuousLinearMap
    { toFun := fun s => join fun i _ p => ∑ j, rcorr (h i j) (part s i j) p
      map_add' := fun x y => by
        ext ⟨i, m, p⟩
        change ∑ c, rcorr (h i c) (part (x + y) i c) p = ∑ c, _ + ∑ c, _
        rw [← sum_add_distrib]
        refine sum_congr rfl fun m _ => ?_
        unfold rcorr
        rw [← sum_add_distrib]
        refine sum_congr rfl fun y _ => ?_
        simp only [part, PiLp.add_apply]
        ring
      map_smul' := fun r x => by
        ext ⟨i, m, p⟩
        change ∑ c, rcorr (h i c) (part (r • x) i c) p = r * ∑ c, _
        rw [mul_sum]
        refine sum_congr rfl fun m _ => ?_
        unfold rcorr
        rw [mul_sum]
        refine sum_congr rfl fun y _ => ?_
        simp only [part, PiLp.smul_apply, smul_eq_mul]
        ring }

theorem part_stk (h : I → J → Grid N → ℝ) (x : Coef I Unit N) (i : I) (j : J) :
    part (stk h x) i j = rconv (h i j) (part x i ()) := rfl

theorem part_stkT (h : I → J → Grid N → ℝ) (s : Coef I J N) (i : I) (u : Unit) :
    part (stkT h s) i u = fun p => ∑ j, rcorr (h i j) (part s i j) p := rfl

theorem stk_adj (h : I → J → Grid N → ℝ) (x : Coef I Unit N) (s : Coef I J N) :
    ⟪stk h x, s⟫ = ⟪x, stkT h s⟫ := by
  rw [inner_part, inner_part]
  refine sum_congr rfl fun i _ => ?_
  simp only [part_stk, part_stkT, mul_sum]
  have e : ∀ f : Unit → ℝ, ∑ u, f u = f () := fun f => by rw [univ_unique, sum_singleton]
  rw [e, sum_comm (s := (univ : Finset (Grid N)))]
  exact sum_congr rfl fun j _ => sum_rconv_mul _ _ _

theorem rf_stk (h : I → J → Grid N → ℝ) (x : Coef I Unit N) (i : I) (j : J) (ξ : Grid N) :
    rf (part (stk h x) i j) ξ = rf (h i j) ξ * rf (part x i ()) ξ := by
  rw [part_stk, rf_rconv]

theorem rf_stkT (h : I → J → Grid N → ℝ) (s : Coef I J N) (i : I) (u : Unit) (ξ : Grid N) :
    rf (part (stkT h s) i u) ξ = ∑ j, conj (rf (h i j) ξ) * rf (part s i j) ξ := by
  rw [part_stkT, rf_sum]
  exact sum_congr rfl fun j _ => rf_rcorr _ _ _

theorem rf_part_sub (x y : Coef I J N) (i : I) (j : J) (ξ : Grid N) :
    rf (part (x - y) i j) ξ = rf (part x i j) ξ - rf (part y i j) ξ := rf_sub _ _ ξ

theorem rf_part_add (x y : Coef I J N) (i : I) (j : J) (ξ : Grid N) :
    rf (part (x + y) i j) ξ = rf (part x i j) ξ + rf (part y i j) ξ := rf_add _ _ ξ

theorem rf_part_smul (c : ℝ) (y : Coef I J N) (i : I) (j : J) (ξ : Grid N) :
    rf (part (c • y) i j) ξ = c * rf (part y i j) ξ := rf_smul _ _ ξ

end Stack

/-! ## The operators of the solvers -/

/-- The blur operator: one kernel per channel. -/
noncomputable def blurL (A : γ × χ → NArr Nd ℝ) : ImgD γ χ N →L[ℝ] ImgD γ χ N := stk fun i _ => pad N (A i)

noncomputable def blurLT (A : γ × χ → NArr Nd ℝ) : ImgD γ χ N →L[ℝ] ImgD γ χ N := stkT fun i _ => pad N (A i)

/-- The gradient operator. -/
noncomputable def gradL : ImgD γ χ N →L[ℝ] GradD γ χ N := stk fun _ k => pad N (gradG k)

noncomputable def gradLT : GradD γ χ N →L[ℝ] ImgD γ χ N := stkT fun _ k => pad N (gradG k)

theorem gradL_adj (x : ImgD γ χ N) (y : GradD γ χ N) : ⟪gradL x, y⟫ = ⟪x, gradLT y⟫ := stk_adj _ x y

theorem blurL_adj (A : γ × χ → NArr Nd ℝ) (x y : ImgD γ χ N) : ⟪blurL A x, y⟫ = ⟪x, blurLT A y⟫ :=
  stk_adj _ x y

theorem init_Gf (A : γ × χ → NArr Nd ℝ) (S : γ × χ → Grid N → ℝ) (k : Fin d) (ξ : Half N a) :
    (init A S).Gf k ξ = rf (pad N (gradG k)) ξ.1 := rfl

theorem init_Af (A : γ × χ → NArr Nd ℝ) (S : γ × χ → Grid N → ℝ) (i : γ × χ) (ξ : Half N a) :
    (init A S).Af i ξ = rf (pad N (A i)) ξ.1 := rfl

theorem irfft_mul (h x : Grid N → ℝ) :
    irfft N a (fun ξ => rf h ξ.1 * rfft N a x ξ) = rconv h x := by
  apply rf_injective
  intro ξ
  have := rf_irfft a (F := fun ξ => rf h ξ * rf x ξ) (fun ξ => by
    simp only [rf_herm h ξ, rf_herm x ξ, map_mul])
  rw [rf_rconv]
  exact congrFun this ξ

theorem irfft_conj_mul (h x : Grid N → ℝ) :
    irfft N a (fun ξ => conj (rf h ξ.1) * rfft N a x ξ) = rcorr h x := by
  apply rf_injective
  intro ξ
  have := rf_irfft a (F := fun ξ => conj (rf h ξ) * rf x ξ) (fun ξ => by
    simp only [rf_herm h ξ, rf_herm x ξ, map_mul])
  rw [rf_rcorr]
  exact congrFun this ξ

theorem cnstA_eq (A : γ × χ → NArr Nd ℝ) (S : γ × χ → Grid N → ℝ) (X : ImgD γ χ N) :
    cnstA (init A S : Attr γ χ N a) X = gradL X := by
  unfold cnstA cnstAf gradL
  conv_rhs => rw [← join_part (stk (fun _ k => pad N (gradG k)) X)]
  congr 1
  funext i k
  rw [part_stk]
  exact irfft_mul _ _

theorem cnstAT_eq (A : γ × χ → NArr Nd ℝ) (S : γ × χ → Grid N → ℝ) (Y : GradD γ χ N) :
    cnstAT (init A S : Attr γ χ N a) Y = gradLT Y := by
  unfold cnstAT gradLT
  conv_rhs => rw [← join_part (stkT (fun _ k => pad N (gradG k)) Y)]
  congr 1
  funext i _ p
  rw [part_stkT]
  refine sum_congr rfl fun k _ => ?_
  exact congrFun (irfft_conj_mul _ _) p

/-! ## The normal equations -/

/-- The denominator on the full grid. -/
noncomputable def dfull (A : γ × χ → NArr Nd ℝ) (rho : ℝ) (i : γ × χ) (ξ : Grid N) : ℂ :=
  conj (rf (pad N (A i)) ξ) * rf (pad N (A i)) ξ +
    rho * ∑ k, conj (rf (pad N (gradG k)) ξ) * rf (pad N (gradG k)) ξ

theorem dfull_eq (A : γ × χ → NArr Nd ℝ) (rho : ℝ) (i : γ × χ) (ξ : Grid N) :
    dfull A rho i ξ = ((‖rf (pad N (A i)) ξ‖ ^ 2 + rho * ∑ k, ‖rf (pad N (gradG k)) ξ‖ ^ 2 : ℝ) : ℂ) := by
  unfold dfull
  simp only [Complex.conj_mul']
  push_cast
  rfl

theorem den_eq (A : γ × χ → NArr Nd ℝ) (S : γ × χ → Grid N → ℝ) (rho : ℝ) (i : γ × χ) (ξ : Half N a) :
    den (init A S : Attr γ χ N a) rho i ξ = dfull A rho i ξ.1 := by
  have e : (init A S : Attr γ χ N a).GHGf ξ =
      (∑ k, conj (rf (pad N (gradG k)) ξ.1) * rf (pad N (gradG k)) ξ.1).re := rfl
  have h : ((∑ k, conj (rf (pad N (gradG k)) ξ.1) * rf (pad N (gradG k)) ξ.1).re : ℂ) =
      ∑ k, conj (rf (pad N (gradG k)) ξ.1) * rf (pad N (gradG k)) ξ.1 := by
    have e2 : ∑ k, conj (rf (pad N (gradG k)) ξ.1) * rf (pad N (gradG k)) ξ.1 =
        ((∑ k, ‖rf (pad N (gradG k)) ξ.1‖ ^ 2 : ℝ) : ℂ) := by
      simp only [Complex.conj_mul']
      push_cast
      rfl
    rw [e2, Complex.ofReal_re]
  unfold den
  rw [e, h]
  rfl

theorem dfull_neg (A : γ × χ → NArr Nd ℝ) (rho : ℝ) (i : γ × χ) (ξ : Grid N) :
    dfull A rho i (-ξ) = dfull A rho i ξ := by
  rw [dfull_eq, dfull_eq]
  simp only [rf_herm _ ξ, Complex.norm_conj]

/-- The denominators vanish at frequency zero and only for kernels whose entries add up to zero. -/
theorem dfull_zero_iff (hN : ∀ k, Nd k ≤ N k) (h2 : ∀ k, 2 ≤ N k) (A : γ × χ → NArr Nd ℝ) (rho : ℝ)
    (hp : 0 < rho) (i : γ × χ) (ξ : Grid N) : dfull A rho i ξ = 0 ↔ ξ = 0 ∧ ∑ j, A i j = 0 := by
  rw [dfull_eq, Complex.ofReal_eq_zero]
  have hs : 0 ≤ ∑ k, ‖rf (pad N (gradG k)) ξ‖ ^ 2 := sum_nonneg fun _ _ => by positivity
  constructor
  · intro h
    have h1 : ‖rf (pad N (A i)) ξ‖ ^ 2 = 0 :=
      le_antisymm (by nlinarith [mul_nonneg hp.le hs]) (by positivity)
    have h3 : ∑ k, ‖rf (pad N (gradG k)) ξ‖ ^ 2 = 0 := by
      rw [h1, zero_add] at h
      exact (mul_eq_zero.1 h).resolve_left hp.ne'
    rw [sum_eq_zero_iff_of_nonneg fun _ _ => by positivity] at h3
    have h4 : ξ = 0 := by
      apply chi_units
      intro k
      have := h3 k (mem_univ k)
      rw [rf_gradG k (h2 k)] at this
      have h5 : (1 : ℂ) - conj (chi N ξ (unit N k)) = 0 := by simpa using this
      have h6 : conj (chi N ξ (unit N k)) = 1 := by linear_combination -h5
      have := congrArg conj h6
      simpa using this
    refine ⟨h4, ?_⟩
    rw [h4, rf_zero_freq, sum_pad hN] at h1
    have : (((∑ j, A i j : ℝ)) : ℂ) = 0 := by simpa using h1
    exact_mod_cast this
  · rintro ⟨rfl, h⟩
    rw [rf_zero_freq, sum_pad hN, h]
    have : ∀ k, rf (pad N (gradG k)) (0 : Grid N) = 0 := by
      intro k
      rw [rf_gradG k (h2 k), chi_comm, chi_zero, map_one, sub_self]
    simp [this]

/-- `Xf` on the full grid. -/
noncomputable def xfull (A : γ × χ → NArr Nd ℝ) (S : γ × χ → Grid N → ℝ) (rho : ℝ) (Y U : GradD γ χ N)
    (i : γ × χ) (ξ : Grid N) : ℂ :=
  (conj (rf (pad N (A i)) ξ) * rf (S i) ξ +
    rho * ∑ k, conj (rf (pad N (gradG k)) ξ) * rf (part (Y - U) i k) ξ) / dfull A rho i ξ

theorem xf_eq (A : γ × χ → NArr Nd ℝ) (S : γ × χ → Grid N → ℝ) (rho : ℝ) (Y U : GradD γ χ N) (i : γ × χ)
    (ξ : Half N a) : xf (init A S : Attr γ χ N a) rho Y U i ξ = xfull A S rho Y U i ξ.1 := by
  unfold xf xfull
  rw [den_eq]
  rfl

theorem xfull_herm (A : γ × χ → NArr Nd ℝ) (S : γ × χ → Grid N → ℝ) (rho : ℝ) (Y U : GradD γ χ N)
    (i : γ × χ) : Herm (xfull A S rho Y U i) := by
  intro ξ
  have h : conj (dfull A rho i ξ) = dfull A rho i ξ := by rw [dfull_eq, Complex.conj_ofReal]
  unfold xfull
  rw [dfull_neg, map_div₀, h]
  simp only [rf_herm _ ξ, map_add, map_mul, map_sum, Complex.conj_ofReal]

theorem rf_xstep (A : γ × χ → NArr Nd ℝ) (S : γ × χ → Grid N → ℝ) (rho : ℝ) (Y U : GradD γ χ N)
    (X0 : ImgD γ χ N) (h0 : γ × χ → Half N a → ℂ) (i : γ × χ) (ξ : Grid N) :
    rf (part (xstep (init A S : Attr γ χ N a) rho X0 Y U h0).1 i ()) ξ = xfull A S rho Y U i ξ := by
  have e : xf (init A S : Attr γ χ N a) rho Y U i = fun ξ => xfull A S rho Y U i ξ.1 :=
    funext fun ξ => xf_eq A S rho Y U i ξ
  unfold xstep
  rw [part_join, e]
  exact congrFun (rf_irfft a (xfull_herm A S rho Y U i)) ξ

/-- The spectrum that `xstep` stores is that of the image it stores. -/
theorem xstep_extra (A : γ × χ → NArr Nd ℝ) (S : γ × χ → Grid N → ℝ) (rho : ℝ) (Y U : GradD γ χ N)
    (X0 : ImgD γ χ N) (h0 : γ × χ → Half N a → ℂ) :
    (xstep (init A S : Attr γ χ N a) rho X0 Y U h0).2 =
      fun i => rfft N a (part (xstep (init A S : Attr γ χ N a) rho X0 Y U h0).1 i ()) := by
  funext i ξ
  exact (xf_eq A S rho Y U i ξ).trans (rf_xstep A S rho Y U X0 h0 i ξ.1).symm

/-- The signal as an array. -/
def sigL (S : γ × χ → Grid N → ℝ) : ImgD γ χ N := join fun i _ => S i

theorem normal_eq (A : γ × χ → NArr Nd ℝ) (S : γ × χ → Grid N → ℝ) (rho : ℝ)
    (hd : ∀ i ξ, dfull (N := N) A rho i ξ ≠ 0) (Y U : GradD γ χ N)
    (X0 : ImgD γ χ N) (h0 : γ × χ → Half N a → ℂ) :
    let X := (xstep (init A S : Attr γ χ N a) rho X0 Y U h0).1
    blurLT A (blurL A X - sigL S) + rho • gradLT (gradL X - (Y - U)) = 0 := by
  intro X
  apply part_ext
  intro i u ξ
  have e0 : rf (part (0 : ImgD γ χ N) i u) ξ = 0 := by
    have := rf_smul 0 (part (0 : ImgD γ χ N) i u) ξ
    rw [Complex.ofReal_zero, zero_mul] at this
    rw [← this]
    congr 1
    funext p
    simp [part]
  rw [e0, rf_part_add, rf_part_smul]
  unfold blurLT gradLT
  rw [rf_stkT, rf_stkT, univ_unique, sum_singleton]
  simp only [rf_part_sub]
  unfold blurL gradL
  simp only [rf_stk]
  have hX : rf (part X i ()) ξ = xfull A S rho Y U i ξ := rf_xstep A S rho Y U X0 h0 i ξ
  have hX' : rf (part X i ()) ξ * dfull A rho i ξ = conj (rf (pad N (A i)) ξ) * rf (S i) ξ +
    rho * ∑ k, conj (rf (pad N (gradG k)) ξ) * (rf (part Y i k) ξ - rf (part U i k) ξ) := by
    rw [hX, xfull, div_mul_cancel₀ _ (hd i ξ)]
    simp only [rf_part_sub]
  unfold dfull at hX'
  simp only [mul_sub, sum_sub_distrib] at hX' ⊢
  have es : rf (part (sigL S) i default) ξ = rf (S i) ξ := rfl
  rw [es]
  simp only [← mul_assoc]
  rw [← sum_mul]
  linear_combination hX'

theorem stack_inj (A : γ × χ → NArr Nd ℝ) (rho : ℝ) (hd : ∀ i ξ, dfull (N := N) A rho i ξ ≠ 0)
    (x : ImgD γ χ N) (h1 : blurL A x = 0) (h2 : gradL x = 0) : x = 0 := by
  apply part_ext
  intro i u ξ
  have e0 : ∀ {J : Type} [Fintype J] (j : J), rf (part (0 : Coef (γ × χ) J N) i j) ξ = 0 := by
    intro J _ j
    have := rf_smul 0 (part (0 : Coef (γ × χ) J N) i j) ξ
    rw [Complex.ofReal_zero, zero_mul] at this
    rw [← this]
    congr 1
    funext p
    simp [part]
  have a1 : rf (pad N (A i)) ξ * rf (part x i ()) ξ = 0 := by
    have := rf_stk (fun i _ => pad N (A i)) x i () ξ
    rw [← this]
    change rf (part (blurL A x) i ()) ξ = 0
    rw [h1, e0]
  have a2 : ∀ k, rf (pad N (gradG k)) ξ * rf (part x i ()) ξ = 0 := by
    intro k
    have := rf_stk (fun (_ : γ × χ) k => pad N (gradG k)) x i k ξ
    rw [← this]
    change rf (part (gradL x) i k) ξ = 0
    rw [h2, e0]
  have h3 : dfull A rho i ξ * rf (part x i ()) ξ = 0 := by
    unfold dfull
    rw [add_mul, mul_assoc, a1, mul_zero, zero_add, mul_assoc, sum_mul]
    simp only [mul_assoc, a2, mul_zero, sum_const_zero]
  have h4 := (mul_eq_zero.1 h3).resolve_left (hd i ξ)
  have : u = () := rfl
  rw [this, h4, e0]

/-- The excess of any image over the one computed by `xstep`. -/
theorem xstep_excess (A : γ × χ → NArr Nd ℝ) (S : γ × χ → Grid N → ℝ) (rho : ℝ)
    (hd : ∀ i ξ, dfull (N := N) A rho i ξ ≠ 0) (Y U : GradD γ χ N)
    (X0 : ImgD γ χ N) (h0 : γ × χ → Half N a → ℂ) (z : ImgD γ χ N) :
    let X := (xstep (init A S : Attr γ χ N a) rho X0 Y U h0).1
    1 / 2 * ‖blurL A z - sigL S‖ ^ 2 + rho / 2 * ‖gradL z - (Y - U)‖ ^ 2 =
      1 / 2 * ‖blurL A X - sigL S‖ ^ 2 + rho / 2 * ‖gradL X - (Y - U)‖ ^ 2 +
      (1 / 2 * ‖blurL A (z - X)‖ ^ 2 + rho / 2 * ‖gradL (z - X)‖ ^ 2) := by
  intro X
  refine quad2 (blurL A) gradL (sigL S) (Y - U) 1 rho X (fun e => ?_) z
  have hn := normal_eq A S rho hd Y U X0 h0
  have e1 : ⟪blurL A X - sigL S, blurL A e⟫ = ⟪e, blurLT A (blurL A X - sigL S)⟫ := by
    rw [real_inner_comm]; exact stk_adj _ _ _
  have e2 : ⟪gradL X - (Y - U), gradL e⟫ = ⟪e, gradLT (gradL X - (Y - U))⟫ := by
    rw [real_inner_comm]; exact stk_adj _ _ _
  rw [e1, e2, one_mul, ← real_inner_smul_right, ← inner_add_right]
  exact (congrArg (fun v => ⟪e, v⟫) hn).trans (inner_zero_right _)

end Sporco.Tv.Dec
