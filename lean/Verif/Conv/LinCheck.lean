import Verif.Conv.LinCheckModel
import Verif.Conv.Ccmod

/-!
# What `XSlvRelRes` certifies and how accurate conjugate gradient X updates are (C89)
-/

set_option autoImplicit false
set_option linter.unusedSectionVars false

namespace Sporco.Conv

open Finset ComplexConjugate Sporco.Linalg Sporco.Prox Sporco.Admm
open Sporco.PgmConv (coefF)

variable {d c : ℕ} {N Nd : Fin d → ℕ} [∀ k, NeZero (N k)] {a : Fin d} {I J K M : Type*} [Fintype I]
  [Fintype J] [Fintype K] [Fintype M]

/-! ## Specification -/

/-- The value `v` computed for a candidate spectrum says how far the candidate is from the array `X`:
it is zero exactly for the spectrum of `X`, and a value below one bounds the distance of the array
obtained from the candidate to `X`, relative to `scale`. -/
def Certifies (v : Spec J M N a → ℝ) (X : Coef J M N) (scale : ℝ) : Prop :=
  ∀ F : Spec J M N a, 0 ≤ v F ∧ (v F = 0 ↔ ∀ j m, F j m = rfft N a (part X j m)) ∧
    (v F < 1 → ‖(join fun j m => irfft N a (F j m)) - X‖ ≤
      Real.sqrt (2 / Fintype.card (Grid N)) * (v F / (1 - v F)) * scale)

/-! ## Norms -/

section
variable {ι : Type*} [Fintype ι]

theorem frob_eq (f : ι → ℂ) : frob f = ‖(WithLp.toLp 2 f : EuclideanSpace ℂ ι)‖ := by
  rw [EuclideanSpace.norm_eq]; rfl

theorem frob_nonneg (f : ι → ℂ) : 0 ≤ frob f := Real.sqrt_nonneg _

theorem frob_eq_zero (f : ι → ℂ) : frob f = 0 ↔ ∀ i, f i = 0 := by
  rw [frob_eq, norm_eq_zero]
  constructor
  · intro h i; exact congrFun (congrArg WithLp.ofLp h) i
  · intro h; ext i; exact h i

theorem frob_le_add (f g : ι → ℂ) : frob f ≤ frob (fun i => f i - g i) + frob g := by
  rw [frob_eq, frob_eq, frob_eq]
  have h := norm_add_le (WithLp.toLp 2 (fun i => f i - g i) : EuclideanSpace ℂ ι) (WithLp.toLp 2 g)
  refine le_trans (le_of_eq ?_) h
  congr 1
  ext i
  change f i = f i - g i + g i
  ring

theorem frob_sub_comm (f g : ι → ℂ) : frob (fun i => f i - g i) = frob (fun i => g i - f i) := by
  unfold frob
  congr 1
  exact sum_congr rfl fun i _ => by rw [norm_sub_rev]

theorem rrsC_nonneg (ax b : ι → ℂ) : 0 ≤ rrsC ax b := by
  unfold rrsC
  simp only
  split_ifs
  · exact le_rfl
  · exact div_nonneg (frob_nonneg _) (le_trans (frob_nonneg ax) (le_max_left _ _))

theorem rrsC_mul (ax b : ι → ℂ) :
    frob (fun i => ax i - b i) = rrsC ax b * max (frob ax) (frob b) := by
  unfold rrsC
  simp only
  split_ifs with h
  · have h1 : frob ax = 0 := le_antisymm (h ▸ le_max_left _ _) (frob_nonneg _)
    have h2 : frob b = 0 := le_antisymm (h ▸ le_max_right _ _) (frob_nonneg _)
    rw [zero_mul, frob_eq_zero]
    intro i
    rw [(frob_eq_zero ax).1 h1, (frob_eq_zero b).1 h2, sub_zero]
  · rw [div_mul_cancel₀ _ h]

theorem rrsC_eq_zero (ax b : ι → ℂ) : rrsC ax b = 0 ↔ ∀ i, ax i = b i := by
  constructor
  · intro h i
    have := rrsC_mul ax b
    rw [h, zero_mul, frob_eq_zero] at this
    exact sub_eq_zero.1 (this i)
  · intro h
    unfold rrsC
    simp only
    split_ifs
    · rfl
    · rw [(frob_eq_zero _).2 fun i => sub_eq_zero.2 (h i), zero_div]

/-- A relative residual below one bounds the residual relative to the right hand side. -/
theorem rrsC_resid (ax b : ι → ℂ) (h : rrsC ax b < 1) :
    frob (fun i => ax i - b i) ≤ rrsC ax b / (1 - rrsC ax b) * frob b := by
  have h0 := rrsC_nonneg ax b
  have h1 := rrsC_mul ax b
  have h2 := frob_le_add ax b
  have h3 : max (frob ax) (frob b) ≤ frob (fun i => ax i - b i) + frob b :=
    max_le h2 (le_add_of_nonneg_left (frob_nonneg _))
  have h4 := mul_le_mul_of_nonneg_left h3 h0
  rw [← h1] at h4
  rw [div_mul_eq_mul_div, le_div_iff₀ (by linarith)]
  nlinarith

theorem rrsC_le (ax b : ι → ℂ) (t : ℝ) (ht : 0 ≤ t) (h : frob (fun i => ax i - b i) ≤ t * frob b) :
    rrsC ax b ≤ t := by
  unfold rrsC
  simp only
  split_ifs with hz
  · exact ht
  · have hp : 0 < max (frob ax) (frob b) :=
      lt_of_le_of_ne (le_trans (frob_nonneg ax) (le_max_left _ _)) (Ne.symm hz)
    rw [div_le_iff₀ hp]
    exact le_trans h (mul_le_mul_of_nonneg_left (le_max_right _ _) ht)

end

/-- The system at one frequency does not shrink arrays by more than its diagonal term. -/
theorem freq_coercive (h : I → M → ℂ) (r : ℝ) (hr : 0 < r) (z : M → ℂ) :
    r ^ 2 * ∑ m, ‖z m‖ ^ 2 ≤ ∑ m, ‖∑ i, conj (h i m) * ∑ n, h i n * z n + r * z m‖ ^ 2 := by
  set w : M → ℂ := fun m => ∑ i, conj (h i m) * ∑ n, h i n * z n + r * z m with hw
  have e : ∑ m, conj (z m) * w m =
      ((∑ i, ‖∑ n, h i n * z n‖ ^ 2 + ∑ m, r * ‖z m‖ ^ 2 : ℝ) : ℂ) := by
    simp only [hw, mul_add, sum_add_distrib]
    push_cast
    congr 1
    · rw [show (∑ m, conj (z m) * ∑ i, conj (h i m) * ∑ n, h i n * z n) =
        ∑ m, ∑ i, conj (z m) * (conj (h i m) * ∑ n, h i n * z n) from
          sum_congr rfl fun m _ => mul_sum _ _ _, sum_comm]
      refine sum_congr rfl fun i _ => ?_
      rw [← Complex.conj_mul', map_sum, sum_mul]
      refine sum_congr rfl fun m _ => ?_
      rw [map_mul]; ring
    · refine sum_congr rfl fun m _ => ?_
      rw [← Complex.conj_mul']; ring
  have e2 := congrArg Complex.re e
  rw [Complex.ofReal_re, Complex.re_sum] at e2
  have h1 : ∀ m ∈ (univ : Finset M), (conj (z m) * w m).re ≤ r / 2 * ‖z m‖ ^ 2 + 1 / (2 * r) * ‖w m‖ ^ 2 := by
    intro m _
    have h2 := Complex.re_le_norm (conj (z m) * w m)
    rw [norm_mul, Complex.norm_conj] at h2
    refine h2.trans ?_
    have h3 := sq_nonneg (r * ‖z m‖ - ‖w m‖)
    have h4 : r / 2 * ‖z m‖ ^ 2 + 1 / (2 * r) * ‖w m‖ ^ 2 - ‖z m‖ * ‖w m‖ =
        (r * ‖z m‖ - ‖w m‖) ^ 2 / (2 * r) := by field_simp; ring
    have h5 : 0 ≤ (r * ‖z m‖ - ‖w m‖) ^ 2 / (2 * r) := by positivity
    linarith
  have h2 := sum_le_sum h1
  rw [e2, sum_add_distrib, ← mul_sum, ← mul_sum, ← mul_sum] at h2
  have h3 : 0 ≤ ∑ i, ‖∑ n, h i n * z n‖ ^ 2 := sum_nonneg fun _ _ => by positivity
  have h4 : r / 2 * ∑ m, ‖z m‖ ^ 2 ≤ 1 / (2 * r) * ∑ m, ‖w m‖ ^ 2 := by linarith
  rw [div_mul_eq_mul_div 1, one_mul, le_div_iff₀ (by positivity)] at h4
  calc r ^ 2 * ∑ m, ‖z m‖ ^ 2 = r / 2 * ∑ m, ‖z m‖ ^ 2 * (2 * r) := by rw [← sum_mul]; ring
    _ ≤ _ := by rw [← sum_mul]; linarith

theorem normalF_apply (df : Spec I M N a) (dg : ℝ) (F : Spec J M N a) (j : J) (m : M) (ξ : Half N a) :
    normalF df dg F j m ξ =
      ∑ i, conj (df i m ξ) * ∑ n, df i n ξ * F j n ξ + dg * F j m ξ := rfl

theorem normalF_sub (df : Spec I M N a) (dg : ℝ) (F G : Spec J M N a) :
    normalF df dg (fun j m ξ => F j m ξ - G j m ξ) =
      fun j m ξ => normalF df dg F j m ξ - normalF df dg G j m ξ := by
  funext j m ξ
  simp only [normalF_apply, mul_sub, sum_sub_distrib]
  ring

theorem normalF_coercive (df : Spec I M N a) (dg : ℝ) (hd : 0 < dg) (F : Spec J M N a) :
    dg * frob (flat F) ≤ frob (flat (normalF df dg F)) := by
  have key : ∀ j (ξ : Half N a), dg ^ 2 * ∑ m, ‖F j m ξ‖ ^ 2 ≤ ∑ m, ‖normalF df dg F j m ξ‖ ^ 2 :=
    fun j ξ => freq_coercive (fun i m => df i m ξ) dg hd fun m => F j m ξ
  have e : ∀ G : Spec J M N a, frob (flat G) ^ 2 = ∑ j, ∑ ξ, ∑ m, ‖G j m ξ‖ ^ 2 := by
    intro G
    rw [frob_sq, Fintype.sum_prod_type]
    refine sum_congr rfl fun j _ => ?_
    rw [Fintype.sum_prod_type, sum_comm]
    rfl
  refine le_of_sq_le_sq ?_ (frob_nonneg _)
  rw [mul_pow, e, e, mul_sum]
  refine sum_le_sum fun j _ => ?_
  rw [mul_sum]
  exact sum_le_sum fun ξ _ => key j ξ

/-! ## The inverse transform -/

theorem hext_sub (F G : Half N a → ℂ) (ξ : Grid N) :
    hext N a (fun η => F η - G η) ξ = hext N a F ξ - hext N a G ξ := by
  unfold hext
  split_ifs
  · rfl
  · rw [map_sub]

theorem irfft_sub (F G : Half N a → ℂ) (x : Grid N) :
    irfft N a (fun η => F η - G η) x = irfft N a F x - irfft N a G x := by
  unfold irfft
  rw [← Complex.sub_re]
  congr 1
  unfold ifft
  rw [← sub_div, ← sum_sub_distrib]
  congr 1
  exact sum_congr rfl fun ξ _ => by rw [hext_sub]; ring

theorem irfft_sq_le (F : Half N a → ℂ) :
    ∑ x, irfft N a F x ^ 2 ≤ 2 / Fintype.card (Grid N) * ∑ ξ, ‖F ξ‖ ^ 2 := by
  set g : Grid N → ℝ := fun ξ => if h : (ξ a).val ≤ N a / 2 then ‖F ⟨ξ, h⟩‖ ^ 2 else 0 with hg
  have g0 : ∀ ξ, 0 ≤ g ξ := by
    intro ξ; simp only [hg]; split_ifs
    · positivity
    · exact le_rfl
  have h1 : ∀ ξ, ‖hext N a F ξ‖ ^ 2 ≤ g ξ + g (-ξ) := by
    intro ξ
    unfold hext
    split_ifs with h
    · have : g ξ = ‖F ⟨ξ, h⟩‖ ^ 2 := by simp only [hg]; rw [dif_pos h]
      rw [← this]; linarith [g0 (-ξ)]
    · have : g (-ξ) = ‖F ⟨-ξ, half_neg h⟩‖ ^ 2 := by simp only [hg]; rw [dif_pos (half_neg h)]
      rw [Complex.norm_conj, ← this]; linarith [g0 ξ]
  have h2 : ∑ ξ, g ξ = ∑ ξ : Half N a, ‖F ξ‖ ^ 2 := by
    have e : ∀ η : Half N a, ‖F η‖ ^ 2 = g η.1 := by
      intro η; simp only [hg]; rw [dif_pos η.2]
    simp only [e]
    rw [← Finset.sum_subtype (univ.filter fun ξ : Grid N => (ξ a).val ≤ N a / 2) (fun ξ => by simp) g,
      sum_filter]
    refine sum_congr rfl fun ξ _ => ?_
    split_ifs with h
    · rfl
    · simp only [hg]; rw [dif_neg h]
  have h3 : ∑ ξ, g (-ξ) = ∑ ξ, g ξ := Equiv.sum_comp (Equiv.neg _) g
  have h4 : ∑ ξ, ‖hext N a F ξ‖ ^ 2 ≤ 2 * ∑ ξ : Half N a, ‖F ξ‖ ^ 2 := by
    refine le_trans (sum_le_sum fun ξ _ => h1 ξ) ?_
    rw [sum_add_distrib, h3, h2]; linarith
  have h5 : ∑ x, irfft N a F x ^ 2 ≤ ∑ x, ‖ifft N (hext N a F) x‖ ^ 2 := by
    refine sum_le_sum fun x _ => ?_
    unfold irfft
    rw [← sq_abs]
    exact pow_le_pow_left₀ (abs_nonneg _) (Complex.abs_re_le_norm _) 2
  refine h5.trans ?_
  rw [parseval, fft_ifft, div_mul_eq_mul_div]
  exact div_le_div_of_nonneg_right h4 (Nat.cast_nonneg _)

theorem join_irfft_norm (F : Spec J M N a) :
    ‖(join fun j m => irfft N a (F j m) : Coef J M N)‖ ≤
      Real.sqrt (2 / Fintype.card (Grid N)) * frob (flat F) := by
  refine le_of_sq_le_sq ?_ (mul_nonneg (Real.sqrt_nonneg _) (frob_nonneg _))
  rw [mul_pow, Real.sq_sqrt (by positivity), norm_part, frob_sq, Fintype.sum_prod_type, mul_sum]
  refine sum_le_sum fun j _ => ?_
  rw [Fintype.sum_prod_type, mul_sum]
  exact sum_le_sum fun m _ => irfft_sq_le (F j m)

/-- The distance of the array obtained from a spectrum, bounded by the residual. -/
theorem resid_bound (df : Spec I M N a) (dg : ℝ) (hd : 0 < dg) (b F : Spec J M N a) (X : Coef J M N)
    (hX : normalF df dg (fun j m => rfft N a (part X j m)) = b) (t : ℝ)
    (ht : frob (fun i => flat (normalF df dg F) i - flat b i) ≤ t) :
    ‖(join fun j m => irfft N a (F j m)) - X‖ ≤ Real.sqrt (2 / Fintype.card (Grid N)) * (t / dg) := by
  have e : (join fun j m => irfft N a (F j m)) - X = (join fun j m =>
      irfft N a fun ξ => F j m ξ - rfft N a (part X j m) ξ : Coef J M N) := by
    ext i
    change irfft N a (F i.1 i.2.1) i.2.2 - X i = irfft N a _ _
    rw [irfft_sub, irfft_rfft]
    rfl
  rw [e]
  refine (join_irfft_norm _).trans (mul_le_mul_of_nonneg_left ?_ (Real.sqrt_nonneg _))
  rw [le_div_iff₀ hd, mul_comm]
  refine (normalF_coercive df dg hd _).trans (le_trans (le_of_eq ?_) ht)
  rw [normalF_sub, hX]
  rfl

/-- The relative residual certifies the solution of the normal equations. -/
theorem check_certifies (df : Spec I M N a) (dg : ℝ) (hd : 0 < dg) (b : Spec J M N a) (X : Coef J M N)
    (hX : normalF df dg (fun j m => rfft N a (part X j m)) = b) :
    Certifies (fun F => checkF df dg F b) X (frob (flat b) / dg) := by
  intro F
  refine ⟨rrsC_nonneg _ _, ?_, fun h => ?_⟩
  · simp only [checkF]
    rw [rrsC_eq_zero]
    constructor
    · intro h
      have h1 : normalF df dg (fun j m ξ => F j m ξ - rfft N a (part X j m) ξ) = fun _ _ _ => 0 := by
        rw [normalF_sub, hX]
        funext j m ξ
        exact sub_eq_zero.2 (h (j, m, ξ))
      have h2 := normalF_coercive df dg hd (fun j m ξ => F j m ξ - rfft N a (part X j m) ξ)
      rw [h1, (frob_eq_zero (flat fun _ _ _ => 0)).2 fun _ => rfl] at h2
      have h3 : frob (flat fun j m ξ => F j m ξ - rfft N a (part X j m) ξ) = 0 :=
        le_antisymm (by nlinarith [frob_nonneg (flat fun j m ξ => F j m ξ - rfft N a (part X j m) ξ)])
          (frob_nonneg _)
      intro j m
      funext ξ
      exact sub_eq_zero.1 ((frob_eq_zero _).1 h3 (j, m, ξ))
    · intro h i
      have : F = fun j m => rfft N a (part X j m) := funext fun j => funext fun m => h j m
      rw [this, hX]
  · refine (resid_bound df dg hd b F X hX _ (rrsC_resid _ _ h)).trans (le_of_eq ?_)
    simp only [checkF]
    ring

/-! ## Sparse coding -/

theorem xOf_check (q : COpts) (D : Dict c M Nd) (S : Signal c K N) (dg rho : ℝ) (hd : 0 < dg)
    (Y U : Coef K M N) (Xf : Spec K M N a) :
    normalF (setdict q S dg D Xf).Df dg (fun k m => rfft N a (part (xOf a D S dg rho Y U) k m)) =
      rhsConv rho Y U (setdict q S dg D Xf) := by
  funext k m ξ
  rw [normalF_apply]
  have h := freqSolve_spec (fun i n => rf (padD N D i n) ξ.1) dg hd
    (fun n => ∑ i, conj (rf (padD N D i n) ξ.1) * rf (S i k) ξ.1 + rho * rf (part (Y - U) k n) ξ.1) m
  have e : ∀ n, rfft N a (part (xOf a D S dg rho Y U) k n) ξ = freqSolve (fun i n => rf (padD N D i n) ξ.1) dg
      (fun n => ∑ i, conj (rf (padD N D i n) ξ.1) * rf (S i k) ξ.1 + rho * rf (part (Y - U) k n) ξ.1)
      none n := fun n => congrFun (rf_xOf (a := a) D S dg rho hd Y U k n) ξ.1
  simp only [e]
  exact h

/-- **C89.** `ConvBPDN` and the classes that share its X update, with `LinSolveCheck`: the value recorded
as `XSlvRelRes` is zero at the X update the code makes, and for any other way of computing the spectrum of
X it certifies the distance to the unique minimiser of the augmented Lagrangian. -/
theorem C89_convbpdn (hN : ∀ k, Nd k ≤ N k) (q : COpts) (D : Dict c M Nd) (S : Signal c K N) (rho : ℝ)
    (hr : 0 < rho) (Y U : Coef K M N) :
    (∀ (X : Coef K M N) (Xf : Spec K M N a),
      xrrsConv true rho rho Y U (xstep rho X Y U (setdict q S rho D Xf)).2 = some 0) ∧
    ∃ X : Coef K M N, IsUniqueMin (augConv D S rho (part Y) (part U)) Set.univ (part X) ∧
      ∃ v : Spec K M N a → ℝ, (∀ Xf, xrrsConv true rho rho Y U (setdict q S rho D Xf) = some (v Xf)) ∧
        ∃ b : Spec K M N a, (∀ Xf, rhsConv rho Y U (setdict q S rho D Xf) = b) ∧ Certifies v X (frob (flat b) / rho) := by
  have hc := check_certifies (dictF a D) rho hr (rhsConv rho Y U (setdict q S rho D fun _ _ _ => 0))
    (xOf a D S rho rho Y U) (xOf_check q D S rho rho hr Y U fun _ _ _ => 0)
  refine ⟨fun X Xf => ?_, xOf a D S rho rho Y U, ?_, _, fun Xf => rfl, _, fun Xf => rfl, hc⟩
  · have h := (hc (solveF rho rho Y U (setdict q S rho D Xf))).2.1.2 fun k m => by
      rw [solveF_coh ⟨Xf, rfl⟩, ← rf_xOf (a := a) D S rho rho hr Y U k m]
      rfl
    exact congrArg some h
  · rw [augConv_en]
    have := augEN_unique (a := a) hN D S 0 rho (by linarith) Y U
    rwa [zero_add] at this

/-- **C89.** The same for `ConvElasticNet`. -/
theorem C89_convelasticnet (hN : ∀ k, Nd k ≤ N k) (q : COpts) (D : Dict c M Nd) (S : Signal c K N)
    (mu rho : ℝ) (hm : 0 ≤ mu) (hr : 0 < rho) (Y U : Coef K M N) :
    (∀ (X : Coef K M N) (Xf : Spec K M N a),
      xrrsConv true (mu + rho) rho Y U (xstepEN mu rho X Y U (setdictEN q S mu rho D Xf)).2 = some 0) ∧
    ∃ X : Coef K M N, IsUniqueMin (augConvEN D S mu rho (part Y) (part U)) Set.univ (part X) ∧
      ∃ v : Spec K M N a → ℝ,
        (∀ Xf, xrrsConv true (mu + rho) rho Y U (setdictEN q S mu rho D Xf) = some (v Xf)) ∧
        ∃ b : Spec K M N a, (∀ Xf, rhsConv rho Y U (setdictEN q S mu rho D Xf) = b) ∧
          Certifies v X (frob (flat b) / (mu + rho)) := by
  have hd : 0 < mu + rho := by linarith
  have hc := check_certifies (dictF a D) (mu + rho) hd
    (rhsConv rho Y U (setdict q S (mu + rho) D fun _ _ _ => 0))
    (xOf a D S (mu + rho) rho Y U) (xOf_check q D S (mu + rho) rho hd Y U fun _ _ _ => 0)
  refine ⟨fun X Xf => ?_, xOf a D S (mu + rho) rho Y U, augEN_unique hN D S mu rho hd Y U, _,
    fun Xf => rfl, _, fun Xf => rfl, hc⟩
  have h := (hc (solveF (mu + rho) rho Y U (setdict q S (mu + rho) D Xf))).2.1.2 fun k m => by
    rw [solveF_coh ⟨Xf, rfl⟩, ← rf_xOf (a := a) D S (mu + rho) rho hd Y U k m]
    rfl
  exact congrArg some h

namespace Mod

variable {A : Type*} [Fintype A] {κ Nb : ℕ}

/-! ## Dictionary updates -/

theorem gen_check {Z : K → M → Grid N → ℝ} {r : ℝ} (hr : 0 < r) {T : Sig A K N} {V : Coef A M N}
    {F : A → M → Grid N → ℂ} (hF : Solves Z r T V F) :
    normalF (coefF a Z) r (fun i m => rfft N a (part (genX a F) i m)) =
      fun i m ξ => ∑ k, conj (rf (Z k m) ξ.1) * rf (part T i k) ξ.1 + r * rf (part V i m) ξ.1 := by
  funext i m ξ
  rw [normalF_apply]
  have e : ∀ n, rfft N a (part (genX a F) i n) ξ = F i n ξ.1 :=
    fun n => congrFun (rf_genX (a := a) hr hF i n) ξ.1
  simp only [e]
  exact hF i m ξ.1

theorem mod_check (S : A → Fin (κ + 1) → Grid N → ℝ) (Z : Fin (κ + 1) → M → Grid N → ℝ) (rho : ℝ)
    (hr : 0 < rho) (Y U : Coef A M N) (Xf : Spec A M N a) :
    normalF (coefF a Z) rho
      (fun i m => rfft N a (part (genX a (fullI Z rho (join S) (Y - U))) i m)) =
      rhsMod rho Y U (setcoef S Z Xf) := by
  refine (gen_check hr (fullI_solves Z hr (join S) (Y - U))).trans ?_
  funext i m ξ
  rfl

theorem mask_check (S : A → Fin (κ + 1) → Grid N → ℝ) (Z : Fin (κ + 1) → M → Grid N → ℝ)
    (Y U : YD A (Fin (κ + 1)) M N) :
    normalF (coefF a Z) 1 (fun i m =>
      rfft N a (part (genX a (fullI Z 1 (Y.fst - U.fst + join S) (Y.snd - U.snd))) i m)) =
      rhsMask a Z S Y U := by
  refine (gen_check one_pos (fullI_solves Z one_pos _ _)).trans ?_
  funext i m ξ
  rw [Complex.ofReal_one, one_mul]
  rfl

/-- **C89.** `ConvCnstrMOD_IterSM` with `LinSolveCheck`. -/
theorem C89_ccmod_ism (S : A → Fin (κ + 1) → Grid N → ℝ) (Z : Fin (κ + 1) → M → Grid N → ℝ) (rho : ℝ)
    (hr : 0 < rho) (Y U : Coef A M N) :
    (∀ (X : Coef A M N) (Xf : Spec A M N a),
      xrrsMod true rho Y U (xstepISM rho X Y U (setcoef S Z Xf)).2 = some 0) ∧
    ∃ X : Coef A M N, IsUniqueMin (augMod Z S rho (part Y) (part U)) Set.univ (part X) ∧
      ∃ v : Spec A M N a → ℝ, (∀ Xf, xrrsMod true rho Y U (setcoef S Z Xf) = some (v Xf)) ∧
        ∃ b : Spec A M N a, (∀ Xf, rhsMod rho Y U (setcoef S Z Xf) = b) ∧ Certifies v X (frob (flat b) / rho) := by
  have hc := check_certifies (coefF a Z) rho hr (rhsMod rho Y U (setcoef S Z fun _ _ _ => 0))
    (genX a (fullI Z rho (join S) (Y - U))) (mod_check S Z rho hr Y U fun _ _ _ => 0)
  refine ⟨fun X Xf => ?_, genX a (fullI Z rho (join S) (Y - U)),
    augMod_unique hr (gen_normal hr (fullI_solves Z hr (join S) (Y - U))), _, fun Xf => rfl, _,
    fun Xf => rfl, hc⟩
  have h := (hc (xstepISM rho X Y U (setcoef S Z Xf)).2.Xf).2.1.2 fun i m => by
    rw [xstepISM_Xf S Z hr, (xstepISM_eq S Z rho X Y U Xf).1]
  exact congrArg some h

/-- **C89.** `ConvCnstrMODMaskDcpl_IterSM` with `LinSolveCheck`. -/
theorem C89_ccmodmd_ism (S : A → Fin (κ + 1) → Grid N → ℝ) (Z : Fin (κ + 1) → M → Grid N → ℝ) (rho : ℝ)
    (hr : 0 < rho) (Y U : YD A (Fin (κ + 1)) M N) :
    (∀ (X : Coef A M N) (Xf : Spec A M N a),
      xrrsMask true Z S Y U (xstepMD Z S rho X Y U Xf).2 = some 0) ∧
    ∃ X : Coef A M N,
      IsUniqueMin (augModMask Z S rho (part Y.fst) (part U.fst) (part Y.snd) (part U.snd)) Set.univ (part X) ∧
      ∃ v : Spec A M N a → ℝ, (∀ Xf, xrrsMask true Z S Y U Xf = some (v Xf)) ∧
        Certifies v X (frob (flat (rhsMask a Z S Y U))) := by
  have hc := check_certifies (coefF a Z) 1 one_pos (rhsMask a Z S Y U)
    (genX a (fullI Z 1 (Y.fst - U.fst + join S) (Y.snd - U.snd))) (mask_check S Z Y U)
  rw [div_one] at hc
  refine ⟨fun X Xf => ?_, genX a (fullI Z 1 (Y.fst - U.fst + join S) (Y.snd - U.snd)),
    augModMask_unique hr (gen_normal one_pos (fullI_solves Z one_pos _ _)), _, fun Xf => rfl, hc⟩
  have h := (hc (xstepMD Z S rho X Y U Xf).2).2.1.2 fun i m => by
    rw [xstepMD_Xf Z S rho X Y U, (xstepMD_eq Z S rho X Y U Xf).1]
  exact congrArg some h

/-! ## Conjugate gradient -/

theorem cgOperator_zero (Zf : Spec K M N a) (rho : ℝ) :
    cgOperator Zf rho (0 : A × M × Half N a → ℂ) = 0 := by
  funext p
  change normalF Zf rho (unflat (0 : A × M × Half N a → ℂ)) p.1 p.2.1 p.2.2 = 0
  rw [normalF_apply]
  simp [unflat]

/-- What a successful call of conjugate gradient gives. -/
theorem cg_success {cg : Cg (A × M × Half N a)} (hcg : CgOk cg) (Zf : Spec K M N a) (rho : ℝ)
    (b : Spec A M N a) (tol : ℝ) (mit : ℕ) (hm : 0 < mit) (isn : Spec A M N a)
    (h : (solvemdbiCg cg Zf rho b tol mit isn).info = 0) :
    frob (fun i => flat (normalF Zf rho (unflat (solvemdbiCg cg Zf rho b tol mit isn).x)) i - flat b i) ≤
      tol * frob (flat b) := by
  have := hcg.success _ _ _ _ _ hm (cgOperator_zero Zf rho) h
  rw [frob_sub_comm] at this
  exact this

/-- **C89.** `ConvCnstrMOD_CG`: if conjugate gradient reports success, the recorded `XSlvRelRes` is at
most the tolerance, and X is as near as the tolerance says to the unique minimiser of the augmented
Lagrangian.  (The minimiser is the X of `ConvCnstrMOD_IterSM`.) -/
theorem C89_ccmod_cg (cg : Cg (A × M × Half N a)) (hcg : CgOk cg) (S : A → Fin (κ + 1) → Grid N → ℝ)
    (Z : Fin (κ + 1) → M → Grid N → ℝ) (rho : ℝ) (hr : 0 < rho) (tol : ℝ) (ht : 0 ≤ tol) (mit : ℕ)
    (hm : 0 < mit) (X Y U : Coef A M N) (Xf : Spec A M N a) :
    let r := xstepCG cg tol mit rho X Y U (setcoef S Z Xf)
    r.2.2 = 0 →
      (∃ v, xrrsMod true rho Y U r.2.1 = some v ∧ v ≤ tol) ∧
      ∃ Xs : Coef A M N, IsUniqueMin (augMod Z S rho (part Y) (part U)) Set.univ (part Xs) ∧
        ‖r.1 - Xs‖ ≤ Real.sqrt (2 / Fintype.card (Grid N)) *
          (tol * frob (flat (rhsMod rho Y U (setcoef S Z Xf))) / rho) := by
  intro r h
  have hs := cg_success hcg (coefF a Z) rho (rhsMod rho Y U (setcoef S Z Xf)) tol mit hm Xf h
  refine ⟨⟨_, rfl, rrsC_le _ _ _ ht hs⟩, genX a (fullI Z rho (join S) (Y - U)),
    augMod_unique hr (gen_normal hr (fullI_solves Z hr (join S) (Y - U))), ?_⟩
  exact resid_bound (coefF a Z) rho hr _ _ _ (mod_check S Z rho hr Y U Xf) _ hs

/-- **C89.** `ConvCnstrMODMaskDcpl_CG`. -/
theorem C89_ccmodmd_cg (cg : Cg (A × M × Half N a)) (hcg : CgOk cg) (S : A → Fin (κ + 1) → Grid N → ℝ)
    (Z : Fin (κ + 1) → M → Grid N → ℝ) (rho : ℝ) (hr : 0 < rho) (tol : ℝ) (ht : 0 ≤ tol) (mit : ℕ)
    (hm : 0 < mit) (X : Coef A M N) (Y U : YD A (Fin (κ + 1)) M N) (Xf : Spec A M N a) :
    let r := xstepMCG cg tol mit Z S rho X Y U Xf
    r.2.2 = 0 →
      (∃ v, xrrsMask true Z S Y U r.2.1 = some v ∧ v ≤ tol) ∧
      ∃ Xs : Coef A M N, IsUniqueMin (augModMask Z S rho (part Y.fst) (part U.fst) (part Y.snd) (part U.snd))
          Set.univ (part Xs) ∧
        ‖r.1 - Xs‖ ≤ Real.sqrt (2 / Fintype.card (Grid N)) * (tol * frob (flat (rhsMask a Z S Y U))) := by
  intro r h
  have hs := cg_success hcg (coefF a Z) 1 (rhsMask a Z S Y U) tol mit hm Xf h
  refine ⟨⟨_, rfl, rrsC_le _ _ _ ht hs⟩, genX a (fullI Z 1 (Y.fst - U.fst + join S) (Y.snd - U.snd)),
    augModMask_unique hr (gen_normal one_pos (fullI_solves Z one_pos _ _)), ?_⟩
  have := resid_bound (coefF a Z) 1 one_pos _ _ _ (mask_check S Z Y U) _ hs
  rwa [div_one] at this

/-- **C89 is false of the iteration count.** The value recorded as `XSlvCGIt`, documented as the number of
conjugate gradient iterations, is zero whenever conjugate gradient reaches the tolerance, also when it had
to iterate: for every routine that behaves as SciPy documents, if the starting spectrum misses the
tolerance and the update ends with value zero, iterations were made. -/
theorem C89_cgit_refuted (cg : Cg (A × M × Half N a)) (hcg : CgOk cg) (S : A → K → Grid N → ℝ)
    (Z : K → M → Grid N → ℝ) (rho tol : ℝ) (mit : ℕ) (hm : 0 < mit) (X Y U : Coef A M N)
    (Xf : Spec A M N a)
    (hstart : tol * frob (flat (rhsMod rho Y U (setcoef S Z Xf))) <
      frob (fun i => flat (normalF (coefF a Z) rho Xf) i - flat (rhsMod rho Y U (setcoef S Z Xf)) i))
    (hb : ∃ i m ξ, rhsMod rho Y U (setcoef S Z Xf) i m ξ ≠ 0)
    (hok : (xstepCG cg tol mit rho X Y U (setcoef S Z Xf)).2.2 = 0) :
    (xstepCG cg tol mit rho X Y U (setcoef S Z Xf)).2.2 <
      (solvemdbiCg cg (setcoef S Z Xf).Zf rho (rhsMod rho Y U (setcoef S Z Xf)) tol mit Xf).iters := by
  rw [hok]
  refine Nat.pos_of_ne_zero fun h0 => ?_
  have hs := cg_success hcg (coefF a Z) rho (rhsMod rho Y U (setcoef S Z Xf)) tol mit hm Xf hok
  rcases hcg.start _ _ _ _ _ h0 with h1 | h1
  · have h2 : unflat (solvemdbiCg cg (coefF a Z) rho (rhsMod rho Y U (setcoef S Z Xf)) tol mit Xf).x = Xf := by
      funext i m ξ
      exact congrFun h1 (i, m, ξ)
    rw [h2] at hs
    exact absurd hs (not_le.2 hstart)
  · obtain ⟨i, m, ξ, hne⟩ := hb
    exact hne (congrFun h1.1 (i, m, ξ))

open Classical in
/-- A routine that behaves as documented: one exact step if the start is not good enough. -/
noncomputable def cgExact {ι : Type*} [Fintype ι] : Cg ι := fun op b x0 tol mit =>
  if frob (fun i => b i - op x0 i) ≤ tol * frob b then ⟨x0, 0, 0⟩
  else if h : (∃ x, op x = b) ∧ 0 < mit ∧ 0 ≤ tol then ⟨h.1.choose, 0, 1⟩
  else ⟨x0, mit, mit⟩

theorem cgExact_ok {ι : Type*} [Fintype ι] : CgOk (cgExact (ι := ι)) := by
  constructor
  · intro op b x0 tol mit hm h0 h
    unfold cgExact at h ⊢
    by_cases h1 : frob (fun i => b i - op x0 i) ≤ tol * frob b
    · rw [if_pos h1]; exact h1
    · rw [if_neg h1] at h ⊢
      by_cases h2 : (∃ x, op x = b) ∧ 0 < mit ∧ 0 ≤ tol
      · rw [dif_pos h2]
        simp only [h2.1.choose_spec, sub_self]
        rw [(frob_eq_zero _).2 fun _ => rfl]
        exact mul_nonneg h2.2.2 (frob_nonneg _)
      · rw [dif_neg h2] at h
        exact absurd h hm.ne'
  all_goals
    intro op b x0 tol mit
    unfold cgExact
    by_cases h1 : frob (fun i => b i - op x0 i) ≤ tol * frob b
    · rw [if_pos h1]; try simp
    · rw [if_neg h1]
      by_cases h2 : (∃ x, op x = b) ∧ 0 < mit ∧ 0 ≤ tol
      · rw [dif_pos h2]
        first
          | exact h2.2.1
          | simp
      · rw [dif_neg h2]; try simp

/-! ## `ConvCnstrMOD_Consensus` -/

theorem block_check (S : A → Fin Nb → Grid N → ℝ) (Z : Fin Nb → M → Grid N → ℝ) (rho : ℝ) (hr : 0 < rho)
    (X : Blocks (Coef A M N) Nb) (Y : Coef A M N) (U : Blocks (Coef A M N) Nb)
    (Xf : Fin Nb → Spec A M N a) (k : Fin Nb) (i : A) (m : M) (ξ : Half N a) :
    let h := (xstepC rho X Y U (setcoefC S Z Xf)).2
    conj (h.Zf k m ξ) * Linalg.inner (fun n => h.Zf k n ξ) (fun n => h.Xf k i n ξ) + rho * h.Xf k i m ξ =
      h.ZSf k i m ξ + rho * rf (part (Y - U k) i m) ξ.1 :=
  sm_spec (fun n => coefF a Z k n ξ) rho hr _ m

/-- **C89.** `ConvCnstrMOD_Consensus` with `LinSolveCheck`: the recorded value is zero at the X update
the code makes. -/
theorem C89_ccmod_cns (S : A → Fin Nb → Grid N → ℝ) (Z : Fin Nb → M → Grid N → ℝ) (rho : ℝ)
    (hr : 0 < rho) (X : Blocks (Coef A M N) Nb) (Y : Coef A M N) (U : Blocks (Coef A M N) Nb)
    (Xf : Fin Nb → Spec A M N a) :
    xrrsCns true rho Y U (xstepC rho X Y U (setcoefC S Z Xf)).2 = some 0 := by
  unfold xrrsCns
  simp only [if_true]
  congr 1
  rw [rrsC_eq_zero]
  rintro ⟨i, m, ξ⟩
  change (∑ k, _) = (∑ k, _) + (rho : ℂ) * rf (fun p => ∑ k, part (Y - U k) i m p) ξ.1
  rw [rf_sum, mul_sum, ← sum_add_distrib]
  exact sum_congr rfl fun k _ => block_check S Z rho hr X Y U Xf k i m ξ

/-- **C89 is false of the consensus class.** The check compares sums over the blocks.  With the same
coefficient maps for two signals, adding any array to one block and subtracting it from the other leaves the
recorded value at zero, although neither block is the minimiser of its part of the augmented Lagrangian. -/
theorem C89_consensus_check_refuted (S : A → Fin 2 → Grid N → ℝ) (z : M → Grid N → ℝ) (rho : ℝ)
    (hr : 0 < rho) (Y : Coef A M N) (U : Blocks (Coef A M N) 2) (E : Coef A M N) (hE : E ≠ 0) :
    ∃ X : Fin 2 → Coef A M N,
      xrrsCns true rho Y U (setcoefC S (fun _ => z) fun k i m => rfft N a (part (X k) i m)) = some 0 ∧
      ∀ k, ¬ IsUniqueMin (augMod (one (fun _ => z) k) (oneS S k) rho (part Y) (part (U k))) Set.univ
        (part (X k)) := by
  set Xf0 : Fin 2 → Spec A M N a := fun _ _ _ _ => 0
  set x := xstepC rho 0 Y U (setcoefC S (fun _ => z) Xf0) with hx
  have hxf : ∀ k i m, x.2.Xf k i m = rfft N a (part (x.1 k) i m) := fun k i m =>
    xstepC_Xf S (fun _ => z) hr 0 Y U Xf0 k i m
  refine ⟨![x.1 0 + E, x.1 1 - E], ?_, ?_⟩
  · unfold xrrsCns
    simp only [if_true]
    congr 1
    rw [rrsC_eq_zero]
    rintro ⟨i, m, ξ⟩
    have h0 := block_check (a := a) S (fun _ => z) rho hr 0 Y U Xf0 0 i m ξ
    have h1 := block_check (a := a) S (fun _ => z) rho hr 0 Y U Xf0 1 i m ξ
    have hz : ∀ k m ξ, x.2.Zf k m ξ = rfft N a (z m) ξ := fun _ _ _ => rfl
    have hzs : ∀ k i m ξ, x.2.ZSf k i m ξ = conj (rfft N a (z m) ξ) * rfft N a (S i k) ξ := fun _ _ _ _ => rfl
    have hz' : ∀ (k : Fin 2) m (ξ : Half N a), coefF a (fun _ : Fin 2 => z) k m ξ = rfft N a (z m) ξ :=
      fun _ _ _ => rfl
    simp only [← hx, hxf, Linalg.inner, hz, hzs] at h0 h1
    change (∑ k : Fin 2, _) = (∑ k : Fin 2, _) + (rho : ℂ) * rf (fun p => ∑ k : Fin 2, part (Y - U k) i m p) ξ.1
    rw [rf_sum, Fin.sum_univ_two, Fin.sum_univ_two, Fin.sum_univ_two]
    have ea : ∀ n, rfft N a (part (x.1 0 + E) i n) ξ =
        rfft N a (part (x.1 0) i n) ξ + rfft N a (part E i n) ξ := fun n => rf_add _ _ _
    have es : ∀ n, rfft N a (part (x.1 1 - E) i n) ξ =
        rfft N a (part (x.1 1) i n) ξ - rfft N a (part E i n) ξ := fun n => rf_sub _ _ _
    simp only [setcoefC, hz', Matrix.cons_val_zero, Matrix.cons_val_one, ea, es, Linalg.inner, mul_add,
      mul_sub, sum_add_distrib, sum_sub_distrib]
    linear_combination h0 + h1
  · have hu : ∀ k, ∀ w : Coef A M N, w ≠ 0 →
        ¬ IsUniqueMin (augMod (one (fun _ => z) k) (oneS S k) rho (part Y) (part (U k))) Set.univ
          (part (x.1 k + w)) := by
      intro k w hw hm
      have hm0 := C40_ccmod_cns (a := a) S (fun _ => z) rho hr 0 Y U Xf0 k
      have hne : part (x.1 k + w) ≠ part (x.1 k) := by
        intro he
        apply hw
        have : x.1 k + w = x.1 k := by rw [← join_part (x.1 k + w), he, join_part]
        exact left_eq_add.1 this.symm
      exact absurd (hm.2 _ trivial hne.symm) (not_lt.2 (hm0.2 _ trivial hne).le)
    intro k
    fin_cases k
    · exact hu 0 E hE
    · have := hu 1 (-E) (neg_ne_zero.2 hE)
      rwa [← sub_eq_add_neg] at this

/-! ## A concrete case -/

/-- With tolerance below one, starting from zero, the routine `cgExact` makes one iteration at every
solvable system with a right hand side that is not zero and reports success. -/
theorem cgExact_run (Zf : Spec K M N a) (rho tol : ℝ) (ht : 0 ≤ tol) (ht1 : tol < 1) (mit : ℕ) (hm : 0 < mit)
    (b : Spec A M N a) (hb : ∃ i m ξ, b i m ξ ≠ 0) (hx : ∃ F : Spec A M N a, normalF Zf rho F = b) :
    (tol * frob (flat b) < frob (fun i => flat (normalF Zf rho fun _ _ _ => 0) i - flat b i)) ∧
    (solvemdbiCg cgExact Zf rho b tol mit fun _ _ _ => 0).info = 0 ∧
    (solvemdbiCg cgExact Zf rho b tol mit fun _ _ _ => 0).iters = 1 := by
  have hp : 0 < frob (flat b) := by
    refine lt_of_le_of_ne (frob_nonneg _) fun h => ?_
    obtain ⟨i, m, ξ, hne⟩ := hb
    exact hne ((frob_eq_zero _).1 h.symm (i, m, ξ))
  have h0 : ∀ i, flat (normalF (J := A) Zf rho fun _ _ _ => 0) i = 0 := fun i =>
    congrFun (cgOperator_zero (A := A) Zf rho) i
  have h1 : tol * frob (flat b) < frob (fun i => flat (normalF Zf rho fun _ _ _ => 0) i - flat b i) := by
    have e : frob (fun i => flat (normalF Zf rho fun _ _ _ => 0) i - flat b i) = frob (flat b) := by
      rw [frob_sub_comm]
      simp only [h0, sub_zero]
    rw [e]
    nlinarith
  refine ⟨h1, ?_⟩
  have h2 : ¬ frob (fun i => flat b i -
      cgOperator Zf rho (flat fun (_ : A) (_ : M) (_ : Half N a) => (0 : ℂ)) i) ≤ tol * frob (flat b) := by
    rw [frob_sub_comm]
    exact not_le.2 h1
  have h3 : (∃ x, cgOperator Zf rho x = flat b) ∧ 0 < mit ∧ 0 ≤ tol := by
    obtain ⟨F, hF⟩ := hx
    exact ⟨⟨flat F, congrArg flat hF⟩, hm, ht⟩
  unfold solvemdbiCg cgExact
  rw [if_neg h2, dif_pos h3]
  exact ⟨rfl, rfl⟩

/-- A right hand side that is not zero: one image of any size, two filters, Y constant. -/
theorem rhs_example : rhsMod (K := Fin 1) (A := Unit) (M := Fin 2) (a := a) (N := N) 1 (join fun _ _ _ => 1) 0
    (setcoef (fun _ _ _ => 0) (fun _ _ _ => 1) fun _ _ _ => 0) () 0 ⟨0, by simp⟩ ≠ 0 := by
  have h0 : rf (fun _ : Grid N => (0 : ℝ)) 0 = 0 := by simp [rf, fft]
  have h1 : rf (fun _ : Grid N => (1 : ℝ)) 0 = Fintype.card (Grid N) := by
    simp [rf, fft, chi]
  change (∑ k : Fin 1, _ * rf (fun _ : Grid N => (0 : ℝ)) 0) + ((1 : ℝ) : ℂ) *
    rf (part (join (fun _ _ _ => 1) - 0 : Coef Unit (Fin 2) N) () 0) 0 ≠ 0
  rw [sub_zero, part_join, h1, h0]
  simp only [mul_zero, sum_const_zero, zero_add, Complex.ofReal_one, one_mul]
  exact Nat.cast_ne_zero.2 Fintype.card_ne_zero

/-- The hypotheses of `C89_cgit_refuted` hold, and one iteration is recorded as none. -/
example : ∃ (S : Unit → Fin 1 → Grid N → ℝ) (Z : Fin 1 → Fin 2 → Grid N → ℝ) (Y U : Coef Unit (Fin 2) N),
    (∃ i m ξ, rhsMod 1 Y U (setcoef (a := a) S Z fun _ _ _ => 0) i m ξ ≠ 0) ∧
    (solvemdbiCg cgExact (coefF a Z) 1 (rhsMod 1 Y U (setcoef (a := a) S Z fun _ _ _ => 0)) (1 / 1000) 1000
      fun _ _ _ => 0).info = 0 ∧
    (solvemdbiCg cgExact (coefF a Z) 1 (rhsMod 1 Y U (setcoef (a := a) S Z fun _ _ _ => 0)) (1 / 1000) 1000
      fun _ _ _ => 0).iters = 1 := by
  refine ⟨fun _ _ _ => 0, fun _ _ _ => 1, join fun _ _ _ => 1, 0, ⟨_, _, _, rhs_example⟩, ?_⟩
  exact (cgExact_run _ 1 _ (by norm_num) (by norm_num) 1000 (by norm_num) _ ⟨_, _, _, rhs_example⟩
    ⟨_, mod_check _ _ 1 one_pos _ _ _⟩).2

end Mod
end Sporco.Conv
