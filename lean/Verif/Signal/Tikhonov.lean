import Verif.Conv.Freq

/-!
# Tikhonov filter and gradient filters (C30)

`signal.py` 204-240 (`gradient_filters`) and 244-301 (`tikhonov_filter`). Images have two leading
axes; further axes are the index type `ι`.
-/

set_option autoImplicit false

namespace Sporco.Signal

open Finset ComplexConjugate Sporco.Conv

variable {d : ℕ}

/-! ## Model -/

/-- The array `[-1.0, 1.0]` reshaped to have length two on axis `a` and one on the others
(`signal.py` 287-288). -/
def gradV (a : Fin d) : NArr (fun k => if k = a then 2 else 1) ℝ :=
  fun i => if (i a).val = 0 then -1 else 1

/-- `s.shape[k] + 2*npd` -/
def padShape (n : Fin d → ℕ) (npd : ℕ) (k : Fin d) : ℕ := n k + 2 * npd

instance (n : Fin d → ℕ) [∀ k, NeZero (n k)] (npd : ℕ) (k : Fin d) : NeZero (padShape n npd k) :=
  ⟨by have := NeZero.ne (n k); unfold padShape; omega⟩

/-- Index computation of `np.pad(..., 'symmetric')`: position `i`, counted from the start of the
array, in the array of length `n` continued by reflections that repeat the edge entries. -/
def reflect (n : ℕ) [NeZero n] (i : ℤ) : Fin n :=
  if h : (i % (2 * n)).toNat < n then ⟨(i % (2 * n)).toNat, h⟩
  else ⟨2 * n - 1 - (i % (2 * n)).toNat, by have := NeZero.pos n; omega⟩

/-- `np.pad(s, ((npd, npd),)*2, 'symmetric')` (`signal.py` 294) -/
def symPad {R : Type*} {n : Fin d → ℕ} [∀ k, NeZero (n k)] (npd : ℕ) (s : NArr n R)
    (p : Grid (padShape n npd)) : R := s fun k => reflect (n k) ((p k).val - npd)

/-- `1.0 + lmbda * (np.conj(Gr)*Gr + np.conj(Gc)*Gc).real` (`signal.py` 291) -/
noncomputable def tikA (lmbda : ℝ) (Gr Gc : ℂ) : ℝ := 1 + lmbda * (conj Gr * Gr + conj Gc * Gc).re

/-- `sp[npd:(sp.shape[0] - npd), npd:(sp.shape[1] - npd)]` (`signal.py` 299) -/
def crop {R : Type*} {n : Fin d → ℕ} (npd : ℕ) (x : Grid (padShape n npd) → R) : NArr n R :=
  fun i => x fun k => ((npd + (i k).val : ℕ) : ZMod (padShape n npd k))

/-- `tikhonov_filter` of real images (`signal.py` 281-301), in exact arithmetic. -/
noncomputable def tikhonovR {ι : Type*} {n : Fin 2 → ℕ} [∀ k, NeZero (n k)] (s : ι → NArr n ℝ)
    (lmbda : ℝ) (npd : ℕ) : (ι → NArr n ℝ) × (ι → NArr n ℝ) :=
  let N := padShape n npd
  let Gr := rfft N 1 (pad N (gradV 0))
  let Gc := rfft N 1 (pad N (gradV 1))
  let sp := fun i => irfft N 1 fun ξ => rfft N 1 (symPad npd (s i)) ξ / tikA lmbda (Gr ξ) (Gc ξ)
  let slp := fun i => crop npd (sp i)
  (slp, fun i x => s i x - slp i x)

/-- `tikhonov_filter` of complex images (`signal.py` 281-301), in exact arithmetic. -/
noncomputable def tikhonovC {ι : Type*} {n : Fin 2 → ℕ} [∀ k, NeZero (n k)] (s : ι → NArr n ℂ)
    (lmbda : ℝ) (npd : ℕ) : (ι → NArr n ℂ) × (ι → NArr n ℂ) :=
  let N := padShape n npd
  let Gr := fft N (pad N fun i => (gradV 0 i : ℂ))
  let Gc := fft N (pad N fun i => (gradV 1 i : ℂ))
  let sp := fun i => ifft N fun ξ => fft N (symPad npd (s i)) ξ / tikA lmbda (Gr ξ) (Gc ξ)
  let slp := fun i => crop npd (sp i)
  (slp, fun i x => s i x - slp i x)

/-! ## Specification -/

/-- `sp` is `s` extended by `npd` entries on each side by even reflections: along each axis the
entry with coordinate `t` relative to the start of `s` is entry `i` of `s` if `t` is `i` or the
mirror image `-1 - i`, up to multiples of twice the length. -/
def IsSymPad {R : Type*} {n : Fin d → ℕ} [∀ k, NeZero (n k)] (npd : ℕ) (s : NArr n R)
    (sp : Grid (padShape n npd) → R) : Prop :=
  ∀ (p : Grid (padShape n npd)) (i : (k : Fin d) → Fin (n k)),
    (∀ k, ((p k).val : ℤ) - npd ≡ (i k).val [ZMOD 2 * n k] ∨
      ((p k).val : ℤ) - npd ≡ -1 - (i k).val [ZMOD 2 * n k]) → sp p = s i

variable {N : Fin d → ℕ} [∀ k, NeZero (N k)]

/-- The documented functional on a periodic image, with forward differences:
`(1/2) ‖x - s‖² + (λ/2) ∑ₐ ‖Gₐ x‖²`. -/
noncomputable def tikFn {R : Type*} [NormedAddCommGroup R] (lmbda : ℝ) (s x : Grid N → R) : ℝ :=
  1 / 2 * ∑ p, ‖x p - s p‖ ^ 2 +
    lmbda / 2 * ∑ a, ∑ p, ‖x (p + Pi.single a 1) - x p‖ ^ 2

/-! ## Proofs -/

theorem reflect_spec (n : ℕ) [NeZero n] (t : ℤ) (i : Fin n)
    (h : t ≡ i.val [ZMOD 2 * n] ∨ t ≡ -1 - i.val [ZMOD 2 * n]) : reflect n t = i := by
  have hn := NeZero.pos n
  have hi := i.2
  apply Fin.ext
  unfold reflect
  rcases h with h | h
  · have h1 : t % (2 * n) = i.val := by
      have h2 : (i.val : ℤ) % (2 * n) = i.val := Int.emod_eq_of_lt (by omega) (by omega)
      rw [← h2]; exact h
    simp only [h1]
    split <;> simp at * <;> omega
  · have h1 : t % (2 * n) = 2 * n - 1 - i.val := by
      have h2 : (-1 - i.val : ℤ) % (2 * n) = 2 * n - 1 - i.val := by
        rw [← Int.add_emod_right, Int.emod_eq_of_lt (by omega) (by omega)]
        ring
      rw [← h2]; exact h
    simp only [h1]
    split <;> simp at * <;> omega

theorem symPad_spec {R : Type*} {n : Fin d → ℕ} [∀ k, NeZero (n k)] (npd : ℕ) (s : NArr n R) :
    IsSymPad npd s (symPad npd s) := by
  intro p i h
  unfold symPad
  congr 1
  funext k
  exact reflect_spec (n k) _ (i k) (h k)

theorem reflect_total (n : ℕ) [NeZero n] (t : ℤ) :
    t ≡ (reflect n t).val [ZMOD 2 * n] ∨ t ≡ -1 - (reflect n t).val [ZMOD 2 * n] := by
  have hn := NeZero.pos n
  have h0 := Int.emod_nonneg t (b := 2 * n) (by omega)
  have h1 := Int.emod_lt_of_pos t (b := 2 * n) (by omega)
  unfold reflect
  split
  · left
    show t % _ = _ % _
    simp only
    rw [Int.toNat_of_nonneg h0, Int.emod_emod_of_dvd _ dvd_rfl]
  · rename_i h
    right
    have h2 : ((2 * n - 1 - (t % (2 * n)).toNat : ℕ) : ℤ) = 2 * n - 1 - t % (2 * n) := by omega
    show t % _ = _ % _
    simp only
    rw [h2, show (-1 - (2 * n - 1 - t % (2 * n)) : ℤ) = t % (2 * n) - 2 * n by ring,
      Int.sub_emod_right, Int.emod_emod_of_dvd _ dvd_rfl]

/-- The padded image is determined by its specification. -/
theorem isSymPad_eq {R : Type*} {n : Fin d → ℕ} [∀ k, NeZero (n k)] (npd : ℕ) (s : NArr n R)
    (sp : Grid (padShape n npd) → R) (h : IsSymPad npd s sp) : sp = symPad npd s := by
  funext p
  rw [h p (fun k => reflect (n k) ((p k).val - npd)) fun k => reflect_total _ _]
  rfl

/-- Unit step along axis `a`. -/
def unit (N : Fin d → ℕ) (a : Fin d) : Grid N := Pi.single a 1

theorem pad_gradV (a : Fin d) (ha : 2 ≤ N a) (y : Grid N) :
    pad N (gradV a) y = if y = 0 then -1 else if y = unit N a then 1 else 0 := by
  have hf : Fact (1 < N a) := ⟨ha⟩
  have h1 : (1 : ZMod (N a)).val = 1 := ZMod.val_one _
  unfold pad
  by_cases hy : ∀ k, (y k).val < if k = a then 2 else 1
  · rw [dif_pos hy]
    have hk : ∀ k, k ≠ a → y k = 0 := fun k hk => by
      have := hy k
      rw [if_neg hk] at this
      exact (ZMod.val_eq_zero _).1 (by omega)
    have hya := hy a
    rw [if_pos rfl] at hya
    simp only [gradV]
    by_cases h0 : (y a).val = 0
    · have : y = 0 := by
        funext k
        by_cases hka : k = a
        · subst hka; exact (ZMod.val_eq_zero _).1 h0
        · exact hk k hka
      rw [if_pos h0, if_pos this]
    · have hy1 : y a = 1 := ZMod.val_injective _ (by rw [h1]; omega)
      have : y = unit N a := by
        funext k
        by_cases hka : k = a
        · subst hka; rw [unit, Pi.single_eq_same]; exact hy1
        · rw [unit, Pi.single_eq_of_ne hka]; exact hk k hka
      rw [if_neg h0, if_neg, if_pos this]
      intro h; apply h0; rw [h]; simp
  · rw [dif_neg hy, if_neg, if_neg]
    · rintro rfl
      apply hy
      intro k
      by_cases hka : k = a
      · subst hka; rw [unit, Pi.single_eq_same, if_pos rfl, h1]; omega
      · rw [unit, Pi.single_eq_of_ne hka, if_neg hka]; simp
    · rintro rfl
      apply hy
      intro k
      simp only [Pi.zero_apply, ZMod.val_zero]
      split <;> omega

theorem unit_ne (a : Fin d) (ha : 2 ≤ N a) : unit N a ≠ 0 := by
  have hf : Fact (1 < N a) := ⟨ha⟩
  intro h
  have := congrFun h a
  rw [unit, Pi.single_eq_same] at this
  exact one_ne_zero this

theorem fft_gradV (a : Fin d) (ha : 2 ≤ N a) (ξ : Grid N) :
    fft N (fun y => ((pad N (gradV a) y : ℝ) : ℂ)) ξ = -1 + conj (chi N ξ (unit N a)) := by
  unfold fft
  simp only [pad_gradV a ha]
  have e : ∀ y : Grid N, conj (chi N ξ y) *
      ((if y = 0 then -1 else if y = unit N a then 1 else 0 : ℝ) : ℂ) =
      (if y = 0 then -conj (chi N ξ y) else 0) + if y = unit N a then conj (chi N ξ y) else 0 := by
    intro y
    by_cases h0 : y = 0
    · subst h0
      rw [if_pos rfl, if_pos rfl, if_neg (unit_ne a ha).symm]
      push_cast; ring
    · rw [if_neg h0, if_neg h0]
      split <;> simp
  simp only [e]
  rw [sum_add_distrib, sum_ite_eq' univ, sum_ite_eq' univ, if_pos (mem_univ _),
    if_pos (mem_univ _), chi_zero]
  simp

theorem fft_shift (X : Grid N → ℂ) (e ξ : Grid N) :
    fft N (fun p => X (p + e)) ξ = chi N ξ e * fft N X ξ := by
  unfold fft
  rw [mul_sum, ← Equiv.sum_comp (Equiv.addRight e) fun x => chi N ξ e * (conj (chi N ξ x) * X x)]
  refine sum_congr rfl fun p _ => ?_
  simp only [Equiv.coe_addRight]
  rw [chi_add, map_mul]
  linear_combination (-(conj (chi N ξ p)) * X (p + e)) * (chi_conj_mul ξ e)

/-- Squared norm of a difference in the frequency domain. -/
theorem grad_parseval (a : Fin d) (ha : 2 ≤ N a) (X : Grid N → ℂ) :
    ∑ p, ‖X (p + Pi.single a 1) - X p‖ ^ 2 =
      (∑ ξ, ‖fft N (fun y => ((pad N (gradV a) y : ℝ) : ℂ)) ξ‖ ^ 2 * ‖fft N X ξ‖ ^ 2) /
        Fintype.card (Grid N) := by
  change ∑ p, ‖X (p + unit N a) - X p‖ ^ 2 = _
  rw [parseval fun p => X (p + unit N a) - X p]
  congr 1
  refine sum_congr rfl fun ξ _ => ?_
  rw [fft_sub (fun p => X (p + unit N a)) X, fft_shift, fft_gradV a ha, ← mul_pow, ← norm_mul]
  have : (-1 + conj (chi N ξ (unit N a))) * fft N X ξ =
      -(conj (chi N ξ (unit N a)) * (chi N ξ (unit N a) * fft N X ξ - fft N X ξ)) := by
    linear_combination (fft N X ξ) * (chi_conj_mul ξ (unit N a))
  rw [this, norm_neg, norm_mul]
  have h1 : ‖conj (chi N ξ (unit N a))‖ = 1 := by
    have h := congrArg norm (chi_conj_mul ξ (unit N a))
    rw [norm_mul, RCLike.norm_conj, norm_one, ← sq] at h
    rw [RCLike.norm_conj]
    nlinarith [norm_nonneg (chi N ξ (unit N a))]
  rw [h1, one_mul]

/-- The weight of the code at a frequency. -/
noncomputable def wgt (N : Fin 2 → ℕ) [∀ k, NeZero (N k)] (lmbda : ℝ) (ξ : Grid N) : ℝ :=
  tikA lmbda (fft N (fun y => ((pad N (gradV 0) y : ℝ) : ℂ)) ξ)
    (fft N (fun y => ((pad N (gradV 1) y : ℝ) : ℂ)) ξ)

theorem tikA_eq (lmbda : ℝ) (G H : ℂ) : tikA lmbda G H = 1 + lmbda * (‖G‖ ^ 2 + ‖H‖ ^ 2) := by
  unfold tikA
  have e : ∀ z : ℂ, conj z * z = ((‖z‖ ^ 2 : ℝ) : ℂ) := by
    intro z; rw [mul_comm, Complex.mul_conj, Complex.normSq_eq_norm_sq]
  rw [e, e, ← Complex.ofReal_add, Complex.ofReal_re]

variable {N : Fin 2 → ℕ} [∀ k, NeZero (N k)]

theorem one_le_wgt (lmbda : ℝ) (hl : 0 ≤ lmbda) (ξ : Grid N) : 1 ≤ wgt N lmbda ξ := by
  unfold wgt
  rw [tikA_eq]
  have := mul_nonneg hl (add_nonneg
    (sq_nonneg ‖fft N (fun y => ((pad N (gradV 0) y : ℝ) : ℂ)) ξ‖)
    (sq_nonneg ‖fft N (fun y => ((pad N (gradV 1) y : ℝ) : ℂ)) ξ‖))
  linarith

theorem tikFn_freq (hN : ∀ k, 2 ≤ N k) (lmbda : ℝ) (s x : Grid N → ℂ) :
    tikFn lmbda s x = (∑ ξ, 1 / 2 * (‖fft N x ξ - fft N s ξ‖ ^ 2 +
      (wgt N lmbda ξ - 1) * ‖fft N x ξ‖ ^ 2)) / Fintype.card (Grid N) := by
  unfold tikFn
  rw [parseval fun p => x p - s p, Fin.sum_univ_two, grad_parseval 0 (hN 0),
    grad_parseval 1 (hN 1), ← add_div, ← mul_div_assoc, ← mul_div_assoc, ← add_div,
    ← sum_add_distrib, mul_sum, mul_sum, ← sum_add_distrib]
  congr 1
  refine sum_congr rfl fun ξ _ => ?_
  rw [fft_sub, wgt, tikA_eq]
  ring

/-- One frequency: completing the square. -/
theorem freq_excess (A : ℝ) (hA : 1 ≤ A) (s x : ℂ) :
    ‖s / A - s‖ ^ 2 + (A - 1) * ‖s / A‖ ^ 2 + ‖x - s / A‖ ^ 2 ≤ ‖x - s‖ ^ 2 + (A - 1) * ‖x‖ ^ 2 := by
  have hA0 : (A : ℂ) ≠ 0 := by
    have : A ≠ 0 := by linarith
    exact_mod_cast this
  obtain ⟨z, hz⟩ : ∃ z : ℂ, z = s / A := ⟨_, rfl⟩
  have hs : s = A * z := by rw [hz]; field_simp
  rw [← hz, hs]
  simp only [← Complex.normSq_eq_norm_sq, Complex.normSq_apply]
  simp only [Complex.sub_re, Complex.sub_im, Complex.mul_re, Complex.mul_im, Complex.ofReal_re,
    Complex.ofReal_im]
  nlinarith [mul_nonneg (sub_nonneg.2 hA) (sq_nonneg (x.re - z.re)),
    mul_nonneg (sub_nonneg.2 hA) (sq_nonneg (x.im - z.im))]

theorem tikFn_excess (hN : ∀ k, 2 ≤ N k) (lmbda : ℝ) (hl : 0 ≤ lmbda) (s z : Grid N → ℂ)
    (hz : ∀ ξ, fft N z ξ = fft N s ξ / wgt N lmbda ξ) (x : Grid N → ℂ) :
    tikFn lmbda s z + 1 / 2 * ∑ p, ‖x p - z p‖ ^ 2 ≤ tikFn lmbda s x := by
  rw [tikFn_freq hN, tikFn_freq hN, parseval fun p => x p - z p, ← mul_div_assoc, ← add_div,
    mul_sum, ← sum_add_distrib]
  refine div_le_div_of_nonneg_right (sum_le_sum fun ξ _ => ?_) (Nat.cast_nonneg _)
  rw [fft_sub, hz ξ]
  have := freq_excess (wgt N lmbda ξ) (one_le_wgt lmbda hl ξ) (fft N s ξ) (fft N x ξ)
  linarith

theorem unique_of_excess {R : Type*} [NormedAddCommGroup R] {F : (Grid N → R) → ℝ} {z : Grid N → R}
    (h : ∀ x, F z + 1 / 2 * ∑ p, ‖x p - z p‖ ^ 2 ≤ F x) (x : Grid N → R) (hx : x ≠ z) :
    F z < F x := by
  refine lt_of_lt_of_le ?_ (h x)
  obtain ⟨p, hp⟩ := Function.ne_iff.1 hx
  have : 0 < ∑ p, ‖x p - z p‖ ^ 2 :=
    sum_pos' (fun _ _ => sq_nonneg _)
      ⟨p, mem_univ _, pow_pos (norm_pos_iff.2 (sub_ne_zero.2 hp)) 2⟩
  linarith

/-- **C30, complex images.** The outputs sum to the input, and the lowpass output is the central
part of the unique minimiser of the documented functional for the padded periodic image. The
gradient filter needs padded axes with at least two samples (`C30_refuted`). -/
theorem C30_complex_partial {ι : Type*} {n : Fin 2 → ℕ} [∀ k, NeZero (n k)] (s : ι → NArr n ℂ)
    (lmbda : ℝ) (hl : 0 ≤ lmbda) (npd : ℕ) (hN : ∀ k, 2 ≤ n k + 2 * npd) (i : ι) :
    (∀ x, (tikhonovC s lmbda npd).1 i x + (tikhonovC s lmbda npd).2 i x = s i x) ∧
    ∀ sp, IsSymPad npd (s i) sp → ∃ z : Grid (padShape n npd) → ℂ,
      (∀ x, x ≠ z → tikFn lmbda sp z < tikFn lmbda sp x) ∧
      ∀ x : (k : Fin 2) → Fin (n k),
        (tikhonovC s lmbda npd).1 i x = z fun k => ((npd + (x k).val : ℕ) : ZMod _) := by
  refine ⟨fun x => by simp only [tikhonovC]; ring, fun sp hsp => ?_⟩
  rw [isSymPad_eq npd (s i) sp hsp]
  refine ⟨ifft _ fun ξ => fft _ (symPad npd (s i)) ξ / wgt _ lmbda ξ,
    unique_of_excess (tikFn_excess (N := padShape n npd) hN lmbda hl _ _ fun ξ => ?_),
    fun x => ?_⟩
  · rw [fft_ifft]
  · have e : ∀ a : Fin 2, (pad (padShape n npd) fun i => (gradV a i : ℂ)) =
        fun y => ((pad (padShape n npd) (gradV a) y : ℝ) : ℂ) := by
      intro a
      funext y
      unfold pad
      split <;> simp
    simp only [tikhonovC, crop, e]
    rfl

theorem tikFn_ofReal (lmbda : ℝ) (s x : Grid N → ℝ) :
    tikFn lmbda (fun p => (s p : ℂ)) (fun p => (x p : ℂ)) = tikFn lmbda s x := by
  unfold tikFn
  congr 2
  · refine sum_congr rfl fun p _ => ?_
    rw [← Complex.ofReal_sub, Complex.norm_real]
  · refine sum_congr rfl fun a _ => sum_congr rfl fun p _ => ?_
    rw [← Complex.ofReal_sub, Complex.norm_real]

theorem herm_wgt (lmbda : ℝ) (s : Grid N → ℝ) :
    Herm fun ξ => fft N (fun p => (s p : ℂ)) ξ / wgt N lmbda ξ := by
  intro ξ
  have hw : wgt N lmbda (-ξ) = wgt N lmbda ξ := by
    unfold wgt
    rw [tikA_eq, tikA_eq, fft_real (pad N (gradV 0)) ξ, fft_real (pad N (gradV 1)) ξ,
      RCLike.norm_conj, RCLike.norm_conj]
  simp only [hw, fft_real s ξ, map_div₀, Complex.conj_ofReal]

/-- **C30, real images.** As for complex images. -/
theorem C30_real_partial {ι : Type*} {n : Fin 2 → ℕ} [∀ k, NeZero (n k)] (s : ι → NArr n ℝ)
    (lmbda : ℝ) (hl : 0 ≤ lmbda) (npd : ℕ) (hN : ∀ k, 2 ≤ n k + 2 * npd) (i : ι) :
    (∀ x, (tikhonovR s lmbda npd).1 i x + (tikhonovR s lmbda npd).2 i x = s i x) ∧
    ∀ sp, IsSymPad npd (s i) sp → ∃ z : Grid (padShape n npd) → ℝ,
      (∀ x, x ≠ z → tikFn lmbda sp z < tikFn lmbda sp x) ∧
      ∀ x : (k : Fin 2) → Fin (n k),
        (tikhonovR s lmbda npd).1 i x = z fun k => ((npd + (x k).val : ℕ) : ZMod _) := by
  refine ⟨fun x => by simp only [tikhonovR]; ring, fun sp hsp => ?_⟩
  rw [isSymPad_eq npd (s i) sp hsp]
  refine ⟨irfft _ 1 fun ξ => (fun ξ => fft _ (fun p => ((symPad npd (s i) p : ℝ) : ℂ)) ξ /
    wgt _ lmbda ξ) ξ.1, unique_of_excess fun x => ?_, fun x => ?_⟩
  · have h := tikFn_excess (N := padShape n npd) hN lmbda hl
      (fun p => ((symPad npd (s i) p : ℝ) : ℂ))
      (fun p => ((irfft _ 1 (fun ξ => (fun ξ => fft _ (fun p => ((symPad npd (s i) p : ℝ) : ℂ)) ξ /
        wgt _ lmbda ξ) ξ.1) p : ℝ) : ℂ)) (fun ξ => congrFun (rf_irfft 1 (herm_wgt lmbda _)) ξ)
      fun p => (x p : ℂ)
    rw [tikFn_ofReal, tikFn_ofReal] at h
    refine le_trans (le_of_eq ?_) h
    congr 2
    refine sum_congr rfl fun p _ => ?_
    rw [← Complex.ofReal_sub, Complex.norm_real]
  · rfl

/-- **C30, refuted for an image with a single sample on the padded axes.** The filter `[-1, 1]` is
then cut off to `[-1]`, and the lowpass output is `s / (1 + 2 λ)`, while the only image that
minimises the documented functional is `s` itself. -/
theorem C30_refuted (lmbda : ℝ) (hl : 0 < lmbda) (v : ℝ) (hv : v ≠ 0) :
    let n : Fin 2 → ℕ := fun _ => 1
    let s : Unit → NArr n ℝ := fun _ _ => v
    ∀ sp, IsSymPad (n := n) 0 (s ()) sp → ∀ z : Grid (padShape n 0) → ℝ,
      (∀ x, tikFn lmbda sp z ≤ tikFn lmbda sp x) →
      (tikhonovR s lmbda 0).1 () (fun _ => 0) ≠ z 0 := by
  intro n s sp hsp z hz
  have hS : ∀ k, padShape n 0 k = 1 := fun _ => rfl
  have hsub : ∀ x y : Grid (padShape n 0), x = y := fun x y =>
    funext fun k => (inferInstance : Subsingleton (ZMod 1)).elim _ _
  have hsp0 : sp 0 = v := by rw [isSymPad_eq 0 (s ()) sp hsp]; rfl
  have hun : (univ : Finset (Grid (padShape n 0))) = {0} := by
    ext x; simp [hsub x 0]
  have hz0 : z 0 = v := by
    have h := hz sp
    unfold tikFn at h
    have e1 : ∀ x : Grid (padShape n 0) → ℝ, ∑ a, ∑ p, ‖x (p + Pi.single a 1) - x p‖ ^ 2 = 0 := by
      intro x
      refine sum_eq_zero fun a _ => sum_eq_zero fun p _ => ?_
      rw [hsub (p + Pi.single a 1) p]; simp
    rw [e1, e1, hun, sum_singleton, sum_singleton, hsp0] at h
    simp only [sub_self, norm_zero, mul_zero, add_zero] at h
    have h2 : ‖z 0 - v‖ ^ 2 ≤ 0 := by linarith
    have h3 : ‖z 0 - v‖ = 0 := by nlinarith [norm_nonneg (z 0 - v)]
    exact sub_eq_zero.1 (norm_eq_zero.1 h3)
  have hchi : ∀ ξ x : Grid (padShape n 0), chi _ ξ x = 1 := fun ξ x => by
    rw [hsub x 0, chi_zero]
  have hfft : ∀ (X : Grid (padShape n 0) → ℂ) ξ, fft _ X ξ = X 0 := fun X ξ => by
    unfold fft; rw [hun, sum_singleton, hchi]; simp
  have hpad : ∀ a : Fin 2, pad (padShape n 0) (gradV a) 0 = -1 := by
    intro a
    unfold pad
    rw [dif_pos]
    · simp [gradV]
    · intro k; simp only [Pi.zero_apply, ZMod.val_zero]; split <;> omega
  have hval : (tikhonovR s lmbda 0).1 () (fun _ => 0) = v / (1 + 2 * lmbda) := by
    simp only [tikhonovR, crop]
    rw [hsub (fun k => ((0 + (0 : Fin 1).val : ℕ) : ZMod (padShape n 0 k))) 0]
    unfold irfft ifft
    rw [hun, sum_singleton, hchi, one_mul]
    unfold hext
    rw [dif_pos (by simp)]
    unfold rfft
    simp only
    rw [hfft, hfft, hfft, tikA_eq, hpad, hpad]
    have hc : Fintype.card (Grid (padShape n 0)) = 1 := by
      rw [← card_univ, hun, card_singleton]
    rw [hc]
    have : symPad (n := n) 0 (s ()) 0 = v := rfl
    rw [this]
    norm_num
    rw [show (1 : ℂ) + lmbda * 2 = ((1 + 2 * lmbda : ℝ) : ℂ) by push_cast; ring,
      ← Complex.ofReal_div, Complex.ofReal_re]
  rw [hval, hz0]
  intro h
  rw [div_eq_iff (by linarith)] at h
  have : v * lmbda = 0 := by linarith
  rcases mul_eq_zero.1 this with h | h
  · exact hv h
  · linarith

/-- The hypotheses are met by the defaults for every image. -/
example (n : Fin 2 → ℕ) : ∀ k, 2 ≤ n k + 2 * 16 := fun k => by omega

end Sporco.Signal
