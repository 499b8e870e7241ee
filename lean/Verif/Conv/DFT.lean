import Mathlib.Analysis.SpecialFunctions.Complex.CircleAddChar
import Mathlib.NumberTheory.LegendreSymbol.AddCharacter
import Mathlib.Algebra.BigOperators.Ring.Finset
import Mathlib.Analysis.RCLike.Basic
import Mathlib.Data.ZMod.Basic
import Mathlib.Tactic.LinearCombination

/-!
# The discrete Fourier transforms of `fft.py`

The library transforms (`pyfftw` or `numpy.fft`) called by `fft.py` 199-314 and 621-639 are taken
at their documented definition, in exact arithmetic.  An array over the transformed axes, of shape
`N`, is a function on the grid of index tuples; indices are taken modulo the shape.
-/

set_option autoImplicit false

namespace Sporco.Conv

open Finset ComplexConjugate

variable {d : ℕ}

/-- Index tuples of an array with `d` axes of lengths `N`. -/
abbrev Grid (N : Fin d → ℕ) : Type := (k : Fin d) → ZMod (N k)

variable (N : Fin d → ℕ) [∀ k, NeZero (N k)]

/-- `exp(2πi Σ ξ_k x_k / N_k)`. -/
noncomputable def chi (ξ x : Grid N) : ℂ :=
  Complex.exp (2 * Real.pi * Complex.I * ∑ k, ((ξ k).val * (x k).val : ℂ) / N k)

/-- `fftn` over all axes of the grid (`fft.py` 199-224, 621-622). -/
noncomputable def fft (X : Grid N → ℂ) (ξ : Grid N) : ℂ := ∑ x, conj (chi N ξ x) * X x

/-- `ifftn` (`fft.py` 228-253, 626-627). -/
noncomputable def ifft (F : Grid N → ℂ) (x : Grid N) : ℂ :=
  (∑ ξ, chi N ξ x * F ξ) / Fintype.card (Grid N)

/-- Frequencies kept by `rfftn`, which halves the last of the transformed axes, here `a`. -/
abbrev Half (a : Fin d) : Type := {ξ : Grid N // (ξ a).val ≤ N a / 2}

/-- `rfftn` (`fft.py` 257-282, 631-632). -/
noncomputable def rfft (a : Fin d) (X : Grid N → ℝ) (ξ : Half N a) : ℂ :=
  fft N (fun x => (X x : ℂ)) ξ.1

variable {N} in
theorem half_neg {a : Fin d} {ξ : Grid N} (h : ¬ (ξ a).val ≤ N a / 2) :
    ((-ξ) a).val ≤ N a / 2 := by
  have h0 : ξ a ≠ 0 := by
    intro h0; rw [h0] at h; simp at h
  have hne : NeZero (ξ a) := ⟨h0⟩
  rw [Pi.neg_apply, ZMod.val_neg_of_ne_zero]
  omega

/-- The spectrum a half spectrum stands for: the missing values by conjugate symmetry. -/
noncomputable def hext (a : Fin d) (F : Half N a → ℂ) (ξ : Grid N) : ℂ :=
  if h : (ξ a).val ≤ N a / 2 then F ⟨ξ, h⟩ else conj (F ⟨-ξ, half_neg h⟩)

/-- `irfftn` (`fft.py` 286-314, 636-637): the inverse transform of the completed spectrum. -/
noncomputable def irfft (a : Fin d) (F : Half N a → ℂ) (x : Grid N) : ℝ :=
  (ifft N (hext N a F) x).re

/-! ## Characters -/

variable {N}

theorem chi_eq (ξ x : Grid N) : chi N ξ x = ∏ k, ZMod.stdAddChar (N := N k) (ξ k * x k) := by
  have : ∀ k, ZMod.stdAddChar (N := N k) (ξ k * x k) =
      Complex.exp (2 * Real.pi * Complex.I * (((ξ k).val * (x k).val : ℂ) / N k)) := by
    intro k
    have h := ZMod.stdAddChar_coe (N := N k) ((ξ k).val * (x k).val : ℤ)
    have e : (((ξ k).val * (x k).val : ℤ) : ZMod (N k)) = ξ k * x k := by
      push_cast
      rw [ZMod.natCast_zmod_val, ZMod.natCast_zmod_val]
    rw [e] at h
    rw [h]
    congr 1
    push_cast
    ring
  unfold chi
  rw [mul_sum, Complex.exp_sum]
  exact prod_congr rfl fun k _ => (this k).symm

theorem chi_comm (ξ x : Grid N) : chi N ξ x = chi N x ξ := by
  rw [chi_eq, chi_eq]; simp only [mul_comm]

theorem chi_add (ξ x y : Grid N) : chi N ξ (x + y) = chi N ξ x * chi N ξ y := by
  rw [chi_eq, chi_eq, chi_eq, ← prod_mul_distrib]
  refine prod_congr rfl fun k _ => ?_
  rw [Pi.add_apply, mul_add, AddChar.map_add_eq_mul]

theorem chi_zero (ξ : Grid N) : chi N ξ 0 = 1 := by
  rw [chi_eq]; simp

theorem chi_neg (ξ x : Grid N) : chi N ξ (-x) = conj (chi N ξ x) := by
  rw [chi_eq, chi_eq, map_prod]
  refine prod_congr rfl fun k _ => ?_
  rw [Pi.neg_apply, mul_neg, AddChar.map_neg_eq_conj]

theorem chi_neg_left (ξ x : Grid N) : chi N (-ξ) x = conj (chi N ξ x) := by
  rw [chi_comm, chi_neg, chi_comm]

theorem chi_add_left (ξ η x : Grid N) : chi N (ξ + η) x = chi N ξ x * chi N η x := by
  rw [chi_comm, chi_add, chi_comm, chi_comm x η]

theorem chi_conj_mul (ξ x : Grid N) : conj (chi N ξ x) * chi N ξ x = 1 := by
  rw [← chi_neg, ← chi_add, neg_add_cancel, chi_zero]

theorem sum_chi (ξ : Grid N) :
    ∑ x, chi N ξ x = if ξ = 0 then (Fintype.card (Grid N) : ℂ) else 0 := by
  have h1 : ∑ x, chi N ξ x = ∏ k, ∑ t : ZMod (N k), ZMod.stdAddChar (N := N k) (t * ξ k) := by
    rw [Finset.prod_univ_sum, Fintype.piFinset_univ]
    refine sum_congr rfl fun x _ => ?_
    rw [chi_eq]
    simp only [mul_comm]
  rw [h1]
  have h2 : ∀ k, ∑ t : ZMod (N k), ZMod.stdAddChar (N := N k) (t * ξ k) =
      if ξ k = 0 then (Fintype.card (ZMod (N k)) : ℂ) else 0 := fun k =>
    by
      have := AddChar.sum_mulShift (ψ := ZMod.stdAddChar (N := N k)) (ξ k)
        (ZMod.isPrimitive_stdAddChar (N k))
      rw [this]; split <;> simp
  simp only [h2]
  split
  · rename_i h
    subst h
    simp
  · rename_i h
    obtain ⟨k, hk⟩ : ∃ k, ξ k ≠ 0 := by
      by_contra hc
      push Not at hc
      exact h (funext hc)
    exact prod_eq_zero (mem_univ k) (if_neg hk)

theorem card_ne : (Fintype.card (Grid N) : ℂ) ≠ 0 := by
  exact_mod_cast Fintype.card_ne_zero

theorem sum_chi_sub (x y : Grid N) :
    ∑ ξ, chi N ξ x * conj (chi N ξ y) = if x = y then (Fintype.card (Grid N) : ℂ) else 0 := by
  have h := sum_chi (N := N) (x - y)
  simp only [sub_eq_zero] at h
  rw [← h]
  refine sum_congr rfl fun ξ _ => ?_
  rw [← chi_neg, ← chi_add, chi_comm, sub_eq_add_neg]

/-! ## Inversion, Parseval, convolution -/

theorem ifft_fft (X : Grid N → ℂ) : ifft N (fft N X) = X := by
  funext x
  unfold ifft fft
  rw [div_eq_iff card_ne]
  simp only [mul_sum]
  rw [sum_comm]
  have : ∀ y, ∑ ξ, chi N ξ x * (conj (chi N ξ y) * X y) =
      (if x = y then (Fintype.card (Grid N) : ℂ) else 0) * X y := by
    intro y
    rw [← sum_chi_sub, sum_mul]
    exact sum_congr rfl fun ξ _ => by ring
  simp only [this, ite_mul, zero_mul]
  rw [sum_ite_eq univ x, if_pos (mem_univ x), mul_comm]

theorem fft_ifft (F : Grid N → ℂ) : fft N (ifft N F) = F := by
  funext ξ
  unfold ifft fft
  simp only [div_eq_mul_inv, sum_mul, mul_sum]
  rw [sum_comm]
  have : ∀ η, ∑ x, conj (chi N ξ x) * (chi N η x * F η * (Fintype.card (Grid N) : ℂ)⁻¹) =
      (if η = ξ then (Fintype.card (Grid N) : ℂ) else 0) * F η * (Fintype.card (Grid N) : ℂ)⁻¹ := by
    intro η
    rw [← sum_chi_sub, sum_mul, sum_mul]
    refine sum_congr rfl fun x _ => ?_
    rw [chi_comm ξ x, chi_comm η x]
    ring
  simp only [this, ite_mul, zero_mul]
  rw [sum_ite_eq' univ ξ, if_pos (mem_univ ξ)]
  rw [mul_comm _ (F ξ), mul_assoc, mul_inv_cancel₀ card_ne, mul_one]

theorem fft_add (X Y : Grid N → ℂ) (ξ : Grid N) :
    fft N (fun x => X x + Y x) ξ = fft N X ξ + fft N Y ξ := by
  unfold fft; rw [← sum_add_distrib]; exact sum_congr rfl fun x _ => by ring

theorem fft_sub (X Y : Grid N → ℂ) (ξ : Grid N) :
    fft N (fun x => X x - Y x) ξ = fft N X ξ - fft N Y ξ := by
  unfold fft; rw [← sum_sub_distrib]; exact sum_congr rfl fun x _ => by ring

theorem fft_smul (c : ℂ) (X : Grid N → ℂ) (ξ : Grid N) :
    fft N (fun x => c * X x) ξ = c * fft N X ξ := by
  unfold fft; rw [mul_sum]; exact sum_congr rfl fun x _ => by ring

theorem fft_sum {ι : Type*} (s : Finset ι) (X : ι → Grid N → ℂ) (ξ : Grid N) :
    fft N (fun x => ∑ i ∈ s, X i x) ξ = ∑ i ∈ s, fft N (X i) ξ := by
  unfold fft; simp only [mul_sum]; rw [sum_comm]

theorem fft_zero (ξ : Grid N) : fft N (fun _ => 0) ξ = 0 := by
  unfold fft; simp

theorem fft_injective {X Y : Grid N → ℂ} (h : ∀ ξ, fft N X ξ = fft N Y ξ) : X = Y := by
  rw [← ifft_fft X, ← ifft_fft Y, funext h]

/-- Parseval's identity. -/
theorem parseval_inner (X Y : Grid N → ℂ) :
    ∑ x, conj (X x) * Y x = (∑ ξ, conj (fft N X ξ) * fft N Y ξ) / Fintype.card (Grid N) := by
  rw [eq_div_iff card_ne]
  have : ∀ ξ, conj (fft N X ξ) * fft N Y ξ =
      ∑ x, ∑ y, conj (X x) * Y y * (chi N ξ x * conj (chi N ξ y)) := by
    intro ξ
    unfold fft
    rw [map_sum, sum_mul_sum]
    refine sum_congr rfl fun x _ => sum_congr rfl fun y _ => ?_
    rw [map_mul, Complex.conj_conj]; ring
  simp only [this]
  rw [sum_comm, sum_mul]
  refine sum_congr rfl fun x _ => ?_
  rw [sum_comm]
  simp only [← mul_sum, sum_chi_sub]
  simp

theorem parseval (X : Grid N → ℂ) :
    ∑ x, ‖X x‖ ^ 2 = (∑ ξ, ‖fft N X ξ‖ ^ 2) / Fintype.card (Grid N) := by
  have h := parseval_inner X X
  have e : ∀ z : ℂ, conj z * z = ((‖z‖ ^ 2 : ℝ) : ℂ) := by
    intro z; rw [mul_comm, Complex.mul_conj, Complex.normSq_eq_norm_sq]
  simp only [e] at h
  exact_mod_cast h

/-- Circular convolution. -/
def cconv (A B : Grid N → ℂ) (x : Grid N) : ℂ := ∑ y, A y * B (x - y)

theorem fft_cconv (A B : Grid N → ℂ) (ξ : Grid N) :
    fft N (cconv A B) ξ = fft N A ξ * fft N B ξ := by
  unfold fft cconv
  rw [sum_mul_sum]
  simp only [mul_sum]
  rw [sum_comm]
  refine sum_congr rfl fun y _ => ?_
  rw [← Equiv.sum_comp (Equiv.addRight y)]
  refine sum_congr rfl fun z _ => ?_
  rw [Equiv.coe_addRight, chi_add, map_mul, add_sub_cancel_right]
  ring

theorem ifft_mul (A B : Grid N → ℂ) :
    ifft N (fun ξ => fft N A ξ * fft N B ξ) = cconv A B := by
  rw [← ifft_fft (cconv A B)]
  congr 1
  funext ξ
  rw [fft_cconv]

/-- Circular correlation, the adjoint of circular convolution. -/
def ccorr (A B : Grid N → ℂ) (x : Grid N) : ℂ := ∑ y, conj (A y) * B (x + y)

theorem fft_ccorr (A B : Grid N → ℂ) (ξ : Grid N) :
    fft N (ccorr A B) ξ = conj (fft N A ξ) * fft N B ξ := by
  unfold fft ccorr
  rw [map_sum, sum_mul_sum]
  simp only [mul_sum]
  rw [sum_comm]
  refine sum_congr rfl fun y _ => ?_
  rw [← Equiv.sum_comp (Equiv.subRight y)]
  refine sum_congr rfl fun z _ => ?_
  rw [Equiv.subRight_apply, sub_add_cancel, sub_eq_add_neg, chi_add, chi_neg, map_mul, map_mul,
    Complex.conj_conj]
  ring

/-! ## Real signals -/

/-- The spectrum of a real signal. -/
def Herm (F : Grid N → ℂ) : Prop := ∀ ξ, F (-ξ) = conj (F ξ)

theorem fft_real (X : Grid N → ℝ) : Herm (fft N (fun x => (X x : ℂ))) := by
  intro ξ
  unfold fft
  rw [map_sum]
  refine sum_congr rfl fun x _ => ?_
  rw [chi_neg_left, map_mul, Complex.conj_ofReal]

theorem ifft_herm {F : Grid N → ℂ} (h : Herm F) (x : Grid N) : ((ifft N F x).re : ℂ) = ifft N F x := by
  rw [← Complex.conj_eq_iff_re]
  unfold ifft
  rw [map_div₀, map_sum, map_natCast]
  congr 1
  rw [← Equiv.sum_comp (Equiv.neg _)]
  refine sum_congr rfl fun ξ _ => ?_
  rw [Equiv.neg_apply, chi_neg_left, h ξ, map_mul, Complex.conj_conj, Complex.conj_conj]

theorem hext_of_herm (a : Fin d) {F : Grid N → ℂ} (h : Herm F) :
    hext N a (fun ξ => F ξ.1) = F := by
  funext ξ
  unfold hext
  split
  · rfl
  · simp only [h ξ, Complex.conj_conj]

theorem irfft_of_herm (a : Fin d) {F : Grid N → ℂ} (h : Herm F) (x : Grid N) :
    (irfft N a (fun ξ => F ξ.1) x : ℂ) = ifft N F x := by
  unfold irfft
  rw [hext_of_herm a h, ifft_herm h]

/-- `irfftn` inverts `rfftn`. -/
theorem irfft_rfft (a : Fin d) (X : Grid N → ℝ) : irfft N a (rfft N a X) = X := by
  funext x
  have := irfft_of_herm a (fft_real X) x
  rw [ifft_fft] at this
  exact_mod_cast this

end Sporco.Conv
