import Verif.Conv.Norms
import Verif.Linalg.SM
import Mathlib.Analysis.InnerProductSpace.PiL2
import Mathlib.Topology.Algebra.Module.FiniteDimension

/-!
# Circular convolution operators and linear systems in the frequency domain

Facts shared by the convolutional solvers: sums of circular convolutions as operators, their
adjoints, and what solving the normal equations frequency by frequency means for the arrays.
-/

set_option autoImplicit false
set_option linter.unusedSectionVars false

namespace Sporco.Conv

open Finset ComplexConjugate
open scoped RealInnerProductSpace

variable {d : ℕ} {N : Fin d → ℕ} [∀ k, NeZero (N k)]

/-- Circular convolution of real arrays. -/
def rconv (h x : Grid N → ℝ) (p : Grid N) : ℝ := ∑ y, h y * x (p - y)

/-- Circular correlation of real arrays. -/
def rcorr (h s : Grid N → ℝ) (p : Grid N) : ℝ := ∑ y, h y * s (p + y)

/-- `fft` of a real array. -/
noncomputable def rf (x : Grid N → ℝ) : Grid N → ℂ := fft N fun p => (x p : ℂ)

theorem rf_rconv (h x : Grid N → ℝ) (ξ : Grid N) : rf (rconv h x) ξ = rf h ξ * rf x ξ := by
  unfold rf
  rw [← fft_cconv]
  congr 1
  funext p
  unfold rconv cconv
  push_cast
  rfl

theorem rf_rcorr (h x : Grid N → ℝ) (ξ : Grid N) : rf (rcorr h x) ξ = conj (rf h ξ) * rf x ξ := by
  unfold rf
  rw [← fft_ccorr]
  congr 1
  funext p
  unfold rcorr ccorr
  push_cast
  simp only [Complex.conj_ofReal]

theorem rf_add (x y : Grid N → ℝ) (ξ : Grid N) : rf (fun p => x p + y p) ξ = rf x ξ + rf y ξ := by
  unfold rf; push_cast; exact fft_add _ _ ξ

theorem rf_sub (x y : Grid N → ℝ) (ξ : Grid N) : rf (fun p => x p - y p) ξ = rf x ξ - rf y ξ := by
  unfold rf; push_cast; exact fft_sub _ _ ξ

theorem rf_smul (c : ℝ) (x : Grid N → ℝ) (ξ : Grid N) : rf (fun p => c * x p) ξ = c * rf x ξ := by
  unfold rf; push_cast; exact fft_smul _ _ ξ

theorem rf_sum {ι : Type*} (s : Finset ι) (X : ι → Grid N → ℝ) (ξ : Grid N) :
    rf (fun x => ∑ i ∈ s, X i x) ξ = ∑ i ∈ s, rf (X i) ξ := by
  unfold rf; push_cast; exact fft_sum s _ ξ

theorem rf_herm (x : Grid N → ℝ) : Herm (rf x) := fft_real x

theorem rf_injective {x y : Grid N → ℝ} (h : ∀ ξ, rf x ξ = rf y ξ) : x = y := by
  have := fft_injective h
  funext p
  exact_mod_cast congrFun this p

theorem rf_irfft (a : Fin d) {F : Grid N → ℂ} (h : Herm F) :
    rf (irfft N a fun ξ => F ξ.1) = F := by
  unfold rf
  have : (fun p => ((irfft N a (fun ξ => F ξ.1) p : ℝ) : ℂ)) = ifft N F :=
    funext fun p => irfft_of_herm a h p
  rw [this, fft_ifft]

/-! ## Convolution with a filter of bounded support -/

/-- Circular convolution of a filter `h`, with entries at the non-negative offsets below its
sizes, with an array: entry `p` is `∑ h[i] x[p - i]`. -/
def filt {Nd : Fin d → ℕ} (h : NArr Nd ℝ) (x : Grid N → ℝ) (p : Grid N) : ℝ :=
  ∑ i, h i * x (p - fun k => ((i k).val : ZMod (N k)))

theorem rconv_pad {Nd : Fin d → ℕ} (hN : ∀ k, Nd k ≤ N k) (h : NArr Nd ℝ) (x : Grid N → ℝ) :
    rconv (pad N h) x = filt h x := by
  funext p
  unfold rconv filt
  simp only [pad_eq hN, sum_mul, ite_mul, zero_mul]
  rw [sum_comm]
  refine sum_congr rfl fun i _ => ?_
  rw [sum_ite_eq univ, if_pos (mem_univ _)]

/-! ## Operators -/

section Op
variable {C K M : Type*} [Fintype C] [Fintype K] [Fintype M]

/-- Coefficient arrays: an index for the signals, one for the filters, and the spatial axes. -/
abbrev Coef (K M : Type*) (N : Fin d → ℕ) [∀ k, NeZero (N k)] : Type _ :=
  EuclideanSpace ℝ (K × M × Grid N)

/-- Signal arrays: channels, signals, spatial axes. -/
abbrev Sig (C K : Type*) (N : Fin d → ℕ) [∀ k, NeZero (N k)] : Type _ :=
  EuclideanSpace ℝ (C × K × Grid N)

/-- One map of a three-index array. -/
def part {A B : Type*} [Fintype A] [Fintype B] (x : EuclideanSpace ℝ (A × B × Grid N))
    (i : A) (j : B) : Grid N → ℝ := fun p => x (i, j, p)

/-- A three-index array from its maps. -/
def join {A B : Type*} [Fintype A] [Fintype B] (f : A → B → Grid N → ℝ) :
    EuclideanSpace ℝ (A × B × Grid N) := WithLp.toLp 2 fun i => f i.1 i.2.1 i.2.2

@[simp] theorem part_join {A B : Type*} [Fintype A] [Fintype B] (f : A → B → Grid N → ℝ) (i : A)
    (j : B) : part (join f) i j = f i j := rfl

@[simp] theorem join_part {A B : Type*} [Fintype A] [Fintype B]
    (x : EuclideanSpace ℝ (A × B × Grid N)) : join (part x) = x := rfl

theorem part_ext {A B : Type*} [Fintype A] [Fintype B] {x y : EuclideanSpace ℝ (A × B × Grid N)}
    (h : ∀ i j ξ, rf (part x i j) ξ = rf (part y i j) ξ) : x = y := by
  rw [← join_part x, ← join_part y]
  congr 1
  funext i j
  exact rf_injective (h i j)

theorem norm_part {A B : Type*} [Fintype A] [Fintype B] (x : EuclideanSpace ℝ (A × B × Grid N)) :
    ‖x‖ ^ 2 = ∑ i, ∑ j, ∑ p, part x i j p ^ 2 := by
  rw [EuclideanSpace.norm_sq_eq, Fintype.sum_prod_type]
  refine sum_congr rfl fun i _ => ?_
  rw [Fintype.sum_prod_type]
  refine sum_congr rfl fun j _ => sum_congr rfl fun p _ => ?_
  rw [Real.norm_eq_abs, sq_abs]; rfl

theorem inner_part {A B : Type*} [Fintype A] [Fintype B]
    (x y : EuclideanSpace ℝ (A × B × Grid N)) :
    ⟪x, y⟫ = ∑ i, ∑ j, ∑ p, part x i j p * part y i j p := by
  rw [PiLp.inner_apply, Fintype.sum_prod_type]
  refine sum_congr rfl fun i _ => ?_
  rw [Fintype.sum_prod_type]
  refine sum_congr rfl fun j _ => sum_congr rfl fun p _ => ?_
  simp [part, mul_comm]

/-- `X ↦ ∑ₘ h_{c,m} * X_{k,m}`. -/
noncomputable def convOp (h : C → M → Grid N → ℝ) : Coef K M N →L[ℝ] Sig C K N :=
  LinearMap.toContinuousLinearMap
    { toFun := fun x => join fun c k p => ∑ m, rconv (h c m) (part x k m) p
      map_add' := fun x y => by
        ext ⟨c, k, p⟩
        change ∑ m, rconv (h c m) (part (x + y) k m) p = ∑ m, _ + ∑ m, _
        rw [← sum_add_distrib]
        refine sum_congr rfl fun m _ => ?_
        unfold rconv
        rw [← sum_add_distrib]
        refine sum_congr rfl fun y _ => ?_
        simp only [part, PiLp.add_apply]
        ring
      map_smul' := fun r x => by
        ext ⟨c, k, p⟩
        change ∑ m, rconv (h c m) (part (r • x) k m) p = r * ∑ m, _
        rw [mul_sum]
        refine sum_congr rfl fun m _ => ?_
        unfold rconv
        rw [mul_sum]
        refine sum_congr rfl fun y _ => ?_
        simp only [part, PiLp.smul_apply, smul_eq_mul]
        ring }

/-- The adjoint of `convOp`. -/
noncomputable def convOpT (h : C → M → Grid N → ℝ) : Sig C K N →L[ℝ] Coef K M N :=
  LinearMap.toContinuousLinearMap
    { toFun := fun s => join fun k m p => ∑ c, rcorr (h c m) (part s c k) p
      map_add' := fun x y => by
        ext ⟨k, m, p⟩
        change ∑ c, rcorr (h c m) (part (x + y) c k) p = ∑ c, _ + ∑ c, _
        rw [← sum_add_distrib]
        refine sum_congr rfl fun m _ => ?_
        unfold rcorr
        rw [← sum_add_distrib]
        refine sum_congr rfl fun y _ => ?_
        simp only [part, PiLp.add_apply]
        ring
      map_smul' := fun r x => by
        ext ⟨k, m, p⟩
        change ∑ c, rcorr (h c m) (part (r • x) c k) p = r * ∑ c, _
        rw [mul_sum]
        refine sum_congr rfl fun m _ => ?_
        unfold rcorr
        rw [mul_sum]
        refine sum_congr rfl fun y _ => ?_
        simp only [part, PiLp.smul_apply, smul_eq_mul]
        ring }

theorem part_convOp (h : C → M → Grid N → ℝ) (x : Coef K M N) (c : C) (k : K) :
    part (convOp h x) c k = fun p => ∑ m, rconv (h c m) (part x k m) p := rfl

theorem part_convOpT (h : C → M → Grid N → ℝ) (s : Sig C K N) (k : K) (m : M) :
    part (convOpT h s) k m = fun p => ∑ c, rcorr (h c m) (part s c k) p := rfl

theorem sum_rconv_mul (h x s : Grid N → ℝ) : ∑ p, rconv h x p * s p = ∑ p, x p * rcorr h s p := by
  unfold rconv rcorr
  simp only [sum_mul, mul_sum]
  rw [sum_comm]
  conv_rhs => rw [sum_comm]
  refine sum_congr rfl fun y _ => ?_
  rw [← Equiv.sum_comp (Equiv.addRight y)]
  refine sum_congr rfl fun p _ => ?_
  rw [Equiv.coe_addRight, add_sub_cancel_right]
  ring

theorem convOp_adj (h : C → M → Grid N → ℝ) (x : Coef K M N) (s : Sig C K N) :
    ⟪convOp h x, s⟫ = ⟪x, convOpT h s⟫ := by
  rw [inner_part, inner_part]
  simp only [part_convOp, part_convOpT, sum_mul, mul_sum]
  have e1 : ∀ c k, ∑ p, ∑ m, rconv (h c m) (part x k m) p * part s c k p =
      ∑ m, ∑ p, part x k m p * rcorr (h c m) (part s c k) p := by
    intro c k
    rw [sum_comm]
    exact sum_congr rfl fun m _ => sum_rconv_mul _ _ _
  have e2 : ∀ k m, ∑ p, ∑ c, part x k m p * rcorr (h c m) (part s c k) p =
      ∑ c, ∑ p, part x k m p * rcorr (h c m) (part s c k) p := fun k m => sum_comm
  simp only [e1, e2]
  rw [sum_comm]
  refine sum_congr rfl fun k _ => ?_
  rw [sum_comm]

/-! ## Systems solved at each frequency -/

/-- A hermitian positive definite system of this form has at most one solution. -/
theorem freq_unique (h : C → M → ℂ) (r : M → ℝ) (hr : ∀ m, 0 < r m) (z : M → ℂ)
    (hz : ∀ m, ∑ c, conj (h c m) * ∑ n, h c n * z n + r m * z m = 0) : z = 0 := by
  have e : ∑ m, conj (z m) * (∑ c, conj (h c m) * ∑ n, h c n * z n + r m * z m) =
      ((∑ c, ‖∑ n, h c n * z n‖ ^ 2 + ∑ m, r m * ‖z m‖ ^ 2 : ℝ) : ℂ) := by
    simp only [mul_add, sum_add_distrib]
    push_cast
    congr 1
    · rw [show (∑ m, conj (z m) * ∑ c, conj (h c m) * ∑ n, h c n * z n) =
        ∑ m, ∑ c, conj (z m) * (conj (h c m) * ∑ n, h c n * z n) from
          sum_congr rfl fun m _ => mul_sum _ _ _, sum_comm]
      refine sum_congr rfl fun c _ => ?_
      rw [← Complex.conj_mul', map_sum, sum_mul]
      refine sum_congr rfl fun m _ => ?_
      rw [map_mul]; ring
    · refine sum_congr rfl fun m _ => ?_
      rw [← Complex.conj_mul']; ring
  simp only [hz, mul_zero, sum_const_zero] at e
  have e' : ∑ c, ‖∑ n, h c n * z n‖ ^ 2 + ∑ m, r m * ‖z m‖ ^ 2 = 0 := by exact_mod_cast e.symm
  have h1 : 0 ≤ ∑ c, ‖∑ n, h c n * z n‖ ^ 2 := sum_nonneg fun _ _ => by positivity
  have h2 : ∀ m ∈ (univ : Finset M), 0 ≤ r m * ‖z m‖ ^ 2 := fun m _ =>
    mul_nonneg (hr m).le (sq_nonneg _)
  have h3 : ∑ m, r m * ‖z m‖ ^ 2 = 0 := le_antisymm (by linarith) (sum_nonneg h2)
  rw [sum_eq_zero_iff_of_nonneg h2] at h3
  funext m
  have := h3 m (mem_univ m)
  rcases mul_eq_zero.1 this with h4 | h4
  · exact absurd h4 (hr m).ne'
  · simpa using h4

/-- The solution of such systems with real data is the spectrum of a real array. -/
theorem freq_herm (hf : C → M → Grid N → ℂ) (hh : ∀ c m, Herm (hf c m)) (r : M → Grid N → ℝ)
    (hr : ∀ m ξ, 0 < r m ξ) (hre : ∀ m ξ, r m (-ξ) = r m ξ) (B F : M → Grid N → ℂ)
    (hB : ∀ m, Herm (B m))
    (hF : ∀ m ξ, ∑ c, conj (hf c m ξ) * ∑ n, hf c n ξ * F n ξ + r m ξ * F m ξ = B m ξ) (m : M) :
    Herm (F m) := by
  intro ξ
  have key := freq_unique (fun c n => conj (hf c n ξ)) (fun n => r n ξ) (fun n => hr n ξ)
    (fun n => F n (-ξ) - conj (F n ξ)) (fun m => by
      have h1 := hF m (-ξ)
      have h2 := congrArg conj (hF m ξ)
      simp only [hB m ξ, hh _ _ ξ, hre] at h1
      simp only [map_add, map_mul, map_sum, Complex.conj_conj, Complex.conj_ofReal] at h2
      simp only [Complex.conj_conj] at h1 ⊢
      simp only [mul_sub, sum_sub_distrib]
      linear_combination h1 - h2)
  have := congrFun key m
  exact sub_eq_zero.1 this

end Op
end Sporco.Conv
