import Verif.Conv.DFT
import Mathlib.Analysis.Real.Sqrt
import Mathlib.Algebra.BigOperators.Field

/-!
# `fl2norm2`, `rfl2norm2` and `fftconv` (C32)
-/

set_option autoImplicit false
set_option linter.unusedSectionVars false

namespace Sporco.Conv

open Finset ComplexConjugate

variable {d : ℕ}

/-! ## Model -/

/-- `np.linalg.norm` of an array with values `f`. -/
noncomputable def frob {ι : Type*} [Fintype ι] (f : ι → ℂ) : ℝ := Real.sqrt (∑ i, ‖f i‖ ^ 2)

section
variable (N : Fin d → ℕ) [∀ k, NeZero (N k)] {ι : Type*} [Fintype ι]

/-- `fl2norm2` (`fft.py` 421-445).  `ι` indexes the entries along the axes that are not in the
frequency domain. -/
noncomputable def fl2norm2 (xf : ι × Grid N → ℂ) : ℝ := frob xf ^ 2 / (∏ k, N k : ℕ)

/-- `rfl2norm2` (`fft.py` 449-484).  `a` is `axis[-1]`, along which `xf` has `N a / 2 + 1`
entries; index `-1` is the last of them. -/
noncomputable def rfl2norm2 (a : Fin d) (xf : ι × Half N a → ℂ) : ℝ :=
  let scl : ℝ := 1 / (∏ k, N k : ℕ)
  let nrm0 := frob fun p => if (p.2.1 a).val = 0 then xf p else 0
  let idx1 := (N a + 1) / 2
  let nrm1 := frob fun p => if 1 ≤ (p.2.1 a).val ∧ (p.2.1 a).val < idx1 then xf p else 0
  let nrm2 := if N a % 2 = 0 then
      frob fun p => if (p.2.1 a).val = N a / 2 + 1 - 1 then xf p else 0
    else 0
  scl * (nrm0 ^ 2 + 2 * nrm1 ^ 2 + nrm2 ^ 2)

end

/-- An array with axes of lengths `Na`. -/
abbrev NArr (Na : Fin d → ℕ) (R : Type*) : Type _ := ((k : Fin d) → Fin (Na k)) → R

/-- The input of a transform with a shape argument: the array extended by zeros to shape `N`
(and cut off where `N` is smaller). -/
def pad {R : Type*} [Zero R] {Na : Fin d → ℕ} (N : Fin d → ℕ) (a : NArr Na R) (y : Grid N) : R :=
  if h : ∀ k, (y k).val < Na k then a fun k => ⟨(y k).val, h k⟩ else 0

/-- `np.roll(ab, -origin)`; no roll for origin `None`. -/
def rollNeg {R : Type*} {N : Fin d → ℕ} (origin : Option (Fin d → ℤ)) (ab : Grid N → R)
    (x : Grid N) : R :=
  match origin with
  | none => ab x
  | some o => ab fun k => x k + (o k : ZMod (N k))

/-- `dims` of `fftconv` (`fft.py` 411). -/
def convDims (Na Nb : Fin d → ℕ) (k : Fin d) : ℕ := max (Na k) (Nb k)

/-- `fftconv` of complex arrays (`fft.py` 376-417).  The arrays are those along the axes of the
convolution; the remaining axes are carried along entry by entry. -/
noncomputable def fftconvC {Na Nb : Fin d → ℕ} [∀ k, NeZero (convDims Na Nb k)]
    (a : NArr Na ℂ) (b : NArr Nb ℂ) (origin : Option (Fin d → ℤ)) : Grid (convDims Na Nb) → ℂ :=
  rollNeg origin (ifft _ fun ξ =>
    fft _ (pad (convDims Na Nb) a) ξ * fft _ (pad (convDims Na Nb) b) ξ)

/-- `fftconv` of real arrays (`fft.py` 376-417), with `e` the last of the axes. -/
noncomputable def fftconvR {Na Nb : Fin d → ℕ} [∀ k, NeZero (convDims Na Nb k)] (e : Fin d)
    (a : NArr Na ℝ) (b : NArr Nb ℝ) (origin : Option (Fin d → ℤ)) : Grid (convDims Na Nb) → ℝ :=
  rollNeg origin (irfft _ e fun ξ =>
    rfft _ e (pad (convDims Na Nb) a) ξ * rfft _ e (pad (convDims Na Nb) b) ξ)

/-! ## Norms -/

section
variable {N : Fin d → ℕ} [∀ k, NeZero (N k)] {ι : Type*} [Fintype ι]

theorem frob_sq {κ : Type*} [Fintype κ] (f : κ → ℂ) : frob f ^ 2 = ∑ i, ‖f i‖ ^ 2 :=
  Real.sq_sqrt (sum_nonneg fun _ _ => by positivity)

theorem card_grid : Fintype.card (Grid N) = ∏ k, N k := by
  rw [Fintype.card_pi]; simp only [ZMod.card]

/-- Splitting a conjugate-symmetric sum along the halved axis. -/
theorem sum_half (a : Fin d) (g : Grid N → ℝ) (hg : ∀ ξ, g (-ξ) = g ξ) :
    ∑ ξ, g ξ = (∑ ξ : Half N a, if (ξ.1 a).val = 0 then g ξ.1 else 0) +
      2 * (∑ ξ : Half N a, if 1 ≤ (ξ.1 a).val ∧ (ξ.1 a).val < (N a + 1) / 2 then g ξ.1 else 0) +
      (if N a % 2 = 0 then ∑ ξ : Half N a, if (ξ.1 a).val = N a / 2 + 1 - 1 then g ξ.1 else 0
        else 0) := by
  have conv : ∀ P : ℕ → Prop, ∀ [DecidablePred P], (∀ v, P v → v ≤ N a / 2) →
      (∑ ξ : Half N a, if P (ξ.1 a).val then g ξ.1 else 0) =
        ∑ ξ : Grid N, if P (ξ a).val then g ξ else 0 := by
    intro P _ hP
    rw [← Finset.sum_subtype (univ.filter fun ξ : Grid N => (ξ a).val ≤ N a / 2)
      (fun ξ => by simp) (fun ξ => if P (ξ a).val then g ξ else 0), sum_filter]
    refine sum_congr rfl fun ξ _ => ?_
    by_cases h : P (ξ a).val
    · rw [if_pos (hP _ h)]
    · simp [h]
  have hN := Nat.pos_of_ne_zero (NeZero.ne (N a))
  rw [conv (fun v => v = 0) (fun v h => by omega),
    conv (fun v => 1 ≤ v ∧ v < (N a + 1) / 2) (fun v h => by omega),
    conv (fun v => v = N a / 2 + 1 - 1) (fun v h => by omega)]
  have hneg : (∑ ξ : Grid N, if 1 ≤ (ξ a).val ∧ (ξ a).val < (N a + 1) / 2 then g ξ else 0) =
      ∑ ξ : Grid N, if N a / 2 < (ξ a).val then g ξ else 0 := by
    rw [← Equiv.sum_comp (Equiv.neg _)]
    refine sum_congr rfl fun ξ _ => ?_
    rw [Equiv.neg_apply, hg]
    have hlt := ZMod.val_lt (ξ a)
    by_cases h0 : ξ a = 0
    · simp [h0]
    · have hne : NeZero (ξ a) := ⟨h0⟩
      have hp : (ξ a).val ≠ 0 := by rwa [Ne, ZMod.val_eq_zero]
      rw [Pi.neg_apply, ZMod.val_neg_of_ne_zero]
      by_cases h : N a / 2 < (ξ a).val
      · rw [if_pos h, if_pos (by omega)]
      · rw [if_neg h, if_neg (by omega)]
  rw [two_mul]
  conv_rhs => rw [add_assoc, add_assoc]
  nth_rw 2 [hneg]
  have hev : (if N a % 2 = 0 then ∑ ξ : Grid N, (if (ξ a).val = N a / 2 + 1 - 1 then g ξ else 0)
        else 0) = ∑ ξ : Grid N, if N a % 2 = 0 ∧ (ξ a).val = N a / 2 then g ξ else 0 := by
    by_cases h : N a % 2 = 0 <;> simp [h]
  rw [hev, ← sum_add_distrib, ← sum_add_distrib, ← sum_add_distrib]
  refine sum_congr rfl fun ξ _ => ?_
  have hlt := ZMod.val_lt (ξ a)
  rcases Nat.eq_zero_or_pos (ξ a).val with h0 | h0
  · rw [if_pos h0, if_neg (by omega), if_neg (by omega), if_neg (by omega)]; ring
  rw [if_neg (by omega)]
  by_cases h1 : (ξ a).val < (N a + 1) / 2
  · rw [if_pos ⟨h0, h1⟩, if_neg (by omega), if_neg (by omega)]; ring
  rw [if_neg (by omega)]
  by_cases h2 : N a / 2 < (ξ a).val
  · rw [if_pos h2, if_neg (by omega)]; ring
  · rw [if_neg h2, if_pos (by omega)]; ring

/-- `fl2norm2` of the transform of an array is its squared norm. -/
theorem C32_fl2norm2 (X : ι → Grid N → ℂ) :
    fl2norm2 N (fun p : ι × Grid N => fft N (X p.1) p.2) = ∑ i, ∑ x, ‖X i x‖ ^ 2 := by
  unfold fl2norm2
  rw [frob_sq, Fintype.sum_prod_type, sum_div, ← card_grid (N := N)]
  exact sum_congr rfl fun i _ => (parseval (X i)).symm

/-- `rfl2norm2` of the real transform of an array is its squared norm, whatever the parity of the
length of the halved axis. -/
theorem C32_rfl2norm2 (a : Fin d) (X : ι → Grid N → ℝ) :
    rfl2norm2 N a (fun p : ι × Half N a => rfft N a (X p.1) p.2) = ∑ i, ∑ x, X i x ^ 2 := by
  have e1 : ∀ (P : ℕ → Prop) [DecidablePred P],
      frob (fun p : ι × Half N a => if P (p.2.1 a).val then rfft N a (X p.1) p.2 else 0) ^ 2 =
        ∑ i, ∑ ξ : Half N a, if P (ξ.1 a).val then
          ‖fft N (fun x => (X i x : ℂ)) ξ.1‖ ^ 2 else 0 := by
    intro P _
    rw [frob_sq, Fintype.sum_prod_type]
    refine sum_congr rfl fun i _ => sum_congr rfl fun ξ _ => ?_
    by_cases h : P (ξ.1 a).val
    · simp only [if_pos h, rfft]
    · simp only [if_neg h, norm_zero]; ring
  have e2 : (if N a % 2 = 0 then
      frob (fun p : ι × Half N a => if (p.2.1 a).val = N a / 2 + 1 - 1 then rfft N a (X p.1) p.2
        else 0) else 0) ^ 2 = ∑ i, if N a % 2 = 0 then
          ∑ ξ : Half N a, (if (ξ.1 a).val = N a / 2 + 1 - 1 then
            ‖fft N (fun x => (X i x : ℂ)) ξ.1‖ ^ 2 else 0) else 0 := by
    by_cases h : N a % 2 = 0
    · simp only [if_pos h]
      exact e1 fun v => v = N a / 2 + 1 - 1
    · simp only [if_neg h, sum_const_zero]; ring
  unfold rfl2norm2
  simp only
  rw [e1 fun v => v = 0, e1 fun v => 1 ≤ v ∧ v < (N a + 1) / 2, e2, mul_sum (a := (2 : ℝ)),
    ← sum_add_distrib, ← sum_add_distrib, mul_sum]
  refine sum_congr rfl fun i _ => ?_
  rw [← sum_half a (fun ξ => ‖fft N (fun x => (X i x : ℂ)) ξ‖ ^ 2)
    (fun ξ => by rw [fft_real (X i) ξ, Complex.norm_conj])]
  have h := parseval (fun x => (X i x : ℂ))
  simp only [Complex.norm_real, Real.norm_eq_abs, sq_abs] at h
  rw [h, card_grid]
  ring

end

/-! ## Convolution -/

section
variable {N Na Nb : Fin d → ℕ} [∀ k, NeZero (N k)]

theorem pad_eq {R : Type*} [AddCommMonoid R] (hN : ∀ k, Na k ≤ N k) (a : NArr Na R) (y : Grid N) :
    pad N a y = ∑ i : ((k : Fin d) → Fin (Na k)),
      if (fun k => ((i k).val : ZMod (N k))) = y then a i else 0 := by
  unfold pad
  split
  · rename_i h
    rw [sum_eq_single (fun k => ⟨(y k).val, h k⟩)]
    · rw [if_pos]
      funext k
      simp
    · intro i _ hi
      rw [if_neg]
      intro he
      apply hi
      funext k
      apply Fin.ext
      have := congrArg ZMod.val (congrFun he k)
      rw [ZMod.val_natCast, Nat.mod_eq_of_lt (lt_of_lt_of_le (i k).2 (hN k))] at this
      exact this
    · intro hc; exact absurd (mem_univ _) hc
  · rename_i h
    symm
    apply sum_eq_zero
    intro i _
    rw [if_neg]
    intro he
    apply h
    intro k
    have := congrArg ZMod.val (congrFun he k)
    rw [ZMod.val_natCast, Nat.mod_eq_of_lt (lt_of_lt_of_le (i k).2 (hN k))] at this
    rw [← this]
    exact (i k).2

theorem cconv_pad {R : Type*} [CommSemiring R] (hNa : ∀ k, Na k ≤ N k) (hNb : ∀ k, Nb k ≤ N k)
    (a : NArr Na R) (b : NArr Nb R) (x : Grid N) :
    ∑ y, pad N a y * pad N b (x - y) =
      ∑ i : ((k : Fin d) → Fin (Na k)), ∑ j : ((k : Fin d) → Fin (Nb k)),
        if ∀ k, (((i k).val + (j k).val : ℕ) : ZMod (N k)) = x k then a i * b j else 0 := by
  simp only [pad_eq hNa, pad_eq hNb, sum_mul_sum]
  rw [sum_comm]
  refine sum_congr rfl fun i _ => ?_
  rw [sum_comm]
  refine sum_congr rfl fun j _ => ?_
  rw [sum_eq_single (fun k => ((i k).val : ZMod (N k)))]
  · rw [if_pos rfl, mul_ite, mul_zero]
    refine if_congr ?_ rfl rfl
    rw [funext_iff]
    refine forall_congr' fun k => ?_
    rw [Pi.sub_apply, eq_sub_iff_add_eq, Nat.cast_add, add_comm]
  · intro y _ hy
    rw [if_neg (Ne.symm hy), zero_mul]
  · intro hc; exact absurd (mem_univ _) hc

end

/-- Entry `x` of the circular convolution of `a` and `b`, with the entry `origin` of `a` as its
centre: the sum of `a i · b j` over the index pairs with `i + j = x + origin` modulo the larger of
the lengths along each axis. -/
def circ {R : Type*} [CommSemiring R] {Na Nb : Fin d → ℕ} (a : NArr Na R) (b : NArr Nb R)
    (origin : Fin d → ℤ) (x : Fin d → ℤ) : R :=
  ∑ i, ∑ j, if ∀ k, ((i k).val + (j k).val : ℤ) % max (Na k) (Nb k) =
    (x k + origin k) % max (Na k) (Nb k) then a i * b j else 0

section
variable {Na Nb : Fin d → ℕ} [∀ k, NeZero (convDims Na Nb k)]

theorem circ_eq {R : Type*} [CommSemiring R] (a : NArr Na R) (b : NArr Nb R)
    (origin : Option (Fin d → ℤ)) (x : Fin d → ℤ) :
    rollNeg origin (fun x' : Grid (convDims Na Nb) =>
      ∑ y, pad (convDims Na Nb) a y * pad (convDims Na Nb) b (x' - y)) (fun k => (x k : ZMod _)) =
    circ a b (origin.getD 0) x := by
  have key : ∀ o : Fin d → ℤ, ∀ x' : Grid (convDims Na Nb),
      (∀ k, x' k = ((x k + o k : ℤ) : ZMod (convDims Na Nb k))) →
      ∑ y, pad (convDims Na Nb) a y * pad (convDims Na Nb) b (x' - y) = circ a b o x := by
    intro o x' hx
    rw [cconv_pad (N := convDims Na Nb) (fun k => le_max_left _ _) (fun k => le_max_right _ _)]
    unfold circ
    refine sum_congr rfl fun i _ => sum_congr rfl fun j _ => if_congr ?_ rfl rfl
    refine forall_congr' fun k => ?_
    rw [hx k]
    have := ZMod.intCast_eq_intCast_iff ((i k).val + (j k).val : ℤ) (x k + o k) (convDims Na Nb k)
    push_cast at this ⊢
    rw [this]
    unfold Int.ModEq convDims
    push_cast
    rfl
  cases origin with
  | none => exact key 0 _ fun k => by simp
  | some o => exact key o _ fun k => by simp

/-- `fftconv` of complex arrays of any sizes is their circular convolution about the origin. -/
theorem C32_fftconv_complex (a : NArr Na ℂ) (b : NArr Nb ℂ) (origin : Option (Fin d → ℤ))
    (x : Fin d → ℤ) :
    fftconvC a b origin (fun k => (x k : ZMod _)) = circ a b (origin.getD 0) x := by
  rw [← circ_eq]
  unfold fftconvC
  rw [ifft_mul]
  rfl

/-- `fftconv` of real arrays of any sizes is their circular convolution about the origin. -/
theorem C32_fftconv_real (e : Fin d) (a : NArr Na ℝ) (b : NArr Nb ℝ)
    (origin : Option (Fin d → ℤ)) (x : Fin d → ℤ) :
    fftconvR e a b origin (fun k => (x k : ZMod _)) = circ a b (origin.getD 0) x := by
  rw [← circ_eq]
  unfold fftconvR
  congr 1
  funext x'
  have hh : Herm fun ξ => fft (convDims Na Nb) (fun y => ((pad (convDims Na Nb) a y : ℝ) : ℂ)) ξ *
      fft (convDims Na Nb) (fun y => ((pad (convDims Na Nb) b y : ℝ) : ℂ)) ξ := by
    intro ξ
    simp only [fft_real _ ξ, map_mul]
  have h1 := irfft_of_herm e hh x'
  rw [ifft_mul] at h1
  unfold rfft
  apply Complex.ofReal_injective
  rw [h1]
  unfold cconv
  push_cast
  rfl

end

/-! ## The statements say something -/

/-- An odd and an even length, both with entries in every part of the half spectrum. -/
example : (∀ k, NeZero ((![3, 5] : Fin 2 → ℕ) k)) ∧ (∀ k, NeZero ((![3, 6] : Fin 2 → ℕ) k)) :=
  ⟨fun k => by fin_cases k <;> exact ⟨by decide⟩, fun k => by fin_cases k <;> exact ⟨by decide⟩⟩

/-- `[1, 2] * [1, 10, 100]` is circular over length three: `[201, 12, 120]`. -/
example :
    (fun x : ℤ => circ (Na := fun _ : Fin 1 => 2) (Nb := fun _ => 3) (R := ℕ)
      (fun i => ![1, 2] (i 0)) (fun j => ![1, 10, 100] (j 0)) 0 fun _ => x) 0 = 201 ∧
    (fun x : ℤ => circ (Na := fun _ : Fin 1 => 2) (Nb := fun _ => 3) (R := ℕ)
      (fun i => ![1, 2] (i 0)) (fun j => ![1, 10, 100] (j 0)) 0 fun _ => x) 1 = 12 := by
  constructor <;> decide

end Sporco.Conv
