import Verif.Signal.Tikhonov
import Mathlib.Analysis.SpecialFunctions.Exp
import Mathlib.Analysis.Real.Sqrt
import Mathlib.Analysis.Real.Pi.Bounds

/-!
# Gaussian window and local contrast normalisation (C31)

`signal.py` 305-331 (`gaussian`) and 335-386 (`local_contrast_normalise`), for real images in exact
arithmetic. Images have two leading axes; a third axis is the index type `ι`.
-/

set_option autoImplicit false

namespace Sporco.Signal

open Finset Sporco.Conv

variable {d : ℕ}

/-! ## Model -/

/-- Entry `j` of `np.linspace(lo, hi, n)` -/
noncomputable def linspace (lo hi : ℝ) (n j : ℕ) : ℝ :=
  if n = 1 then lo else lo + j * ((hi - lo) / (n - 1))

/-- `gfn` (`signal.py` 321-322) -/
noncomputable def gfn (x sd : ℝ) : ℝ :=
  Real.exp (-(x ^ 2) / (2 * sd ^ 2)) / (Real.sqrt (2 * Real.pi) * sd)

/-- `gaussian` (`signal.py` 305-331) -/
noncomputable def gaussian (shape : Fin d → ℕ) (sd : ℝ) : NArr shape ℝ :=
  let gc : NArr shape ℝ := fun i => ∏ k, gfn (linspace (-3) 3 (shape k) (i k).val) sd
  fun i => gc i / ∑ j, gc j

section
variable {P : Fin 2 → ℕ} [∀ k, NeZero (P k)]

instance (n : ℕ) (k : Fin 2) : NeZero (convDims (fun _ => 2 * n + 1) P k) :=
  ⟨by have := NeZero.pos (P k); unfold convDims; omega⟩

/-- `fftconv(g, b)` for an array `b` of shape `P` (`signal.py` 370, 373), where `P` is the shape of
the padded image, so not smaller than that of the window and equal to the shape of the result. -/
noncomputable def conv (n : ℕ) (g : NArr (fun _ : Fin 2 => 2 * n + 1) ℝ) (b : Grid P → ℝ)
    (p : Grid P) : ℝ :=
  fftconvR (Na := fun _ : Fin 2 => 2 * n + 1) (Nb := P) 1 g
    (fun i => b fun k => ((i k).val : ZMod (P k))) none fun k => ((p k).val : ZMod _)

/-- `np.roll(x, (-n, -n), axis=(0, 1))` -/
def rollBack (n : ℕ) (x : Grid P → ℝ) (p : Grid P) : ℝ := x fun k => p k + (n : ZMod (P k))

end

/-- Division with `none` for `nan` or `inf`. -/
noncomputable def quot (x y : ℝ) : Option ℝ := if y = 0 then none else some (x / y)

/-- Entry `i` of `x[n:-n, n:-n]`; `none` if `i` is out of range. Note that `n:-n` is empty for
`n = 0`. -/
def inner {R : Type*} {P : Fin 2 → ℕ} (n : ℕ) (x : Grid P → R) (i : Fin 2 → ℕ) : Option R :=
  if 0 < n ∧ ∀ k, i k + 2 * n < P k then some (x fun k => ((n + i k : ℕ) : ZMod (P k))) else none

section
variable {ι : Type*} {sz : Fin 2 → ℕ} [∀ k, NeZero (sz k)]

/-- The three arrays computed by `local_contrast_normalise` before the final slicing (`signal.py`
358-384) for the channel `i`. -/
noncomputable def lcnFull (s : ι → NArr sz ℝ) (n : ℕ) (c : Option ℝ) (i : ι) :
    (Grid (padShape sz n) → Option ℝ) × (Grid (padShape sz n) → ℝ) ×
      (Grid (padShape sz n) → ℝ) :=
  let g := gaussian (fun _ : Fin 2 => 2 * n + 1) 1
  let sp := symPad n (s i)
  let smn := rollBack n (conv n g sp)
  let s1 := fun p => sp p - smn p
  let snrm0 := rollBack n fun p => Real.sqrt (max 0 (conv n g (fun q => s1 q ^ 2) p))
  let c' := match c with
    | some c => c
    | none => (∑ p, snrm0 p) / Fintype.card (Grid (padShape sz n))
  let snrm := fun p => max c' (snrm0 p)
  (fun p => quot (s1 p) (snrm p), smn, snrm)

/-- `local_contrast_normalise(s, n, c)` (`signal.py` 335-386): the entries `j` of channel `i` of
`scn`, `smn` and `snrm`; `none` is an index out of range. -/
noncomputable def lcn (s : ι → NArr sz ℝ) (n : ℕ) (c : Option ℝ) (i : ι) (j : Fin 2 → ℕ) :
    Option (Option ℝ) × Option ℝ × Option ℝ :=
  let r := lcnFull s n c i
  (inner n r.1 j, inner n r.2.1 j, inner n r.2.2 j)

end

/-! ## Specification -/

/-- The mean of `f` around `p` with weights `w` on the window of radius `n`, on a periodic image. -/
noncomputable def localMean {P : Fin 2 → ℕ} (n : ℕ) (w : NArr (fun _ : Fin 2 => 2 * n + 1) ℝ)
    (f : Grid P → ℝ) (p : Grid P) : ℝ :=
  ∑ i, w i * f fun k => p k + ((i k).val : ZMod (P k)) - (n : ZMod (P k))

/-- The norm of the deviations from the local means in the window around `p`. -/
noncomputable def localNorm {P : Fin 2 → ℕ} (n : ℕ) (w : NArr (fun _ : Fin 2 => 2 * n + 1) ℝ)
    (f : Grid P → ℝ) (p : Grid P) : ℝ :=
  Real.sqrt (localMean n w (fun q => (f q - localMean n w f q) ^ 2) p)

/-! ## Gaussian -/

theorem linspace_rev (lo hi : ℝ) (h : lo = -hi) (n j : ℕ) (hj : j < n) :
    linspace lo hi n (n - 1 - j) ^ 2 = linspace lo hi n j ^ 2 := by
  unfold linspace
  by_cases h1 : n = 1
  · rw [if_pos h1, if_pos h1]
  · rw [if_neg h1, if_neg h1]
    have hn : ((n : ℝ) - 1) ≠ 0 := by
      have : (n : ℝ) ≠ 1 := by exact_mod_cast h1
      intro h; apply this; linarith
    have : ((n - 1 - j : ℕ) : ℝ) = n - 1 - j := by
      rw [Nat.cast_sub (by omega), Nat.cast_sub (by omega)]; simp
    rw [this, h]
    field_simp
    ring

theorem gfn_ne (x sd : ℝ) (h : sd ≠ 0) : gfn x sd ≠ 0 := by
  unfold gfn
  have h1 : Real.sqrt (2 * Real.pi) ≠ 0 := by
    rw [Real.sqrt_ne_zero']; positivity
  exact div_ne_zero (Real.exp_ne_zero _) (mul_ne_zero h1 h)

theorem gfn_mul_pos (x y sd : ℝ) (h : sd ≠ 0) : 0 < gfn x sd * gfn y sd := by
  unfold gfn
  rw [div_mul_div_comm]
  have h1 : Real.sqrt (2 * Real.pi) ≠ 0 := by
    rw [Real.sqrt_ne_zero']; positivity
  have : 0 < Real.sqrt (2 * Real.pi) * sd * (Real.sqrt (2 * Real.pi) * sd) :=
    mul_self_pos.2 (mul_ne_zero h1 h)
  positivity

/-- The sum of the entries is not zero, and each is positive after normalisation. -/
theorem gaussian_pos (shape : Fin d → ℕ) (sd : ℝ) (h : sd ≠ 0) (i : (k : Fin d) → Fin (shape k)) :
    0 < gaussian shape sd i := by
  simp only [gaussian]
  -- all the products have the sign of the product at `i`
  set gc : NArr shape ℝ := fun i => ∏ k, gfn (linspace (-3) 3 (shape k) (i k).val) sd with hgc
  have hmul : ∀ j, 0 < gc i * gc j := by
    intro j
    rw [hgc]
    simp only
    rw [← prod_mul_distrib]
    exact prod_pos fun k _ => gfn_mul_pos _ _ _ h
  have hsum : 0 < gc i * ∑ j, gc j := by
    rw [mul_sum]
    exact sum_pos (fun j _ => hmul j) ⟨i, mem_univ _⟩
  have hs : ∑ j, gc j ≠ 0 := by
    intro h0; rw [h0, mul_zero] at hsum; exact lt_irrefl _ hsum
  have : gc i / ∑ j, gc j = gc i * (∑ j, gc j) / (∑ j, gc j) ^ 2 := by
    field_simp
  rw [this]
  exact div_pos hsum (lt_of_le_of_ne (sq_nonneg _) (Ne.symm (pow_ne_zero 2 hs)))

/-- **C31, gaussian.** For every non-empty shape and every standard deviation other than zero the
entries are positive and sum to one, and the array is symmetric about its centre along any set of
axes. -/
theorem C31_gaussian (shape : Fin d → ℕ) (hs : ∀ k, 0 < shape k) (sd : ℝ) (h : sd ≠ 0) :
    (∀ i, 0 < gaussian shape sd i) ∧ ∑ i, gaussian shape sd i = 1 ∧
    ∀ (A : Fin d → Bool) (i : (k : Fin d) → Fin (shape k)),
      gaussian shape sd (fun k => if A k then (i k).rev else i k) = gaussian shape sd i := by
  refine ⟨gaussian_pos shape sd h, ?_, fun A i => ?_⟩
  · have i0 : (k : Fin d) → Fin (shape k) := fun k => ⟨0, hs k⟩
    have hp := gaussian_pos shape sd h i0
    simp only [gaussian] at hp ⊢
    rw [← sum_div]
    refine div_self fun h0 => ?_
    rw [h0, div_zero] at hp
    exact lt_irrefl _ hp
  · simp only [gaussian]
    congr 1
    refine prod_congr rfl fun k _ => ?_
    unfold gfn
    cases A k
    · simp
    · simp only [if_true]
      rw [Fin.val_rev, show shape k - ((i k).val + 1) = shape k - 1 - (i k).val by omega,
        linspace_rev (-3) 3 rfl _ _ (i k).2]

/-! ## Local contrast normalisation -/

section
variable {P : Fin 2 → ℕ} [∀ k, NeZero (P k)]

theorem conv_eq (n : ℕ) (hP : ∀ k, 2 * n + 1 ≤ P k) (g : NArr (fun _ : Fin 2 => 2 * n + 1) ℝ)
    (b : Grid P → ℝ) (p : Grid P) :
    conv n g b p = ∑ i, g i * b fun k => p k - ((i k).val : ZMod (P k)) := by
  unfold conv
  have h := C32_fftconv_real (Na := fun _ : Fin 2 => 2 * n + 1) (Nb := P) 1 g
    (fun i => b fun k => ((i k).val : ZMod (P k))) none fun k => ((p k).val : ℤ)
  simp only [Int.cast_natCast] at h
  rw [h]
  unfold circ
  refine sum_congr rfl fun i _ => ?_
  rw [sum_eq_single fun k => ⟨(p k - ((i k).val : ZMod (P k))).val, ZMod.val_lt _⟩]
  · rw [if_pos]
    · congr 1
      refine congrArg b (funext fun k => ?_)
      simp
    · intro k
      have hm : max (2 * n + 1) (P k) = P k := max_eq_right (hP k)
      have e : (((i k).val + (p k - ((i k).val : ZMod (P k))).val : ℤ) : ZMod (P k)) =
          ((p k).val : ℤ) := by
        push_cast
        simp
      have e2 := (ZMod.intCast_eq_intCast_iff _ _ (P k)).1 e
      simp only [Option.getD_none, Pi.zero_apply, add_zero]
      rw [hm]
      exact e2
  · intro j _ hj
    rw [if_neg]
    intro hk
    apply hj
    funext k
    have h1 := hk k
    simp only [Option.getD_none, Pi.zero_apply, add_zero] at h1
    rw [max_eq_right (hP k)] at h1
    have e := (ZMod.intCast_eq_intCast_iff _ _ (P k)).2 h1
    push_cast at e
    rw [ZMod.natCast_zmod_val] at e
    apply Fin.ext
    simp only
    rw [← e, add_sub_cancel_left, ZMod.val_natCast, Nat.mod_eq_of_lt (j k).2]
  · intro hc; exact absurd (mem_univ _) hc

/-- The rolled convolution with a symmetric window is the local mean. -/
theorem roll_conv (n : ℕ) (hP : ∀ k, 2 * n + 1 ≤ P k) (b : Grid P → ℝ) (p : Grid P) :
    rollBack n (conv n (gaussian (fun _ : Fin 2 => 2 * n + 1) 1) b) p =
      localMean n (gaussian (fun _ : Fin 2 => 2 * n + 1) 1) b p := by
  unfold rollBack localMean
  rw [conv_eq n hP]
  rw [← Equiv.sum_comp (Equiv.piCongrRight fun _ : Fin 2 => (Fin.revPerm : Equiv.Perm (Fin (2 * n + 1))))]
  refine sum_congr rfl fun i _ => ?_
  have hsym := (C31_gaussian (fun _ : Fin 2 => 2 * n + 1) (fun _ => by omega) 1 one_ne_zero).2.2
    (fun _ => true) i
  simp only [if_true] at hsym
  have e : (Equiv.piCongrRight fun _ : Fin 2 => (Fin.revPerm : Equiv.Perm (Fin (2 * n + 1)))) i =
      fun k => (i k).rev := rfl
  rw [e, hsym]
  congr 2
  funext k
  simp only [Fin.val_rev]
  have h1 : ((2 * n + 1 - ((i k).val + 1) : ℕ) : ZMod (P k)) =
      2 * (n : ZMod (P k)) - (i k).val := by
    have h2 : (2 * n + 1 - ((i k).val + 1)) + (i k).val = 2 * n := by
      have := (i k).2; omega
    have h3 := congrArg (Nat.cast : ℕ → ZMod (P k)) h2
    rw [Nat.cast_add, Nat.cast_mul, Nat.cast_ofNat] at h3
    rw [← h3]; ring
  rw [h1]; ring

theorem localMean_nonneg (n : ℕ) (f : Grid P → ℝ) (hf : ∀ p, 0 ≤ f p) (p : Grid P) :
    0 ≤ localMean n (gaussian (fun _ : Fin 2 => 2 * n + 1) 1) f p :=
  sum_nonneg fun i _ => mul_nonneg (gaussian_pos _ 1 one_ne_zero i).le (hf _)

/-- A window mean of nonnegative values that vanishes at `p` has only zeros in the window. -/
theorem localMean_zero (n : ℕ) (f : Grid P → ℝ) (hf : ∀ p, 0 ≤ f p) (p : Grid P)
    (h : localMean n (gaussian (fun _ : Fin 2 => 2 * n + 1) 1) f p = 0)
    (i : Fin 2 → Fin (2 * n + 1)) : f (fun k => p k + ((i k).val : ZMod (P k)) - n) = 0 := by
  have h1 := (sum_eq_zero_iff_of_nonneg fun i _ => mul_nonneg
    (gaussian_pos (fun _ : Fin 2 => 2 * n + 1) 1 one_ne_zero i).le (hf _)).1 h i (mem_univ _)
  exact (mul_eq_zero.1 h1).resolve_left (gaussian_pos _ 1 one_ne_zero i).ne'

/-- The centre of the window. -/
theorem localMean_zero_centre (n : ℕ) (f : Grid P → ℝ) (hf : ∀ p, 0 ≤ f p) (p : Grid P)
    (h : localMean n (gaussian (fun _ : Fin 2 => 2 * n + 1) 1) f p = 0) : f p = 0 := by
  have := localMean_zero n f hf p h fun _ => ⟨n, by omega⟩
  simpa using this

theorem localMean_const (n : ℕ) (v : ℝ) (p : Grid P) :
    localMean n (gaussian (fun _ : Fin 2 => 2 * n + 1) 1) (fun _ => v) p = v := by
  unfold localMean
  rw [← sum_mul, (C31_gaussian (fun _ : Fin 2 => 2 * n + 1) (fun _ => by omega) 1 one_ne_zero).2.1,
    one_mul]

/-- A set of pixels of a periodic image that is closed under unit steps is everything. -/
theorem grid_reach (S : Grid P → Prop) (p0 : Grid P) (h0 : S p0)
    (hs : ∀ a p, S p → S (fun k => p k + if k = a then 1 else 0)) (p : Grid P) : S p := by
  have hm : ∀ a (m : ℕ) p, S p → S (fun k => p k + if k = a then (m : ZMod (P k)) else 0) := by
    intro a m
    induction m with
    | zero => intro p hp; simpa using hp
    | succ m ih =>
      intro p hp
      have h := ih _ (hs a p hp)
      have e : (fun k => (p k + if k = a then 1 else 0) + if k = a then (m : ZMod (P k)) else 0) =
          fun k => p k + if k = a then ((m + 1 : ℕ) : ZMod (P k)) else 0 := by
        funext k
        split
        · push_cast; ring
        · ring
      rwa [e] at h
  have h1 := hm 1 (p 1 - p0 1).val _ (hm 0 (p 0 - p0 0).val p0 h0)
  have e : (fun k => (p0 k + if k = 0 then ((p 0 - p0 0).val : ZMod (P k)) else 0) +
      if k = 1 then ((p 1 - p0 1).val : ZMod (P k)) else 0) = p := by
    funext k
    fin_cases k <;> simp
  rwa [e] at h1

/-- An image that equals its local means is constant. -/
theorem const_of_localMean (n : ℕ) (hn : 0 < n) (f : Grid P → ℝ)
    (h : ∀ p, localMean n (gaussian (fun _ : Fin 2 => 2 * n + 1) 1) f p = f p) :
    ∃ v, ∀ p, f p = v := by
  obtain ⟨p0, hp0⟩ := Finite.exists_max f
  refine ⟨f p0, grid_reach (fun p => f p = f p0) p0 rfl fun a p hp => ?_⟩
  have hm : localMean n (gaussian (fun _ : Fin 2 => 2 * n + 1) 1) (fun q => f p0 - f q) p = 0 := by
    have e : localMean n (gaussian (fun _ : Fin 2 => 2 * n + 1) 1) (fun q => f p0 - f q) p =
        localMean n (gaussian (fun _ : Fin 2 => 2 * n + 1) 1) (fun _ => f p0) p -
          localMean n (gaussian (fun _ : Fin 2 => 2 * n + 1) 1) f p := by
      unfold localMean
      rw [← sum_sub_distrib]
      exact sum_congr rfl fun i _ => by ring
    rw [e, localMean_const, h p, hp, sub_self]
  have := localMean_zero n _ (fun q => sub_nonneg.2 (hp0 q)) p hm
    fun k => ⟨n + if k = a then 1 else 0, by split <;> omega⟩
  have e : (fun k => p k + ((n + if k = a then 1 else 0 : ℕ) : ZMod (P k)) - (n : ZMod (P k))) =
      fun k => p k + if k = a then 1 else 0 := by
    funext k
    split <;> push_cast <;> ring
  simp only at this
  rw [e] at this
  linarith

end

section
variable {ι : Type*} {sz : Fin 2 → ℕ} [∀ k, NeZero (sz k)]

theorem padded_ge (n : ℕ) (k : Fin 2) : 2 * n + 1 ≤ padShape sz n k := by
  have := NeZero.pos (sz k); unfold padShape; omega

/-- The value of `c` used. -/
noncomputable def cUsed (s : NArr sz ℝ) (n : ℕ) (c : Option ℝ) : ℝ :=
  c.getD ((∑ p, localNorm n (gaussian (fun _ : Fin 2 => 2 * n + 1) 1) (symPad n s) p) /
    Fintype.card (Grid (padShape sz n)))

/-- The arrays before slicing, in terms of the specification. -/
theorem lcnFull_eq (s : ι → NArr sz ℝ) (n : ℕ) (c : Option ℝ) (i : ι) :
    lcnFull s n c i = (fun p => quot (symPad n (s i) p -
        localMean n (gaussian (fun _ : Fin 2 => 2 * n + 1) 1) (symPad n (s i)) p)
        (max (cUsed (s i) n c)
          (localNorm n (gaussian (fun _ : Fin 2 => 2 * n + 1) 1) (symPad n (s i)) p)),
      localMean n (gaussian (fun _ : Fin 2 => 2 * n + 1) 1) (symPad n (s i)),
      fun p => max (cUsed (s i) n c)
        (localNorm n (gaussian (fun _ : Fin 2 => 2 * n + 1) 1) (symPad n (s i)) p)) := by
  have h1 : rollBack n (conv n (gaussian (fun _ : Fin 2 => 2 * n + 1) 1) (symPad n (s i))) =
      localMean n (gaussian (fun _ : Fin 2 => 2 * n + 1) 1) (symPad n (s i)) := funext fun p =>
    roll_conv n (padded_ge n) _ p
  have h2 : rollBack n (fun p => Real.sqrt (max 0
      (conv n (gaussian (fun _ : Fin 2 => 2 * n + 1) 1) (fun q => (symPad n (s i) q -
        localMean n (gaussian (fun _ : Fin 2 => 2 * n + 1) 1) (symPad n (s i)) q) ^ 2) p))) =
      localNorm n (gaussian (fun _ : Fin 2 => 2 * n + 1) 1) (symPad n (s i)) := by
    funext p
    have e := roll_conv n (padded_ge n) (fun q => (symPad n (s i) q -
        localMean n (gaussian (fun _ : Fin 2 => 2 * n + 1) 1) (symPad n (s i)) q) ^ 2) p
    unfold rollBack at e
    unfold rollBack localNorm
    simp only
    rw [e, max_eq_right (localMean_nonneg n _ (fun q => sq_nonneg _) p)]
  unfold lcnFull cUsed
  simp only [h1, h2]
  cases c <;> rfl

theorem inner_some {R : Type*} (n : ℕ) (hn : 0 < n) (x : Grid (padShape sz n) → R)
    (j : (k : Fin 2) → Fin (sz k)) :
    inner n x (fun k => (j k).val) =
      some (x fun k => ((n + (j k).val : ℕ) : ZMod (padShape sz n k))) := by
  unfold inner
  rw [if_pos]
  refine ⟨hn, fun k => ?_⟩
  have := (j k).2
  simp only [padShape]
  omega

theorem symPad_inside {R : Type*} (n : ℕ) (s : NArr sz R) (j : (k : Fin 2) → Fin (sz k)) :
    symPad n s (fun k => ((n + (j k).val : ℕ) : ZMod (padShape sz n k))) = s j := by
  refine symPad_spec n s _ j fun k => Or.inl ?_
  rw [ZMod.val_natCast, Nat.mod_eq_of_lt (by have := (j k).2; unfold padShape; omega)]
  push_cast
  ring_nf
  try rfl

/-- Entries in the crop. -/
theorem lcn_entry (s : ι → NArr sz ℝ) (n : ℕ) (hn : 0 < n) (c : Option ℝ) (i : ι)
    (j : (k : Fin 2) → Fin (sz k)) (p : Grid (padShape sz n))
    (hp : p = fun k => ((n + (j k).val : ℕ) : ZMod (padShape sz n k))) :
    lcn s n c i (fun k => (j k).val) = (some (quot (s i j -
        localMean n (gaussian (fun _ : Fin 2 => 2 * n + 1) 1) (symPad n (s i)) p)
      (max (cUsed (s i) n c)
        (localNorm n (gaussian (fun _ : Fin 2 => 2 * n + 1) 1) (symPad n (s i)) p))),
      some (localMean n (gaussian (fun _ : Fin 2 => 2 * n + 1) 1) (symPad n (s i)) p),
      some (max (cUsed (s i) n c)
        (localNorm n (gaussian (fun _ : Fin 2 => 2 * n + 1) 1) (symPad n (s i)) p))) := by
  unfold lcn
  subst hp
  simp only [inner_some n hn, lcnFull_eq, symPad_inside]

theorem recon_arith (s m r : ℝ) (hr : r ≠ 0) :
    ∃ a, quot (s - m) r = some a ∧ r * a + m = s := by
  refine ⟨(s - m) / r, by rw [quot, if_neg hr], ?_⟩
  field_simp
  ring

/-- **C31, local contrast normalisation.** For `n ≥ 1` and `c > 0`, at every pixel of every image:
`smn` is the local mean of the padded image, `snrm` the local norm of the deviations but at least
`c`, all values are finite, and `snrm * scn + smn` is the input. -/
theorem C31_lcn (s : ι → NArr sz ℝ) (n : ℕ) (hn : 0 < n) (c : ℝ) (hc : 0 < c) (i : ι)
    (sp : Grid (padShape sz n) → ℝ) (hsp : IsSymPad n (s i) sp) (j : (k : Fin 2) → Fin (sz k)) :
    let w := gaussian (fun _ : Fin 2 => 2 * n + 1) 1
    let p : Grid (padShape sz n) := fun k => ((n + (j k).val : ℕ) : ZMod _)
    ∃ scn smn snrm, lcn s n (some c) i (fun k => (j k).val) = (some (some scn), some smn, some snrm) ∧
      smn = localMean n w sp p ∧ snrm = max c (localNorm n w sp p) ∧ snrm * scn + smn = s i j := by
  intro w p
  rw [isSymPad_eq n (s i) sp hsp, lcn_entry s n hn (some c) i j p rfl]
  have hpos : max c (localNorm n w (symPad n (s i)) p) ≠ 0 := (lt_max_of_lt_left hc).ne'
  obtain ⟨a, h1, h2⟩ := recon_arith (s i j) (localMean n w (symPad n (s i)) p) _ hpos
  exact ⟨a, _, _, by rw [← h1]; rfl, rfl, rfl, h2⟩

/-- The padded image is constant only if the image is. -/
theorem const_of_pad (s : NArr sz ℝ) (n : ℕ) (v : ℝ) (h : ∀ p, symPad n s p = v) (j) : s j = v := by
  rw [← symPad_inside n s j]; exact h _

/-- The mean of the local norms is positive for an image that is not constant. -/
theorem mean_pos (s : NArr sz ℝ) (n : ℕ) (hn : 0 < n) (hs : ¬ ∃ v, ∀ j, s j = v) :
    0 < (∑ p, localNorm n (gaussian (fun _ : Fin 2 => 2 * n + 1) 1) (symPad n s) p) /
      Fintype.card (Grid (padShape sz n)) := by
  refine div_pos (lt_of_le_of_ne (sum_nonneg fun p _ => Real.sqrt_nonneg _) fun h0 => hs ?_)
    (Nat.cast_pos.2 Fintype.card_pos)
  have h1 := (sum_eq_zero_iff_of_nonneg fun p _ => Real.sqrt_nonneg _).1 h0.symm
  obtain ⟨v, hv⟩ := const_of_localMean n hn (symPad n s) fun p => by
    have h2 := h1 p (mem_univ _)
    have h3 : localMean n (gaussian (fun _ : Fin 2 => 2 * n + 1) 1) (fun q => (symPad n s q -
        localMean n (gaussian (fun _ : Fin 2 => 2 * n + 1) 1) (symPad n s) q) ^ 2) p = 0 :=
      (Real.sqrt_eq_zero (localMean_nonneg n _ (fun q => sq_nonneg _) p)).1 h2
    have h4 := localMean_zero_centre n _ (fun q => sq_nonneg _) p h3
    have h5 := pow_eq_zero_iff (two_ne_zero) |>.1 h4
    linarith
  exact ⟨v, const_of_pad s n v hv⟩

/-- **C31, default `c`.** For `n ≥ 1` and `c=None`, reconstruction holds at every pixel of every
channel that is not constant. Missing from the property: constant channels
(`C31_constant_refuted`). -/
theorem C31_lcn_default_partial (s : ι → NArr sz ℝ) (n : ℕ) (hn : 0 < n) (i : ι)
    (hs : ¬ ∃ v, ∀ j, s i j = v) (j : (k : Fin 2) → Fin (sz k)) :
    ∃ scn smn snrm, lcn s n none i (fun k => (j k).val) = (some (some scn), some smn, some snrm) ∧
      snrm * scn + smn = s i j := by
  rw [lcn_entry s n hn none i j _ rfl]
  have hpos : max (cUsed (s i) n none) (localNorm n (gaussian (fun _ : Fin 2 => 2 * n + 1) 1)
      (symPad n (s i)) fun k => ((n + (j k).val : ℕ) : ZMod (padShape sz n k))) ≠ 0 :=
    (lt_max_of_lt_left (mean_pos (s i) n hn hs)).ne'
  obtain ⟨a, h1, h2⟩ := recon_arith (s i j) (localMean n (gaussian (fun _ : Fin 2 => 2 * n + 1) 1)
    (symPad n (s i)) fun k => ((n + (j k).val : ℕ) : ZMod (padShape sz n k))) _ hpos
  exact ⟨a, _, _, by rw [← h1], h2⟩

/-- **C31, refuted for constant channels with the default `c`**: every entry of `scn` is `0/0`. -/
theorem C31_constant_refuted (s : ι → NArr sz ℝ) (n : ℕ) (hn : 0 < n) (i : ι) (v : ℝ)
    (hs : ∀ j, s i j = v) (j : (k : Fin 2) → Fin (sz k)) :
    (lcn s n none i fun k => (j k).val).1 = some none := by
  have hsp : symPad n (s i) = fun _ => v := funext fun p => hs _
  have hN : ∀ p, localNorm n (gaussian (fun _ : Fin 2 => 2 * n + 1) 1)
      (fun _ : Grid (padShape sz n) => v) p = 0 := by
    intro p
    unfold localNorm
    simp only [localMean_const, sub_self]
    norm_num [localMean_const]
  rw [lcn_entry s n hn none i j _ rfl, cUsed, hsp]
  simp only [Option.getD_none, hN, sum_const_zero, zero_div, max_self, quot, if_true]

/-- **C31, refuted for `n = 0`**: the slices `n:-n` are empty. -/
theorem C31_zero_refuted (s : ι → NArr sz ℝ) (c : Option ℝ) (i : ι) (j : Fin 2 → ℕ) :
    lcn s 0 c i j = (none, none, none) := by
  simp [lcn, inner]

end

/-- Hypotheses are met: the image `[[0, 1]]` is not constant. -/
example : ¬ ∃ v : ℝ, ∀ j : (k : Fin 2) → Fin ((![1, 2] : Fin 2 → ℕ) k), ((j 1).val : ℝ) = v := by
  rintro ⟨v, h⟩
  have h0 := h fun k => ⟨0, by fin_cases k <;> simp⟩
  have h1 := h fun k => ⟨if k = 1 then 1 else 0, by fin_cases k <;> simp⟩
  simp at h0 h1
  linarith

end Sporco.Signal
