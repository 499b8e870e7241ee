import Verif.Util.FftShape
import Mathlib.Analysis.Fourier.ZMod

/-!
# C104: real and complex arrays in the constructor of the ADMM convolutional sparse coding classes

`GenericConvBPDN.__init__` takes the data type of all its working arrays from `S` (or from the
option `DataType`) but decides between real and complex transforms from `D` and `S` together.
-/

set_option autoImplicit false

namespace Sporco.Conv.CplxType

open Sporco.Util.FftShape

/-- What the constructor fixes: `self.dtype`, `self.real_dtype`, the data type of the array `Xf`
into which every x step writes, and the data type of `YU`. -/
structure Types where
  dtype : DType
  realFlag : Bool
  xf : DType
  yu : DType

/-- `set_dtype`, /repo/sporco/common.py lines 164-173: the option `DataType` overrides. -/
def setDtype (opt : Option DType) (d : DType) : DType := opt.getD d

/-- Data type of `empty_aligned_func(real)(shape, axes, dtype)`, /repo/sporco/fft.py lines 506-511,
with lines 194-195 and 155. -/
def emptyAlignedFunc (real : Bool) (d : DType) : DType := if real then complexDtype d else d

/-- `GenericConvBPDN.__init__`, /repo/sporco/admm/cbpdn.py lines 213-236, on the data types of `D`
and `S` and the option `DataType`. `np.isrealobj` is the negation of `is_complex_dtype`. -/
def init (D S : DType) (opt : Option DType) : Types :=
  let real := !isComplex D && !isComplex S
  let dtype := setDtype opt S
  { dtype := dtype, realFlag := real, xf := emptyAlignedFunc real dtype, yu := dtype }

/-- Conversion of a value on assignment to an array of the given data type (numpy): an array with a
real type drops the imaginary part. Rounding is not modelled. -/
def store (d : DType) (z : ℂ) : ℂ := if isComplex d then z else (z.re : ℂ)

/-- **C104.** Without the option `DataType`: if `S` is complex, or if `D` and `S` are both real,
every complex value is stored unchanged in `Xf`, and every entry of the data (complex if `S` is
complex, real otherwise) is stored unchanged in `D`, `S` and `YU`. The real transforms, which drop
the imaginary part of their input, are chosen exactly if the arrays they are applied to are real. -/
theorem C104_store (D S : DType) (h : isComplex D = true → isComplex S = true) :
    ((init D S none).realFlag = true ↔ isComplex (init D S none).dtype = false) ∧
      (∀ z, store (init D S none).xf z = z) ∧
      (∀ z : ℂ, (isComplex D = true ∨ z.im = 0) → store (init D S none).dtype z = z) ∧
      (∀ z : ℂ, (isComplex S = true ∨ z.im = 0) → store (init D S none).yu z = z) := by
  have key : ∀ z : ℂ, (isComplex S = true ∨ z.im = 0) → store S z = z := by
    rintro z (hz | hz)
    · simp [store, hz]
    · unfold store
      split_ifs
      · rfl
      · apply Complex.ext <;> simp [hz]
  have hflag : (init D S none).realFlag = true ↔ isComplex (init D S none).dtype = false := by
    cases hD : isComplex D <;> cases hS : isComplex S <;> simp_all [init, setDtype]
  refine ⟨hflag, fun z => ?_, fun z hz => key z (hz.imp_left h), key⟩
  cases hD : isComplex D <;> cases hS : isComplex S
  · simp [init, hD, hS, emptyAlignedFunc, setDtype, store, (C103_dtype S).1]
  · simp [init, hD, hS, emptyAlignedFunc, setDtype, store]
  · rw [h hD] at hS
    cases hS
  · simp [init, hD, hS, emptyAlignedFunc, setDtype, store]

/-- **C104, refuted part.** For a complex `D` and a real `S` (without `DataType`) the problem is
treated as complex, but every working array is real: the imaginary part of the dictionary and that
of every DFT coefficient of the solution are dropped. -/
theorem C104_mixed_refuted (D S : DType) (hD : isComplex D = true) (hS : isComplex S = false) :
    (init D S none).realFlag = false ∧ (∀ z : ℂ, store (init D S none).xf z = z.re) ∧
      (∀ z : ℂ, store (init D S none).dtype z = z.re) := by
  simp [init, hD, hS, emptyAlignedFunc, setDtype, store]

/-- **C104.** A complex `DataType` repairs the case of a complex `D`. -/
theorem C104_datatype (D S T : DType) (hD : isComplex D = true) (hT : isComplex T = true) (z : ℂ) :
    store (init D S (some T)).xf z = z ∧ store (init D S (some T)).dtype z = z ∧
      store (init D S (some T)).yu z = z := by
  simp [init, hD, hT, emptyAlignedFunc, setDtype, store]

/-! ## The dictionary update -/

/-- `ConvCnstrMODBase.__init__`, /repo/sporco/admm/ccmod.py lines 251-291, on the data types of `Z`
and `S` and the option `DataType`. The dictionary learning classes pass `Z = None` and call
`setcoef` later; `np.isrealobj(None)` is `True`. -/
def ccmodInit (Z : Option DType) (S : DType) (opt : Option DType) : Types :=
  let real := (Z.all fun d => !isComplex d) && !isComplex S
  let dtype := setDtype opt S
  { dtype := dtype, realFlag := real, xf := emptyAlignedFunc real dtype, yu := dtype }

/-- **C104 for the dictionary update.** The same as for the sparse coding; in particular `Z = None`
is safe for every type of `S`. -/
theorem C104_ccmod_store (Z : Option DType) (S : DType)
    (h : ∀ d ∈ Z, isComplex d = true → isComplex S = true) :
    ((ccmodInit Z S none).realFlag = true ↔ isComplex (ccmodInit Z S none).dtype = false) ∧
      (∀ z, store (ccmodInit Z S none).xf z = z) ∧
      (∀ z : ℂ, ((∃ d ∈ Z, isComplex d = true) ∨ z.im = 0) → store (ccmodInit Z S none).dtype z = z) ∧
      (∀ z : ℂ, (isComplex S = true ∨ z.im = 0) → store (ccmodInit Z S none).yu z = z) := by
  cases Z with
  | none =>
    obtain ⟨h1, h2, h3, h4⟩ := C104_store S S (fun h => h)
    have e : ccmodInit none S none = init S S none := by simp [ccmodInit, init]
    rw [e]
    exact ⟨h1, h2, fun z hz => h3 z (hz.imp_left (by rintro ⟨d, hd, -⟩; cases hd)), h4⟩
  | some d =>
    obtain ⟨h1, h2, h3, h4⟩ := C104_store d S (h d rfl)
    have e : ccmodInit (some d) S none = init d S none := by simp [ccmodInit, init]
    rw [e]
    exact ⟨h1, h2, fun z hz => h3 z (hz.imp_left (by rintro ⟨d', hd, hc⟩; cases hd; exact hc)), h4⟩

/-- **C104 for the dictionary update, refuted part.** A complex coefficient array with a real signal
loses its imaginary part, and so does every DFT coefficient of the dictionary. -/
theorem C104_ccmod_mixed_refuted (Z S : DType) (hZ : isComplex Z = true) (hS : isComplex S = false) :
    (ccmodInit (some Z) S none).realFlag = false ∧
      (∀ z : ℂ, store (ccmodInit (some Z) S none).xf z = z.re) ∧
      (∀ z : ℂ, store (ccmodInit (some Z) S none).dtype z = z.re) := by
  simp [ccmodInit, hZ, hS, emptyAlignedFunc, setDtype, store]

/-- A learning problem with a complex signal and one with a real signal. -/
example : (ccmodInit none .complex64 none).realFlag = false ∧ (ccmodInit none .complex64 none).xf = .complex64 ∧
    (ccmodInit none .float32 none).realFlag = true ∧ (ccmodInit none .float32 none).xf = .complex64 := by
  decide

/-! ## What the user sees -/

variable {N : ℕ} [NeZero N]

open ZMod

/-- The first x step, /repo/sporco/admm/cbpdn.py lines 266-281, for a one-dimensional signal of
length `N`, one filter with transform `Df`, `Y = U = 0` and full length transforms (`real_dtype`
false): `Xf[:] = conj(Df) Sf / (|Df|² + rho)`, stored in an array of type `d`, then `ifftn`. -/
noncomputable def xstep0 (d : DType) (rho : ℝ) (Df : ZMod N → ℂ) (s : ZMod N → ℂ) : ZMod N → ℂ :=
  𝓕⁻ (fun k => store d (star (Df k) * 𝓕 s k / (Complex.normSq (Df k) + rho)))

theorem star_dft (x : ZMod N → ℂ) (k : ZMod N) : star (𝓕 x k) = 𝓕 (fun n => star (x (-n))) k := by
  rw [dft_apply, dft_apply, star_sum, ← Equiv.sum_comp (Equiv.neg (ZMod N))]
  refine Finset.sum_congr rfl fun j _ => ?_
  simp only [Equiv.neg_apply, smul_eq_mul, star_mul']
  congr 1
  rw [neg_mul, neg_neg, AddChar.map_neg_eq_conj]
  rfl

/-- Dropping the imaginary parts of the DFT coefficients of `x` averages `x` with its conjugated
reflection. -/
theorem invDFT_re (W : ZMod N → ℂ) (n : ZMod N) :
    𝓕⁻ (fun k => ((W k).re : ℂ)) n = (𝓕⁻ W n + star (𝓕⁻ W (-n))) / 2 := by
  have hW : W = 𝓕 (𝓕⁻ W) := ((dft (N := N) (E := ℂ)).apply_symm_apply W).symm
  have : (fun k => ((W k).re : ℂ)) = 𝓕 (fun n => (𝓕⁻ W n + star (𝓕⁻ W (-n))) / 2) := by
    funext k
    have h1 : (fun n => (𝓕⁻ W n + star (𝓕⁻ W (-n))) / 2) =
        (1 / 2 : ℂ) • (𝓕⁻ W + fun n => star (𝓕⁻ W (-n))) := by
      funext n
      simp only [Pi.smul_apply, Pi.add_apply, smul_eq_mul]
      ring
    rw [h1, _root_.map_smul, map_add, Pi.smul_apply, Pi.add_apply, ← star_dft, ← hW, smul_eq_mul,
      Complex.re_eq_add_conj]
    simp only [Complex.star_def]
    ring
  rw [this]
  exact congrFun ((dft (N := N) (E := ℂ)).symm_apply_apply _) n

/-- **C104, what the user gets.** With a complex `D` and a real `S` the x step gives, instead of the
minimiser `x`, the mean of `x` and its conjugated reflection through the origin, even if the
imaginary part of `D` is zero. -/
theorem C104_reflection_refuted (D S : DType) (hD : isComplex D = true) (hS : isComplex S = false)
    (rho : ℝ) (Df s : ZMod N → ℂ) (n : ZMod N) :
    xstep0 (init D S none).xf rho Df s n =
      (xstep0 (init D D none).xf rho Df s n + star (xstep0 (init D D none).xf rho Df s (-n))) / 2 := by
  have h1 : ∀ z, store (init D S none).xf z = z.re := (C104_mixed_refuted D S hD hS).2.1
  have h2 : ∀ z, store (init D D none).xf z = z := (C104_store D D (fun h => h)).2.1
  unfold xstep0
  simp only [h1, h2]
  exact invDFT_re _ n

/-- With the arrays of the right type the x step satisfies the normal equation
`Dᴴ D x + rho x = Dᴴ s`, at every frequency. -/
theorem C104_normal (D S : DType) (h : isComplex D = true → isComplex S = true) (rho : ℝ) (hr : 0 < rho)
    (Df s : ZMod N → ℂ) (k : ZMod N) :
    star (Df k) * (Df k * 𝓕 (xstep0 (init D S none).xf rho Df s) k)
      + rho * 𝓕 (xstep0 (init D S none).xf rho Df s) k = star (Df k) * 𝓕 s k := by
  have hx : 𝓕 (xstep0 (init D S none).xf rho Df s) k =
      star (Df k) * 𝓕 s k / (Complex.normSq (Df k) + rho) := by
    unfold xstep0
    simp only [(C104_store D S h).2.1]
    exact congrFun ((dft (N := N) (E := ℂ)).apply_symm_apply _) k
  have hd : (Complex.normSq (Df k) : ℂ) + rho ≠ 0 := by
    rw [← Complex.ofReal_add]
    exact Complex.ofReal_ne_zero.2 (by have := Complex.normSq_nonneg (Df k); linarith)
  have hn : star (Df k) * Df k = (Complex.normSq (Df k) : ℂ) := by
    rw [Complex.star_def, mul_comm, Complex.mul_conj]
  rw [hx, ← mul_assoc, hn, ← add_mul]
  field_simp

/-- The case is real: a dictionary with the single filter `δ` in a complex array and the real
signal `δ₁` of length 4. The x step gives `1 / (2 (1 + rho))` at 1 and at 3; the minimiser is
`1 / (1 + rho)` at 1 and zero at 3. -/
theorem C104_example_refuted (rho : ℝ) :
    xstep0 (N := 4) (init .complex128 .complex128 none).xf rho (fun _ => 1) (Pi.single 1 1) 3 = 0 ∧
    xstep0 (N := 4) (init .complex128 .float64 none).xf rho (fun _ => 1) (Pi.single 1 1) 3
      = 1 / (2 * (1 + rho)) := by
  have hg : ∀ n : ZMod 4, xstep0 (N := 4) (init .complex128 .complex128 none).xf rho (fun _ => 1)
      (Pi.single 1 1) n = (Pi.single 1 1 : ZMod 4 → ℂ) n / (1 + rho) := by
    intro n
    unfold xstep0
    simp only [(C104_store .complex128 .complex128 (fun h => h)).2.1]
    have : (fun k => star (1 : ℂ) * 𝓕 (Pi.single 1 1 : ZMod 4 → ℂ) k / (Complex.normSq 1 + rho)) =
        𝓕 ((1 / (1 + rho) : ℂ) • (Pi.single 1 1 : ZMod 4 → ℂ)) := by
      funext k
      rw [_root_.map_smul, Pi.smul_apply]
      simp only [star_one, one_mul, map_one, Complex.ofReal_one, smul_eq_mul]
      ring
    rw [this]
    refine (congrFun ((dft (N := 4) (E := ℂ)).symm_apply_apply _) n).trans ?_
    simp only [Pi.smul_apply, smul_eq_mul]
    ring
  have h31 : (Pi.single 1 1 : ZMod 4 → ℂ) 3 = 0 := Pi.single_eq_of_ne (by decide) _
  refine ⟨by rw [hg, h31, zero_div], ?_⟩
  rw [C104_reflection_refuted .complex128 .float64 rfl rfl, hg, hg, h31,
    show (-3 : ZMod 4) = 1 by decide, Pi.single_eq_same]
  simp only [zero_div, zero_add, Complex.star_def, map_div₀, map_one, map_add, Complex.conj_ofReal]
  rw [div_div, mul_comm]

end Sporco.Conv.CplxType
