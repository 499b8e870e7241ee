import Mathlib.Data.List.Basic
import Mathlib.Data.List.GetD
import Mathlib.Data.List.Nodup
import Mathlib.Data.Int.Notation
import Mathlib.Tactic.SplitIfs

/-!
# C103: the array that `rfftn_empty_aligned` allocates, and the data types of `sporco.fft`

`rfftn_empty_aligned(shape, axes, dtype)` is documented to have the shape of the output of
`rfftn` applied to an array of shape `shape`, and to be the input of the `irfftn` that reverses it.
The solvers allocate the array before the first transform and write transforms into it.
-/

set_option autoImplicit false

namespace Sporco.Util.FftShape

/-! ## Specification: the shapes of `rfftn` and `irfftn` (numpy, called through pyfftw) -/

/-- The position that a Python index denotes on a sequence of `n` entries; `none` for an
`IndexError`. (Language semantics; used by /repo/sporco/fft.py lines 192-193.) -/
def pyIdx (n : ℕ) (i : ℤ) : Option ℕ :=
  if 0 ≤ i ∧ i < n then some i.toNat
  else if i < 0 ∧ -(n : ℤ) ≤ i then some (i + n).toNat
  else none

/-- Positions denoted by all the axes. -/
def positions (n : ℕ) (axes : List ℤ) : Option (List ℕ) := axes.mapM (pyIdx n)

/-- Shape after one dimensional transforms `fft(a, n=s[ii], axis=ax)` on a list of (axis, length):
each one makes the length of its axis `s[ii]`, by cropping or zero padding. -/
def fftAlong (sh : List ℕ) (l : List (ℕ × ℕ)) : List ℕ :=
  l.foldl (fun sh p => sh.set p.1 p.2) sh

/-- Shape of `rfftn(a, None, axes)`, /repo/sporco/fft.py lines 257-282: a real transform of length
`s = a.shape[axes[-1]]` on the last axis of `axes`, which leaves `s // 2 + 1` entries, then complex
transforms of length `a.shape[ax]` on the others. `none` for an error. -/
def rfftnShape (shape : List ℕ) (axes : List ℤ) : Option (List ℕ) :=
  (positions shape.length axes).bind fun ps =>
    ps.getLast?.map fun k =>
      fftAlong (shape.set k (shape.getD k 0 / 2 + 1)) (ps.dropLast.map fun i => (i, shape.getD i 0))

/-- Shape of `irfftn(a, s, axes)`, /repo/sporco/fft.py lines 286-314: complex transforms of length
`s[ii]` on all but the last of `axes`, then a real inverse of length `s[-1]` on the last one. -/
def irfftnShape (shape : List ℕ) (s : List ℕ) (axes : List ℤ) : Option (List ℕ) :=
  (positions shape.length axes).bind fun ps =>
    if s.length = ps.length then
      ps.getLast?.bind fun k => s.getLast?.map fun n =>
        (fftAlong shape (ps.dropLast.zip s.dropLast)).set k n
    else none

/-! ## Model -/

/-- `rfftn_empty_aligned`, shape of the result, /repo/sporco/fft.py lines 191-195
(`ashp = list(shape); raxis = axes[-1]; ashp[raxis] = ashp[raxis] // 2 + 1`). The contents, the
memory order and the byte alignment are those of `pyfftw.empty_aligned` and are not modelled. -/
def rfftnEmpty (shape : List ℕ) (axes : List ℤ) : Option (List ℕ) :=
  axes.getLast?.bind fun raxis =>
    (pyIdx shape.length raxis).map fun k => shape.set k (shape.getD k 0 / 2 + 1)

/-! ## Proofs -/

theorem pyIdx_lt {n : ℕ} {i : ℤ} {k : ℕ} (h : pyIdx n i = some k) : k < n := by
  unfold pyIdx at h
  split_ifs at h with h1 h2 <;> simp only [Option.some.injEq] at h <;> omega

theorem positions_snoc (n : ℕ) (l : List ℤ) (a : ℤ) (ps : List ℕ)
    (h : positions n (l ++ [a]) = some ps) :
    ∃ qs k, ps = qs ++ [k] ∧ positions n l = some qs ∧ pyIdx n a = some k := by
  unfold positions at h
  rw [List.mapM_append] at h
  cases h1 : l.mapM (pyIdx n) with
  | none => simp [h1] at h
  | some qs =>
    cases h2 : pyIdx n a with
    | none => simp [h1, h2] at h
    | some k =>
      refine ⟨qs, k, ?_, by unfold positions; exact h1, rfl⟩
      simpa [h1, h2] using h.symm

/-- Transforms that keep the length of their axis keep the shape. -/
theorem fftAlong_keep (sh : List ℕ) (l : List (ℕ × ℕ)) (h : ∀ p ∈ l, p.1 < sh.length ∧ sh.getD p.1 0 = p.2) :
    fftAlong sh l = sh := by
  induction l with
  | nil => rfl
  | cons p l ih =>
    have hp := h p (by simp)
    have hset : sh.set p.1 p.2 = sh := by
      rw [← hp.2, List.getD_eq_getElem _ _ hp.1]
      exact List.set_getElem_self hp.1
    unfold fftAlong at ih ⊢
    rw [List.foldl_cons, hset]
    exact ih fun q hq => h q (by simp [hq])

theorem getD_set_ne (sh : List ℕ) (k i m : ℕ) (h : i ≠ k) : (sh.set k m).getD i 0 = sh.getD i 0 := by
  simp [List.getD_eq_getElem?_getD, List.getElem?_set_ne (Ne.symm h)]

theorem positions_lt {n : ℕ} : ∀ {l : List ℤ} {qs : List ℕ}, positions n l = some qs → ∀ q ∈ qs, q < n := by
  intro l
  induction l with
  | nil =>
    intro qs h q hq
    have : qs = [] := by
      unfold positions at h
      rw [List.mapM_nil] at h
      exact (Option.some.inj h).symm
    simp [this] at hq
  | cons a l ih =>
    intro qs h q hq
    unfold positions at h ih
    rw [List.mapM_cons] at h
    cases h1 : pyIdx n a with
    | none => simp [h1] at h
    | some k =>
      cases h2 : l.mapM (pyIdx n) with
      | none => simp [h1, h2] at h
      | some rs =>
        simp [h1, h2] at h
        rw [← h] at hq
        rcases List.mem_cons.1 hq with rfl | hq
        · exact pyIdx_lt h1
        · exact ih h2 q hq

/-- **C103.** For every shape and every sequence of axes (non-negative or negative) that are valid
and name different axes, the allocated array has exactly the shape of the output of `rfftn`. -/
theorem C103_rfftn (shape : List ℕ) (axes : List ℤ) (hne : axes ≠ []) (ps : List ℕ)
    (hps : positions shape.length axes = some ps) (hnd : ps.Nodup) :
    ∃ out, rfftnEmpty shape axes = some out ∧ rfftnShape shape axes = some out := by
  obtain ⟨l, a, rfl⟩ : ∃ l a, axes = l ++ [a] := ⟨_, _, (List.dropLast_append_getLast hne).symm⟩
  obtain ⟨qs, k, rfl, hq, hk⟩ := positions_snoc _ _ _ _ hps
  refine ⟨shape.set k (shape.getD k 0 / 2 + 1), ?_, ?_⟩
  · simp [rfftnEmpty, hk]
  · have hkq : ∀ q ∈ qs, q ≠ k := by
      intro q hq' he
      rw [List.nodup_append] at hnd
      exact hnd.2.2 q hq' k (by simp) he
    unfold rfftnShape
    rw [hps]
    simp only [Option.bind_some, List.getLast?_concat, Option.map_some, List.dropLast_concat]
    rw [fftAlong_keep]
    intro p hp
    obtain ⟨q, hq', rfl⟩ := List.mem_map.1 hp
    refine ⟨?_, getD_set_ne _ _ _ _ (hkq q hq')⟩
    rw [List.length_set]
    exact positions_lt hq q hq'

/-- **C103.** `irfftn` of that array, with `s` the lengths of the original array on `axes`, has the
original shape. -/
theorem C103_irfftn (shape : List ℕ) (axes : List ℤ) (hne : axes ≠ []) (ps : List ℕ)
    (hps : positions shape.length axes = some ps) (hnd : ps.Nodup) :
    ∃ out, rfftnEmpty shape axes = some out ∧
      irfftnShape out (ps.map fun i => shape.getD i 0) axes = some shape := by
  obtain ⟨l, a, rfl⟩ : ∃ l a, axes = l ++ [a] := ⟨_, _, (List.dropLast_append_getLast hne).symm⟩
  obtain ⟨qs, k, rfl, hq, hk⟩ := positions_snoc _ _ _ _ hps
  refine ⟨shape.set k (shape.getD k 0 / 2 + 1), by simp [rfftnEmpty, hk], ?_⟩
  have hkq : ∀ q ∈ qs, q ≠ k := by
    intro q hq' he
    rw [List.nodup_append] at hnd
    exact hnd.2.2 q hq' k (by simp) he
  unfold irfftnShape
  rw [List.length_set, hps]
  rw [Option.bind_some, if_pos (by rw [List.length_map])]
  simp only [Option.bind_some, List.getLast?_concat, Option.map_some, List.dropLast_concat, List.map_append,
    List.map_cons, List.map_nil]
  rw [fftAlong_keep]
  · rw [List.set_set, List.getD_eq_getElem _ _ (pyIdx_lt hk), List.set_getElem_self]
  · intro p hp
    rw [List.zip_map_right, List.mem_map] at hp
    obtain ⟨⟨x, y⟩, hxy, rfl⟩ := hp
    have hx : x = y ∧ x ∈ qs := by
      have := List.of_mem_zip hxy
      refine ⟨?_, this.1⟩
      obtain ⟨i, hi, e⟩ := List.mem_iff_getElem.1 hxy
      rw [List.getElem_zip, Prod.mk.injEq] at e
      exact e.1.symm.trans e.2
    obtain ⟨rfl, hx⟩ := hx
    refine ⟨?_, getD_set_ne _ _ _ _ (hkq _ hx)⟩
    rw [List.length_set]
    exact positions_lt hq _ hx

/-- **C103.** The allocated array differs from `shape` only on the last of `axes`, where it has
`n // 2 + 1` entries for `n`: enough for all the non-redundant frequencies and no more. -/
theorem C103_axis (shape : List ℕ) (axes : List ℤ) (a : ℤ) (k : ℕ) (hk : pyIdx shape.length a = some k) :
    ∃ out, rfftnEmpty shape (axes ++ [a]) = some out ∧ out.length = shape.length ∧
      2 * (out.getD k 0 - 1) ≤ shape.getD k 0 ∧ shape.getD k 0 < 2 * out.getD k 0 ∧
      ∀ i, i ≠ k → out.getD i 0 = shape.getD i 0 := by
  refine ⟨shape.set k (shape.getD k 0 / 2 + 1), by simp [rfftnEmpty, hk], List.length_set, ?_, ?_,
    fun i hi => getD_set_ne _ _ _ _ hi⟩
  all_goals
    have h : (shape.set k (shape.getD k 0 / 2 + 1)).getD k 0 = shape.getD k 0 / 2 + 1 := by
      rw [List.getD_eq_getElem _ _ (by rw [List.length_set]; exact pyIdx_lt hk), List.getElem_set_self]
    rw [h]
    omega

/-- **C103.** Why `s` is not optional in `irfftn`: every shape with an even length on the last of
`axes` shares its transform shape with another one. -/
theorem C103_ambiguous (shape : List ℕ) (axes : List ℤ) (a : ℤ) (k : ℕ)
    (hk : pyIdx shape.length a = some k) (hev : shape.getD k 0 % 2 = 0) :
    ∃ shape', shape' ≠ shape ∧ rfftnEmpty shape' (axes ++ [a]) = rfftnEmpty shape (axes ++ [a]) := by
  have hl := pyIdx_lt hk
  have hg : (shape.set k (shape.getD k 0 + 1)).getD k 0 = shape.getD k 0 + 1 := by
    rw [List.getD_eq_getElem _ _ (by rwa [List.length_set]), List.getElem_set_self]
  refine ⟨shape.set k (shape.getD k 0 + 1), fun h => ?_, ?_⟩
  · rw [h] at hg
    omega
  · have e : (shape.getD k 0 + 1) / 2 = shape.getD k 0 / 2 := by omega
    simp only [rfftnEmpty, List.getLast?_concat, Option.bind_some, List.length_set, hk, Option.map_some,
      hg, List.set_set, e]

/-! ## Data types -/

/-- The numeric numpy data types. -/
inductive DType
  | bool | int (bits : ℕ) | uint (bits : ℕ)
  | float16 | float32 | float64 | longdouble
  | complex64 | complex128 | clongdouble
  deriving DecidableEq

/-- Specification: the type of the real and imaginary parts of a complex type; `none` if real. -/
def DType.part : DType → Option DType
  | .complex64 => some .float32
  | .complex128 => some .float64
  | .clongdouble => some .longdouble
  | _ => none

/-- `is_complex_dtype`, /repo/sporco/fft.py line 58 (`dtype.kind == 'c'`). -/
def isComplex : DType → Bool
  | .complex64 | .complex128 | .clongdouble => true
  | _ => false

/-- `complex_dtype`, /repo/sporco/fft.py line 80: the type of `np.zeros(1, dtype) + 1j`. numpy's
promotion of an array type with a Python complex: the smallest complex type whose parts hold the
array type, `complex128` for the integers and the booleans. -/
def complexDtype : DType → DType
  | .bool | .int _ | .uint _ => .complex128
  | .float16 | .float32 | .complex64 => .complex64
  | .float64 | .complex128 => .complex128
  | .longdouble | .clongdouble => .clongdouble

/-- `real_dtype`, /repo/sporco/fft.py line 102: the type of `np.zeros(1, dtype).real`. -/
def realDtype : DType → DType
  | .complex64 => .float32
  | .complex128 => .float64
  | .clongdouble => .longdouble
  | d => d

/-- **C103.** `complex_dtype` gives a complex type for every type, and leaves complex types alone;
`real_dtype` gives a real type for every type and leaves real types alone. -/
theorem C103_dtype (d : DType) :
    isComplex (complexDtype d) = true ∧ isComplex (realDtype d) = false ∧
      (isComplex d = true → complexDtype d = d ∧ some (realDtype d) = d.part) ∧
      (isComplex d = false → realDtype d = d) := by
  cases d <;> simp [isComplex, complexDtype, realDtype, DType.part]

/-- **C103.** The two are inverse on the complex types and, of the real ones, exactly on those that
are the part of a complex type: not on half precision, integers and booleans. -/
theorem C103_dtype_inverse (d : DType) :
    (isComplex d = true → complexDtype (realDtype d) = d) ∧
      (isComplex d = false → (realDtype (complexDtype d) = d ↔ ∃ c : DType, c.part = some d)) := by
  refine ⟨by cases d <;> simp [isComplex, complexDtype, realDtype], fun h => ⟨fun e => ?_, ?_⟩⟩
  · refine ⟨complexDtype d, ?_⟩
    rw [← ((C103_dtype (complexDtype d)).2.2.1 (C103_dtype d).1).2]
    cases d <;> simp_all [isComplex, complexDtype, realDtype]
  · rintro ⟨c, hc⟩
    cases c <;> simp [DType.part] at hc <;> subst hc <;> rfl

/-- `_complex_dtype` of the cupy version, /repo/sporco/cupy/__init__.py lines 231-243: a search in a
dictionary of three types, `complex64` if the type is not found. On a platform without
`float128` that entry is skipped; it is present here. -/
def cupyComplexDtype (d : DType) : DType :=
  let table : List (DType × DType) :=
    [(.longdouble, .clongdouble), (.float64, .complex128), (.float32, .complex64)]
  match table.find? fun p => decide (d = p.1) with
  | some p => p.2
  | none => .complex64

/-- **C103 for the cupy version.** For the real floating point types it is the type that `sporco.fft`
gives. -/
theorem C103_cupy (d : DType) (h : d = .float16 ∨ ∃ c : DType, c.part = some d) :
    cupyComplexDtype d = complexDtype d := by
  rcases h with rfl | ⟨c, hc⟩
  · rfl
  · cases c <;> simp [DType.part] at hc <;> subst hc <;> rfl

/-- **C103, refuted for the cupy version.** Unlike `sporco.fft.complex_dtype`, it gives single
precision for double precision complex arrays and for integers. -/
theorem C103_cupy_refuted (b : ℕ) :
    complexDtype .complex128 = .complex128 ∧ cupyComplexDtype .complex128 = .complex64 ∧
      complexDtype (.int b) = .complex128 ∧ cupyComplexDtype (.int b) = .complex64 := by
  refine ⟨rfl, rfl, rfl, ?_⟩
  simp [cupyComplexDtype]

/-- A case: a stack of 5 colour images of 16 by 17 pixels, transformed on axes given from the end,
and the same axes in the other order. -/
example : positions 4 [-4, 1] = some [0, 1] ∧ rfftnEmpty [16, 17, 3, 5] [-4, 1] = some [16, 9, 3, 5] ∧
    rfftnEmpty [16, 17, 3, 5] [1, -4] = some [9, 17, 3, 5] ∧
    irfftnShape [9, 17, 3, 5] [17, 16] [1, -4] = some [16, 17, 3, 5] := by decide

end Sporco.Util.FftShape
