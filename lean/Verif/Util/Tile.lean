import Mathlib.Data.Real.Basic
import Mathlib.Data.Nat.Sqrt
import Mathlib.Data.Finset.Lattice.Fold
import Mathlib.Data.Finset.Prod
import Mathlib.Data.Fintype.Basic
import Mathlib.Tactic.Linarith
import Mathlib.Tactic.Ring
import Mathlib.Tactic.NormNum
import Mathlib.Tactic.FinCases

/-!
# The dictionary image (C79)

Model of `tiledict` (`sporco/util.py` 285-352). Arrays are functions of natural number indices with
a shape; `γ` is the channel axis (one point for a dictionary without channels). Simplification:
exact arithmetic.
-/

set_option autoImplicit false

namespace Sporco.Util.Tile

variable {γ : Type} [Fintype γ]

/-! ## Model -/

/-- The index set of an array of shape `(d0, d1, C, N)`. -/
def dom (γ : Type) [Fintype γ] (d0 d1 N : ℕ) : Finset (ℕ × ℕ × γ × ℕ) :=
  Finset.range d0 ×ˢ Finset.range d1 ×ˢ Finset.univ ×ˢ Finset.range N

/-- `D.min()`. -/
noncomputable def amin {d0 d1 N : ℕ} (h : (dom γ d0 d1 N).Nonempty) (D : ℕ → ℕ → γ → ℕ → ℝ) : ℝ :=
  (dom γ d0 d1 N).inf' h fun x => D x.1 x.2.1 x.2.2.1 x.2.2.2

/-- `D.max()`. -/
noncomputable def amax {d0 d1 N : ℕ} (h : (dom γ d0 d1 N).Nonempty) (D : ℕ → ℕ → γ → ℕ → ℝ) : ℝ :=
  (dom γ d0 d1 N).sup' h fun x => D x.1 x.2.1 x.2.2.1 x.2.2.2

/-- The reshape of a standard dictionary with atoms of `d0 * d1` entries in row-major order
(`util.py` 302-304). -/
def from2d (d1 : ℕ) (D : ℕ → ℕ → ℝ) (i j : ℕ) (_ : Unit) (k : ℕ) : ℝ := D (i * d1 + j) k

/-- `np.amax(sz, 1)` (`util.py` 321). -/
def mxsz (N : ℕ) (sz : ℕ → ℕ) : ℕ := (Finset.range N).sup sz

/-- `Vr = int(np.floor(np.sqrt(N)))` (`util.py` 329). -/
def nRows (N : ℕ) : ℕ := Nat.sqrt N

/-- `Vc = int(np.ceil(N / float(Vr)))` (`util.py` 330), for `Vr > 0`. -/
def nCols (N : ℕ) : ℕ := (N + nRows N - 1) / nRows N

/-- The assignment `im[r:(r+sz0), c:(c+sz1)] = D[0:sz0, 0:sz1, :, k]` (`util.py` 341-345). -/
def paste (r c sz0 sz1 : ℕ) (A : ℕ → ℕ → γ → ℝ) (im : ℕ → ℕ → γ → ℝ) (i j : ℕ) (g : γ) : ℝ :=
  if r ≤ i ∧ i < r + sz0 ∧ c ≤ j ∧ j < c + sz1 then A (i - r) (j - c) g else im i j g

/-- The body of the loops (`util.py` 338-350): the counter and the image. The two `break`s end both
loops when the counter has reached `N`. -/
def body (N m0 m1 : ℕ) (sz0 sz1 : ℕ → ℕ) (D : ℕ → ℕ → γ → ℕ → ℝ) (l m : ℕ)
    (s : ℕ × (ℕ → ℕ → γ → ℝ)) : ℕ × (ℕ → ℕ → γ → ℝ) :=
  if s.1 ≥ N then s
  else (s.1 + 1, paste (m0 * l + l) (m1 * m + m) (sz0 s.1) (sz1 s.1) (fun i j g => D i j g s.1) s.2)

open Classical in
/-- `tiledict` (`util.py` 285-352): the height and width of the image and its entries. `sz0`, `sz1`
are the two rows of the array `sz`. An empty dictionary raises an exception (`none`), and so does an
atom size larger than the array (the slice that is read is smaller than the slice that is written;
simplification: NumPy accepts this if the axis of the array has length one). A constant dictionary
gives `0 / 0`, not a number in NumPy; the theorem excludes it. -/
noncomputable def tiledict (d0 d1 N : ℕ) (sz0 sz1 : ℕ → ℕ) (D : ℕ → ℕ → γ → ℕ → ℝ) :
    Option (ℕ × ℕ × (ℕ → ℕ → γ → ℝ)) :=
  if h : (dom γ d0 d1 N).Nonempty ∧ ∀ k < N, sz0 k ≤ d0 ∧ sz1 k ≤ d1 then
    let m0 := mxsz N sz0
    let m1 := mxsz N sz1
    let D1 := fun i j g k => D i j g k - amin h.1 D
    let D2 := fun i j g k => D1 i j g k / amax h.1 D1
    some (nRows N * m0 + nRows N - 1, nCols N * m1 + nCols N - 1,
      ((List.range (nRows N)).foldl (fun s l => (List.range (nCols N)).foldl
        (fun s m => body N m0 m1 sz0 sz1 D2 l m s) s) (0, fun _ _ _ => 1)).2)
  else none

/-! ## Proofs -/

/-- There is room for every atom, and no row is empty. -/
theorem rows_cols (N : ℕ) (hN : 0 < N) :
    0 < nRows N ∧ N ≤ nRows N * nCols N ∧ (nRows N - 1) * nCols N < N := by
  have h0 : 0 < nRows N := Nat.sqrt_pos.2 hN
  have hs : nRows N * nRows N ≤ N := Nat.sqrt_le N
  have hd := Nat.div_add_mod (N + nRows N - 1) (nRows N)
  have hm := Nat.mod_lt (N + nRows N - 1) h0
  unfold nCols
  generalize nRows N = v at *
  generalize hq : (N + v - 1) / v = q at *
  generalize (N + v - 1) % v = t at *
  have h1 : N ≤ v * q := by omega
  refine ⟨h0, h1, ?_⟩
  have hvq : v ≤ q := by
    by_contra hlt
    have : q + 1 ≤ v := by omega
    have : v * (q + 1) ≤ v * v := Nat.mul_le_mul_left v this
    rw [Nat.mul_succ] at this
    omega
  obtain ⟨w, rfl⟩ : ∃ w, v = w + 1 := ⟨v - 1, by omega⟩
  simp only [Nat.add_sub_cancel]
  have : (w + 1) * q = w * q + q := Nat.succ_mul w q
  omega

/-- The image after `k` atoms. -/
def imgOf (q m0 m1 : ℕ) (sz0 sz1 : ℕ → ℕ) (D : ℕ → ℕ → γ → ℕ → ℝ) : ℕ → ℕ → ℕ → γ → ℝ
  | 0 => fun _ _ _ => 1
  | k + 1 => paste (m0 * (k / q) + k / q) (m1 * (k % q) + k % q) (sz0 k) (sz1 k)
      (fun i j g => D i j g k) (imgOf q m0 m1 sz0 sz1 D k)

omit [Fintype γ] in
theorem inner_loop (N q m0 m1 : ℕ) (sz0 sz1 : ℕ → ℕ) (D : ℕ → ℕ → γ → ℕ → ℝ) (l : ℕ)
    (t : ℕ) (ht : t ≤ q) :
    (List.range t).foldl (fun s m => body N m0 m1 sz0 sz1 D l m s)
        (min N (l * q), imgOf q m0 m1 sz0 sz1 D (min N (l * q))) =
      (min N (l * q + t), imgOf q m0 m1 sz0 sz1 D (min N (l * q + t))) := by
  induction t with
  | zero => rfl
  | succ t ih =>
    rw [List.range_succ, List.foldl_append, ih (by omega)]
    simp only [List.foldl_cons, List.foldl_nil, body]
    by_cases h : l * q + t ≥ N
    · rw [if_pos (by omega), Nat.min_eq_left h, Nat.min_eq_left (by omega)]
    · have e1 : min N (l * q + t) = l * q + t := by omega
      have e2 : min N (l * q + (t + 1)) = l * q + t + 1 := by omega
      rw [e1, e2, if_neg h]
      have hq : 0 < q := by omega
      have hdiv : (l * q + t) / q = l := by
        rw [Nat.mul_comm, Nat.mul_add_div hq, Nat.div_eq_of_lt (by omega)]; omega
      have hmod : (l * q + t) % q = t := by
        rw [Nat.mul_comm, Nat.mul_add_mod, Nat.mod_eq_of_lt (by omega)]
      simp only [imgOf, hdiv, hmod]

omit [Fintype γ] in
theorem outer_loop (N q m0 m1 : ℕ) (sz0 sz1 : ℕ → ℕ) (D : ℕ → ℕ → γ → ℕ → ℝ) (t : ℕ) :
    (List.range t).foldl (fun s l => (List.range q).foldl
        (fun s m => body N m0 m1 sz0 sz1 D l m s) s) (0, fun _ _ _ => 1) =
      (min N (t * q), imgOf q m0 m1 sz0 sz1 D (min N (t * q))) := by
  induction t with
  | zero => simp [imgOf]
  | succ t ih =>
    rw [List.range_succ, List.foldl_append, ih]
    simp only [List.foldl_cons, List.foldl_nil]
    rw [inner_loop N q m0 m1 sz0 sz1 D t q le_rfl, ← Nat.succ_mul]

omit [Fintype γ] in
/-- What is at a pixel after `n` atoms. -/
theorem imgOf_eq (q m0 m1 : ℕ) (sz0 sz1 : ℕ → ℕ) (D : ℕ → ℕ → γ → ℕ → ℝ) (n : ℕ)
    (h0 : ∀ k < n, sz0 k ≤ m0) (h1 : ∀ k < n, sz1 k ≤ m1) (i j : ℕ) (g : γ) :
    (∀ k < n, ∀ a < sz0 k, ∀ b < sz1 k, i = (m0 + 1) * (k / q) + a → j = (m1 + 1) * (k % q) + b →
      imgOf q m0 m1 sz0 sz1 D n i j g = D a b g k) ∧
    ((∀ k < n, ∀ a < sz0 k, ∀ b < sz1 k, ¬ (i = (m0 + 1) * (k / q) + a ∧
      j = (m1 + 1) * (k % q) + b)) → imgOf q m0 m1 sz0 sz1 D n i j g = 1) := by
  induction n with
  | zero => exact ⟨fun k hk => absurd hk (Nat.not_lt_zero k), fun _ => rfl⟩
  | succ n ih =>
    obtain ⟨ih1, ih2⟩ := ih (fun k hk => h0 k (by omega)) (fun k hk => h1 k (by omega))
    have hm0 : (m0 + 1) * (n / q) = m0 * (n / q) + n / q := Nat.succ_mul _ _
    have hm1 : (m1 + 1) * (n % q) = m1 * (n % q) + n % q := Nat.succ_mul _ _
    constructor
    · intro k hk a ha b hb hi hj
      simp only [imgOf, paste, ← hm0, ← hm1]
      by_cases hkn : k = n
      · subst hkn
        rw [if_pos (by omega)]
        rw [show i - (m0 + 1) * (k / q) = a by omega, show j - (m1 + 1) * (k % q) = b by omega]
      · rw [if_neg, ih1 k (by omega) a ha b hb hi hj]
        rintro ⟨c1, c2, c3, c4⟩
        apply hkn
        have hs0 := h0 n (by omega)
        have hs1 := h1 n (by omega)
        have hk0 := h0 k hk
        have hk1 := h1 k hk
        have hd : k / q = n / q := by
          have e1 : i / (m0 + 1) = k / q := by
            rw [hi, Nat.mul_add_div (by omega), Nat.div_eq_of_lt (show a < m0 + 1 by omega)]; omega
          have e2 : i / (m0 + 1) = n / q := by
            obtain ⟨a', ha'⟩ := Nat.exists_eq_add_of_le c1
            have : a' < m0 + 1 := by omega
            rw [ha', Nat.mul_add_div (by omega), Nat.div_eq_of_lt this]; omega
          omega
        have hmm : k % q = n % q := by
          have e1 : j / (m1 + 1) = k % q := by
            rw [hj, Nat.mul_add_div (by omega), Nat.div_eq_of_lt (show b < m1 + 1 by omega)]; omega
          have e2 : j / (m1 + 1) = n % q := by
            obtain ⟨a', ha'⟩ := Nat.exists_eq_add_of_le c3
            have : a' < m1 + 1 := by omega
            rw [ha', Nat.mul_add_div (by omega), Nat.div_eq_of_lt this]; omega
          omega
        rw [← Nat.div_add_mod k q, ← Nat.div_add_mod n q, hd, hmm]
    · intro h
      simp only [imgOf, paste, ← hm0, ← hm1]
      rw [if_neg, ih2 fun k hk => h k (by omega)]
      rintro ⟨c1, c2, c3, c4⟩
      exact h n (by omega) (i - (m0 + 1) * (n / q)) (by omega) (j - (m1 + 1) * (n % q)) (by omega)
        ⟨by omega, by omega⟩

/-- **C79.** For a nonempty dictionary, not constant, with atom sizes not larger than the array, the
result is an image in which atom `k` is the tile in row `k / Vc` and column `k % Vc`, for some number
of columns `Vc`: the tiles do not overlap, each lies within the image, tiles in neighbouring rows
and columns are separated by a line of ones, and whatever is not covered by an atom is one. The
entries of an atom are its values mapped to `[0, 1]` by the same increasing affine map for all
atoms, the smallest value of the dictionary being mapped to 0 and the largest to 1. -/
theorem C79_tiles (d0 d1 N : ℕ) (sz0 sz1 : ℕ → ℕ) (D : ℕ → ℕ → γ → ℕ → ℝ)
    (h0 : ∀ k < N, sz0 k ≤ d0) (h1 : ∀ k < N, sz1 k ≤ d1)
    (hne : (dom γ d0 d1 N).Nonempty)
    (hnc : ∃ x ∈ dom γ d0 d1 N, ∃ y ∈ dom γ d0 d1 N,
      D x.1 x.2.1 x.2.2.1 x.2.2.2 ≠ D y.1 y.2.1 y.2.2.1 y.2.2.2) :
    ∃ H W im Vc lo hi, tiledict d0 d1 N sz0 sz1 D = some (H, W, im) ∧ 0 < Vc ∧ lo < hi ∧
      -- `lo` and `hi` are the smallest and largest values
      (∀ x ∈ dom γ d0 d1 N, lo ≤ D x.1 x.2.1 x.2.2.1 x.2.2.2 ∧ D x.1 x.2.1 x.2.2.1 x.2.2.2 ≤ hi) ∧
      (∃ x ∈ dom γ d0 d1 N, D x.1 x.2.1 x.2.2.1 x.2.2.2 = lo) ∧
      (∃ x ∈ dom γ d0 d1 N, D x.1 x.2.1 x.2.2.1 x.2.2.2 = hi) ∧
      -- the tile of atom `k` starts at `R k`, `S k`
      ∃ R S : ℕ → ℕ,
        (∀ k < N, R k + sz0 k ≤ H ∧ S k + sz1 k ≤ W) ∧
        (∀ k < N, ∀ k' < N, k ≠ k' → (k / Vc < k' / Vc ∧ R k + sz0 k < R k') ∨
          (k' / Vc < k / Vc ∧ R k' + sz0 k' < R k) ∨ (k % Vc < k' % Vc ∧ S k + sz1 k < S k') ∨
          (k' % Vc < k % Vc ∧ S k' + sz1 k' < S k)) ∧
        (∀ k < N, ∀ k' < N, k / Vc = k' / Vc → R k = R k') ∧
        (∀ k < N, ∀ k' < N, k % Vc = k' % Vc → S k = S k') ∧
        (∀ k < N, ∀ a < sz0 k, ∀ b < sz1 k, ∀ g, im (R k + a) (S k + b) g = (D a b g k - lo) / (hi - lo)) ∧
        (∀ i j g, (∀ k < N, ∀ a < sz0 k, ∀ b < sz1 k, ¬ (i = R k + a ∧ j = S k + b)) → im i j g = 1) := by
  have hN : 0 < N := by
    obtain ⟨x, hx⟩ := hne
    simp only [dom, Finset.mem_product, Finset.mem_range] at hx
    omega
  obtain ⟨hr, hrc, hlast⟩ := rows_cols N hN
  have hq : 0 < nCols N := by
    by_contra h
    have : nCols N = 0 := by omega
    rw [this] at hrc; omega
  have hm0 : ∀ k < N, sz0 k ≤ mxsz N sz0 := fun k hk => Finset.le_sup (f := sz0) (Finset.mem_range.2 hk)
  have hm1 : ∀ k < N, sz1 k ≤ mxsz N sz1 := fun k hk => Finset.le_sup (f := sz1) (Finset.mem_range.2 hk)
  have hlo : ∀ x ∈ dom γ d0 d1 N, amin hne D ≤ D x.1 x.2.1 x.2.2.1 x.2.2.2 := fun x hx =>
    Finset.inf'_le (fun x : ℕ × ℕ × γ × ℕ => D x.1 x.2.1 x.2.2.1 x.2.2.2) hx
  have hhi : ∀ x ∈ dom γ d0 d1 N, D x.1 x.2.1 x.2.2.1 x.2.2.2 ≤ amax hne D := fun x hx =>
    Finset.le_sup' (fun x : ℕ × ℕ × γ × ℕ => D x.1 x.2.1 x.2.2.1 x.2.2.2) hx
  obtain ⟨xl, hxl, exl⟩ := Finset.exists_mem_eq_inf' hne
    (fun x : ℕ × ℕ × γ × ℕ => D x.1 x.2.1 x.2.2.1 x.2.2.2)
  obtain ⟨xh, hxh, exh⟩ := Finset.exists_mem_eq_sup' hne
    (fun x : ℕ × ℕ × γ × ℕ => D x.1 x.2.1 x.2.2.1 x.2.2.2)
  have hmax : amax hne (fun i j g k => D i j g k - amin hne D) = amax hne D - amin hne D := by
    refine le_antisymm (Finset.sup'_le hne _ fun x hx => ?_) ?_
    · exact sub_le_sub_right (hhi x hx) _
    · have : amax hne D = D xh.1 xh.2.1 xh.2.2.1 xh.2.2.2 := exh
      rw [this]
      exact Finset.le_sup' (fun x : ℕ × ℕ × γ × ℕ => D x.1 x.2.1 x.2.2.1 x.2.2.2 - amin hne D) hxh
  have hlt : amin hne D < amax hne D := by
    obtain ⟨x, hx, y, hy, hxy⟩ := hnc
    rcases lt_or_gt_of_ne hxy with h | h
    · exact lt_of_le_of_lt (hlo x hx) (lt_of_lt_of_le h (hhi y hy))
    · exact lt_of_le_of_lt (hlo y hy) (lt_of_lt_of_le h (hhi x hx))
  have hrow : ∀ k < N, k / nCols N < nRows N := fun k hk =>
    Nat.div_lt_of_lt_mul (by rw [Nat.mul_comm]; omega)
  have hcol : ∀ k, k % nCols N < nCols N := fun k => Nat.mod_lt k hq
  have sep : ∀ m u v s : ℕ, s ≤ m → u < v → (m + 1) * u + s < (m + 1) * v := by
    intro m u v s hs huv
    have := Nat.mul_le_mul_left (m + 1) (Nat.succ_le_of_lt huv)
    rw [Nat.mul_succ] at this
    omega
  refine ⟨nRows N * mxsz N sz0 + nRows N - 1, nCols N * mxsz N sz1 + nCols N - 1,
    imgOf (nCols N) (mxsz N sz0) (mxsz N sz1) sz0 sz1
      (fun i j g k => (D i j g k - amin hne D) / (amax hne D - amin hne D)) N, nCols N, amin hne D, amax hne D, ?_, hq, hlt, fun x hx => ⟨hlo x hx, hhi x hx⟩,
    ⟨xl, hxl, exl.symm⟩, ⟨xh, hxh, exh.symm⟩, fun k => (mxsz N sz0 + 1) * (k / nCols N),
    fun k => (mxsz N sz1 + 1) * (k % nCols N), ?_, ?_, ?_, ?_, ?_, ?_⟩
  · unfold tiledict
    rw [dif_pos ⟨hne, fun k hk => ⟨h0 k hk, h1 k hk⟩⟩]
    simp only [outer_loop, Nat.min_eq_left hrc, hmax]
  · intro k hk
    have e : ∀ m u v s : ℕ, s ≤ m → u < v → (m + 1) * u + s ≤ v * m + v - 1 := by
      intro m u v s hs huv
      have h1 := sep m u v s hs huv
      have h2 : (m + 1) * v = v * m + v := by ring
      omega
    exact ⟨e _ _ _ _ (hm0 k hk) (hrow k hk), e _ _ _ _ (hm1 k hk) (hcol k)⟩
  · intro k hk k' hk' hkk
    rcases Nat.lt_trichotomy (k / nCols N) (k' / nCols N) with h | h | h
    · exact .inl ⟨h, sep _ _ _ _ (hm0 k hk) h⟩
    · rcases Nat.lt_trichotomy (k % nCols N) (k' % nCols N) with h' | h' | h'
      · exact .inr (.inr (.inl ⟨h', sep _ _ _ _ (hm1 k hk) h'⟩))
      · exact absurd (by rw [← Nat.div_add_mod k (nCols N), ← Nat.div_add_mod k' (nCols N), h, h']) hkk
      · exact .inr (.inr (.inr ⟨h', sep _ _ _ _ (hm1 k' hk') h'⟩))
    · exact .inr (.inl ⟨h, sep _ _ _ _ (hm0 k' hk') h⟩)
  · intro k _ k' _ h
    simp only [h]
  · intro k _ k' _ h
    simp only [h]
  · intro k hk a ha b hb g
    rw [(imgOf_eq (nCols N) (mxsz N sz0) (mxsz N sz1) sz0 sz1 _ N hm0 hm1 _ _ g).1 k hk a ha b hb
      rfl rfl]
  · intro i j g h
    exact (imgOf_eq (nCols N) (mxsz N sz0) (mxsz N sz1) sz0 sz1 _ N hm0 hm1 i j g).2 h

/-- A dictionary of seven atoms of different sizes that meets the hypotheses. -/
example : (∀ k < 7, (fun k => if k < 3 then 2 else 3) k ≤ 3) ∧ (dom Unit 3 3 7).Nonempty ∧
    ∃ x ∈ dom Unit 3 3 7, ∃ y ∈ dom Unit 3 3 7,
      (fun (i j : ℕ) (_ : Unit) (k : ℕ) => ((i + j + k : ℕ) : ℝ)) x.1 x.2.1 x.2.2.1 x.2.2.2 ≠
        (fun (i j : ℕ) (_ : Unit) (k : ℕ) => ((i + j + k : ℕ) : ℝ)) y.1 y.2.1 y.2.2.1 y.2.2.2 := by
  refine ⟨fun k _ => by dsimp only; split <;> omega, ⟨(0, 0, (), 0), by simp [dom]⟩,
    (0, 0, (), 0), by simp [dom], (1, 0, (), 0), by simp [dom], by simp⟩

end Sporco.Util.Tile
