import Mathlib.Analysis.Convex.Hull
import Mathlib.Analysis.Convex.Combination
import Mathlib.Data.Real.Basic
import Mathlib.Data.List.Range
import Mathlib.Tactic.Linarith
import Mathlib.Tactic.Positivity
import Mathlib.Tactic.FieldSimp
import Mathlib.Tactic.NormNum
import Mathlib.Tactic.Push
import Mathlib.Tactic.IntervalCases
import Mathlib.Tactic.FinCases

/-!
# Demosaicing (C75): `interp.py` 24-89

The interpolation routines of SciPy are parameters with contracts.
-/

set_option autoImplicit false

namespace Sporco.Interp

open Finset

/-! ## Contracts -/

/-- `scipy.interpolate.RectBivariateSpline(x, y, z, s=0)` with its default degree 3.  `fit` returns the function, `none` is
an exception. -/
structure SplineLib where
  fit : List ℕ → List ℕ → (ℕ → ℕ → ℝ) → Option (ℝ → ℝ → ℝ)
  /-- More than three points are needed on each axis, in increasing order. -/
  raises : ∀ x y z, fit x y z = none ↔ x.length ≤ 3 ∨ y.length ≤ 3 ∨ ¬x.Pairwise (· < ·) ∨ ¬y.Pairwise (· < ·)
  /-- The function interpolates the data. -/
  interp : ∀ x y z f, fit x y z = some f → ∀ i j (hi : i < x.length) (hj : j < y.length),
    f (x[i] : ℝ) (y[j] : ℝ) = z i j
  /-- Cubic polynomials are reproduced between the first and the last points. -/
  poly : ∀ x y z f (c : Fin 4 → Fin 4 → ℝ), fit x y z = some f →
    (∀ i j (hi : i < x.length) (hj : j < y.length), z i j = ∑ p, ∑ q, c p q * (x[i] : ℝ) ^ (p : ℕ) * (y[j] : ℝ) ^ (q : ℕ)) →
    ∀ s t : ℝ, (∃ a ∈ x, ∃ b ∈ x, (a : ℝ) ≤ s ∧ s ≤ b) → (∃ a ∈ y, ∃ b ∈ y, (a : ℝ) ≤ t ∧ t ≤ b) →
      f s t = ∑ p, ∑ q, c p q * s ^ (p : ℕ) * t ^ (q : ℕ)

/-- A pixel as a point of the plane. -/
def pt (p : ℕ × ℕ) : ℝ × ℝ := (p.1, p.2)

/-- `scipy.interpolate.griddata(points, values, q, method='linear')`; `none` is nan. -/
structure GridLib where
  lin : List (ℕ × ℕ) → List ℝ → ℕ × ℕ → Option ℝ
  /-- nan exactly outside the convex hull. -/
  hull : ∀ ps zs q, ps.length = zs.length → ps.Nodup → (lin ps zs q = none ↔ pt q ∉ convexHull ℝ {v | ∃ p ∈ ps, pt p = v})
  /-- The data are interpolated. -/
  node : ∀ ps zs i (h : i < ps.length) (h' : i < zs.length), ps.length = zs.length → ps.Nodup →
    lin ps zs ps[i] = some zs[i]
  /-- Other values are barycentric combinations of data. -/
  comb : ∀ ps zs q v, ps.length = zs.length → ps.Nodup → lin ps zs q = some v →
    ∃ w : Fin ps.length → ℝ, (∀ i, 0 ≤ w i) ∧ ∑ i, w i = 1 ∧ ∑ i, w i • pt (ps.get i) = pt q ∧
      ∑ i, w i * zs.getD i 0 = v

/-! ## Model -/

/-- `range(lo, hi, 2)`. -/
def range2 (lo hi : ℕ) : List ℕ := (List.range ((hi - lo + 1) / 2)).map fun i => lo + 2 * i

/-- `np.mgrid[a:H:2, b:W:2]`, flattened (`interp.py` 65-68). -/
def mgrid2 (a b H W : ℕ) : List (ℕ × ℕ) := (range2 a H).flatMap fun i => (range2 b W).map fun j => (i, j)

/-- The mean of two numbers or nan. -/
noncomputable def mean2 (a b : Option ℝ) : Option ℝ := a.bind fun x => b.map fun y => (x + y) / 2

/-- An assignment to an entry. -/
def setAt (s : ℕ → ℕ → Option ℝ) (i j : ℕ) (v : Option ℝ) : ℕ → ℕ → Option ℝ :=
  fun k l => if k = i ∧ l = j then v else s k l

/-- `if np.isnan(sg[i, j]): sg[i, j] = (sg[a] + sg[b]) / 2.0`. -/
noncomputable def patch (s : ℕ → ℕ → Option ℝ) (i j : ℕ) (a b : ℕ × ℕ) : ℕ → ℕ → Option ℝ :=
  if s i j = none then setAt s i j (mean2 (s a.1 a.2) (s b.1 b.2)) else s

/-- The channel from the samples on a grid (`interp.py` 54-58 with `o = 1`, 83-87 with `o = 0`). -/
def gridChan (L : SplineLib) (img : ℕ → ℕ → ℝ) (H W o : ℕ) : Option (ℕ → ℕ → ℝ) :=
  (L.fit (range2 o H) (range2 o W) fun i j => img (o + 2 * i) (o + 2 * j)).map fun f i j => f i j

/-- The green channel (`interp.py` 65-80). -/
noncomputable def greenChan (G : GridLib) (img : ℕ → ℕ → ℝ) (H W : ℕ) : ℕ → ℕ → Option ℝ :=
  let ps := mgrid2 0 1 H W ++ mgrid2 1 0 H W
  let z := (mgrid2 0 1 H W).map (fun p => img p.1 p.2) ++ (mgrid2 1 0 H W).map fun p => img p.1 p.2
  let s0 := fun i j => G.lin ps z (i, j)
  let s1 := patch s0 0 0 (0, 1) (1, 0)
  let s2 := patch s1 0 (W - 1) (0, W - 2) (1, W - 1)
  let s3 := patch s2 (H - 1) 0 (H - 2, 0) (H - 1, 1)
  patch s3 (H - 1) (W - 1) (H - 2, W - 1) (H - 1, W - 2)

/-- `bilinear_demosaic(img)` (`interp.py` 24-89) for an image with `H` rows and `W` columns; `none` is an exception, an
entry `none` is nan. -/
noncomputable def demosaic (L : SplineLib) (G : GridLib) (img : ℕ → ℕ → ℝ) (H W : ℕ) :
    Option (ℕ → ℕ → Fin 3 → Option ℝ) :=
  (gridChan L img H W 1).bind fun sr => (gridChan L img H W 0).map fun sb =>
    fun i j => ![some (sr i j), greenChan G img H W i j, some (sb i j)]

/-! ## Proofs -/

theorem range2_length (lo hi : ℕ) : (range2 lo hi).length = (hi - lo + 1) / 2 := by simp [range2]

theorem range2_get (lo hi i : ℕ) (h : i < (range2 lo hi).length) : (range2 lo hi)[i] = lo + 2 * i := by simp [range2]

theorem mem_range2 {lo hi k : ℕ} : k ∈ range2 lo hi ↔ lo ≤ k ∧ k < hi ∧ (k - lo) % 2 = 0 := by
  unfold range2
  simp only [List.mem_map, List.mem_range]
  constructor
  · rintro ⟨i, hi, rfl⟩; omega
  · rintro ⟨h1, h2, h3⟩; exact ⟨(k - lo) / 2, by omega, by omega⟩

theorem range2_nodup (lo hi : ℕ) : (range2 lo hi).Nodup :=
  List.Nodup.map (fun a b h => by omega) List.nodup_range

theorem mem_mgrid2 {a b H W : ℕ} {p : ℕ × ℕ} : p ∈ mgrid2 a b H W ↔ p.1 ∈ range2 a H ∧ p.2 ∈ range2 b W := by
  unfold mgrid2
  simp only [List.mem_flatMap, List.mem_map]
  constructor
  · rintro ⟨i, hi, j, hj, rfl⟩; exact ⟨hi, hj⟩
  · rintro ⟨h1, h2⟩; exact ⟨p.1, h1, p.2, h2, rfl⟩

theorem mgrid2_nodup (a b H W : ℕ) : (mgrid2 a b H W).Nodup := by
  unfold mgrid2
  rw [List.nodup_flatMap]
  refine ⟨fun i _ => List.Nodup.map (fun x y h => (Prod.mk.inj h).2) (range2_nodup _ _), ?_⟩
  refine (range2_nodup a H).imp fun {x y} hxy => ?_
  intro p hp hq
  obtain ⟨_, _, rfl⟩ := List.mem_map.1 hp
  obtain ⟨_, _, h⟩ := List.mem_map.1 hq
  exact hxy (Prod.mk.inj h).1.symm

/-- The green sites: row and column have different parity. -/
theorem mem_green {H W : ℕ} {p : ℕ × ℕ} : p ∈ mgrid2 0 1 H W ++ mgrid2 1 0 H W ↔ p.1 < H ∧ p.2 < W ∧ (p.1 + p.2) % 2 = 1 := by
  rw [List.mem_append, mem_mgrid2, mem_mgrid2, mem_range2, mem_range2, mem_range2, mem_range2]
  omega

theorem green_nodup (H W : ℕ) : (mgrid2 0 1 H W ++ mgrid2 1 0 H W).Nodup := by
  refine (mgrid2_nodup _ _ _ _).append (mgrid2_nodup _ _ _ _) fun p hp hq => ?_
  rw [mem_mgrid2, mem_range2, mem_range2] at hp hq
  omega

section

variable (G : GridLib) (img : ℕ → ℕ → ℝ) (H W : ℕ)

/-- `griddata` as called. -/
noncomputable def raw (i j : ℕ) : Option ℝ :=
  G.lin (mgrid2 0 1 H W ++ mgrid2 1 0 H W)
    ((mgrid2 0 1 H W).map (fun p => img p.1 p.2) ++ (mgrid2 1 0 H W).map fun p => img p.1 p.2) (i, j)

theorem raw_len : (mgrid2 0 1 H W ++ mgrid2 1 0 H W).length =
    ((mgrid2 0 1 H W).map (fun p => img p.1 p.2) ++ (mgrid2 1 0 H W).map fun p => img p.1 p.2).length := by simp

theorem raw_vals : (mgrid2 0 1 H W).map (fun p => img p.1 p.2) ++ (mgrid2 1 0 H W).map (fun p => img p.1 p.2) =
    (mgrid2 0 1 H W ++ mgrid2 1 0 H W).map fun p => img p.1 p.2 := by rw [List.map_append]

theorem raw_green {i j : ℕ} (hi : i < H) (hj : j < W) (h : (i + j) % 2 = 1) : raw G img H W i j = some (img i j) := by
  have hm : (i, j) ∈ mgrid2 0 1 H W ++ mgrid2 1 0 H W := mem_green.2 ⟨hi, hj, h⟩
  obtain ⟨k, hk, e⟩ := List.getElem_of_mem hm
  have h1 := G.node _ _ k hk (by rw [← raw_len img]; exact hk) (raw_len img H W) (green_nodup H W)
  rw [e] at h1
  unfold raw
  rw [h1]
  congr 1
  simp only [raw_vals, List.getElem_map, e]

theorem hull_mem {H W i j : ℕ} (hi : i < H) (hj : j < W)
    (hc : (i + j) % 2 = 1 ∨ (0 < j ∧ j + 1 < W) ∨ (0 < i ∧ i + 1 < H)) :
    pt (i, j) ∈ convexHull ℝ {v | ∃ p ∈ mgrid2 0 1 H W ++ mgrid2 1 0 H W, pt p = v} := by
  have hin : ∀ p : ℕ × ℕ, p.1 < H → p.2 < W → (p.1 + p.2) % 2 = 1 →
      pt p ∈ convexHull ℝ {v | ∃ p ∈ mgrid2 0 1 H W ++ mgrid2 1 0 H W, pt p = v} := fun p h1 h2 h3 =>
    subset_convexHull ℝ _ ⟨p, mem_green.2 ⟨h1, h2, h3⟩, rfl⟩
  have hmid : ∀ p q : ℕ × ℕ, pt p ∈ convexHull ℝ {v | ∃ p ∈ mgrid2 0 1 H W ++ mgrid2 1 0 H W, pt p = v} →
      pt q ∈ convexHull ℝ {v | ∃ p ∈ mgrid2 0 1 H W ++ mgrid2 1 0 H W, pt p = v} → p.1 + q.1 = 2 * i → p.2 + q.2 = 2 * j →
      pt (i, j) ∈ convexHull ℝ {v | ∃ p ∈ mgrid2 0 1 H W ++ mgrid2 1 0 H W, pt p = v} := by
    intro p q hp hq e1 e2
    have h := (convex_convexHull ℝ _) hp hq (by norm_num : (0 : ℝ) ≤ 1 / 2) (by norm_num : (0 : ℝ) ≤ 1 / 2) (by norm_num)
    have e : (1 / 2 : ℝ) • pt p + (1 / 2 : ℝ) • pt q = pt (i, j) := by
      have e1' : (p.1 : ℝ) + q.1 = 2 * i := by exact_mod_cast e1
      have e2' : (p.2 : ℝ) + q.2 = 2 * j := by exact_mod_cast e2
      unfold pt
      refine Prod.ext ?_ ?_ <;> simp <;> linarith
    rwa [e] at h
  by_cases hg : (i + j) % 2 = 1
  · exact hin (i, j) hi hj hg
  rcases hc with hc | hc | hc
  · exact absurd hc hg
  · exact hmid (i, j - 1) (i, j + 1) (hin _ hi (by simp only; omega) (by simp only; omega))
      (hin _ hi (by simp only; omega) (by simp only; omega)) (by simp only; omega) (by simp only; omega)
  · exact hmid (i - 1, j) (i + 1, j) (hin _ (by simp only; omega) hj (by simp only; omega))
      (hin _ (by simp only; omega) hj (by simp only; omega)) (by simp only; omega) (by simp only; omega)

theorem raw_some {i j : ℕ} (hi : i < H) (hj : j < W)
    (hc : (i + j) % 2 = 1 ∨ (0 < j ∧ j + 1 < W) ∨ (0 < i ∧ i + 1 < H)) : raw G img H W i j ≠ none := by
  intro h
  exact (G.hull _ _ (i, j) (raw_len img H W) (green_nodup H W)).1 h (hull_mem hi hj hc)

theorem raw_corner {i j : ℕ} (hc : (i = 0 ∨ i = H - 1) ∧ (j = 0 ∨ j = W - 1))
    (hg : (i + j) % 2 = 0) : raw G img H W i j = none := by
  refine (G.hull _ _ (i, j) (raw_len img H W) (green_nodup H W)).2 fun hmem => ?_
  -- a linear function that is at least one at all green sites and zero at the corner
  obtain ⟨s, hs⟩ : ∃ s : ℝ, ∀ k, k < H → s * ((k : ℝ) - i) = ((max k i - min k i : ℕ) : ℝ) := by
    rcases hc.1 with h | h
    · exact ⟨1, fun k _ => by rw [h]; simp⟩
    · refine ⟨-1, fun k hk => ?_⟩
      rw [max_eq_right (by omega), min_eq_left (by omega), Nat.cast_sub (by omega)]; ring
  obtain ⟨t, ht⟩ : ∃ t : ℝ, ∀ k, k < W → t * ((k : ℝ) - j) = ((max k j - min k j : ℕ) : ℝ) := by
    rcases hc.2 with h | h
    · exact ⟨1, fun k _ => by rw [h]; simp⟩
    · refine ⟨-1, fun k hk => ?_⟩
      rw [max_eq_right (by omega), min_eq_left (by omega), Nat.cast_sub (by omega)]; ring
  have hconv : Convex ℝ {v : ℝ × ℝ | 1 ≤ s * (v.1 - i) + t * (v.2 - j)} := by
    intro u hu v hv a b ha hb hab
    simp only [Set.mem_ofPred_eq, Prod.fst_add, Prod.snd_add, Prod.smul_fst, Prod.smul_snd, smul_eq_mul] at *
    have h1 := mul_le_mul_of_nonneg_left hu ha
    have h2 := mul_le_mul_of_nonneg_left hv hb
    have hb' : b = 1 - a := by linarith
    subst hb'
    nlinarith
  have hsub : {v | ∃ p ∈ mgrid2 0 1 H W ++ mgrid2 1 0 H W, pt p = v} ⊆ {v : ℝ × ℝ | 1 ≤ s * (v.1 - i) + t * (v.2 - j)} := by
    rintro v ⟨p, hp, rfl⟩
    obtain ⟨h1, h2, h3⟩ := mem_green.1 hp
    change (1 : ℝ) ≤ s * ((p.1 : ℝ) - i) + t * ((p.2 : ℝ) - j)
    rw [hs p.1 h1, ht p.2 h2]
    have : 1 ≤ (max p.1 i - min p.1 i) + (max p.2 j - min p.2 j) := by omega
    exact_mod_cast this
  have h1 := convexHull_min hsub hconv hmem
  have h2 : (1 : ℝ) ≤ s * ((i : ℝ) - i) + t * ((j : ℝ) - j) := h1
  rw [sub_self, sub_self, mul_zero, mul_zero] at h2
  norm_num at h2

theorem raw_range {i j : ℕ} {lo hi v : ℝ} (hb : ∀ k l, k < H → l < W → (k + l) % 2 = 1 → lo ≤ img k l ∧ img k l ≤ hi)
    (h : raw G img H W i j = some v) : lo ≤ v ∧ v ≤ hi := by
  obtain ⟨w, h0, h1, -, h3⟩ := G.comb _ _ _ _ (raw_len img H W) (green_nodup H W) h
  have hz : ∀ k : Fin (mgrid2 0 1 H W ++ mgrid2 1 0 H W).length,
      lo ≤ ((mgrid2 0 1 H W).map (fun p => img p.1 p.2) ++ (mgrid2 1 0 H W).map fun p => img p.1 p.2).getD k 0 ∧
      ((mgrid2 0 1 H W).map (fun p => img p.1 p.2) ++ (mgrid2 1 0 H W).map fun p => img p.1 p.2).getD k 0 ≤ hi := by
    intro k
    rw [raw_vals, List.getD_eq_getElem?_getD, List.getElem?_eq_getElem (by rw [List.length_map]; exact k.2), List.getElem_map]
    simp only [Option.getD_some]
    obtain ⟨a, b, c⟩ := mem_green.1 (List.getElem_mem k.2)
    exact hb _ _ a b c
  rw [← h3]
  constructor
  · calc lo = ∑ k, w k * lo := by rw [← sum_mul, h1, one_mul]
      _ ≤ _ := sum_le_sum fun k _ => mul_le_mul_of_nonneg_left (hz k).1 (h0 k)
  · calc _ ≤ ∑ k, w k * hi := sum_le_sum fun k _ => mul_le_mul_of_nonneg_left (hz k).2 (h0 k)
      _ = hi := by rw [← sum_mul, h1, one_mul]

/-! ### The corners -/

theorem patch_some {s : ℕ → ℕ → Option ℝ} {i j k l : ℕ} {a b : ℕ × ℕ} (h : s k l ≠ none) : patch s i j a b k l = s k l := by
  unfold patch
  by_cases h1 : s i j = none
  · rw [if_pos h1]
    unfold setAt
    rw [if_neg]
    rintro ⟨rfl, rfl⟩
    exact h h1
  · rw [if_neg h1]

theorem patch_ne {s : ℕ → ℕ → Option ℝ} {i j k l : ℕ} {a b : ℕ × ℕ} (h : ¬(k = i ∧ l = j)) :
    patch s i j a b k l = s k l := by
  unfold patch
  by_cases h1 : s i j = none
  · rw [if_pos h1]
    unfold setAt
    rw [if_neg h]
  · rw [if_neg h1]

theorem patch_none {s : ℕ → ℕ → Option ℝ} {i j : ℕ} {a b : ℕ × ℕ} (h : s i j = none) :
    patch s i j a b i j = mean2 (s a.1 a.2) (s b.1 b.2) := by
  unfold patch
  rw [if_pos h]
  unfold setAt
  rw [if_pos ⟨rfl, rfl⟩]

theorem greenChan_some {i j : ℕ} {v : ℝ} (h : raw G img H W i j = some v) : greenChan G img H W i j = some v := by
  have h0 : raw G img H W i j ≠ none := by rw [h]; exact Option.some_ne_none v
  unfold greenChan
  have h1 := patch_some (i := 0) (j := 0) (a := (0, 1)) (b := (1, 0)) h0
  have h2 := patch_some (i := 0) (j := W - 1) (a := (0, W - 2)) (b := (1, W - 1)) (h1.trans_ne h0)
  have h3 := patch_some (i := H - 1) (j := 0) (a := (H - 2, 0)) (b := (H - 1, 1)) ((h2.trans h1).trans_ne h0)
  have h4 := patch_some (i := H - 1) (j := W - 1) (a := (H - 2, W - 1)) (b := (H - 1, W - 2))
    (((h3.trans h2).trans h1).trans_ne h0)
  exact ((((h4.trans h3).trans h2).trans h1).trans h)

theorem mean2_some (x y : ℝ) : mean2 (some x) (some y) = some ((x + y) / 2) := rfl

/-- The green value at a corner that is not a green site. -/
theorem greenChan_corner (hH : 2 ≤ H) (hW : 2 ≤ W) {i j : ℕ} (hc : (i = 0 ∨ i = H - 1) ∧ (j = 0 ∨ j = W - 1))
    (hg : (i + j) % 2 = 0) : ∃ k l, k < H ∧ l < W ∧ (k = i + 1 ∨ k + 1 = i) ∧ (l = j + 1 ∨ l + 1 = j) ∧
      greenChan G img H W i j = some ((img k j + img i l) / 2) := by
  have hn := raw_corner G img H W hc hg
  have hr : ∀ k l, k < H → l < W → (k + l) % 2 = 1 → raw G img H W k l = some (img k l) :=
    fun k l h1 h2 h3 => raw_green G img H W h1 h2 h3
  let s0 : ℕ → ℕ → Option ℝ := raw G img H W
  let s1 := patch s0 0 0 (0, 1) (1, 0)
  let s2 := patch s1 0 (W - 1) (0, W - 2) (1, W - 1)
  let s3 := patch s2 (H - 1) 0 (H - 2, 0) (H - 1, 1)
  let s4 := patch s3 (H - 1) (W - 1) (H - 2, W - 1) (H - 1, W - 2)
  have e4 : greenChan G img H W = s4 := rfl
  have g1 : ∀ k l, k < H → l < W → (k + l) % 2 = 1 → s1 k l = some (img k l) := fun k l h1 h2 h3 =>
    (patch_some (by rw [show s0 k l = _ from hr k l h1 h2 h3]; exact Option.some_ne_none _)).trans (hr k l h1 h2 h3)
  have g2 : ∀ k l, k < H → l < W → (k + l) % 2 = 1 → s2 k l = some (img k l) := fun k l h1 h2 h3 =>
    (patch_some (by rw [g1 k l h1 h2 h3]; exact Option.some_ne_none _)).trans (g1 k l h1 h2 h3)
  have g3 : ∀ k l, k < H → l < W → (k + l) % 2 = 1 → s3 k l = some (img k l) := fun k l h1 h2 h3 =>
    (patch_some (by rw [g2 k l h1 h2 h3]; exact Option.some_ne_none _)).trans (g2 k l h1 h2 h3)
  rw [e4]
  obtain ⟨hi | hi, hj | hj⟩ := hc
  · subst hi hj
    refine ⟨1, 1, by omega, by omega, Or.inl rfl, Or.inl rfl, ?_⟩
    have h1 : s1 0 0 = some ((img 0 1 + img 1 0) / 2) := by
      refine (patch_none hn).trans ?_
      change mean2 (s0 0 1) (s0 1 0) = _
      rw [show s0 0 1 = _ from hr 0 1 (by omega) (by omega) (by omega),
        show s0 1 0 = _ from hr 1 0 (by omega) (by omega) (by omega), mean2_some]
    have h2 : s2 0 0 = _ := (patch_ne (by omega)).trans h1
    have h3 : s3 0 0 = _ := (patch_ne (by omega)).trans h2
    have h4 : s4 0 0 = _ := (patch_ne (by omega)).trans h3
    rw [h4, add_comm]
  · subst hi hj
    refine ⟨1, W - 2, by omega, by omega, Or.inl rfl, Or.inr (by omega), ?_⟩
    have h1 : s1 0 (W - 1) = none := (patch_ne (by omega)).trans hn
    have h2 : s2 0 (W - 1) = some ((img 0 (W - 2) + img 1 (W - 1)) / 2) := by
      refine (patch_none h1).trans ?_
      change mean2 (s1 0 (W - 2)) (s1 1 (W - 1)) = _
      rw [g1 0 (W - 2) (by omega) (by omega) (by omega), g1 1 (W - 1) (by omega) (by omega) (by omega), mean2_some]
    have h3 : s3 0 (W - 1) = _ := (patch_ne (by omega)).trans h2
    have h4 : s4 0 (W - 1) = _ := (patch_ne (by omega)).trans h3
    rw [h4, add_comm]
  · subst hi hj
    refine ⟨H - 2, 1, by omega, by omega, Or.inr (by omega), Or.inl rfl, ?_⟩
    have h1 : s1 (H - 1) 0 = none := (patch_ne (by omega)).trans hn
    have h2 : s2 (H - 1) 0 = none := (patch_ne (by omega)).trans h1
    have h3 : s3 (H - 1) 0 = some ((img (H - 2) 0 + img (H - 1) 1) / 2) := by
      refine (patch_none h2).trans ?_
      change mean2 (s2 (H - 2) 0) (s2 (H - 1) 1) = _
      rw [g2 (H - 2) 0 (by omega) (by omega) (by omega), g2 (H - 1) 1 (by omega) (by omega) (by omega), mean2_some]
    have h4 : s4 (H - 1) 0 = _ := (patch_ne (by omega)).trans h3
    rw [h4]
  · subst hi hj
    refine ⟨H - 2, W - 2, by omega, by omega, Or.inr (by omega), Or.inr (by omega), ?_⟩
    have h1 : s1 (H - 1) (W - 1) = none := (patch_ne (by omega)).trans hn
    have h2 : s2 (H - 1) (W - 1) = none := (patch_ne (by omega)).trans h1
    have h3 : s3 (H - 1) (W - 1) = none := (patch_ne (by omega)).trans h2
    have h4 : s4 (H - 1) (W - 1) = some ((img (H - 2) (W - 1) + img (H - 1) (W - 2)) / 2) := by
      refine (patch_none h3).trans ?_
      change mean2 (s3 (H - 2) (W - 1)) (s3 (H - 1) (W - 2)) = _
      rw [g3 (H - 2) (W - 1) (by omega) (by omega) (by omega), g3 (H - 1) (W - 2) (by omega) (by omega) (by omega),
        mean2_some]
    rw [h4]

end

/-! ## C75 -/

theorem range2_sorted (lo hi : ℕ) : (range2 lo hi).Pairwise (· < ·) := by
  unfold range2
  rw [List.pairwise_map]
  exact List.pairwise_lt_range.imp fun {a b} h => by omega

theorem gridChan_none (L : SplineLib) (img : ℕ → ℕ → ℝ) (H W o : ℕ) :
    gridChan L img H W o = none ↔ (H - o + 1) / 2 ≤ 3 ∨ (W - o + 1) / 2 ≤ 3 := by
  unfold gridChan
  rw [Option.map_eq_none_iff, L.raises, range2_length, range2_length]
  simp only [range2_sorted, not_true_eq_false, or_false]

theorem gridChan_sample (L : SplineLib) (img : ℕ → ℕ → ℝ) (H W o : ℕ) {s : ℕ → ℕ → ℝ} (h : gridChan L img H W o = some s)
    {i j : ℕ} (hi : i < H) (hj : j < W) (hoi : o ≤ i ∧ (i - o) % 2 = 0) (hoj : o ≤ j ∧ (j - o) % 2 = 0) :
    s i j = img i j := by
  unfold gridChan at h
  obtain ⟨f, hf, rfl⟩ := Option.map_eq_some_iff.1 h
  have h1 := L.interp _ _ _ f hf ((i - o) / 2) ((j - o) / 2) (by rw [range2_length]; omega) (by rw [range2_length]; omega)
  rw [range2_get, range2_get, show o + 2 * ((i - o) / 2) = i by omega, show o + 2 * ((j - o) / 2) = j by omega] at h1
  exact h1

/-- **C75.** The call returns exactly for images with at least eight rows and columns.  The result has no nan; every
sample of the mosaic appears unchanged in its channel: red at odd rows and columns, blue at even ones, green elsewhere;
the green channel stays within the range of the green samples, and at a corner without green sample it is the mean of the
two adjacent samples.  Missing: the red and blue channels are not bilinear (`C75_bilinear_refuted`), and smaller images
raise. -/
theorem C75_demosaic_partial (L : SplineLib) (G : GridLib) (img : ℕ → ℕ → ℝ) (H W : ℕ) :
    (demosaic L G img H W = none ↔ H < 8 ∨ W < 8) ∧
    ∀ out, demosaic L G img H W = some out → ∀ i j, i < H → j < W →
      (∀ c, ∃ v, out i j c = some v) ∧
      (i % 2 = 1 → j % 2 = 1 → out i j 0 = some (img i j)) ∧
      (i % 2 ≠ j % 2 → out i j 1 = some (img i j)) ∧
      (i % 2 = 0 → j % 2 = 0 → out i j 2 = some (img i j)) ∧
      (∀ lo hi v, (∀ k l, k < H → l < W → k % 2 ≠ l % 2 → lo ≤ img k l ∧ img k l ≤ hi) → out i j 1 = some v →
        lo ≤ v ∧ v ≤ hi) ∧
      ((i = 0 ∨ i = H - 1) → (j = 0 ∨ j = W - 1) → i % 2 = j % 2 → ∃ k l, k < H ∧ l < W ∧ (k = i + 1 ∨ k + 1 = i) ∧
        (l = j + 1 ∨ l + 1 = j) ∧ out i j 1 = some ((img k j + img i l) / 2)) := by
  have hnone : demosaic L G img H W = none ↔ H < 8 ∨ W < 8 := by
    unfold demosaic
    cases h1 : gridChan L img H W 1 with
    | none =>
      rw [gridChan_none] at h1
      exact ⟨fun _ => by omega, fun _ => rfl⟩
    | some sr =>
      have h1' : ¬(gridChan L img H W 1 = none) := by rw [h1]; exact Option.some_ne_none _
      rw [gridChan_none] at h1'
      rw [Option.bind_some, Option.map_eq_none_iff, gridChan_none]
      omega
  refine ⟨hnone, fun out hout i j hi hj => ?_⟩
  have hsz : 8 ≤ H ∧ 8 ≤ W := by
    have : ¬(demosaic L G img H W = none) := by rw [hout]; exact Option.some_ne_none _
    rw [hnone] at this
    omega
  unfold demosaic at hout
  obtain ⟨sr, hsr, hout⟩ := Option.bind_eq_some_iff.1 hout
  obtain ⟨sb, hsb, rfl⟩ := Option.map_eq_some_iff.1 hout
  have hcorner : (i = 0 ∨ i = H - 1) → (j = 0 ∨ j = W - 1) → i % 2 = j % 2 → ∃ k l, k < H ∧ l < W ∧
      (k = i + 1 ∨ k + 1 = i) ∧ (l = j + 1 ∨ l + 1 = j) ∧ greenChan G img H W i j = some ((img k j + img i l) / 2) :=
    fun a b c => greenChan_corner G img H W (by omega) (by omega) ⟨a, b⟩ (by omega)
  have hgreen : (∃ v, greenChan G img H W i j = some v) ∧ ∀ lo hi v,
      (∀ k l, k < H → l < W → k % 2 ≠ l % 2 → lo ≤ img k l ∧ img k l ≤ hi) → greenChan G img H W i j = some v →
        lo ≤ v ∧ v ≤ hi := by
    by_cases hc : ((i = 0 ∨ i = H - 1) ∧ (j = 0 ∨ j = W - 1)) ∧ i % 2 = j % 2
    · obtain ⟨k, l, hk, hl, hki, hlj, e⟩ := hcorner hc.1.1 hc.1.2 hc.2
      refine ⟨⟨_, e⟩, fun lo hi' v hb hv => ?_⟩
      rw [e] at hv
      have hv' := (Option.some.inj hv).symm
      have b1 := hb k j hk hj (by omega)
      have b2 := hb i l hi hl (by omega)
      rw [hv']
      constructor <;> linarith [b1.1, b1.2, b2.1, b2.2]
    · have h1 : raw G img H W i j ≠ none := raw_some G img H W hi hj (by omega)
      obtain ⟨v, hv⟩ := Option.ne_none_iff_exists'.1 h1
      refine ⟨⟨v, greenChan_some G img H W hv⟩, fun lo hi' v' hb hv' => ?_⟩
      rw [greenChan_some G img H W hv] at hv'
      cases hv'
      exact raw_range G img H W (fun k l a b c => hb k l a b (by omega)) hv
  refine ⟨fun c => ?_, fun a b => ?_, fun a => ?_, fun a b => ?_, fun lo hi' v hb hv => hgreen.2 lo hi' v hb hv, hcorner⟩
  · fin_cases c
    · exact ⟨_, rfl⟩
    · exact hgreen.1
    · exact ⟨_, rfl⟩
  · exact congrArg some (gridChan_sample L img H W 1 hsr hi hj (by omega) (by omega))
  · exact greenChan_some G img H W (raw_green G img H W hi hj (by omega))
  · exact congrArg some (gridChan_sample L img H W 0 hsb hi hj (by omega) (by omega))

/-- **C75, disagreement.** The red and blue channels are not bilinear interpolations: the splines are cubic.  With the
image of squared row numbers the red value between the samples 1 and 9 is 4, not 5. -/
theorem C75_bilinear_refuted (L : SplineLib) (G : GridLib) :
    ∃ (img : ℕ → ℕ → ℝ) (out : ℕ → ℕ → Fin 3 → Option ℝ), demosaic L G img 8 8 = some out ∧
      out 2 1 0 ≠ some ((img 1 1 + img 3 1) / 2) := by
  let img : ℕ → ℕ → ℝ := fun i _ => (i : ℝ) ^ 2
  have h0 : demosaic L G img 8 8 ≠ none := fun h => by
    have := (C75_demosaic_partial L G img 8 8).1.1 h
    omega
  obtain ⟨out, hout⟩ := Option.ne_none_iff_exists'.1 h0
  refine ⟨img, out, hout, ?_⟩
  unfold demosaic at hout
  obtain ⟨sr, hsr, hout⟩ := Option.bind_eq_some_iff.1 hout
  obtain ⟨sb, hsb, rfl⟩ := Option.map_eq_some_iff.1 hout
  unfold gridChan at hsr
  obtain ⟨f, hf, rfl⟩ := Option.map_eq_some_iff.1 hsr
  have h1 := L.poly _ _ _ f (fun p q => if p = 2 ∧ q = 0 then 1 else 0) hf (fun i j hi hj => by
    rw [range2_get, range2_get]
    simp [img, Fin.sum_univ_succ]) 2 1 ⟨1, by decide, 3, by decide, by norm_num, by norm_num⟩
    ⟨1, by decide, 1, by decide, by norm_num, by norm_num⟩
  have h2 : f 2 1 = 4 := by
    rw [h1]
    simp [Fin.sum_univ_succ]
    norm_num
  change some (f (2 : ℕ) (1 : ℕ)) ≠ _
  push_cast
  rw [h2]
  simp [img]
  norm_num

end Sporco.Interp
