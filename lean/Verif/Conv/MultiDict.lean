import Verif.Conv.CbpdnConv
import Verif.Cnvrep.Shape

/-!
# `MultiDictConvBPDN` (C66)

`sporco/admm/cbpdn.py` 2776-2905: one set of coefficient maps fitted to several dictionaries and
signals, by a convolutional solver for the arrays stacked along the channel axis.

Entries of arrays are modelled for dictionaries without a channel axis (`dimC = 0`), where
dictionary `b` is channel `b` of the stacked array.  For all inputs the shapes are modelled, which
is enough to see that dictionaries with a channel axis are not accepted.
-/

set_option autoImplicit false
set_option linter.unusedSectionVars false

namespace Sporco.Conv.Multi

open Finset Filter Topology ComplexConjugate Sporco.Linalg Sporco.Prox Sporco.Admm Sporco.Cnvrep

/-! ## Specification -/

section Spec

variable {d c : ℕ} {N : Fin d → ℕ} [∀ k, NeZero (N k)] {K M : Type*} [Fintype K] [Fintype M]

/-- `∑_b (1/2) ‖D_b x - s_b‖² + λ ‖w x‖₁`, where dictionary `b` has filters of size `Nd b`. -/
noncomputable def objMulti {Nd : Fin (c + 1) → Fin d → ℕ} (D : (b : Fin (c + 1)) → M → NArr (Nd b) ℝ)
    (S : Fin (c + 1) → K → Grid N → ℝ) (lmbda : ℝ) (w : K × M × Grid N → ℝ) (X : K → M → Grid N → ℝ) : ℝ :=
  ∑ b, 1 / 2 * ∑ k, ∑ p, ((∑ m, filt (D b m) (X k m) p) - S b k p) ^ 2 +
    lmbda * ∑ k, ∑ m, ∑ p, w (k, m, p) * |X k m p|

end Spec

/-! ## Model -/

section Model

variable {d c : ℕ} {N : Fin d → ℕ} [∀ k, NeZero (N k)] {a : Fin d} {K M : Type*} [Fintype K] [Fintype M]

/-- `dsz`, the largest size along each axis (`cbpdn.py` 2835-2837). -/
def dszMax (Nd : Fin (c + 1) → Fin d → ℕ) (k : Fin d) : ℕ :=
  (List.finRange (c + 1)).foldl (fun v b => max v (Nd b k)) 0

/-- `Dm`: zeros into which the dictionaries are copied (`cbpdn.py` 2841-2847), for `dimC = 0`. -/
def stackD {Nd : Fin (c + 1) → Fin d → ℕ} (D : (b : Fin (c + 1)) → M → NArr (Nd b) ℝ) :
    Dict c M (dszMax Nd) :=
  fun b m j => if h : ∀ k, (j k).val < Nd b k then D b m fun k => ⟨(j k).val, h k⟩ else 0

/-- `Sm`: the signals along the new channel axis (`cbpdn.py` 2852), for `dimC = 0`. -/
def stackS (S : Fin (c + 1) → K → Grid N → ℝ) : Signal c K N := S

/-- The global names of the module `sporco.admm.cbpdn` that are functions of `sporco.fft`
(`cbpdn.py` 23-24). -/
def fftNames : List String :=
  ["empty_aligned", "real_dtype", "empty_aligned_func", "fftn_func", "ifftn_func", "fl2norm2_func"]

/-- `MultiDictConvBPDN.reconstruct` (`cbpdn.py` 2896-2905) for `dimC = 0`, where the slice of `Df`
is channel `b`; `none` is the `NameError` raised if the function named at line 2901 is not a
global name of the module, and `names` are those names. -/
noncomputable def reconstructIn (names : List String) {Nd : Fin d → ℕ} (h : Attr c K M Nd N a)
    (b : Fin (c + 1)) (X : Coef K M N) : Option (K → Grid N → ℝ) :=
  if "rfftn" ∈ names then
    some fun k => irfft N a fun ξ => ∑ m, h.Df b m ξ * rfft N a (part X k m) ξ
  else none

/-- `reconstruct` with the names the module has. -/
noncomputable def reconstruct {Nd : Fin d → ℕ} (h : Attr c K M Nd N a) (b : Fin (c + 1))
    (X : Coef K M N) : Option (K → Grid N → ℝ) := reconstructIn fftNames h b X

/-! ### Shapes -/

/-- `np.concatenate` of arrays with the given shapes along an axis: the shapes must agree except
along it, and the axis must exist. -/
def concatShape (ss : List (List ℕ)) (ax : ℕ) : Option (List ℕ) :=
  match ss with
  | [] => none
  | s :: _ =>
    if ax < s.length ∧ ∀ t ∈ ss, t.length = s.length ∧ t.eraseIdx ax = s.eraseIdx ax then
      some (s.set ax (ss.map fun t => t.getD ax 0).sum)
    else none

/-- `A[slc0]` (`cbpdn.py` 2843): `1 - dimC` new axes after the first `dimN` (none when `dimC` is
one or more); `none` is the `IndexError` for arrays with less than `dimN` axes. -/
def slc0 (dimN : ℕ) (dimC : ℤ) (s : List ℕ) : Option (List ℕ) :=
  if dimN ≤ s.length then
    some (s.take dimN ++ List.replicate (1 - dimC).toNat 1 ++ s.drop dimN) else none

/-- Shapes of `Dm` and `Sm` (`cbpdn.py` 2821-2852); `D` and `S` are the shapes of the members of
the tuples. -/
def shapes (dimN : ℕ) (D S : List (List ℕ)) : Option (List ℕ × List ℕ) :=
  (D.head?).bind fun D0 =>
  let dimC : ℤ := D0.length - dimN - 1
  (pyGet D0 (-1)).bind fun M =>
  (if dimC = 0 then some (List.replicate D.length 1) else D.mapM fun s => s[dimN]?).bind fun chn =>
  let dsz := (List.range dimN).map fun i => D.foldl (fun v s => max v (s.getD i 0)) 0
  (S.mapM (slc0 dimN dimC)).bind fun Sx =>
  (concatShape Sx (dimN + dimC).toNat).bind fun Sm =>
  some (dsz ++ [chn.sum] ++ [M], Sm)

/-- The constructor: the shapes, and the indexing object of the inner solver. -/
def construct (dimN : ℕ) (D S : List (List ℕ)) (dimK : Option ℤ) : Option Cri :=
  (shapes dimN D S).bind fun p => csc p.1 p.2 dimK dimN

end Model

/-! ## Properties -/

section Props

variable {d c : ℕ} {N : Fin d → ℕ} [∀ k, NeZero (N k)] {a : Fin d} {K M : Type*} [Fintype K] [Fintype M]

theorem le_foldl (Nd : Fin (c + 1) → Fin d → ℕ) (k : Fin d) :
    ∀ (l : List (Fin (c + 1))) (v : ℕ), v ≤ l.foldl (fun v b => max v (Nd b k)) v ∧
      ∀ b ∈ l, Nd b k ≤ l.foldl (fun v b => max v (Nd b k)) v
  | [], v => ⟨le_rfl, by simp⟩
  | b :: l, v => by
    obtain ⟨h1, h2⟩ := le_foldl Nd k l (max v (Nd b k))
    refine ⟨(le_max_left _ _).trans h1, fun b' hb => ?_⟩
    rcases List.mem_cons.1 hb with rfl | hb
    · exact (le_max_right _ _).trans h1
    · exact h2 b' hb

theorem le_dszMax (Nd : Fin (c + 1) → Fin d → ℕ) (b : Fin (c + 1)) (k : Fin d) : Nd b k ≤ dszMax Nd k :=
  (le_foldl Nd k _ 0).2 b (List.mem_finRange b)

theorem dszMax_le (Nd : Fin (c + 1) → Fin d → ℕ) (n : ℕ) (k : Fin d) (h : ∀ b, Nd b k ≤ n) :
    dszMax Nd k ≤ n := by
  unfold dszMax
  generalize List.finRange (c + 1) = l
  have : ∀ (l : List (Fin (c + 1))) (v : ℕ), v ≤ n → l.foldl (fun v b => max v (Nd b k)) v ≤ n := by
    intro l
    induction l with
    | nil => exact fun v hv => hv
    | cons b l ih => exact fun v hv => ih _ (max_le hv (h b))
  exact this l 0 (Nat.zero_le _)

theorem pad_stack {Nd : Fin (c + 1) → Fin d → ℕ} (D : (b : Fin (c + 1)) → M → NArr (Nd b) ℝ)
    (b : Fin (c + 1)) (m : M) : pad N (stackD D b m) = pad N (D b m) := by
  funext y
  unfold pad stackD
  by_cases h : ∀ k, (y k).val < Nd b k
  · rw [dif_pos fun k => (h k).trans_le (le_dszMax Nd b k), dif_pos h]
  · rw [dif_neg h]
    split <;> rfl

theorem filt_stack {Nd : Fin (c + 1) → Fin d → ℕ} (hN : ∀ b k, Nd b k ≤ N k)
    (D : (b : Fin (c + 1)) → M → NArr (Nd b) ℝ) (b : Fin (c + 1)) (m : M) (x : Grid N → ℝ) :
    filt (stackD D b m) x = filt (D b m) x := by
  rw [← rconv_pad (fun k => dszMax_le Nd _ k fun b => hN b k), ← rconv_pad (hN b), pad_stack]

theorem obj_stack {Nd : Fin (c + 1) → Fin d → ℕ} (hN : ∀ b k, Nd b k ≤ N k)
    (D : (b : Fin (c + 1)) → M → NArr (Nd b) ℝ) (S : Fin (c + 1) → K → Grid N → ℝ) (lmbda : ℝ)
    (w : K × M × Grid N → ℝ) : objConv (stackD D) (stackS S) lmbda w = objMulti D S lmbda w := by
  funext X
  unfold objConv objMulti dataTerm recon stackS
  simp only [filt_stack hN, mul_sum]

/-- **C66, the fitted problem.** For dictionaries without a channel axis, whose filters may have
different sizes, the iterates of the inner `ConvBPDN` reach the minimum of
`∑_b (1/2) ‖D_b x - s_b‖² + λ ‖w x‖₁`. -/
theorem C66_multidict {Nd : Fin (c + 1) → Fin d → ℕ} (hN : ∀ b k, Nd b k ≤ N k) (q : COpts)
    (h2 : q.noBndry = true → ∀ k, ∃ b, 2 ≤ Nd b k)
    (D : (b : Fin (c + 1)) → M → NArr (Nd b) ℝ) (S : Fin (c + 1) → K → Grid N → ℝ) (lmbda : ℝ)
    (hl : 0 < lmbda) (w : K × M × Grid N → ℝ) (hw : ∀ i, 0 < w i) (fe ge : Bool) (o : Opts)
    (ha : o.autoRho = false) (hrlx : 0 < o.rlx ∧ o.rlx < 2) (cb) (hcb : Bpdn.CallbackReads cb)
    (s : St (Coef K M N) (Coef K M N) (Coef K M N) (Attr c K M (dszMax Nd) N a)) (hp : 0 < s.rho)
    (Xf : Spec K M N a) (hs : s.extra = setdict q (stackS S) s.rho (stackD D) Xf) :
    ∃ Xopt, IsMin (objMulti D S lmbda w) (allowedConv q.nonNeg q.noBndry (dszMax Nd)) Xopt ∧
      Tendsto (fun n => objMulti D S lmbda w
        (part (traj (clsConvBPDN q (stackS S) lmbda w fe ge) o cb s n).Y)) atTop
        (𝓝 (objMulti D S lmbda w Xopt)) ∧
      ∀ n, part (traj (clsConvBPDN q (stackS S) lmbda w fe ge) o cb s (n + 1)).Y ∈
        allowedConv q.nonNeg q.noBndry (dszMax Nd) := by
  have h := C39_convbpdn (fun k => dszMax_le Nd _ k fun b => hN b k) q
    (fun h k => (h2 h k).elim fun b hb => hb.trans (le_dszMax Nd b k)) (stackD D) (stackS S) lmbda hl w hw
    fe ge o ha hrlx cb hcb s hp Xf hs
  rw [obj_stack hN] at h
  exact h

theorem mapM_replicate {α β : Type} (f : α → Option β) (x : α) (y : β) (h : f x = some y) :
    ∀ n, (List.replicate n x).mapM f = some (List.replicate n y)
  | 0 => rfl
  | n + 1 => by
    rw [List.replicate_succ, List.mapM_cons, h, mapM_replicate f x y h n]
    rfl

theorem mapM_map_const {α β : Type} (f : α → Option β) (y : β) :
    ∀ l : List α, (∀ x ∈ l, f x = some y) → l.mapM f = some (List.replicate l.length y)
  | [], _ => rfl
  | x :: l, h => by
    rw [List.mapM_cons, h x (by simp), mapM_map_const f y l fun z hz => h z (by simp [hz])]
    rfl

theorem concatShape_replicate (t : List ℕ) (ax n : ℕ) (hn : 1 ≤ n) :
    concatShape (List.replicate n t) ax =
      if ax < t.length then some (t.set ax (n * t.getD ax 0)) else none := by
  obtain ⟨n, rfl⟩ : ∃ m, n = m + 1 := ⟨n - 1, by omega⟩
  rw [List.replicate_succ]
  unfold concatShape
  dsimp only
  by_cases h : ax < t.length
  · have hall : ∀ u ∈ t :: List.replicate n t, u.length = t.length ∧ u.eraseIdx ax = t.eraseIdx ax := by
      intro u hu
      rw [← List.replicate_succ] at hu
      cases List.eq_of_mem_replicate hu
      exact ⟨rfl, rfl⟩
    rw [if_pos ⟨h, hall⟩, if_pos h, ← List.replicate_succ, List.map_replicate, List.sum_replicate,
      smul_eq_mul]
  · rw [if_neg fun hh => h hh.1, if_neg h]

theorem pyGet_last (l : List ℕ) (x : ℕ) : pyGet (l ++ [x]) (-1) = some x := by
  unfold pyGet
  rw [if_neg (by norm_num), if_pos (by simp)]
  simp

/-- **C66, the shapes.** Any number of dictionaries without a channel axis and with the same number
of filters, and signals of one shape, with or without an axis for several signals, give an inner
problem with one channel for each dictionary and one set of coefficient maps for each signal. -/
theorem C66_construct (dimN : ℕ) (M : ℕ) (Dv : List (List ℕ)) (hD : Dv ≠ [])
    (hDv : ∀ s ∈ Dv, s.length = dimN) (Nv : List ℕ) (hNv : Nv.length = dimN) (k : Option ℕ) :
    ∃ cri, construct dimN (Dv.map (· ++ [M])) (List.replicate Dv.length (Nv ++ k.toList)) none = some cri ∧
      cri.Cd = Dv.length ∧ cri.C = Dv.length ∧ cri.M = M ∧ cri.K = k.getD 1 ∧
      cri.shpX = Nv ++ [1, k.getD 1, M] := by
  obtain ⟨D0, Dt, rfl⟩ := List.exists_cons_of_ne_nil hD
  have h0 : D0.length = dimN := hDv D0 (by simp)
  set B := (D0 :: Dt).length with hB
  have hB1 : 1 ≤ B := by simp [hB]
  have hS : slc0 dimN 0 (Nv ++ k.toList) = some (Nv ++ [1] ++ k.toList) := by
    unfold slc0
    rw [if_pos (by simp [hNv]), List.take_left' hNv, List.drop_left' hNv]
    rfl
  have hsh : ∃ dsz : List ℕ, dsz.length = dimN ∧
      shapes dimN ((D0 :: Dt).map (· ++ [M])) (List.replicate B (Nv ++ k.toList)) =
        some (dsz ++ [B] ++ [M], Nv ++ [B] ++ k.toList) := by
    refine ⟨(List.range dimN).map fun i =>
      ((D0 :: Dt).map (· ++ [M])).foldl (fun v s => max v (s.getD i 0)) 0, ?_, ?_⟩
    rotate_left
    · unfold shapes
      have hdim : (((D0 ++ [M]).length : ℤ) - dimN - 1) = 0 := by simp [h0]
      rw [List.map_cons, List.head?_cons, Option.bind_some]
      simp only [hdim, pyGet_last, Option.bind_some, if_true]
      rw [mapM_replicate _ _ _ hS, Option.bind_some, concatShape_replicate _ _ _ hB1, if_pos (by simp [hNv]),
        Option.bind_some]
      have hset : (Nv ++ [1] ++ k.toList).set ((dimN : ℤ) + 0).toNat
          (B * (Nv ++ [1] ++ k.toList).getD ((dimN : ℤ) + 0).toNat 0) = Nv ++ [B] ++ k.toList := by
        subst hNv; simp
      rw [hset]
      rw [show (List.replicate ((D0 ++ [M]) :: List.map (· ++ [M]) Dt).length 1).sum = B by simp [hB]]
    · simp
  obtain ⟨dsz, hd, hsh⟩ := hsh
  have hc := C14_csc dimN dsz Nv hd hNv (some B) (some B) k M none
    (by cases k <;> simp [Roles]) (by simp; omega)
  simp only [Option.toList_some, Option.getD_some] at hc
  rw [construct, hsh, Option.bind_some]
  cases hcs : csc (dsz ++ [B] ++ [M]) (Nv ++ [B] ++ k.toList) none dimN with
  | none => exact absurd (hc.1.1 hcs).2 (by simp)
  | some r =>
    have h := hc.2 r hcs
    refine ⟨r, rfl, h.2.2.2.1, h.2.2.2.2.1, h.2.2.2.2.2.2.1, h.2.2.2.2.2.1, ?_⟩
    have hx := h.2.2.2.2.2.2.2.1.chn
    rw [hx, h.2.2.2.1]
    congr 2
    split_ifs <;> omega

/-- **C66, dictionaries with a channel axis are refused.** With two or more dictionaries that have
a channel axis the constructor fails, for every number of signals. -/
theorem C66_channels_refuted (dimN : ℕ) (M : ℕ) (Dv : List (List ℕ)) (hD : 2 ≤ Dv.length)
    (hDv : ∀ s ∈ Dv, s.length = dimN) (chn : ℕ) (hc : 1 ≤ chn) (Nv : List ℕ) (hNv : Nv.length = dimN)
    (k : Option ℕ) (dimK : Option ℤ) :
    construct dimN (Dv.map (· ++ [chn, M])) (List.replicate Dv.length (Nv ++ [chn] ++ k.toList)) dimK = none := by
  obtain ⟨D0, Dt, rfl⟩ := List.exists_cons_of_ne_nil (List.ne_nil_of_length_pos (by omega : 0 < Dv.length))
  have h0 : D0.length = dimN := hDv D0 (by simp)
  set B := (D0 :: Dt).length with hB
  have hS : slc0 dimN 1 (Nv ++ [chn] ++ k.toList) = some (Nv ++ [chn] ++ k.toList) := by
    unfold slc0
    rw [if_pos (by simp [hNv])]
    simp
  have hdim : (((D0 ++ [chn, M]).length : ℤ) - dimN - 1) = 1 := by simp [h0]
  have hchn : ((D0 :: Dt).map (· ++ [chn, M])).mapM (fun s : List ℕ => s[dimN]?) = some (List.replicate B chn) := by
    rw [mapM_map_const _ chn _ ?_]
    · simp [hB]
    · intro x hx
      obtain ⟨y, hy, rfl⟩ := List.mem_map.1 hx
      rw [← hDv y hy]
      simp
  have hpy : pyGet (D0 ++ [chn, M]) (-1) = some M := by
    rw [show D0 ++ [chn, M] = (D0 ++ [chn]) ++ [M] by simp]
    exact pyGet_last _ _
  unfold construct shapes
  rw [List.map_cons, List.head?_cons, Option.bind_some]
  rw [List.map_cons] at hchn
  simp only [hdim, hpy, Option.bind_some, hchn, if_neg one_ne_zero]
  rw [mapM_replicate _ _ _ hS, Option.bind_some, concatShape_replicate _ _ _ (by omega)]
  cases k with
  | none => rw [if_neg (by simp [hNv])]; rfl
  | some k =>
    rw [if_pos (by simp [hNv]), Option.bind_some, Option.bind_some]
    have hlen : ∀ x : ℕ, (List.set (Nv ++ [chn] ++ [k]) ((dimN : ℤ) + 1).toNat x) = Nv ++ [chn] ++ [x] := by
      intro x
      rw [show ((dimN : ℤ) + 1).toNat = (Nv ++ [chn]).length by simp [hNv], List.set_append_right _ _ le_rfl]
      simp
    rw [Option.toList_some, hlen]
    generalize B * (Nv ++ [chn] ++ [k]).getD ((dimN : ℤ) + 1).toNat 0 = k'
    have hsum : (List.replicate B chn).sum = B * chn := by simp
    rw [hsum]
    generalize hdsz : (List.map _ (List.range dimN)) = dsz
    have hdl : dsz.length = dimN := by rw [← hdsz]; simp
    unfold csc
    have hdc : ((dsz ++ [B * chn] ++ [M]).length : ℤ) - (dimN + 1) = 1 := by simp [hdl]
    have hpg : pyGet (dsz ++ [B * chn] ++ [M]) (-2) = some (B * chn) := by
      unfold pyGet
      rw [if_neg (by norm_num), if_pos (by simp)]
      rw [show ((-2 : ℤ) + ((dsz ++ [B * chn] ++ [M]).length : ℕ)).toNat = dsz.length by simp]
      simp
    have hBc : 2 * chn ≤ B * chn := Nat.mul_le_mul_right _ hD
    simp only [hdc, if_neg one_ne_zero, hpg, Option.bind_some]
    have hgC : pyGet (Nv ++ [chn] ++ [k']) (dimN : ℤ) = some chn := by
      rw [show (dimN : ℤ) = (dimN : ℕ) from rfl, pyGet_nat, ← hNv]
      simp
    by_cases h1 : (dims (Nv ++ [chn] ++ [k']).length dimN 1 dimK).1 = 1
    · rw [if_pos h1, hgC, Option.bind_some, if_pos ⟨by omega, by omega⟩]
    · rw [if_neg h1, Option.bind_some, if_pos ⟨by omega, by omega⟩]

/-- **C66, reconstruction.** No call of `reconstruct` returns: the function it calls is not among
the names of the module. -/
theorem C66_reconstruct_refuted {Nd : Fin d → ℕ} (h : Attr c K M Nd N a) (b : Fin (c + 1))
    (X : Coef K M N) : reconstruct h b X = none := by
  unfold reconstruct reconstructIn
  rw [if_neg (by decide)]

/-- **C66, reconstruction.** If the function were imported, `reconstruct(b)` would return `D_b x`. -/
theorem C66_reconstruct_partial {Nd : Fin (c + 1) → Fin d → ℕ} (hN : ∀ b k, Nd b k ≤ N k) (names : List String)
    (hn : "rfftn" ∈ names) (q : COpts)
    (D : (b : Fin (c + 1)) → M → NArr (Nd b) ℝ) (S : Fin (c + 1) → K → Grid N → ℝ) (rho : ℝ)
    (Xf : Spec K M N a) (b : Fin (c + 1)) (X : Coef K M N) :
    reconstructIn names (setdict q (stackS S) rho (stackD D) Xf) b X =
      some fun k p => ∑ m, filt (D b m) (part X k m) p := by
  rw [reconstructIn, if_pos hn]
  have h := C40_reconstruct (fun k => dszMax_le Nd _ k fun b => hN b k) q (stackD D) (stackS S) rho Xf X
  congr 1
  funext k
  have h1 := congrFun (congrFun h b) k
  unfold Conv.reconstruct at h1
  rw [h1]
  funext p
  simp only [recon, filt_stack hN]

/-- The hypotheses are met: two dictionaries of one-dimensional filters with two and three samples. -/
example : ∃ cri, construct 1 [[2, 4], [3, 4]] [[8], [8]] none = some cri ∧ cri.Cd = 2 ∧
    cri.shpX = [8, 1, 1, 4] := by
  obtain ⟨cri, h, h1, -, -, -, h2⟩ := C66_construct 1 4 [[2], [3]] (by simp) (by simp) [8] rfl none
  exact ⟨cri, h, h1, h2⟩

/-- Dictionaries of three channels. -/
example : construct 2 [[8, 8, 3, 4], [8, 8, 3, 4]] [[16, 16, 3], [16, 16, 3]] none = none :=
  C66_channels_refuted 2 4 [[8, 8], [8, 8]] (by simp) (by simp) 3 (by norm_num) [16, 16] rfl none none

/-- The hypotheses of `C66_multidict` are met: filters with two and three samples, a signal with
eight samples, the state after construction. -/
example : (∀ b k, (![fun _ => 2, fun _ => 3] : Fin 2 → Fin 1 → ℕ) b k ≤ 8) ∧
    (∀ k, ∃ b, 2 ≤ (![fun _ => 2, fun _ => 3] : Fin 2 → Fin 1 → ℕ) b k) ∧
    ∃ s : St (Coef (Fin 1) (Fin 2) (fun _ : Fin 1 => 8)) (Coef (Fin 1) (Fin 2) (fun _ : Fin 1 => 8))
        (Coef (Fin 1) (Fin 2) (fun _ : Fin 1 => 8))
        (Attr 1 (Fin 1) (Fin 2) (dszMax ![fun _ => 2, fun _ => 3]) (fun _ : Fin 1 => 8) 0),
      0 < s.rho ∧ s.extra = setdict ⟨true, true, true⟩ (stackS fun b _ p => b.val + p 0 |>.val) s.rho
        (stackD (Nd := ![fun _ => 2, fun _ => 3]) fun b m _ => b.val + m.val) fun _ _ _ => 0 := by
  refine ⟨by decide, fun _ => ⟨0, by simp⟩, ⟨0, 0, 0, 0, 0, 0, 1, 0, [], setdict _ _ _ _ _⟩, one_pos, rfl⟩

/-- The largest sizes. -/
example : dszMax (c := 1) (d := 2) ![![2, 5], ![3, 4]] = ![3, 5] := by decide

end Props

end Sporco.Conv.Multi
