import Verif.Linalg.SvdExists
import Verif.Array.Rearrange
import Mathlib.LinearAlgebra.Matrix.Kronecker

/-!
# Nearest Kronecker product and Kronecker product SVD (C28), PCA (C60)

`np.linalg.svd` is a parameter with its documented contract.
-/

set_option autoImplicit false

namespace Sporco.Linalg

open Finset Sporco.Util Sporco.Array

/-! ## Model -/

/-- `x.reshape(shape, order='F')`: column-major reshape. -/
def reshapeF {α : Type} (x : ND α) (shape : List ℕ) : ND α :=
  ⟨shape, fun idx =>
    x.get (unravel x.shape.reverse (ravel shape.reverse idx.reverse)).reverse⟩

/-- `x.transpose()`: reversal of the axes. -/
def transposeAll {α : Type} (x : ND α) : ND α :=
  Sporco.Array.transpose x (List.range x.shape.length).reverse

/-- The result of `np.linalg.svd(x, full_matrices=False)`. -/
structure Svd where
  U : ND ℝ
  S : List ℝ
  Vt : ND ℝ

/-- `Atilde` (`linalg.py` 972-979, 1021-1028); `none` is a `ValueError`. -/
def atilde {α : Type} (A : View α) (b0 b1 c0 c1 : ℕ) : Option (ND α) :=
  if A.shape ≠ [b0 * c0, b1 * c1] then none
  else (subsampleArray A [c0, c1]).map fun y =>
    reshape (transposeAll y.nd) [b0 * b1, c0 * c1]

/-- `kpsvd` (`linalg.py` 990-1033): the values, and the arrays of matrices with the index of the
term on the last axis. -/
noncomputable def kpsvd (svd : ND ℝ → Svd) (A : View ℝ) (b0 b1 c0 c1 : ℕ) :
    Option (List ℝ × ND ℝ × ND ℝ) :=
  (atilde A b0 b1 c0 c1).map fun At =>
    let w := svd At
    (w.S, reshapeF w.U ([b0, b1] ++ [w.U.shape.getD 1 0]),
      reshapeF (transposeAll w.Vt) ([c0, c1] ++ [w.Vt.shape.getD 0 0]))

/-- `U[:, [0]]` -/
def firstCol (x : ND ℝ) : ND ℝ := ⟨[x.shape.getD 0 0, 1], fun idx => x.get [idx.getD 0 0, 0]⟩

/-- `Vt[[0], :]` -/
def firstRow (x : ND ℝ) : ND ℝ := ⟨[1, x.shape.getD 1 0], fun idx => x.get [0, idx.getD 1 0]⟩

/-- `a * x` for a scalar and an array. -/
noncomputable def scaleND (a : ℝ) (x : ND ℝ) : ND ℝ := ⟨x.shape, fun idx => a * x.get idx⟩

/-- `nkp` (`linalg.py` 949-986). -/
noncomputable def nkp (svd : ND ℝ → Svd) (A : View ℝ) (b0 b1 c0 c1 : ℕ) : Option (ND ℝ × ND ℝ) :=
  (atilde A b0 b1 c0 c1).map fun At =>
    let w := svd At
    (scaleND (Real.sqrt (w.S.getD 0 0)) (reshapeF (firstCol w.U) [b0, b1]),
      scaleND (Real.sqrt (w.S.getD 0 0)) (reshapeF (firstRow w.Vt) [c0, c1]))

/-- `pca` (`linalg.py` 914-945); the rows of `U` are variables, its columns observations. -/
noncomputable def pca {p q : ℕ} (svd : ND ℝ → Svd) (U : Fin p → Fin q → ℝ) (centre : Bool) :
    ND ℝ × List ℝ × Option (Fin p → ℝ) :=
  let C : Fin p → ℝ := fun i => (∑ j, U i j) / q
  let U' : ND ℝ := ⟨[p, q], fun idx =>
    if h : idx.getD 0 0 < p ∧ idx.getD 1 0 < q then
      U ⟨idx.getD 0 0, h.1⟩ ⟨idx.getD 1 0, h.2⟩ - (if centre then C ⟨idx.getD 0 0, h.1⟩ else 0)
    else 0⟩
  let w := svd U'
  (w.U, w.S.map (· ^ 2), if centre then some C else none)

/-! ## Specification -/

/-- The contract of `np.linalg.svd(x, full_matrices=False)` for a `p × q` matrix. -/
structure IsSvd (p q : ℕ) (x : ND ℝ) (w : Svd) : Prop where
  shU : w.U.shape = [p, min p q]
  shV : w.Vt.shape = [min p q, q]
  len : w.S.length = min p q
  nonneg : ∀ s ∈ w.S, 0 ≤ s
  sorted : w.S.Pairwise (· ≥ ·)
  orthU : OrthoFam fun (r : Fin (min p q)) (i : Fin p) => w.U.get [i, r]
  orthV : OrthoFam fun (r : Fin (min p q)) (j : Fin q) => w.Vt.get [r, j]
  eq : ∀ (i : Fin p) (j : Fin q), x.get [i, j] =
    ∑ r : Fin (min p q), w.S.getD r 0 * w.U.get [i, r] * w.Vt.get [r, j]

/-- A correct SVD routine. -/
def SvdCorrect (svd : ND ℝ → Svd) : Prop :=
  ∀ (x : ND ℝ) (p q : ℕ), x.shape = [p, q] → IsSvd p q x (svd x)

/-- The matrix `A`, its rows and columns indexed by block and position in the block. -/
def blocked (A : View ℝ) (b0 b1 c0 c1 : ℕ) : Matrix (Fin b0 × Fin c0) (Fin b1 × Fin c1) ℝ :=
  fun x y => A.nd.get [x.1 * c0 + x.2, y.1 * c1 + y.2]

open scoped Kronecker

/-- The squared Frobenius norm. -/
def frobSq {I J : Type*} [Fintype I] [Fintype J] (M : Matrix I J ℝ) : ℝ := ∑ i, ∑ j, M i j ^ 2

/-- Term `r` of an array of matrices. -/
def term {m n : ℕ} (x : ND ℝ) (r : ℕ) : Matrix (Fin m) (Fin n) ℝ := fun i j => x.get [i, j, r]

/-- A two-dimensional array as a matrix. -/
def mat {m n : ℕ} (x : ND ℝ) : Matrix (Fin m) (Fin n) ℝ := fun i j => x.get [i, j]

/-! ## Proofs -/

theorem unravel_of {s i : List ℕ} {k : ℕ} (hv : Valid s i) (h : k = ravel s i) :
    unravel s k = i := by
  subst h
  exact unravel_ravel s i hv

theorem valid2 {a b i j : ℕ} (hi : i < a) (hj : j < b) : Valid [a, b] [i, j] :=
  .cons hi (.cons hj .nil)

theorem reshapeF_get {α : Type} (x : ND α) (s i j : List ℕ) (hj : Valid x.shape.reverse j.reverse)
    (h : ravel s.reverse i.reverse = ravel x.shape.reverse j.reverse) :
    (reshapeF x s).get i = x.get j := by
  unfold reshapeF
  simp only
  rw [h, unravel_ravel _ _ hj, List.reverse_reverse]

theorem idx_lt {a b k i : ℕ} (hk : k < a) (hi : i < b) : k * b + i < a * b := by
  have : (k + 1) * b ≤ a * b := Nat.mul_le_mul_right _ hk
  nlinarith

/-- **C28, the rearrangement.** It is defined exactly if both block dimensions exceed one (for
positive sizes); its entry in row `l * b0 + k` and column `j * c0 + i` is the entry of the matrix in
row `k * c0 + i` and column `l * c1 + j`. -/
theorem C28_rearrangement {α : Type} (A : View α) (b0 b1 c0 c1 : ℕ)
    (hsh : A.shape = [b0 * c0, b1 * c1]) (hst : A.strides.length = 2) (hc0 : 0 < c0)
    (hc1 : 0 < c1) :
    (atilde A b0 b1 c0 c1 = none ↔ ¬ (1 < b0 ∧ 1 < b1)) ∧
    ∀ At, atilde A b0 b1 c0 c1 = some At → At.shape = [b0 * b1, c0 * c1] ∧
      ∀ k < b0, ∀ l < b1, ∀ i < c0, ∀ j < c1,
        At.get [l * b0 + k, j * c0 + i] = A.nd.get [k * c0 + i, l * c1 + j] := by
  have hsub := C13_subsample A [c0, c1] (by rw [hst, hsh]; rfl) (by simp [hc0, hc1])
  have hF : List.Forall₂ (· < ·) [c0, c1] A.shape ↔ 1 < b0 ∧ 1 < b1 := by
    rw [hsh]
    simp only [List.forall₂_cons, List.forall₂_nil_left_iff, and_true]
    constructor
    · rintro ⟨h1, h2⟩
      exact ⟨by nlinarith, by nlinarith⟩
    · rintro ⟨h1, h2⟩
      exact ⟨by nlinarith, by nlinarith⟩
  unfold atilde
  rw [if_neg (by simp [hsh])]
  constructor
  · rw [Option.map_eq_none_iff, hsub.1, hF]
  · intro At hAt
    obtain ⟨y, hy, rfl⟩ := Option.map_eq_some_iff.1 hAt
    obtain ⟨hys, hyg, -, -⟩ := hsub.2 y hy
    refine ⟨rfl, ?_⟩
    intro k hk l hl i hi j hj
    have hb0 : b0 * c0 / c0 = b0 := Nat.mul_div_cancel _ hc0
    have hb1 : b1 * c1 / c1 = b1 := Nat.mul_div_cancel _ hc1
    have hyshape : y.nd.shape = [c0, c1, b0, b1] := by
      change y.shape = _
      rw [hys, hsh]
      simp [hb0, hb1]
    have hget := hyg [i, j] [k, l] (valid2 hi hj) (by
      rw [hsh]; simp only [List.zipWith_cons_cons, List.zipWith_nil_left, hb0, hb1]
      exact valid2 hk hl)
    simp only [place, List.cons_append, List.nil_append] at hget
    rw [← hget]
    have htr : (transposeAll y.nd).shape = [b1, b0, c1, c0] := by
      unfold transposeAll Sporco.Array.transpose
      rw [hyshape]
      rfl
    have hrs : (reshape (transposeAll y.nd) [b0 * b1, c0 * c1]).get [l * b0 + k, j * c0 + i] =
        (transposeAll y.nd).get [l, k, j, i] := by
      apply reshape_get
      · rw [htr]; exact .cons hl (.cons hk (.cons hj (.cons hi .nil)))
      · rw [htr]
        simp only [ravel, List.prod_cons, List.prod_nil, mul_one, add_zero]
        ring
    rw [hrs]
    unfold transposeAll Sporco.Array.transpose
    rw [hyshape]
    rfl

theorem sum_flat (m n : ℕ) (f : ℕ → ℝ) :
    ∑ P : Fin (m * n), f P = ∑ x : Fin m × Fin n, f (x.2 * m + x.1) := by
  rw [← Equiv.sum_comp ((Equiv.prodComm (Fin m) (Fin n)).trans (finProdFinEquiv.trans
    (finCongr (Nat.mul_comm n m)))) (fun P => f P.val)]
  refine sum_congr rfl fun x _ => ?_
  simp only [Equiv.trans_apply, Equiv.prodComm_apply, finCongr_apply, Fin.val_cast]
  congr 1
  simp only [finProdFinEquiv, Equiv.coe_fn_mk, Prod.fst_swap, Prod.snd_swap]
  ring

/-- The decomposition of the blocked matrix that an SVD of the rearrangement gives. -/
theorem blocked_svd (A : View ℝ) (b0 b1 c0 c1 : ℕ) (hsh : A.shape = [b0 * c0, b1 * c1])
    (hst : A.strides.length = 2) (hc0 : 0 < c0) (hc1 : 0 < c1) (At : ND ℝ)
    (hAt : atilde A b0 b1 c0 c1 = some At) (w : Svd) (hw : IsSvd (b0 * b1) (c0 * c1) At w) :
    let R := min (b0 * b1) (c0 * c1)
    let σ : Fin R → ℝ := fun r => w.S.getD r 0
    let u : Fin R → Fin b0 × Fin b1 → ℝ := fun r x => w.U.get [x.2 * b0 + x.1, r]
    let v : Fin R → Fin c0 × Fin c1 → ℝ := fun r y => w.Vt.get [r, y.2 * c0 + y.1]
    Antitone σ ∧ (∀ r, 0 ≤ σ r) ∧ OrthoFam u ∧ OrthoFam v ∧
      ∀ k i l j, blocked A b0 b1 c0 c1 (k, i) (l, j) = ∑ r, σ r * u r (k, l) * v r (i, j) := by
  intro R σ u v
  have hlt : ∀ r : Fin R, r.val < w.S.length := fun r => by rw [hw.len]; exact r.2
  refine ⟨?_, ?_, ?_, ?_, ?_⟩
  · intro r s hrs
    change w.S.getD s 0 ≤ w.S.getD r 0
    rw [List.getD_eq_getElem _ _ (hlt s), List.getD_eq_getElem _ _ (hlt r)]
    rcases eq_or_lt_of_le hrs with h | h
    · subst h; exact le_rfl
    · exact List.pairwise_iff_getElem.1 hw.sorted _ _ (hlt r) (hlt s) h
  · intro r
    change 0 ≤ w.S.getD r 0
    rw [List.getD_eq_getElem _ _ (hlt r)]
    exact hw.nonneg _ (List.getElem_mem _)
  · intro r s
    rw [← hw.orthU r s, sum_flat b0 b1 fun P => w.U.get [P, r] * w.U.get [P, s]]
  · intro r s
    rw [← hw.orthV r s, sum_flat c0 c1 fun P => w.Vt.get [r, P] * w.Vt.get [s, P]]
  · intro k i l j
    have h := ((C28_rearrangement A b0 b1 c0 c1 hsh hst hc0 hc1).2 At hAt).2 k k.2 l l.2 i i.2 j j.2
    unfold blocked
    simp only
    rw [← h]
    have hP : l.val * b0 + k < b0 * b1 := by rw [Nat.mul_comm b0]; exact idx_lt l.2 k.2
    have hQ : j.val * c0 + i < c0 * c1 := by rw [Nat.mul_comm c0]; exact idx_lt j.2 i.2
    exact hw.eq ⟨_, hP⟩ ⟨_, hQ⟩

theorem sum_blocks {b0 b1 c0 c1 : ℕ} (f : Fin b0 → Fin c0 → Fin b1 → Fin c1 → ℝ) :
    ∑ x : Fin b0 × Fin c0, ∑ y : Fin b1 × Fin c1, f x.1 x.2 y.1 y.2 =
      ∑ p : Fin b0 × Fin b1, ∑ q : Fin c0 × Fin c1, f p.1 q.1 p.2 q.2 := by
  simp only [Fintype.sum_prod_type]
  refine sum_congr rfl fun k _ => ?_
  rw [sum_comm]

/-- **C28, decomposition.** With a correct SVD routine, `kpsvd` returns nonnegative values in
decreasing order and two families of matrices, each orthonormal for the Frobenius inner product,
with `A = ∑ S_r B_r ⊗ C_r`; for every `n`, the first `n` terms have squared error `∑_{r ≥ n} S_r²`,
and no sum of `n` Kronecker products of the given shapes has a smaller one. Missing from the
property: the call is refused if a block dimension is one (`C28_refuted`). -/
theorem C28_kpsvd_partial (svd : ND ℝ → Svd) (hsvd : SvdCorrect svd) (A : View ℝ)
    (b0 b1 c0 c1 : ℕ) (hsh : A.shape = [b0 * c0, b1 * c1]) (hst : A.strides.length = 2)
    (hb0 : 1 < b0) (hb1 : 1 < b1) (hc0 : 0 < c0) (hc1 : 0 < c1) :
    ∃ S B C, kpsvd svd A b0 b1 c0 c1 = some (S, B, C) ∧
      S.length = min (b0 * b1) (c0 * c1) ∧
      B.shape = [b0, b1, S.length] ∧ C.shape = [c0, c1, S.length] ∧
      (∀ s ∈ S, 0 ≤ s) ∧ S.Pairwise (· ≥ ·) ∧
      (∀ r < S.length, ∀ s < S.length,
        ∑ i : Fin b0, ∑ j : Fin b1, term B r i j * term B s i j = if r = s then 1 else 0) ∧
      (∀ r < S.length, ∀ s < S.length,
        ∑ i : Fin c0, ∑ j : Fin c1, term C r i j * term C s i j = if r = s then 1 else 0) ∧
      blocked A b0 b1 c0 c1 = ∑ r ∈ range S.length, S.getD r 0 • (term B r ⊗ₖ term C r) ∧
      ∀ n, let best := frobSq (blocked A b0 b1 c0 c1 -
            ∑ r ∈ range (min n S.length), S.getD r 0 • (term B r ⊗ₖ term C r))
        best = ∑ r ∈ range S.length, (if r < n then 0 else S.getD r 0 ^ 2) ∧
        ∀ (b : Fin n → Matrix (Fin b0) (Fin b1) ℝ) (c : Fin n → Matrix (Fin c0) (Fin c1) ℝ),
          best ≤ frobSq (blocked A b0 b1 c0 c1 - ∑ t, b t ⊗ₖ c t) := by
  obtain ⟨At, hAt⟩ : ∃ At, atilde A b0 b1 c0 c1 = some At := by
    rw [← Option.ne_none_iff_exists']
    exact fun h => (C28_rearrangement A b0 b1 c0 c1 hsh hst hc0 hc1).1.1 h ⟨hb0, hb1⟩
  have hw := hsvd At _ _ ((C28_rearrangement A b0 b1 c0 c1 hsh hst hc0 hc1).2 At hAt).1
  obtain ⟨hσ, h0, hu, hv, hA⟩ := blocked_svd A b0 b1 c0 c1 hsh hst hc0 hc1 At hAt (svd At) hw
  set w := svd At with hwdef
  set R := min (b0 * b1) (c0 * c1) with hR
  set B := reshapeF w.U ([b0, b1] ++ [w.U.shape.getD 1 0]) with hB
  set C := reshapeF (transposeAll w.Vt) ([c0, c1] ++ [w.Vt.shape.getD 0 0]) with hC
  have hBsh : B.shape = [b0, b1, R] := by rw [hB]; simp [reshapeF, hw.shU, hR]
  have hCsh : C.shape = [c0, c1, R] := by rw [hC]; simp [reshapeF, hw.shV, hR]
  have hBg : ∀ (r : Fin R) (k : Fin b0) (l : Fin b1),
      term B r k l = w.U.get [l * b0 + k, r] := by
    intro r k l
    have hP : l.val * b0 + k < b0 * b1 := by rw [Nat.mul_comm b0]; exact idx_lt l.2 k.2
    refine reshapeF_get w.U _ [k.val, l.val, r.val] _ ?_ ?_
    · rw [hw.shU]; exact valid2 r.2 hP
    · rw [hw.shU]
      simp only [List.cons_append, List.nil_append, List.reverse_cons, List.reverse_nil, ravel,
        List.prod_cons, List.prod_nil, mul_one, add_zero]
      ring
  have hVT : (transposeAll w.Vt).shape = [c0 * c1, R] := by
    unfold transposeAll Sporco.Array.transpose
    rw [hw.shV]
    rfl
  have hCg : ∀ (r : Fin R) (i : Fin c0) (j : Fin c1),
      term C r i j = w.Vt.get [r, j * c0 + i] := by
    intro r i j
    have hQ : j.val * c0 + i < c0 * c1 := by rw [Nat.mul_comm c0]; exact idx_lt j.2 i.2
    have h1 : term C r i j = (transposeAll w.Vt).get [j * c0 + i, r] := by
      refine reshapeF_get _ _ [i.val, j.val, r.val] _ ?_ ?_
      · rw [hVT]; exact valid2 r.2 hQ
      · rw [hVT, hw.shV]
        simp only [List.cons_append, List.nil_append, List.reverse_cons, List.reverse_nil, ravel,
          List.prod_cons, List.prod_nil, mul_one, add_zero, List.getD_cons_zero]
        ring
    rw [h1]
    unfold transposeAll Sporco.Array.transpose
    rw [hw.shV]
    rfl
  have hK : ∀ (r : Fin R) k i l j, (w.S.getD r 0 • (term B r ⊗ₖ term C r :
      Matrix (Fin b0 × Fin c0) (Fin b1 × Fin c1) ℝ)) (k, i) (l, j) =
        w.S.getD r 0 * w.U.get [l * b0 + k, r] * w.Vt.get [r, j * c0 + i] := by
    intro r k i l j
    rw [Matrix.smul_apply, Matrix.kronecker_apply, hBg, hCg, smul_eq_mul, mul_assoc]
  refine ⟨w.S, B, C, by unfold kpsvd; rw [hAt]; rfl, hw.len, by rw [hw.len, hBsh],
    by rw [hw.len, hCsh], hw.nonneg, hw.sorted, ?_, ?_, ?_, ?_⟩
  · intro r hr s hs
    rw [hw.len] at hr hs
    have h := hu ⟨r, hr⟩ ⟨s, hs⟩
    rw [Fintype.sum_prod_type] at h
    simp only [Fin.mk.injEq] at h
    rw [← h]
    refine sum_congr rfl fun i _ => sum_congr rfl fun j _ => ?_
    rw [← hBg ⟨r, hr⟩, ← hBg ⟨s, hs⟩]
  · intro r hr s hs
    rw [hw.len] at hr hs
    have h := hv ⟨r, hr⟩ ⟨s, hs⟩
    rw [Fintype.sum_prod_type] at h
    simp only [Fin.mk.injEq] at h
    rw [← h]
    refine sum_congr rfl fun i _ => sum_congr rfl fun j _ => ?_
    rw [← hCg ⟨r, hr⟩, ← hCg ⟨s, hs⟩]
  · ext ⟨k, i⟩ ⟨l, j⟩
    rw [hw.len, hA k i l j, Matrix.sum_apply, sum_range fun r => (w.S.getD r 0 •
      (term B r ⊗ₖ term C r : Matrix (Fin b0 × Fin c0) (Fin b1 × Fin c1) ℝ)) (k, i) (l, j)]
    exact sum_congr rfl fun r _ => (hK r k i l j).symm
  · intro n
    have htr := truncation_error n (fun r : Fin R => w.S.getD r 0)
      (fun r (x : Fin b0 × Fin b1) => w.U.get [x.2 * b0 + x.1, r])
      (fun r (y : Fin c0 × Fin c1) => w.Vt.get [r, y.2 * c0 + y.1]) hu hv
    have hpart : ∀ k i l j, (∑ r ∈ range (min n w.S.length), w.S.getD r 0 • (term B r ⊗ₖ term C r :
        Matrix (Fin b0 × Fin c0) (Fin b1 × Fin c1) ℝ)) (k, i) (l, j) =
        ∑ r : Fin R, if r.val < n then
          w.S.getD r 0 * w.U.get [l * b0 + k, r] * w.Vt.get [r, j * c0 + i] else 0 := by
      intro k i l j
      have h1 : ∀ r : Fin R, (if r.val < n then
          w.S.getD r 0 * w.U.get [l.val * b0 + k, r] * w.Vt.get [r.val, j * c0 + i] else 0) =
          (fun r : ℕ => if r < n then (w.S.getD r 0 • (term B r ⊗ₖ term C r :
            Matrix (Fin b0 × Fin c0) (Fin b1 × Fin c1) ℝ)) (k, i) (l, j) else 0) r := by
        intro r
        simp only
        rw [hK r k i l j]
      rw [sum_congr rfl fun r _ => h1 r, ← sum_range fun r : ℕ => if r < n then
        (w.S.getD r 0 • (term B r ⊗ₖ term C r :
            Matrix (Fin b0 × Fin c0) (Fin b1 × Fin c1) ℝ)) (k, i) (l, j) else 0,
        Matrix.sum_apply, ← sum_filter, hw.len]
      refine sum_congr ?_ fun _ _ => rfl
      ext r
      simp only [mem_range, mem_filter]
      omega
    have hbest : frobSq (blocked A b0 b1 c0 c1 - ∑ r ∈ range (min n w.S.length),
        w.S.getD r 0 • (term B r ⊗ₖ term C r)) =
        ∑ r : Fin R, if r.val < n then 0 else w.S.getD r 0 ^ 2 := by
      rw [← htr]
      unfold frobSq
      rw [sum_congr rfl fun x _ => sum_congr rfl fun y _ => ?_, sum_blocks fun k i l j =>
        (∑ r : Fin R, w.S.getD r 0 * w.U.get [l * b0 + k, r] * w.Vt.get [r.val, j * c0 + i] -
          ∑ r : Fin R, if r.val < n then
          w.S.getD r 0 * w.U.get [l * b0 + k, r] * w.Vt.get [r.val, j * c0 + i] else 0) ^ 2]
      obtain ⟨k, i⟩ := x
      obtain ⟨l, j⟩ := y
      rw [Matrix.sub_apply, hA k i l j, hpart k i l j]
    simp only
    refine ⟨?_, ?_⟩
    · rw [hbest, hw.len, sum_range fun r : ℕ => if r < n then (0 : ℝ) else w.S.getD r 0 ^ 2]
    · intro b c
      rw [hbest]
      refine (eckart_young (n := n) _ hσ h0 _ _ hu hv (fun t x => b t x.1 x.2)
        (fun t y => c t y.1 y.2)).trans (le_of_eq ?_)
      unfold frobSq
      rw [← sum_blocks fun k i l j =>
        (∑ r : Fin R, w.S.getD r 0 * w.U.get [l * b0 + k, r] * w.Vt.get [r.val, j * c0 + i] -
          ∑ t, b t k l * c t i j) ^ 2]
      refine sum_congr rfl fun x _ => sum_congr rfl fun y _ => ?_
      obtain ⟨k, i⟩ := x
      obtain ⟨l, j⟩ := y
      rw [Matrix.sub_apply, hA k i l j, Matrix.sum_apply]
      simp only [Matrix.kronecker_apply]

/-- **C28, best single product.** With a correct SVD routine, `nkp` returns matrices of the given
shapes whose Kronecker product is at least as close to `A` as any other. Missing from the property:
the call is refused if a block dimension is one (`C28_refuted`). -/
theorem C28_nkp_partial (svd : ND ℝ → Svd) (hsvd : SvdCorrect svd) (A : View ℝ)
    (b0 b1 c0 c1 : ℕ) (hsh : A.shape = [b0 * c0, b1 * c1]) (hst : A.strides.length = 2)
    (hb0 : 1 < b0) (hb1 : 1 < b1) (hc0 : 0 < c0) (hc1 : 0 < c1) :
    ∃ B C, nkp svd A b0 b1 c0 c1 = some (B, C) ∧ B.shape = [b0, b1] ∧ C.shape = [c0, c1] ∧
      ∀ (b : Matrix (Fin b0) (Fin b1) ℝ) (c : Matrix (Fin c0) (Fin c1) ℝ),
        frobSq (blocked A b0 b1 c0 c1 - mat B ⊗ₖ mat C) ≤
          frobSq (blocked A b0 b1 c0 c1 - b ⊗ₖ c) := by
  obtain ⟨At, hAt⟩ : ∃ At, atilde A b0 b1 c0 c1 = some At := by
    rw [← Option.ne_none_iff_exists']
    exact fun h => (C28_rearrangement A b0 b1 c0 c1 hsh hst hc0 hc1).1.1 h ⟨hb0, hb1⟩
  have hw := hsvd At _ _ ((C28_rearrangement A b0 b1 c0 c1 hsh hst hc0 hc1).2 At hAt).1
  obtain ⟨hσ, h0, hu, hv, hA⟩ := blocked_svd A b0 b1 c0 c1 hsh hst hc0 hc1 At hAt (svd At) hw
  set w := svd At with hwdef
  set R := min (b0 * b1) (c0 * c1) with hR
  have hR1 : 0 < R := lt_min (by positivity) (by positivity)
  set B := scaleND (Real.sqrt (w.S.getD 0 0)) (reshapeF (firstCol w.U) [b0, b1]) with hB
  set C := scaleND (Real.sqrt (w.S.getD 0 0)) (reshapeF (firstRow w.Vt) [c0, c1]) with hC
  have hBg : ∀ (k : Fin b0) (l : Fin b1),
      mat B k l = Real.sqrt (w.S.getD 0 0) * w.U.get [l * b0 + k, 0] := by
    intro k l
    have hP : l.val * b0 + k < b0 * b1 := by rw [Nat.mul_comm b0]; exact idx_lt l.2 k.2
    have : (reshapeF (firstCol w.U) [b0, b1]).get [k.val, l.val] =
        (firstCol w.U).get [l * b0 + k, 0] := by
      refine reshapeF_get _ _ _ _ ?_ ?_
      · unfold firstCol; rw [hw.shU]; exact valid2 Nat.one_pos hP
      · unfold firstCol; rw [hw.shU]
        simp only [List.cons_append, List.nil_append, List.reverse_cons, List.reverse_nil, ravel,
          List.prod_cons, List.prod_nil, mul_one, add_zero, List.getD_cons_zero]
        ring
    change Real.sqrt (w.S.getD 0 0) * (reshapeF (firstCol w.U) [b0, b1]).get [k.val, l.val] = _
    rw [this]
    rfl
  have hCg : ∀ (i : Fin c0) (j : Fin c1),
      mat C i j = Real.sqrt (w.S.getD 0 0) * w.Vt.get [0, j * c0 + i] := by
    intro i j
    have hQ : j.val * c0 + i < c0 * c1 := by rw [Nat.mul_comm c0]; exact idx_lt j.2 i.2
    have : (reshapeF (firstRow w.Vt) [c0, c1]).get [i.val, j.val] =
        (firstRow w.Vt).get [0, j * c0 + i] := by
      refine reshapeF_get _ _ _ _ ?_ ?_
      · unfold firstRow; rw [hw.shV]; exact valid2 hQ Nat.one_pos
      · unfold firstRow; rw [hw.shV]
        simp only [List.cons_append, List.nil_append, List.reverse_cons, List.reverse_nil, ravel,
          List.prod_cons, List.prod_nil, mul_one, add_zero]
    change Real.sqrt (w.S.getD 0 0) * (reshapeF (firstRow w.Vt) [c0, c1]).get [i.val, j.val] = _
    rw [this]
    rfl
  refine ⟨B, C, by unfold nkp; rw [hAt]; rfl, rfl, rfl, ?_⟩
  intro b c
  have hK : ∀ k i l j, (mat B ⊗ₖ mat C : Matrix (Fin b0 × Fin c0) (Fin b1 × Fin c1) ℝ)
      (k, i) (l, j) = ∑ r : Fin R, if r.val < 1 then
        w.S.getD r 0 * w.U.get [l * b0 + k, r] * w.Vt.get [r, j * c0 + i] else 0 := by
    intro k i l j
    rw [sum_eq_single ⟨0, hR1⟩ ?_ (by simp), Matrix.kronecker_apply, hBg, hCg]
    · have hsq : Real.sqrt (w.S.getD 0 0) * Real.sqrt (w.S.getD 0 0) = w.S.getD 0 0 :=
        Real.mul_self_sqrt (h0 ⟨0, hR1⟩)
      rw [if_pos (by norm_num)]
      calc _ = (Real.sqrt (w.S.getD 0 0) * Real.sqrt (w.S.getD 0 0)) *
            w.U.get [l * b0 + k, 0] * w.Vt.get [0, j * c0 + i] := by ring
        _ = _ := by rw [hsq]
    · intro r _ hr
      refine if_neg fun h => hr (Fin.ext ?_)
      simp only
      omega
  have htr := truncation_error 1 (fun r : Fin R => w.S.getD r 0)
      (fun r (x : Fin b0 × Fin b1) => w.U.get [x.2 * b0 + x.1, r])
      (fun r (y : Fin c0 × Fin c1) => w.Vt.get [r, y.2 * c0 + y.1]) hu hv
  have hey := eckart_young (n := 1) _ hσ h0 _ _ hu hv (fun _ x => b x.1 x.2) (fun _ y => c y.1 y.2)
  have hl : frobSq (blocked A b0 b1 c0 c1 - mat B ⊗ₖ mat C) =
      ∑ r : Fin R, if r.val < 1 then 0 else w.S.getD r 0 ^ 2 := by
    rw [← htr]
    unfold frobSq
    rw [sum_congr rfl fun x _ => sum_congr rfl fun y _ => ?_, sum_blocks fun k i l j =>
        (∑ r : Fin R, w.S.getD r 0 * w.U.get [l * b0 + k, r] * w.Vt.get [r.val, j * c0 + i] -
          ∑ r : Fin R, if r.val < 1 then
          w.S.getD r 0 * w.U.get [l * b0 + k, r] * w.Vt.get [r.val, j * c0 + i] else 0) ^ 2]
    obtain ⟨k, i⟩ := x
    obtain ⟨l, j⟩ := y
    rw [Matrix.sub_apply, hA k i l j, hK k i l j]
  rw [hl]
  refine hey.trans (le_of_eq ?_)
  unfold frobSq
  rw [← sum_blocks fun k i l j =>
    (∑ r : Fin R, w.S.getD r 0 * w.U.get [l * b0 + k, r] * w.Vt.get [r.val, j * c0 + i] -
      ∑ t : Fin 1, b k l * c i j) ^ 2]
  refine sum_congr rfl fun x _ => sum_congr rfl fun y _ => ?_
  obtain ⟨k, i⟩ := x
  obtain ⟨l, j⟩ := y
  rw [Matrix.sub_apply, hA k i l j]
  simp

/-- **C28, refuted for factors with a dimension one.** For every SVD routine and every matrix, both
calls are refused if `B` is to be a row or a column, whatever the (positive) shape of `C`. -/
theorem C28_refuted (svd : ND ℝ → Svd) (A : View ℝ) (b0 b1 c0 c1 : ℕ)
    (hsh : A.shape = [b0 * c0, b1 * c1]) (hst : A.strides.length = 2) (hc0 : 0 < c0)
    (hc1 : 0 < c1) (h1 : b0 = 1 ∨ b1 = 1) :
    nkp svd A b0 b1 c0 c1 = none ∧ kpsvd svd A b0 b1 c0 c1 = none := by
  have h : atilde A b0 b1 c0 c1 = none :=
    (C28_rearrangement A b0 b1 c0 c1 hsh hst hc0 hc1).1.2 (by omega)
  unfold nkp kpsvd
  rw [h]
  exact ⟨rfl, rfl⟩

/-- **C28, incompatible shapes.** Both calls raise `ValueError` if the shape of `A` is not the
product of the shapes. -/
theorem C28_shape (svd : ND ℝ → Svd) (A : View ℝ) (b0 b1 c0 c1 : ℕ)
    (h : A.shape ≠ [b0 * c0, b1 * c1]) :
    nkp svd A b0 b1 c0 c1 = none ∧ kpsvd svd A b0 b1 c0 c1 = none := by
  have h : atilde A b0 b1 c0 c1 = none := by unfold atilde; rw [if_pos h]
  unfold nkp kpsvd
  rw [h]
  exact ⟨rfl, rfl⟩

/-- The assumption on the SVD routine can be met for every matrix. -/
theorem svdCorrect_exists : ∃ svd, SvdCorrect svd := by
  classical
  have key : ∀ (p q : ℕ) (x : ND ℝ), ∃ w, IsSvd p q x w := by
    intro p q x
    obtain ⟨σ, u, v, hσ, h0, hu, hv, hx⟩ := svd_exists p q fun i j => x.get [i, j]
    refine ⟨⟨⟨[p, min p q], fun idx => if h : idx.getD 0 0 < p ∧ idx.getD 1 0 < p then
        u ⟨idx.getD 1 0, h.2⟩ ⟨idx.getD 0 0, h.1⟩ else 0⟩,
      (List.range (min p q)).map σ,
      ⟨[min p q, q], fun idx => if h : idx.getD 0 0 < q ∧ idx.getD 1 0 < q then
        v ⟨idx.getD 0 0, h.1⟩ ⟨idx.getD 1 0, h.2⟩ else 0⟩⟩, ?_⟩
    have hU : ∀ (r : Fin (min p q)) (i : Fin p),
        (if h : [i.val, r.val].getD 0 0 < p ∧ [i.val, r.val].getD 1 0 < p then
          u ⟨[i.val, r.val].getD 1 0, h.2⟩ ⟨[i.val, r.val].getD 0 0, h.1⟩ else 0) =
        u ⟨r, lt_of_lt_of_le r.2 (min_le_left _ _)⟩ i := fun r i =>
      dif_pos (⟨i.2, lt_of_lt_of_le r.2 (min_le_left _ _)⟩ : i.val < p ∧ r.val < p)
    have hV : ∀ (r : Fin (min p q)) (j : Fin q),
        (if h : [r.val, j.val].getD 0 0 < q ∧ [r.val, j.val].getD 1 0 < q then
          v ⟨[r.val, j.val].getD 0 0, h.1⟩ ⟨[r.val, j.val].getD 1 0, h.2⟩ else 0) =
        v ⟨r, lt_of_lt_of_le r.2 (min_le_right _ _)⟩ j := fun r j =>
      dif_pos (⟨lt_of_lt_of_le r.2 (min_le_right _ _), j.2⟩ : r.val < q ∧ j.val < q)
    refine ⟨rfl, rfl, by simp, ?_, ?_, ?_, ?_, ?_⟩
    · intro s hs
      obtain ⟨r, -, rfl⟩ := List.mem_map.1 hs
      exact h0 r
    · rw [List.pairwise_map]
      exact List.pairwise_lt_range.imp fun h => hσ h.le
    · intro r s
      simp only [hU]
      rw [hu]
      simp [Fin.ext_iff]
    · intro r s
      simp only [hV]
      rw [hv]
      simp [Fin.ext_iff]
    · intro i j
      rw [hx i j]
      refine sum_congr rfl fun r _ => ?_
      simp only
      rw [hU, hV, List.getD_eq_getElem _ _ (by simpa using lt_min_iff.1 r.2)]
      simp
  refine ⟨fun x => Classical.choose (key (x.shape.getD 0 0) (x.shape.getD 1 0) x), ?_⟩
  intro x p q hx
  have := Classical.choose_spec (key (x.shape.getD 0 0) (x.shape.getD 1 0) x)
  simpa [hx] using this

/-- The hypotheses of the theorems above are met by a 4 × 6 matrix with 2 × 3 and 2 × 2 factors. -/
example : ∃ (svd : ND ℝ → Svd) (A : View ℝ), SvdCorrect svd ∧ A.shape = [2 * 2, 3 * 2] ∧
    A.strides.length = 2 := by
  obtain ⟨svd, h⟩ := svdCorrect_exists
  exact ⟨svd, ⟨fun k => k, [4, 6], [6, 1]⟩, h, rfl, rfl⟩

/-! ## PCA -/

theorem ortho_proj {P Q : Type*} [Fintype P] [Fintype Q] {R : ℕ} (σ : Fin R → ℝ)
    (u : Fin R → P → ℝ) (v : Fin R → Q → ℝ) (hu : OrthoFam u) (r : Fin R) (j : Q) :
    ∑ i, u r i * ∑ s, σ s * u s i * v s j = σ r * v r j := by
  have h : ∀ i, u r i * ∑ s, σ s * u s i * v s j = ∑ s, (u r i * u s i) * (σ s * v s j) := by
    intro i
    rw [mul_sum]
    exact sum_congr rfl fun s _ => by ring
  rw [sum_congr rfl fun i _ => h i, sum_comm, sum_congr rfl fun s _ => (sum_mul _ _ _).symm,
    sum_congr rfl fun s _ => by rw [hu r s]]
  simp

/-- Subtracting the mean minimises the sum of squares. -/
theorem centred_le {q : ℕ} (x : Fin q → ℝ) :
    ∑ j, (x j - (∑ k, x k) / q) ^ 2 ≤ ∑ j, x j ^ 2 := by
  rcases Nat.eq_zero_or_pos q with rfl | hq
  · simp
  have hq' : (q : ℝ) ≠ 0 := by positivity
  set m := (∑ k, x k) / q with hm
  have h1 : ∑ k, x k = q * m := by rw [hm]; field_simp
  have h2 : ∑ j, (x j - m) ^ 2 = ∑ j, x j ^ 2 - q * m ^ 2 := by
    have : ∀ j, (x j - m) ^ 2 = x j ^ 2 - 2 * m * x j + m ^ 2 := fun j => by ring
    rw [sum_congr rfl fun j _ => this j, sum_add_distrib, sum_sub_distrib, ← mul_sum, h1]
    simp
    ring
  rw [h2]
  have : 0 ≤ (q : ℝ) * m ^ 2 := by positivity
  linarith

/-- **C60.** With a correct SVD routine, `pca` returns orthonormal components, ordered by their
eigenvalues; they are eigenvectors of the scatter matrix of the (centred) data, with these
eigenvalues; analysis followed by synthesis restores the data; and for every `n` the first `n`
components give the least total squared error among all linear (with centring: affine) subspaces of
dimension at most `n`, the offset of which is then the mean returned as `C`. -/
theorem C60_pca (svd : ND ℝ → Svd) (hsvd : SvdCorrect svd) {p q : ℕ} (U : Fin p → Fin q → ℝ)
    (centre : Bool) (hq : centre = true → 0 < q) :
    ∃ B S C, pca svd U centre = (B, S, C) ∧
      C = (if centre then some fun i => (∑ j, U i j) / q else none) ∧
      B.shape = [p, min p q] ∧ S.length = min p q ∧ (∀ s ∈ S, 0 ≤ s) ∧ S.Pairwise (· ≥ ·) ∧
      let X : Fin p → Fin q → ℝ := fun i j => U i j - if centre then (∑ j, U i j) / q else 0
      let rep : ℕ → Fin q → ℝ := fun r j => ∑ i : Fin p, B.get [i, r] * X i j
      (∀ r < S.length, ∀ s < S.length,
        ∑ i : Fin p, B.get [i, r] * B.get [i, s] = if r = s then 1 else 0) ∧
      (∀ r < S.length, ∀ i : Fin p, ∑ k : Fin p, (∑ j, X i j * X k j) * B.get [k, r] =
        S.getD r 0 * B.get [i, r]) ∧
      (∀ i j, X i j = ∑ r ∈ range S.length, B.get [i, r] * rep r j) ∧
      ∀ (n : ℕ) (o : Fin p → ℝ) (b : Fin n → Fin p → ℝ) (c : Fin n → Fin q → ℝ),
        ∑ i : Fin p, ∑ j, (X i j - ∑ r ∈ range (min n S.length), B.get [i, r] * rep r j) ^ 2 ≤
          ∑ i, ∑ j, (U i j - (if centre then o i else 0) - ∑ t, b t i * c t j) ^ 2 := by
  set X : Fin p → Fin q → ℝ := fun i j => U i j - if centre then (∑ j, U i j) / q else 0 with hX
  set x : ND ℝ := ⟨[p, q], fun idx =>
    if h : idx.getD 0 0 < p ∧ idx.getD 1 0 < q then
      U ⟨idx.getD 0 0, h.1⟩ ⟨idx.getD 1 0, h.2⟩ -
        (if centre then (∑ j, U ⟨idx.getD 0 0, h.1⟩ j) / q else 0) else 0⟩ with hx
  have hxg : ∀ (i : Fin p) (j : Fin q), x.get [i, j] = X i j := fun i j =>
    dif_pos (⟨i.2, j.2⟩ : i.val < p ∧ j.val < q)
  have hw := hsvd x p q rfl
  set w := svd x with hwdef
  set R := min p q with hR
  have hXe : ∀ i j, X i j = ∑ r : Fin R, w.S.getD r 0 * w.U.get [i, r] * w.Vt.get [r.val, j] :=
    fun i j => by rw [← hxg, hw.eq]
  have hlt : ∀ r : Fin R, r.val < w.S.length := fun r => by rw [hw.len]; exact r.2
  have hσ : Antitone fun r : Fin R => w.S.getD r 0 := by
    intro r s hrs
    change w.S.getD s 0 ≤ w.S.getD r 0
    rw [List.getD_eq_getElem _ _ (hlt s), List.getD_eq_getElem _ _ (hlt r)]
    rcases eq_or_lt_of_le hrs with h | h
    · subst h; exact le_rfl
    · exact List.pairwise_iff_getElem.1 hw.sorted _ _ (hlt r) (hlt s) h
  have h0 : ∀ r : Fin R, 0 ≤ w.S.getD r 0 := by
    intro r
    rw [List.getD_eq_getElem _ _ (hlt r)]
    exact hw.nonneg _ (List.getElem_mem _)
  have hlen : (w.S.map (· ^ 2)).length = R := by rw [List.length_map, hw.len]
  have hrep : ∀ (r : Fin R) (j : Fin q),
      ∑ i : Fin p, w.U.get [i, r] * X i j = w.S.getD r 0 * w.Vt.get [r, j] := by
    intro r j
    simp only [hXe]
    exact ortho_proj (fun r : Fin R => w.S.getD r 0) (fun r (i : Fin p) => w.U.get [i, r])
      (fun r (j : Fin q) => w.Vt.get [r, j]) hw.orthU r j
  refine ⟨w.U, w.S.map (· ^ 2), _, rfl, rfl, hw.shU, hlen, ?_, ?_, ?_, ?_, ?_, ?_⟩
  · intro s hs
    obtain ⟨t, -, rfl⟩ := List.mem_map.1 hs
    positivity
  · rw [List.pairwise_map]
    refine hw.sorted.imp_of_mem fun {a b} _ hb h => ?_
    exact pow_le_pow_left₀ (hw.nonneg b hb) h 2
  · rw [hlen]
    intro r hr s hs
    have := hw.orthU ⟨r, hr⟩ ⟨s, hs⟩
    simpa [Fin.ext_iff] using this
  · rw [hlen]
    intro r hr i
    have hS : (w.S.map (· ^ 2)).getD r 0 = w.S.getD r 0 ^ 2 := by
      rw [List.getD_eq_getElem _ _ (by rw [hlen]; exact hr),
        List.getD_eq_getElem _ _ (hlt ⟨r, hr⟩)]
      simp
    rw [hS]
    have h1 : ∑ k : Fin p, (∑ j, X i j * X k j) * w.U.get [k, r] =
        ∑ j, X i j * ∑ k : Fin p, w.U.get [k, r] * X k j := by
      rw [sum_congr rfl fun k _ => sum_mul _ _ _, sum_comm]
      refine sum_congr rfl fun j _ => ?_
      rw [mul_sum]
      exact sum_congr rfl fun k _ => by ring
    rw [h1, sum_congr rfl fun j _ => by rw [hrep ⟨r, hr⟩ j]]
    have h2 := ortho_proj (fun r : Fin R => w.S.getD r 0) (fun r (j : Fin q) => w.Vt.get [r, j])
      (fun r (i : Fin p) => w.U.get [i, r]) hw.orthV ⟨r, hr⟩ i
    simp only at h2
    have h3 : ∀ j, X i j * (w.S.getD r 0 * w.Vt.get [r, j.val]) = w.S.getD r 0 *
        (w.Vt.get [r, j.val] * ∑ s : Fin R, w.S.getD s 0 * w.Vt.get [s.val, j] *
          w.U.get [i, s]) := by
      intro j
      have h4 : X i j = ∑ s : Fin R, w.S.getD s 0 * w.Vt.get [s.val, j] * w.U.get [i, s] := by
        rw [hXe i j]
        exact sum_congr rfl fun s _ => by ring
      rw [h4]
      ring
    rw [sum_congr rfl fun j _ => h3 j, ← mul_sum, h2]
    ring
  · intro i j
    rw [hlen, sum_range fun r => w.U.get [i.val, r] * ∑ i : Fin p, w.U.get [i, r] * X i j, hXe i j]
    refine sum_congr rfl fun r _ => ?_
    rw [hrep r j]
    ring
  · intro n o b c
    have hl : ∑ i : Fin p, ∑ j, (X i j - ∑ r ∈ range (min n (w.S.map (· ^ 2)).length),
        w.U.get [i, r] * ∑ i : Fin p, w.U.get [i, r] * X i j) ^ 2 =
        ∑ r : Fin R, if r.val < n then 0 else w.S.getD r 0 ^ 2 := by
      rw [← truncation_error n (fun r : Fin R => w.S.getD r 0)
        (fun r (i : Fin p) => w.U.get [i, r]) (fun r (j : Fin q) => w.Vt.get [r, j])
        hw.orthU hw.orthV]
      refine sum_congr rfl fun i _ => sum_congr rfl fun j _ => ?_
      have h1 : ∑ r ∈ range (min n (w.S.map (· ^ 2)).length),
          w.U.get [i, r] * ∑ i : Fin p, w.U.get [i, r] * X i j =
          ∑ r : Fin R, if r.val < n then w.S.getD r 0 * w.U.get [i, r] * w.Vt.get [r.val, j]
            else 0 := by
        have h2 : ∀ r : Fin R, (if r.val < n then w.S.getD r 0 * w.U.get [i.val, r] *
            w.Vt.get [r.val, j] else 0) = (fun r : ℕ => if r < n then
              w.U.get [i.val, r] * ∑ i : Fin p, w.U.get [i, r] * X i j else 0) r := by
          intro r
          simp only
          rw [hrep r j]
          split_ifs
          · ring
          · rfl
        rw [sum_congr rfl fun r _ => h2 r, ← sum_range fun r : ℕ => if r < n then
              w.U.get [i.val, r] * ∑ i : Fin p, w.U.get [i, r] * X i j else 0, ← sum_filter, hlen]
        refine sum_congr ?_ fun _ _ => rfl
        ext r
        simp only [mem_range, mem_filter]
        omega
      rw [h1, hXe i j]
    rw [hl]
    cases centre with
    | false =>
      refine (eckart_young (n := n) _ hσ h0 _ _ hw.orthU hw.orthV b c).trans (le_of_eq ?_)
      refine sum_congr rfl fun i _ => sum_congr rfl fun j _ => ?_
      rw [← hXe i j]
      simp [hX]
    | true =>
      have hq' : (q : ℝ) ≠ 0 := by have := hq rfl; positivity
      refine (eckart_young (n := n) _ hσ h0 _ _ hw.orthU hw.orthV b
        (fun t j => c t j - (∑ k, c t k) / q)).trans ?_
      refine sum_le_sum fun i _ => ?_
      refine le_trans (le_of_eq ?_)
        (centred_le fun j => U i j - (if true then o i else 0) - ∑ t, b t i * c t j)
      refine sum_congr rfl fun j _ => ?_
      rw [← hXe i j]
      congr 1
      simp only [hX, if_true, sum_sub_distrib, sum_const, card_univ, Fintype.card_fin, nsmul_eq_mul,
        mul_sub]
      have h4 : ∑ k, ∑ t, b t i * c t k = ∑ t, b t i * ∑ k, c t k := by
        rw [sum_comm]
        exact sum_congr rfl fun t _ => (mul_sum _ _ _).symm
      have h5 : ∑ t, b t i * ((∑ k, c t k) / q) = (∑ t, b t i * ∑ k, c t k) / q := by
        rw [sum_div]
        exact sum_congr rfl fun t _ => by ring
      rw [h4, h5]
      field_simp
      ring

/-- The hypotheses are met for every data matrix with an observation. -/
example : ∃ svd, SvdCorrect svd ∧ (true = true → 0 < 5) := by
  obtain ⟨svd, h⟩ := svdCorrect_exists
  exact ⟨svd, h, fun _ => by norm_num⟩

end Sporco.Linalg
