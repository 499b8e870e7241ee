import Verif.Linalg.Model
import Mathlib.LinearAlgebra.Matrix.PosDef
import Mathlib.LinearAlgebra.Matrix.Notation
import Mathlib.Analysis.Matrix.PosDef
import Mathlib.Algebra.Order.Star.Real
import Mathlib.Tactic.FieldSimp
import Mathlib.Tactic.LinearCombination
import Mathlib.Tactic.Linarith
import Mathlib.Tactic.Positivity
import Mathlib.Tactic.FinCases

/-!
# Factorisation-based solvers, Sylvester equation, block circulant matrices
(C25, C26, C27, and parts of C58)
-/

set_option linter.unusedSectionVars false

namespace Sporco.Linalg

open Matrix

variable {N P : ℕ} {K : Type*}

theorem facTall_posDef (A : Matrix (Fin N) (Fin P) ℝ) (rho : ℝ) (hr : 0 < rho) :
    (facTall A rho).PosDef := by
  have h1 : (Aᵀ * A).PosSemidef := by
    have := posSemidef_conjTranspose_mul_self A
    rwa [conjTranspose_eq_transpose_of_trivial] at this
  have h2 : (rho • (1 : Matrix (Fin P) (Fin P) ℝ)).PosDef := PosDef.one.smul hr
  exact PosDef.posSemidef_add h1 h2

theorem facWide_eq (A : Matrix (Fin N) (Fin P) ℝ) (rho : ℝ) : facWide A rho = facTall Aᵀ rho := by
  simp [facWide, facTall]

theorem fac_cancel {n : ℕ} {G : Matrix (Fin n) (Fin n) ℝ} (h : G.PosDef) : G * G⁻¹ = 1 :=
  mul_nonsing_inv _ ((isUnit_iff_isUnit_det _).1 h.isUnit)

theorem fac_cancel' {n : ℕ} {G : Matrix (Fin n) (Fin n) ℝ} (h : G.PosDef) : G⁻¹ * G = 1 :=
  nonsing_inv_mul _ ((isUnit_iff_isUnit_det _).1 h.isUnit)

theorem facTall_symm (A : Matrix (Fin N) (Fin P) ℝ) (rho : ℝ) : (facTall A rho)ᵀ = facTall A rho := by
  simp [facTall, transpose_add, transpose_mul]

theorem facWide_symm (A : Matrix (Fin N) (Fin P) ℝ) (rho : ℝ) : (facWide A rho)ᵀ = facWide A rho := by
  simp [facWide, transpose_add, transpose_mul]

theorem push_through (A : Matrix (Fin N) (Fin P) ℝ) (rho : ℝ) :
    facTall A rho * Aᵀ = Aᵀ * facWide A rho := by
  simp [facTall, facWide, Matrix.add_mul, Matrix.mul_add, Matrix.mul_assoc]

theorem wide_ATAI (A : Matrix (Fin N) (Fin P) ℝ) (rho : ℝ) (hr : 0 < rho) (b : Matrix (Fin P) K ℝ) :
    facTall A rho * ((1 / rho) • (b - Aᵀ * ((facWide A rho)⁻¹ * (A * b)))) = b := by
  have hG : facWide A rho * (facWide A rho)⁻¹ = 1 := by
    rw [facWide_eq]; exact fac_cancel (facTall_posDef Aᵀ rho hr)
  have h1 : facTall A rho * (Aᵀ * ((facWide A rho)⁻¹ * (A * b))) = Aᵀ * (A * b) := by
    rw [← Matrix.mul_assoc, push_through, Matrix.mul_assoc, ← Matrix.mul_assoc (facWide A rho),
      hG, Matrix.one_mul]
  have h2 : facTall A rho * b = Aᵀ * (A * b) + rho • b := by
    simp [facTall, Matrix.add_mul, Matrix.mul_assoc]
  rw [Matrix.mul_smul, Matrix.mul_sub, h1, h2, add_sub_cancel_left, smul_smul]
  rw [one_div_mul_cancel hr.ne', one_smul]

/-- **C25.** `lu_solve_ATAI` (with the factors from `lu_factor`) solves
`(AᵀA + ρI) X = B` for tall and wide `A`, vector or matrix right-hand side. -/
theorem C25_lu_ATAI (A : Matrix (Fin N) (Fin P) ℝ) (rho : ℝ) (hr : 0 < rho)
    (b : Matrix (Fin P) K ℝ) :
    (Aᵀ * A + rho • (1 : Matrix (Fin P) (Fin P) ℝ)) * luSolveATAI A rho b = b := by
  change facTall A rho * _ = b
  unfold luSolveATAI facSolve
  split_ifs
  · rw [← Matrix.mul_assoc, fac_cancel (facTall_posDef A rho hr), Matrix.one_mul]
  · rw [facWide_symm]; exact wide_ATAI A rho hr b

/-- **C25.** `cho_solve_ATAI` solves the same system. -/
theorem C25_cho_ATAI (A : Matrix (Fin N) (Fin P) ℝ) (rho : ℝ) (hr : 0 < rho)
    (b : Matrix (Fin P) K ℝ) :
    (Aᵀ * A + rho • (1 : Matrix (Fin P) (Fin P) ℝ)) * choSolveATAI A rho b = b := by
  have : choSolveATAI A rho b = luSolveATAI A rho b := by
    unfold choSolveATAI luSolveATAI
    rw [facWide_symm]
  rw [this]; exact C25_lu_ATAI A rho hr b

theorem solveAATI_right (A : Matrix (Fin N) (Fin P) ℝ) (rho : ℝ) (hr : 0 < rho)
    (b : Matrix K (Fin N) ℝ) :
    solveAATI A rho b * (A * Aᵀ + rho • (1 : Matrix (Fin N) (Fin N) ℝ)) = b := by
  change _ * facWide A rho = b
  have htr : ∀ {n : ℕ} {G : Matrix (Fin n) (Fin n) ℝ}, Gᵀ = G → (G⁻¹)ᵀ = G⁻¹ := by
    intro n G h; rw [transpose_nonsing_inv, h]
  unfold solveAATI facSolve
  split_ifs
  · have h := wide_ATAI Aᵀ rho hr bᵀ
    have e1 : facTall Aᵀ rho = facWide A rho := (facWide_eq A rho).symm
    have e2 : facWide Aᵀ rho = facTall A rho := by simp [facWide, facTall]
    rw [e1, e2, transpose_transpose] at h
    have h' := congrArg Matrix.transpose h
    rw [transpose_mul, facWide_symm, transpose_transpose, transpose_smul, transpose_sub,
      transpose_transpose] at h'
    have e3 : (A * ((facTall A rho)⁻¹ * (Aᵀ * bᵀ)))ᵀ =
        ((facTall A rho)⁻¹ * (b * A)ᵀ)ᵀ * Aᵀ := by
      rw [transpose_mul, transpose_mul b A]
    rw [e3] at h'
    exact h'
  · rw [transpose_mul, transpose_transpose, htr (facWide_symm A rho), Matrix.mul_assoc, facWide_eq,
      fac_cancel' (facTall_posDef Aᵀ rho hr), Matrix.mul_one]

/-- **C25, `AAᵀ` form, matrix right-hand side.** `lu_solve_AATI`/`cho_solve_AATI` solve
`X (AAᵀ + ρI) = B`.  The documentation claims `(AAᵀ + ρI) X = B`, which is false: see
`C25_AATI_doc_refuted`. -/
theorem C25_AATI_matrix_partial (A : Matrix (Fin N) (Fin P) ℝ) (rho : ℝ) (hr : 0 < rho)
    (b : Matrix K (Fin N) ℝ) :
    solveAATI A rho b * (A * Aᵀ + rho • (1 : Matrix (Fin N) (Fin N) ℝ)) = b :=
  solveAATI_right A rho hr b

/-- **C25, `AAᵀ` form, vector right-hand side.** `(AAᵀ + ρI) x = b`. -/
theorem C25_AATI_vec (A : Matrix (Fin N) (Fin P) ℝ) (rho : ℝ) (hr : 0 < rho) (b : Fin N → ℝ) :
    (A * Aᵀ + rho • (1 : Matrix (Fin N) (Fin N) ℝ)) *ᵥ solveAATIVec A rho b = b := by
  have h := solveAATI_right A rho hr (Matrix.of fun (_ : Unit) j => b j)
  have e : (fun j => solveAATI A rho (Matrix.of fun (_ : Unit) j => b j) () j) =
      solveAATIVec A rho b := by
    funext j
    unfold solveAATI solveAATIVec facSolve
    split_ifs
    · simp only [Matrix.smul_apply, Matrix.sub_apply, Pi.smul_apply, Pi.sub_apply, of_apply]
      congr 2
    · simp only [transpose_apply, Matrix.mul_apply, mulVec, dotProduct, of_apply]
  funext j
  have h1 := congrFun (congrFun h ()) j
  rw [of_apply, Matrix.mul_apply] at h1
  rw [← h1, ← e]
  simp only [mulVec, dotProduct]
  refine Finset.sum_congr rfl fun k _ => ?_
  have hs := congrFun (congrFun (facWide_symm A rho) k) j
  change facWide A rho j k = facWide A rho k j at hs
  change facWide A rho j k * _ = _ * facWide A rho k j
  rw [hs]; ring

/-- **C25 as documented fails** for a matrix right-hand side: with `A = diag(1, 0)`,
`ρ = 1` and `B = [[0,1],[0,0]]` the result does not satisfy `(AAᵀ + ρI) X = B`. -/
theorem C25_AATI_doc_refuted :
    ∃ (A B : Matrix (Fin 2) (Fin 2) ℝ),
      (A * Aᵀ + (1 : ℝ) • (1 : Matrix (Fin 2) (Fin 2) ℝ)) * solveAATI A 1 B ≠ B := by
  refine ⟨!![1, 0; 0, 0], !![0, 1; 0, 0], fun h => ?_⟩
  have h2 := solveAATI_right (!![1, 0; 0, 0] : Matrix (Fin 2) (Fin 2) ℝ) 1 one_pos !![0, 1; 0, 0]
  set X := solveAATI (!![1, 0; 0, 0] : Matrix (Fin 2) (Fin 2) ℝ) 1 !![0, 1; 0, 0] with hX
  have a := congrFun (congrFun h 0) 1
  have b := congrFun (congrFun h2 0) 1
  simp [Matrix.mul_apply, Fin.sum_univ_two, vecMul, dotProduct] at a b
  linarith

example : (0 : ℝ) < 1 ∧ luSolveATAI (!![2] : Matrix (Fin 1) (Fin 1) ℝ) 1 !![5] = !![1] := by
  refine ⟨one_pos, ?_⟩
  have h := C25_lu_ATAI (!![2] : Matrix (Fin 1) (Fin 1) ℝ) 1 one_pos !![5]
  ext i j
  fin_cases i; fin_cases j
  have a := congrFun (congrFun h 0) 0
  simp [Matrix.mul_apply] at a ⊢
  linarith

/-! ## C26 -/

/-- The matrix an argument of `solve_symmetric_sylvester` stands for. -/
def SymArg.mat {n : ℕ} : SymArg n → Matrix (Fin n) (Fin n) ℝ
  | .diag lam => diagonal lam
  | .eig lam Q => Q * diagonal lam * Qᵀ
  | .full lam Q => Q * diagonal lam * Qᵀ

/-- The eigenvector matrix, if there is one, is orthogonal and the eigenvalues are
non-negative. -/
structure SymArg.Valid {n : ℕ} (A : SymArg n) : Prop where
  orth : ∀ Q, A.q = some Q → Qᵀ * Q = 1
  psd : match A with | .diag l => ∀ i, 0 ≤ l i | .eig l _ => ∀ i, 0 ≤ l i | .full l _ => ∀ i, 0 ≤ l i

/-- The orthogonal matrix used, the identity for a diagonal argument. -/
def SymArg.Q {n : ℕ} (A : SymArg n) : Matrix (Fin n) (Fin n) ℝ := A.q.getD 1

theorem SymArg.mat_eq {n : ℕ} {A : SymArg n} (h : A.Valid) :
    A.mat = A.Q * diagonal A.lambda * A.Qᵀ ∧ A.Qᵀ * A.Q = 1 ∧ A.Q * A.Qᵀ = 1 ∧
      ∀ i, 0 ≤ A.lambda i := by
  have hcomm : ∀ Q : Matrix (Fin n) (Fin n) ℝ, Qᵀ * Q = 1 → Q * Qᵀ = 1 :=
    fun Q hQ => _root_.mul_eq_one_comm.1 hQ
  cases A with
  | diag l => exact ⟨by simp [SymArg.mat, SymArg.Q, SymArg.q, SymArg.lambda],
      by simp [SymArg.Q, SymArg.q], by simp [SymArg.Q, SymArg.q], h.psd⟩
  | eig l Q => exact ⟨rfl, h.orth Q rfl, hcomm Q (h.orth Q rfl), h.psd⟩
  | full l Q =>
    refine ⟨?_, h.orth Q rfl, hcomm Q (h.orth Q rfl), fun i => abs_nonneg _⟩
    have : (fun i => |l i|) = l := funext fun i => abs_of_nonneg (h.psd i)
    simp only [SymArg.mat, SymArg.Q, SymArg.q, SymArg.lambda, Option.getD_some, this]

theorem solveSylvester_eq {n p : ℕ} (A : SymArg n) (B : SymArg p) (C : Matrix (Fin n) (Fin p) ℝ)
    (alpha : ℝ) : solveSylvester A B C alpha =
      A.Q * (Matrix.of fun i j => (A.Qᵀ * C * B.Q) i j / (B.lambda j * A.lambda i + alpha)) *
        B.Qᵀ := by
  unfold solveSylvester SymArg.Q
  rcases A.q with _ | QA <;> rcases B.q with _ | QB <;> simp

/-- **C26.** `solve_symmetric_sylvester(A, B, C, α)` returns the solution of
`A X B + α X = C`, for positive semidefinite `A` and `B` given in any of the
accepted forms. -/
theorem C26_sylvester {n p : ℕ} (A : SymArg n) (B : SymArg p) (hA : A.Valid) (hB : B.Valid)
    (C : Matrix (Fin n) (Fin p) ℝ) (alpha : ℝ) (ha : 0 < alpha) :
    A.mat * solveSylvester A B C alpha * B.mat + alpha • solveSylvester A B C alpha = C := by
  obtain ⟨eA, qA, qA', lA⟩ := SymArg.mat_eq hA
  obtain ⟨eB, qB, qB', lB⟩ := SymArg.mat_eq hB
  rw [solveSylvester_eq, eA, eB]
  set Y : Matrix (Fin n) (Fin p) ℝ :=
    Matrix.of fun i j => (A.Qᵀ * C * B.Q) i j / (B.lambda j * A.lambda i + alpha) with hY
  have h1 : A.Q * diagonal A.lambda * A.Qᵀ * (A.Q * Y * B.Qᵀ) * (B.Q * diagonal B.lambda * B.Qᵀ) =
      A.Q * (diagonal A.lambda * Y * diagonal B.lambda) * B.Qᵀ := by
    calc _ = A.Q * diagonal A.lambda * ((A.Qᵀ * A.Q) * Y * (B.Qᵀ * B.Q)) * (diagonal B.lambda * B.Qᵀ) := by
          simp only [Matrix.mul_assoc]
      _ = _ := by rw [qA, qB]; simp only [Matrix.mul_assoc, Matrix.one_mul, Matrix.mul_one]
  have h2 : diagonal A.lambda * Y * diagonal B.lambda + alpha • Y = A.Qᵀ * C * B.Q := by
    ext i j
    rw [Matrix.add_apply, mul_diagonal, diagonal_mul, Matrix.smul_apply, smul_eq_mul, hY, of_apply]
    have : 0 < B.lambda j * A.lambda i + alpha := by
      have := mul_nonneg (lB j) (lA i); linarith
    generalize (A.Qᵀ * C * B.Q) i j = z
    have e : ∀ d : ℝ, A.lambda i * d * B.lambda j + alpha * d =
        d * (B.lambda j * A.lambda i + alpha) := fun d => by ring
    rw [e, div_mul_cancel₀ _ this.ne']
  rw [h1, ← Matrix.smul_mul, ← Matrix.mul_smul, ← Matrix.add_mul, ← Matrix.mul_add, h2]
  calc A.Q * (A.Qᵀ * C * B.Q) * B.Qᵀ = (A.Q * A.Qᵀ) * C * (B.Q * B.Qᵀ) := by
        simp only [Matrix.mul_assoc]
    _ = C := by rw [qA', qB', Matrix.one_mul, Matrix.mul_one]

/-- **C26 needs positive semidefiniteness**, which the documentation does not ask for:
the absolute values taken after `eigh` make the result wrong for `A = -I`. -/
theorem C26_indefinite_refuted :
    ∃ (A B : SymArg 2) (C : Matrix (Fin 2) (Fin 2) ℝ) (alpha : ℝ), 0 < alpha ∧
      (∀ Q, A.q = some Q → Qᵀ * Q = 1) ∧ (∀ Q, B.q = some Q → Qᵀ * Q = 1) ∧
      A.mat * solveSylvester A B C alpha * B.mat + alpha • solveSylvester A B C alpha ≠ C := by
  refine ⟨.full (fun _ => -1) 1, .diag (fun _ => 1), 1, 2, by norm_num, ?_, ?_, fun h => ?_⟩
  · intro Q hQ; simp only [SymArg.q, Option.some.injEq] at hQ; subst hQ; simp
  · intro Q hQ; simp [SymArg.q] at hQ
  · have a := congrFun (congrFun h 0) 0
    simp [solveSylvester, SymArg.mat, SymArg.q, SymArg.lambda, Matrix.mul_apply, Fin.sum_univ_two,
      diagonal_apply] at a
    norm_num at a

/-- The hypotheses are met: a rotation with two eigenvalues, and a diagonal. -/
example : (SymArg.full ![1, 3] (!![3/5, -4/5; 4/5, 3/5] : Matrix (Fin 2) (Fin 2) ℝ)).Valid ∧
    (SymArg.diag (![1, 2] : Fin 2 → ℝ)).Valid := by
  refine ⟨⟨?_, ?_⟩, ⟨?_, ?_⟩⟩
  · intro Q hQ; simp only [SymArg.q, Option.some.injEq] at hQ; subst hQ
    ext i j; fin_cases i <;> fin_cases j <;> simp [Matrix.mul_apply, Fin.sum_univ_two] <;> norm_num
  · intro i; fin_cases i <;> norm_num
  · intro Q hQ; simp [SymArg.q] at hQ
  · intro i; fin_cases i <;> norm_num

/-! ## C27 -/

section
variable {R : Type*} [CommRing R]

theorem sum_range_blocks (c n : ℕ) (f : ℕ → R) :
    ∑ q ∈ Finset.range (c * n), f q = ∑ k ∈ Finset.range n, ∑ j ∈ Finset.range c, f (c * k + j) := by
  induction n with
  | zero => simp
  | succ n ih => rw [Nat.mul_succ, Finset.sum_range_add, ih, Finset.sum_range_succ]

/-- Position `(i, j)` lies in block row `p`, block column `q`. -/
theorem inBlock_iff (r c kl k p q i j : ℕ) (hi : i < r) (hj : j < c) :
    (r * kl ≤ r * p + i ∧ r * p + i < r * kl + r ∧ c * k ≤ c * q + j ∧ c * q + j < c * k + c) ↔
      kl = p ∧ k = q := by
  have hr : 0 < r := by omega
  have hc : 0 < c := by omega
  constructor
  · rintro ⟨h1, h2, h3, h4⟩
    constructor
    · have a : kl < p + 1 := by
        apply Nat.lt_of_mul_lt_mul_left (a := r); rw [Nat.mul_succ]; omega
      have b : p < kl + 1 := by
        apply Nat.lt_of_mul_lt_mul_left (a := r); rw [Nat.mul_succ]; omega
      omega
    · have a : k < q + 1 := by
        apply Nat.lt_of_mul_lt_mul_left (a := c); rw [Nat.mul_succ]; omega
      have b : q < k + 1 := by
        apply Nat.lt_of_mul_lt_mul_left (a := c); rw [Nat.mul_succ]; omega
      omega
  · rintro ⟨rfl, rfl⟩; omega

theorem setBlock_at (r c kl k p q i j : ℕ) (hi : i < r) (hj : j < c) (A B : ℕ → ℕ → R) :
    setBlock r c (r * kl) (c * k) A B (r * p + i) (c * q + j) =
      if kl = p ∧ k = q then A i j else B (r * p + i) (c * q + j) := by
  unfold setBlock
  by_cases h : kl = p ∧ k = q
  · rw [if_pos h, if_pos ((inBlock_iff r c kl k p q i j hi hj).2 h)]
    obtain ⟨rfl, rfl⟩ := h
    simp
  · rw [if_neg h, if_neg (fun h' => h ((inBlock_iff r c kl k p q i j hi hj).1 h'))]

/-- The inner loop for block column `k`, after `m` passes. -/
theorem inner_loop (r c n k : ℕ) (A : ℕ → ℕ → ℕ → R) (B : ℕ → ℕ → R) (m : ℕ) (hm : m ≤ n)
    (p q i j : ℕ) (hi : i < r) (hj : j < c) :
    ((List.range m).foldl (fun B l => setBlock r c (r * ((k + l) % n)) (c * k) (A l) B) B)
        (r * p + i) (c * q + j) =
      if k = q ∧ p < n ∧ (p + n - k % n) % n < m then A ((p + n - k % n) % n) i j
      else B (r * p + i) (c * q + j) := by
  induction m with
  | zero => simp
  | succ m ih =>
    rw [List.range_succ, List.foldl_append, List.foldl_cons, List.foldl_nil,
      setBlock_at r c _ k p q i j hi hj, ih (by omega)]
    have hn : 0 < n := by omega
    have hk := Nat.mod_lt k hn
    have key : p < n → ((k + m) % n = p ↔ (p + n - k % n) % n = m) := by
      intro hp
      have e1 : (k + m) % n = (k % n + m) % n := by rw [Nat.mod_add_mod]
      rw [e1]
      generalize k % n = k' at *
      have hmn : m < n := hm
      rcases Nat.lt_or_ge (k' + m) n with h | h
      · rw [Nat.mod_eq_of_lt h]
        rcases Nat.lt_or_ge p k' with h' | h'
        · rw [Nat.mod_eq_of_lt (by omega)]; omega
        · have : p + n - k' = (p - k') + n := by omega
          rw [this, Nat.add_mod_right, Nat.mod_eq_of_lt (by omega)]; omega
      · have : k' + m = (k' + m - n) + n := by omega
        rw [this, Nat.add_mod_right, Nat.mod_eq_of_lt (by omega)]
        rcases Nat.lt_or_ge p k' with h' | h'
        · rw [Nat.mod_eq_of_lt (by omega)]; omega
        · have : p + n - k' = (p - k') + n := by omega
          rw [this, Nat.add_mod_right, Nat.mod_eq_of_lt (by omega)]; omega
    by_cases hkq : k = q
    · by_cases hp : p < n
      · by_cases hm' : (k + m) % n = p
        · have h2 := (key hp).1 hm'
          rw [if_pos ⟨hm', hkq⟩, if_pos ⟨hkq, hp, by omega⟩, h2]
        · rw [if_neg (fun h => hm' h.1)]
          have h2 : (p + n - k % n) % n ≠ m := fun h => hm' ((key hp).2 h)
          by_cases h3 : (p + n - k % n) % n < m
          · rw [if_pos ⟨hkq, hp, h3⟩, if_pos ⟨hkq, hp, by omega⟩]
          · rw [if_neg (fun h => h3 h.2.2), if_neg (fun h => by omega)]
      · have h4 : (k + m) % n ≠ p := fun h => hp (h ▸ Nat.mod_lt _ hn)
        rw [if_neg (fun h => h4 h.1), if_neg (fun h => hp h.2.1), if_neg (fun h => hp h.2.1)]
    · rw [if_neg (fun h => hkq h.2), if_neg (fun h => hkq h.1), if_neg (fun h => hkq h.1)]

theorem outer_loop (r c n : ℕ) (A : ℕ → ℕ → ℕ → R) (B : ℕ → ℕ → R) (m : ℕ)
    (p q i j : ℕ) (hi : i < r) (hj : j < c) (hp : p < n) :
    ((List.range m).foldl (fun B k => (List.range n).foldl (fun B l =>
        setBlock r c (r * ((k + l) % n)) (c * k) (A l) B) B) B) (r * p + i) (c * q + j) =
      if q < m then A ((p + n - q % n) % n) i j else B (r * p + i) (c * q + j) := by
  induction m with
  | zero => simp
  | succ m ih =>
    rw [List.range_succ, List.foldl_append, List.foldl_cons, List.foldl_nil,
      inner_loop r c n m A _ n le_rfl p q i j hi hj, ih]
    have hlt := Nat.mod_lt (p + n - m % n) (by omega : 0 < n)
    by_cases h : m = q
    · subst h; rw [if_pos ⟨rfl, hp, hlt⟩, if_pos (by omega)]
    · rw [if_neg (fun h' => h h'.1)]
      by_cases h2 : q < m
      · rw [if_pos h2, if_pos (by omega)]
      · rw [if_neg h2, if_neg (by omega)]

/-- **C27.** Block `(p, q)` of `block_circulant(A)` is `A[(p - q) mod n]`; in particular
the first block column is `A`. -/
theorem C27_blocks (r c n : ℕ) (A : ℕ → ℕ → ℕ → R) (p q i j : ℕ) (hi : i < r) (hj : j < c)
    (hp : p < n) (hq : q < n) :
    blockCirculant r c n A (r * p + i) (c * q + j) = A ((p + n - q) % n) i j := by
  have := outer_loop r c n A (fun _ _ => (0 : R)) n p q i j hi hj hp
  rw [if_pos hq, Nat.mod_eq_of_lt hq] at this
  exact this

/-- **C27.** The product of `block_circulant(A)` with a stacked vector is the block-wise
circular convolution: block `p` of the result is `∑_q A[(p - q) mod n] x_q`. -/
theorem C27_circular_convolution (r c n : ℕ) (A : ℕ → ℕ → ℕ → R) (x : ℕ → R) (p i : ℕ)
    (hi : i < r) (hp : p < n) :
    ∑ s ∈ Finset.range (c * n), blockCirculant r c n A (r * p + i) s * x s =
      ∑ q ∈ Finset.range n, ∑ j ∈ Finset.range c, A ((p + n - q) % n) i j * x (c * q + j) := by
  rw [sum_range_blocks]
  refine Finset.sum_congr rfl fun q hq => Finset.sum_congr rfl fun j hj => ?_
  rw [C27_blocks r c n A p q i j hi (Finset.mem_range.1 hj) hp (Finset.mem_range.1 hq)]

/-- A concrete block circulant matrix: `n = 3` blocks of shape `1 × 1`. -/
example : (List.range 3).map (fun i => (List.range 3).map fun j =>
    blockCirculant 1 1 3 (fun l _ _ => (l + 1 : ℤ)) i j) = [[1, 3, 2], [2, 1, 3], [3, 2, 1]] := by
  decide

end

/-! ## Part of C58: `rrs` and `valid_adjoint` -/

/-- **C58.** `rrs(ax, b)` is never negative and is zero exactly when `ax = b`. -/
theorem C58_rrs {ι : Type*} [Fintype ι] (ax b : ι → ℝ) :
    0 ≤ rrs ax b ∧ (rrs ax b = 0 ↔ ax = b) := by
  have hs : ∀ x : ι → ℝ, Real.sqrt (∑ i, x i ^ 2) = 0 → x = 0 := by
    intro x hx
    rw [Real.sqrt_eq_zero (Finset.sum_nonneg fun _ _ => sq_nonneg _)] at hx
    funext i
    have := (Finset.sum_eq_zero_iff_of_nonneg (fun _ _ => sq_nonneg _)).1 hx i (Finset.mem_univ _)
    simpa using this
  have ha := Real.sqrt_nonneg (∑ i, ax i ^ 2)
  have hb := Real.sqrt_nonneg (∑ i, b i ^ 2)
  have hd := Real.sqrt_nonneg (∑ i, (ax i - b i) ^ 2)
  unfold rrs
  simp only
  split_ifs with h
  · refine ⟨le_rfl, ⟨fun _ => ?_, fun _ => rfl⟩⟩
    have h1 : Real.sqrt (∑ i, ax i ^ 2) = 0 := le_antisymm (h ▸ le_max_left _ _) ha
    have h2 : Real.sqrt (∑ i, b i ^ 2) = 0 := le_antisymm (h ▸ le_max_right _ _) hb
    rw [hs ax h1, hs b h2]
  · have hpos : 0 < max (Real.sqrt (∑ i, ax i ^ 2)) (Real.sqrt (∑ i, b i ^ 2)) :=
      lt_of_le_of_ne (le_max_of_le_left ha) (Ne.symm h)
    refine ⟨div_nonneg hd hpos.le, ⟨fun h0 => ?_, fun h0 => ?_⟩⟩
    · rcases div_eq_zero_iff.1 h0 with h1 | h1
      · have := hs (fun i => ax i - b i) h1
        funext i
        exact sub_eq_zero.1 (congrFun this i)
      · exact absurd h1 h
    · subst h0; simp

/-- **C58.** With `eps=None`, whenever `valid_adjoint` returns a number it is zero exactly
when the two inner products of the probes agree; it is NaN only if both vanish. -/
theorem C58_valid_adjoint {ι κ : Type*} [Fintype ι] [Fintype κ]
    (A : (ι → ℝ) → (κ → ℝ)) (AT : (κ → ℝ) → (ι → ℝ)) (x0 : ι → ℝ) (x1 : κ → ℝ) :
    (validAdjointErr A AT x0 x1 = none ↔
      ∑ j, x1 j * A x0 j = 0 ∧ ∑ i, AT x1 i * x0 i = 0) ∧
    (∀ e, validAdjointErr A AT x0 x1 = some e →
      0 ≤ e ∧ e ≤ 2 ∧ (e = 0 ↔ ∑ j, x1 j * A x0 j = ∑ i, AT x1 i * x0 i)) := by
  unfold validAdjointErr
  simp only
  generalize ∑ j, x1 j * A x0 j = p
  generalize ∑ i, AT x1 i * x0 i = q
  have hp := abs_nonneg p
  have hq := abs_nonneg q
  split_ifs with h
  · refine ⟨⟨fun _ => ?_, fun _ => rfl⟩, fun e he => by simp at he⟩
    have h1 : |p| = 0 := le_antisymm (h ▸ le_max_left _ _) hp
    have h2 : |q| = 0 := le_antisymm (h ▸ le_max_right _ _) hq
    exact ⟨abs_eq_zero.1 h1, abs_eq_zero.1 h2⟩
  · have hpos : 0 < max |p| |q| := lt_of_le_of_ne (le_max_of_le_left hp) (Ne.symm h)
    refine ⟨⟨fun h' => by simp at h', fun h' => by simp [h'.1, h'.2] at h⟩, fun e he => ?_⟩
    rw [Option.some.injEq] at he
    subst he
    refine ⟨div_nonneg (abs_nonneg _) hpos.le, ?_, ?_⟩
    · rw [div_le_iff₀ hpos]
      have := abs_sub p q
      have h1 := le_max_left |p| |q|
      have h2 := le_max_right |p| |q|
      linarith
    · rw [div_eq_zero_iff, abs_eq_zero, sub_eq_zero]
      exact ⟨fun h' => h'.resolve_right h, Or.inl⟩

/-- **C58.** `AT` is the adjoint of `A` exactly when no pair of probes gives a non-zero
value. -/
theorem C58_valid_adjoint_all {ι κ : Type*} [Fintype ι] [Fintype κ]
    (A : (ι → ℝ) → (κ → ℝ)) (AT : (κ → ℝ) → (ι → ℝ)) :
    (∀ x0 x1, validAdjointErr A AT x0 x1 = none ∨ validAdjointErr A AT x0 x1 = some 0) ↔
      ∀ x0 x1, ∑ j, x1 j * A x0 j = ∑ i, AT x1 i * x0 i := by
  constructor
  · intro h x0 x1
    obtain ⟨h1, h2⟩ := C58_valid_adjoint A AT x0 x1
    rcases h x0 x1 with h' | h'
    · obtain ⟨a, b⟩ := h1.1 h'; rw [a, b]
    · exact (h2 0 h').2.2.1 rfl
  · intro h x0 x1
    obtain ⟨h1, h2⟩ := C58_valid_adjoint A AT x0 x1
    rcases he : validAdjointErr A AT x0 x1 with _ | e
    · exact Or.inl rfl
    · right; rw [(h2 e he).2.2.2 (h x0 x1)]

end Sporco.Linalg
