import Mathlib.Data.Complex.Basic
import Mathlib.Data.Complex.BigOperators
import Mathlib.LinearAlgebra.Matrix.NonsingularInverse
import Mathlib.Algebra.BigOperators.Fin
import Mathlib.Analysis.Real.Sqrt

/-!
# Model of the linear solvers of `sporco.linalg`

Complex numbers stand for floats.  Arrays of any dimension are indexed by a
"frequency" index `F` (all axes the system is solved independently over) and the
index `M` along which the system is solved; broadcasting of singleton axes is
not modelled.
-/

namespace Sporco.Linalg

open Matrix ComplexConjugate

variable {F M : Type*} [Fintype M]

/-- `inner(x, y, axis)` at one position of the remaining axes
(`sporco/linalg.py:41-88`): plain sum of products, no conjugation. -/
def inner (x y : M → ℂ) : ℂ := ∑ m, x m * y m

/-- `solvedbi_sm_c` (`sporco/linalg.py:277-297`). -/
noncomputable def solvedbiSmC (ah a : M → ℂ) (rho : ℂ) : M → ℂ :=
  fun m => ah m / (inner ah a + rho)

/-- `solvedbi_sm` (`sporco/linalg.py:266-273`), the optional cached component
being `c`.  The `numexpr` branch computes the same expression. -/
noncomputable def solvedbiSm (ah : M → ℂ) (rho : ℂ) (b : M → ℂ) (c : Option (M → ℂ)) : M → ℂ :=
  let a := fun m => conj (ah m)
  let c := c.getD (solvedbiSmC ah a rho)
  fun m => (b m - a m * inner c b) / rho

/-- `solvedbd_sm_c` (`sporco/linalg.py:346-366`). -/
noncomputable def solvedbdSmC (ah a d : M → ℂ) : M → ℂ :=
  fun m => (ah m / d m) / (inner ah (fun n => a n / d n) + 1)

/-- `solvedbd_sm` (`sporco/linalg.py:335-342`). -/
noncomputable def solvedbdSm (ah d b : M → ℂ) (c : Option (M → ℂ)) : M → ℂ :=
  let a := fun m => conj (ah m)
  let c := c.getD (solvedbdSmC ah a d)
  fun m => (b m - a m * inner c b) / d m

/-- The inner loop of `solvemdbi_ism` (`sporco/linalg.py:439-442`), also the update
of `beta` (`:434-435`): for each finished block `(ah_l, gamma_l, delta_l)`,
`x -= gamma_l * inner(ah_l, x) / delta_l`. -/
noncomputable def reduceStep (x : M → ℂ) (p : (M → ℂ) × (M → ℂ) × ℂ) : M → ℂ :=
  fun m => x m - p.2.1 m * inner p.1 x / p.2.2

/-- The `k` loop of `solvemdbi_ism` (`sporco/linalg.py:428-444`).  `done` holds the
blocks already processed, with their `gamma` and `delta`. -/
noncomputable def ismLoop (rho : ℂ) :
    (alpha beta : M → ℂ) → (done : List ((M → ℂ) × (M → ℂ) × ℂ)) → List (M → ℂ) → (M → ℂ)
  | _, beta, _, [] => beta
  | alpha, beta, done, ah :: rest =>
    let gamma := alpha
    let delta := 1 + inner ah gamma
    let beta' := reduceStep beta (ah, gamma, delta)
    let done' := done ++ [(ah, gamma, delta)]
    match rest with
    | [] => beta'
    | ah' :: _ =>
      let alpha' := done'.foldl reduceStep (fun m => conj (ah' m) / rho)
      ismLoop rho alpha' beta' done' rest

/-- `solvemdbi_ism` (`sporco/linalg.py:412-444`), with the `K >= 1` blocks given as
the head and tail of a list. -/
noncomputable def solvemdbiIsm (ah0 : M → ℂ) (ahs : List (M → ℂ)) (rho : ℂ) (b : M → ℂ) : M → ℂ :=
  ismLoop rho (fun m => conj (ah0 m) / rho) (fun m => b m / rho) [] (ah0 :: ahs)

/-- One pass of the loop of `solvemdbi_rsm` (`sporco/linalg.py:501-507`). -/
noncomputable def rsmStep (Ainv : Matrix M M ℂ) (ah : M → ℂ) : Matrix M M ℂ :=
  let Aia := fun m => ∑ n, Ainv m n * conj (ah n)
  let ahAia := 1 + ∑ m, ah m * Aia m
  let ahAi := fun n => ∑ m, ah m * Ainv m n
  Matrix.of fun m n => Ainv m n - Aia m * ahAi n / ahAia

/-- `solvemdbi_rsm` (`sporco/linalg.py:492-511`). -/
noncomputable def solvemdbiRsm [DecidableEq M] (ahs : List (M → ℂ)) (rho : ℂ) (b : M → ℂ) :
    M → ℂ :=
  let Ainv := ahs.foldl rsmStep (Matrix.of fun m n => (if m = n then 1 else 0) / rho)
  fun m => ∑ n, Ainv m n * b n

/-- The operator `vAHAoprI` given to conjugate gradient by `solvemdbi_cg`
(`sporco/linalg.py:570-576`). -/
def cgOp (ahs : List (M → ℂ)) (rho : ℂ) (x : M → ℂ) : M → ℂ :=
  fun m => (ahs.map fun ah => conj (ah m) * inner ah x).sum + rho * x m

/-! ## Factorisation-based solvers (real) -/

section
variable {N P : ℕ} {K : Type*}

/-- Contract of `scipy.linalg.lu_factor`/`lu_solve` and `cho_factor`/`cho_solve`: the
factorisation stands for the matrix it was computed from and the solve is exact. -/
noncomputable def facSolve {n : ℕ} (G : Matrix (Fin n) (Fin n) ℝ) (b : Matrix (Fin n) K ℝ) :
    Matrix (Fin n) K ℝ := G⁻¹ * b

/-- `lu_factor`/`cho_factor` (`sporco/linalg.py:607-618`, `:724-735`): which matrix is
factorised. -/
def facTall (A : Matrix (Fin N) (Fin P) ℝ) (rho : ℝ) : Matrix (Fin P) (Fin P) ℝ :=
  Aᵀ * A + rho • (1 : Matrix (Fin P) (Fin P) ℝ)

/-- The wide case of `lu_factor`/`cho_factor` (`sporco/linalg.py:614-617`, `:731-734`). -/
def facWide (A : Matrix (Fin N) (Fin P) ℝ) (rho : ℝ) : Matrix (Fin N) (Fin N) ℝ :=
  A * Aᵀ + rho • (1 : Matrix (Fin N) (Fin N) ℝ)

/-- `lu_solve_ATAI` (`sporco/linalg.py:650-656`).  In the wide case `lu_solve` is called
with `trans=1`, i.e. it solves with the transposed matrix. -/
noncomputable def luSolveATAI (A : Matrix (Fin N) (Fin P) ℝ) (rho : ℝ) (b : Matrix (Fin P) K ℝ) :
    Matrix (Fin P) K ℝ :=
  if P ≤ N then facSolve (facTall A rho) b
  else (1 / rho) • (b - Aᵀ * facSolve (facWide A rho)ᵀ (A * b))

/-- `cho_solve_ATAI` (`sporco/linalg.py:767-773`). -/
noncomputable def choSolveATAI (A : Matrix (Fin N) (Fin P) ℝ) (rho : ℝ) (b : Matrix (Fin P) K ℝ) :
    Matrix (Fin P) K ℝ :=
  if P ≤ N then facSolve (facTall A rho) b
  else (1 / rho) • (b - Aᵀ * facSolve (facWide A rho) (A * b))

/-- `lu_solve_AATI`/`cho_solve_AATI` with a two-dimensional `b`
(`sporco/linalg.py:688-694`, `:805-811`). -/
noncomputable def solveAATI (A : Matrix (Fin N) (Fin P) ℝ) (rho : ℝ) (b : Matrix K (Fin N) ℝ) :
    Matrix K (Fin N) ℝ :=
  if P ≤ N then (1 / rho) • (b - (facSolve (facTall A rho) (b * A)ᵀ)ᵀ * Aᵀ)
  else (facSolve (facWide A rho) bᵀ)ᵀ

/-- `lu_solve_AATI`/`cho_solve_AATI` with a one-dimensional `b`: transposition of a
one-dimensional array does nothing. -/
noncomputable def solveAATIVec (A : Matrix (Fin N) (Fin P) ℝ) (rho : ℝ) (b : Fin N → ℝ) :
    Fin N → ℝ :=
  if P ≤ N then
    (1 / rho) • (b - ((facTall A rho)⁻¹ *ᵥ (b ᵥ* A)) ᵥ* Aᵀ)
  else (facWide A rho)⁻¹ *ᵥ b

end

/-! ## Symmetric Sylvester equation -/

/-- The forms in which `solve_symmetric_sylvester` accepts a matrix
(`sporco/linalg.py:846-854`): a diagonal, an eigendecomposition, or a full matrix, in
which case `eigh` returns the decomposition given here. -/
inductive SymArg (n : ℕ)
  /-- One-dimensional array: the diagonal. -/
  | diag (lam : Fin n → ℝ)
  /-- Tuple `(Lambda, Q)`. -/
  | eig (lam : Fin n → ℝ) (Q : Matrix (Fin n) (Fin n) ℝ)
  /-- Full matrix, for which `numpy.linalg.eigh` returns `(lam, Q)`. -/
  | full (lam : Fin n → ℝ) (Q : Matrix (Fin n) (Fin n) ℝ)

/-- The eigenvalues used by the code (`sporco/linalg.py:847`, `:851`, `:854`):
`abs` is applied only after `eigh`. -/
def SymArg.lambda {n : ℕ} : SymArg n → (Fin n → ℝ)
  | .diag lam => lam
  | .eig lam _ => lam
  | .full lam _ => fun i => |lam i|

/-- The eigenvector matrix used by the code, `None` for a diagonal. -/
def SymArg.q {n : ℕ} : SymArg n → Option (Matrix (Fin n) (Fin n) ℝ)
  | .diag _ => none
  | .eig _ Q => some Q
  | .full _ Q => some Q

/-- `solve_symmetric_sylvester` (`sporco/linalg.py:869-879`). -/
noncomputable def solveSylvester {n p : ℕ} (A : SymArg n) (B : SymArg p)
    (C : Matrix (Fin n) (Fin p) ℝ) (alpha : ℝ) : Matrix (Fin n) (Fin p) ℝ :=
  let x := C
  let x := match A.q with | some Q => Qᵀ * x | none => x
  let x := match B.q with | some Q => x * Q | none => x
  let x := Matrix.of fun i j => x i j / (B.lambda j * A.lambda i + alpha)
  let x := match A.q with | some Q => Q * x | none => x
  match B.q with | some Q => x * Qᵀ | none => x

/-! ## Block circulant matrices -/

/-- Assignment to a block: `B[r0:r0+r, c0:c0+c] = A` (`sporco/linalg.py:227`). -/
def setBlock {R : Type*} (r c r0 c0 : ℕ) (A : ℕ → ℕ → R) (B : ℕ → ℕ → R) : ℕ → ℕ → R :=
  fun i j => if r0 ≤ i ∧ i < r0 + r ∧ c0 ≤ j ∧ j < c0 + c then A (i - r0) (j - c0) else B i j

/-- `block_circulant` (`sporco/linalg.py:222-228`) for `n` blocks of shape `r × c`. -/
def blockCirculant {R : Type*} [Zero R] (r c n : ℕ) (A : ℕ → ℕ → ℕ → R) : ℕ → ℕ → R :=
  (List.range n).foldl (fun B k =>
    (List.range n).foldl (fun B l =>
      let kl := (k + l) % n
      setBlock r c (r * kl) (c * k) (A l) B) B) (fun _ _ => 0)

/-! ## Relative residual and PCA -/

/-- `rrs` (`sporco/linalg.py:883-910`) on flattened real arrays. -/
noncomputable def rrs {ι : Type*} [Fintype ι] (ax b : ι → ℝ) : ℝ :=
  let nrm := max (Real.sqrt (∑ i, ax i ^ 2)) (Real.sqrt (∑ i, b i ^ 2))
  if nrm = 0 then 0 else Real.sqrt (∑ i, (ax i - b i) ^ 2) / nrm

/-- `valid_adjoint` with `eps=None` for given probe vectors (`sporco/linalg.py:189-198`).
`none` is the NaN of `0/0`. -/
noncomputable def validAdjointErr {ι κ : Type*} [Fintype ι] [Fintype κ]
    (A : (ι → ℝ) → (κ → ℝ)) (AT : (κ → ℝ) → (ι → ℝ)) (x0 : ι → ℝ) (x1 : κ → ℝ) : Option ℝ :=
  let y0 := A x0
  let y1 := AT x1
  let x1y0 := ∑ j, x1 j * y0 j
  let y1x0 := ∑ i, y1 i * x0 i
  let den := max |x1y0| |y1x0|
  if den = 0 then none else some (|x1y0 - y1x0| / den)

end Sporco.Linalg
