import Mathlib.Analysis.InnerProductSpace.PiL2
import Mathlib.Analysis.InnerProductSpace.Orthonormal
import Mathlib.LinearAlgebra.Matrix.ConjTranspose
import Mathlib.Tactic.Linarith
import Mathlib.Tactic.FieldSimp
import Verif.Prox.Spec

/-!
# `prox_nuclear` (C21): model, specification and proof
-/

set_option linter.unusedSectionVars false
set_option linter.unusedVariables false
set_option linter.unusedSimpArgs false

namespace Sporco.Prox

open Matrix

variable {𝕜 : Type*} [RCLike 𝕜] {m n k : Type*} [Fintype m] [Fintype n] [Fintype k]
  [DecidableEq k]

/-! ## Model -/

/-- The contract of `numpy.linalg.svd(V, full_matrices=False)`: orthonormal
columns of `U`, orthonormal rows of `Vh`, non-negative singular values, and the
product is `V`.  The routine itself is not modelled. -/
structure IsSVD (V : Matrix m n 𝕜) (U : Matrix m k 𝕜) (s : k → ℝ) (Vh : Matrix k n 𝕜) :
    Prop where
  hU : Uᴴ * U = 1
  hV : Vh * Vhᴴ = 1
  hs : ∀ i, 0 ≤ s i
  hprod : U * diagonal (fun i => (s i : 𝕜)) * Vh = V

/-- `prox_nuclear` given the SVD of its argument (`sporco/prox/_nuclear.py:65-67`):
shrink the singular values and multiply the factors together. -/
noncomputable def proxNuclear (U : Matrix m k 𝕜) (s : k → ℝ) (Vh : Matrix k n 𝕜) (α : ℝ) :
    Matrix m n 𝕜 × (k → ℝ) :=
  let ss := fun i => max 0 (s i - α)
  (U * (diagonal (fun i => (ss i : 𝕜)) * Vh), ss)

/-- `norm_nuclear` (`sporco/prox/_nuclear.py:21-41`): the sum of the singular values. -/
def normNuclear (s : k → ℝ) : ℝ := ∑ i, s i

/-! ## Specification -/

/-- Squared Frobenius norm. -/
def fsq (A : Matrix m n 𝕜) : ℝ := ∑ i, ∑ j, ‖A i j‖ ^ 2

/-- Real part of the Frobenius inner product. -/
def fdot (A B : Matrix m n 𝕜) : ℝ := ∑ i, ∑ j, RCLike.re (star (A i j) * B i j)

/-- Spectral norm at most `c`: `|pᴴ G q| ≤ c ‖p‖ ‖q‖` for all vectors. -/
def opBound (G : Matrix m n 𝕜) (c : ℝ) : Prop :=
  ∀ (p : m → 𝕜) (q : n → 𝕜), ‖∑ i, ∑ j, star (p i) * G i j * q j‖ ≤ c * l2 p * l2 q

/-- The nuclear norm of a matrix, as the dual of the spectral norm.  It is the
sum of the singular values, by `C21_nuc_eq_sum_singular_values`. -/
noncomputable def nuc (Y : Matrix m n 𝕜) : ℝ := sSup {r | ∃ G, opBound G 1 ∧ r = fdot G Y}

/-! ## Proofs -/

theorem fsq_nonneg (A : Matrix m n 𝕜) : 0 ≤ fsq A :=
  Finset.sum_nonneg fun _ _ => Finset.sum_nonneg fun _ _ => by positivity

theorem fsq_pos {A : Matrix m n 𝕜} (h : A ≠ 0) : 0 < fsq A := by
  refine lt_of_le_of_ne (fsq_nonneg A) (fun e => h ?_)
  ext i j
  have h1 := (Finset.sum_eq_zero_iff_of_nonneg
    (fun i _ => Finset.sum_nonneg fun j _ => by positivity)).1 e.symm i (Finset.mem_univ _)
  have h2 := (Finset.sum_eq_zero_iff_of_nonneg (fun j _ => by positivity)).1 h1 j
    (Finset.mem_univ _)
  simpa using h2

theorem fdot_sub_right (A B C : Matrix m n 𝕜) : fdot A (B - C) = fdot A B - fdot A C := by
  simp only [fdot, Matrix.sub_apply, mul_sub, map_sub, Finset.sum_sub_distrib]

theorem fdot_add_right (A B C : Matrix m n 𝕜) : fdot A (B + C) = fdot A B + fdot A C := by
  simp only [fdot, Matrix.add_apply, mul_add, map_add, Finset.sum_add_distrib]

theorem fdot_smul_left (c : ℝ) (A B : Matrix m n 𝕜) : fdot ((c : 𝕜) • A) B = c * fdot A B := by
  simp only [fdot, Matrix.smul_apply, smul_eq_mul, Finset.mul_sum]
  refine Finset.sum_congr rfl fun i _ => Finset.sum_congr rfl fun j _ => ?_
  rw [star_mul', RCLike.star_def, RCLike.conj_ofReal, mul_assoc, RCLike.re_ofReal_mul]

theorem fsq_expand (u v x : Matrix m n 𝕜) :
    fsq (u - v) = fsq (u - x) - 2 * fdot (v - x) (u - x) + fsq (x - v) := by
  simp only [fsq, fdot, Finset.mul_sum, ← Finset.sum_sub_distrib, ← Finset.sum_add_distrib]
  refine Finset.sum_congr rfl fun i _ => Finset.sum_congr rfl fun j _ => ?_
  simp only [Matrix.sub_apply]
  have h1 : u i j - v i j = (u i j - x i j) - (v i j - x i j) := by abel
  have h2 : ‖x i j - v i j‖ = ‖v i j - x i j‖ := norm_sub_rev _ _
  have h3 := norm_sub_sq (𝕜 := 𝕜) (u i j - x i j) (v i j - x i j)
  rw [← inner_conj_symm, RCLike.conj_re, RCLike.inner_apply] at h3
  rw [h1, h3, h2, mul_comm (u i j - x i j), RCLike.star_def]

theorem l2_eq_norm (p : m → 𝕜) : l2 p = ‖(WithLp.toLp 2 p : EuclideanSpace 𝕜 m)‖ := by
  rw [EuclideanSpace.norm_eq]; rfl

/-- Bessel's inequality for a matrix with orthonormal columns. -/
theorem bessel_col (U : Matrix m k 𝕜) (hU : Uᴴ * U = 1) (p : m → 𝕜) :
    l2 (fun a => ∑ i, star (p i) * U i a) ≤ l2 p := by
  let c : k → EuclideanSpace 𝕜 m := fun a => WithLp.toLp 2 (fun i => U i a)
  have ho : Orthonormal 𝕜 c := by
    rw [orthonormal_iff_ite]
    intro a b
    have h1 := congrFun (congrFun hU a) b
    rw [Matrix.mul_apply, Matrix.one_apply] at h1
    rw [PiLp.inner_apply]
    simp only [conjTranspose_apply] at h1
    rw [← h1]
    refine Finset.sum_congr rfl fun i _ => ?_
    rw [RCLike.inner_apply, mul_comm, RCLike.star_def]
  have h2 := ho.sum_inner_products_le (WithLp.toLp 2 p) (s := Finset.univ)
  rw [← l2_eq_norm] at h2
  unfold l2
  apply Real.sqrt_le_sqrt
  have h3 : l2 p ^ 2 = sq p := Real.sq_sqrt (Finset.sum_nonneg fun _ _ => by positivity)
  rw [h3] at h2
  refine le_trans (le_of_eq ?_) h2
  refine Finset.sum_congr rfl fun a _ => ?_
  rw [PiLp.inner_apply]
  rw [← norm_star]
  congr 2
  rw [star_sum]
  refine Finset.sum_congr rfl fun i _ => ?_
  rw [RCLike.inner_apply, star_mul', star_star, RCLike.star_def]

theorem bessel_row (V : Matrix k n 𝕜) (hV : V * Vᴴ = 1) (q : n → 𝕜) :
    l2 (fun a => ∑ j, V a j * q j) ≤ l2 q := by
  have h := bessel_col Vᴴ (by rw [conjTranspose_conjTranspose]; exact hV) q
  refine le_trans (le_of_eq ?_) h
  unfold l2 sq
  congr 1
  refine Finset.sum_congr rfl fun a _ => ?_
  rw [← norm_star]
  congr 2
  rw [star_sum]
  refine Finset.sum_congr rfl fun i _ => ?_
  rw [star_mul', conjTranspose_apply, mul_comm]

theorem entry_UDV (U : Matrix m k 𝕜) (g : k → ℝ) (V : Matrix k n 𝕜) (i : m) (j : n) :
    (U * diagonal (fun a => (g a : 𝕜)) * V) i j = ∑ a, U i a * (g a : 𝕜) * V a j := by
  rw [Matrix.mul_apply]
  simp only [mul_diagonal]

theorem opBound_UDV (U : Matrix m k 𝕜) (g : k → ℝ) (V : Matrix k n 𝕜) (hU : Uᴴ * U = 1)
    (hV : V * Vᴴ = 1) (c : ℝ) (hc : 0 ≤ c) (hg : ∀ a, |g a| ≤ c) :
    opBound (U * diagonal (fun a => (g a : 𝕜)) * V) c := by
  intro p q
  have h1 : ∑ i, ∑ j, star (p i) * (U * diagonal (fun a => (g a : 𝕜)) * V) i j * q j =
      ∑ a, (g a : 𝕜) * ((∑ i, star (p i) * U i a) * (∑ j, V a j * q j)) := by
    simp only [entry_UDV, Finset.mul_sum, Finset.sum_mul]
    rw [Finset.sum_congr rfl fun i _ => Finset.sum_comm]
    rw [Finset.sum_comm]
    refine Finset.sum_congr rfl fun a _ => ?_
    rw [Finset.sum_comm]
    refine Finset.sum_congr rfl fun i _ => Finset.sum_congr rfl fun j _ => ?_
    ring
  rw [h1]
  set A : k → 𝕜 := fun a => ∑ i, star (p i) * U i a with hA
  set B : k → 𝕜 := fun a => ∑ j, V a j * q j with hB
  have h2 : ‖∑ a, (g a : 𝕜) * (A a * B a)‖ ≤ c * ∑ a, ‖A a‖ * ‖B a‖ := by
    refine (norm_sum_le _ _).trans ?_
    rw [Finset.mul_sum]
    refine Finset.sum_le_sum fun a _ => ?_
    rw [norm_mul, norm_mul, RCLike.norm_ofReal]
    exact mul_le_mul_of_nonneg_right (hg a) (by positivity)
  have h3 : ∑ a, ‖A a‖ * ‖B a‖ ≤ l2 A * l2 B := Real.sum_mul_le_sqrt_mul_sqrt _ _ _
  have h4 := bessel_col U hU p
  have h5 := bessel_row V hV q
  have h6 : l2 A * l2 B ≤ l2 p * l2 q := mul_le_mul h4 h5 (Real.sqrt_nonneg _) (Real.sqrt_nonneg _)
  calc _ ≤ c * ∑ a, ‖A a‖ * ‖B a‖ := h2
    _ ≤ c * (l2 p * l2 q) := mul_le_mul_of_nonneg_left (h3.trans h6) hc
    _ = c * l2 p * l2 q := by ring

/-- Pairing with a matrix in factored form. -/
theorem fdot_UDV (G : Matrix m n 𝕜) (U : Matrix m k 𝕜) (g : k → ℝ) (V : Matrix k n 𝕜) :
    fdot G (U * diagonal (fun a => (g a : 𝕜)) * V) =
      ∑ a, g a * RCLike.re (∑ i, ∑ j, star (U i a) * G i j * star (V a j)) := by
  have h : ∀ i j, RCLike.re (star (G i j) * (U * diagonal (fun a => (g a : 𝕜)) * V) i j) =
      ∑ a, g a * RCLike.re (star (U i a) * G i j * star (V a j)) := by
    intro i j
    rw [entry_UDV, Finset.mul_sum, map_sum]
    refine Finset.sum_congr rfl fun a _ => ?_
    rw [← RCLike.re_ofReal_mul, ← RCLike.conj_re]
    congr 1
    simp only [map_mul, RCLike.star_def, RCLike.conj_conj, RCLike.conj_ofReal]
    ring
  simp only [fdot, h, map_sum, Finset.mul_sum]
  rw [Finset.sum_congr rfl fun i _ => Finset.sum_comm]
  rw [Finset.sum_comm]

theorem l2_col (U : Matrix m k 𝕜) (hU : Uᴴ * U = 1) (a : k) : l2 (fun i => U i a) = 1 := by
  have h1 := congrFun (congrFun hU a) a
  rw [Matrix.mul_apply, Matrix.one_apply_eq] at h1
  unfold l2 sq
  rw [Real.sqrt_eq_one]
  have h2 : ((∑ i, ‖U i a‖ ^ 2 : ℝ) : 𝕜) = 1 := by
    rw [← h1]
    push_cast
    refine Finset.sum_congr rfl fun i _ => ?_
    rw [conjTranspose_apply, RCLike.star_def, RCLike.conj_mul]
  exact_mod_cast h2

theorem l2_row (V : Matrix k n 𝕜) (hV : V * Vᴴ = 1) (a : k) : l2 (fun j => star (V a j)) = 1 := by
  have := l2_col Vᴴ (by rw [conjTranspose_conjTranspose]; exact hV) a
  simpa only [conjTranspose_apply] using this

theorem fdot_le_of_opBound {G : Matrix m n 𝕜} {c : ℝ} (hG : opBound G c) {Y : Matrix m n 𝕜}
    {U : Matrix m k 𝕜} {s : k → ℝ} {V : Matrix k n 𝕜} (h : IsSVD Y U s V) :
    fdot G Y ≤ c * ∑ a, s a := by
  rw [← h.hprod, fdot_UDV, Finset.mul_sum]
  refine Finset.sum_le_sum fun a _ => ?_
  have h1 := hG (fun i => U i a) (fun j => star (V a j))
  rw [l2_col U h.hU, l2_row V h.hV, mul_one, mul_one] at h1
  have h2 := (RCLike.re_le_norm _).trans h1
  rw [mul_comm c]
  exact mul_le_mul_of_nonneg_left h2 (h.hs a)

theorem pair_same (U : Matrix m k 𝕜) (V : Matrix k n 𝕜) (hU : Uᴴ * U = 1) (hV : V * Vᴴ = 1)
    (g : k → ℝ) (a : k) :
    ∑ i, ∑ j, star (U i a) * (U * diagonal (fun a => (g a : 𝕜)) * V) i j * star (V a j) =
      (g a : 𝕜) := by
  have h1 : ∑ i, ∑ j, star (U i a) * (U * diagonal (fun a => (g a : 𝕜)) * V) i j * star (V a j) =
      (Uᴴ * (U * diagonal (fun a => (g a : 𝕜)) * V) * Vᴴ) a a := by
    rw [Matrix.mul_apply, Finset.sum_comm]
    refine Finset.sum_congr rfl fun j _ => ?_
    rw [Matrix.mul_apply, Finset.sum_mul]
    rfl
  rw [h1]
  have h2 : Uᴴ * (U * diagonal (fun a => (g a : 𝕜)) * V) * Vᴴ =
      (Uᴴ * U) * diagonal (fun a => (g a : 𝕜)) * (V * Vᴴ) := by
    simp only [Matrix.mul_assoc]
  rw [h2, hU, hV, Matrix.one_mul, Matrix.mul_one, diagonal_apply_eq]

theorem fdot_same (U : Matrix m k 𝕜) (V : Matrix k n 𝕜) (hU : Uᴴ * U = 1) (hV : V * Vᴴ = 1)
    (g s : k → ℝ) :
    fdot (U * diagonal (fun a => (g a : 𝕜)) * V) (U * diagonal (fun a => (s a : 𝕜)) * V) =
      ∑ a, g a * s a := by
  rw [fdot_UDV]
  refine Finset.sum_congr rfl fun a _ => ?_
  rw [pair_same U V hU hV, RCLike.ofReal_re, mul_comm]

theorem nuc_bdd (Y : Matrix m n 𝕜) : BddAbove {r | ∃ G, opBound G 1 ∧ r = fdot G Y} := by
  classical
  refine ⟨∑ i, ∑ j, ‖Y i j‖, ?_⟩
  rintro r ⟨G, hG, rfl⟩
  refine Finset.sum_le_sum fun i _ => Finset.sum_le_sum fun j _ => ?_
  have h1 := hG (Pi.single i 1) (Pi.single j 1)
  have e1 : ∑ i', ∑ j', star ((Pi.single i 1 : m → 𝕜) i') * G i' j' * (Pi.single j 1 : n → 𝕜) j' =
      G i j := by
    rw [Finset.sum_eq_single i, Finset.sum_eq_single j]
    · simp
    · intro b _ hb; simp [hb]
    · simp
    · intro b _ hb; simp [hb]
    · simp
  have e2 : l2 (Pi.single i 1 : m → 𝕜) = 1 := by
    unfold l2 sq
    rw [Finset.sum_eq_single i]
    · simp
    · intro b _ hb; simp [hb]
    · simp
  have e3 : l2 (Pi.single j 1 : n → 𝕜) = 1 := by
    unfold l2 sq
    rw [Finset.sum_eq_single j]
    · simp
    · intro b _ hb; simp [hb]
    · simp
  rw [e1, e2, e3, mul_one, mul_one] at h1
  refine (RCLike.re_le_norm _).trans ?_
  rw [norm_mul, norm_star]
  calc ‖G i j‖ * ‖Y i j‖ ≤ 1 * ‖Y i j‖ := mul_le_mul_of_nonneg_right h1 (norm_nonneg _)
    _ = ‖Y i j‖ := one_mul _

theorem opBound_zero : opBound (0 : Matrix m n 𝕜) 1 := by
  intro p q
  simp only [Matrix.zero_apply, mul_zero, zero_mul, Finset.sum_const_zero, norm_zero, one_mul]
  exact mul_nonneg (Real.sqrt_nonneg _) (Real.sqrt_nonneg _)

/-- **C21.** For any matrix with a singular value decomposition, the dual-norm
definition of the nuclear norm gives the sum of the singular values. -/
theorem C21_nuc_eq_sum_singular_values {Y : Matrix m n 𝕜} {U : Matrix m k 𝕜} {s : k → ℝ}
    {V : Matrix k n 𝕜} (h : IsSVD Y U s V) : nuc Y = normNuclear s := by
  apply le_antisymm
  · refine csSup_le ⟨_, 0, opBound_zero, rfl⟩ ?_
    rintro r ⟨G, hG, rfl⟩
    have := fdot_le_of_opBound hG h
    rwa [one_mul] at this
  · refine le_csSup (nuc_bdd Y) ⟨U * diagonal (fun _ => ((1 : ℝ) : 𝕜)) * V, ?_, ?_⟩
    · exact opBound_UDV U (fun _ => 1) V h.hU h.hV 1 zero_le_one (by simp)
    · have h2 := fdot_same U V h.hU h.hV (fun _ => 1) s
      rw [h.hprod] at h2
      rw [h2]; simp [normNuclear]

theorem fdot_le_nuc {G : Matrix m n 𝕜} {α : ℝ} (hα : 0 ≤ α) (hG : opBound G α)
    (Y : Matrix m n 𝕜) : fdot G Y ≤ α * nuc Y := by
  classical
  rcases eq_or_lt_of_le hα with h | h
  · subst h
    have h0 : G = 0 := by
      ext i j
      have h1 := hG (Pi.single i 1) (Pi.single j 1)
      have e1 : ∑ i', ∑ j', star ((Pi.single i 1 : m → 𝕜) i') * G i' j' *
          (Pi.single j 1 : n → 𝕜) j' = G i j := by
        rw [Finset.sum_eq_single i, Finset.sum_eq_single j]
        · simp
        · intro b _ hb; simp [hb]
        · simp
        · intro b _ hb; simp [hb]
        · simp
      rw [e1, zero_mul, zero_mul] at h1
      simpa using h1
    rw [h0]; simp [fdot]
  · have hb : opBound (((1 / α : ℝ) : 𝕜) • G) 1 := by
      intro p q
      have e : ∑ i, ∑ j, star (p i) * (((1 / α : ℝ) : 𝕜) • G) i j * q j =
          ((1 / α : ℝ) : 𝕜) * ∑ i, ∑ j, star (p i) * G i j * q j := by
        simp only [Finset.mul_sum]
        refine Finset.sum_congr rfl fun i _ => Finset.sum_congr rfl fun j _ => ?_
        rw [Matrix.smul_apply, smul_eq_mul]; ring
      rw [e, norm_mul, RCLike.norm_ofReal, abs_of_pos (by positivity)]
      have := mul_le_mul_of_nonneg_left (hG p q) (by positivity : (0 : ℝ) ≤ 1 / α)
      refine this.trans (le_of_eq ?_)
      field_simp
    have h1 : fdot (((1 / α : ℝ) : 𝕜) • G) Y ≤ nuc Y := le_csSup (nuc_bdd Y) ⟨_, hb, rfl⟩
    rw [fdot_smul_left] at h1
    have h2 := mul_le_mul_of_nonneg_left h1 hα
    refine le_trans (le_of_eq ?_) h2
    field_simp

/-- **C21.** `prox_nuclear(V, α)` is the unique minimiser of
`(1/2)‖X - V‖_F² + α‖X‖_*` over all matrices, whatever valid SVD is used, and the
second value it returns is the list of singular values of the result. -/
theorem C21_prox_nuclear {V : Matrix m n 𝕜} {U : Matrix m k 𝕜} {s : k → ℝ} {Vh : Matrix k n 𝕜}
    (h : IsSVD V U s Vh) (α : ℝ) (hα : 0 ≤ α) :
    IsUniqueMin (fun X => 1 / 2 * fsq (X - V) + α * nuc X) Set.univ (proxNuclear U s Vh α).1 ∧
    IsSVD (proxNuclear U s Vh α).1 U (proxNuclear U s Vh α).2 Vh := by
  set X := (proxNuclear U s Vh α).1 with hX
  set ss := (proxNuclear U s Vh α).2 with hss
  have hss' : ∀ a, ss a = max 0 (s a - α) := fun a => rfl
  have hXe : X = U * diagonal (fun a => (ss a : 𝕜)) * Vh := by
    rw [hX, Matrix.mul_assoc]; rfl
  have hsvd : IsSVD X U ss Vh := ⟨h.hU, h.hV, fun a => le_max_left _ _, hXe.symm⟩
  refine ⟨⟨Set.mem_univ _, fun Y _ hne => ?_⟩, hsvd⟩
  have hG : V - X = U * diagonal (fun a => ((s a - ss a : ℝ) : 𝕜)) * Vh := by
    rw [hXe, ← h.hprod, ← Matrix.sub_mul, ← Matrix.mul_sub, diagonal_sub]
    congr 3; funext a; push_cast; rfl
  have hgb : ∀ a, |s a - ss a| ≤ α := by
    intro a
    rw [hss', abs_le]
    have := h.hs a
    rcases max_choice 0 (s a - α) with e | e <;> rw [e]
    · have := max_eq_left_iff.1 e; constructor <;> linarith
    · constructor <;> linarith
  have hop : opBound (V - X) α := by
    rw [hG]; exact opBound_UDV U _ Vh h.hU h.hV α hα hgb
  have h1 := fdot_le_nuc hα hop Y
  have h2 : fdot (V - X) X = α * nuc X := by
    rw [C21_nuc_eq_sum_singular_values hsvd, normNuclear, hG]
    conv_lhs => rw [hXe]
    rw [fdot_same U Vh h.hU h.hV, Finset.mul_sum]
    refine Finset.sum_congr rfl fun a _ => ?_
    rw [hss']
    rcases max_choice 0 (s a - α) with e | e <;> rw [e] <;> ring
  have h3 := fsq_expand Y V X
  rw [fdot_sub_right, h2] at h3
  have h4 := fsq_pos (sub_ne_zero.2 hne)
  have h5 : fsq (X - V) = fsq (X - V) := rfl
  simp only
  linarith

/-- The hypotheses are met: a rectangular matrix with its SVD. -/
example : IsSVD (!![0, 3, 0; 1, 0, 0] : Matrix (Fin 2) (Fin 3) ℝ) !![1, 0; 0, 1] ![3, 1]
    !![0, 1, 0; 1, 0, 0] := by
  refine ⟨?_, ?_, ?_, ?_⟩
  · ext i j; fin_cases i <;> fin_cases j <;> simp [Matrix.mul_apply, Fin.sum_univ_succ]
  · ext i j; fin_cases i <;> fin_cases j <;> simp [Matrix.mul_apply, Fin.sum_univ_succ]
  · intro i; fin_cases i <;> norm_num
  · ext i j
    rw [entry_UDV]
    fin_cases i <;> fin_cases j <;> simp [Fin.sum_univ_succ]

end Sporco.Prox
