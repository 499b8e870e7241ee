import Verif.Admm.BpdnConv

/-!
# `sporco/admm/cmod.py` (C34, C40)

`CnstrMOD` with coefficient matrix `Z` of shape `(M, K)` and signals `S` of shape `(C, K)`; the
dictionary has shape `(C, M)`.  Data types are not modelled.
-/

set_option autoImplicit false
set_option linter.unusedSectionVars false

namespace Sporco.Admm.Cmod

open Matrix Sporco.Linalg Sporco.Prox
open Sporco.Admm.Bpdn (Fac fvar gvar CallbackReads aug_excess fro2_nonneg fro2_pos)
open scoped RealInnerProductSpace

variable {C M K : ℕ}

/-! ## Model -/

/-- `lu_factor(A, rho)` (`linalg.py` 607-618). -/
noncomputable def luFactor (A : Matrix (Fin M) (Fin K) ℝ) (rho : ℝ) : Fac M K :=
  if K ≤ M then .tall (facTall A rho) else .wide (facWide A rho)

/-- `lu_solve_AATI(A, rho, b, lu, piv)` (`linalg.py` 688-694) with the factors it is given.  Factors of
the wrong shape make SciPy raise; the value then is irrelevant. -/
noncomputable def luSolveWith (A : Matrix (Fin M) (Fin K) ℝ) (rho : ℝ) (b : Matrix (Fin C) (Fin M) ℝ) :
    Fac M K → Matrix (Fin C) (Fin M) ℝ
  | .tall G => (1 / rho) • (b - (facSolve G (b * A)ᵀ)ᵀ * Aᵀ)
  | .wide G => (facSolve G bᵀ)ᵀ

/-- Attributes set by `setcoef` (`cmod.py` 211-218). -/
structure Attr (C M K : ℕ) where
  Z : Matrix (Fin M) (Fin K) ℝ
  SZT : Matrix (Fin C) (Fin M) ℝ
  lu : Fac M K

/-- `setcoef` (`cmod.py` 211-218). -/
noncomputable def setcoef (S : Matrix (Fin C) (Fin K) ℝ) (rho : ℝ) (Z : Matrix (Fin M) (Fin K) ℝ) :
    Attr C M K :=
  { Z := Z, SZT := S * Zᵀ, lu := luFactor Z rho }

/-- `rhochange` (`cmod.py` 278-282). -/
noncomputable def rhochange (rho : ℝ) (h : Attr C M K) : Attr C M K := { h with lu := luFactor h.Z rho }

/-- `xstep` (`cmod.py` 229-236). -/
noncomputable def xstep (rho : ℝ) (_X Y U : Arr C M) (h : Attr C M K) : Arr C M × Attr C M K :=
  (arr (luSolveWith h.Z rho (h.SZT + rho • (mat Y - mat U)) h.lu), h)

/-- `zeromean` (`cmod.py` 308-322): the mean of every column is subtracted. -/
noncomputable def zeromean (v : Matrix (Fin C) (Fin M) ℝ) : Matrix (Fin C) (Fin M) ℝ :=
  Matrix.of fun i j => v i j - (∑ l, v l j) / C

/-- `normalise` (`cmod.py` 326-342): every column is divided by its norm, or by one if that is zero. -/
noncomputable def normalise (v : Matrix (Fin C) (Fin M) ℝ) : Matrix (Fin C) (Fin M) ℝ :=
  let vn : Fin M → ℝ := fun j => Real.sqrt (∑ i, v i j ^ 2)
  Matrix.of fun i j => v i j / (if vn j = 0 then 1 else vn j)

/-- `getPcn(zm)` (`cmod.py` 286-304). -/
noncomputable def getPcn (zm : Bool) : Matrix (Fin C) (Fin M) ℝ → Matrix (Fin C) (Fin M) ℝ :=
  if zm then fun x => normalise (zeromean x) else normalise

/-- `ystep` (`cmod.py` 240-245). -/
noncomputable def ystep (zm : Bool) (_rho : ℝ) (AX _X _Y U : Arr C M) (h : Attr C M K) : Arr C M × Attr C M K :=
  (arr (getPcn zm (mat (AX + U))), h)

/-- `obfn_dfd` (`cmod.py` 260-265). -/
noncomputable def dfd (h : Attr C M K) (S : Matrix (Fin C) (Fin K) ℝ) (x : Arr C M) : ℝ :=
  1 / 2 * ‖arr (mat x * h.Z - S)‖ ^ 2

/-- `obfn_cns` (`cmod.py` 269-274). -/
noncomputable def cns (zm : Bool) (x : Arr C M) : ℝ := ‖arr (getPcn zm (mat x)) - x‖

/-- The class `CnstrMOD` (`cmod.py` 21-282).  `eval_objfn` (249-256) returns the two values `DFid` and
`Cnstr`; the third entry here is not used. -/
noncomputable def clsCMOD (S : Matrix (Fin C) (Fin K) ℝ) (zm fEvalX gEvalY : Bool) :
    Cls (Arr C M) (Arr C M) (Arr C M) (Attr C M K) :=
  Cls.equal xstep (ystep zm) rhochange fun X Y h =>
    (dfd h S (fvar fEvalX X Y), cns zm (gvar gEvalY X Y), 0)

/-! ## Specification -/

/-- The augmented Lagrangian as a function of the dictionary:
`(1/2)‖X Z - S‖² + (ρ/2)‖X - Y + U‖²`. -/
noncomputable def augCMOD (Z : Matrix (Fin M) (Fin K) ℝ) (S : Matrix (Fin C) (Fin K) ℝ) (rho : ℝ)
    (Y U X : Matrix (Fin C) (Fin M) ℝ) : ℝ :=
  1 / 2 * fro2 (X * Z - S) + rho / 2 * fro2 (X - Y + U)

/-- The constraint of the problem (documentation of `CnstrMOD`): atoms (columns) of unit norm, and of
zero mean if `ZeroMean` is set. -/
def Dictionary (zm : Bool) (D : Matrix (Fin C) (Fin M) ℝ) : Prop :=
  (∀ j, ∑ i, D i j ^ 2 = 1) ∧ (zm = true → ∀ j, ∑ i, D i j = 0)

/-! ## The X update -/

theorem luSolveWith_factor (A : Matrix (Fin M) (Fin K) ℝ) (rho : ℝ) (b : Matrix (Fin C) (Fin M) ℝ) :
    luSolveWith A rho b (luFactor A rho) = solveAATI A rho b := by
  unfold luFactor solveAATI
  split_ifs <;> rfl

theorem fro2_transpose (X : Matrix (Fin C) (Fin M) ℝ) : fro2 Xᵀ = fro2 X := by
  unfold fro2
  rw [Finset.sum_comm]; rfl

/-- **C40.** The X update of `CnstrMOD` gives the unique minimiser of the augmented Lagrangian over all
dictionaries, for coefficient matrices of every shape. -/
theorem C40_cmod_xstep (Z : Matrix (Fin M) (Fin K) ℝ) (S : Matrix (Fin C) (Fin K) ℝ) (rho : ℝ)
    (hr : 0 < rho) (X Y U : Arr C M) :
    IsUniqueMin (augCMOD Z S rho (mat Y) (mat U)) Set.univ (mat (xstep rho X Y U (setcoef S rho Z)).1) := by
  refine ⟨trivial, fun W _ hne => ?_⟩
  set X' := mat (xstep rho X Y U (setcoef S rho Z)).1 with hX'
  have hn : X' * (Z * Zᵀ + rho • (1 : Matrix (Fin M) (Fin M) ℝ)) = S * Zᵀ + rho • (mat Y - mat U) := by
    rw [hX']
    change luSolveWith Z rho _ (luFactor Z rho) * _ = _
    rw [luSolveWith_factor]
    exact C25_AATI_matrix_partial Z rho hr _
  have ht : Zᵀᵀ * (Zᵀ * X'ᵀ) + rho • X'ᵀ = Zᵀᵀ * Sᵀ + rho • (mat Y - mat U)ᵀ := by
    have := congrArg Matrix.transpose hn
    rw [Matrix.mul_add, Matrix.mul_smul, Matrix.mul_one] at this
    simp only [Matrix.transpose_add, Matrix.transpose_mul, Matrix.transpose_smul,
      Matrix.transpose_transpose] at this
    rw [Matrix.transpose_transpose, ← Matrix.mul_assoc]
    exact this
  have h := aug_excess Zᵀ Sᵀ rho (mat Y - mat U)ᵀ X'ᵀ ht Wᵀ
  have tr : ∀ V : Matrix (Fin C) (Fin M) ℝ, augCMOD Z S rho (mat Y) (mat U) V =
      1 / 2 * fro2 (Zᵀ * Vᵀ - Sᵀ) + rho / 2 * fro2 (Vᵀ - (mat Y - mat U)ᵀ) := by
    intro V
    rw [← Matrix.transpose_mul, ← Matrix.transpose_sub, ← Matrix.transpose_sub, fro2_transpose,
      fro2_transpose]
    unfold augCMOD
    rw [show V - mat Y + mat U = V - (mat Y - mat U) by abel]
  rw [tr, tr, h]
  have h1 := fro2_nonneg (Zᵀ * (Wᵀ - X'ᵀ))
  have h2 := mul_pos hr (fro2_pos (X := Wᵀ) (Y := X'ᵀ) fun e => hne (Matrix.transpose_injective e))
  linarith

/-- The attributes are those `setcoef` computes for the current rho. -/
def Coh (Z : Matrix (Fin M) (Fin K) ℝ) (S : Matrix (Fin C) (Fin K) ℝ) (rho : ℝ) (h : Attr C M K) : Prop :=
  h = setcoef S rho Z

theorem keeps_cmod (Z : Matrix (Fin M) (Fin K) ℝ) (S : Matrix (Fin C) (Fin K) ℝ) (zm fe ge : Bool) :
    Keeps (clsCMOD S zm fe ge) (Coh Z S) :=
  ⟨equal_sane _ _ _ _, fun _ _ _ _ _ _ h => h, fun _ _ _ _ _ _ _ hc => hc, fun _ _ _ _ _ hc => by
    rw [show _ = setcoef S _ Z from hc]; rfl⟩

/-- **C40.** At every iteration of every `CnstrMOD` run, including after automatic changes of rho, the
new X is the unique minimiser of the augmented Lagrangian for the current rho, Y and U. -/
theorem C40_cmod_history (Z : Matrix (Fin M) (Fin K) ℝ) (S : Matrix (Fin C) (Fin K) ℝ) (zm fe ge : Bool)
    (o : Opts) (ho : o.autoRho = true → o.RhoOk) (cb) (hcb : CallbackReads cb)
    (s : St (Arr C M) (Arr C M) (Arr C M) (Attr C M K)) (hp : 0 < s.rho)
    (hs : s.extra = setcoef S s.rho Z) (n : ℕ) :
    let T := traj (clsCMOD S zm fe ge) o cb s
    IsUniqueMin (augCMOD Z S (T n).rho (mat (T n).Y) (mat (T n).U)) Set.univ (mat (T (n + 1)).X) := by
  obtain ⟨h1, h2⟩ := traj_keeps (keeps_cmod Z S zm fe ge) o ho cb (hcb.keeps _) s hp hs n
  simp only
  rw [traj_succ, oneIter_X, show (clsCMOD (M := M) S zm fe ge).xstep = xstep from rfl, h2]
  exact C40_cmod_xstep Z S _ h1 _ _ _

/-! ## The constraint -/

theorem zeromean_sum (v : Matrix (Fin C) (Fin M) ℝ) (j : Fin M) : ∑ i, zeromean v i j = 0 := by
  rcases Nat.eq_zero_or_pos C with rfl | hC
  · simp
  · have : (C : ℝ) ≠ 0 := by positivity
    simp only [zeromean, Matrix.of_apply, Finset.sum_sub_distrib, Finset.sum_const, Finset.card_univ,
      Fintype.card_fin, nsmul_eq_mul]
    field_simp
    ring

/-- The column normalised together with `j`: the part of `v` meeting the linear constraint. -/
noncomputable def lin (zm : Bool) (v : Matrix (Fin C) (Fin M) ℝ) : Matrix (Fin C) (Fin M) ℝ :=
  if zm then zeromean v else v

theorem getPcn_eq (zm : Bool) (v : Matrix (Fin C) (Fin M) ℝ) : getPcn zm v = normalise (lin zm v) := by
  cases zm <;> rfl

/-- The norm of a column. -/
noncomputable def cn (v : Matrix (Fin C) (Fin M) ℝ) (j : Fin M) : ℝ := Real.sqrt (∑ i, v i j ^ 2)

theorem cn_sq (v : Matrix (Fin C) (Fin M) ℝ) (j : Fin M) : cn v j ^ 2 = ∑ i, v i j ^ 2 :=
  Real.sq_sqrt (Finset.sum_nonneg fun _ _ => sq_nonneg _)

theorem normalise_apply (v : Matrix (Fin C) (Fin M) ℝ) (i : Fin C) (j : Fin M) :
    normalise v i j = v i j / (if cn v j = 0 then 1 else cn v j) := rfl

theorem col_zero {v : Matrix (Fin C) (Fin M) ℝ} {j : Fin M} (h : cn v j = 0) (i : Fin C) : v i j = 0 := by
  have h1 := cn_sq v j
  rw [h] at h1
  have h2 := (Finset.sum_eq_zero_iff_of_nonneg (fun _ _ => sq_nonneg _)).1 (by rw [← h1]; norm_num :
    ∑ i, v i j ^ 2 = 0) i (Finset.mem_univ _)
  exact pow_eq_zero_iff (two_ne_zero) |>.1 h2

theorem normalise_sq (v : Matrix (Fin C) (Fin M) ℝ) (j : Fin M) :
    ∑ i, normalise v i j ^ 2 = if cn v j = 0 then 0 else 1 := by
  simp only [normalise_apply, div_pow]
  rw [← Finset.sum_div, ← cn_sq]
  split_ifs with h
  · rw [h]; norm_num
  · exact div_self (pow_ne_zero 2 h)

/-- **C34 for the dictionary update of `cmod.py`, constraint set.** The result of the constraint
projection has zero-mean atoms if requested, and every atom has unit norm or is zero; it is zero only if
the given atom is orthogonal to all atoms allowed (it is zero, or constant with `ZeroMean`). -/
theorem C34_cmod_feasible (zm : Bool) (v : Matrix (Fin C) (Fin M) ℝ) :
    (zm = true → ∀ j, ∑ i, getPcn zm v i j = 0) ∧
    ∀ j, ∑ i, getPcn zm v i j ^ 2 = 1 ∨
      ((∀ i, getPcn zm v i j = 0) ∧ ∃ c, (zm = false → c = 0) ∧ ∀ i, v i j = c) := by
  rw [getPcn_eq]
  constructor
  · rintro rfl j
    simp only [normalise_apply]
    rw [← Finset.sum_div, show lin true v = zeromean v from rfl, zeromean_sum, zero_div]
  · intro j
    rcases eq_or_ne (cn (lin zm v) j) 0 with h | h
    · right
      refine ⟨fun i => by rw [normalise_apply, col_zero h, zero_div], ?_⟩
      cases zm
      · exact ⟨0, fun _ => rfl, col_zero h⟩
      · refine ⟨(∑ l, v l j) / C, (fun h => by cases h), fun i => ?_⟩
        have := col_zero h i
        exact sub_eq_zero.1 this
    · left
      rw [normalise_sq, if_neg h]

/-- Products with a feasible array only see the linear part. -/
theorem lin_inner (zm : Bool) (v u : Matrix (Fin C) (Fin M) ℝ) (j : Fin M)
    (hu : zm = true → ∑ i, u i j = 0) : ∑ i, lin zm v i j * u i j = ∑ i, v i j * u i j := by
  cases zm
  · rfl
  · simp only [lin, if_true, zeromean, Matrix.of_apply, sub_mul, Finset.sum_sub_distrib]
    rw [← Finset.mul_sum, hu rfl, mul_zero, sub_zero]

theorem expand (v w : Matrix (Fin C) (Fin M) ℝ) (j : Fin M) :
    ∑ i, (w i j - v i j) ^ 2 = ∑ i, v i j ^ 2 - 2 * ∑ i, v i j * w i j + ∑ i, w i j ^ 2 := by
  rw [Finset.mul_sum, ← Finset.sum_sub_distrib, ← Finset.sum_add_distrib]
  exact Finset.sum_congr rfl fun i _ => by ring

/-- **C34 for the dictionary update of `cmod.py`, nearest point.** No dictionary is nearer to the given
array than the result of the constraint projection. -/
theorem C34_cmod_nearest (zm : Bool) (v D : Matrix (Fin C) (Fin M) ℝ) (hD : Dictionary zm D) :
    fro2 (getPcn zm v - v) ≤ fro2 (D - v) := by
  rw [← fro2_transpose, ← fro2_transpose (D - v)]
  refine Finset.sum_le_sum fun j _ => ?_
  change ∑ i, (getPcn zm v i j - v i j) ^ 2 ≤ ∑ i, (D i j - v i j) ^ 2
  have hf := (C34_cmod_feasible zm v).1
  rw [expand, expand, hD.1 j, ← lin_inner zm v D j fun h => hD.2 h j,
    ← lin_inner zm v (getPcn zm v) j fun h => hf h j, getPcn_eq, normalise_sq]
  set p := lin zm v with hp
  have hcs := Finset.sum_mul_sq_le_sq_mul_sq Finset.univ (fun i => p i j) fun i => D i j
  rw [hD.1 j, mul_one, ← cn_sq] at hcs
  have h1 : ∑ i, p i j * D i j ≤ cn p j := by
    have h0 : 0 ≤ cn p j := Real.sqrt_nonneg _
    exact le_of_sq_le_sq hcs h0
  have h2 : ∑ i, p i j * normalise p i j = cn p j := by
    simp only [normalise_apply, ← mul_div_assoc]
    rw [← Finset.sum_div]
    simp only [← pow_two]
    rw [← cn_sq]
    split_ifs with h
    · rw [h]; norm_num
    · rw [pow_two, mul_div_assoc, div_self h, mul_one]
  rw [h2]
  split_ifs with h
  · rw [h] at h1 ⊢; linarith
  · linarith

/-- **C34 for the dictionary update of `cmod.py`, idempotence.** -/
theorem C34_cmod_idempotent (zm : Bool) (v : Matrix (Fin C) (Fin M) ℝ) :
    getPcn zm (getPcn zm v) = getPcn zm v := by
  obtain ⟨h1, h2⟩ := C34_cmod_feasible zm v
  have hl : lin zm (getPcn zm v) = getPcn zm v := by
    cases zm
    · rfl
    · ext i j
      change getPcn true v i j - (∑ l, getPcn true v l j) / C = _
      rw [h1 rfl j, zero_div, sub_zero]
  rw [getPcn_eq zm (getPcn zm v), hl]
  ext i j
  rw [normalise_apply]
  rcases h2 j with h | ⟨h, -⟩
  · have : cn (getPcn zm v) j = 1 := by unfold cn; rw [h, Real.sqrt_one]
    rw [this]; norm_num
  · rw [h i, zero_div]

/-- **C40.** The Y update of `CnstrMOD` minimises the augmented Lagrangian in Y: no dictionary gives a
smaller value of `(ρ/2)‖AX - y + U‖²`.  It is a dictionary itself unless an atom of `AX + U` is zero
(constant, with `ZeroMean`). -/
theorem C40_cmod_ystep (S : Matrix (Fin C) (Fin K) ℝ) (zm fe ge : Bool) (rho : ℝ) (hr : 0 < rho)
    (AX X Y U : Arr C M) (h : Attr C M K) :
    let y := ((clsCMOD S zm fe ge).ystep rho AX X Y U h).1
    (∀ D, Dictionary zm D → rho / 2 * ‖AX - y + U‖ ^ 2 ≤ rho / 2 * fro2 (mat AX - D + mat U)) ∧
    ((∀ j, ¬ ∃ c, (zm = false → c = 0) ∧ ∀ i, (AX + U) (i, j) = c) → Dictionary zm (mat y)) := by
  intro y
  have hy : y = arr (getPcn zm (mat (AX + U))) := rfl
  constructor
  · intro D hD
    refine mul_le_mul_of_nonneg_left ?_ (half_pos hr).le
    have h1 := C34_cmod_nearest zm (mat (AX + U)) D hD
    rw [norm_mat, mat_add, mat_sub]
    have e : ∀ W : Matrix (Fin C) (Fin M) ℝ, fro2 (mat AX - W + mat U) = fro2 (W - mat (AX + U)) := by
      intro W
      unfold fro2
      refine Finset.sum_congr rfl fun i _ => Finset.sum_congr rfl fun j _ => ?_
      simp only [Matrix.add_apply, Matrix.sub_apply, mat_add]
      ring
    rw [e, e]
    exact h1
  · intro hne
    obtain ⟨h1, h2⟩ := C34_cmod_feasible zm (mat (AX + U))
    exact ⟨fun j => (h2 j).resolve_right fun hc => hne j hc.2, h1⟩

/-- **C40.** The values recorded by `CnstrMOD`: the data fidelity term `(1/2)‖D Z - S‖²` at X if
`fEvalX` is set and at Y if not; the constraint term is zero if Y meets the constraint. -/
theorem C40_cmod_recorded (Z : Matrix (Fin M) (Fin K) ℝ) (S : Matrix (Fin C) (Fin K) ℝ) (zm fe ge : Bool)
    (rho : ℝ) (X Y : Arr C M) :
    ((clsCMOD S zm fe ge).objfn X Y (setcoef S rho Z)).1 =
      1 / 2 * fro2 (mat (if fe then X else Y) * Z - S) ∧
    (Dictionary zm (mat (if ge then Y else X)) →
      ((clsCMOD S zm fe ge).objfn X Y (setcoef S rho Z)).2.1 = 0) := by
  constructor
  · change dfd _ S (fvar fe X Y) = _
    unfold dfd
    rw [norm_arr]; rfl
  · intro hD
    change ‖arr (getPcn zm (mat (if ge then Y else X))) - (if ge then Y else X)‖ = 0
    have h := C34_cmod_nearest zm (mat (if ge then Y else X)) _ hD
    rw [sub_self, show fro2 (0 : Matrix (Fin C) (Fin M) ℝ) = 0 by simp [fro2], ← norm_arr, arr_sub,
      arr_mat] at h
    exact pow_eq_zero_iff two_ne_zero |>.1 (le_antisymm h (sq_nonneg _))

/-! A dictionary with `ZeroMean`, so the hypotheses of the theorems are met. -/

example : Dictionary true (Matrix.of fun (i : Fin 4) (_ : Fin 2) =>
    (-1 : ℝ) ^ (i : ℕ) / 2) := by
  constructor
  · intro j; norm_num [Fin.sum_univ_four]
  · intro _ j; norm_num [Fin.sum_univ_four]

/-- A wide coefficient matrix and an X update that moves. -/
example : mat (xstep 1 0 0 0 (setcoef (Matrix.of fun (_ : Fin 1) (_ : Fin 2) => (3 : ℝ)) 1
    (Matrix.of fun (_ : Fin 1) (_ : Fin 2) => (1 : ℝ)))).1 0 0 = 2 := by
  set Z : Matrix (Fin 1) (Fin 2) ℝ := Matrix.of fun _ _ => (1 : ℝ) with hZ
  set S : Matrix (Fin 1) (Fin 2) ℝ := Matrix.of fun _ _ => (3 : ℝ) with hS
  set b : Matrix (Fin 1) (Fin 1) ℝ := S * Zᵀ + (1 : ℝ) • (mat (0 : Arr 1 1) - mat 0) with hb
  have h := C25_AATI_matrix_partial Z 1 one_pos b
  rw [← luSolveWith_factor] at h
  have h0 := congrFun (congrFun h 0) 0
  change luSolveWith Z 1 b (luFactor Z 1) 0 0 = 2
  have h1 : (Z * Zᵀ + (1 : ℝ) • (1 : Matrix (Fin 1) (Fin 1) ℝ)) 0 0 = 3 := by
    norm_num [hZ, Matrix.mul_apply]
  have h2 : b 0 0 = 6 := by norm_num [hb, hZ, hS, Matrix.mul_apply]
  rw [Matrix.mul_apply, Fin.sum_univ_one, h1, h2] at h0
  linarith

end Sporco.Admm.Cmod
