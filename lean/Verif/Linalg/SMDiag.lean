import Verif.Linalg.SM

/-!
# `solvemdbi_ism` with an array in place of the scalar `rho`

`ConvBPDNGradReg.xstep` and `ConvL1L1Grd.xstep` (`admm/cbpdn.py` 1185-1187, 2695-2697) call the function
with an array that varies with frequency and, with a `GradWeight` array, along the filter axis.
-/

set_option autoImplicit false

namespace Sporco.Linalg

open Matrix ComplexConjugate

variable {M : Type*} [Fintype M]

/-- The `k` loop of `solvemdbi_ism` (`sporco/linalg.py:428-444`) when `rho` has entries `d` along the
axis of the system. -/
noncomputable def ismLoopD (d : M → ℂ) :
    (alpha beta : M → ℂ) → (done : List ((M → ℂ) × (M → ℂ) × ℂ)) → List (M → ℂ) → (M → ℂ)
  | _, beta, _, [] => beta
  | alpha, beta, done, ah :: rest =>
    let gamma := alpha
    let delta := 1 + inner ah gamma
    let beta' := reduceStep beta (ah, gamma, delta)
    let done' := done ++ [(ah, gamma, delta)]
    match rest with
    | [] => beta'
    | ah' :: _ =>
      let alpha' := done'.foldl reduceStep (fun m => conj (ah' m) / d m)
      ismLoopD d alpha' beta' done' rest

/-- `solvemdbi_ism` (`sporco/linalg.py:412-444`) when `rho` is an array. -/
noncomputable def solvemdbiIsmD (ah0 : M → ℂ) (ahs : List (M → ℂ)) (d b : M → ℂ) : M → ℂ :=
  ismLoopD d (fun m => conj (ah0 m) / d m) (fun m => b m / d m) [] (ah0 :: ahs)

/-- With a constant array it is the function with a scalar. -/
theorem ismLoopD_const (rho : ℂ) (alpha beta : M → ℂ) (done : List ((M → ℂ) × (M → ℂ) × ℂ))
    (l : List (M → ℂ)) : ismLoopD (fun _ => rho) alpha beta done l = ismLoop rho alpha beta done l := by
  induction l generalizing alpha beta done with
  | nil => rfl
  | cons ah rest ih =>
    cases rest with
    | nil => rfl
    | cons ah' rest' =>
      rw [ismLoopD, ismLoop]
      exact ih _ _ _

variable [DecidableEq M]

/-- The matrix `diag(d) + ∑ₖ aₖ aₖᴴ`. -/
def sumMatrixD (d : M → ℂ) (as : List (M → ℂ)) : Matrix M M ℂ :=
  diagonal d + (as.map fun a => vecMulVec a (star a)).sum

theorem sumMatrixD_mulVec (d : M → ℂ) (as : List (M → ℂ)) (x : M → ℂ) (m : M) :
    (sumMatrixD d as *ᵥ x) m =
      d m * x m + (as.map fun a => a m * inner (fun n => conj (a n)) x).sum := by
  unfold sumMatrixD
  rw [add_mulVec, Pi.add_apply, mulVec_diagonal]
  congr 1
  induction as with
  | nil => simp
  | cons a as ih =>
    rw [List.map_cons, List.sum_cons, add_mulVec, Pi.add_apply, ih, List.map_cons, List.sum_cons,
      vecMulVec_mulVec]
    simp only [Pi.smul_apply, MulOpposite.smul_eq_mul_unop, MulOpposite.unop_op, inner, dotProduct,
      Pi.star_apply, RCLike.star_def]

theorem sumMatrixD_append (d : M → ℂ) (as : List (M → ℂ)) (a : M → ℂ) :
    sumMatrixD d (as ++ [a]) = sumMatrixD d as + vecMulVec a (star a) := by
  simp [sumMatrixD, add_assoc]

/-- The quadratic form is real and non-negative. -/
theorem quad_formD (d : M → ℝ) (as : List (M → ℂ)) (y : M → ℂ) :
    ∃ q : ℝ, ∑ m, d m * ‖y m‖ ^ 2 ≤ q ∧
      inner (fun m => conj (y m)) (sumMatrixD (fun m => (d m : ℂ)) as *ᵥ y) = (q : ℂ) := by
  induction as using List.reverseRecOn with
  | nil =>
    refine ⟨∑ m, d m * ‖y m‖ ^ 2, le_rfl, ?_⟩
    unfold inner
    simp only [sumMatrixD_mulVec]
    push_cast
    refine Finset.sum_congr rfl fun m _ => ?_
    rw [← Complex.conj_mul']
    simp; ring
  | append_singleton as a ih =>
    obtain ⟨q, hq, he⟩ := ih
    set t := inner (fun n => conj (a n)) y with ht
    refine ⟨q + ‖t‖ ^ 2, by nlinarith [sq_nonneg ‖t‖], ?_⟩
    rw [sumMatrixD_append]
    have h1 : inner (fun m => conj (y m)) ((sumMatrixD (fun m => (d m : ℂ)) as + vecMulVec a (star a)) *ᵥ y) =
        inner (fun m => conj (y m)) (sumMatrixD (fun m => (d m : ℂ)) as *ᵥ y) + conj t * t := by
      have h2 : conj t = inner (fun m => conj (y m)) a := by
        rw [ht]; unfold inner
        rw [map_sum]
        refine Finset.sum_congr rfl fun n _ => ?_
        simp [mul_comm]
      rw [h2]
      unfold inner
      rw [Finset.sum_mul, ← Finset.sum_add_distrib]
      refine Finset.sum_congr rfl fun m _ => ?_
      rw [add_mulVec, Pi.add_apply, vecMulVec_mulVec]
      simp only [Pi.smul_apply, MulOpposite.smul_eq_mul_unop, MulOpposite.unop_op]
      have h3 : star a ⬝ᵥ y = t := by
        simp [ht, inner, dotProduct]
      rw [h3]; ring
    rw [h1, he, Complex.conj_mul']
    push_cast; rfl

theorem denom_realD (d : M → ℝ) (hd : ∀ m, 0 < d m) (as : List (M → ℂ)) (a y : M → ℂ)
    (h : sumMatrixD (fun m => (d m : ℂ)) as *ᵥ y = a) :
    ∃ q : ℝ, 1 ≤ q ∧ 1 + inner (fun n => conj (a n)) y = (q : ℂ) := by
  obtain ⟨q, hq, he⟩ := quad_formD d as y
  have hq0 : 0 ≤ q :=
    le_trans (Finset.sum_nonneg fun m _ => mul_nonneg (hd m).le (sq_nonneg _)) hq
  refine ⟨1 + q, by linarith, ?_⟩
  rw [h] at he
  have h2 : inner (fun n => conj (a n)) y = conj (inner (fun m => conj (y m)) a) := by
    unfold inner
    rw [map_sum]
    refine Finset.sum_congr rfl fun n _ => ?_
    simp [mul_comm]
  rw [h2, he]
  push_cast
  rw [Complex.conj_ofReal]

/-- Invariant of the loop. -/
def InvD (d : M → ℝ) (as : List (M → ℂ)) (done : List ((M → ℂ) × (M → ℂ) × ℂ)) : Prop :=
  ∀ x : M → ℂ, sumMatrixD (fun m => (d m : ℂ)) as *ᵥ (done.foldl reduceStep fun m => x m / (d m : ℂ)) = x

theorem inv_nilD (d : M → ℝ) (hd : ∀ m, 0 < d m) : InvD d ([] : List (M → ℂ)) [] := by
  intro x
  funext m
  have hrc : (d m : ℂ) ≠ 0 := by exact_mod_cast (hd m).ne'
  rw [sumMatrixD_mulVec]
  simp only [List.foldl_nil, List.map_nil, List.sum_nil, add_zero]
  field_simp

theorem inv_stepD (d : M → ℝ) (hd : ∀ m, 0 < d m) (as : List (M → ℂ))
    (done : List ((M → ℂ) × (M → ℂ) × ℂ)) (h : InvD d as done) (ah : M → ℂ) :
    let gamma := done.foldl reduceStep fun m => conj (ah m) / (d m : ℂ)
    let delta := 1 + inner ah gamma
    InvD d (as ++ [fun m => conj (ah m)]) (done ++ [(ah, gamma, delta)]) := by
  intro gamma delta
  have hg : sumMatrixD (fun m => (d m : ℂ)) as *ᵥ gamma = fun m => conj (ah m) := h _
  have hah : (fun n => conj ((fun m => conj (ah m)) n)) = ah := by funext n; simp
  have hq := denom_realD d hd as _ gamma hg
  rw [hah] at hq
  intro x
  obtain ⟨q, hq1, hq2⟩ := hq
  rw [List.foldl_append, List.foldl_cons, List.foldl_nil, sumMatrixD_append]
  have hd : 1 + inner (fun n => conj ((fun m => conj (ah m)) n)) gamma ≠ 0 := by
    rw [hah, hq2]
    have : (0 : ℝ) < q := by linarith
    exact_mod_cast this.ne'
  have := sm_step (sumMatrixD (fun m => (d m : ℂ)) as) (fun m => conj (ah m)) gamma
    (done.foldl reduceStep fun m => x m / (d m : ℂ)) x hg (h x) hd
  rw [hah] at this
  exact this

theorem ismLoopD_eq (d : M → ℝ) (hd : ∀ m, 0 < d m) (b : M → ℂ) :
    ∀ (todo : List (M → ℂ)) (as : List (M → ℂ)) (done : List ((M → ℂ) × (M → ℂ) × ℂ))
      (alpha : M → ℂ), InvD d as done →
      (∀ ah rest, todo = ah :: rest → alpha = done.foldl reduceStep fun m => conj (ah m) / (d m : ℂ)) →
      sumMatrixD (fun m => (d m : ℂ)) (as ++ todo.map fun ah m => conj (ah m)) *ᵥ
        ismLoopD (fun m => (d m : ℂ)) alpha (done.foldl reduceStep fun m => b m / (d m : ℂ)) done todo = b := by
  intro todo
  induction todo with
  | nil => intro as done alpha h _; simp only [List.map_nil, List.append_nil, ismLoopD]; exact h b
  | cons ah rest ih =>
    intro as done alpha h ha
    have hal := ha ah rest rfl
    subst hal
    have hinv := inv_stepD d hd as done h ah
    have happ : as ++ (ah :: rest).map (fun ah m => conj (ah m)) =
        (as ++ [fun m => conj (ah m)]) ++ rest.map fun ah m => conj (ah m) := by simp
    rw [happ]
    cases rest with
    | nil =>
      simp only [ismLoopD, List.map_nil, List.append_nil]
      have := hinv b
      rw [List.foldl_append, List.foldl_cons, List.foldl_nil] at this
      exact this
    | cons ah2 rest2 =>
      rw [ismLoopD]
      have := ih _ _ _ hinv (fun ah' rest' he => by
        simp only [List.cons.injEq] at he
        obtain ⟨rfl, rfl⟩ := he
        rfl)
      rw [List.foldl_append (f := reduceStep) (b := fun m => b m / (d m : ℂ)), List.foldl_cons,
        List.foldl_nil] at this
      exact this

/-- **C24.** `solvemdbi_ism` with a positive array `d` in place of `rho` returns the exact solution of
`(diag(d) + ∑ₖ aₖ aₖᴴ) x = b`, for any number `K ≥ 1` of blocks. -/
theorem C24_ism_array (ah0 : M → ℂ) (ahs : List (M → ℂ)) (d : M → ℝ) (hd : ∀ m, 0 < d m) (b : M → ℂ) :
    sumMatrixD (fun m => (d m : ℂ)) ((ah0 :: ahs).map fun ah m => conj (ah m)) *ᵥ
      solvemdbiIsmD ah0 ahs (fun m => (d m : ℂ)) b = b := by
  have := ismLoopD_eq d hd b (ah0 :: ahs) [] [] (fun m => conj (ah0 m) / (d m : ℂ)) (inv_nilD d hd)
    (fun ah rest he => by
      simp only [List.cons.injEq] at he
      obtain ⟨rfl, rfl⟩ := he
      rfl)
  rw [List.nil_append] at this
  exact this

/-- A concrete instance: two blocks in dimension two with different diagonal entries. -/
example : sumMatrixD (fun m => ((![1, 2] m : ℝ) : ℂ)) ([![1, Complex.I], ![0, 1]].map fun ah m => conj (ah m)) *ᵥ
    solvemdbiIsmD ![1, Complex.I] [![0, 1]] (fun m => ((![1, 2] m : ℝ) : ℂ)) ![1, 2] = ![1, 2] :=
  C24_ism_array _ _ ![1, 2] (fun m => by fin_cases m <;> simp) _

end Sporco.Linalg
