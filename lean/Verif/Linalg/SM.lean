import Verif.Linalg.Model
import Mathlib.Analysis.Complex.Basic
import Mathlib.Algebra.BigOperators.Field
import Mathlib.Tactic.FieldSimp
import Mathlib.Tactic.LinearCombination
import Mathlib.Tactic.Linarith
import Mathlib.Tactic.Positivity

/-!
# Sherman–Morrison solvers (C23, C24)
-/

set_option linter.unusedSectionVars false

namespace Sporco.Linalg

open Matrix ComplexConjugate

variable {F M : Type*} [Fintype M] [DecidableEq M]

/-! ## Specification -/

/-- `x` solves `(diag(d) + a aᴴ) x = b`. -/
def SolvesRankOne (d a b x : M → ℂ) : Prop :=
  (diagonal d + vecMulVec a (star a)) *ᵥ x = b

/-- The matrix `ρ I + ∑ₖ aₖ aₖᴴ`. -/
def sumMatrix (rho : ℂ) (as : List (M → ℂ)) : Matrix M M ℂ :=
  rho • (1 : Matrix M M ℂ) + (as.map fun a => vecMulVec a (star a)).sum

/-! ## Rank one -/

theorem rankOne_apply (d a x : M → ℂ) (m : M) :
    ((diagonal d + vecMulVec a (star a)) *ᵥ x) m =
      d m * x m + a m * inner (fun n => conj (a n)) x := by
  rw [add_mulVec, Pi.add_apply, mulVec_diagonal, vecMulVec_mulVec]
  simp only [Pi.smul_apply, MulOpposite.smul_eq_mul_unop, MulOpposite.unop_op, inner, dotProduct,
    Pi.star_apply, RCLike.star_def]

theorem inner_conj_self_re (a : M → ℂ) :
    inner a (fun m => conj (a m)) = ((∑ m, ‖a m‖ ^ 2 : ℝ) : ℂ) := by
  unfold inner
  push_cast
  exact Finset.sum_congr rfl fun m _ => Complex.mul_conj' _

theorem sum_norm_nonneg (a : M → ℂ) : (0 : ℝ) ≤ ∑ m, ‖a m‖ ^ 2 :=
  Finset.sum_nonneg fun _ _ => by positivity

/-- **C23.** `solvedbi_sm(ah, rho, b)` solves `(ρ I + a aᴴ) x = b` with `a = conj(ah)`. -/
theorem C23_solvedbi (ah b : M → ℂ) (rho : ℝ) (hr : 0 < rho) :
    SolvesRankOne (fun _ => (rho : ℂ)) (fun m => conj (ah m)) b (solvedbiSm ah rho b none) := by
  funext m
  rw [rankOne_apply]
  set a := fun m => conj (ah m) with ha
  have hrc : (rho : ℂ) ≠ 0 := by exact_mod_cast hr.ne'
  set s := inner ah a with hs
  have hsr : s = ((∑ m, ‖ah m‖ ^ 2 : ℝ) : ℂ) := inner_conj_self_re ah
  have hden : s + rho ≠ 0 := by
    rw [hsr]
    have : (0 : ℝ) < (∑ m, ‖ah m‖ ^ 2) + rho := by have := sum_norm_nonneg ah; linarith
    exact_mod_cast this.ne'
  have hc : inner (solvedbiSmC ah a rho) b = inner ah b / (s + rho) := by
    change ∑ n, ah n / (s + rho) * b n = (∑ n, ah n * b n) / (s + rho)
    rw [Finset.sum_div]
    refine Finset.sum_congr rfl fun n _ => ?_
    ring
  have hx : solvedbiSm ah rho b none = fun m => (b m - a m * (inner ah b / (s + rho))) / rho := by
    funext m
    simp only [solvedbiSm, Option.getD_none]
    rw [hc]
  have hin : inner (fun n => conj (a n)) (solvedbiSm ah rho b none) =
      (inner ah b - s * (inner ah b / (s + rho))) / rho := by
    have h1 : (fun n => conj (a n)) = ah := by funext n; simp [ha]
    rw [h1, hx]
    generalize inner ah b / (s + rho) = q
    rw [hs]
    simp only [inner, Finset.sum_mul, ← Finset.sum_sub_distrib, Finset.sum_div]
    refine Finset.sum_congr rfl fun n _ => ?_
    ring
  rw [hin, hx]
  field_simp
  ring

/-- **C23.** `solvedbd_sm(ah, d, b)` solves `(diag(d) + a aᴴ) x = b` with `a = conj(ah)`. -/
theorem C23_solvedbd (ah b : M → ℂ) (d : M → ℝ) (hd : ∀ m, 0 < d m) :
    SolvesRankOne (fun m => (d m : ℂ)) (fun m => conj (ah m)) b
      (solvedbdSm ah (fun m => (d m : ℂ)) b none) := by
  funext m
  rw [rankOne_apply]
  set a := fun m => conj (ah m) with ha
  have hdc : ∀ m, (d m : ℂ) ≠ 0 := fun m => by exact_mod_cast (hd m).ne'
  set s := inner ah (fun n => a n / (d n : ℂ)) with hs
  have hsr : s = ((∑ m, ‖ah m‖ ^ 2 / d m : ℝ) : ℂ) := by
    rw [hs]; unfold inner; push_cast
    refine Finset.sum_congr rfl fun n _ => ?_
    rw [mul_div_assoc', ha, Complex.mul_conj']
  have hden : s + 1 ≠ 0 := by
    rw [hsr]
    have : (0 : ℝ) < (∑ m, ‖ah m‖ ^ 2 / d m) + 1 := by
      have : (0 : ℝ) ≤ ∑ m, ‖ah m‖ ^ 2 / d m :=
        Finset.sum_nonneg fun n _ => div_nonneg (by positivity) (hd n).le
      linarith
    exact_mod_cast this.ne'
  set t := inner ah (fun n => b n / (d n : ℂ)) with ht
  have hc : inner (solvedbdSmC ah a (fun m => (d m : ℂ))) b = t / (s + 1) := by
    change ∑ n, ah n / (d n : ℂ) / (s + 1) * b n = (∑ n, ah n * (b n / (d n : ℂ))) / (s + 1)
    rw [Finset.sum_div]
    refine Finset.sum_congr rfl fun n _ => ?_
    ring
  have hx : solvedbdSm ah (fun m => (d m : ℂ)) b none =
      fun m => (b m - a m * (t / (s + 1))) / (d m : ℂ) := by
    funext m
    simp only [solvedbdSm, Option.getD_none]
    rw [hc]
  have hin : inner (fun n => conj (a n)) (solvedbdSm ah (fun m => (d m : ℂ)) b none) =
      t - s * (t / (s + 1)) := by
    have h1 : (fun n => conj (a n)) = ah := by funext n; simp [ha]
    rw [h1, hx]
    generalize t / (s + 1) = q
    rw [ht, hs]
    simp only [inner, Finset.sum_mul, ← Finset.sum_sub_distrib]
    refine Finset.sum_congr rfl fun n _ => ?_
    have := hdc n
    field_simp
  rw [hin, hx]
  have := hdc m
  field_simp
  ring

/-- **C23.** Passing the component precomputed by `solvedbi_sm_c`/`solvedbd_sm_c` from
the same arguments changes nothing. -/
theorem C23_cached (ah b d : M → ℂ) (rho : ℂ) :
    solvedbiSm ah rho b (some (solvedbiSmC ah (fun m => conj (ah m)) rho)) =
      solvedbiSm ah rho b none ∧
    solvedbdSm ah d b (some (solvedbdSmC ah (fun m => conj (ah m)) d)) = solvedbdSm ah d b none :=
  ⟨rfl, rfl⟩

/-! ## Any rank -/

theorem sumMatrix_mulVec (rho : ℂ) (as : List (M → ℂ)) (x : M → ℂ) (m : M) :
    (sumMatrix rho as *ᵥ x) m =
      rho * x m + (as.map fun a => a m * inner (fun n => conj (a n)) x).sum := by
  unfold sumMatrix
  rw [add_mulVec, Pi.add_apply, smul_mulVec, one_mulVec, Pi.smul_apply, smul_eq_mul]
  congr 1
  induction as with
  | nil => simp
  | cons a as ih =>
    rw [List.map_cons, List.sum_cons, add_mulVec, Pi.add_apply, ih, List.map_cons, List.sum_cons,
      vecMulVec_mulVec]
    simp only [Pi.smul_apply, MulOpposite.smul_eq_mul_unop, MulOpposite.unop_op, inner, dotProduct,
      Pi.star_apply, RCLike.star_def]

theorem sumMatrix_append (rho : ℂ) (as : List (M → ℂ)) (a : M → ℂ) :
    sumMatrix rho (as ++ [a]) = sumMatrix rho as + vecMulVec a (star a) := by
  simp [sumMatrix, add_assoc]

/-- The quadratic form of `ρ I + ∑ aₖaₖᴴ` is real and non-negative. -/
theorem quad_form (rho : ℝ) (as : List (M → ℂ)) (y : M → ℂ) :
    ∃ q : ℝ, (rho : ℝ) * (∑ m, ‖y m‖ ^ 2) ≤ q ∧
      inner (fun m => conj (y m)) (sumMatrix rho as *ᵥ y) = (q : ℂ) := by
  induction as using List.reverseRecOn with
  | nil =>
    refine ⟨rho * ∑ m, ‖y m‖ ^ 2, le_rfl, ?_⟩
    unfold inner
    simp only [sumMatrix_mulVec]
    push_cast
    rw [Finset.mul_sum]
    refine Finset.sum_congr rfl fun m _ => ?_
    rw [← Complex.conj_mul']
    simp; ring
  | append_singleton as a ih =>
    obtain ⟨q, hq, he⟩ := ih
    set t := inner (fun n => conj (a n)) y with ht
    refine ⟨q + ‖t‖ ^ 2, by nlinarith [sq_nonneg ‖t‖], ?_⟩
    rw [sumMatrix_append]
    have h1 : inner (fun m => conj (y m)) ((sumMatrix rho as + vecMulVec a (star a)) *ᵥ y) =
        inner (fun m => conj (y m)) (sumMatrix rho as *ᵥ y) + conj t * t := by
      have h2 : conj t = inner (fun m => conj (y m)) a := by
        rw [ht]; unfold inner
        rw [map_sum]
        refine Finset.sum_congr rfl fun n _ => ?_
        simp [mul_comm]
      rw [h2]
      unfold inner
      rw [Finset.sum_mul, ← Finset.sum_add_distrib]
      refine Finset.sum_congr rfl fun m _ => ?_
      rw [add_mulVec, Pi.add_apply, vecMulVec_mulVec]
      simp only [Pi.smul_apply, MulOpposite.smul_eq_mul_unop, MulOpposite.unop_op]
      have h3 : star a ⬝ᵥ y = t := by
        simp [ht, inner, dotProduct]
      rw [h3]; ring
    rw [h1, he, Complex.conj_mul']
    push_cast; rfl

/-- For a right inverse `y = R a` of `ρ I + ∑ aₖaₖᴴ`, the Sherman–Morrison denominator
is a real number at least one. -/
theorem denom_real (rho : ℝ) (hr : 0 < rho) (as : List (M → ℂ)) (a y : M → ℂ)
    (h : sumMatrix rho as *ᵥ y = a) :
    ∃ q : ℝ, 1 ≤ q ∧ 1 + inner (fun n => conj (a n)) y = (q : ℂ) := by
  obtain ⟨q, hq, he⟩ := quad_form rho as y
  have hq0 : 0 ≤ q := le_trans (mul_nonneg hr.le (sum_norm_nonneg y)) hq
  refine ⟨1 + q, by linarith, ?_⟩
  rw [h] at he
  have h2 : inner (fun n => conj (a n)) y = conj (inner (fun m => conj (y m)) a) := by
    unfold inner
    rw [map_sum]
    refine Finset.sum_congr rfl fun n _ => ?_
    simp [mul_comm]
  rw [h2, he]
  push_cast
  rw [Complex.conj_ofReal]

/-- Sherman–Morrison step. -/
theorem sm_step (A : Matrix M M ℂ) (a y z b : M → ℂ) (hy : A *ᵥ y = a) (hz : A *ᵥ z = b)
    (hd : 1 + inner (fun n => conj (a n)) y ≠ 0) :
    (A + vecMulVec a (star a)) *ᵥ
      (fun m => z m - y m * inner (fun n => conj (a n)) z /
        (1 + inner (fun n => conj (a n)) y)) = b := by
  set ah := fun n => conj (a n) with hah
  set c := inner ah z / (1 + inner ah y) with hc
  have e : (fun m => z m - y m * inner ah z / (1 + inner ah y)) = z - c • y := by
    funext m; simp only [Pi.sub_apply, Pi.smul_apply, smul_eq_mul, hc]; ring
  rw [e, add_mulVec, mulVec_sub, mulVec_smul, hy, hz]
  funext m
  rw [Pi.add_apply, vecMulVec_mulVec]
  simp only [Pi.smul_apply, MulOpposite.smul_eq_mul_unop, MulOpposite.unop_op, Pi.sub_apply,
    smul_eq_mul]
  have h3 : star a ⬝ᵥ (z - c • y) = inner ah z - c * inner ah y := by
    simp only [dotProduct, inner, hah, Pi.star_apply, RCLike.star_def, Pi.sub_apply, Pi.smul_apply,
      smul_eq_mul, Finset.mul_sum, ← Finset.sum_sub_distrib]
    refine Finset.sum_congr rfl fun n _ => ?_
    ring
  rw [h3]
  have h4 : inner ah z - c * inner ah y = c := by
    rw [hc]; field_simp; ring
  rw [h4]; ring

/-- Invariant of the loop: the finished blocks, applied to `x/ρ`, solve the system
for the blocks processed so far. -/
def Inv (rho : ℝ) (as : List (M → ℂ)) (done : List ((M → ℂ) × (M → ℂ) × ℂ)) : Prop :=
  ∀ x : M → ℂ, sumMatrix rho as *ᵥ (done.foldl reduceStep fun m => x m / (rho : ℂ)) = x

theorem inv_nil (rho : ℝ) (hr : 0 < rho) : Inv rho ([] : List (M → ℂ)) [] := by
  intro x
  have hrc : (rho : ℂ) ≠ 0 := by exact_mod_cast hr.ne'
  funext m
  rw [sumMatrix_mulVec]
  simp only [List.foldl_nil, List.map_nil, List.sum_nil, add_zero]
  field_simp

theorem inv_step (rho : ℝ) (hr : 0 < rho) (as : List (M → ℂ))
    (done : List ((M → ℂ) × (M → ℂ) × ℂ)) (h : Inv rho as done) (ah : M → ℂ) :
    let gamma := done.foldl reduceStep fun m => conj (ah m) / (rho : ℂ)
    let delta := 1 + inner ah gamma
    Inv rho (as ++ [fun m => conj (ah m)]) (done ++ [(ah, gamma, delta)]) ∧
      ∃ q : ℝ, 1 ≤ q ∧ delta = (q : ℂ) := by
  intro gamma delta
  have hg : sumMatrix rho as *ᵥ gamma = fun m => conj (ah m) := h _
  have hah : (fun n => conj ((fun m => conj (ah m)) n)) = ah := by funext n; simp
  have hq := denom_real rho hr as _ gamma hg
  rw [hah] at hq
  refine ⟨fun x => ?_, hq⟩
  obtain ⟨q, hq1, hq2⟩ := hq
  rw [List.foldl_append, List.foldl_cons, List.foldl_nil, sumMatrix_append]
  have hd : 1 + inner (fun n => conj ((fun m => conj (ah m)) n)) gamma ≠ 0 := by
    rw [hah, hq2]
    have : (0 : ℝ) < q := by linarith
    exact_mod_cast this.ne'
  have := sm_step (sumMatrix rho as) (fun m => conj (ah m)) gamma
    (done.foldl reduceStep fun m => x m / (rho : ℂ)) x hg (h x) hd
  rw [hah] at this
  exact this

theorem ismLoop_eq (rho : ℝ) (hr : 0 < rho) (b : M → ℂ) :
    ∀ (todo : List (M → ℂ)) (as : List (M → ℂ)) (done : List ((M → ℂ) × (M → ℂ) × ℂ))
      (alpha : M → ℂ), Inv rho as done →
      (∀ ah rest, todo = ah :: rest → alpha = done.foldl reduceStep fun m => conj (ah m) / (rho : ℂ)) →
      sumMatrix rho (as ++ todo.map fun ah m => conj (ah m)) *ᵥ
        ismLoop rho alpha (done.foldl reduceStep fun m => b m / (rho : ℂ)) done todo = b := by
  intro todo
  induction todo with
  | nil => intro as done alpha h _; simp only [List.map_nil, List.append_nil, ismLoop]; exact h b
  | cons ah rest ih =>
    intro as done alpha h ha
    have hal := ha ah rest rfl
    subst hal
    obtain ⟨hinv, -⟩ := inv_step rho hr as done h ah
    have happ : as ++ (ah :: rest).map (fun ah m => conj (ah m)) =
        (as ++ [fun m => conj (ah m)]) ++ rest.map fun ah m => conj (ah m) := by simp
    rw [happ]
    cases rest with
    | nil =>
      simp only [ismLoop, List.map_nil, List.append_nil]
      have := hinv b
      rw [List.foldl_append, List.foldl_cons, List.foldl_nil] at this
      exact this
    | cons ah2 rest2 =>
      rw [ismLoop]
      have := ih _ _ _ hinv (fun ah' rest' he => by
        simp only [List.cons.injEq] at he
        obtain ⟨rfl, rfl⟩ := he
        rfl)
      rw [List.foldl_append (f := reduceStep) (b := fun m => b m / (rho : ℂ)), List.foldl_cons,
        List.foldl_nil] at this
      exact this

/-- **C24.** `solvemdbi_ism` returns the exact solution of
`(ρ I + ∑ₖ aₖ aₖᴴ) x = b` with `aₖ = conj(ahₖ)`, for any number `K ≥ 1` of blocks. -/
theorem C24_ism (ah0 : M → ℂ) (ahs : List (M → ℂ)) (rho : ℝ) (hr : 0 < rho) (b : M → ℂ) :
    sumMatrix rho ((ah0 :: ahs).map fun ah m => conj (ah m)) *ᵥ solvemdbiIsm ah0 ahs rho b = b := by
  have := ismLoop_eq rho hr b (ah0 :: ahs) [] [] (fun m => conj (ah0 m) / (rho : ℂ)) (inv_nil rho hr)
    (fun ah rest he => by
      simp only [List.cons.injEq] at he
      obtain ⟨rfl, rfl⟩ := he
      rfl)
  rw [List.nil_append] at this
  exact this

/-- The divisors `delta` used by `solvemdbi_ism`, in order. -/
noncomputable def ismDeltas (rho : ℂ) :
    (done : List ((M → ℂ) × (M → ℂ) × ℂ)) → List (M → ℂ) → List ℂ
  | _, [] => []
  | done, ah :: rest =>
    let gamma := done.foldl reduceStep fun m => conj (ah m) / rho
    let delta := 1 + inner ah gamma
    delta :: ismDeltas rho (done ++ [(ah, gamma, delta)]) rest

theorem ismDeltas_pos (rho : ℝ) (hr : 0 < rho) : ∀ (todo as : List (M → ℂ))
    (done : List ((M → ℂ) × (M → ℂ) × ℂ)), Inv rho as done →
    ∀ δ ∈ ismDeltas (rho : ℂ) done todo, ∃ q : ℝ, 1 ≤ q ∧ δ = (q : ℂ) := by
  intro todo
  induction todo with
  | nil => intro as done _ δ hδ; simp [ismDeltas] at hδ
  | cons ah rest ih =>
    intro as done h δ hδ
    obtain ⟨hinv, hq⟩ := inv_step rho hr as done h ah
    simp only [ismDeltas, List.mem_cons] at hδ
    rcases hδ with rfl | hδ
    · exact hq
    · exact ih _ _ hinv δ hδ

/-- **C24.** All divisors are real and at least one, so nothing is divided by zero. -/
theorem C24_ism_denominators (ahs : List (M → ℂ)) (rho : ℝ) (hr : 0 < rho) :
    ∀ δ ∈ ismDeltas (rho : ℂ) [] ahs, ∃ q : ℝ, 1 ≤ q ∧ δ = (q : ℂ) :=
  ismDeltas_pos rho hr ahs [] [] (inv_nil rho hr)

theorem rsmStep_apply (Ainv : Matrix M M ℂ) (ah z : M → ℂ) (m : M) :
    (rsmStep Ainv ah *ᵥ z) m = (Ainv *ᵥ z) m -
      (Ainv *ᵥ fun n => conj (ah n)) m * inner ah (Ainv *ᵥ z) /
        (1 + inner ah (Ainv *ᵥ fun n => conj (ah n))) := by
  have e1 : (fun m => ∑ n, Ainv m n * conj (ah n)) = Ainv *ᵥ fun n => conj (ah n) := by
    funext m; rfl
  have e2 : (∑ m, ah m * (∑ n, Ainv m n * conj (ah n))) =
      inner ah (Ainv *ᵥ fun n => conj (ah n)) := rfl
  set y := Ainv *ᵥ fun n => conj (ah n) with hy
  set D := 1 + inner ah y with hD
  have h1 : (rsmStep Ainv ah *ᵥ z) m =
      ∑ n, (Ainv m n - y m * (∑ k, ah k * Ainv k n) / D) * z n := rfl
  have h2 : (Ainv *ᵥ z) m = ∑ n, Ainv m n * z n := rfl
  have h3 : inner ah (Ainv *ᵥ z) = ∑ n, (∑ k, ah k * Ainv k n) * z n := by
    unfold inner
    simp only [mulVec, dotProduct, Finset.mul_sum, Finset.sum_mul]
    rw [Finset.sum_comm]
    refine Finset.sum_congr rfl fun n _ => Finset.sum_congr rfl fun k _ => ?_
    ring
  rw [h1, h2, h3, Finset.mul_sum, Finset.sum_div, ← Finset.sum_sub_distrib]
  refine Finset.sum_congr rfl fun n _ => ?_
  ring

theorem rsm_fold (rho : ℝ) (hr : 0 < rho) : ∀ (todo as : List (M → ℂ)) (R : Matrix M M ℂ),
    (∀ x, sumMatrix rho as *ᵥ (R *ᵥ x) = x) →
    ∀ x, sumMatrix rho (as ++ todo.map fun ah m => conj (ah m)) *ᵥ (todo.foldl rsmStep R *ᵥ x) = x := by
  intro todo
  induction todo with
  | nil => intro as R h x; simpa using h x
  | cons ah rest ih =>
    intro as R h x
    have happ : as ++ (ah :: rest).map (fun ah m => conj (ah m)) =
        (as ++ [fun m => conj (ah m)]) ++ rest.map fun ah m => conj (ah m) := by simp
    rw [happ, List.foldl_cons]
    refine ih _ _ (fun z => ?_) x
    have hah : (fun n => conj ((fun m => conj (ah m)) n)) = ah := by funext n; simp
    have hg := h fun m => conj (ah m)
    obtain ⟨q, hq1, hq2⟩ := denom_real rho hr as _ _ hg
    have hd : 1 + inner (fun n => conj ((fun m => conj (ah m)) n))
        (R *ᵥ fun m => conj (ah m)) ≠ 0 := by
      rw [hq2]
      have : (0 : ℝ) < q := by linarith
      exact_mod_cast this.ne'
    have := sm_step (sumMatrix rho as) (fun m => conj (ah m)) _ (R *ᵥ z) z hg (h z) hd
    rw [sumMatrix_append]
    rw [hah] at this
    have e : rsmStep R ah *ᵥ z = fun m => (R *ᵥ z) m -
        (R *ᵥ fun n => conj (ah n)) m * inner ah (R *ᵥ z) /
        (1 + inner ah (R *ᵥ fun n => conj (ah n))) := by
      funext m; exact rsmStep_apply R ah z m
    rw [e]; exact this

/-- **C24.** `solvemdbi_rsm` returns the exact solution of the same system, for any
number of blocks. -/
theorem C24_rsm (ahs : List (M → ℂ)) (rho : ℝ) (hr : 0 < rho) (b : M → ℂ) :
    sumMatrix rho (ahs.map fun ah m => conj (ah m)) *ᵥ solvemdbiRsm ahs rho b = b := by
  have hrc : (rho : ℂ) ≠ 0 := by exact_mod_cast hr.ne'
  have h0 : ∀ x : M → ℂ, sumMatrix rho ([] : List (M → ℂ)) *ᵥ
      ((Matrix.of fun m n => (if m = n then 1 else 0) / (rho : ℂ)) *ᵥ x) = x := by
    intro x
    funext m
    rw [sumMatrix_mulVec]
    simp only [mulVec, dotProduct, of_apply, List.map_nil, List.sum_nil, add_zero, ite_div,
      zero_div, ite_mul, zero_mul, Finset.sum_ite_eq, Finset.mem_univ, if_true]
    field_simp
  have := rsm_fold rho hr ahs [] _ h0 b
  rw [List.nil_append] at this
  exact this

/-- **C24.** The operator handed to conjugate gradient by `solvemdbi_cg` is the matrix
of the same system, so whatever `x` it maps to `b` is the exact solution. -/
theorem C24_cg_operator (ahs : List (M → ℂ)) (rho : ℂ) (x : M → ℂ) :
    cgOp ahs rho x = sumMatrix rho (ahs.map fun ah m => conj (ah m)) *ᵥ x := by
  funext m
  rw [sumMatrix_mulVec, cgOp, add_comm, List.map_map]
  congr 3
  funext ah
  simp

/-- **C23/C24.** The solution of the system is unique. -/
theorem C24_unique (as : List (M → ℂ)) (rho : ℝ) (hr : 0 < rho) (x y : M → ℂ)
    (h : sumMatrix rho as *ᵥ x = sumMatrix rho as *ᵥ y) : x = y := by
  have h0 : sumMatrix rho as *ᵥ (x - y) = 0 := by rw [mulVec_sub, h, sub_self]
  obtain ⟨q, hq, he⟩ := quad_form rho as (x - y)
  rw [h0] at he
  have hq0 : q = 0 := by
    have : inner (fun m => conj ((x - y) m)) (0 : M → ℂ) = 0 := by simp [inner]
    rw [this] at he
    exact_mod_cast he.symm
  rw [hq0] at hq
  have h1 : ∑ m, ‖(x - y) m‖ ^ 2 = 0 := by
    have := sum_norm_nonneg (x - y)
    nlinarith
  funext m
  have h2 := (Finset.sum_eq_zero_iff_of_nonneg (fun m _ => by positivity)).1 h1 m
    (Finset.mem_univ _)
  have h3 : (x - y) m = 0 := by simpa using h2
  exact sub_eq_zero.1 h3

theorem C23_unique (a x y : M → ℂ) (rho : ℝ) (hr : 0 < rho) (b : M → ℂ)
    (hx : SolvesRankOne (fun _ => (rho : ℂ)) a b x)
    (hy : SolvesRankOne (fun _ => (rho : ℂ)) a b y) : x = y := by
  refine C24_unique [a] rho hr x y ?_
  have e : sumMatrix (rho : ℂ) [a] = diagonal (fun _ => (rho : ℂ)) + vecMulVec a (star a) := by
    simp [sumMatrix, smul_one_eq_diagonal]
  rw [e]
  exact hx.trans hy.symm

/-- A concrete instance: two blocks in dimension two. -/
example : sumMatrix ((2 : ℝ) : ℂ) ([![1, Complex.I], ![0, 1]].map fun ah m => conj (ah m)) *ᵥ
    solvemdbiIsm ![1, Complex.I] [![0, 1]] ((2 : ℝ) : ℂ) ![1, 2] = ![1, 2] :=
  C24_ism _ _ 2 (by norm_num) _

end Sporco.Linalg
