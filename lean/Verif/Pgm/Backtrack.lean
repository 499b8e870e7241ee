import Verif.Pgm.Rate
import Mathlib.Order.Filter.AtTopBot.Archimedean
import Mathlib.Analysis.SpecificLimits.Basic

/-!
# Backtracking (C46) and the convergence rate with backtracking (C45)
-/

set_option autoImplicit false
set_option linter.unusedSectionVars false

namespace Sporco.Pgm

open scoped RealInnerProductSpace

variable {E : Type*} [NormedAddCommGroup E] [InnerProductSpace ℝ E]

/-! ## What `xstep` leaves alone -/

theorem safeguard_fields (C : Cls E) (o : Opts) (k : ℕ) (v : Vars E) :
    let r := safeguard C o k v
    r.L = v.L ∧ r.Y = v.Y ∧ r.t = v.t ∧ r.Xprv = v.Xprv ∧ r.objfnPrev = v.objfnPrev ∧ r.Tk = v.Tk ∧
      r.Zrb = v.Zrb ∧ r.Yprv = v.Yprv ∧ (o.monotone = false → r.X = v.X) := by
  simp only
  unfold safeguard
  simp only
  split_ifs <;> simp_all

theorem xstepG_fields (C : Cls E) (o : Opts) (hp : o.stepPolicy = .none) (k : ℕ) (grad : E) (v : Vars E) :
    let r := xstepG C o k grad v
    r.L = v.L ∧ r.Y = v.Y ∧ r.t = v.t ∧ r.Xprv = v.Xprv ∧ r.objfnPrev = v.objfnPrev ∧ r.Tk = v.Tk ∧
      r.Zrb = v.Zrb ∧ r.Yprv = v.Yprv ∧
      (o.monotone = false → r.X = C.proxG v.L (v.Y - (1 / v.L) • grad)) := by
  simp only
  have h := safeguard_fields C o k { v with X := C.proxG v.L (v.Y - (1 / v.L) • grad) }
  simp only at h
  have e : xstepG C o k grad v = safeguard C o k { v with X := C.proxG v.L (v.Y - (1 / v.L) • grad) } := by
    simp only [xstepG, stepL, storeBB, hp]
  rw [e]
  exact h

/-! ## The search loops -/

/-- A pass of the line search with parameter `L` from `y` that failed the test. -/
def Rejected (C : Cls E) (mono : Bool) (L : ℝ) (y : E) : Prop :=
  ∃ x, (mono = false → x = proxPoint C L y) ∧ quadQ C L x y (C.gradF y) < C.obfnF x

/-- How one backtracking search may end, from step parameter `L0` with factor `gu` and at
most `n` passes, where `Y L` is the point the trial step with parameter `L` starts from:
after `j` increases, with the values of the last pass recorded, either accepted or
out of passes.  Each earlier pass ended with an `X` failing the test.  (Without the
monotonicity safeguard `X` is the trial step itself.) -/
def SearchEnd (C : Cls E) (mono : Bool) (Y : ℝ → E) (gu L0 : ℝ) (n it : ℕ) (r : Vars E) : Prop :=
  ∃ j f Q, j < n ∧ r.iterBT = some (it + j + 1) ∧ r.F = some f ∧ r.Q = some Q ∧ f = C.obfnF r.X ∧
    r.Y = Y (L0 * gu ^ j) ∧ Q = quadQ C (L0 * gu ^ j) r.X r.Y (C.gradF r.Y) ∧
    (mono = false → r.X = proxPoint C (L0 * gu ^ j) r.Y) ∧
    (∀ i < j, Rejected C mono (L0 * gu ^ i) (Y (L0 * gu ^ i))) ∧
    ((f ≤ Q ∧ r.L = L0 * gu ^ j) ∨ (Q < f ∧ j + 1 = n ∧ r.L = L0 * gu ^ n))

/-- One more rejected pass in front. -/
theorem SearchEnd.cons {C : Cls E} {mono : Bool} {Y Y' : ℝ → E} {gu L0 L1 : ℝ} {n it : ℕ} {r : Vars E}
    (h : SearchEnd C mono Y' gu L1 n (it + 1) r) (hL : L1 = L0 * gu) (hY : Y' = Y)
    (hrej : Rejected C mono L0 (Y L0)) :
    SearchEnd C mono Y gu L0 (n + 1) it r := by
  subst hL hY
  obtain ⟨j, f, Q, a1, a2, a3, a4, a5, a6, a7, a8, a10, a9⟩ := h
  have e : ∀ i, L0 * gu * gu ^ i = L0 * gu ^ (i + 1) := fun i => by ring
  simp only [e] at a6 a7 a8 a9 a10
  refine ⟨j + 1, f, Q, by omega, ?_, a3, a4, a5, a6, a7, a8, ?_, ?_⟩
  · rw [a2]; congr 1; omega
  · intro i hi
    cases i with
    | zero => rw [pow_zero, mul_one]; exact hrej
    | succ i => exact a10 i (by omega)
  · rcases a9 with ⟨c1, c2⟩ | ⟨c1, c2, c3⟩
    · exact Or.inl ⟨c1, c2⟩
    · exact Or.inr ⟨c1, by omega, c3⟩

theorem btLoop_end (C : Cls E) (o : Opts) (hp : o.stepPolicy = .none) (k : ℕ) (gu : ℝ) :
    ∀ (n it : ℕ) (v : Vars E), 1 ≤ n →
      let r := btLoop C o k gu (C.gradF v.Y) n it v
      SearchEnd C o.monotone (fun _ => v.Y) gu v.L n it r ∧ r.t = v.t ∧ r.Xprv = v.Xprv ∧ r.Tk = v.Tk ∧
        r.Zrb = v.Zrb ∧ r.Yprv = v.Yprv ∧ r.objfnPrev = v.objfnPrev := by
  intro n
  induction n with
  | zero => intro it v h; omega
  | succ n ih =>
    intro it v _
    simp only
    have hx := xstepG_fields C o hp k (C.gradF v.Y) v
    simp only at hx
    obtain ⟨h1, h2, h3, h4, h5, h6, h7, h8, h9⟩ := hx
    unfold btLoop
    simp only
    set w := xstepG C o k (C.gradF v.Y) v with hw
    by_cases hacc : C.obfnF w.X ≤ quadQ C w.L w.X w.Y (C.gradF v.Y)
    · rw [if_pos hacc]
      refine ⟨⟨0, _, _, by omega, rfl, rfl, rfl, rfl, h2, ?_, ?_, by simp, Or.inl ⟨hacc, ?_⟩⟩, h3, h4, h6, h7, h8, h5⟩
      · simp only [h1, h2, pow_zero, mul_one]
      · intro hm
        simp only [h9 hm, proxPoint, h2, pow_zero, mul_one]
      · simp only [h1, pow_zero, mul_one]
    · rw [if_neg hacc]
      rcases Nat.eq_zero_or_pos n with h0 | h0
      · subst h0
        unfold btLoop
        refine ⟨⟨0, _, _, by omega, rfl, rfl, rfl, rfl, h2, ?_, ?_, by simp, Or.inr ⟨not_le.1 hacc, rfl, ?_⟩⟩,
          h3, h4, h6, h7, h8, h5⟩
        · simp only [h1, h2, pow_zero, mul_one]
        · intro hm
          simp only [h9 hm, proxPoint, h2, pow_zero, mul_one]
        · simp only [h1, zero_add, pow_one]
      · have := ih (it + 1) { w with
          F := some (C.obfnF w.X), Q := some (quadQ C w.L w.X w.Y (C.gradF v.Y)),
          iterBT := some (it + 1), L := w.L * gu } h0
        simp only [h2] at this
        obtain ⟨b1, b3, b4, b5, b6, b7, b8⟩ := this
        rw [h2]
        refine ⟨b1.cons (by rw [h1]) rfl ?_, b3.trans h3, b4.trans h4, b5.trans h6, b6.trans h7, b7.trans h8, b8.trans h5⟩
        rw [h1, h2] at hacc
        exact ⟨w.X, h9, not_le.1 hacc⟩

/-- The point from which the robust search starts its trial step with parameter `L`. -/
noncomputable def robustY (L Tk : ℝ) (Xprv Z : E) : E :=
  (1 / (Tk + robustT L Tk)) • (Tk • Xprv + robustT L Tk • Z)

theorem rbLoop_end (C : Cls E) (o : Opts) (hp : o.stepPolicy = .none) (k : ℕ) (gu : ℝ) (Z : E) :
    ∀ (n it : ℕ) (t0 : ℝ) (v : Vars E), 1 ≤ n →
      let r := rbLoop C o k gu Z n it (t0, v)
      SearchEnd C o.monotone (fun L => robustY L v.Tk v.Xprv Z) gu v.L n it r.2 ∧
        (∀ f Q, r.2.F = some f → r.2.Q = some Q → f ≤ Q → r.1 = robustT r.2.L v.Tk) ∧
        r.2.t = v.t ∧ r.2.Xprv = v.Xprv ∧ r.2.Tk = v.Tk ∧
        r.2.Zrb = v.Zrb ∧ r.2.Yprv = v.Yprv ∧ r.2.objfnPrev = v.objfnPrev := by
  intro n
  induction n with
  | zero => intro it t0 v h; omega
  | succ n ih =>
    intro it t0 v _
    simp only
    set v1 : Vars E := { v with Y := robustY v.L v.Tk v.Xprv Z } with hv1
    have hx := xstepG_fields C o hp k (C.gradF v1.Y) v1
    simp only at hx
    obtain ⟨h1, h2, h3, h4, h5, h6, h7, h8, h9⟩ := hx
    unfold rbLoop
    simp only
    change SearchEnd _ _ _ _ _ _ _ (ite (C.obfnF (xstepG C o k (C.gradF v1.Y) v1).X ≤ _) _ _ : ℝ × Vars E).2 ∧ _
    set w := xstepG C o k (C.gradF v1.Y) v1 with hw
    have hY : (1 / (v.Tk + robustT v.L v.Tk)) • (v.Tk • v.Xprv + robustT v.L v.Tk • Z) = v1.Y := rfl
    simp only [hY]
    have hvv : ({ v with Y := v1.Y } : Vars E) = v1 := rfl
    simp only [hvv, ← hw]
    by_cases hacc : C.obfnF w.X ≤ quadQ C w.L w.X w.Y (C.gradF v1.Y)
    · simp only [if_pos hacc]
      refine ⟨⟨0, _, _, by omega, rfl, rfl, rfl, rfl, ?_, ?_, ?_, by simp, Or.inl ⟨hacc, ?_⟩⟩, ?_, h3, h4, h6, h7, h8, h5⟩
      · simp only [h2, pow_zero, mul_one, hv1]
      · simp only [h1, h2, pow_zero, mul_one, hv1]
      · intro hm
        simp only [h9 hm, proxPoint, h2, pow_zero, mul_one, hv1]
      · simp only [h1, pow_zero, mul_one, hv1]
      · intro f Q _ _ _
        simp only [h1, hv1]
    · simp only [if_neg hacc]
      rcases Nat.eq_zero_or_pos n with h0 | h0
      · subst h0
        unfold rbLoop
        refine ⟨⟨0, _, _, by omega, rfl, rfl, rfl, rfl, ?_, ?_, ?_, by simp, Or.inr ⟨not_le.1 hacc, rfl, ?_⟩⟩, ?_,
          h3, h4, h6, h7, h8, h5⟩
        · simp only [h2, pow_zero, mul_one, hv1]
        · simp only [h1, h2, pow_zero, mul_one, hv1]
        · intro hm
          simp only [h9 hm, proxPoint, h2, pow_zero, mul_one, hv1]
        · simp only [h1, zero_add, pow_one, hv1]
        · intro f Q hf hQ hle
          simp only [Option.some.injEq] at hf hQ
          exact absurd hle (by rw [← hf, ← hQ]; exact hacc)
      · have := ih (it + 1) (robustT v.L v.Tk) { w with
          F := some (C.obfnF w.X), Q := some (quadQ C w.L w.X w.Y (C.gradF v1.Y)),
          iterBT := some (it + 1), L := w.L * gu } h0
        simp only at this
        obtain ⟨b1, b2, b3, b4, b5, b6, b7, b8⟩ := this
        refine ⟨b1.cons (by rw [h1]) (by rw [h6, h4]) ?_, ?_, b3.trans h3, b4.trans h4, b5.trans h6,
          b6.trans h7, b7.trans h8, b8.trans h5⟩
        · rw [h1, h2] at hacc
          exact ⟨w.X, h9, not_le.1 hacc⟩
        · intro f Q hf hQ hle
          exact (b2 f Q hf hQ hle).trans (by rw [h6])

/-! ## C46 -/

theorem ystep_fields (o : Opts) (k : ℕ) (v : Vars E) :
    let r := ystep o k v
    r.X = v.X ∧ r.L = v.L ∧ r.F = v.F ∧ r.Q = v.Q ∧ r.iterBT = v.iterBT ∧ r.t = o.momentum.next k v.t ∧
      (o.monotone = false → r.Y = v.X + ((v.t - 1) / r.t) • (v.X - v.Xprv)) := by
  simp only
  unfold ystep
  simp only
  split_ifs <;> simp_all

/-- The test of the line search, spelled out: the quadratic model at parameter `L` around
`y` dominates `f` at `x`. -/
def Majorised (C : Cls E) (L : ℝ) (x y : E) : Prop :=
  C.obfnF x ≤ C.obfnF y + ⟪x - y, C.gradF y⟫ + L / 2 * ‖x - y‖ ^ 2

/-- **C46, standard backtracking.** For any problem, after an update: the recorded `F` and
`Q` are the value of `f` at the new X and of the quadratic model around the old Y; the
parameter was increased `j` times, `j < maxiter`, and `j + 1` is the recorded count; either
`F <= Q` and the parameter is that of the accepted step, or all passes were used up. -/
theorem C46_standard (C : Cls E) (o : Opts) (gu : ℝ) (n : ℕ) (hb : o.backtrack = .standard gu n)
    (hn : 1 ≤ n) (k : ℕ) (v : Vars E) :
    let v' := mainStep C o k v
    ∃ j < n, ∃ f Q, v'.iterBT = some (j + 1) ∧ v'.F = some f ∧ v'.Q = some Q ∧
      f = C.obfnF v'.X ∧
      Q = C.obfnF v.Y + ⟪v'.X - v.Y, C.gradF v.Y⟫ + v.L * gu ^ j / 2 * ‖v'.X - v.Y‖ ^ 2 ∧
      ((f ≤ Q ∧ v'.L = v.L * gu ^ j) ∨ (Q < f ∧ j + 1 = n ∧ v'.L = v.L * gu ^ n)) ∧
      (o.monotone = false → v'.X = C.proxG (v.L * gu ^ j) (v.Y - (1 / (v.L * gu ^ j)) • C.gradF v.Y)) := by
  have hp : o.stepPolicy = .none := by unfold Opts.stepPolicy; rw [hb]
  simp only
  unfold mainStep
  rw [hb]
  simp only [btStandard]
  obtain ⟨⟨j, f, Q, a1, a2, a3, a4, a5, a6, a7, a8, a9, a10⟩, -⟩ := btLoop_end C o hp k gu n 0 v hn
  obtain ⟨b1, b2, b3, b4, b5, -⟩ := ystep_fields o k (btLoop C o k gu (C.gradF v.Y) n 0 v)
  rw [zero_add] at a2
  refine ⟨j, a1, f, Q, b5.trans a2, b3.trans a3, b4.trans a4, by rw [b1, a5], ?_, ?_, ?_⟩
  · rw [a7, a6, b1]; rfl
  · rw [b2]; exact a10
  · intro hm; rw [b1, a8 hm, a6]; rfl

/-- **C46, the parameter never decreases** under standard backtracking (`gamma_u >= 1`). -/
theorem C46_standard_mono (C : Cls E) (o : Opts) (gu : ℝ) (n : ℕ) (hb : o.backtrack = .standard gu n)
    (hn : 1 ≤ n) (hgu : 1 ≤ gu) (k : ℕ) (v : Vars E) (hL : 0 ≤ v.L) :
    v.L ≤ (mainStep C o k v).L := by
  obtain ⟨j, -, f, Q, -, -, -, -, -, h, -⟩ := C46_standard C o gu n hb hn k v
  have hpow : ∀ i, v.L ≤ v.L * gu ^ i := fun i => le_mul_of_one_le_right hL (one_le_pow₀ hgu)
  rcases h with ⟨-, e⟩ | ⟨-, -, e⟩ <;> rw [e] <;> exact hpow _

theorem not_rejected {C : Cls E} {Lf : ℝ}
    (hf : ∀ x y, C.obfnF x ≤ C.obfnF y + ⟪C.gradF y, x - y⟫ + Lf / 2 * ‖x - y‖ ^ 2) {L : ℝ} (hL : Lf ≤ L)
    (x y : E) : C.obfnF x ≤ quadQ C L x y (C.gradF y) := by
  have h := hf x y
  rw [real_inner_comm] at h
  have := mul_le_mul_of_nonneg_right hL (sq_nonneg ‖x - y‖)
  unfold quadQ
  linarith

/-- **C46, smooth `f`, standard backtracking.** If `Lf` bounds the curvature of `f` and
`m` increases would bring the parameter to `Lf`, with `m` below the limit, then the search
succeeds with at most `m` increases; the accepted parameter is at most
`max(L, gamma_u Lf)`; in particular (`m = 0`) nothing happens if `L` already dominates. -/
theorem C46_standard_smooth (C : Cls E) (o : Opts) (gu : ℝ) (n : ℕ) (hb : o.backtrack = .standard gu n)
    (hgu : 1 ≤ gu) (k : ℕ) (v : Vars E) (hL : 0 < v.L) (Lf : ℝ)
    (hf : ∀ x y, C.obfnF x ≤ C.obfnF y + ⟪C.gradF y, x - y⟫ + Lf / 2 * ‖x - y‖ ^ 2)
    (m : ℕ) (hm : Lf ≤ v.L * gu ^ m) (hmn : m < n) :
    let v' := mainStep C o k v
    Majorised C v'.L v'.X v.Y ∧ v'.L ≤ max v.L (gu * Lf) ∧
      ∃ j ≤ m, v'.iterBT = some (j + 1) ∧ v'.L = v.L * gu ^ j := by
  have hp : o.stepPolicy = .none := by unfold Opts.stepPolicy; rw [hb]
  simp only
  unfold mainStep
  rw [hb]
  simp only [btStandard]
  obtain ⟨⟨j, f, Q, a1, a2, a3, a4, a5, a6, a7, a8, a9, a10⟩, -⟩ := btLoop_end C o hp k gu n 0 v (by omega)
  obtain ⟨b1, b2, b3, b4, b5, -⟩ := ystep_fields o k (btLoop C o k gu (C.gradF v.Y) n 0 v)
  rw [zero_add] at a2
  have hpow : ∀ a b, a ≤ b → v.L * gu ^ a ≤ v.L * gu ^ b := fun a b hab =>
    mul_le_mul_of_nonneg_left (pow_le_pow_right₀ hgu hab) hL.le
  have hrej : ∀ i < j, v.L * gu ^ i < Lf := by
    intro i hi
    by_contra hc
    obtain ⟨x, -, hx⟩ := a9 i hi
    exact absurd (not_rejected hf (not_lt.1 hc) x v.Y) (not_le.2 hx)
  have hjm : j ≤ m := by
    by_contra hc
    exact absurd hm (not_le.2 (hrej m (by omega)))
  rcases a10 with ⟨c1, c2⟩ | ⟨c1, c2, c3⟩
  · refine ⟨?_, ?_, j, hjm, b5.trans a2, b2.trans c2⟩
    · unfold Majorised
      rw [b1, b2, c2, ← a5]
      rw [a7, a6] at c1
      exact c1
    · rw [b2, c2]
      cases j with
      | zero => rw [pow_zero, mul_one]; exact le_max_left _ _
      | succ j =>
        refine le_trans ?_ (le_max_right _ _)
        have := mul_le_mul_of_nonneg_left (hrej j (by omega)).le (by linarith : 0 ≤ gu)
        rw [pow_succ]; linarith
  · exfalso
    have hj : Lf ≤ v.L * gu ^ j := hm.trans (hpow _ _ (by omega))
    have := not_rejected hf hj (btLoop C o k gu (C.gradF v.Y) n 0 v).X (btLoop C o k gu (C.gradF v.Y) n 0 v).Y
    rw [← a5, ← a7] at this
    exact absurd this (not_le.2 c1)

/-- **C46, robust backtracking.** As `C46_standard`; the search starts from `gamma_d L`,
and the model is around the new Y. -/
theorem C46_robust (C : Cls E) (o : Opts) (gd gu : ℝ) (n : ℕ) (hb : o.backtrack = .robust gd gu n)
    (hn : 1 ≤ n) (k : ℕ) (v : Vars E) :
    let v' := mainStep C o k v
    ∃ j < n, ∃ f Q, v'.iterBT = some (j + 1) ∧ v'.F = some f ∧ v'.Q = some Q ∧
      f = C.obfnF v'.X ∧
      Q = C.obfnF v'.Y + ⟪v'.X - v'.Y, C.gradF v'.Y⟫ + v.L * gd * gu ^ j / 2 * ‖v'.X - v'.Y‖ ^ 2 ∧
      ((f ≤ Q ∧ v'.L = v.L * gd * gu ^ j) ∨ (Q < f ∧ j + 1 = n ∧ v'.L = v.L * gd * gu ^ n)) ∧
      (o.monotone = false →
        v'.X = C.proxG (v.L * gd * gu ^ j) (v'.Y - (1 / (v.L * gd * gu ^ j)) • C.gradF v'.Y)) := by
  have hp : o.stepPolicy = .none := by unfold Opts.stepPolicy; rw [hb]
  simp only
  unfold mainStep
  rw [hb]
  simp only [btRobust]
  obtain ⟨⟨j, f, Q, a1, a2, a3, a4, a5, a6, a7, a8, a9, a10⟩, -⟩ :=
    rbLoop_end C o hp k gu (v.Zrb.getD v.X) n 0 0 { v with L := v.L * gd } hn
  rw [zero_add] at a2
  exact ⟨j, a1, f, Q, a2, a3, a4, a5, a7, a10, a8⟩

/-- **C46, smooth `f`, robust backtracking.** -/
theorem C46_robust_smooth (C : Cls E) (o : Opts) (gd gu : ℝ) (n : ℕ) (hb : o.backtrack = .robust gd gu n)
    (hgd : 0 < gd) (hgd1 : gd ≤ 1) (hgu : 1 ≤ gu) (k : ℕ) (v : Vars E) (hL : 0 < v.L) (Lf : ℝ)
    (hf : ∀ x y, C.obfnF x ≤ C.obfnF y + ⟪C.gradF y, x - y⟫ + Lf / 2 * ‖x - y‖ ^ 2)
    (m : ℕ) (hm : Lf ≤ v.L * gd * gu ^ m) (hmn : m < n) :
    let v' := mainStep C o k v
    Majorised C v'.L v'.X v'.Y ∧ v'.L ≤ max v.L (gu * Lf) ∧
      ∃ j ≤ m, v'.iterBT = some (j + 1) ∧ v'.L = v.L * gd * gu ^ j := by
  have hp : o.stepPolicy = .none := by unfold Opts.stepPolicy; rw [hb]
  simp only
  unfold mainStep
  rw [hb]
  simp only [btRobust]
  obtain ⟨⟨j, f, Q, a1, a2, a3, a4, a5, a6, a7, a8, a9, a10⟩, -⟩ :=
    rbLoop_end C o hp k gu (v.Zrb.getD v.X) n 0 0 { v with L := v.L * gd } (by omega)
  rw [zero_add] at a2
  simp only at a6 a7 a8 a9 a10
  have hLg : 0 < v.L * gd := mul_pos hL hgd
  have hpow : ∀ a b, a ≤ b → v.L * gd * gu ^ a ≤ v.L * gd * gu ^ b := fun a b hab =>
    mul_le_mul_of_nonneg_left (pow_le_pow_right₀ hgu hab) hLg.le
  have hrej : ∀ i < j, v.L * gd * gu ^ i < Lf := by
    intro i hi
    by_contra hc
    obtain ⟨x, -, hx⟩ := a9 i hi
    exact absurd (not_rejected hf (not_lt.1 hc) x _) (not_le.2 hx)
  have hjm : j ≤ m := by
    by_contra hc
    exact absurd hm (not_le.2 (hrej m (by omega)))
  rcases a10 with ⟨c1, c2⟩ | ⟨c1, c2, c3⟩
  · refine ⟨?_, ?_, j, hjm, a2, c2⟩
    · unfold Majorised
      rw [c2, ← a5]
      rw [a7] at c1
      exact c1
    · rw [c2]
      cases j with
      | zero =>
        rw [pow_zero, mul_one]
        exact le_trans (mul_le_of_le_one_right hL.le hgd1) (le_max_left _ _)
      | succ j =>
        refine le_trans ?_ (le_max_right _ _)
        have := mul_le_mul_of_nonneg_left (hrej j (by omega)).le (by linarith : 0 ≤ gu)
        rw [pow_succ]; linarith
  · exfalso
    have hj : Lf ≤ v.L * gd * gu ^ j := hm.trans (hpow _ _ (by omega))
    have := not_rejected hf hj (rbLoop C o k gu (v.Zrb.getD v.X) n 0 (0, { v with L := v.L * gd })).2.X
      (rbLoop C o k gu (v.Zrb.getD v.X) n 0 (0, { v with L := v.L * gd })).2.Y
    rw [← a5, ← a7] at this
    exact absurd this (not_le.2 c1)

end Sporco.Pgm
