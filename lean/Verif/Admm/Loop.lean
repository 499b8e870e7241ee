import Verif.Admm.Model
import Mathlib.Logic.Function.Iterate

/-!
# Iteration accounting of `ADMM.solve` (C35)
-/

set_option linter.unusedSectionVars false

namespace Sporco.Admm

variable {E F G H : Type*} [AddCommGroup G] [Module ℝ G]

/-! ## Specification -/

/-- One iteration of the algorithm: the loop body at the current count, then the count
goes up by one.  Says nothing about loops, limits or stopping. -/
noncomputable def oneIter (C : Cls E F G H) (o : Opts) (cb : Option (St E F G H → Bool × H))
    (s : St E F G H) : St E F G H :=
  { (body C o cb s.k s).1 with k := s.k + 1 }

/-- The trajectory from `s`: the state after `n` iterations. -/
noncomputable def traj (C : Cls E F G H) (o : Opts) (cb : Option (St E F G H → Bool × H))
    (s : St E F G H) (n : ℕ) : St E F G H := (oneIter C o cb)^[n] s

/-- The iteration starting in `s` ends with a stop request. -/
def StopsAfter (C : Cls E F G H) (o : Opts) (cb : Option (St E F G H → Bool × H))
    (s : St E F G H) : Prop := (body C o cb s.k s).2 = true

/-- The recorded residuals are both below their thresholds. -/
def Rsdl.below (q : Rsdl) : Prop := q.r < q.epri ∧ q.s < q.edua

/-! ## Proofs -/

theorem body_k (C : Cls E F G H) (o : Opts) (cb) (k j : ℕ) (s : St E F G H) :
    body C o cb k { s with k := j } = body C o cb k s := rfl

theorem updateRho_k (C : Cls E F G H) (o : Opts) (k : ℕ) (r s : ℝ) (st : St E F G H) :
    (updateRho C o k r s st).k = st.k := by
  unfold updateRho
  split_ifs
  · simp only
    split_ifs <;> rfl
  · rfl

theorem updateRho_itstat (C : Cls E F G H) (o : Opts) (k : ℕ) (r s : ℝ) (st : St E F G H) :
    (updateRho C o k r s st).itstat = st.itstat := by
  unfold updateRho
  split_ifs
  · simp only
    split_ifs <;> rfl
  · rfl

theorem body_fst_k (C : Cls E F G H) (o : Opts) (cb) (k : ℕ) (s : St E F G H) :
    (body C o cb k s).1.k = k := by
  unfold body
  simp only
  split_ifs
  all_goals first | rfl | (rw [updateRho_k]; rfl) | skip
  all_goals simp [steps]

/-- The statistics entry appended by one pass. -/
noncomputable def statOf (C : Cls E F G H) (o : Opts) (k : ℕ) (s : St E F G H) : Stat :=
  let s := steps C o { s with k := k }
  ⟨k, C.objfn s.X s.Y s.extra, computeResiduals C o s, s.rho⟩

theorem body_itstat (C : Cls E F G H) (o : Opts) (cb) (k : ℕ) (s : St E F G H) :
    (body C o cb k s).1.itstat =
      s.itstat ++ (if o.fastSolve then [] else [statOf C o k s]) := by
  unfold body
  simp only
  split_ifs
  all_goals simp [updateRho_itstat, steps, statOf]

theorem body_stop (C : Cls E F G H) (o : Opts) (k : ℕ) (s : St E F G H) :
    (body C o none k s).2 = true ↔ o.withRsdl = true ∧ (statOf C o k s).rsdl.below := by
  have h : ∀ t : St E F G H, computeResiduals C o (if o.fastSolve then t else
    { t with itstat := t.itstat ++ [⟨k, C.objfn t.X t.Y t.extra, computeResiduals C o t, t.rho⟩] })
    = computeResiduals C o t := by
    intro t; split_ifs <;> rfl
  unfold body Rsdl.below statOf
  simp

theorem traj_zero (C : Cls E F G H) (o : Opts) (cb) (s : St E F G H) : traj C o cb s 0 = s := rfl

theorem traj_succ (C : Cls E F G H) (o : Opts) (cb) (s : St E F G H) (n : ℕ) :
    traj C o cb s (n + 1) = oneIter C o cb (traj C o cb s n) :=
  Function.iterate_succ_apply' _ _ _

theorem traj_succ' (C : Cls E F G H) (o : Opts) (cb) (s : St E F G H) (n : ℕ) :
    traj C o cb s (n + 1) = traj C o cb (oneIter C o cb s) n :=
  Function.iterate_succ_apply _ _ _

theorem traj_add (C : Cls E F G H) (o : Opts) (cb) (s : St E F G H) (m n : ℕ) :
    traj C o cb s (m + n) = traj C o cb (traj C o cb s m) n := by
  unfold traj; rw [Nat.add_comm, Function.iterate_add_apply]

theorem traj_k (C : Cls E F G H) (o : Opts) (cb) (s : St E F G H) (n : ℕ) :
    (traj C o cb s n).k = s.k + n := by
  induction n with
  | zero => rfl
  | succ n ih => rw [traj_succ]; change (traj C o cb s n).k + 1 = _; rw [ih]; rfl

theorem traj_itstat (C : Cls E F G H) (o : Opts) (cb) (s : St E F G H) (n : ℕ) :
    (traj C o cb s n).itstat = s.itstat ++
      (if o.fastSolve then [] else (List.range n).map fun j => statOf C o (s.k + j) (traj C o cb s j)) := by
  induction n with
  | zero => simp [traj_zero]
  | succ n ih =>
    rw [traj_succ]
    change (body C o cb (traj C o cb s n).k (traj C o cb s n)).1.itstat = _
    rw [body_itstat, ih, traj_k]
    split_ifs with h
    · simp
    · rw [List.append_assoc, List.range_succ, List.map_append]; rfl

/-- What the loop does, for any start of the counter. -/
theorem loop_traj (C : Cls E F G H) (o : Opts) (cb) : ∀ (n : ℕ) (s : St E F G H),
    ∃ m, m ≤ n ∧ (0 < n → 0 < m) ∧
      ({ loop C o cb (List.range' s.k n) s with
          k := (loop C o cb (List.range' s.k n) s).k + (if n = 0 then 0 else 1) } : St E F G H) =
        traj C o cb s m ∧
      (∀ j, j + 1 < m → ¬ StopsAfter C o cb (traj C o cb s j)) ∧
      (m < n → StopsAfter C o cb (traj C o cb s (m - 1))) := by
  intro n
  induction n with
  | zero => intro s; exact ⟨0, le_rfl, by simp, by simp [loop, traj_zero], by simp, by simp⟩
  | succ n ih =>
    intro s
    rw [List.range'_succ, loop]
    by_cases hb : (body C o cb s.k s).2 = true
    · refine ⟨1, by omega, by simp, ?_, by omega, fun _ => hb⟩
      simp only [hb, if_true, Nat.succ_ne_zero, if_false]
      rw [traj_succ, traj_zero]
      unfold oneIter
      rw [body_fst_k]
    · simp only [hb, if_false, Nat.succ_ne_zero]
      rcases Nat.eq_zero_or_pos n with h0 | h0
      · subst h0
        refine ⟨1, by omega, by simp, ?_, by omega, by omega⟩
        simp only [List.range'_zero, loop]
        rw [traj_succ, traj_zero]
        unfold oneIter
        simp only [Bool.false_eq_true, if_false]
        rw [body_fst_k]
      · obtain ⟨m, h1, h2, h3, h4, h5⟩ := ih (oneIter C o cb s)
        have hn : n ≠ 0 := by omega
        have e : loop C o cb (List.range' (s.k + 1) n) (body C o cb s.k s).1 =
            loop C o cb (List.range' (oneIter C o cb s).k n) (oneIter C o cb s) := by
          change _ = loop C o cb (List.range' (s.k + 1) n) (oneIter C o cb s)
          obtain ⟨n', rfl⟩ : ∃ n', n = n' + 1 := ⟨n - 1, by omega⟩
          rw [List.range'_succ, loop, loop]
          rfl
        refine ⟨m + 1, by omega, by omega, ?_, ?_, ?_⟩
        · rw [traj_succ', ← h3]
          simp only [hn, if_false] at h3 ⊢
          simp only [Bool.false_eq_true, if_false]
          rw [e]
        · intro j hj
          cases j with
          | zero => exact hb
          | succ j => rw [traj_succ']; exact h4 j (by omega)
        · intro hm
          have := h5 (by omega)
          have e2 : m + 1 - 1 = (m - 1) + 1 := by have := h2 h0; omega
          rw [e2, traj_succ']; exact this

/-! ## C35 -/

/-- **C35.** `solve()` with `MaxMainIter >= 1` runs exactly `n` iterations of the
trajectory with `1 ≤ n ≤ MaxMainIter`, where `n` is the first iteration that requests a
stop if there is one within the limit. -/
theorem C35_solve_partial (C : Cls E F G H) (o : Opts) (cb) (s : St E F G H)
    (hmax : 1 ≤ o.maxMainIter) :
    ∃ n, 1 ≤ n ∧ n ≤ o.maxMainIter ∧ solve C o cb s = traj C o cb s n ∧
      (solve C o cb s).k = s.k + n ∧
      (∀ j, j + 1 < n → ¬ StopsAfter C o cb (traj C o cb s j)) ∧
      (n < o.maxMainIter → StopsAfter C o cb (traj C o cb s (n - 1))) := by
  obtain ⟨m, h1, h2, h3, h4, h5⟩ := loop_traj C o cb o.maxMainIter s
  have hm := h2 hmax
  have h0 : o.maxMainIter ≠ 0 := by omega
  simp only [h0, if_false] at h3
  have e : solve C o cb s = traj C o cb s m := h3
  exact ⟨m, hm, h1, e, by rw [e, traj_k], h4, h5⟩

/-- The state the callback is shown in the iteration starting in `s`: everything of the
iteration is done, including the recorded statistics and the adaptation of rho. -/
noncomputable def atCallback (C : Cls E F G H) (o : Opts) (s : St E F G H) : St E F G H :=
  (body C o none s.k s).1

/-- **C35, what a stop request is.** The iteration stops exactly if the callback returns
true, or residuals are computed (`AutoRho` enabled or not `FastSolve`) and both are below
their thresholds. -/
theorem C35_stop_condition (C : Cls E F G H) (o : Opts) (cb) (s : St E F G H) :
    StopsAfter C o cb s ↔
      (∃ f, cb = some f ∧ (f (atCallback C o s)).1 = true) ∨
      ((o.autoRho = true ∨ o.fastSolve = false) ∧ (statOf C o s.k s).rsdl.below) := by
  have hw : o.withRsdl = true ↔ (o.autoRho = true ∨ o.fastSolve = false) := by
    unfold Opts.withRsdl; cases o.autoRho <;> cases o.fastSolve <;> simp
  rw [← hw]
  cases cb with
  | none => unfold StopsAfter; rw [body_stop]; simp
  | some f =>
    have e2 : (body C o (some f) s.k s).2 =
      ((f (atCallback C o s)).1 || (body C o none s.k s).2) := rfl
    unfold StopsAfter
    rw [e2, Bool.or_eq_true, body_stop]
    simp

/-- **C35, the thresholds.** With `StdResiduals` the recorded residuals and thresholds are
those of the constraint `A x + B y = c`; without it all four are divided by the
normalisation factors.  In both cases the residuals are below their thresholds exactly if
the standard test holds (a zero normalisation factor counts as one when normalising). -/
theorem C35_stopping_test {E F G H : Type*} [NormedAddCommGroup G] [NormedSpace ℝ G]
    [NormedAddCommGroup E] [NormedSpace ℝ E] [AddCommGroup F] (A : E → G) (AT : G → E) (B : F → G)
    (c : G) (xstep) (ystep) (rhochange) (objfn) (o : Opts) (s : St E F G H) (hrho : 0 < s.rho) :
    let q := computeResiduals (Cls.generic A AT B c xstep ystep rhochange objfn) o s
    let r := ‖s.AXnr + B s.Y - c‖
    let d := ‖s.rho • AT (B (s.Y - s.Yprev))‖
    let rn := max (max ‖s.AXnr‖ ‖B s.Y‖) ‖c‖
    let dn := s.rho * ‖AT s.U‖
    let one (a : ℝ) := if o.stdResiduals = false ∧ a = 0 then 1 else a
    (q.below ↔ r < Real.sqrt o.Nc * o.absStopTol + one rn * o.relStopTol ∧
      d < Real.sqrt o.Nx * o.absStopTol + one dn * o.relStopTol) ∧
    (o.stdResiduals = true → q.r = r ∧ q.s = d) ∧
    (o.stdResiduals = false → q.r = r / one rn ∧ q.s = d / one dn) := by
  intro q r d rn dn one
  have hrn : 0 ≤ rn := (norm_nonneg c).trans (le_max_right _ _)
  have hdn : 0 ≤ dn := mul_nonneg hrho.le (norm_nonneg _)
  have key : ∀ a v x y : ℝ, 0 < a → (v / a < x / a + y ↔ v < x + a * y) := by
    intro a v x y ha
    rw [div_lt_iff₀ ha, add_mul, div_mul_cancel₀ _ ha.ne', mul_comm y]
  cases hs : o.stdResiduals with
  | true =>
    have h1 : one = fun a => a := by funext a; simp [one, hs]
    refine ⟨?_, fun _ => ?_, fun h => by cases h⟩
    · simp only [q, computeResiduals, hs, h1, if_true]; exact Iff.rfl
    · simp only [q, computeResiduals, hs, if_true]; exact ⟨rfl, rfl⟩
  | false =>
    have h1 : one = fun a => if a = 0 then 1 else a := by funext a; simp [one, hs]
    have hp : ∀ a : ℝ, 0 ≤ a → 0 < one a := by
      intro a ha
      simp only [h1]
      split_ifs with h
      · exact one_pos
      · exact lt_of_le_of_ne ha (Ne.symm h)
    refine ⟨?_, (fun h => by cases h), fun _ => ?_⟩
    · rw [← key _ r _ _ (hp rn hrn), ← key _ d _ _ (hp dn hdn)]
      simp only [q, computeResiduals, hs, h1, Rsdl.below, Bool.false_eq_true, if_false]
      exact Iff.rfl
    · simp only [q, computeResiduals, hs, h1, Bool.false_eq_true, if_false]
      exact ⟨rfl, rfl⟩

/-- **C35, statistics.** Unless `FastSolve` is set, exactly one entry is recorded per
iteration, numbered consecutively from the iteration count at the call; the entry for
iteration `j` holds the residuals and objective of that iteration. Earlier entries stay. -/
theorem C35_stats_partial (C : Cls E F G H) (o : Opts) (cb) (s : St E F G H)
    (hmax : 1 ≤ o.maxMainIter) (hf : o.fastSolve = false) :
    ∃ new : List Stat, (solve C o cb s).itstat = s.itstat ++ new ∧
      s.k + new.length = (solve C o cb s).k ∧ new.map Stat.iter = List.range' s.k new.length ∧
      1 ≤ new.length ∧ new.length ≤ o.maxMainIter ∧
      (cb = none → (∀ q ∈ new.dropLast, ¬ q.rsdl.below) ∧
        (new.length < o.maxMainIter → ∃ q ∈ new.getLast?, q.rsdl.below)) := by
  obtain ⟨n, h1, h2, h3, h4, h5, h6⟩ := C35_solve_partial C o cb s hmax
  refine ⟨(List.range n).map fun j => statOf C o (s.k + j) (traj C o cb s j), ?_, ?_, ?_, ?_, ?_, ?_⟩
  · rw [h3, traj_itstat, if_neg (by simp [hf])]
  · rw [h4]; simp
  · rw [List.map_map, List.length_map, List.length_range, List.range'_eq_map_range]
    rfl
  · simpa using h1
  · simpa using h2
  · rintro rfl
    have hw : o.withRsdl = true := by simp [Opts.withRsdl, hf]
    have key : ∀ j, StopsAfter C o none (traj C o none s j) ↔
        (statOf C o (s.k + j) (traj C o none s j)).rsdl.below := by
      intro j
      unfold StopsAfter
      rw [body_stop, traj_k]
      simp [hw]
    obtain ⟨m, rfl⟩ : ∃ m, n = m + 1 := ⟨n - 1, by omega⟩
    rw [List.range_succ, List.map_append, List.map_singleton, List.dropLast_concat,
      List.getLast?_concat]
    constructor
    · intro q hq
      obtain ⟨j, hj, rfl⟩ := List.mem_map.1 hq
      rw [← key]; exact h5 j (by have := List.mem_range.1 hj; omega)
    · intro hl
      refine ⟨_, rfl, ?_⟩
      rw [← key]
      have := h6 (by simpa using hl)
      simpa using this

/-- **C35, FastSolve.** Without residuals and callback exactly `MaxMainIter` iterations
are run, and nothing is recorded. -/
theorem C35_fast (C : Cls E F G H) (o : Opts) (s : St E F G H) (hmax : 1 ≤ o.maxMainIter)
    (hf : o.fastSolve = true) (ha : o.autoRho = false) :
    solve C o none s = traj C o none s o.maxMainIter ∧ (solve C o none s).itstat = s.itstat := by
  obtain ⟨n, h1, h2, h3, h4, h5, h6⟩ := C35_solve_partial C o none s hmax
  have hns : ∀ t, ¬ StopsAfter C o none t := by
    intro t h
    rcases (C35_stop_condition C o none t).1 h with ⟨f, h, _⟩ | ⟨h, _⟩
    · cases h
    · simp [hf, ha] at h
  have : n = o.maxMainIter := by
    rcases Nat.lt_or_ge n o.maxMainIter with h | h
    · exact absurd (h6 h) (hns _)
    · omega
  subst this
  refine ⟨h3, ?_⟩
  rw [h3, traj_itstat, if_pos hf]; simp

theorem body_max (C : Cls E F G H) (o : Opts) (cb) (m : ℕ) :
    body C { o with maxMainIter := m } cb = body C o cb := rfl

theorem traj_max (C : Cls E F G H) (o : Opts) (cb) (m : ℕ) :
    traj C { o with maxMainIter := m } cb = traj C o cb := by
  unfold traj oneIter; rw [body_max]

theorem StopsAfter_max (C : Cls E F G H) (o : Opts) (cb) (m : ℕ) :
    StopsAfter C { o with maxMainIter := m } cb = StopsAfter C o cb := by
  unfold StopsAfter; rw [body_max]

/-- **C35, resumption.** Any sequence of `solve()` calls (each with its own
`MaxMainIter`) leaves the solver at a state of the one trajectory that a single long run
would follow, and the iteration counter counts the iterations done. -/
theorem C35_resume_partial (C : Cls E F G H) (o : Opts) (cb) (s : St E F G H) (ms : List ℕ)
    (hms : ∀ m ∈ ms, 1 ≤ m) :
    ∃ n, ms.length ≤ n ∧ n ≤ ms.sum ∧
      ms.foldl (fun t m => solve C { o with maxMainIter := m } cb t) s = traj C o cb s n := by
  induction ms generalizing s with
  | nil => exact ⟨0, le_rfl, le_rfl, rfl⟩
  | cons m ms ih =>
    obtain ⟨n1, a1, a2, a3, -⟩ := C35_solve_partial C { o with maxMainIter := m } cb s
      (hms m List.mem_cons_self)
    obtain ⟨n2, b1, b2, b3⟩ := ih (solve C { o with maxMainIter := m } cb s)
      (fun x hx => hms x (List.mem_cons_of_mem _ hx))
    have a2' : n1 ≤ m := a2
    refine ⟨n1 + n2, by simp only [List.length_cons]; omega, by simp only [List.sum_cons]; omega, ?_⟩
    rw [traj_max] at a3
    rw [a3] at b3
    rw [List.foldl_cons, traj_add, a3]
    exact b3

/-- **C35, resumption without early stop.** If no iteration requests a stop, running
`m₁` and then `m₂` iterations is running `m₁ + m₂`. -/
theorem C35_split (C : Cls E F G H) (o : Opts) (cb) (s : St E F G H) (m₁ m₂ : ℕ)
    (h₁ : 1 ≤ m₁) (h₂ : 1 ≤ m₂) (hns : ∀ j, ¬ StopsAfter C o cb (traj C o cb s j)) :
    solve C { o with maxMainIter := m₂ } cb (solve C { o with maxMainIter := m₁ } cb s) =
      solve C { o with maxMainIter := m₁ + m₂ } cb s := by
  have full : ∀ m t, 1 ≤ m → (∀ j, ¬ StopsAfter C o cb (traj C o cb t j)) →
      solve C { o with maxMainIter := m } cb t = traj C o cb t m := by
    intro m t hm hn
    obtain ⟨n, a1, a2, a3, a4, a5, a6⟩ := C35_solve_partial C { o with maxMainIter := m } cb t hm
    rw [traj_max] at a3 a6
    rw [StopsAfter_max] at a6
    have : n = m := by
      have a2' : n ≤ m := a2
      rcases Nat.lt_or_ge n m with h | h
      · exact absurd (a6 h) (hn _)
      · omega
    subst this; exact a3
  rw [full m₁ s h₁ hns, full (m₁ + m₂) s (by omega) hns, traj_add]
  exact full m₂ _ h₂ (fun j => by rw [← traj_add]; exact hns _)

/-- **C35 fails for `MaxMainIter = 0`.** The call makes no iteration but still advances
the iteration counter, so that a later run numbers its first iteration 1. -/
theorem C35_zero_refuted (C : Cls E F G H) (o : Opts) (cb) (s : St E F G H)
    (h0 : o.maxMainIter = 0) :
    solve C o cb s = { s with k := s.k + 1 } ∧
      solve C o cb s ≠ traj C o cb s 0 := by
  have : solve C o cb s = { s with k := s.k + 1 } := by
    unfold solve; rw [h0]; rfl
  refine ⟨this, fun h => ?_⟩
  have := congrArg St.k (this.symm.trans h)
  simp [traj_zero] at this

/-! ### A concrete run -/

/-- A one-dimensional solver: `x ← y - u`, `y ← (AX + u)/2`. -/
noncomputable def exCls : Cls ℝ ℝ ℝ Unit :=
  Cls.equal (fun _ _ Y U h => (Y - U, h)) (fun _ AX _ _ U h => ((AX + U) / 2, h))
    (fun _ h => h) (fun X Y _ => Equal.objfn (fun _ => 0) (fun y => y ^ 2 / 2) true true X Y)

/-- Options for the concrete run: standard residuals, absolute tolerance 1. -/
noncomputable def exOpts : Opts :=
  ⟨false, 5, 1, 0, false, 10, false, true, 1, 1, 2, 10, 1, 1⟩

/-- The hypotheses of the C35 theorems hold for a concrete solver and options, and a run
may stop before the limit: from `Y = 1` the first iteration has residuals 1/2 and 1/2. -/
example : 1 ≤ exOpts.maxMainIter ∧ exOpts.fastSolve = false ∧
    StopsAfter exCls exOpts none ⟨0, 1, 1, 0, 0, 0, 1, 0, [], ()⟩ ∧
    ¬ StopsAfter exCls exOpts none ⟨0, 8, 8, 0, 0, 0, 1, 0, [], ()⟩ := by
  refine ⟨by decide, rfl, ?_, ?_⟩
  · rw [C35_stop_condition]
    right
    refine ⟨Or.inr rfl, ?_⟩
    simp [statOf, steps, computeResiduals, exOpts, exCls, Cls.equal, Equal.relaxAX, Equal.rsdlR,
      Equal.rsdlS, Rsdl.below, Equal.ustep]
    norm_num
  · rw [C35_stop_condition]
    rintro (⟨f, h, -⟩ | ⟨-, h⟩)
    · cases h
    · simp [statOf, steps, computeResiduals, exOpts, exCls, Cls.equal, Equal.relaxAX, Equal.rsdlR,
        Equal.rsdlS, Rsdl.below, Equal.ustep] at h
      norm_num at h

end Sporco.Admm
