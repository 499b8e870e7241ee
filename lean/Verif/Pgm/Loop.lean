import Verif.Pgm.Model
import Mathlib.Logic.Function.Iterate

/-!
# Iteration accounting of `PGM.solve` (C50)

Everything here is for an arbitrary class (`Ops`), so it covers `PGM` and `PGMDFT`.
-/

set_option autoImplicit false

namespace Sporco.Pgm

variable {V : Type*}

/-! ## Specification -/

/-- One iteration of the algorithm: the loop body at the current count, then the count
goes up by one.  Says nothing about loops, limits or stopping. -/
noncomputable def oneIter (C : Ops V) (o : Opts) (cb : Option (St V → Bool × V)) (s : St V) : St V :=
  { (body C o cb s.k s).1 with k := s.k + 1 }

/-- The trajectory from `s`: the state after `n` iterations. -/
noncomputable def traj (C : Ops V) (o : Opts) (cb : Option (St V → Bool × V)) (s : St V) (n : ℕ) : St V :=
  (oneIter C o cb)^[n] s

/-- The iteration starting in `s` ends with a stop request. -/
def StopsAfter (C : Ops V) (o : Opts) (cb : Option (St V → Bool × V)) (s : St V) : Prop :=
  (body C o cb s.k s).2 = true

/-- The attributes after the start-up and solution step of the iteration starting in `s`. -/
def after (C : Ops V) (s : St V) : V := C.step s.k (C.start s.k s.v)

/-! ## Proofs -/

theorem body_fst_k (C : Ops V) (o : Opts) (cb) (k : ℕ) (s : St V) : (body C o cb k s).1.k = k := by
  unfold body
  simp only
  split_ifs <;> rfl

/-- The statistics entry appended by the iteration starting in `s`. -/
def entryOf (C : Ops V) (s : St V) : Stat := C.stat s.k (after C s) (C.rsdl s.k (after C s))

theorem body_itstat (C : Ops V) (o : Opts) (cb) (s : St V) :
    (body C o cb s.k s).1.itstat = s.itstat ++ (if o.fastSolve then [] else [entryOf C s]) := by
  unfold body
  simp only
  split_ifs
  · simp
  · rfl

theorem body_v (C : Ops V) (o : Opts) (s : St V) : (body C o .none s.k s).1.v = after C s := by
  unfold body
  simp only
  split_ifs <;> rfl

theorem body_stop (C : Ops V) (o : Opts) (s : St V) :
    (body C o .none s.k s).2 = true ↔ o.fastSolve = false ∧ C.rsdl s.k (after C s) < tolOf o s.k := by
  unfold body after
  simp

theorem traj_zero (C : Ops V) (o : Opts) (cb) (s : St V) : traj C o cb s 0 = s := rfl

theorem traj_succ (C : Ops V) (o : Opts) (cb) (s : St V) (n : ℕ) :
    traj C o cb s (n + 1) = oneIter C o cb (traj C o cb s n) :=
  Function.iterate_succ_apply' _ _ _

theorem traj_succ' (C : Ops V) (o : Opts) (cb) (s : St V) (n : ℕ) :
    traj C o cb s (n + 1) = traj C o cb (oneIter C o cb s) n :=
  Function.iterate_succ_apply _ _ _

theorem traj_add (C : Ops V) (o : Opts) (cb) (s : St V) (m n : ℕ) :
    traj C o cb s (m + n) = traj C o cb (traj C o cb s m) n := by
  unfold traj; rw [Nat.add_comm, Function.iterate_add_apply]

theorem traj_k (C : Ops V) (o : Opts) (cb) (s : St V) (n : ℕ) : (traj C o cb s n).k = s.k + n := by
  induction n with
  | zero => rfl
  | succ n ih => rw [traj_succ]; change (traj C o cb s n).k + 1 = _; rw [ih]; rfl

theorem traj_itstat (C : Ops V) (o : Opts) (cb) (s : St V) (n : ℕ) :
    (traj C o cb s n).itstat = s.itstat ++
      (if o.fastSolve then [] else (List.range n).map fun j => entryOf C (traj C o cb s j)) := by
  induction n with
  | zero => simp [traj_zero]
  | succ n ih =>
    rw [traj_succ]
    change (body C o cb (traj C o cb s n).k (traj C o cb s n)).1.itstat = _
    rw [body_itstat, ih]
    split_ifs with h
    · simp
    · rw [List.append_assoc, List.range_succ, List.map_append]; rfl

/-- Without callback the attributes after an iteration are those after its solution step. -/
theorem traj_v (C : Ops V) (o : Opts) (s : St V) (n : ℕ) :
    (traj C o .none s (n + 1)).v = after C (traj C o .none s n) := by
  rw [traj_succ]; exact body_v C o _

/-- What the loop does, for any start of the counter. -/
theorem loop_traj (C : Ops V) (o : Opts) (cb) : ∀ (n : ℕ) (s : St V),
    ∃ m, m ≤ n ∧ (0 < n → 0 < m) ∧
      ({ loop C o cb (List.range' s.k n) s with
          k := (loop C o cb (List.range' s.k n) s).k + (if n = 0 then 0 else 1) } : St V) =
        traj C o cb s m ∧
      (∀ j, j + 1 < m → ¬ StopsAfter C o cb (traj C o cb s j)) ∧
      (m < n → StopsAfter C o cb (traj C o cb s (m - 1))) := by
  intro n
  induction n with
  | zero => intro s; exact ⟨0, le_rfl, by simp, by simp [loop, traj_zero], by simp, by simp⟩
  | succ n ih =>
    intro s
    rw [List.range'_succ, loop]
    by_cases hb : (body C o cb s.k s).2 = true
    · refine ⟨1, by omega, by simp, ?_, by omega, fun _ => hb⟩
      simp only [hb, if_true, Nat.succ_ne_zero, if_false]
      rw [traj_succ, traj_zero]
      unfold oneIter
      rw [body_fst_k]
    · simp only [hb, if_false, Nat.succ_ne_zero]
      rcases Nat.eq_zero_or_pos n with h0 | h0
      · subst h0
        refine ⟨1, by omega, by simp, ?_, by omega, by omega⟩
        simp only [List.range'_zero, loop]
        rw [traj_succ, traj_zero]
        unfold oneIter
        simp only [Bool.false_eq_true, if_false]
        rw [body_fst_k]
      · obtain ⟨m, h1, h2, h3, h4, h5⟩ := ih (oneIter C o cb s)
        have hn : n ≠ 0 := by omega
        have e : loop C o cb (List.range' (s.k + 1) n) (body C o cb s.k s).1 =
            loop C o cb (List.range' (oneIter C o cb s).k n) (oneIter C o cb s) := by
          change _ = loop C o cb (List.range' (s.k + 1) n) (oneIter C o cb s)
          obtain ⟨n', rfl⟩ : ∃ n', n = n' + 1 := ⟨n - 1, by omega⟩
          rw [List.range'_succ, loop, loop]
          rfl
        refine ⟨m + 1, by omega, by omega, ?_, ?_, ?_⟩
        · rw [traj_succ', ← h3]
          simp only [hn, if_false] at h3 ⊢
          simp only [Bool.false_eq_true, if_false]
          rw [e]
        · intro j hj
          cases j with
          | zero => exact hb
          | succ j => rw [traj_succ']; exact h4 j (by omega)
        · intro hm
          have := h5 (by omega)
          have e2 : m + 1 - 1 = (m - 1) + 1 := by have := h2 h0; omega
          rw [e2, traj_succ']; exact this

/-! ## C50 -/

/-- **C50.** `solve()` with `MaxMainIter >= 1` runs exactly `n` iterations of the
trajectory with `1 ≤ n ≤ MaxMainIter`, where `n` is the first iteration that requests a
stop if there is one within the limit. -/
theorem C50_solve_partial (C : Ops V) (o : Opts) (cb) (s : St V) (hmax : 1 ≤ o.maxMainIter) :
    ∃ n, 1 ≤ n ∧ n ≤ o.maxMainIter ∧ solve C o cb s = traj C o cb s n ∧
      (solve C o cb s).k = s.k + n ∧
      (∀ j, j + 1 < n → ¬ StopsAfter C o cb (traj C o cb s j)) ∧
      (n < o.maxMainIter → StopsAfter C o cb (traj C o cb s (n - 1))) := by
  obtain ⟨m, h1, h2, h3, h4, h5⟩ := loop_traj C o cb o.maxMainIter s
  have hm := h2 hmax
  have h0 : o.maxMainIter ≠ 0 := by omega
  simp only [h0, if_false] at h3
  have e : solve C o cb s = traj C o cb s m := h3
  exact ⟨m, hm, h1, e, by rw [e, traj_k], h4, h5⟩

/-- The state the callback is shown in the iteration starting in `s`. -/
noncomputable def atCallback (C : Ops V) (o : Opts) (s : St V) : St V := (body C o .none s.k s).1

/-- **C50, what the callback sees**: the new iterate, the number of the current iteration,
and the statistics including the entry just recorded. -/
theorem C50_callback_view (C : Ops V) (o : Opts) (s : St V) (hf : o.fastSolve = false) :
    atCallback C o s = ⟨s.k, s.itstat ++ [entryOf C s], after C s⟩ := by
  unfold atCallback body entryOf after
  simp [hf]

/-- **C50, what a stop request is.** The iteration stops exactly if the callback returns
true or, unless `FastSolve` is set, the residual is below the tolerance: `RelStopTol`, or
`Tau0/(1+k)` with `AutoStop`. -/
theorem C50_stop_condition (C : Ops V) (o : Opts) (cb) (s : St V) :
    StopsAfter C o cb s ↔
      (∃ f, cb = some f ∧ (f (atCallback C o s)).1 = true) ∨
      (o.fastSolve = false ∧ C.rsdl s.k (after C s) <
        if o.autoStop then o.tau0 / (1 + s.k) else o.relStopTol) := by
  cases cb with
  | none => unfold StopsAfter; rw [body_stop]; simp [tolOf]
  | some f =>
    have e2 : (body C o (some f) s.k s).2 =
      ((f (atCallback C o s)).1 || (body C o .none s.k s).2) := by
      unfold atCallback body; simp
    unfold StopsAfter
    rw [e2, Bool.or_eq_true, body_stop]
    simp [tolOf]

/-- **C50, statistics.** Unless `FastSolve` is set, exactly one entry is recorded per
iteration, computed from the state after that iteration's solution step; earlier entries
stay. -/
theorem C50_stats_partial (C : Ops V) (o : Opts) (cb) (s : St V)
    (hmax : 1 ≤ o.maxMainIter) (hf : o.fastSolve = false) :
    ∃ new : List Stat, (solve C o cb s).itstat = s.itstat ++ new ∧
      s.k + new.length = (solve C o cb s).k ∧ 1 ≤ new.length ∧ new.length ≤ o.maxMainIter ∧
      ∀ j (h : j < new.length), new[j] = entryOf C (traj C o cb s j) := by
  obtain ⟨n, h1, h2, h3, h4, -⟩ := C50_solve_partial C o cb s hmax
  refine ⟨(List.range n).map fun j => entryOf C (traj C o cb s j), ?_, ?_, ?_, ?_, ?_⟩
  · rw [h3, traj_itstat, if_neg (by simp [hf])]
  · rw [h4]; simp
  · simpa using h1
  · simpa using h2
  · intro j h; simp

/-- **C50, numbering.** For a class whose entries carry the iteration number (both `PGM` and
`PGMDFT`), entries are numbered consecutively from the count at the call. -/
theorem C50_numbering_partial (C : Ops V) (hC : ∀ k v r, (C.stat k v r).iter = k) (o : Opts) (cb) (s : St V)
    (hmax : 1 ≤ o.maxMainIter) (hf : o.fastSolve = false) :
    ∃ new : List Stat, (solve C o cb s).itstat = s.itstat ++ new ∧
      new.map Stat.iter = List.range' s.k new.length := by
  obtain ⟨new, h1, h2, h3, h4, h5⟩ := C50_stats_partial C o cb s hmax hf
  refine ⟨new, h1, List.ext_getElem (by simp) fun j hj _ => ?_⟩
  have hj' : j < new.length := by simpa using hj
  rw [List.getElem_map, h5 j hj', List.getElem_range']
  unfold entryOf
  rw [hC, traj_k]; simp

/-- Both solver classes number their entries. -/
theorem C50_classes_number {E Ef : Type*} [NormedAddCommGroup E] [InnerProductSpace ℝ E]
    [NormedAddCommGroup Ef] [InnerProductSpace ℝ Ef] (C : Cls E) (D : ClsF E Ef) (o : Opts) :
    (∀ k v r, ((ops C o).stat k v r).iter = k) ∧ (∀ k v r, ((DFT.ops D o).stat k v r).iter = k) :=
  ⟨fun _ _ _ => rfl, fun _ _ _ => rfl⟩

/-- **C50, FastSolve.** Without callback exactly `MaxMainIter` iterations are run, and
nothing is recorded. -/
theorem C50_fast (C : Ops V) (o : Opts) (s : St V) (hmax : 1 ≤ o.maxMainIter) (hf : o.fastSolve = true) :
    solve C o .none s = traj C o .none s o.maxMainIter ∧ (solve C o .none s).itstat = s.itstat := by
  obtain ⟨n, h1, h2, h3, h4, h5, h6⟩ := C50_solve_partial C o .none s hmax
  have hns : ∀ t, ¬ StopsAfter C o .none t := by
    intro t h
    rcases (C50_stop_condition C o .none t).1 h with ⟨f, h, _⟩ | ⟨h, _⟩
    · cases h
    · simp [hf] at h
  have : n = o.maxMainIter := by
    rcases Nat.lt_or_ge n o.maxMainIter with h | h
    · exact absurd (h6 h) (hns _)
    · omega
  subst this
  refine ⟨h3, ?_⟩
  rw [h3, traj_itstat, if_pos hf]; simp

theorem body_max (C : Ops V) (o : Opts) (cb) (m : ℕ) :
    body C { o with maxMainIter := m } cb = body C o cb := rfl

theorem traj_max (C : Ops V) (o : Opts) (cb) (m : ℕ) :
    traj C { o with maxMainIter := m } cb = traj C o cb := by
  unfold traj oneIter; rw [body_max]

theorem StopsAfter_max (C : Ops V) (o : Opts) (cb) (m : ℕ) :
    StopsAfter C { o with maxMainIter := m } cb = StopsAfter C o cb := by
  unfold StopsAfter; rw [body_max]

/-- **C50, resumption.** Any sequence of `solve()` calls (each with its own
`MaxMainIter`) leaves the solver at a state of the one trajectory that a single long run
would follow, and the iteration counter counts the iterations done. -/
theorem C50_resume_partial (C : Ops V) (o : Opts) (cb) (s : St V) (ms : List ℕ)
    (hms : ∀ m ∈ ms, 1 ≤ m) :
    ∃ n, ms.length ≤ n ∧ n ≤ ms.sum ∧
      ms.foldl (fun t m => solve C { o with maxMainIter := m } cb t) s = traj C o cb s n := by
  induction ms generalizing s with
  | nil => exact ⟨0, le_rfl, le_rfl, rfl⟩
  | cons m ms ih =>
    obtain ⟨n1, a1, a2, a3, -⟩ := C50_solve_partial C { o with maxMainIter := m } cb s
      (hms m List.mem_cons_self)
    obtain ⟨n2, b1, b2, b3⟩ := ih (solve C { o with maxMainIter := m } cb s)
      (fun x hx => hms x (List.mem_cons_of_mem _ hx))
    have a2' : n1 ≤ m := a2
    refine ⟨n1 + n2, by simp only [List.length_cons]; omega, by simp only [List.sum_cons]; omega, ?_⟩
    rw [traj_max] at a3
    rw [a3] at b3
    rw [List.foldl_cons, traj_add, a3]
    exact b3

/-- **C50, resumption without early stop.** If no iteration requests a stop, running
`m₁` and then `m₂` iterations is running `m₁ + m₂`. -/
theorem C50_split (C : Ops V) (o : Opts) (cb) (s : St V) (m₁ m₂ : ℕ)
    (h₁ : 1 ≤ m₁) (h₂ : 1 ≤ m₂) (hns : ∀ j, ¬ StopsAfter C o cb (traj C o cb s j)) :
    solve C { o with maxMainIter := m₂ } cb (solve C { o with maxMainIter := m₁ } cb s) =
      solve C { o with maxMainIter := m₁ + m₂ } cb s := by
  have full : ∀ m t, 1 ≤ m → (∀ j, ¬ StopsAfter C o cb (traj C o cb t j)) →
      solve C { o with maxMainIter := m } cb t = traj C o cb t m := by
    intro m t hm hn
    obtain ⟨n, a1, a2, a3, a4, a5, a6⟩ := C50_solve_partial C { o with maxMainIter := m } cb t hm
    rw [traj_max] at a3 a6
    rw [StopsAfter_max] at a6
    have : n = m := by
      have a2' : n ≤ m := a2
      rcases Nat.lt_or_ge n m with h | h
      · exact absurd (a6 h) (hn _)
      · omega
    subst this; exact a3
  rw [full m₁ s h₁ hns, full (m₁ + m₂) s (by omega) hns, traj_add]
  exact full m₂ _ h₂ (fun j => by rw [← traj_add]; exact hns _)

/-- **C50 fails for `MaxMainIter = 0`.** The call makes no iteration but still advances
the iteration counter. -/
theorem C50_zero_refuted (C : Ops V) (o : Opts) (cb) (s : St V) (h0 : o.maxMainIter = 0) :
    solve C o cb s = { s with k := s.k + 1 } ∧ solve C o cb s ≠ traj C o cb s 0 := by
  have : solve C o cb s = { s with k := s.k + 1 } := by
    unfold solve; rw [h0]; rfl
  refine ⟨this, fun h => ?_⟩
  have := congrArg St.k (this.symm.trans h)
  simp [traj_zero] at this

/-! ### A concrete run -/

/-- Gradient descent on `x²/2` in one dimension. -/
noncomputable def exCls : Cls ℝ := ⟨fun x => x, fun _ x => x, fun x => x, fun x => x ^ 2 / 2, fun _ => 0⟩

/-- Options with tolerance 1. -/
noncomputable def exOpts : Opts := ⟨false, 5, 1, false, 0, false, .nesterov, .none, .none⟩

/-- A fresh solver at `X = x`, with `L = 2`. -/
noncomputable def exStart (x : ℝ) : St (Vars ℝ) :=
  ⟨0, [], ⟨x, x, 0, 0, 0, 2, 1, (0, 0, 0), (0, 0, 0), .none, .none, .none, 0, 0, 0, .none⟩⟩

/-- The hypotheses of the C50 theorems hold for a concrete solver, and a run may or may
not stop in its first iteration. -/
example : 1 ≤ exOpts.maxMainIter ∧ exOpts.fastSolve = false ∧ Fresh (exStart 1) ∧
    StopsAfter (ops exCls exOpts) exOpts .none (exStart 1) ∧
    ¬ StopsAfter (ops exCls exOpts) exOpts .none (exStart 8) := by
  refine ⟨by decide, rfl, ⟨rfl, rfl, rfl, rfl, rfl, rfl⟩, ?_, ?_⟩
  · rw [C50_stop_condition]
    right
    refine ⟨rfl, ?_⟩
    simp [after, ops, mainStep, exOpts, ystep, xstep, xstepG, stepL, storeBB, Opts.stepPolicy, safeguard,
      onStart, rsdl, exStart, exCls]
    norm_num
  · rw [C50_stop_condition]
    rintro (⟨f, h, -⟩ | ⟨-, h⟩)
    · cases h
    · simp [after, ops, mainStep, exOpts, ystep, xstep, xstepG, stepL, storeBB, Opts.stepPolicy, safeguard,
        onStart, rsdl, exStart, exCls] at h
      norm_num at h

end Sporco.Pgm
