import Verif.Timer.Props

/-!
# Property C07: timers of the solver classes are nested

Models the timer calls of `ADMM.solve` (sporco/admm/admm.py:328-384),
`PGM.solve` (sporco/pgm/pgm.py:324-377), `ParConvBPDN.solve`
(sporco/admm/parcbpdn.py:764-825), `DictLearn.solve`
(sporco/dictlrn/dictlrn.py:323-368) and
`ConvBPDNDictLearn_Consensus.solve` (sporco/dictlrn/prlcnscdl.py:553-590), one
clock reading per call. The computation between the calls is irrelevant here: it
only moves the clock. A *session* is: construction (timer `init`, admm.py:204-207,
common.py:107-114), then any number of calls of `solve`; it may be observed (or
aborted by an exception) after any timer call.
-/

set_option linter.unusedSectionVars false

namespace Sporco.Timer

/-- Labels of the solver timers (admm.py:204, pgm.py:209, dictlrn.py:236). -/
inductive SL where
  | initl | solve | woFunc | woRsdl | woBtrack | woEval | dflt | all
deriving DecidableEq

open SL

variable {T : Type} [AddCommGroup T]

/-- Timer calls of one iteration of `ADMM.solve` (admm.py:349-367). -/
def admmBody (t : Nat → T) : List (Op SL T) :=
  [.stop (t 0) (.one woRsdl), .start (t 1) (.one woRsdl),
   .stop (t 2) (.many [woFunc, woRsdl]), .start (t 3) (.many [woFunc, woRsdl]),
   .stop (t 4) (.one woRsdl), .start (t 5) (.one woRsdl)]

/-- Timer calls of one iteration of `ParConvBPDN.solve` (parcbpdn.py:783-803). -/
def parBody (t : Nat → T) : List (Op SL T) :=
  [.stop (t 0) (.one woRsdl), .stop (t 1) (.many [woFunc, woRsdl]),
   .start (t 2) (.many [woFunc, woRsdl])]

/-- Timer calls of one iteration of `PGM.solve` (pgm.py:334-360); `bt` says whether
backtracking is used. -/
def pgmBody (bt : Bool) (t : Nat → T) : List (Op SL T) :=
  (if bt then [.stop (t 0) (.one woBtrack), .start (t 1) (.one woBtrack)] else []) ++
  [.stop (t 2) (.many [woRsdl, woBtrack]), .start (t 3) (.one woRsdl),
   .stop (t 4) (.many [woFunc, woRsdl, woBtrack]), .start (t 5) (.many [woFunc, woRsdl, woBtrack])]

/-- Timer calls of one iteration of `DictLearn.solve` (dictlrn.py:337-339) and
`ConvBPDNDictLearn_Consensus.solve` (prlcnscdl.py:566-568). -/
def dlBody (t : Nat → T) : List (Op SL T) :=
  [.stop (t 0) (.one woEval), .start (t 1) (.one woEval)]

/-- One call of `solve`: start all its timers, the bodies of the iterations that
run, stop all timers. -/
def solveOps (ls : List SL) (bodies : List (List (Op SL T))) (t₁ t₂ : T) : List (Op SL T) :=
  .start t₁ (.many ls) :: (bodies.flatten ++ [.stop t₂ (.many ls)])

/-- Labels of the four kinds of solver. -/
inductive Kind where
  | admm | par | pgm | dl
deriving DecidableEq

/-- Labels passed to `start`/`stop` at the beginning/end of `solve`. -/
def Kind.labels : Kind → List SL
  | .admm => [solve, woFunc, woRsdl]
  | .par => [solve, woFunc, woRsdl]
  | .pgm => [solve, woFunc, woRsdl, woBtrack]
  | .dl => [solve, woEval]

/-- Timer calls of an iteration. -/
def Kind.body (bt : Bool) (t : Nat → T) : Kind → List (Op SL T)
  | .admm => admmBody t
  | .par => parBody t
  | .pgm => pgmBody bt t
  | .dl => dlBody t

/-- Labels created at construction. -/
def Kind.initLabels : Kind → List SL
  | .admm => [initl, solve, woFunc, woRsdl]
  | .par => [initl, solve, woFunc, woRsdl]
  | .pgm => [initl, solve, woFunc, woRsdl, woBtrack]
  | .dl => [initl, solve, woEval]

/-- One `solve` call of a session: clock readings of each iteration, of the first
and of the last timer call. -/
structure SolveRun (T : Type) where
  iters : List (Nat → T)
  tStart : T
  tEnd : T

/-- Timer calls of a whole session. -/
def session (k : Kind) (bt : Bool) (t₁ t₂ : T) (solves : List (SolveRun T)) : List (Op SL T) :=
  .start t₁ (.one initl) :: .stop t₂ (.one initl) ::
    (solves.map fun r => solveOps k.labels (r.iters.map fun t => k.body bt t) r.tStart r.tEnd).flatten

/-- Timer of a new solver object. -/
def newTimer (k : Kind) : State SL T := Timer.init k.initLabels dflt all

/-- Which label is documented to be contained in which. -/
def Nested : SL → SL → Prop
  | woRsdl, woFunc => True
  | woFunc, solve => True
  | woBtrack, woRsdl => True
  | woEval, solve => True
  | _, _ => False

instance : DecidableRel Nested := fun a b => by cases a <;> cases b <;> unfold Nested <;> infer_instance

/-! ### Proof -/

/-- Effect of a call on the set of running labels. -/
def flagStep (fl : SL → Bool) : Op SL T → SL → Bool
  | .start _ (.many ls), x => fl x || decide (x ∈ ls)
  | .start _ (.one l), x => fl x || decide (x = l)
  | .stop _ (.many ls), x => fl x && !decide (x ∈ ls)
  | .stop _ (.one l), x => fl x && !decide (x = l)
  | _, x => fl x

/-- Calls made by the solvers: never `reset`, default label or "all". -/
def Simple (known : List SL) : Op SL T → Prop
  | .start _ (.many ls) => ∀ l ∈ ls, l ∈ known
  | .start _ (.one l) => l ∈ known
  | .stop _ (.many ls) => ∀ l ∈ ls, l ∈ known
  | .stop _ (.one l) => l ∈ known ∧ l ≠ all
  | _ => False

theorem value_lstep_start (x : Option T × T) (t : T) : value (lstep x (t, .start)) t = value x t := by
  obtain ⟨o, d⟩ := x
  cases o <;> simp [lstep, value]

theorem value_lstep_stop (x : Option T × T) (t : T) : value (lstep x (t, .stop)) t = value x t := by
  obtain ⟨o, d⟩ := x
  cases o <;> simp [lstep, value, add_comm]

theorem foldl_addKey_of_mem (ls ks : List SL) (h : ∀ l ∈ ls, l ∈ ks) : ls.foldl addKey ks = ks := by
  induction ls with
  | nil => rfl
  | cons l ls ih =>
    simp only [List.foldl_cons]
    rw [show addKey ks l = ks by simp [addKey, h l (by simp)]]
    exact ih fun x hx => h x (by simp [hx])

theorem takeWhile_of_forall (ls ks : List SL) (h : ∀ l ∈ ls, l ∈ ks) :
    ls.takeWhile (fun x => decide (x ∈ ks)) = ls := by
  rw [List.takeWhile_eq_self_iff]
  intro l hl; simpa using h l hl

theorem foldl_start (t : T) (n : Nat) (x : Option T × T) :
    (List.replicate n (t, Ev.start)).foldl lstep x =
      if n = 0 then x else lstep x (t, .start) := by
  induction n generalizing x with
  | zero => simp
  | succ n ih =>
    rw [List.replicate_succ, List.foldl_cons, ih]
    obtain ⟨o, d⟩ := x
    cases o <;> simp [lstep]

theorem foldl_stop (t : T) (n : Nat) (x : Option T × T) :
    (List.replicate n (t, Ev.stop)).foldl lstep x =
      if n = 0 then x else lstep x (t, .stop) := by
  induction n generalizing x with
  | zero => simp
  | succ n ih =>
    rw [List.replicate_succ, List.foldl_cons, ih]
    obtain ⟨o, d⟩ := x
    cases o <;> simp [lstep]

/-- A simple call keeps the labels, does not change any reading made at the same
clock value, and changes the running flags as `flagStep` says. -/
theorem simple_step (op : Op SL T) (s : State SL T) (hs : Clean s) (hall : s.alllbl = all)
    (hop : Simple s.keys op) :
    (op.run s).keys = s.keys ∧ (op.run s).alllbl = all ∧ Clean (op.run s) ∧
    (∀ x, value (entry (op.run s) x) op.time = value (entry s x) op.time) ∧
    (∀ x, (entry (op.run s) x).1.isSome = flagStep (fun x => (entry s x).1.isSome) op x) := by
  obtain ⟨h1, h2, h3, h4, h5⟩ := op_facts op s hs
  have conv : ∀ (ls : List SL) (x : SL) (e : T × Ev),
      (ls.filter (· = x)).map (fun _ => e) = List.replicate (ls.count x) e := by
    intro ls x e
    induction ls with
    | nil => simp
    | cons l ls ih =>
      by_cases hl : l = x
      · simp [hl, ih, List.replicate_succ]
      · simp [hl, ih]
  have val : ∀ (ls : List SL) (x : SL) (t : T) (e : Ev), e ≠ .reset →
      value ((((ls.filter (· = x)).map (fun _ => (t, e))).foldl lstep (entry s x))) t =
        value (entry s x) t := by
    intro ls x t e he
    rw [conv]
    cases e with
    | start => rw [foldl_start]; split <;> simp [value_lstep_start]
    | stop => rw [foldl_stop]; split <;> simp [value_lstep_stop]
    | reset => exact absurd rfl he
  have fstart : ∀ (ls : List SL) (x : SL) (t : T),
      (((ls.filter (· = x)).map (fun _ => (t, Ev.start))).foldl lstep (entry s x)).1.isSome =
        ((entry s x).1.isSome || decide (x ∈ ls)) := by
    intro ls x t
    rw [conv, foldl_start]
    rcases h : entry s x with ⟨o, d⟩
    split
    · rename_i h0
      rw [List.count_eq_zero] at h0
      simp [h0]
    · rename_i h0
      have : x ∈ ls := by
        by_contra hc
        exact h0 (List.count_eq_zero.2 hc)
      cases o <;> simp [lstep, this]
  have fstop : ∀ (ls : List SL) (x : SL) (t : T),
      (((ls.filter (· = x)).map (fun _ => (t, Ev.stop))).foldl lstep (entry s x)).1.isSome =
        ((entry s x).1.isSome && !decide (x ∈ ls)) := by
    intro ls x t
    rw [conv, foldl_stop]
    rcases h : entry s x with ⟨o, d⟩
    split
    · rename_i h0
      rw [List.count_eq_zero] at h0
      simp [h0]
    · rename_i h0
      have : x ∈ ls := by
        by_contra hc
        exact h0 (List.count_eq_zero.2 hc)
      cases o <;> simp [lstep, this]
  cases op with
  | start t a =>
    cases a with
    | dflt => exact hop.elim
    | one l =>
      refine ⟨?_, h3.trans hall, h4, fun x => ?_, fun x => ?_⟩
      · rw [h1]; exact foldl_addKey_of_mem [l] _ (by simpa [Simple] using hop)
      · rw [h5]; exact val _ _ _ _ (by simp [Op.ev])
      · rw [h5]; exact (fstart [l] x t).trans (by simp [flagStep])
    | many ls =>
      refine ⟨?_, h3.trans hall, h4, fun x => ?_, fun x => ?_⟩
      · rw [h1]; exact foldl_addKey_of_mem ls _ hop
      · rw [h5]; exact val _ _ _ _ (by simp [Op.ev])
      · rw [h5]; exact (fstart ls x t).trans (by simp [flagStep])
  | stop t a =>
    cases a with
    | dflt => exact hop.elim
    | one l =>
      have hl : actsOn s.dfltlbl s.alllbl s.keys (.stop t (.one l) : Op SL T) = [l] := by
        simp only [actsOn, hall, if_neg hop.2]
        exact takeWhile_of_forall [l] _ (by simpa using hop.1)
      refine ⟨h1, h3.trans hall, h4, fun x => ?_, fun x => ?_⟩
      · rw [h5]; exact val _ _ _ _ (by simp [Op.ev])
      · rw [h5, hl]; exact (fstop [l] x t).trans (by simp [flagStep])
    | many ls =>
      have hl : actsOn s.dfltlbl s.alllbl s.keys (.stop t (.many ls) : Op SL T) = ls := by
        simp only [actsOn]
        exact takeWhile_of_forall ls _ hop
      refine ⟨h1, h3.trans hall, h4, fun x => ?_, fun x => ?_⟩
      · rw [h5]; exact val _ _ _ _ (by simp [Op.ev])
      · rw [h5, hl]; exact (fstop ls x t).trans (by simp [flagStep])
  | reset t a => exact hop.elim

/-- Running flags respect the nesting after every call. -/
def FlagsOk (fl : SL → Bool) : Prop := ∀ a b, Nested a b → fl a = true → fl b = true

instance (fl : SL → Bool) : Decidable (FlagsOk fl) :=
  decidable_of_iff (∀ a ∈ [initl, solve, woFunc, woRsdl, woBtrack, woEval, dflt, all],
      ∀ b ∈ [initl, solve, woFunc, woRsdl, woBtrack, woEval, dflt, all],
      Nested a b → fl a = true → fl b = true)
    ⟨fun h a b => h a (by cases a <;> simp) b (by cases b <;> simp), fun h a _ b _ => h a b⟩

/-- All calls simple, and flags right after each prefix. -/
def Safe (known : List SL) : (SL → Bool) → List (Op SL T) → Prop
  | fl, [] => FlagsOk fl
  | fl, op :: ops => FlagsOk fl ∧ Simple known op ∧ Safe known (flagStep fl op) ops

theorem Safe.append {known : List SL} {fl : SL → Bool} {a b : List (Op SL T)}
    (ha : Safe known fl a) (hb : Safe known (a.foldl flagStep fl) b) : Safe known fl (a ++ b) := by
  induction a generalizing fl with
  | nil => exact hb
  | cons op ops ih => exact ⟨ha.1, ha.2.1, ih ha.2.2 hb⟩

theorem Safe.prefix {known : List SL} {fl : SL → Bool} {a b : List (Op SL T)}
    (h : Safe known fl b) (hp : a <+: b) : Safe known fl a := by
  induction a generalizing fl b with
  | nil => cases b with
    | nil => exact h
    | cons op ops => exact h.1
  | cons op ops ih =>
    cases b with
    | nil => simp at hp
    | cons op' ops' =>
      rw [List.cons_prefix_cons] at hp
      obtain ⟨rfl, hp⟩ := hp
      exact ⟨h.1, h.2.1, ih h.2.2 hp⟩

section Ordered
variable [LinearOrder T] [IsOrderedAddMonoid T]

/-- Readings respect the nesting at clock value `now` and flags do too. -/
def Inv (s : State SL T) (now : T) : Prop :=
  FlagsOk (fun x => (entry s x).1.isSome) ∧
  ∀ a b, Nested a b → value (entry s a) now ≤ value (entry s b) now

theorem Inv.later {s : State SL T} {now t : T} (h : Inv s now) (ht : now ≤ t) : Inv s t := by
  refine ⟨h.1, fun a b hab => ?_⟩
  have hf := h.1 a b hab
  have hv := h.2 a b hab
  rcases ha : entry s a with ⟨oa, da⟩
  rcases hb : entry s b with ⟨ob, db⟩
  simp only [ha, hb, value] at hf hv ⊢
  cases oa with
  | none =>
    cases ob with
    | none => exact hv
    | some tb =>
      simp only [zero_add] at hv ⊢
      exact hv.trans (add_le_add_left (sub_le_sub_right ht tb) db)
  | some ta =>
    cases ob with
    | none => simp at hf
    | some tb =>
      have e : ∀ (x u v : T), x - u + v = x + (v - u) := fun x u v => by
        rw [sub_add_eq_add_sub, add_sub_assoc]
      simp only [e] at hv ⊢
      exact add_le_add_right ((add_le_add_iff_left now).1 hv) t

theorem safe_inv (ops : List (Op SL T)) (s : State SL T) (hs : Clean s) (hall : s.alllbl = all)
    (now : T) (hsafe : Safe s.keys (fun x => (entry s x).1.isSome) ops) (hinv : Inv s now)
    (hm : ops.Pairwise (fun a b => a.time ≤ b.time)) (hlo : ∀ op ∈ ops, now ≤ op.time)
    (t : T) (ht : now ≤ t) (hhi : ∀ op ∈ ops, op.time ≤ t) :
    Inv (run s ops) t ∧ (run s ops).keys = s.keys := by
  induction ops generalizing s now with
  | nil => exact ⟨hinv.later ht, rfl⟩
  | cons op ops ih =>
    obtain ⟨-, hop, hrest⟩ := hsafe
    obtain ⟨h1, h2, h3, h4, h5⟩ := simple_step op s hs hall hop
    rw [List.pairwise_cons] at hm
    have hi := hinv.later (hlo op (by simp))
    have hf : (fun x => (entry (op.run s) x).1.isSome) =
        flagStep (fun x => (entry s x).1.isSome) op := funext h5
    have hok : FlagsOk (flagStep (fun x => (entry s x).1.isSome) op) := by
      cases ops with
      | nil => exact hrest
      | cons _ _ => exact hrest.1
    have := ih (op.run s) h3 h2 op.time (by rw [h1, hf]; exact hrest)
      ⟨by rw [hf]; exact hok, fun a b hab => by rw [h4, h4]; exact hi.2 a b hab⟩
      hm.2 hm.1 (hhi op (by simp)) (fun o ho => hhi o (by simp [ho]))
    refine ⟨this.1, this.2.trans h1⟩

end Ordered

/-- Running flags during `solve` of each kind of solver. -/
def Kind.flags (k : Kind) : SL → Bool := fun x => decide (x ∈ k.labels)

theorem flag_ext (f g : SL → Bool)
    (h : ∀ x ∈ [initl, solve, woFunc, woRsdl, woBtrack, woEval, dflt, all], f x = g x) : f = g := by
  funext x; exact h x (by cases x <;> simp)

theorem body_safe (k : Kind) (bt : Bool) (t : Nat → T) :
    Safe (T := T) k.initLabels k.flags (k.body bt t) ∧
    (k.body bt t).foldl flagStep k.flags = k.flags := by
  constructor
  · cases k <;> cases bt <;>
      simp only [Kind.body, admmBody, parBody, pgmBody, dlBody, Safe, Simple, Kind.initLabels,
        List.cons_append, List.nil_append, if_true, if_false, Bool.false_eq_true] <;>
      refine_lift ?_ <;> repeat' apply And.intro
    all_goals first
      | (simp)
      | (intro a b hab; cases a <;> cases b <;> first
          | exact hab.elim
          | simp [flagStep, Kind.flags, Kind.labels])
  · cases k <;> cases bt <;> refine flag_ext _ _ ?_ <;>
      simp [Kind.body, admmBody, parBody, pgmBody, dlBody, flagStep, Kind.flags, Kind.labels]

theorem bodies_safe (k : Kind) (bt : Bool) (its : List (Nat → T)) :
    Safe (T := T) k.initLabels k.flags ((its.map fun t => k.body bt t).flatten) ∧
    ((its.map fun t => k.body bt t).flatten).foldl flagStep k.flags = k.flags := by
  induction its with
  | nil =>
    refine ⟨?_, rfl⟩
    intro a b hab
    cases k <;> cases a <;> cases b <;> first
      | exact hab.elim
      | simp [Kind.flags, Kind.labels]
  | cons t its ih =>
    obtain ⟨a1, a2⟩ := body_safe k bt t
    simp only [List.map_cons, List.flatten_cons]
    refine ⟨a1.append (by rw [a2]; exact ih.1), ?_⟩
    rw [List.foldl_append, a2, ih.2]

theorem solve_safe (k : Kind) (bt : Bool) (r : SolveRun T) :
    Safe (T := T) k.initLabels (fun _ => false)
      (solveOps k.labels (r.iters.map fun t => k.body bt t) r.tStart r.tEnd) ∧
    (solveOps k.labels (r.iters.map fun t => k.body bt t) r.tStart r.tEnd).foldl flagStep
      (fun _ => false) = (fun _ => false) := by
  obtain ⟨b1, b2⟩ := bodies_safe k bt r.iters
  have hfl : flagStep (fun _ => false) (.start r.tStart (.many k.labels) : Op SL T) = k.flags := by
    funext x; simp [flagStep, Kind.flags]
  have hend : flagStep k.flags (.stop r.tEnd (.many k.labels) : Op SL T) = fun _ => false := by
    funext x; simp [flagStep, Kind.flags]
  have hsub : ∀ l ∈ k.labels, l ∈ k.initLabels := by
    cases k <;> simp [Kind.labels, Kind.initLabels]
  have hfalse : FlagsOk (fun _ => false) := fun a b _ h => by simp at h
  constructor
  · refine ⟨hfalse, hsub, ?_⟩
    rw [hfl]
    refine b1.append ?_
    rw [b2]
    refine ⟨?_, hsub, ?_⟩
    · cases hb : (r.iters.map fun t => k.body bt t).flatten with
      | nil => rw [hb] at b1; exact b1
      | cons _ _ => rw [hb] at b1; exact b1.1
    · rw [hend]; exact hfalse
  · simp only [solveOps, List.foldl_cons, List.foldl_append, List.foldl_nil, hfl, b2, hend]

theorem session_safe (k : Kind) (bt : Bool) (t₁ t₂ : T) (solves : List (SolveRun T)) :
    Safe (T := T) k.initLabels (fun _ => false) (session k bt t₁ t₂ solves) := by
  have hinit : initl ∈ k.initLabels := by cases k <;> simp [Kind.initLabels]
  have hfalse : FlagsOk (fun _ => false) := fun a b _ h => by simp at h
  have hf2 : flagStep (flagStep (fun _ => false) (.start t₁ (.one initl) : Op SL T))
      (.stop t₂ (.one initl) : Op SL T) = fun _ => false := by
    funext x; simp [flagStep]
  refine ⟨hfalse, hinit, ?_, ⟨hinit, by simp⟩, ?_⟩
  · intro a b hab
    cases a <;> cases b <;> first | exact hab.elim | simp [flagStep]
  · rw [hf2]
    induction solves with
    | nil => exact hfalse
    | cons r rs ih =>
      simp only [List.map_cons, List.flatten_cons]
      obtain ⟨s1, s2⟩ := solve_safe k bt r
      refine s1.append ?_
      rw [s2]; exact ih

/-- **C07.** In any session of any of the solver kinds, observed after any prefix
of its timer calls and at any later time, with any non-decreasing clock: the time
of a contained timer is at most that of the containing one (`solve_wo_rsdl` ≤
`solve_wo_func` ≤ `solve`, `solve_wo_btrack` ≤ `solve_wo_rsdl`, `solve_wo_eval` ≤
`solve`), for every pair of labels the solver has. -/
theorem C07_nested [LinearOrder T] [IsOrderedAddMonoid T] (k : Kind) (bt : Bool) (t₁ t₂ : T)
    (solves : List (SolveRun T)) (ops : List (Op SL T)) (hp : ops <+: session k bt t₁ t₂ solves)
    (hm : ops.Pairwise (fun a b => a.time ≤ b.time)) (lo now : T)
    (hlo : ∀ op ∈ ops, lo ≤ op.time) (hhi : ∀ op ∈ ops, op.time ≤ now) (hl : lo ≤ now)
    (inner outer : SL) (hn : Nested inner outer)
    (hi : inner ∈ k.initLabels) (ho : outer ∈ k.initLabels) :
    ∃ x y, elapsed now (some inner) true (run (newTimer k) ops) = some x ∧
      elapsed now (some outer) true (run (newTimer k) ops) = some y ∧ x ≤ y := by
  have hkeys : (newTimer k : State SL T).keys = k.initLabels := by cases k <;> rfl
  have hflags : (fun x => (entry (newTimer k : State SL T) x).1.isSome) = fun _ => false := rfl
  have hs : Safe (newTimer k : State SL T).keys (fun x => (entry (newTimer k : State SL T) x).1.isSome)
      ops := by
    rw [hkeys, hflags]
    exact (session_safe k bt t₁ t₂ solves).prefix hp
  have h0 : Inv (newTimer k : State SL T) lo := by
    refine ⟨fun a b _ h => by simp [entry, newTimer, Timer.init] at h, fun a b _ => le_rfl⟩
  obtain ⟨hinv, hk⟩ := safe_inv ops (newTimer k) (init_clean _ _ _) rfl lo hs h0 hm hlo now hl hhi
  have hik : inner ∈ (run (newTimer k : State SL T) ops).keys := by rw [hk, hkeys]; exact hi
  have hok : outer ∈ (run (newTimer k : State SL T) ops).keys := by rw [hk, hkeys]; exact ho
  exact ⟨_, _, elapsed_eq _ _ hik now, elapsed_eq _ _ hok now, hinv.2 inner outer hn⟩

set_option maxRecDepth 20000 in
/-- A session of two `solve` calls (two and one iterations) with a strictly
increasing clock, as an instance of the hypotheses; the readings are strictly
nested there. -/
example :
    let clock : Nat → Nat → Int := fun i j => 10 + 10 * i + j
    let ss : List (SolveRun Int) :=
      [⟨[clock 0, clock 1], 5, 30⟩, ⟨[clock 3], 35, 50⟩]
    (session .admm false 0 2 ss).Pairwise (fun a b => a.time ≤ b.time) ∧
    elapsed 60 (some woRsdl) true (run (newTimer .admm) (session .admm false 0 2 ss)) = some 31 ∧
    elapsed 60 (some woFunc) true (run (newTimer .admm) (session .admm false 0 2 ss)) = some 37 ∧
    elapsed 60 (some solve) true (run (newTimer .admm) (session .admm false 0 2 ss)) = some 40 := by
  refine ⟨?_, rfl, rfl, rfl⟩
  simp [session, solveOps, Kind.body, admmBody, Kind.labels, Op.time]

end Sporco.Timer
