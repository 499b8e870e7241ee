import Verif.Timer.Lemmas
import Mathlib.Algebra.Order.Ring.Int
import Mathlib.Data.List.Induction
import Mathlib.Tactic.Linarith

/-!
# Property C06: timer accounting
-/

set_option linter.unusedSectionVars false

namespace Sporco.Timer

variable {L T : Type} [DecidableEq L] [AddCommGroup T]

theorem elapsed_eq (s : State L T) (l : L) (hl : l ∈ s.keys) (now : T) :
    elapsed now (some l) true s = some (value (entry s l) now) := by
  simp only [elapsed, hl, if_true, elapsed.val, value, entry]
  cases s.t0 l <;> rfl

/-- **C06.** For any history of calls on a new timer and any label known at its
end, `elapsed` returns the sum of the label's running periods since its last
reset, as computed from the events of that label alone. -/
theorem C06_elapsed_total (labels : List L) (dflt all l : L) (ops : List (Op L T)) (now : T)
    (hl : l ∈ (run (init labels dflt all) ops).keys) :
    elapsed now (some l) true (run (init labels dflt all) ops) =
      some (specTotal (events dflt all l (labels.foldl addKey []) ops) now) := by
  obtain ⟨-, -, -, -, h⟩ := run_facts ops (init labels dflt all : State L T) (init_clean _ _ _)
  rw [elapsed_eq _ _ hl, h, value_foldl]
  congr 1
  have h0 : entry (init labels dflt all : State L T) l = (none, 0) := rfl
  rw [h0]
  simp only [add_zero, ite_self, zero_add]
  rfl

/-- **C06.** The labels known after a history: those given at construction and
those started. -/
theorem C06_known_labels (labels : List L) (dflt all : L) (ops : List (Op L T)) :
    (run (init labels dflt all : State L T) ops).keys =
      ops.foldl (knownAfter dflt) (labels.foldl addKey []) :=
  (run_facts ops (init labels dflt all : State L T) (init_clean _ _ _)).1

/-- **C06.** Reading an unknown label raises `KeyError`; reading the default
label before it is ever started gives zero. -/
theorem C06_unknown_label (s : State L T) (l : L) (now : T) (b : Bool) :
    (elapsed now (some l) b s = none ↔ l ∉ s.keys) ∧
    (s.dfltlbl ∉ s.keys → elapsed now none b s = some 0) := by
  constructor
  · by_cases h : l ∈ s.keys <;> simp [elapsed, h]
  · intro h; simp [elapsed, h]

theorem current_foldl (evs : List (T × Ev)) (d : T) :
    ((evs.foldl lstep ((none, d) : Option T × T)).1) =
      ((evs.reverse.takeWhile (fun e => e.2 = .start)).getLast?).map Prod.fst := by
  induction evs using List.reverseRecOn with
  | nil => simp
  | append_singleton evs e ih =>
    obtain ⟨t, e⟩ := e
    rw [List.foldl_append, List.reverse_append]
    simp only [List.foldl_cons, List.foldl_nil, List.reverse_cons, List.reverse_nil, List.nil_append,
      List.singleton_append]
    generalize evs.foldl lstep ((none, d) : Option T × T) = x at ih
    obtain ⟨o, d'⟩ := x
    simp only at ih
    subst ih
    cases e with
    | start =>
      simp only [List.takeWhile_cons, decide_true, if_true]
      cases h : List.takeWhile (fun e => decide (e.2 = Ev.start)) evs.reverse with
      | nil => simp [lstep]
      | cons a as =>
        have : ((t, Ev.start) :: a :: as).getLast? = (a :: as).getLast? := by
          simp [List.getLast?_cons_cons]
        rw [this]
        obtain ⟨y, hy⟩ : ∃ y, (a :: as).getLast? = some y := by simp [List.getLast?_cons]
        simp [lstep, hy]
    | stop =>
      simp only [List.takeWhile_cons, reduceCtorEq, decide_false]
      cases h : List.takeWhile (fun e => decide (e.2 = Ev.start)) evs.reverse with
      | nil => simp [lstep]
      | cons a as =>
        obtain ⟨y, hy⟩ : ∃ y, (a :: as).getLast? = some y := by simp [List.getLast?_cons]
        simp [lstep, hy]
    | reset => simp [lstep]

/-- **C06.** `elapsed(label, total=False)` is the time since the label last went
from stopped to running, and zero when it is stopped. -/
theorem C06_elapsed_current (labels : List L) (dflt all l : L) (ops : List (Op L T)) (now : T)
    (hl : l ∈ (run (init labels dflt all) ops).keys) :
    elapsed now (some l) false (run (init labels dflt all) ops) =
      some (specCurrent (events dflt all l (labels.foldl addKey []) ops) now) := by
  obtain ⟨-, -, -, -, h⟩ := run_facts ops (init labels dflt all : State L T) (init_clean _ _ _)
  have h1 := congrArg Prod.fst (h l)
  have h0 : entry (init labels dflt all : State L T) l = (none, 0) := rfl
  rw [h0] at h1
  have h2 := current_foldl (events dflt all l (labels.foldl addKey []) ops) (0 : T)
  have h3 : (run (init labels dflt all) ops).t0 l =
      ((((events dflt all l (labels.foldl addKey []) ops).reverse.takeWhile
        (fun e => e.2 = .start)).getLast?).map Prod.fst) := by
    rw [← h2]; exact h1
  simp only [elapsed, hl, if_true, elapsed.val, h3, specCurrent, Bool.false_eq_true, if_false,
    add_zero]
  cases (((events dflt all l (labels.foldl addKey []) ops).reverse.takeWhile
        (fun e => e.2 = .start)).getLast?) <;> simp

theorem mem_foldl_addKey (ls ks : List L) (l : L) (hl : l ∈ ks) : l ∈ ls.foldl addKey ks := by
  induction ls generalizing ks with
  | nil => exact hl
  | cons x xs ihx => exact ihx _ ((addKey_mem _ _ _).2 (.inl hl))

/-- **C06.** Calls that do not act on a label do not change what is read for it. -/
theorem C06_no_interference (s : State L T) (hs : Clean s) (l : L) (hl : l ∈ s.keys)
    (ops : List (Op L T)) (hno : events s.dfltlbl s.alllbl l s.keys ops = []) (now : T) :
    elapsed now (some l) true (run s ops) = elapsed now (some l) true s := by
  obtain ⟨hk, -, -, -, h⟩ := run_facts ops s hs
  have hmem : l ∈ (run s ops).keys := by
    rw [hk]
    clear hk h hno hs
    generalize s.keys = ks at hl
    induction ops generalizing ks with
    | nil => exact hl
    | cons op ops ih =>
      simp only [List.foldl_cons]
      apply ih
      cases op with
      | start t a =>
        cases a <;> exact mem_foldl_addKey _ _ _ hl
      | stop t a => exact hl
      | reset t a => exact hl
  rw [elapsed_eq _ _ hmem, elapsed_eq _ _ hl, h, hno]
  rfl

/-- **C06.** A `with ContextTimer(timer, label)` block around calls that do not
touch the label adds exactly the duration of the block to a stopped label (and
leaves it stopped). -/
theorem C06_context_startstop (s : State L T) (hs : Clean s) (l : L) (hl : l ∈ s.keys)
    (hla : l ≠ s.alllbl) (hst : s.t0 l = none) (t₁ t₂ : T) (body : List (Op L T))
    (hno : events s.dfltlbl s.alllbl l s.keys body = []) (now now' : T) (a : T)
    (ha : elapsed now (some l) true s = some a) :
    elapsed now' (some l) true (run s (contextOps true (some l) t₁ t₂ body)) =
      some (a + (t₂ - t₁)) := by
  rw [elapsed_eq _ _ hl] at ha
  obtain ⟨hk, -, -, -, h⟩ := run_facts (contextOps true (some l) t₁ t₂ body) s hs
  have hmem : ∀ (ops : List (Op L T)) (ks : List L), l ∈ ks →
      l ∈ ops.foldl (knownAfter s.dfltlbl) ks := by
    intro ops
    induction ops with
    | nil => exact fun ks h => h
    | cons op ops ih =>
      intro ks h
      apply ih
      cases op with
      | start t a => cases a <;> exact mem_foldl_addKey _ _ _ h
      | stop t a => exact h
      | reset t a => exact h
  have hkl : l ∈ (run s (contextOps true (some l) t₁ t₂ body)).keys := by
    rw [hk]; exact hmem _ _ hl
  have happ : ∀ (o1 o2 : List (Op L T)) (ks : List L),
      events s.dfltlbl s.alllbl l ks (o1 ++ o2) = events s.dfltlbl s.alllbl l ks o1 ++
        events s.dfltlbl s.alllbl l (o1.foldl (knownAfter s.dfltlbl) ks) o2 := by
    intro o1
    induction o1 with
    | nil => intro o2 ks; simp [events]
    | cons op ops ih => intro o2 ks; simp [events, ih]
  have hk1 : knownAfter s.dfltlbl s.keys (.start t₁ (.one l) : Op L T) = s.keys := by
    simp [knownAfter, addKey, hl]
  have hev : events s.dfltlbl s.alllbl l s.keys (contextOps true (some l) t₁ t₂ body) =
      [(t₁, .start), (t₂, .stop)] := by
    simp only [contextOps, if_true, events, hk1, happ, hno]
    simp [actsOn, hla, hmem body s.keys hl, Op.time, Op.ev]
  rw [elapsed_eq _ _ hkl, h, hev]
  simp only [entry, hst] at ha ⊢
  simp only [value, Option.some.injEq, zero_add] at ha
  simp [lstep, value, ha]

/-- **C06.** A `with ContextTimer(timer, label, action='StopStart')` block around calls
that do not touch the label excludes the duration of the block from a running label, which
runs again afterwards. -/
theorem C06_context_stopstart (s : State L T) (hs : Clean s) (l : L) (hl : l ∈ s.keys)
    (hla : l ≠ s.alllbl) (t : T) (hst : s.t0 l = some t) (t₁ t₂ : T) (body : List (Op L T))
    (hno : events s.dfltlbl s.alllbl l s.keys body = []) (now' : T) (a : T)
    (ha : elapsed t₁ (some l) true s = some a) :
    elapsed now' (some l) true (run s (contextOps false (some l) t₁ t₂ body)) =
      some (a + (now' - t₂)) := by
  rw [elapsed_eq _ _ hl] at ha
  obtain ⟨hk, -, -, -, h⟩ := run_facts (contextOps false (some l) t₁ t₂ body) s hs
  have hmem : ∀ (ops : List (Op L T)) (ks : List L), l ∈ ks →
      l ∈ ops.foldl (knownAfter s.dfltlbl) ks := by
    intro ops
    induction ops with
    | nil => exact fun ks h => h
    | cons op ops ih =>
      intro ks h
      apply ih
      cases op with
      | start t a => cases a <;> exact mem_foldl_addKey _ _ _ h
      | stop t a => exact h
      | reset t a => exact h
  have hkl : l ∈ (run s (contextOps false (some l) t₁ t₂ body)).keys := by
    rw [hk]; exact hmem _ _ hl
  have happ : ∀ (o1 o2 : List (Op L T)) (ks : List L),
      events s.dfltlbl s.alllbl l ks (o1 ++ o2) = events s.dfltlbl s.alllbl l ks o1 ++
        events s.dfltlbl s.alllbl l (o1.foldl (knownAfter s.dfltlbl) ks) o2 := by
    intro o1
    induction o1 with
    | nil => intro o2 ks; simp [events]
    | cons op ops ih => intro o2 ks; simp [events, ih]
  have hk1 : knownAfter s.dfltlbl s.keys (.stop t₁ (.one l) : Op L T) = s.keys := by
    rfl
  have hev : events s.dfltlbl s.alllbl l s.keys (contextOps false (some l) t₁ t₂ body) =
      [(t₁, .stop), (t₂, .start)] := by
    simp only [contextOps, Bool.false_eq_true, if_false, events, hk1, happ, hno]
    simp [actsOn, hla, hl, Op.time, Op.ev]
  rw [elapsed_eq _ _ hkl, h, hev]
  simp only [entry, hst] at ha ⊢
  simp only [value, Option.some.injEq] at ha
  simp only [List.foldl_cons, List.foldl_nil, lstep, value, ← ha]
  congr 1
  rw [add_comm (s.td l), add_comm (now' - t₂)]

section Ordered

variable [LinearOrder T] [IsOrderedAddMonoid T]

/-- Event times do not decrease and stay within bounds. -/
def Timed (lo : T) : List (T × Ev) → T → Prop
  | [], hi => lo ≤ hi
  | (t, _) :: rest, hi => lo ≤ t ∧ Timed t rest hi

theorem Timed.le_next {lo hi : T} {evs : List (T × Ev)} (h : Timed lo evs hi) :
    lo ≤ nextTime evs hi := by
  cases evs with
  | nil => exact h
  | cons e r => exact h.1

theorem Timed.weaken {lo lo' hi : T} {evs : List (T × Ev)} (h : Timed lo evs hi) (hl : lo' ≤ lo) :
    Timed lo' evs hi := by
  cases evs with
  | nil => exact hl.trans h
  | cons e r => exact ⟨hl.trans h.1, h.2⟩

theorem specTotal_nonneg {lo hi : T} {evs : List (T × Ev)} (h : Timed lo evs hi) :
    0 ≤ specTotal evs hi := by
  induction evs generalizing lo with
  | nil => simp [specTotal]
  | cons e r ih =>
    obtain ⟨t, e⟩ := e
    have h1 := ih h.2
    have h2 := Timed.le_next h.2
    simp only [specTotal]
    split
    · exact add_nonneg (sub_nonneg.2 h2) h1
    · simpa using h1

theorem timed_events (dflt all l : L) (ops : List (Op L T)) (known : List L) (lo hi : T)
    (hm : ops.Pairwise (fun a b => a.time ≤ b.time)) (hlo : ∀ op ∈ ops, lo ≤ op.time)
    (hhi : ∀ op ∈ ops, op.time ≤ hi) (hlh : lo ≤ hi) :
    Timed lo (events dflt all l known ops) hi := by
  induction ops generalizing known lo with
  | nil => exact hlh
  | cons op ops ih =>
    rw [List.pairwise_cons] at hm
    simp only [events]
    have hr := ih (knownAfter dflt known op) op.time hm.2 hm.1
      (fun o h => hhi o (by simp [h])) (hhi op (by simp))
    have hl := hlo op (by simp)
    generalize (actsOn dflt all known op).filter (· = l) = ls
    induction ls generalizing lo with
    | nil => simpa using hr.weaken hl
    | cons x xs ihx =>
      simp only [List.map_cons, List.cons_append]
      refine ⟨hl, ?_⟩
      exact ihx op.time (fun o h => by
        rcases List.mem_cons.1 h with rfl | h
        · exact le_refl _
        · exact hm.1 o h) (hhi op (by simp)) le_rfl

/-- **C06.** With non-decreasing clock readings, elapsed time never decreases over
calls that do not reset the label: reading before (at `t₁`) gives at most what
reading afterwards (at `t₂`) gives. -/
theorem C06_monotone (s : State L T) (hs : Clean s) (l : L) (hl : l ∈ s.keys)
    (ops : List (Op L T)) (t₁ t₂ : T) (hm : ops.Pairwise (fun a b => a.time ≤ b.time))
    (h1 : ∀ op ∈ ops, t₁ ≤ op.time) (h2 : ∀ op ∈ ops, op.time ≤ t₂) (h12 : t₁ ≤ t₂)
    (hnr : ∀ e ∈ events s.dfltlbl s.alllbl l s.keys ops, e.2 ≠ .reset)
    (a b : T) (ha : elapsed t₁ (some l) true s = some a)
    (hb : elapsed t₂ (some l) true (run s ops) = some b) : a ≤ b := by
  obtain ⟨hk, -, -, -, h⟩ := run_facts ops s hs
  have hmem : l ∈ (run s ops).keys := by
    by_contra hn
    rw [((C06_unknown_label (run s ops) l t₂ true).1).2 hn] at hb
    cases hb
  rw [elapsed_eq _ _ hl] at ha
  rw [elapsed_eq _ _ hmem, h, value_foldl, if_pos hnr] at hb
  have ht := timed_events s.dfltlbl s.alllbl l ops s.keys t₁ t₂ hm h1 h2 h12
  have hn := specTotal_nonneg ht
  have hx := ht.le_next
  simp only [Option.some.injEq] at ha hb
  rw [← ha, ← hb]
  simp only [value]
  cases (entry s l).1 with
  | none => simpa using hn
  | some t' =>
    have : t₁ - t' ≤ nextTime (events s.dfltlbl s.alllbl l s.keys ops) t₂ - t' :=
      sub_le_sub_right hx t'
    exact le_add_of_le_of_nonneg (add_le_add_left this _) hn

/-- Timer values are non-negative under a non-decreasing clock. -/
theorem C06_nonneg (labels : List L) (dflt all l : L) (ops : List (Op L T)) (now lo : T)
    (hm : ops.Pairwise (fun a b => a.time ≤ b.time)) (hlo : ∀ op ∈ ops, lo ≤ op.time)
    (hhi : ∀ op ∈ ops, op.time ≤ now) (hl0 : lo ≤ now) (a : T)
    (ha : elapsed now (some l) true (run (init labels dflt all) ops) = some a) : 0 ≤ a := by
  have hmem : l ∈ (run (init labels dflt all) ops).keys := by
    by_contra hn
    rw [((C06_unknown_label _ l now true).1).2 hn] at ha
    cases ha
  rw [C06_elapsed_total _ _ _ _ _ _ hmem] at ha
  cases ha
  exact specTotal_nonneg (timed_events _ _ _ _ _ _ _ hm hlo hhi hl0)

end Ordered

/-! ### Concrete histories -/

/-- Two running periods of label "a", 3 and 4 long, with a redundant start and a
failing stop in between, and label "b" doing something else. -/
example :
    let ops : List (Op String Int) :=
      [.start 0 (.many ["a", "b"]), .start 1 (.one "a"), .stop 3 (.many ["a", "nope", "b"]),
       .start 5 (.one "a"), .reset 6 (.one "b")]
    elapsed 9 (some "a") true (run (init ["a"] "main" "all") ops) = some 7 ∧
    elapsed 9 (some "b") true (run (init ["a"] "main" "all") ops) = some 0 ∧
    specTotal (events "main" "all" "a" (["a"].foldl addKey []) ops) 9 = 7 := by
  refine ⟨rfl, rfl, rfl⟩

example : ∃ (s : State String Int) (ops : List (Op String Int)), Clean s ∧ "a" ∈ s.keys ∧
    ops.length = 2 ∧ ops.Pairwise (fun a b => a.time ≤ b.time) ∧
    ∀ e ∈ events s.dfltlbl s.alllbl "a" s.keys ops, e.2 ≠ .reset :=
  ⟨init ["a"] "main" "all", [.start 1 (.one "a"), .stop 2 .dflt], init_clean _ _ _, by decide,
    rfl, by simp [Op.time], by simp [events, actsOn, init, addKey, Op.ev]⟩

/-- The StopStart context on a label running since 1: 9 of 20 time units are excluded. -/
example :
    let s : State String Int := run (init ["a"] "main" "all") [.start 1 (.one "a")]
    "a" ∈ s.keys ∧ s.t0 "a" = some 1 ∧ events s.dfltlbl s.alllbl "a" s.keys [.stop 4 .dflt] = [] ∧
    elapsed 21 (some "a") true (run s (contextOps false (some "a") 2 11 [.stop 4 .dflt])) =
      some 11 := by
  refine ⟨by decide, rfl, by decide, rfl⟩

end Sporco.Timer
