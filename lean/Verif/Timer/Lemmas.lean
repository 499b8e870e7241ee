import Verif.Timer.Spec
import Mathlib.Tactic.Abel
import Mathlib.Data.List.TakeWhile
import Mathlib.Algebra.Order.Group.Unbundled.Basic
import Mathlib.Algebra.Order.Group.Basic
import Mathlib.Algebra.Order.Sub.Basic

set_option linter.unusedSectionVars false

namespace Sporco.Timer

section
variable {T : Type} [AddCommGroup T]
theorem ab1 (a b t d : T) : a - t + d + b = 0 + d + (a - t + b) := by abel
theorem ab2 (a b t d v : T) : a - v + d + b = t - v + d + (a - t + b) := by abel
theorem ab3 (b d : T) : 0 + d + b = 0 + d + (0 + b) := by abel
theorem ab4 (b t d v : T) : 0 + (d + (t - v)) + b = t - v + d + (0 + b) := by abel
theorem ab5 (b : T) : 0 + 0 + b = 0 + (0 + b) := by abel
end

variable {L T : Type} [DecidableEq L] [AddCommGroup T]

/-- Effect of an event on the two dict entries of a label. -/
def lstep (x : Option T × T) (e : T × Ev) : Option T × T :=
  match e.2, x.1 with
  | .start, none => (some e.1, x.2)
  | .start, some t' => (some t', x.2)
  | .stop, none => (none, x.2)
  | .stop, some t' => (none, x.2 + (e.1 - t'))
  | .reset, _ => (none, 0)

/-- Value of `elapsed` from the two dict entries. -/
def value (x : Option T × T) (now : T) : T :=
  (match x.1 with | none => 0 | some t' => now - t') + x.2

theorem nextTime_cons (t : T) (e : Ev) (r : List (T × Ev)) (now : T) :
    nextTime ((t, e) :: r) now = t := rfl

theorem value_foldl (evs : List (T × Ev)) (x : Option T × T) (now : T) :
    value (evs.foldl lstep x) now =
      (if ∀ e ∈ evs, e.2 ≠ .reset then
        (match x.1 with | none => 0 | some t' => nextTime evs now - t') + x.2 else 0)
      + specTotal evs now := by
  induction evs generalizing x with
  | nil => simp [value, specTotal, nextTime]
  | cons hd rest ih =>
    obtain ⟨t, e⟩ := hd
    obtain ⟨o, d⟩ := x
    simp only [List.foldl_cons, ih, specTotal, List.forall_mem_cons]
    by_cases hr : ∀ e ∈ rest, e.2 ≠ .reset
    · have hT := eq_true hr
      cases e <;> cases o <;>
        simp only [lstep, nextTime_cons, hT, and_true, ne_eq, if_true, reduceCtorEq,
          not_false_eq_true, not_true, if_false] <;>
        generalize nextTime rest now = a <;> generalize specTotal rest now = b
      · exact ab1 a b t d
      · exact ab2 _ _ _ _ _
      · exact ab3 _ _
      · exact ab4 _ _ _ _
      · exact ab5 _
      · exact ab5 _
    · have hF := eq_false hr
      cases e <;> cases o <;>
        simp only [lstep, hF, and_false, if_false, zero_add]

/-- Key set, entries and constants of a state, seen from label `l`. -/
def entry (s : State L T) (l : L) : Option T × T := (s.t0 l, s.td l)

/-- Unknown labels have no entry. -/
def Clean (s : State L T) : Prop := ∀ l, l ∉ s.keys → entry s l = (none, 0)

theorem addKey_mem (ks : List L) (l x : L) : x ∈ addKey ks l ↔ x ∈ ks ∨ x = l := by
  unfold addKey; split
  · constructor
    · exact Or.inl
    · rintro (h | rfl) <;> assumption
  · simp

theorem start1_facts (t : T) (s : State L T) (hs : Clean s) (l : L) :
    (start1 t s l).keys = addKey s.keys l ∧ (start1 t s l).dfltlbl = s.dfltlbl ∧
    (start1 t s l).alllbl = s.alllbl ∧ Clean (start1 t s l) ∧
    ∀ x, entry (start1 t s l) x = if l = x then lstep (entry s x) (t, .start) else entry s x := by
  by_cases hk : l ∈ s.keys
  · rcases h0 : s.t0 l with _ | t'
    · refine ⟨by simp [start1, hk, h0, addKey], by simp [start1, hk, h0], by simp [start1, hk, h0],
        ?_, ?_⟩
      · intro x hx
        have hx' : x ∉ s.keys := by simpa [start1, hk, h0] using hx
        have hne : x ≠ l := fun h => hx' (h ▸ hk)
        have := hs x hx'
        simpa [entry, start1, hk, h0, upd, hne] using this
      · intro x
        by_cases hx : l = x
        · subst hx; simp [entry, start1, hk, h0, upd, lstep]
        · simp [entry, start1, hk, h0, upd, hx, Ne.symm hx]
    · refine ⟨by simp [start1, hk, h0, addKey], by simp [start1, hk, h0], by simp [start1, hk, h0],
        ?_, ?_⟩
      · simpa [start1, hk, h0] using hs
      · intro x
        by_cases hx : l = x
        · subst hx; simp [entry, start1, hk, h0, lstep]
        · simp [start1, hk, h0, hx]
  · have hc := hs l hk
    simp only [entry, Prod.mk.injEq] at hc
    refine ⟨by simp [start1, hk, upd, addKey], by simp [start1, hk, upd], by simp [start1, hk, upd],
      ?_, ?_⟩
    · intro x hx
      have hx' : x ∉ s.keys ∧ x ≠ l := by simpa [start1, hk, upd] using hx
      have := hs x hx'.1
      simpa [entry, start1, hk, upd, hx'.2] using this
    · intro x
      by_cases hx : l = x
      · subst hx; simp [entry, start1, hk, upd, lstep, hc]
      · simp [entry, start1, hk, upd, hx, Ne.symm hx]

theorem startFold_facts (t : T) (ls : List L) (s : State L T) (hs : Clean s) :
    (ls.foldl (start1 t) s).keys = ls.foldl addKey s.keys ∧
    (ls.foldl (start1 t) s).dfltlbl = s.dfltlbl ∧ (ls.foldl (start1 t) s).alllbl = s.alllbl ∧
    Clean (ls.foldl (start1 t) s) ∧
    ∀ x, entry (ls.foldl (start1 t) s) x =
      ((ls.filter (· = x)).map (fun _ => (t, Ev.start))).foldl lstep (entry s x) := by
  induction ls generalizing s with
  | nil => simp [hs]
  | cons l ls ih =>
    obtain ⟨a1, a2, a3, a4, a5⟩ := start1_facts t s hs l
    obtain ⟨b1, b2, b3, b4, b5⟩ := ih (start1 t s l) a4
    simp only [List.foldl_cons]
    refine ⟨by rw [b1, a1], by rw [b2, a2], by rw [b3, a3], b4, fun x => ?_⟩
    rw [b5, a5]
    by_cases hx : l = x
    · simp [hx]
    · simp [hx]

/-- A loop over known labels whose body makes event `e` at time `t`. -/
theorem loopKnown_facts (f : State L T → L → State L T) (t : T) (e : Ev)
    (hf : ∀ s l, l ∈ s.keys → (f s l).keys = s.keys ∧ (f s l).dfltlbl = s.dfltlbl ∧
      (f s l).alllbl = s.alllbl ∧
      ∀ x, entry (f s l) x = if l = x then lstep (entry s x) (t, e) else entry s x)
    (ls : List L) (s : State L T) :
    (loopKnown f s ls).1.keys = s.keys ∧ (loopKnown f s ls).1.dfltlbl = s.dfltlbl ∧
    (loopKnown f s ls).1.alllbl = s.alllbl ∧
    ∀ x, entry (loopKnown f s ls).1 x =
      (((ls.takeWhile (· ∈ s.keys)).filter (· = x)).map (fun _ => (t, e))).foldl lstep
        (entry s x) := by
  induction ls generalizing s with
  | nil => simp [loopKnown]
  | cons l ls ih =>
    by_cases hl : l ∈ s.keys
    · obtain ⟨a1, a2, a3, a4⟩ := hf s l hl
      obtain ⟨b1, b2, b3, b4⟩ := ih (f s l)
      simp only [loopKnown, hl, if_true]
      refine ⟨by rw [b1, a1], by rw [b2, a2], by rw [b3, a3], fun x => ?_⟩
      rw [b4, a4, a1]
      by_cases hx : l = x
      · subst hx; simp [hl]
      · simp [hl, hx]
    · simp [loopKnown, hl]

theorem stop1_facts (t : T) (s : State L T) (l : L) :
    (stop1 t s l).keys = s.keys ∧ (stop1 t s l).dfltlbl = s.dfltlbl ∧
      (stop1 t s l).alllbl = s.alllbl ∧
      ∀ x, entry (stop1 t s l) x = if l = x then lstep (entry s x) (t, .stop) else entry s x := by
  rcases h0 : s.t0 l with _ | t'
  · refine ⟨by simp [stop1, h0], by simp [stop1, h0], by simp [stop1, h0], fun x => ?_⟩
    by_cases hx : l = x
    · subst hx; simp [stop1, h0, entry, lstep]
    · simp [stop1, h0, hx]
  · refine ⟨by simp [stop1, h0], by simp [stop1, h0], by simp [stop1, h0], fun x => ?_⟩
    by_cases hx : l = x
    · subst hx; simp [stop1, h0, entry, lstep, upd]
    · simp [stop1, h0, entry, upd, hx, Ne.symm hx]

theorem reset1_facts (t : T) (s : State L T) (l : L) :
    (reset1 s l).keys = s.keys ∧ (reset1 s l).dfltlbl = s.dfltlbl ∧
      (reset1 s l).alllbl = s.alllbl ∧
      ∀ x, entry (reset1 s l) x = if l = x then lstep (entry s x) (t, .reset) else entry s x := by
  refine ⟨rfl, rfl, rfl, fun x => ?_⟩
  by_cases hx : l = x
  · subst hx; simp [reset1, entry, lstep, upd]
  · simp [reset1, entry, upd, hx, Ne.symm hx]

theorem op_facts (op : Op L T) (s : State L T) (hs : Clean s) :
    (op.run s).keys = knownAfter s.dfltlbl s.keys op ∧ (op.run s).dfltlbl = s.dfltlbl ∧
    (op.run s).alllbl = s.alllbl ∧ Clean (op.run s) ∧
    ∀ x, entry (op.run s) x =
      (((actsOn s.dfltlbl s.alllbl s.keys op).filter (· = x)).map
        (fun _ => (op.time, op.ev))).foldl lstep (entry s x) := by
  have clean : ∀ (s' : State L T), s'.keys = s.keys →
      (∀ x, ∃ ls : List L, (∀ y ∈ ls, y ∈ s.keys) ∧ ∃ t e, entry s' x =
        ((ls.filter (· = x)).map (fun _ => (t, e))).foldl lstep (entry s x)) → Clean s' := by
    intro s' hk h x hx
    rw [hk] at hx
    obtain ⟨ls, hls, t, e, he⟩ := h x
    rw [he]
    have : ls.filter (· = x) = [] := by
      rw [List.filter_eq_nil_iff]
      intro y hy
      simp only [decide_eq_true_eq]
      rintro rfl
      exact hx (hls _ hy)
    simp [this, hs x hx]
  cases op with
  | start t a =>
    have h := startFold_facts t (startLabels s a) s hs
    cases a <;> simpa [Op.run, start, knownAfter, actsOn, Op.time, Op.ev, startLabels] using h
  | stop t a =>
    have h := loopKnown_facts (stop1 t) t .stop (fun s l _ => stop1_facts t s l) (stopLabels s a) s
    obtain ⟨h1, h2, h3, h4⟩ := h
    have hc : Clean (loopKnown (stop1 t) s (stopLabels s a)).1 :=
      clean _ h1 fun x => ⟨_, fun y hy => by simpa using List.mem_takeWhile_imp hy, t, .stop, h4 x⟩
    cases a <;> exact ⟨h1, h2, h3, hc, h4⟩
  | reset t a =>
    have h := loopKnown_facts reset1 t .reset (fun s l _ => reset1_facts t s l) (stopLabels s a) s
    obtain ⟨h1, h2, h3, h4⟩ := h
    have hc : Clean (loopKnown reset1 s (stopLabels s a)).1 :=
      clean _ h1 fun x => ⟨_, fun y hy => by simpa using List.mem_takeWhile_imp hy, t, .reset, h4 x⟩
    cases a <;> exact ⟨h1, h2, h3, hc, h4⟩

theorem run_facts (ops : List (Op L T)) (s : State L T) (hs : Clean s) :
    (run s ops).keys = ops.foldl (knownAfter s.dfltlbl) s.keys ∧
    (run s ops).dfltlbl = s.dfltlbl ∧ (run s ops).alllbl = s.alllbl ∧ Clean (run s ops) ∧
    ∀ x, entry (run s ops) x =
      (events s.dfltlbl s.alllbl x s.keys ops).foldl lstep (entry s x) := by
  induction ops generalizing s with
  | nil => simp [run, events, hs]
  | cons op ops ih =>
    obtain ⟨a1, a2, a3, a4, a5⟩ := op_facts op s hs
    obtain ⟨b1, b2, b3, b4, b5⟩ := ih (op.run s) a4
    have hr : run s (op :: ops) = run (op.run s) ops := rfl
    rw [hr]
    refine ⟨by rw [b1, a1, a2]; rfl, by rw [b2, a2], by rw [b3, a3], b4, fun x => ?_⟩
    rw [b5, a1, a2, a3, a5, events, List.foldl_append]

theorem init_clean (labels : List L) (d a : L) : Clean (init labels d a : State L T) := by
  intro l _; rfl

end Sporco.Timer
