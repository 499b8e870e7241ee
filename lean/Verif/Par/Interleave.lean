import Mathlib.Data.List.Basic
import Mathlib.Tactic.Common

/-!
# Interleavings of tasks with separate footprints

The semantics of `multiprocessing.Pool.map(f, range(K))` on shared arrays, as used by
`dictlrn/prlcnscdl.py` 508, 1074 and `admm/parcbpdn.py` 868: the tasks `f(0), ..., f(K-1)` are
sequences of memory operations, and an execution is any merge of these sequences that keeps
the order within each task.  Which worker runs which task, in what order and how fast, only
selects the merge, so statements about all merges cover every number of workers and every
schedule.
-/

set_option autoImplicit false

namespace Sporco.Par

/-- Perform a list of operations in order. -/
def exec {Mem : Type*} (l : List (Mem → Mem)) (m : Mem) : Mem := l.foldl (fun m op => op m) m

/-- Perform a list of operations labelled with the task they belong to. -/
def execL {ι Mem : Type*} (l : List (ι × (Mem → Mem))) (m : Mem) : Mem := exec (l.map Prod.snd) m

/-- `l` is a merge of the operation sequences `progs k`: the operations of task `k` occur in `l`
in program order, and nothing else occurs. -/
def Interleaving {ι Mem : Type*} [DecidableEq ι] (progs : ι → List (Mem → Mem)) (l : List (ι × (Mem → Mem))) : Prop :=
  ∀ k, (l.filter fun e => e.1 = k).map Prod.snd = progs k

/-- The tasks one after the other, in the order of `ks`. -/
def sequential {ι Mem : Type*} (progs : ι → List (Mem → Mem)) (ks : List ι) : List (ι × (Mem → Mem)) :=
  ks.flatMap fun k => (progs k).map fun op => (k, op)

variable {ι Mem : Type*}

/-- A division of the memory: `eqv none m m'` says that the common part of `m` and `m'` is the
same, `eqv (some k) m m'` that the part of task `k` is the same. -/
structure Parts (ι Mem : Type*) where
  eqv : Option ι → Mem → Mem → Prop
  equiv : ∀ p, Equivalence (eqv p)
  ext : ∀ m m', (∀ p, eqv p m m') → m = m'

/-- Operation `op` writes only to the part of task `k`, and what it writes depends only on that
part and the common part. -/
structure Parts.Local (P : Parts ι Mem) (k : ι) (op : Mem → Mem) : Prop where
  frame : ∀ p m, p ≠ some k → P.eqv p (op m) m
  reads : ∀ m m', P.eqv none m m' → P.eqv (some k) m m' → P.eqv (some k) (op m) (op m')

theorem exec_append (l l' : List (Mem → Mem)) (m : Mem) : exec (l ++ l') m = exec l' (exec l m) := by
  simp [exec]

theorem exec_cons (op : Mem → Mem) (l : List (Mem → Mem)) (m : Mem) : exec (op :: l) m = exec l (op m) := rfl

/-- Operations of one task leave the other parts alone. -/
theorem Parts.exec_frame (P : Parts ι Mem) (k : ι) (l : List (Mem → Mem)) (hl : ∀ op ∈ l, P.Local k op)
    (p : Option ι) (hp : p ≠ some k) (m : Mem) : P.eqv p (exec l m) m := by
  induction l generalizing m with
  | nil => exact (P.equiv p).refl _
  | cons op l ih =>
    rw [exec_cons]
    exact (P.equiv p).trans (ih (fun o ho => hl o (List.mem_cons_of_mem _ ho)) _)
      ((hl op List.mem_cons_self).frame p m hp)

theorem Parts.exec_reads (P : Parts ι Mem) (k : ι) (l : List (Mem → Mem)) (hl : ∀ op ∈ l, P.Local k op)
    (m m' : Mem) (h0 : P.eqv none m m') (h1 : P.eqv (some k) m m') :
    P.eqv (some k) (exec l m) (exec l m') := by
  induction l generalizing m m' with
  | nil => exact h1
  | cons op l ih =>
    rw [exec_cons, exec_cons]
    have hop := hl op List.mem_cons_self
    refine ih (fun o ho => hl o (List.mem_cons_of_mem _ ho)) _ _ ?_ (hop.reads m m' h0 h1)
    exact (P.equiv none).trans (hop.frame none m (by simp))
      ((P.equiv none).trans h0 ((P.equiv none).symm (hop.frame none m' (by simp))))

/-- What a merged execution leaves in the part of task `k` is what task `k` alone would have left. -/
theorem Parts.execL_part [DecidableEq ι] (P : Parts ι Mem) (l : List (ι × (Mem → Mem))) (hl : ∀ e ∈ l, P.Local e.1 e.2)
    (k : ι) (m : Mem) :
    P.eqv none (execL l m) m ∧
    P.eqv (some k) (execL l m) (exec ((l.filter fun e => e.1 = k).map Prod.snd) m) := by
  induction l generalizing m with
  | nil => exact ⟨(P.equiv _).refl _, (P.equiv _).refl _⟩
  | cons e l ih =>
    have hl' : ∀ e ∈ l, P.Local e.1 e.2 := fun o ho => hl o (List.mem_cons_of_mem _ ho)
    have he := hl e List.mem_cons_self
    have hexec : execL (e :: l) m = execL l (e.2 m) := rfl
    obtain ⟨h0, hk⟩ := ih hl' (e.2 m)
    rw [hexec]
    refine ⟨(P.equiv _).trans h0 (he.frame none m (by simp)), ?_⟩
    by_cases hek : e.1 = k
    · rw [List.filter_cons_of_pos (by simpa using hek), List.map_cons, exec_cons]
      exact hk
    · rw [List.filter_cons_of_neg (by simpa using hek)]
      refine (P.equiv _).trans hk ?_
      have hloc : ∀ op ∈ (l.filter fun e => e.1 = k).map Prod.snd, P.Local k op := by
        intro op hop
        obtain ⟨e', he', rfl⟩ := List.mem_map.1 hop
        obtain ⟨h1, h2⟩ := List.mem_filter.1 he'
        have h2' : e'.1 = k := by simpa using h2
        rw [← h2']
        exact hl' e' h1
      refine P.exec_reads k _ hloc _ _ (he.frame none m (by simp)) ?_
      exact he.frame (some k) m (by simpa using Ne.symm hek)

theorem mem_interleaving [DecidableEq ι] {progs : ι → List (Mem → Mem)} {l : List (ι × (Mem → Mem))}
    (h : Interleaving progs l) {e : ι × (Mem → Mem)} (he : e ∈ l) : e.2 ∈ progs e.1 := by
  rw [← h e.1]
  exact List.mem_map.2 ⟨e, List.mem_filter.2 ⟨he, by simp⟩, rfl⟩

/-- Two merges of the same tasks leave the same memory. -/
theorem Parts.interleaving_unique [DecidableEq ι] (P : Parts ι Mem) (progs : ι → List (Mem → Mem))
    (hloc : ∀ k, ∀ op ∈ progs k, P.Local k op) (l l' : List (ι × (Mem → Mem)))
    (h : Interleaving progs l) (h' : Interleaving progs l') (m : Mem) : execL l m = execL l' m := by
  refine P.ext _ _ fun p => ?_
  have hl : ∀ e ∈ l, P.Local e.1 e.2 := fun e he => hloc _ _ (mem_interleaving h he)
  have hl' : ∀ e ∈ l', P.Local e.1 e.2 := fun e he => hloc _ _ (mem_interleaving h' he)
  cases p with
  | none =>
    by_cases hne : Nonempty ι
    · obtain ⟨k⟩ := hne
      exact (P.equiv none).trans (P.execL_part l hl k m).1 ((P.equiv none).symm (P.execL_part l' hl' k m).1)
    · cases l with
      | nil => cases l' with
        | nil => exact (P.equiv none).refl _
        | cons e _ => exact absurd ⟨e.1⟩ hne
      | cons e _ => exact absurd ⟨e.1⟩ hne
  | some k =>
    have a := (P.execL_part l hl k m).2
    have b := (P.execL_part l' hl' k m).2
    rw [h k] at a
    rw [h' k] at b
    exact (P.equiv (some k)).trans a ((P.equiv (some k)).symm b)

/-- Running the tasks one after the other is one of the merges. -/
theorem interleaving_sequential [DecidableEq ι] (progs : ι → List (Mem → Mem)) (ks : List ι)
    (hnd : ks.Nodup) (hall : ∀ k, k ∈ ks) : Interleaving progs (sequential progs ks) := by
  have key : ∀ (ks : List ι), ks.Nodup → ∀ k,
      ((sequential progs ks).filter fun e => e.1 = k).map Prod.snd = if k ∈ ks then progs k else [] := by
    intro ks
    induction ks with
    | nil => intro _ k; simp [sequential]
    | cons a ks ih =>
      intro hnd k
      have hnd' := List.nodup_cons.1 hnd
      have hs : sequential progs (a :: ks) = ((progs a).map fun op => (a, op)) ++ sequential progs ks := by
        simp [sequential]
      rw [hs, List.filter_append, List.map_append, ih hnd'.2 k]
      by_cases hka : a = k
      · subst hka
        rw [if_neg hnd'.1, if_pos List.mem_cons_self, List.append_nil, List.filter_eq_self.2, List.map_map]
        · exact List.map_id _
        · intro e he
          obtain ⟨op, -, rfl⟩ := List.mem_map.1 he
          simp
      · have h0 : (((progs a).map fun op => (a, op)).filter fun e => e.1 = k) = [] := by
          rw [List.filter_eq_nil_iff]
          intro e he
          obtain ⟨op, -, rfl⟩ := List.mem_map.1 he
          simpa using hka
        rw [h0, List.map_nil, List.nil_append]
        have : (k ∈ a :: ks) ↔ k ∈ ks := by
          rw [List.mem_cons]
          exact ⟨fun h => h.resolve_left (Ne.symm hka), Or.inr⟩
        simp only [this]
  intro k
  rw [key ks hnd k, if_pos (hall k)]

theorem execL_sequential (progs : ι → List (Mem → Mem)) (ks : List ι) (m : Mem) :
    execL (sequential progs ks) m = ks.foldl (fun m k => exec (progs k) m) m := by
  induction ks generalizing m with
  | nil => rfl
  | cons a ks ih =>
    have hs : sequential progs (a :: ks) = ((progs a).map fun op => (a, op)) ++ sequential progs ks := by
      simp [sequential]
    rw [List.foldl_cons, ← ih, hs, execL, List.map_append, exec_append, List.map_map]
    congr 1
    exact congrArg (fun l => exec l m) (List.map_id _)

/-- Every merge of the tasks leaves the memory that the loop over the tasks leaves. -/
theorem Parts.interleaving_eq_loop [DecidableEq ι] (P : Parts ι Mem) (progs : ι → List (Mem → Mem))
    (hloc : ∀ k, ∀ op ∈ progs k, P.Local k op) (ks : List ι) (hnd : ks.Nodup) (hall : ∀ k, k ∈ ks)
    (l : List (ι × (Mem → Mem))) (h : Interleaving progs l) (m : Mem) :
    execL l m = ks.foldl (fun m k => exec (progs k) m) m := by
  rw [P.interleaving_unique progs hloc l _ h (interleaving_sequential progs ks hnd hall) m,
    execL_sequential]

end Sporco.Par
