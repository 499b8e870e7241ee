import Mathlib.Data.Set.Basic
import Mathlib.Logic.Function.Basic
import Mathlib.Tactic.Common

/-!
# Arrays, references and assignment statements (C82, C83)

NumPy arrays are objects in a heap; attributes hold references.  An assignment `a = expr` makes the attribute refer to
the array the expression creates, `a = b` to the array of `b`; `a[...] = expr` and `a += expr` change the array `a`
refers to, for every holder of a reference to it.  Slices and reshaped arrays share the memory of the original and
count as the same array.  Contents are of any type.
-/

set_option autoImplicit false

namespace Sporco.Heap

variable {A V : Type*}

/-- References of the attributes, contents of the arrays, number of arrays created so far. -/
structure St (A V : Type*) where
  env : A → Option ℕ
  heap : ℕ → V
  next : ℕ

/-- The contents an expression can use. -/
abbrev View (A V : Type*) := A → Option V

def St.view (s : St A V) : View A V := fun a => (s.env a).map s.heap

inductive Stmt (A V : Type*) where
  /-- `a = expr`, the value of the expression being a new array. -/
  | new (a : A) (f : View A V → V)
  /-- `a = b`, also with slicing, reshaping, or `np.asarray` when it does not copy. -/
  | same (a b : A)
  /-- `a[...] = expr`, `a += expr`. -/
  | write (a : A) (f : View A V → V)

variable [DecidableEq A]

/-- One statement. -/
def exec (s : St A V) : Stmt A V → St A V
  | .new a f =>
    { env := Function.update s.env a (some s.next), heap := Function.update s.heap s.next (f s.view),
      next := s.next + 1 }
  | .same a b => { s with env := Function.update s.env a (s.env b) }
  | .write a f =>
    match s.env a with
    | none => s
    | some r => { s with heap := Function.update s.heap r (f s.view) }

/-- A sequence of statements. -/
def run (s : St A V) (p : List (Stmt A V)) : St A V := p.foldl exec s

/-- What a user program does with one solver object: it creates an array and passes it as argument `a`, or calls a
method, given by the blocks of statements it executes and the attribute it returns. -/
inductive Ev (A V : Type*) where
  | give (a : A) (v : V)
  | call (p : List (List (Stmt A V))) (ret : Option A)

/-- The state with the arrays the user holds, and what they contained when the user created or received them. -/
structure Hist (A V : Type*) where
  st : St A V
  given : List (ℕ × V)
  got : List (ℕ × V)

def execEv (h : Hist A V) : Ev A V → Hist A V
  | .give a v => { h with st := exec h.st (.new a fun _ => v), given := (h.st.next, v) :: h.given }
  | .call p ret =>
    let s := run h.st p.flatten
    match ret.bind s.env with
    | none => { h with st := s }
    | some r => { h with st := s, got := (r, s.heap r) :: h.got }

/-- The history of a program from the beginning. -/
def runEv (v0 : V) (l : List (Ev A V)) : Hist A V := l.foldl execEv ⟨⟨fun _ => none, fun _ => v0, 0⟩, [], []⟩

/-! ## A criterion

`own` is a set of attributes whose arrays may be changed in place. -/

/-- The attributes that refer to an array created since the block began, after one statement. -/
def freshAfter (fr : A → Prop) : Stmt A V → A → Prop
  | .new a _ => Function.update fr a True
  | .same a b => Function.update fr a (fr b)
  | .write _ _ => fr

/-- A statement keeps the criterion: it writes into an array of an attribute in `own` or created in this block, and it
makes no attribute outside `own` refer to the array of one inside, nor conversely. -/
def okStmt (own fr : A → Prop) : Stmt A V → Prop
  | .new _ _ => True
  | .same a b => own a ↔ own b
  | .write a _ => own a ∨ fr a

/-- A block keeps the criterion. -/
def okBlock (own : A → Prop) : (A → Prop) → List (Stmt A V) → Prop
  | _, [] => True
  | fr, s :: p => okStmt own fr s ∧ okBlock own (freshAfter fr s) p

/-- The references in `O` are those of attributes in `own`, now or before. -/
structure Inv (own : A → Prop) (O : Set ℕ) (s : St A V) : Prop where
  lt : ∀ a r, s.env a = some r → r < s.next
  mem : ∀ a r, s.env a = some r → own a → r ∈ O
  nmem : ∀ a r, s.env a = some r → ¬ own a → r ∉ O
  bnd : ∀ r ∈ O, r < s.next

theorem exec_frame {own fr : A → Prop} {O : Set ℕ} {s : St A V} {c : Stmt A V} {b : ℕ} (hok : okStmt own fr c)
    (hi : Inv own O s) (hb : b ≤ s.next) (hfr : ∀ a, fr a → ∃ r, s.env a = some r ∧ b ≤ r) :
    ∃ O', Inv own O' (exec s c) ∧ b ≤ (exec s c).next ∧
      (∀ a, freshAfter fr c a → ∃ r, (exec s c).env a = some r ∧ b ≤ r) ∧
      ∀ r < b, r ∉ O → r ∉ O' ∧ (exec s c).heap r = s.heap r := by
  cases c with
  | new a f =>
    refine ⟨O ∪ {r | own a ∧ r = s.next}, ⟨?_, ?_, ?_, ?_⟩, ?_, ?_, ?_⟩
    · intro x r hx
      simp only [exec] at hx ⊢
      by_cases h : x = a
      · rw [h, Function.update_self] at hx; cases hx; omega
      · rw [Function.update_of_ne h] at hx; have := hi.lt x r hx; omega
    · intro x r hx ho
      simp only [exec] at hx
      by_cases h : x = a
      · rw [h, Function.update_self] at hx; cases hx; exact Or.inr ⟨h ▸ ho, rfl⟩
      · rw [Function.update_of_ne h] at hx; exact Or.inl (hi.mem x r hx ho)
    · intro x r hx ho
      simp only [exec] at hx
      by_cases h : x = a
      · rw [h, Function.update_self] at hx; cases hx
        rintro (h1 | h1)
        · exact absurd (hi.bnd _ h1) (lt_irrefl _)
        · exact ho (h ▸ h1.1)
      · rw [Function.update_of_ne h] at hx
        rintro (h1 | h1)
        · exact hi.nmem x r hx ho h1
        · have := hi.lt x r hx; have := h1.2; omega
    · rintro r (h | h)
      · have := hi.bnd r h; simp only [exec]; omega
      · have := h.2; simp only [exec]; omega
    · simp only [exec]; omega
    · intro x hx
      simp only [exec, freshAfter] at hx ⊢
      by_cases h : x = a
      · exact ⟨s.next, by rw [h, Function.update_self], hb⟩
      · rw [Function.update_of_ne h] at hx ⊢; exact hfr x hx
    · intro r hr hO
      refine ⟨?_, ?_⟩
      · rintro (h | h)
        · exact hO h
        · have := h.2; omega
      · simp only [exec]; exact Function.update_of_ne (by omega) _ _
  | same a c =>
    refine ⟨O, ⟨?_, ?_, ?_, hi.bnd⟩, hb, ?_, fun r _ h => ⟨h, rfl⟩⟩
    · intro x r hx
      simp only [exec] at hx ⊢
      by_cases h : x = a
      · rw [h, Function.update_self] at hx; exact hi.lt c r hx
      · rw [Function.update_of_ne h] at hx; exact hi.lt x r hx
    · intro x r hx ho
      simp only [exec] at hx
      by_cases h : x = a
      · rw [h, Function.update_self] at hx; exact hi.mem c r hx (hok.1 (h ▸ ho))
      · rw [Function.update_of_ne h] at hx; exact hi.mem x r hx ho
    · intro x r hx ho
      simp only [exec] at hx
      by_cases h : x = a
      · rw [h, Function.update_self] at hx; exact hi.nmem c r hx (fun hc => ho (h ▸ hok.2 hc))
      · rw [Function.update_of_ne h] at hx; exact hi.nmem x r hx ho
    · intro x hx
      simp only [exec, freshAfter] at hx ⊢
      by_cases h : x = a
      · rw [h, Function.update_self] at hx ⊢; exact hfr c hx
      · rw [Function.update_of_ne h] at hx ⊢; exact hfr x hx
  | write a f =>
    cases he : s.env a with
    | none =>
      simp only [exec, he, freshAfter]
      exact ⟨O, hi, hb, hfr, fun r _ h => ⟨h, trivial⟩⟩
    | some q =>
      simp only [exec, he, freshAfter]
      refine ⟨O, ⟨hi.lt, hi.mem, hi.nmem, hi.bnd⟩, hb, hfr, fun r hr h => ⟨h, Function.update_of_ne ?_ _ _⟩⟩
      rintro rfl
      rcases hok with ho | ho
      · exact h (hi.mem a r he ho)
      · obtain ⟨q, hq, hbq⟩ := hfr a ho
        rw [he] at hq; cases hq; omega

theorem block_frame {own : A → Prop} (p : List (Stmt A V)) {fr : A → Prop} {O : Set ℕ} {s : St A V} {b : ℕ}
    (hok : okBlock own fr p) (hi : Inv own O s) (hb : b ≤ s.next) (hfr : ∀ a, fr a → ∃ r, s.env a = some r ∧ b ≤ r) :
    ∃ O', Inv own O' (run s p) ∧ b ≤ (run s p).next ∧
      ∀ r < b, r ∉ O → r ∉ O' ∧ (run s p).heap r = s.heap r := by
  induction p generalizing fr O s with
  | nil => exact ⟨O, hi, hb, fun r _ h => ⟨h, rfl⟩⟩
  | cons c p ih =>
    obtain ⟨O1, i1, b1, f1, h1⟩ := exec_frame hok.1 hi hb hfr
    obtain ⟨O2, i2, b2, h2⟩ := ih hok.2 i1 b1 f1
    exact ⟨O2, i2, b2, fun r hr hO => ⟨(h2 r hr (h1 r hr hO).1).1, ((h2 r hr (h1 r hr hO).1).2).trans (h1 r hr hO).2⟩⟩

theorem blocks_frame {own : A → Prop} (l : List (List (Stmt A V))) {O : Set ℕ} {s : St A V}
    (hok : ∀ p ∈ l, okBlock own (fun _ => False) p) (hi : Inv own O s) :
    ∃ O', Inv own O' (run s l.flatten) ∧ s.next ≤ (run s l.flatten).next ∧
      ∀ r < s.next, r ∉ O → r ∉ O' ∧ (run s l.flatten).heap r = s.heap r := by
  induction l generalizing O s with
  | nil => exact ⟨O, hi, le_rfl, fun r _ h => ⟨h, rfl⟩⟩
  | cons p l ih =>
    obtain ⟨O1, i1, b1, h1⟩ := block_frame p (hok p (List.mem_cons_self ..)) hi (le_refl s.next)
      (fun a h => absurd h id)
    obtain ⟨O2, i2, b2, h2⟩ := ih (fun q hq => hok q (List.mem_cons_of_mem _ hq)) i1
    rw [List.flatten_cons, show run s (p ++ l.flatten) = run (run s p) l.flatten from List.foldl_append]
    exact ⟨O2, i2, b1.trans b2, fun r hr hO => ⟨(h2 r (hr.trans_le b1) (h1 r hr hO).1).1,
      ((h2 r (hr.trans_le b1) (h1 r hr hO).1).2).trans (h1 r hr hO).2⟩⟩

/-- An event keeps the criterion. -/
def okEv (own : A → Prop) : Ev A V → Prop
  | .give a _ => ¬ own a
  | .call p _ => ∀ b ∈ p, okBlock own (fun _ => False) b

/-- The attribute an event returns is not in `own`. -/
def retEv (own : A → Prop) : Ev A V → Prop
  | .call _ (some a) => ¬ own a
  | _ => True

/-- If the events keep the criterion, arrays passed to methods keep their contents; if moreover no attribute in `own`
is returned, arrays returned by methods keep theirs. -/
theorem history {own : A → Prop} (v0 : V) (l : List (Ev A V)) (hok : ∀ e ∈ l, okEv own e) :
    (∀ x ∈ (runEv v0 l).given, (runEv v0 l).st.heap x.1 = x.2) ∧
      ((∀ e ∈ l, retEv own e) → ∀ x ∈ (runEv v0 l).got, (runEv v0 l).st.heap x.1 = x.2) := by
  have key : ∀ (l : List (Ev A V)), (∀ e ∈ l, okEv own e) → ∀ (R : Prop), (R → ∀ e ∈ l, retEv own e) →
      ∀ (h : Hist A V) (O : Set ℕ), Inv own O h.st →
      (∀ x ∈ h.given, x.1 < h.st.next ∧ x.1 ∉ O ∧ h.st.heap x.1 = x.2) →
      (R → ∀ x ∈ h.got, x.1 < h.st.next ∧ x.1 ∉ O ∧ h.st.heap x.1 = x.2) →
      (∀ x ∈ (l.foldl execEv h).given, (l.foldl execEv h).st.heap x.1 = x.2) ∧
      (R → ∀ x ∈ (l.foldl execEv h).got, (l.foldl execEv h).st.heap x.1 = x.2) := by
    intro l
    induction l with
    | nil => exact fun _ _ _ h O _ h1 h2 => ⟨fun x hx => (h1 x hx).2.2, fun hR x hx => (h2 hR x hx).2.2⟩
    | cons e l ih =>
      intro hok R hR h O hi h1 h2
      have he := hok e (List.mem_cons_self ..)
      have hrest := ih (fun e' h' => hok e' (List.mem_cons_of_mem _ h')) R
        (fun r e' h' => hR r e' (List.mem_cons_of_mem _ h')) (execEv h e)
      rw [List.foldl_cons]
      have tr : ∀ {s' : St A V} {O' : Set ℕ}, h.st.next ≤ s'.next →
          (∀ r < h.st.next, r ∉ O → r ∉ O' ∧ s'.heap r = h.st.heap r) → ∀ x : ℕ × V,
          (x.1 < h.st.next ∧ x.1 ∉ O ∧ h.st.heap x.1 = x.2) → x.1 < s'.next ∧ x.1 ∉ O' ∧ s'.heap x.1 = x.2 :=
        fun hn hf x hx => ⟨hx.1.trans_le hn, (hf x.1 hx.1 hx.2.1).1, ((hf x.1 hx.1 hx.2.1).2).trans hx.2.2⟩
      cases e with
      | give a v =>
        obtain ⟨O', i', -, -, hf⟩ := exec_frame (fr := fun _ => False) (c := .new a fun _ => v) (b := h.st.next)
          trivial hi le_rfl (fun _ h => absurd h id)
        have hn : h.st.next ≤ (exec h.st (.new a fun _ => v)).next := Nat.le_succ _
        refine hrest O' i' ?_ (fun r x hx => tr hn hf x (h2 r x hx))
        intro x hx
        rcases List.mem_cons.1 hx with rfl | hx
        · refine ⟨Nat.lt_succ_self _, i'.nmem a h.st.next ?_ he, ?_⟩
          · exact Function.update_self ..
          · exact Function.update_self ..
        · exact tr hn hf x (h1 x hx)
      | call p ret =>
        obtain ⟨O', i', hn, hf⟩ := blocks_frame p he hi
        have hst : (execEv h (.call p ret)).st = run h.st p.flatten := by
          simp only [execEv]; split <;> rfl
        have hgv : (execEv h (.call p ret)).given = h.given := by
          simp only [execEv]; split <;> rfl
        refine hrest O' (hst ▸ i') ?_ ?_
        · intro x hx
          rw [hgv] at hx
          rw [hst]
          exact tr hn hf x (h1 x hx)
        · intro r x hx
          rw [hst]
          simp only [execEv] at hx
          cases hr : ret.bind (run h.st p.flatten).env with
          | none => rw [hr] at hx; exact tr hn hf x (h2 r x hx)
          | some q =>
            rw [hr] at hx
            rcases List.mem_cons.1 hx with rfl | hx
            · obtain ⟨a, ha, haq⟩ := Option.bind_eq_some_iff.1 hr
              have hret := hR r _ (List.mem_cons_self ..)
              rw [ha] at hret
              exact ⟨i'.lt a q haq, i'.nmem a q haq hret, rfl⟩
            · exact tr hn hf x (h2 r x hx)
  have h0 : Inv own ∅ (⟨fun _ => none, fun _ => v0, 0⟩ : St A V) := by
    refine ⟨?_, ?_, ?_, ?_⟩ <;> simp
  exact key l hok (∀ e ∈ l, retEv own e) id ⟨⟨fun _ => none, fun _ => v0, 0⟩, [], []⟩ ∅ h0 (by simp) (by simp)

/-! ## Attributes that keep their array -/

/-- The statement does not assign to `a`. -/
def keepStmt (a : A) : Stmt A V → Prop
  | .new b _ => b ≠ a
  | .same b _ => b ≠ a
  | .write _ _ => True

theorem exec_keep {a : A} {c : Stmt A V} (h : keepStmt a c) (s : St A V) : (exec s c).env a = s.env a := by
  cases c with
  | new b f => exact Function.update_of_ne (Ne.symm h) _ _
  | same b d => exact Function.update_of_ne (Ne.symm h) _ _
  | write b f => simp only [exec]; split <;> rfl

theorem run_keep {a : A} (p : List (Stmt A V)) (h : ∀ c ∈ p, keepStmt a c) (s : St A V) :
    (run s p).env a = s.env a := by
  induction p generalizing s with
  | nil => rfl
  | cons c p ih =>
    exact (ih (fun d hd => h d (List.mem_cons_of_mem _ hd)) (exec s c)).trans (exec_keep (h c (List.mem_cons_self ..)) s)

/-- The event does not assign to `a` and returns nothing else. -/
def keepEv (a : A) : Ev A V → Prop
  | .give b _ => b ≠ a
  | .call p ret => (∀ b ∈ p, ∀ c ∈ b, keepStmt a c) ∧ (ret = none ∨ ret = some a)

theorem live {a : A} (l : List (Ev A V)) (hl : ∀ e ∈ l, keepEv a e) (h : Hist A V) (r : ℕ) (hr : h.st.env a = some r) :
    (l.foldl execEv h).st.env a = some r ∧ ∀ x ∈ (l.foldl execEv h).got, x ∈ h.got ∨ x.1 = r := by
  induction l generalizing h with
  | nil => exact ⟨hr, fun x hx => Or.inl hx⟩
  | cons e l ih =>
    have he := hl e (List.mem_cons_self ..)
    have hst : (execEv h e).st.env a = some r ∧ ∀ x ∈ (execEv h e).got, x ∈ h.got ∨ x.1 = r := by
      cases e with
      | give b v => exact ⟨(exec_keep (c := .new b fun _ => v) he h.st).trans hr, fun x hx => Or.inl hx⟩
      | call p ret =>
        have hk : (run h.st p.flatten).env a = some r :=
          (run_keep p.flatten (fun c hc => by
            obtain ⟨b, hb, hc⟩ := List.mem_flatten.1 hc
            exact he.1 b hb c hc) h.st).trans hr
        simp only [execEv]
        rcases he.2 with rfl | rfl
        · exact ⟨hk, fun x hx => Or.inl hx⟩
        · simp only [Option.bind_some, hk]
          refine ⟨trivial, fun x hx => ?_⟩
          rcases List.mem_cons.1 hx with rfl | hx
          · exact Or.inr rfl
          · exact Or.inl hx
    obtain ⟨h1, h2⟩ := ih (fun e' h' => hl e' (List.mem_cons_of_mem _ h')) (execEv h e) hst.1
    refine ⟨h1, fun x hx => ?_⟩
    rcases h2 x hx with h3 | h3
    · exact hst.2 x h3
    · exact Or.inr h3

end Sporco.Heap
