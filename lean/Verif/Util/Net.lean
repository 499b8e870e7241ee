import Mathlib.Algebra.Order.Ring.Int
import Mathlib.Tactic.Common

/-!
# Model of `util.netgetdata` (`util.py` 171-208), C10
-/

set_option autoImplicit false

namespace Sporco.Util

/-- How one attempt (`urlopen` followed by `read`, `util.py` 197-199) can end: data, a
`URLError` whose reason is a timeout, another `URLError`, or an exception of another type. -/
inductive Outcome (D X : Type) where
  | data (d : D)
  | timeout (e : X)
  | urlError (e : X)
  | other (e : X)

/-- What a call ends with: data, or an exception: the one made at `util.py` 195, or one of
an attempt. -/
inductive NetResult (D X : Type) where
  | data (d : D)
  | valueError
  | raised (e : X)

/-- The exception held in `err`: `none` is the `ValueError` made before the loop. -/
def raiseErr {D X : Type} : Option X → NetResult D X
  | none => .valueError
  | some e => .raised e

/-- The `for ... else` loop (`util.py` 196-206): attempts left, attempts made, `err`.  Also
returns the number of attempts made. -/
def netLoop {D X : Type} (net : ℕ → Outcome D X) : ℕ → ℕ → Option X → NetResult D X × ℕ
  | 0, i, err => (raiseErr err, i)
  | n + 1, i, _ =>
    match net i with
    | .data d => (.data d, i + 1)
    | .timeout e => netLoop net n (i + 1) (some e)
    | .urlError e => (.raised e, i + 1)
    | .other e => (.raised e, i + 1)

/-- `netgetdata(url, maxtry)` (`util.py` 171-208); `net i` is the outcome attempt `i` would
have.  `range(maxtry)` is empty for a negative number. -/
def netgetdata {D X : Type} (net : ℕ → Outcome D X) (maxtry : ℤ) : NetResult D X × ℕ :=
  netLoop net maxtry.toNat 0 none

/-- The exception of a failed attempt. -/
def Outcome.error? {D X : Type} : Outcome D X → Option X
  | .data _ => none
  | .timeout e => some e
  | .urlError e => some e
  | .other e => some e

/-- The attempt timed out. -/
def Outcome.IsTimeout {D X : Type} (o : Outcome D X) : Prop := ∃ e, o = .timeout e

/-- **C10.** For every behaviour of the network and every `maxtry`: at most `maxtry` attempts
are made; every attempt but the last one timed out; data is returned exactly when the last
attempt succeeded, and it is that attempt's data; otherwise the exception raised is that of the
last attempt, which is a timeout only if all `maxtry` attempts were used; `ValueError` is raised
exactly when there is no attempt to be made. -/
theorem C10_retry {D X : Type} (net : ℕ → Outcome D X) (maxtry : ℤ) :
    let r := (netgetdata net maxtry).1
    let n := (netgetdata net maxtry).2
    (n ≤ maxtry.toNat) ∧
    (∀ i, i + 1 < n → (net i).IsTimeout) ∧
    (∀ d, r = .data d ↔ 0 < n ∧ net (n - 1) = .data d) ∧
    (∀ e, r = .raised e ↔ 0 < n ∧ (net (n - 1)).error? = some e) ∧
    (0 < n → (net (n - 1)).IsTimeout → n = maxtry.toNat) ∧
    (r = .valueError ↔ maxtry ≤ 0) := by
  have key : ∀ (k i : ℕ) (err : Option X), (∀ j < i, (net j).IsTimeout) →
      (match err with | none => i = 0 | some e => 0 < i ∧ (net (i - 1)).error? = some e) →
      let r := (netLoop net k i err).1
      let n := (netLoop net k i err).2
      (n ≤ i + k) ∧ (i ≤ n) ∧ (∀ j, j + 1 < n → (net j).IsTimeout) ∧
      (∀ d, r = .data d ↔ 0 < n ∧ net (n - 1) = .data d) ∧
      (∀ e, r = .raised e ↔ 0 < n ∧ (net (n - 1)).error? = some e) ∧
      (0 < n → (net (n - 1)).IsTimeout → n = i + k) ∧
      (r = .valueError ↔ i + k = 0) := by
    intro k
    induction k with
    | zero =>
      intro i err hi he
      simp only [netLoop]
      refine ⟨le_refl _, le_refl _, fun j hj => hi j (by omega), ?_, ?_, by intros; rfl, ?_⟩
      · intro d
        constructor
        · intro h; cases err <;> cases h
        · rintro ⟨h0, h⟩
          obtain ⟨e, he⟩ := hi (i - 1) (by omega)
          rw [he] at h; cases h
      · intro e
        cases err with
        | none =>
          simp only at he; subst he
          constructor
          · intro h; cases h
          · rintro ⟨h, _⟩; omega
        | some e' =>
          simp only [raiseErr, NetResult.raised.injEq]
          constructor
          · rintro rfl; exact he
          · rintro ⟨_, h⟩; rw [he.2] at h; cases h; rfl
      · cases err with
        | none => simp only at he; simp [raiseErr, he]
        | some e => simp only at he; simp [raiseErr]; omega
    | succ k ih =>
      intro i err hi he
      simp only [netLoop]
      rcases hn : net i with d | e | e | e
      · refine ⟨by simp, by simp, fun j hj => hi j (by simpa using hj), ?_, ?_, ?_, ?_⟩
        · simp [hn]
        · simp [hn, Outcome.error?]
        · simp [hn, Outcome.IsTimeout]
        · simp
      · have := ih (i + 1) (some e) (fun j hj => by
          rcases Nat.lt_succ_iff_lt_or_eq.1 hj with h | rfl
          · exact hi j h
          · exact ⟨e, hn⟩) ⟨by omega, by simp [hn, Outcome.error?]⟩
        obtain ⟨h1, h2, h3, h4, h5, h6, h7⟩ := this
        simp only
        exact ⟨by omega, by omega, h3, h4, h5, fun a b => by rw [h6 a b]; omega, by rw [h7]; omega⟩
      · refine ⟨by simp, by simp, fun j hj => hi j (by simpa using hj), ?_, ?_, ?_, ?_⟩
        · simp [hn]
        · simp [hn, Outcome.error?]
        · simp [hn, Outcome.IsTimeout]
        · simp
      · refine ⟨by simp, by simp, fun j hj => hi j (by simpa using hj), ?_, ?_, ?_, ?_⟩
        · simp [hn]
        · simp [hn, Outcome.error?]
        · simp [hn, Outcome.IsTimeout]
        · simp
  obtain ⟨h1, _, h3, h4, h5, h6, h7⟩ := key maxtry.toNat 0 none (by simp) rfl
  refine ⟨by simpa [netgetdata] using h1, h3, h4, h5, fun a b => by simpa [netgetdata] using h6 a b, ?_⟩
  refine h7.trans ?_
  omega

/-- **C10.** If some attempt among the first `maxtry` succeeds and all earlier ones time out,
its data is returned, after exactly that many attempts. -/
theorem C10_success {D X : Type} (net : ℕ → Outcome D X) (maxtry : ℤ) (i : ℕ) (hi : i < maxtry.toNat)
    (ht : ∀ j < i, (net j).IsTimeout) (d : D) (hd : net i = .data d) :
    netgetdata net maxtry = (.data d, i + 1) := by
  have key : ∀ (k i0 : ℕ) (err : Option X), i0 ≤ i → i < i0 + k →
      netLoop net k i0 err = (.data d, i + 1) := by
    intro k
    induction k with
    | zero => intro i0 err h1 h2; omega
    | succ k ih =>
      intro i0 err h1 h2
      simp only [netLoop]
      rcases Nat.lt_or_eq_of_le h1 with h | rfl
      · obtain ⟨e, he⟩ := ht i0 h
        rw [he]
        exact ih (i0 + 1) (some e) (by omega) (by omega)
      · rw [hd]
  exact key _ 0 none (by omega) (by omega)

/-- Two timeouts and then data, with the default `maxtry = 3`. -/
example : netgetdata (fun i => if i < 2 then .timeout i else .data "x") 3 = (.data "x", 3) :=
  C10_success _ 3 2 (by simp) (fun j hj => ⟨j, by simp [hj]⟩) "x" (by simp)

end Sporco.Util
