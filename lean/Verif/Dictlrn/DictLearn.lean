import Mathlib.Data.List.Basic
import Mathlib.Tactic.Linarith

/-!
# Model of the alternating dictionary learning loop (`dictlrn/dictlrn.py`, `dictlrn/common.py`)

The sparse coding and dictionary update objects, the evaluation of the functional, the clock and the callback are
parameters.  Named tuples and dictionaries are association lists or partial functions; `none` is an exception.
Display is modelled only as the lookup of the displayed fields.
-/

set_option autoImplicit false

namespace Sporco.Dictlrn

/-- A named tuple: the value of an attribute, if there is such an attribute. -/
abbrev Ntpl (V : Type) : Type := String → Option V

/-- The methods of the sparse coding object that the loop uses (`dictlrn.py` 329, 345-347, 382, 389).  `σ` is its
state, `Z` coefficients, `Dc` dictionaries, `V` values of statistics. -/
structure XStep (σ Z Dc V : Type) where
  solve : σ → σ
  getcoef : σ → Z
  setdict : Dc → σ → σ
  itstat : σ → List (Ntpl V)
  fields : List String

/-- The methods of the dictionary update object. -/
structure DStep (τ Z Dc V : Type) where
  solve : τ → τ
  getdict : τ → Dc
  setcoef : Z → τ → τ
  itstat : τ → List (Ntpl V)
  fields : List String

/-- Arguments of `IterStatsConfig` (`dictlrn.py` 40-74). -/
structure Isc where
  isfld : List String
  isxmap : List (String × String)
  isdmap : List (String × String)
  evlmap : List (String × String)
  hdrtxt : List String
  hdrmap : List (String × String)

/-- An entry of the recorded statistics. -/
inductive Val (V : Type) where
  | iter (j : ℕ)
  | val (v : V)
  | nil

/-- One field of `IterStatsConfig.iterstats` (`dictlrn.py` 116-127).  `evl` is the value returned by `evaluate`
(`None` cannot be indexed). -/
def field {V : Type} (isc : Isc) (j : ℕ) (t : V) (isx isd : Ntpl V) (evl : Option (Ntpl V)) (fnm : String) :
    Option (Val V) :=
  match isc.isxmap.lookup fnm with
  | some a => (isx a).map Val.val
  | none => match isc.isdmap.lookup fnm with
    | some a => (isd a).map Val.val
    | none => if (isc.evlmap.lookup fnm).isSome then (evl.bind fun e => e fnm).map Val.val
      else if fnm = "Iter" then some (Val.iter j)
      else if fnm = "Time" then some (Val.val t)
      else some Val.nil

/-- `IterStatsConfig.iterstats` (`dictlrn.py` 102-129). -/
def iterstats {V : Type} (isc : Isc) (j : ℕ) (t : V) (isx isd : Ntpl V) (evl : Option (Ntpl V)) :
    Option (List (String × Val V)) :=
  isc.isfld.mapM fun fnm => (field isc j t isx isd evl fnm).map fun v => (fnm, v)

/-- Attributes of `DictLearn` (`dictlrn.py` 277-283), with the states of the two objects. -/
structure DL (σ τ V : Type) where
  x : σ
  d : τ
  j : ℕ
  itstat : List (List (String × Val V))

section
variable {σ τ Z Dc V : Type}

/-- The last entry of the statistics of an object, or zeros if there is none (`dictlrn.py` 345-350). -/
def lastStat (l : List (Ntpl V)) (fields : List String) (zero : V) : Ntpl V :=
  match l.getLast? with
  | some s => s
  | none => fun f => if f ∈ fields then some zero else none

/-- Everything the loop is given: the two objects, the configuration, the result of `evaluate` (393-396, may be
overridden), the zero `0.0`, and the time read from the timer for the iteration number (342). -/
structure Env (σ τ Z Dc V : Type) where
  X : XStep σ Z Dc V
  D : DStep τ Z Dc V
  isc : Isc
  evl : σ → τ → Option (Ntpl V)
  zero : V
  clock : ℕ → V

/-- The body of the loop up to the callback (`dictlrn.py` 329-352); `self.j` is `j`. -/
def body (e : Env σ τ Z Dc V) (j : ℕ) (s : DL σ τ V) : Option (DL σ τ V) :=
  let x := e.X.solve s.x
  let d := e.D.setcoef (e.X.getcoef x) s.d
  let d := e.D.solve d
  let x := e.X.setdict (e.D.getdict d) x
  let evl := e.evl x d
  (iterstats e.isc j (e.clock j) (lastStat (e.X.itstat x) e.X.fields e.zero)
    (lastStat (e.D.itstat d) e.D.fields e.zero) evl).map fun r => ⟨x, d, j, s.itstat ++ [r]⟩

/-- The loop (`dictlrn.py` 326-361) over the given values of `self.j`; `cb` says whether the callback returns a
true value (it may inspect the object). -/
def loop (e : Env σ τ Z Dc V) (cb : DL σ τ V → Bool) : List ℕ → DL σ τ V → Option (DL σ τ V)
  | [], s => some s
  | j :: js, s => (body e j s).bind fun s' => if cb s' then some s' else loop e cb js s'

/-- `DictLearn.solve` (`dictlrn.py` 326-365) with `MaxMainIter` = `n`. -/
def dlSolve (e : Env σ τ Z Dc V) (n : ℕ) (cb : DL σ τ V → Bool) (s : DL σ τ V) : Option (DL σ τ V) :=
  (loop e cb (List.range' s.j n) s).map fun s => { s with j := s.j + 1 }

/-- A sequence of `solve` calls. -/
def dlRun (e : Env σ τ Z Dc V) : List (ℕ × (DL σ τ V → Bool)) → DL σ τ V → Option (DL σ τ V)
  | [], s => some s
  | c :: cs, s => (dlSolve e c.1 c.2 s).bind (dlRun e cs)

/-! ## Specification -/

/-- Strict alternation from the objects `x0`, `d0`: `xs k` and `ds k` are the objects after their `k`-th `solve`.
Between two of its solves the dictionary object is given the coefficients of the sparse coding object's last solve,
and the sparse coding object is given the dictionary of the dictionary object's last solve, and nothing else happens
to them. -/
structure Alternates (e : Env σ τ Z Dc V) (x0 : σ) (d0 : τ) (xs : ℕ → σ) (ds : ℕ → τ) : Prop where
  x_first : xs 0 = e.X.solve x0
  d_first : ds 0 = e.D.solve (e.D.setcoef (e.X.getcoef (xs 0)) d0)
  x_next : ∀ k, xs (k + 1) = e.X.solve (e.X.setdict (e.D.getdict (ds k)) (xs k))
  d_next : ∀ k, ds (k + 1) = e.D.solve (e.D.setcoef (e.X.getcoef (xs (k + 1))) (ds k))

/-- The objects after the first `n` alternations. -/
def AtEnd (e : Env σ τ Z Dc V) (x0 : σ) (d0 : τ) (xs : ℕ → σ) (ds : ℕ → τ) (n : ℕ) (x : σ) (d : τ) : Prop :=
  match n with
  | 0 => x = x0 ∧ d = d0
  | k + 1 => x = e.X.setdict (e.D.getdict (ds k)) (xs k) ∧ d = ds k

/-! ## Proofs -/

/-- One alternation on the pair of objects. -/
def alt (e : Env σ τ Z Dc V) (p : σ × τ) : σ × τ :=
  let x := e.X.solve p.1
  let d := e.D.solve (e.D.setcoef (e.X.getcoef x) p.2)
  (e.X.setdict (e.D.getdict d) x, d)

def xsOf (e : Env σ τ Z Dc V) (p : σ × τ) (k : ℕ) : σ := e.X.solve ((alt e)^[k] p).1

def dsOf (e : Env σ τ Z Dc V) (p : σ × τ) (k : ℕ) : τ := ((alt e)^[k + 1] p).2

theorem alternates_of (e : Env σ τ Z Dc V) (x0 : σ) (d0 : τ) :
    Alternates e x0 d0 (xsOf e (x0, d0)) (dsOf e (x0, d0)) := by
  refine ⟨rfl, rfl, fun k => ?_, fun k => ?_⟩
  · unfold xsOf dsOf
    rw [Function.iterate_succ_apply']
    rfl
  · unfold xsOf dsOf
    rw [Function.iterate_succ_apply' _ (k + 1)]
    rfl

theorem atEnd_of (e : Env σ τ Z Dc V) (x0 : σ) (d0 : τ) (n : ℕ) :
    AtEnd e x0 d0 (xsOf e (x0, d0)) (dsOf e (x0, d0)) n ((alt e)^[n] (x0, d0)).1 ((alt e)^[n] (x0, d0)).2 := by
  cases n with
  | zero => exact ⟨rfl, rfl⟩
  | succ k =>
    unfold AtEnd xsOf dsOf
    simp only [Function.iterate_succ_apply', and_true]
    rfl

/-- Row recorded for alternation `k` of the pair, with number `j`. -/
def rowOf (e : Env σ τ Z Dc V) (j : ℕ) (p : σ × τ) : Option (List (String × Val V)) :=
  iterstats e.isc j (e.clock j) (lastStat (e.X.itstat p.1) e.X.fields e.zero)
    (lastStat (e.D.itstat p.2) e.D.fields e.zero) (e.evl p.1 p.2)

theorem body_some {e : Env σ τ Z Dc V} {j : ℕ} {s s' : DL σ τ V} (h : body e j s = some s') :
    (s'.x, s'.d) = alt e (s.x, s.d) ∧ s'.j = j ∧ ∃ r, rowOf e j (s'.x, s'.d) = some r ∧ s'.itstat = s.itstat ++ [r] := by
  obtain ⟨r, h1, rfl⟩ := Option.map_eq_some_iff.1 h
  exact ⟨rfl, rfl, r, h1, rfl⟩

/-- What a run of the loop over `js` does: it performs a prefix of the iterations. -/
theorem loop_some {e : Env σ τ Z Dc V} {cb : DL σ τ V → Bool} {js : List ℕ} {s s' : DL σ τ V}
    (h : loop e cb js s = some s') :
    ∃ m ≤ js.length, (js ≠ [] → 1 ≤ m) ∧ (s'.x, s'.d) = (alt e)^[m] (s.x, s.d) ∧
      (1 ≤ m → ∀ hl : m - 1 < js.length, s'.j = js[m - 1]) ∧ (m = 0 → s'.j = s.j) ∧
      ∃ rs, s'.itstat = s.itstat ++ rs ∧ rs.length = m ∧
        ∀ k (hk : k < rs.length) (hk' : k < js.length), rowOf e js[k] ((alt e)^[k + 1] (s.x, s.d)) = some rs[k] := by
  induction js generalizing s with
  | nil =>
    obtain rfl := Option.some.inj h
    exact ⟨0, le_rfl, fun h => absurd rfl h, rfl, fun h => absurd h (by omega), fun _ => rfl, [], by simp, rfl,
      fun k hk => absurd hk (by simp)⟩
  | cons j js ih =>
    obtain ⟨s1, h1, h2⟩ := Option.bind_eq_some_iff.1 h
    obtain ⟨e1, e2, r, e3, e4⟩ := body_some h1
    split_ifs at h2 with hc
    · obtain rfl := Option.some.inj h2
      refine ⟨1, by simp, fun _ => le_rfl, e1, fun _ _ => e2, fun h => absurd h (by omega), [r], e4, rfl, ?_⟩
      intro k hk hk'
      obtain rfl : k = 0 := by simpa using hk
      change rowOf e j (alt e (s.x, s.d)) = some r
      rw [← e1, e3]
    · obtain ⟨m, i1, i2, i3, i4, i5, rs, i6, i7, i8⟩ := ih h2
      rw [e1] at i3 i8
      refine ⟨m + 1, by simpa using i1, fun _ => by omega, ?_, ?_, fun h => absurd h (by omega), r :: rs, ?_, by simp [i7], ?_⟩
      · rw [i3]; rfl
      · intro _ hl
        cases m with
        | zero => rw [i5 rfl, e2]; rfl
        | succ m =>
          rw [i4 (by omega) (by simpa using hl)]
          rfl
      · rw [i6, e4, List.append_assoc]; rfl
      · intro k hk hk'
        cases k with
        | zero =>
          change rowOf e j (alt e (s.x, s.d)) = some r
          rw [← e1, e3]
        | succ k => exact i8 k (by simpa using hk) (by simpa using hk')

theorem solve_dl {e : Env σ τ Z Dc V} {n : ℕ} {cb : DL σ τ V → Bool} {s s' : DL σ τ V} (h : dlSolve e n cb s = some s') :
    ∃ m ≤ n, (1 ≤ n → 1 ≤ m) ∧ (s'.x, s'.d) = (alt e)^[m] (s.x, s.d) ∧ s'.j = s.j + max m 1 ∧
      ∃ rs, s'.itstat = s.itstat ++ rs ∧ rs.length = m ∧
        ∀ k (hk : k < rs.length), rowOf e (s.j + k) ((alt e)^[k + 1] (s.x, s.d)) = some rs[k] := by
  obtain ⟨s1, h1, rfl⟩ := Option.map_eq_some_iff.1 h
  obtain ⟨m, i1, i2, i3, i4, i5, rs, i6, i7, i8⟩ := loop_some h1
  rw [List.length_range'] at i1
  refine ⟨m, i1, fun hn => i2 (by simp; omega), i3, ?_, rs, i6, i7, fun k hk => ?_⟩
  · change s1.j + 1 = _
    rcases Nat.eq_zero_or_pos m with h0 | h0
    · rw [i5 h0, h0]; rfl
    · rw [i4 h0 (by simp; omega), List.getElem_range']
      omega
  · have := i8 k hk (by simp; omega)
    rw [List.getElem_range'] at this
    simpa using this

theorem run_dl {e : Env σ τ Z Dc V} {cs : List (ℕ × (DL σ τ V → Bool))} {s s' : DL σ τ V} (h : dlRun e cs s = some s') :
    ∃ m, (s'.x, s'.d) = (alt e)^[m] (s.x, s.d) ∧ s.j + m ≤ s'.j ∧ ((∀ c ∈ cs, 1 ≤ c.1) → s'.j = s.j + m) ∧
      m ≤ (cs.map Prod.fst).sum ∧
      ∃ rs, s'.itstat = s.itstat ++ rs ∧ rs.length = m ∧ ∃ num : ℕ → ℕ, StrictMono num ∧
        ((∀ c ∈ cs, 1 ≤ c.1) → ∀ k, num k = s.j + k) ∧ s.j ≤ num 0 ∧
        ∀ k (hk : k < rs.length), rowOf e (num k) ((alt e)^[k + 1] (s.x, s.d)) = some rs[k] := by
  induction cs generalizing s with
  | nil =>
    obtain rfl := Option.some.inj h
    exact ⟨0, rfl, le_rfl, fun _ => rfl, le_rfl, [], by simp, rfl, fun k => s.j + k, fun a b h => by
      simpa using h, fun _ _ => rfl, le_rfl, fun k hk => absurd hk (by simp)⟩
  | cons c cs ih =>
    obtain ⟨s1, h1, h2⟩ := Option.bind_eq_some_iff.1 h
    obtain ⟨m1, a1, a2, a3, a4, rs1, a5, a6, a7⟩ := solve_dl h1
    obtain ⟨m2, b1, b2, b3, b4, rs2, b5, b6, num, b7, b8, b9, b10⟩ := ih h2
    rw [a3] at b1 b10
    refine ⟨m1 + m2, ?_, ?_, ?_, ?_, rs1 ++ rs2, ?_, by simp [a6, b6], fun k => if k < m1 then s.j + k else num (k - m1),
      ?_, ?_, ?_, ?_⟩
    · rw [b1, ← Function.iterate_add_apply, add_comm]
    · have := le_max_left m1 1
      omega
    · intro hc
      have h3 := b3 fun c' h' => hc c' (List.mem_cons_of_mem _ h')
      have h4 := a2 (hc c List.mem_cons_self)
      omega
    · simp only [List.map_cons, List.sum_cons]
      omega
    · rw [b5, a5, List.append_assoc]
    · refine strictMono_nat_of_lt_succ fun k => ?_
      have hn := b7.monotone (Nat.zero_le (k + 1 - m1))
      split_ifs with h5 h6 h6
      · omega
      · omega
      · omega
      · exact b7 (by omega)
    · intro hc k
      have h3 := b8 fun c' h' => hc c' (List.mem_cons_of_mem _ h')
      have h4 := a2 (hc c List.mem_cons_self)
      beta_reduce
      split_ifs with h5
      · rfl
      · rw [h3]; omega
    · beta_reduce
      split_ifs with h5
      · omega
      · have := b7.monotone (Nat.zero_le (0 - m1))
        omega
    · intro k hk
      beta_reduce
      by_cases h5 : k < m1
      · rw [if_pos h5, a7 k (by omega), List.getElem_append_left (by omega)]
      · rw [if_neg h5, List.getElem_append_right (by omega)]
        have := b10 (k - m1) (by rw [List.length_append] at hk; omega)
        rw [← Function.iterate_add_apply] at this
        rw [show k + 1 = k - m1 + 1 + m1 by omega, this]
        simp only [a6]

/-- **C55, alternation.** For any sub-solvers, configuration and sequence of `solve` calls with any iteration
limits and callbacks: the calls together perform some number `N` of strict alternations of sparse coding and
dictionary update, however they are divided into calls; there is one row of statistics for each, computed from the
two objects, and the evaluation of the functional, right after the dictionary has been passed on, with increasing
numbers; the dictionary that the last call returns is that of the last dictionary update. -/
theorem C55_alternation {e : Env σ τ Z Dc V} {cs : List (ℕ × (DL σ τ V → Bool))} {x0 : σ} {d0 : τ} {s : DL σ τ V}
    (h : dlRun e cs ⟨x0, d0, 0, []⟩ = some s) :
    ∃ xs ds N, Alternates e x0 d0 xs ds ∧ AtEnd e x0 d0 xs ds N s.x s.d ∧ N ≤ (cs.map Prod.fst).sum ∧
      s.itstat.length = N ∧ ∃ num : ℕ → ℕ, StrictMono num ∧ ∀ k (hk : k < s.itstat.length),
        iterstats e.isc (num k) (e.clock (num k))
          (lastStat (e.X.itstat (e.X.setdict (e.D.getdict (ds k)) (xs k))) e.X.fields e.zero)
          (lastStat (e.D.itstat (ds k)) e.D.fields e.zero)
          (e.evl (e.X.setdict (e.D.getdict (ds k)) (xs k)) (ds k)) = some s.itstat[k] := by
  obtain ⟨m, h1, -, -, h4, rs, h5, h6, num, h7, -, -, h8⟩ := run_dl h
  have h1' := atEnd_of e x0 d0 m
  rw [← h1] at h1'
  refine ⟨_, _, m, alternates_of e x0 d0, h1', h4, by simp [h5, h6], num, h7, fun k hk => ?_⟩
  have h5' : s.itstat = rs := h5
  have h8' := h8 k (by rw [← h5']; exact hk)
  have h9 := atEnd_of e x0 d0 (k + 1)
  rw [← h9.1, ← h9.2]
  simp only [h5']
  exact h8'

/-- **C55, numbering** (partial: no call with an iteration limit of zero).  Row `k` has number `k`, however the
iterations are divided into calls, and the iteration counter is the number of iterations. -/
theorem C55_numbering_partial {e : Env σ τ Z Dc V} {cs : List (ℕ × (DL σ τ V → Bool))} {x0 : σ} {d0 : τ}
    {s : DL σ τ V} (h : dlRun e cs ⟨x0, d0, 0, []⟩ = some s) (hc : ∀ c ∈ cs, 1 ≤ c.1) :
    s.j = s.itstat.length ∧ ∀ k (hk : k < s.itstat.length), ∃ t isx isd evl, t = e.clock k ∧
      iterstats e.isc k t isx isd evl = some s.itstat[k] := by
  obtain ⟨m, -, -, h3, -, rs, h5, h6, num, -, h7, -, h8⟩ := run_dl h
  have h5' : s.itstat = rs := h5
  refine ⟨?_, fun k hk => ?_⟩
  · rw [h3 hc, h5', h6]; exact zero_add _
  · have h8' := h8 k (by rw [← h5']; exact hk)
    rw [h7 hc k, show (⟨x0, d0, 0, []⟩ : DL σ τ V).j + k = k from zero_add k] at h8'
    simp only [h5']
    exact ⟨_, _, _, _, rfl, h8'⟩

/-- **C55, how long a call runs.** A call does what a call without callback and a limit `m` does, where `m` is the
given limit or the first iteration after which the callback returns true. -/
theorem C55_callback (e : Env σ τ Z Dc V) (n : ℕ) (cb : DL σ τ V → Bool) (s : DL σ τ V) :
    ∃ m ≤ n, dlSolve e n cb s = dlSolve e m (fun _ => false) s ∧
      (∀ i, 1 ≤ i → i < m → ∀ s', loop e (fun _ => false) (List.range' s.j i) s = some s' → cb s' = false) ∧
      (m < n → 1 ≤ m ∧ ∀ s', loop e (fun _ => false) (List.range' s.j m) s = some s' → cb s' = true) := by
  have key : ∀ (n j : ℕ) (s : DL σ τ V), ∃ m ≤ n, loop e cb (List.range' j n) s = loop e (fun _ => false) (List.range' j m) s ∧
      (∀ i, 1 ≤ i → i < m → ∀ s', loop e (fun _ => false) (List.range' j i) s = some s' → cb s' = false) ∧
      (m < n → 1 ≤ m ∧ ∀ s', loop e (fun _ => false) (List.range' j m) s = some s' → cb s' = true) := by
    intro n
    induction n with
    | zero => exact fun j s => ⟨0, le_rfl, rfl, fun i _ h => absurd h (by omega), fun h => absurd h (by omega)⟩
    | succ n ih =>
      intro j s
      cases hb : body e j s with
      | none =>
        refine ⟨n + 1, le_rfl, by simp [List.range'_succ, loop, hb], fun i hi _ s' h => ?_, fun h => absurd h (by omega)⟩
        obtain ⟨i, rfl⟩ : ∃ k, i = k + 1 := ⟨i - 1, by omega⟩
        simp [List.range'_succ, loop, hb] at h
      | some s1 =>
        by_cases hc : cb s1 = true
        · refine ⟨1, by omega, by simp [List.range'_succ, loop, hb, hc], fun i h1 h2 => absurd h2 (by omega), fun _ => ⟨le_rfl, ?_⟩⟩
          intro s' h
          simp [List.range'_succ, loop, hb] at h
          rw [← h, hc]
        · obtain ⟨m, i1, i2, i3, i4⟩ := ih (j + 1) s1
          refine ⟨m + 1, by omega, by simp [List.range'_succ, loop, hb, hc, i2], fun i h1 h2 s' h => ?_, fun h => ⟨by omega, ?_⟩⟩
          · obtain ⟨i, rfl⟩ : ∃ k, i = k + 1 := ⟨i - 1, by omega⟩
            simp only [List.range'_succ, loop, hb, Option.bind_some, Bool.false_eq_true, if_false] at h
            rcases Nat.eq_zero_or_pos i with h0 | h0
            · subst h0
              obtain rfl := Option.some.inj h
              simpa using hc
            · exact i3 i h0 (by omega) s' h
          · intro s' h'
            simp only [List.range'_succ, loop, hb, Option.bind_some, Bool.false_eq_true, if_false] at h'
            exact (i4 (by omega)).2 s' h'
  obtain ⟨m, h1, h2, h3, h4⟩ := key n s.j s
  exact ⟨m, h1, by unfold dlSolve; rw [h2], h3, h4⟩

/-! ## Fields -/

theorem mapM_some {α β : Type} {f : α → Option β} {l : List α} {r : List β} (h : l.mapM f = some r) :
    r.length = l.length ∧ ∀ k (h1 : k < l.length) (h2 : k < r.length), f l[k] = some r[k] := by
  induction l generalizing r with
  | nil =>
    obtain rfl : [] = r := by simpa using h
    exact ⟨rfl, fun k h1 => absurd h1 (by simp)⟩
  | cons a l ih =>
    rw [List.mapM_cons] at h
    obtain ⟨b, h1, h2⟩ := Option.bind_eq_some_iff.1 h
    obtain ⟨r', h3, h4⟩ := Option.bind_eq_some_iff.1 h2
    obtain rfl := Option.some.inj h4
    obtain ⟨i1, i2⟩ := ih h3
    refine ⟨by simp [i1], fun k hk1 hk2 => ?_⟩
    cases k with
    | zero => exact h1
    | succ k => exact i2 k (by simpa using hk1) (by simpa using hk2)

/-- **C55, sources of the fields.** A row has the requested fields in the requested order, and the value of each
is: the mapped attribute of the sparse coding statistics if the field is in `isxmap`; else the mapped attribute of
the dictionary update statistics if it is in `isdmap`; else the entry of the evaluation if it is in `evlmap`; else
the iteration number or time for `Iter` and `Time`. -/
theorem C55_fields {isc : Isc} {j : ℕ} {t : V} {isx isd : Ntpl V} {evl : Option (Ntpl V)} {r : List (String × Val V)}
    (h : iterstats isc j t isx isd evl = some r) :
    r.map Prod.fst = isc.isfld ∧ ∀ f v, (f, v) ∈ r →
      (∀ a, isc.isxmap.lookup f = some a → ∃ w, isx a = some w ∧ v = Val.val w) ∧
      (isc.isxmap.lookup f = none → ∀ a, isc.isdmap.lookup f = some a → ∃ w, isd a = some w ∧ v = Val.val w) ∧
      (isc.isxmap.lookup f = none → isc.isdmap.lookup f = none → (∃ a, isc.evlmap.lookup f = some a) →
        ∃ g w, evl = some g ∧ g f = some w ∧ v = Val.val w) ∧
      (isc.isxmap.lookup f = none → isc.isdmap.lookup f = none → isc.evlmap.lookup f = none →
        (f = "Iter" → v = Val.iter j) ∧ (f = "Time" → v = Val.val t) ∧ (f ≠ "Iter" → f ≠ "Time" → v = Val.nil)) := by
  obtain ⟨h1, h2⟩ := mapM_some h
  have h3 : ∀ k (hk : k < isc.isfld.length) (hk' : k < r.length), r[k].1 = isc.isfld[k] ∧
      field isc j t isx isd evl r[k].1 = some r[k].2 := by
    intro k hk hk'
    obtain ⟨v, e1, e2⟩ := Option.map_eq_some_iff.1 (h2 k hk hk')
    rw [← e2]
    exact ⟨rfl, e1⟩
  constructor
  · refine List.ext_getElem (by simp [h1]) fun k hk hk' => ?_
    rw [List.getElem_map]
    exact (h3 k hk' (by simpa using hk)).1
  · intro f v hfv
    obtain ⟨k, hk, e1⟩ := List.getElem_of_mem hfv
    have h4 := (h3 k (by omega) hk).2
    rw [e1] at h4
    unfold field at h4
    dsimp only at h4
    refine ⟨fun a ha => ?_, fun hx a ha => ?_, fun hx hd ha => ?_, fun hx hd hev => ?_⟩
    · rw [ha] at h4
      obtain ⟨w, e2, e3⟩ := Option.map_eq_some_iff.1 h4
      exact ⟨w, e2, e3.symm⟩
    · rw [hx, ha] at h4
      obtain ⟨w, e2, e3⟩ := Option.map_eq_some_iff.1 h4
      exact ⟨w, e2, e3.symm⟩
    · obtain ⟨a, ha⟩ := ha
      rw [hx, hd] at h4
      simp only [ha, Option.isSome_some, if_true] at h4
      obtain ⟨w, e2, e3⟩ := Option.map_eq_some_iff.1 h4
      obtain ⟨g, e4, e5⟩ := Option.bind_eq_some_iff.1 e2
      exact ⟨g, w, e4, e5, e3.symm⟩
    · rw [hx, hd, hev] at h4
      simp only [Option.isSome_none, Bool.false_eq_true, if_false] at h4
      refine ⟨fun hf => ?_, fun hf => ?_, fun hf1 hf2 => ?_⟩
      · rw [if_pos hf] at h4
        exact (Option.some.inj h4).symm
      · rw [if_neg (by rw [hf]; decide), if_pos hf] at h4
        exact (Option.some.inj h4).symm
      · rw [if_neg hf1, if_neg hf2] at h4
        exact (Option.some.inj h4).symm

end

/-! ## The configurations used by the convolutional classes -/

/-- `evlmap` (`dictlrn/common.py` 23-27) -/
def evlmap (acc : Bool) : List (String × String) :=
  if acc then [("ObjFun", "ObjFun"), ("DFid", "DFid"), ("RegL1", "RegL1")] else []

/-- `isxmap` (`dictlrn/common.py` 35-43); the first argument says whether `xmethod` is `'admm'` (else `'pgm'`),
the second is the option `AccurateDFid`. -/
def isxmap (xadmm acc : Bool) : List (String × String) :=
  (if xadmm then [("XPrRsdl", "PrimalRsdl"), ("XDlRsdl", "DualRsdl"), ("XRho", "Rho")]
  else [("X_F_Btrack", "F_Btrack"), ("X_Q_Btrack", "Q_Btrack"), ("X_ItBt", "IterBTrack"), ("X_L", "L"),
    ("X_Rsdl", "Rsdl")]) ++ if acc then [] else evlmap true

/-- `isdmap` (`dictlrn/common.py` 51-58); the argument says whether `dmethod` is `'pgm'`. -/
def isdmap (dpgm : Bool) : List (String × String) :=
  if dpgm then [("Cnstr", "Cnstr"), ("D_F_Btrack", "F_Btrack"), ("D_Q_Btrack", "Q_Btrack"), ("D_ItBt", "IterBTrack"),
    ("D_L", "L"), ("D_Rsdl", "Rsdl")]
  else [("Cnstr", "Cnstr"), ("DPrRsdl", "PrimalRsdl"), ("DDlRsdl", "DualRsdl"), ("DRho", "Rho")]

/-- `isfld` (`dictlrn/common.py` 66-84); `xbt`, `dbt` say whether the backtracking options are set. -/
def isfld (xadmm dpgm xbt dbt : Bool) : List String :=
  ["Iter", "ObjFun", "DFid", "RegL1", "Cnstr"] ++
  (if xadmm then ["XPrRsdl", "XDlRsdl", "XRho"]
    else if xbt then ["X_F_Btrack", "X_Q_Btrack", "X_ItBt", "X_L", "X_Rsdl"] else ["X_L", "X_Rsdl"]) ++
  (if !dpgm then ["DPrRsdl", "DDlRsdl", "DRho"]
    else if dbt then ["D_F_Btrack", "D_Q_Btrack", "D_ItBt", "D_L", "D_Rsdl"] else ["D_L", "D_Rsdl"]) ++ ["Time"]

/-- `hdrtxt` (`dictlrn/common.py` 92-107) -/
def hdrtxt (xadmm dpgm xbt dbt : Bool) : List String :=
  ["Itn", "Fnc", "DFid", "ℓ1", "Cnstr"] ++
  (if xadmm then ["r_X", "s_X", "ρ_X"] else if xbt then ["F_X", "Q_X", "It_X", "L_X"] else ["L_X"]) ++
  (if !dpgm then ["r_D", "s_D", "ρ_D"] else if dbt then ["F_D", "Q_D", "It_D", "L_D"] else ["L_D"])

/-- `hdrmap` (`dictlrn/common.py` 115-133) -/
def hdrmap (xadmm dpgm xbt dbt : Bool) : List (String × String) :=
  [("Itn", "Iter"), ("Fnc", "ObjFun"), ("DFid", "DFid"), ("ℓ1", "RegL1"), ("Cnstr", "Cnstr")] ++
  (if xadmm then [("r_X", "XPrRsdl"), ("s_X", "XDlRsdl"), ("ρ_X", "XRho")]
    else if xbt then [("F_X", "X_F_Btrack"), ("Q_X", "X_Q_Btrack"), ("It_X", "X_ItBt"), ("L_X", "X_L")]
    else [("L_X", "X_L")]) ++
  (if !dpgm then [("r_D", "DPrRsdl"), ("s_D", "DDlRsdl"), ("ρ_D", "DRho")]
    else if dbt then [("F_D", "D_F_Btrack"), ("Q_D", "D_Q_Btrack"), ("It_D", "D_ItBt"), ("L_D", "D_L")]
    else [("L_D", "D_L")])

/-- The configuration built by `ConvBPDNDictLearn` (`dictlrn/cbpdndl.py` 465-471) and `ConvBPDNMaskDictLearn`
(`dictlrn/cbpdndlmd.py` 489-495). -/
def iscConv (xadmm dpgm xbt dbt acc : Bool) : Isc :=
  ⟨isfld xadmm dpgm xbt dbt, isxmap xadmm acc, isdmap dpgm, evlmap acc, hdrtxt xadmm dpgm xbt dbt,
    hdrmap xadmm dpgm xbt dbt⟩

/-- Fields of the statistics of the ADMM sparse coding classes (`common.py` 141-142, `admm/admm.py` 185-186,
`admm/cbpdn.py` 512, 169, 2165, 1529). -/
def xFieldsAdmm : List String := ["Iter", "ObjFun", "DFid", "RegL1", "PrimalRsdl", "DualRsdl", "EpsPrimal", "EpsDual",
  "Rho", "XSlvRelRes", "Time"]

/-- Fields of the statistics of the PGM sparse coding classes (`pgm/pgm.py` 190, `pgm/cbpdn.py` 141). -/
def xFieldsPgm : List String := ["Iter", "ObjFun", "DFid", "RegL1", "Rsdl", "F_Btrack", "Q_Btrack", "IterBTrack", "L",
  "Time"]

/-- Fields common to the statistics of the ADMM dictionary update classes (`admm/ccmod.py` 181-182, 659-660,
`admm/ccmodmd.py` 203-204). -/
def dFieldsAdmm : List String := ["Iter", "DFid", "Cnstr", "PrimalRsdl", "DualRsdl", "EpsPrimal", "EpsDual", "Rho",
  "XSlvRelRes", "Time"]

/-- Fields of the statistics of the PGM dictionary update classes (`pgm/ccmod.py` 133). -/
def dFieldsPgm : List String := ["Iter", "DFid", "Cnstr", "Rsdl", "F_Btrack", "Q_Btrack", "IterBTrack", "L", "Time"]

/-- A named tuple with (at least) the given fields. -/
def HasFields {V : Type} (s : Ntpl V) (l : List String) : Prop := ∀ f ∈ l, ∃ v, s f = some v

theorem mapM_of_some {α β : Type} {f : α → Option β} (g : α → β) {l : List α} (h : ∀ a ∈ l, f a = some (g a)) :
    l.mapM f = some (l.map g) := by
  induction l with
  | nil => rfl
  | cons a l ih =>
    rw [List.mapM_cons, h a List.mem_cons_self, ih fun b hb => h b (List.mem_cons_of_mem _ hb)]
    rfl

/-- The source of a field. -/
inductive Src where
  | x (a : String)
  | d (a : String)
  | e
  | iter
  | time
  | nil
  deriving DecidableEq

/-- The source of a field in a configuration. -/
def src (isc : Isc) (f : String) : Src :=
  match isc.isxmap.lookup f with
  | some a => .x a
  | none => match isc.isdmap.lookup f with
    | some a => .d a
    | none => if (isc.evlmap.lookup f).isSome then .e else if f = "Iter" then .iter else if f = "Time" then .time else .nil

/-- The value from a source. -/
def srcVal {V : Type} (j : ℕ) (t : V) (isx isd : Ntpl V) (evl : Option (Ntpl V)) (f : String) : Src → Option (Val V)
  | .x a => (isx a).map Val.val
  | .d a => (isd a).map Val.val
  | .e => (evl.bind fun e => e f).map Val.val
  | .iter => some (Val.iter j)
  | .time => some (Val.val t)
  | .nil => some Val.nil

theorem field_src {V : Type} (isc : Isc) (j : ℕ) (t : V) (isx isd : Ntpl V) (evl : Option (Ntpl V)) (f : String) :
    field isc j t isx isd evl f = srcVal j t isx isd evl f (src isc f) := by
  unfold field src
  split
  · rfl
  · split
    · rfl
    · split_ifs <;> rfl

/-- The source provides the field. -/
def okSrc (xadmm dpgm acc : Bool) (f : String) : Src → Bool
  | .x a => a ∈ (if xadmm then xFieldsAdmm else xFieldsPgm)
  | .d a => a ∈ (if dpgm then dFieldsPgm else dFieldsAdmm)
  | .e => acc && f ∈ ["ObjFun", "DFid", "RegL1"]
  | .iter => true
  | .time => true
  | .nil => false

theorem conf_ok : ∀ xadmm dpgm xbt dbt acc, ∀ f ∈ (iscConv xadmm dpgm xbt dbt acc).isfld,
    okSrc xadmm dpgm acc f (src (iscConv xadmm dpgm xbt dbt acc) f) = true := by decide

theorem conf_src : ∀ xadmm dpgm xbt dbt acc, (∀ f ∈ ["Iter", "Time", "ObjFun", "DFid", "RegL1", "Cnstr"],
      f ∈ (iscConv xadmm dpgm xbt dbt acc).isfld) ∧ src (iscConv xadmm dpgm xbt dbt acc) "Iter" = .iter ∧
    src (iscConv xadmm dpgm xbt dbt acc) "Time" = .time ∧ src (iscConv xadmm dpgm xbt dbt acc) "Cnstr" = .d "Cnstr" ∧
    ∀ f ∈ ["ObjFun", "DFid", "RegL1"], src (iscConv xadmm dpgm xbt dbt acc) f = if acc then .e else .x f := by decide

theorem conf_hdr : ∀ xadmm dpgm xbt dbt acc, ∀ col ∈ (iscConv xadmm dpgm xbt dbt acc).hdrtxt,
    ((iscConv xadmm dpgm xbt dbt acc).hdrmap.lookup col).any fun f => f ∈ (iscConv xadmm dpgm xbt dbt acc).isfld := by decide

/-- **C55, the configurations of the convolutional classes.** For every choice of methods and options, if the two
objects record the fields of their classes (and `evaluate` returns the three values when `AccurateDFid` is set),
then recording a row raises no error and fills every field; the objective fields come from the evaluation if
`AccurateDFid` is set and from sparse coding otherwise, the constraint violation from the dictionary update, the
number and time from the loop; and every displayed column has a recorded field. -/
theorem C55_configuration {V : Type} (xadmm dpgm xbt dbt acc : Bool) (j : ℕ) (t : V) (isx isd : Ntpl V)
    (evl : Option (Ntpl V)) (hx : HasFields isx (if xadmm then xFieldsAdmm else xFieldsPgm))
    (hd : HasFields isd (if dpgm then dFieldsPgm else dFieldsAdmm))
    (he : acc = true → ∃ g, evl = some g ∧ HasFields g ["ObjFun", "DFid", "RegL1"]) :
    ∃ r, iterstats (iscConv xadmm dpgm xbt dbt acc) j t isx isd evl = some r ∧
      (∀ p ∈ r, p.2 ≠ Val.nil) ∧
      (("Iter", Val.iter j) ∈ r ∧ ("Time", Val.val t) ∈ r) ∧
      (∀ f ∈ ["ObjFun", "DFid", "RegL1"], ∃ v, (f, Val.val v) ∈ r ∧
        if acc then ∃ g, evl = some g ∧ g f = some v else isx f = some v) ∧
      (∃ v, ("Cnstr", Val.val v) ∈ r ∧ isd "Cnstr" = some v) ∧
      ∀ col ∈ (iscConv xadmm dpgm xbt dbt acc).hdrtxt, ∃ f v, (iscConv xadmm dpgm xbt dbt acc).hdrmap.lookup col = some f ∧
        (f, v) ∈ r := by
  have key : ∀ f, f ∈ (iscConv xadmm dpgm xbt dbt acc).isfld → ∃ v, v ≠ Val.nil ∧
      srcVal j t isx isd evl f (src (iscConv xadmm dpgm xbt dbt acc) f) = some v := by
    intro f hf
    have h := conf_ok xadmm dpgm xbt dbt acc f hf
    generalize src (iscConv xadmm dpgm xbt dbt acc) f = s at h
    cases s with
    | x a =>
      obtain ⟨v, hv⟩ := hx a (by simpa [okSrc] using h)
      exact ⟨.val v, by simp, by simp [srcVal, hv]⟩
    | d a =>
      obtain ⟨v, hv⟩ := hd a (by simpa [okSrc] using h)
      exact ⟨.val v, by simp, by simp [srcVal, hv]⟩
    | e =>
      simp only [okSrc, Bool.and_eq_true, decide_eq_true_eq] at h
      obtain ⟨g, rfl, hg⟩ := he h.1
      obtain ⟨v, hv⟩ := hg f h.2
      exact ⟨.val v, by simp, by simp [srcVal, hv]⟩
    | iter => exact ⟨.iter j, by simp, rfl⟩
    | time => exact ⟨.val t, by simp, rfl⟩
    | nil => simp [okSrc] at h
  haveI : Nonempty (Val V) := ⟨.nil⟩
  choose! g hg1 hg2 using key
  have hr : iterstats (iscConv xadmm dpgm xbt dbt acc) j t isx isd evl =
      some ((iscConv xadmm dpgm xbt dbt acc).isfld.map fun f => (f, g f)) := by
    refine mapM_of_some (fun f => (f, g f)) fun f hf => ?_
    rw [field_src, hg2 f hf]
    rfl
  have hmem : ∀ f, f ∈ (iscConv xadmm dpgm xbt dbt acc).isfld →
      (f, g f) ∈ (iscConv xadmm dpgm xbt dbt acc).isfld.map fun f => (f, g f) :=
    fun f hf => List.mem_map.2 ⟨f, hf, rfl⟩
  obtain ⟨c1, c2, c3, c4, c5⟩ := conf_src xadmm dpgm xbt dbt acc
  refine ⟨_, hr, ?_, ⟨?_, ?_⟩, ?_, ?_, ?_⟩
  · intro p hp
    obtain ⟨f, hf, rfl⟩ := List.mem_map.1 hp
    exact hg1 f hf
  · have h := hg2 _ (c1 "Iter" (by decide))
    rw [c2] at h
    obtain h := Option.some.inj h
    have := hmem _ (c1 "Iter" (by decide))
    rwa [← h] at this
  · have h := hg2 _ (c1 "Time" (by decide))
    rw [c3] at h
    obtain h := Option.some.inj h
    have := hmem _ (c1 "Time" (by decide))
    rwa [← h] at this
  · intro f hf
    have hf' := c1 f (by revert f; decide)
    have h := hg2 f hf'
    rw [c5 f hf] at h
    have h2 := hmem f hf'
    cases acc with
    | true =>
      obtain ⟨v, e1, e2⟩ := Option.map_eq_some_iff.1 h
      obtain ⟨G, e3, e4⟩ := Option.bind_eq_some_iff.1 e1
      rw [← e2] at h2
      exact ⟨v, h2, G, e3, e4⟩
    | false =>
      obtain ⟨v, e1, e2⟩ := Option.map_eq_some_iff.1 h
      rw [← e2] at h2
      exact ⟨v, h2, e1⟩
  · have h := hg2 _ (c1 "Cnstr" (by decide))
    rw [c4] at h
    obtain ⟨v, e1, e2⟩ := Option.map_eq_some_iff.1 h
    have h2 := hmem _ (c1 "Cnstr" (by decide))
    rw [← e2] at h2
    exact ⟨v, h2, e1⟩
  · intro col hcol
    have h := conf_hdr xadmm dpgm xbt dbt acc col hcol
    cases hl : (iscConv xadmm dpgm xbt dbt acc).hdrmap.lookup col with
    | none => rw [hl] at h; simp at h
    | some f =>
      rw [hl] at h
      exact ⟨f, g f, rfl, hmem f (by simpa using h)⟩

/-! ## Concrete cases -/

/-- A sparse coding object whose solve computes the double of its dictionary, with statistics. -/
def exX : XStep (ℕ × ℕ × List ℕ) ℕ ℕ ℕ where
  solve s := (s.1, 2 * s.1, s.2.2 ++ [2 * s.1])
  getcoef s := s.2.1
  setdict d s := (d, s.2.1, s.2.2)
  itstat s := s.2.2.map fun v f => if f = "ObjFun" then some v else none
  fields := ["ObjFun"]

/-- A dictionary object whose solve adds one to the coefficients; no statistics. -/
def exD : DStep (ℕ × ℕ) ℕ ℕ ℕ where
  solve s := (s.1, s.1 + 1)
  getdict s := s.2
  setcoef z s := (z, s.2)
  itstat _ := []
  fields := ["Cnstr"]

def exEnv : Env (ℕ × ℕ × List ℕ) (ℕ × ℕ) ℕ ℕ ℕ :=
  ⟨exX, exD, ⟨["Iter", "ObjFun", "Cnstr"], [("ObjFun", "ObjFun")], [("Cnstr", "Cnstr")], [], ["Itn"], [("Itn", "Iter")]⟩,
    fun _ _ => none, 0, fun _ => 0⟩

/-- A run of three calls; the second is ended by the callback. -/
example : (dlRun exEnv [(2, fun _ => false), (5, fun s => s.d.2 > 10), (1, fun _ => false)] ⟨(1, 0, []), (0, 1), 0, []⟩).map
    (fun s => (s.x, s.d, s.j, s.itstat.length)) = some ((31, 30, [2, 6, 14, 30]), (30, 31), 4, 4) := by decide

/-- **C55, numbering is not consecutive after a call with `MaxMainIter` 0**: the counter is advanced although no
iteration was made, and the number 0 is never used. -/
theorem C55_numbering_refuted : ∃ s, dlRun exEnv [(0, fun _ => false), (1, fun _ => false)] ⟨(1, 0, []), (0, 1), 0, []⟩ = some s ∧
    s.itstat.length = 1 ∧ s.j = 2 ∧ ∀ h : 0 < s.itstat.length, ("Iter", Val.iter 1) ∈ s.itstat[0] ∧
      ("Iter", Val.iter 0) ∉ s.itstat[0] := by
  refine ⟨_, rfl, rfl, rfl, fun _ => ⟨?_, ?_⟩⟩
  · exact List.mem_cons_self
  · intro h
    change ("Iter", Val.iter 0) ∈ [("Iter", Val.iter 1), ("ObjFun", Val.val 2), ("Cnstr", Val.val 0)] at h
    simp at h

end Sporco.Dictlrn
