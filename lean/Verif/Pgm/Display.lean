import Verif.Util.DisplayCls
import Verif.Pgm.Loop

/-!
# What a proximal gradient solver prints (C87)
-/

set_option autoImplicit false

namespace Sporco.Pgm.Display

open Sporco.Pgm Sporco.Util.Display

variable {V : Type*}

/-- What the model of the loop leaves out of a record: the tuple that `eval_objfn` returns, the tuple of `itstat_extra` and
the time (`pgm/pgm.py` 545-554). -/
structure More where
  objv : Stat → List ℝ
  ext : Stat → List Val
  time : Stat → ℝ

/-- A real number or `None`. -/
def optReal : Option ℝ → Val
  | some x => .real x
  | none => .none

/-- A natural number or `None`. -/
def optNat : Option ℕ → Val
  | some n => .int n
  | none => .none

/-- The tuple of `iteration_stats` (`pgm/pgm.py` 542-554). -/
def tplOf (m : More) (q : Stat) : List Val :=
  .int q.iter :: ((m.objv q).map .real ++ [.real q.rsdl, optReal q.F, optReal q.Q, optNat q.iterBT, .real q.L] ++ m.ext q ++
    [.real (m.time q)])

/-- The option `Backtrack` is not `None`. -/
def bt (o : Opts) : Bool :=
  match o.backtrack with
  | .none => false
  | _ => true

/-- The number of columns left out (`pgm/pgm.py` 595-598, 623-624). -/
def cutOf (o : Opts) : ℕ := if bt o then 0 else 4

/-- The lines printed by `PGM.solve` (`pgm/pgm.py` 320-382); `none` is an exception. -/
noncomputable def solveOut (S : Sci) (c : Cols) (m : More) (d : Opt) (C : Ops V) (o : Opts)
    (callback : Option (St V → Bool × V)) (s : St V) : Option (List Text) :=
  lines d (dispStrs algPGM c (cutOf o))
    (loopOut (body C o callback) (fun s => s.itstat) (!o.fastSolve && d.verbose)
      (fun q => dispRow S algPGM c (cutOf o) (tplOf m q)) (List.range' s.k o.maxMainIter) s)

theorem loopG_eq (C : Ops V) (o : Opts) (cb : Option (St V → Bool × V)) (ks : List ℕ) (s : St V) :
    loopG (body C o cb) ks s = loop C o cb ks s := by
  induction ks generalizing s with
  | nil => rfl
  | cons k ks ih =>
    rw [loopG, loop]
    simp only [ih]

/-- The values a row shows: iteration, objective function tuple, residual and, with backtracking, the two sides of the
line search condition, the number of line search steps and the inverse step size. -/
def shown (m : More) (o : Opts) (q : Stat) : List Val :=
  .int q.iter :: ((m.objv q).map .real ++ [.real q.rsdl] ++
    if bt o then [optReal q.F, optReal q.Q, optNat q.iterBT, .real q.L] else [])

theorem shownAlg_pgm (q : Stat) : shownAlg algPGM [.real q.rsdl, optReal q.F, optReal q.Q, optNat q.iterBT, .real q.L] =
    some [.real q.rsdl, optReal q.F, optReal q.Q, optNat q.iterBT, .real q.L] := rfl

theorem itdsp_pgm (c : Cols) (hc : c ∈ classesPGM) (m : More) (o : Opts) (q : Stat)
    (h1 : (m.objv q).length = c.objfn.length) (h2 : (m.ext q).length = c.extra.length) :
    itdsp algPGM c (cutOf o) (tplOf m q) = some (shown m o q) := by
  unfold tplOf
  rw [itdsp_eq algPGM c algPGM_ok (classesPGM_ok c hc) (cutOf o) _ _ _ _ _ (by simpa using h1) rfl h2, shownAlg_pgm]
  simp only [Option.map_some, shown, cutOf]
  congr 1
  cases bt o
  · simp only [Bool.false_eq_true, if_false, List.append_nil, List.length_cons, List.length_append, List.length_map,
      List.length_nil]
    rw [show (m.objv q).length + 5 + 1 - 4 = (m.objv q).length + 1 + 1 by omega, List.take_succ_cons]
    congr 1
    rw [show (m.objv q).length + 1 = ((m.objv q).map Val.real).length + 1 by simp, List.take_length_add_append]
    rfl
  · simp

theorem titles_length (c : Cols) (hc : c ∈ classesPGM) (o : Opts) :
    (shownTitles algPGM c (cutOf o)).length = c.objfn.length + 2 + if bt o then 4 else 0 := by
  have h : ∀ c ∈ classesPGM, c.titles.length = c.objfn.length := by decide
  have := h c hc
  unfold shownTitles hdrtxt cutOf
  cases bt o <;> simp [algPGM, this]

/-- With backtracking the line search has filled in its results. -/
def Filled (o : Opts) (q : Stat) : Prop :=
  bt o = true → q.F.isSome = true ∧ q.Q.isSome = true ∧ q.iterBT.isSome = true

theorem row_some (S : Sci) (c : Cols) (hc : c ∈ classesPGM) (m : More) (o : Opts) (q : Stat) (hdr fmt : Text) (nsep : ℕ)
    (hs : dispStrs algPGM c (cutOf o) = some (hdr, fmt, nsep)) (h1 : (m.objv q).length = c.objfn.length)
    (h2 : (m.ext q).length = c.extra.length) (hq : Filled o q) :
    dispRow S algPGM c (cutOf o) (tplOf m q) = pyFormat S fmt (shown m o q) ∧
    (pyFormat S fmt (shown m o q)).isSome = true := by
  have hl : (tplOf m q).length = (fieldsOf algPGM c).length := by
    simp [tplOf, fieldsOf, h1, h2, algPGM]
  refine ⟨?_, ?_⟩
  · unfold dispRow
    rw [if_pos hl, itdsp_pgm c hc m o q h1 h2, hs]
    rfl
  · obtain ⟨hdr', fmt', nsep', e1, -, e3, -⟩ := C87_table S algPGM.fmtmap 4 6 2 (shownTitles algPGM c (cutOf o))
    have hs' : statusStr (shownTitles algPGM c (cutOf o)) (algPGM.fmtmap.map fun q => (q.1, fmtD q.2)) 4 6 2 =
      some (hdr, fmt, nsep) := hs
    rw [hs'] at e1
    cases e1
    rw [Option.isSome_iff_exists, e3, titles_length c hc]
    constructor
    · unfold shown
      cases bt o <;> simp [h1]
    · intro v hv
      unfold shown at hv
      simp only [List.mem_cons, List.mem_append, List.mem_map] at hv
      rintro rfl
      cases ha : bt o with
      | false => simp [ha] at hv
      | true =>
        obtain ⟨f1, f2, f3⟩ := hq ha
        obtain ⟨x, hx⟩ := Option.isSome_iff_exists.mp f1
        obtain ⟨y, hy⟩ := Option.isSome_iff_exists.mp f2
        obtain ⟨z, hz⟩ := Option.isSome_iff_exists.mp f3
        simp [ha, hx, hy, hz, optReal, optNat] at hv

/-- **C87 for proximal gradient solvers.** As `C87_admm`: one row for every record, showing iteration, objective function,
residual and, with backtracking, the results of the line search. `hn` says that the solution step of the class fills these in
(see `C87_pgm_filled`). -/
theorem C87_pgm (S : Sci) (c : Cols) (hc : c ∈ classesPGM) (m : More) (d : Opt) (C : Ops V) (o : Opts)
    (cb : Option (St V → Bool × V)) (s : St V)
    (h1 : ∀ q, (m.objv q).length = c.objfn.length) (h2 : ∀ q, (m.ext q).length = c.extra.length)
    (hn : ∀ k v, let w := C.step k (C.start k v); Filled o (C.stat k w (C.rsdl k w))) :
    ∃ new ls hdr fmt nsep, (solve C o cb s).itstat = s.itstat ++ new ∧ solveOut S c m d C o cb s = some ls ∧
      statusStr (shownTitles algPGM c (cutOf o)) [("It_Bt".toList, fmtD 5)] 4 6 2 = some (hdr, fmt, nsep) ∧
      (o.fastSolve = true → new = []) ∧
      (d.verbose = false → ls = []) ∧
      (d.verbose = true → ∃ rows : List Text,
        ls = (if d.header then [hdr, List.replicate nsep '-'] else []) ++ rows ++
          (if d.header then [List.replicate nsep '-'] else []) ∧
        rows.length = new.length ∧
        ∀ (i : ℕ) (q : Stat) (t : Text), new[i]? = some q → rows[i]? = some t → pyFormat S fmt (shown m o q) = some t) := by
  obtain ⟨hdr, fmt, nsep, e1, -, -, -⟩ := C87_table S algPGM.fmtmap 4 6 2 (shownTitles algPGM c (cutOf o))
  have hs : dispStrs algPGM c (cutOf o) = some (hdr, fmt, nsep) := e1
  have hbody : ∀ k s, (body C o cb k s).1.itstat = s.itstat ++ (if o.fastSolve then [] else
      [let w := C.step k (C.start k s.v); C.stat k w (C.rsdl k w)]) := by
    intro k s
    unfold body
    simp only
    split_ifs
    · simp
    · rfl
  obtain ⟨new, n1, n2, n3⟩ := loopOut_eq (body C o cb) (fun s => s.itstat) (!o.fastSolve && d.verbose) o.fastSolve
    (fun q => dispRow S algPGM c (cutOf o) (tplOf m q)) (by cases o.fastSolve <;> simp)
    (fun k s => ⟨_, hbody k s, fun h => by rw [if_pos h], fun h => ⟨_, by rw [h]; rfl⟩⟩)
    (List.range' s.k o.maxMainIter) s
  rw [loopG_eq] at n1
  have hfill : ∀ ks s new, (loop C o cb ks s).itstat = s.itstat ++ new → ∀ q ∈ new, Filled o q := by
    intro ks
    induction ks with
    | nil =>
      intro s new h q hq
      have : new = [] := by simpa [loop] using h
      subst this
      cases hq
    | cons k ks ih =>
      intro s new h q hq
      rw [loop] at h
      have hF : ∀ q ∈ (if o.fastSolve then [] else [let w := C.step k (C.start k s.v); C.stat k w (C.rsdl k w)]),
          Filled o q := by
        intro q hq
        split_ifs at hq
        · cases hq
        · rw [List.mem_singleton] at hq
          subst hq
          exact hn k s.v
      split_ifs at h with hb
      · rw [hbody] at h
        have := List.append_cancel_left h
        exact hF q (this ▸ hq)
      · have : ∃ n2, (loop C o cb ks (body C o cb k s).1).itstat = (body C o cb k s).1.itstat ++ n2 := by
          obtain ⟨n2, e, -⟩ := loopOut_eq (body C o cb) (fun s => s.itstat) (!o.fastSolve && d.verbose) o.fastSolve
            (fun q => dispRow S algPGM c (cutOf o) (tplOf m q)) (by cases o.fastSolve <;> simp)
            (fun k s => ⟨_, hbody k s, fun h => by rw [if_pos h], fun h => ⟨_, by rw [h]; rfl⟩⟩)
            ks (body C o cb k s).1
          rw [loopG_eq] at e
          exact ⟨n2, e⟩
        obtain ⟨n2, e⟩ := this
        have h' := h
        rw [e, hbody, List.append_assoc] at h'
        have := List.append_cancel_left h'
        rw [← this, List.mem_append] at hq
        rcases hq with hq | hq
        · exact hF q hq
        · exact ih _ n2 e q hq
  have hf := hfill _ s new n1
  obtain ⟨ts, t1, t2, t3⟩ := mapM_some_iff (fun q => dispRow S algPGM c (cutOf o) (tplOf m q)) new
    (fun q hq => by
      obtain ⟨r1, r2⟩ := row_some S c hc m o q hdr fmt nsep hs (h1 q) (h2 q) (hf q hq)
      rw [r1]; exact r2)
  cases hv : d.verbose with
  | false =>
    refine ⟨new, [], hdr, fmt, nsep, n1, ?_, e1, n2, fun _ => rfl, fun h => by cases h⟩
    unfold solveOut lines
    rw [hv] at n3 ⊢
    rw [n3]
    simp
  | true =>
    refine ⟨new, (if d.header then [hdr, List.replicate nsep '-'] else []) ++ ts ++
          (if d.header then [List.replicate nsep '-'] else []), hdr, fmt, nsep, n1, ?_, e1, n2, fun h => absurd h (by simp),
      fun _ => ⟨ts, rfl, t2, fun i q t hq ht => ?_⟩⟩
    · unfold solveOut lines
      rw [hv] at n3 ⊢
      rw [n3, hs]
      have : (if (!o.fastSolve && true) = true then new.mapM fun q => dispRow S algPGM c (cutOf o) (tplOf m q) else some []) =
          some ts := by
        cases hf : o.fastSolve with
        | false => simpa using t1
        | true =>
          have : new = [] := n2 hf
          subst this
          cases t1
          rfl
      rw [this]
      rfl
    · rw [← (row_some S c hc m o q hdr fmt nsep hs (h1 q) (h2 q) (hf q (List.mem_of_getElem? hq))).1]
      exact t3 i q t hq ht

theorem titles_fit : ∀ c ∈ classesPGM, ∀ b : Bool, ∀ i : Fin (shownTitles algPGM c (if b then 0 else 4)).length,
    (shownTitles algPGM c (if b then 0 else 4))[i].length ≤
      ((kinds algPGM.fmtmap 4 6 2 (shownTitles algPGM c (if b then 0 else 4)))[i.1]?.map Kind.width).getD 0 := by
  decide

/-- **C87, titles fit.** The titles of every class fit into their columns, so that by `C87_table` the table lines up for
non-negative numbers with two-digit exponents and fewer than 10000 iterations. -/
theorem C87_pgm_titles (c : Cols) (hc : c ∈ classesPGM) (o : Opts) (i : ℕ)
    (h : i < (shownTitles algPGM c (cutOf o)).length) :
    (shownTitles algPGM c (cutOf o))[i].length ≤
      ((kinds algPGM.fmtmap 4 6 2 (shownTitles algPGM c (cutOf o)))[i]?.map Kind.width).getD 0 := by
  exact titles_fit c hc (bt o) ⟨i, h⟩

/-- **Negation of a documented effect of `Verbose`.** With `FastSolve` and `Verbose`, statistics are said to be computed and
recorded (`pgm/pgm.py` 84-87, 293-295). They are not: the record is left as it was and only the header and the separators
are printed. -/
theorem C87_pgm_fastsolve_refuted (S : Sci) (c : Cols) (hc : c ∈ classesPGM) (m : More) (C : Ops V) (o : Opts)
    (cb : Option (St V → Bool × V)) (s : St V) (hf : o.fastSolve = true)
    (h1 : ∀ q, (m.objv q).length = c.objfn.length) (h2 : ∀ q, (m.ext q).length = c.extra.length)
    (hn : ∀ k v, let w := C.step k (C.start k v); Filled o (C.stat k w (C.rsdl k w))) :
    (solve C o cb s).itstat = s.itstat ∧
    ∃ hdr nsep, solveOut S c m ⟨true, true⟩ C o cb s =
      some [hdr, List.replicate nsep '-', List.replicate nsep '-'] := by
  obtain ⟨new, ls, hdr, fmt, nsep, n1, n2, n3, n4, -, n6⟩ := C87_pgm S c hc m ⟨true, true⟩ C o cb s h1 h2 hn
  have : new = [] := n4 hf
  subst this
  obtain ⟨rows, r1, r2, -⟩ := n6 rfl
  have : rows = [] := List.length_eq_zero_iff.mp r2
  subst this
  exact ⟨by rw [n1, List.append_nil], hdr, nsep, by rw [n2, r1]; rfl⟩

section
variable {E : Type*} [NormedAddCommGroup E] [InnerProductSpace ℝ E]

theorem ystep_F (o : Opts) (k : ℕ) (v : Vars E) :
    (ystep o k v).F = v.F ∧ (ystep o k v).Q = v.Q ∧ (ystep o k v).iterBT = v.iterBT := by
  unfold ystep
  simp only
  split_ifs <;> exact ⟨rfl, rfl, rfl⟩

theorem btLoop_filled (C : Cls E) (o : Opts) (k : ℕ) (g : ℝ) (gr : E) (n it : ℕ) (v : Vars E)
    (h : 0 < n ∨ v.F.isSome = true ∧ v.Q.isSome = true ∧ v.iterBT.isSome = true) :
    let w := btLoop C o k g gr n it v
    w.F.isSome = true ∧ w.Q.isSome = true ∧ w.iterBT.isSome = true := by
  induction n generalizing it v with
  | zero =>
    rcases h with h | h
    · cases h
    · exact h
  | succ n ih =>
    intro w
    have e : w = btLoop C o k g gr (n + 1) it v := rfl
    rw [btLoop] at e
    simp only at e
    split_ifs at e
    · rw [e]; exact ⟨rfl, rfl, rfl⟩
    · rw [e]; exact ih _ _ (Or.inr ⟨rfl, rfl, rfl⟩)

theorem rbLoop_filled (C : Cls E) (o : Opts) (k : ℕ) (g : ℝ) (Z : E) (n it : ℕ) (v : ℝ × Vars E)
    (h : 0 < n ∨ v.2.F.isSome = true ∧ v.2.Q.isSome = true ∧ v.2.iterBT.isSome = true) :
    let w := (rbLoop C o k g Z n it v).2
    w.F.isSome = true ∧ w.Q.isSome = true ∧ w.iterBT.isSome = true := by
  induction n generalizing it v with
  | zero =>
    rcases h with h | h
    · cases h
    · exact h
  | succ n ih =>
    intro w
    have e : w = (rbLoop C o k g Z (n + 1) it v).2 := rfl
    obtain ⟨t, v⟩ := v
    rw [rbLoop] at e
    simp only at e
    split_ifs at e
    · rw [e]; exact ⟨rfl, rfl, rfl⟩
    · rw [e]; exact ih _ _ (Or.inr ⟨rfl, rfl, rfl⟩)

/-- The hypothesis of `C87_pgm` holds for the classes derived from `PGM`, for either line search with at least one step. -/
theorem C87_pgm_filled (C : Cls E) (o : Opts)
    (ho : ∀ gu n, o.backtrack = .standard gu n → 0 < n) (ho' : ∀ gd gu n, o.backtrack = .robust gd gu n → 0 < n) :
    ∀ k v, let w := (ops C o).step k ((ops C o).start k v); Filled o ((ops C o).stat k w ((ops C o).rsdl k w)) := by
  intro k v w hb
  change w.F.isSome = true ∧ w.Q.isSome = true ∧ w.iterBT.isSome = true
  have e : w = mainStep C o k ((ops C o).start k v) := rfl
  rw [e]
  unfold mainStep
  cases h : o.backtrack with
  | none => unfold bt at hb; rw [h] at hb; cases hb
  | standard gu n =>
    simp only
    unfold btStandard
    simp only
    obtain ⟨y1, y2, y3⟩ := ystep_F o k (btLoop C o k gu (C.gradF ((ops C o).start k v).Y) n 0 ((ops C o).start k v))
    rw [y1, y2, y3]
    exact btLoop_filled C o k gu _ n 0 _ (Or.inl (ho gu n h))
  | robust gd gu n =>
    simp only
    unfold btRobust
    simp only
    exact rbLoop_filled C o k gu _ n 0 _ (Or.inl (ho' gd gu n h))

end

/-- The hypotheses are met, with a real formatter, by the table of `pgm.bpdn.BPDN`, whose header is what one expects. -/
theorem example_bpdn : ∃ c ∈ classesPGM, c.name = "pgm.bpdn.BPDN" ∧
    (∃ m : More, (∀ q, (m.objv q).length = c.objfn.length) ∧ ∀ q, (m.ext q).length = c.extra.length) ∧
    (dispStrs algPGM c 4).map (fun q => (String.ofList q.1, q.2.2)) = some ("Itn   Fnc       DFid      Regℓ1     Rsdl    ", 44) := by
  refine ⟨(classesPGM.find? (fun c => c.name = "pgm.bpdn.BPDN")).get (by decide), List.get_find?_mem _, by decide,
    ⟨⟨fun q => [q.obj.1, q.obj.2.1, q.obj.2.2], fun _ => [], fun _ => 0⟩, fun _ => rfl, fun _ => rfl⟩, by decide⟩

end Sporco.Pgm.Display
