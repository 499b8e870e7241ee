import Verif.Util.DisplayCls
import Verif.Admm.Loop

/-!
# What an ADMM solver prints (C87)
-/

set_option autoImplicit false

namespace Sporco.Admm.Display

open Sporco.Admm Sporco.Util.Display

variable {E F G H : Type*} [NormedAddCommGroup G] [InnerProductSpace ℝ G]

/-- What the model of the loop leaves out of a record: the tuple that `eval_objfn` returns, the tuple of `itstat_extra` and
the time (`admm/admm.py` 514-517). -/
structure More where
  objv : Stat → List ℝ
  ext : Stat → List Val
  time : Stat → ℝ

/-- The tuple of `iteration_stats` (`admm/admm.py` 511-517). -/
def tplOf (m : More) (q : Stat) : List Val :=
  .int q.iter :: ((m.objv q).map .real ++ [.real q.rsdl.r, .real q.rsdl.s, .real q.rsdl.epri, .real q.rsdl.edua,
    .real q.rho] ++ m.ext q ++ [.real (m.time q)])

/-- The number of columns left out (`admm/admm.py` 587-590, 614-615). -/
def cutOf (o : Opts) : ℕ := if o.autoRho then 0 else 1

/-- The lines printed by `ADMM.solve` (`admm/admm.py` 325-387); `none` is an exception. -/
noncomputable def solveOut (S : Sci) (c : Cols) (m : More) (d : Opt) (C : Cls E F G H) (o : Opts)
    (callback : Option (St E F G H → Bool × H)) (s : St E F G H) : Option (List Text) :=
  lines d (dispStrs algADMM c (cutOf o))
    (loopOut (body C o callback) (fun s => s.itstat) (!o.fastSolve && d.verbose)
      (fun q => dispRow S algADMM c (cutOf o) (tplOf m q)) (List.range' s.k o.maxMainIter) s)

theorem loopG_eq (C : Cls E F G H) (o : Opts) (cb : Option (St E F G H → Bool × H)) (ks : List ℕ) (s : St E F G H) :
    loopG (body C o cb) ks s = loop C o cb ks s := by
  induction ks generalizing s with
  | nil => rfl
  | cons k ks ih =>
    rw [loopG, loop]
    simp only [ih]

/-- The values a row shows: iteration, objective function tuple, primal and dual residual, and the penalty parameter if it
is adapted. -/
def shown (m : More) (o : Opts) (q : Stat) : List Val :=
  .int q.iter :: ((m.objv q).map .real ++ [.real q.rsdl.r, .real q.rsdl.s] ++ if o.autoRho then [.real q.rho] else [])

theorem shownAlg_admm (q : Stat) : shownAlg algADMM [.real q.rsdl.r, .real q.rsdl.s, .real q.rsdl.epri, .real q.rsdl.edua,
    .real q.rho] = some [.real q.rsdl.r, .real q.rsdl.s, .real q.rho] := rfl

theorem itdsp_admm (c : Cols) (hc : c ∈ classesADMM) (m : More) (o : Opts) (q : Stat)
    (h1 : (m.objv q).length = c.objfn.length) (h2 : (m.ext q).length = c.extra.length) :
    itdsp algADMM c (cutOf o) (tplOf m q) = some (shown m o q) := by
  unfold tplOf
  rw [itdsp_eq algADMM c algADMM_ok (classesADMM_ok c hc) (cutOf o) _ _ _ _ _ (by simpa using h1) rfl h2, shownAlg_admm]
  simp only [Option.map_some, shown, cutOf]
  congr 1
  cases o.autoRho
  · simp only [Bool.false_eq_true, if_false, List.append_nil, List.length_cons, List.length_append, List.length_map,
      List.length_nil]
    rw [show (m.objv q).length + 3 + 1 - 1 = (m.objv q).length + 2 + 1 by omega, List.take_succ_cons]
    congr 1
    rw [show (m.objv q).length + 2 = ((m.objv q).map Val.real).length + 2 by simp, List.take_length_add_append]
    rfl
  · simp

theorem titles_length (c : Cols) (hc : c ∈ classesADMM) (o : Opts) :
    (shownTitles algADMM c (cutOf o)).length = c.objfn.length + 3 + if o.autoRho then 1 else 0 := by
  have h : ∀ c ∈ classesADMM, c.titles.length = c.objfn.length := by decide
  have := h c hc
  unfold shownTitles hdrtxt cutOf
  cases o.autoRho <;> simp [algADMM, this]

theorem row_some (S : Sci) (c : Cols) (hc : c ∈ classesADMM) (m : More) (o : Opts) (q : Stat) (hdr fmt : Text) (nsep : ℕ)
    (hs : dispStrs algADMM c (cutOf o) = some (hdr, fmt, nsep)) (h1 : (m.objv q).length = c.objfn.length)
    (h2 : (m.ext q).length = c.extra.length) :
    dispRow S algADMM c (cutOf o) (tplOf m q) = pyFormat S fmt (shown m o q) ∧
    (pyFormat S fmt (shown m o q)).isSome = true := by
  have hl : (tplOf m q).length = (fieldsOf algADMM c).length := by
    simp [tplOf, fieldsOf, h1, h2, algADMM]
  refine ⟨?_, ?_⟩
  · unfold dispRow
    rw [if_pos hl, itdsp_admm c hc m o q h1 h2, hs]
    rfl
  · obtain ⟨hdr', fmt', nsep', e1, -, e3, -⟩ := C87_table S algADMM.fmtmap 4 6 2 (shownTitles algADMM c (cutOf o))
    have hs' : statusStr (shownTitles algADMM c (cutOf o)) (algADMM.fmtmap.map fun q => (q.1, fmtD q.2)) 4 6 2 =
      some (hdr, fmt, nsep) := hs
    rw [hs'] at e1
    cases e1
    rw [Option.isSome_iff_exists, e3, titles_length c hc]
    constructor
    · unfold shown
      cases o.autoRho <;> simp [h1]
    · intro v hv
      unfold shown at hv
      simp only [List.mem_cons, List.mem_append, List.mem_map] at hv
      rintro rfl
      cases ha : o.autoRho <;> simp [ha] at hv

/-- **C87 for ADMM solvers.** For every class derived from `ADMM`, `solve` prints nothing without `Verbose`; with `Verbose` it
prints one row for every record it appends to the iteration statistics, in order, between the header and separators that
`StatusHeader` asks for. The row shows the iteration, the values of the objective function, the residuals and, with
`AutoRho`, the penalty parameter, in the format of `C87_table`. With `FastSolve` there are neither records nor rows. -/
theorem C87_admm (S : Sci) (c : Cols) (hc : c ∈ classesADMM) (m : More) (d : Opt) (C : Cls E F G H) (o : Opts)
    (cb : Option (St E F G H → Bool × H)) (s : St E F G H)
    (h1 : ∀ q, (m.objv q).length = c.objfn.length) (h2 : ∀ q, (m.ext q).length = c.extra.length) :
    ∃ new ls hdr fmt nsep, (solve C o cb s).itstat = s.itstat ++ new ∧ solveOut S c m d C o cb s = some ls ∧
      statusStr (shownTitles algADMM c (cutOf o)) [] 4 6 2 = some (hdr, fmt, nsep) ∧
      (o.fastSolve = true → new = []) ∧
      (d.verbose = false → ls = []) ∧
      (d.verbose = true → ∃ rows : List Text,
        ls = (if d.header then [hdr, List.replicate nsep '-'] else []) ++ rows ++
          (if d.header then [List.replicate nsep '-'] else []) ∧
        rows.length = new.length ∧
        ∀ (i : ℕ) (q : Stat) (t : Text), new[i]? = some q → rows[i]? = some t → pyFormat S fmt (shown m o q) = some t) := by
  obtain ⟨hdr, fmt, nsep, e1, -, -, -⟩ := C87_table S algADMM.fmtmap 4 6 2 (shownTitles algADMM c (cutOf o))
  have hs : dispStrs algADMM c (cutOf o) = some (hdr, fmt, nsep) := e1
  obtain ⟨new, n1, n2, n3⟩ := loopOut_eq (body C o cb) (fun s => s.itstat) (!o.fastSolve && d.verbose) o.fastSolve
    (fun q => dispRow S algADMM c (cutOf o) (tplOf m q)) (by cases o.fastSolve <;> simp)
    (fun k s => ⟨_, body_itstat C o cb k s, fun h => by rw [if_pos h], fun h => ⟨_, by rw [h]; rfl⟩⟩)
    (List.range' s.k o.maxMainIter) s
  rw [loopG_eq] at n1
  obtain ⟨ts, t1, t2, t3⟩ := mapM_some_iff (fun q => dispRow S algADMM c (cutOf o) (tplOf m q)) new
    (fun q _ => by
      obtain ⟨r1, r2⟩ := row_some S c hc m o q hdr fmt nsep hs (h1 q) (h2 q)
      rw [r1]; exact r2)
  cases hv : d.verbose with
  | false =>
    refine ⟨new, [], hdr, fmt, nsep, n1, ?_, e1, n2, fun _ => rfl, fun h => by cases h⟩
    unfold solveOut lines
    rw [hv] at n3 ⊢
    rw [n3]
    simp
  | true =>
    refine ⟨new, (if d.header then [hdr, List.replicate nsep '-'] else []) ++ ts ++
          (if d.header then [List.replicate nsep '-'] else []), hdr, fmt, nsep, n1, ?_, e1, n2, fun h => absurd h (by simp),
      fun _ => ⟨ts, rfl, t2, fun i q t hq ht => ?_⟩⟩
    · unfold solveOut lines
      rw [hv] at n3 ⊢
      rw [n3, hs]
      have : (if (!o.fastSolve && true) = true then new.mapM fun q => dispRow S algADMM c (cutOf o) (tplOf m q) else some []) =
          some ts := by
        cases hf : o.fastSolve with
        | false => simpa using t1
        | true =>
          have : new = [] := n2 hf
          subst this
          cases t1
          rfl
      rw [this]
      rfl
    · rw [← (row_some S c hc m o q hdr fmt nsep hs (h1 q) (h2 q)).1]
      exact t3 i q t hq ht

theorem titles_fit : ∀ c ∈ classesADMM, ∀ b : Bool, ∀ i : Fin (shownTitles algADMM c (if b then 0 else 1)).length,
    (shownTitles algADMM c (if b then 0 else 1))[i].length ≤
      ((kinds algADMM.fmtmap 4 6 2 (shownTitles algADMM c (if b then 0 else 1)))[i.1]?.map Kind.width).getD 0 := by
  decide

/-- **C87, titles fit.** The titles of every class fit into their columns, so that by `C87_table` the table lines up for
non-negative numbers with two-digit exponents and fewer than 10000 iterations. -/
theorem C87_admm_titles (c : Cols) (hc : c ∈ classesADMM) (o : Opts) (i : ℕ)
    (h : i < (shownTitles algADMM c (cutOf o)).length) :
    (shownTitles algADMM c (cutOf o))[i].length ≤
      ((kinds algADMM.fmtmap 4 6 2 (shownTitles algADMM c (cutOf o)))[i]?.map Kind.width).getD 0 := by
  exact titles_fit c hc o.autoRho ⟨i, h⟩

/-- **Negation of a documented effect of `Verbose`.** With `FastSolve` and `Verbose`, statistics are said to be computed and
recorded (`admm/admm.py` 77-80, 302-304). They are not: the record is left as it was and only the header and the separators
are printed. -/
theorem C87_admm_fastsolve_refuted (S : Sci) (c : Cols) (hc : c ∈ classesADMM) (m : More) (C : Cls E F G H) (o : Opts)
    (cb : Option (St E F G H → Bool × H)) (s : St E F G H) (hf : o.fastSolve = true)
    (h1 : ∀ q, (m.objv q).length = c.objfn.length) (h2 : ∀ q, (m.ext q).length = c.extra.length) :
    (solve C o cb s).itstat = s.itstat ∧
    ∃ hdr nsep, solveOut S c m ⟨true, true⟩ C o cb s =
      some [hdr, List.replicate nsep '-', List.replicate nsep '-'] := by
  obtain ⟨new, ls, hdr, fmt, nsep, n1, n2, n3, n4, -, n6⟩ := C87_admm S c hc m ⟨true, true⟩ C o cb s h1 h2
  have : new = [] := n4 hf
  subst this
  obtain ⟨rows, r1, r2, -⟩ := n6 rfl
  have : rows = [] := List.length_eq_zero_iff.mp r2
  subst this
  exact ⟨by rw [n1, List.append_nil], hdr, nsep, by rw [n2, r1]; rfl⟩

/-- The hypotheses are met, with a real formatter, by the table of `admm.bpdn.BPDN`, whose header is what one expects. -/
theorem example_bpdn : ∃ c ∈ classesADMM, c.name = "admm.bpdn.BPDN" ∧
    (∃ m : More, (∀ q, (m.objv q).length = c.objfn.length) ∧ ∀ q, (m.ext q).length = c.extra.length) ∧
    (dispStrs algADMM c 1).map (fun q => (String.ofList q.1, q.2.2)) = some ("Itn   Fnc       DFid      Regℓ1     r         s       ", 54) := by
  refine ⟨(classesADMM.find? (fun c => c.name = "admm.bpdn.BPDN")).get (by decide), List.get_find?_mem _, by decide,
    ⟨⟨fun q => [q.obj.1, q.obj.2.1, q.obj.2.2], fun _ => [.none], fun _ => 0⟩, fun _ => rfl, fun _ => rfl⟩, by decide⟩

end Sporco.Admm.Display
