import Verif.Par.Interleave
import Verif.Par.Groups
import Mathlib.Algebra.Module.Basic
import Mathlib.Algebra.BigOperators.Group.Finset.Basic
import Mathlib.Data.Real.Basic
import Mathlib.Data.Fintype.Pi
import Mathlib.Tactic.FinCases
import Mathlib.Tactic.Module

/-!
# `ParConvBPDN`: schedules and pipelining (C53, C64)

`admm/parcbpdn.py`: the functions on the shared arrays and `solve`.  Numerical functions (the linear
solve, the proximal map) are parameters here; they are treated in `Verif.Par.ParExact`.
-/

set_option autoImplicit false

namespace Sporco.Par.PCbpdn

open Function

/-- The numerical functions.  `grp m` is the group of filter `m`; `A`: coefficient maps of one filter;
`S`: signals; `Q`: the seven residual quantities of a group. -/
structure Ops {M L : ℕ} (grp : Fin M → Fin L) (A S Q : Type*) where
  /-- `par_xstep` (145-160): from `Y0[i] - U0[i]` and the slice of `Y1 - U1/alpha`, the slice of `X` and
  `DX[i]` -/
  xsol : (i : Fin L) → S → ({m // grp m = i} → A) → ({m // grp m = i} → A) × S
  /-- `par_y1step` (222-232) on the slice of `X + U1/alpha` -/
  prox : (i : Fin L) → ({m // grp m = i} → A) → ({m // grp m = i} → A)
  /-- `y0astep` (188-189) as a function of `DX + U0` -/
  y0a : (Fin L → S) → S
  /-- `par_y0bstep` (204) as a function of `DX[i] + U0[i]` and `b` -/
  y0b : S → S → S
  rlx : ℝ
  alpha : ℝ
  /-- `par_compute_residuals` (337-347), a function of `DXnr[i]`, `Y0[i]`, `Y0old[i]`, `U0[i]` and the
  slices of `Xnr`, `Y1`, `Y1old`, `U1` -/
  res : (i : Fin L) → S → S → S → S → ({m // grp m = i} → A) → ({m // grp m = i} → A) →
    ({m // grp m = i} → A) → ({m // grp m = i} → A) → Q

/-- The shared arrays (`parcbpdn.py` 59-87). -/
@[ext] structure Mem (M L : ℕ) (A S Q : Type*) where
  b : S
  X : Fin M → A
  Xnr : Fin M → A
  Y1 : Fin M → A
  Y1old : Fin M → A
  U1 : Fin M → A
  DX : Fin L → S
  DXnr : Fin L → S
  Y0 : Fin L → S
  Y0old : Fin L → S
  U0 : Fin L → S
  r : Fin L → Q

/-- `a[mp_grp[i]:mp_grp[i+1]]` -/
def sl {M L : ℕ} {A : Type*} (grp : Fin M → Fin L) (i : Fin L) (f : Fin M → A) : {m // grp m = i} → A :=
  fun m => f m

/-- `a[mp_grp[i]:mp_grp[i+1]] = v` -/
def wr {M L : ℕ} {A : Type*} (grp : Fin M → Fin L) (i : Fin L) (f : Fin M → A) (v : {m // grp m = i} → A) :
    Fin M → A := fun m => if h : grp m = i then v ⟨m, h⟩ else f m

@[simp] theorem sl_wr {M L : ℕ} {A : Type*} (grp : Fin M → Fin L) (i : Fin L) (f : Fin M → A)
    (v : {m // grp m = i} → A) : sl grp i (wr grp i f v) = v := by
  funext m
  simp [sl, wr, m.2]

theorem sl_wr_ne {M L : ℕ} {A : Type*} (grp : Fin M → Fin L) {i j : Fin L} (h : j ≠ i) (f : Fin M → A)
    (v : {m // grp m = i} → A) : sl grp j (wr grp i f v) = sl grp j f := by
  funext m
  have : grp m ≠ i := by rw [m.2]; exact h
  simp [sl, wr, this]

theorem sl_ext {M L : ℕ} {A : Type*} (grp : Fin M → Fin L) {f f' : Fin M → A}
    (h : ∀ i, sl grp i f = sl grp i f') : f = f' := by
  funext m
  exact congrFun (h (grp m)) ⟨m, rfl⟩

section
variable {M L : ℕ} {grp : Fin M → Fin L} {A S Q : Type*} [AddCommGroup A] [Module ℝ A] [AddCommGroup S]
  [Module ℝ S]
variable (O : Ops grp A S Q)

/-- The linear solve of `par_xstep(i)` (`parcbpdn.py` 145-156), a temporary. -/
noncomputable def xf (i : Fin L) (m : Mem M L A S Q) : ({m // grp m = i} → A) × S :=
  O.xsol i (m.Y0 i - m.U0 i) (sl grp i m.Y1 - O.alpha⁻¹ • sl grp i m.U1)

/-- `par_xstep` (`parcbpdn.py` 157-158), first store. -/
noncomputable def x1 (i : Fin L) (m : Mem M L A S Q) : Mem M L A S Q :=
  { m with X := wr grp i m.X (xf O i m).1 }

/-- `par_xstep` (`parcbpdn.py` 159-160), second store. -/
noncomputable def x2 (i : Fin L) (m : Mem M L A S Q) : Mem M L A S Q :=
  { m with DX := update m.DX i (xf O i m).2 }

/-- `par_relax_AX` (`parcbpdn.py` 173) -/
def r1 (grp : Fin M → Fin L) (i : Fin L) (m : Mem M L A S Q) : Mem M L A S Q :=
  { m with Xnr := wr grp i m.Xnr (sl grp i m.X) }

/-- `par_relax_AX` (`parcbpdn.py` 174) -/
def r2 (i : Fin L) (m : Mem M L A S Q) : Mem M L A S Q := { m with DXnr := update m.DXnr i (m.DX i) }

/-- `par_relax_AX` (`parcbpdn.py` 177) -/
def r3 (i : Fin L) (m : Mem M L A S Q) : Mem M L A S Q :=
  { m with X := wr grp i m.X (O.rlx • sl grp i m.X + (1 - O.rlx) • sl grp i m.Y1) }

/-- `par_relax_AX` (`parcbpdn.py` 178) -/
def r4 (i : Fin L) (m : Mem M L A S Q) : Mem M L A S Q :=
  { m with DX := update m.DX i (O.rlx • m.DX i + (1 - O.rlx) • m.Y0 i) }

/-- `par_y0bstep` (`parcbpdn.py` 193-204) -/
def y0b (i : Fin L) (m : Mem M L A S Q) : Mem M L A S Q :=
  { m with Y0 := update m.Y0 i (O.y0b (m.DX i + m.U0 i) m.b) }

/-- `par_y1step` (`parcbpdn.py` 208-233) -/
noncomputable def y1 (i : Fin L) (m : Mem M L A S Q) : Mem M L A S Q :=
  { m with Y1 := wr grp i m.Y1 (O.prox i (sl grp i m.X + O.alpha⁻¹ • sl grp i m.U1)) }

/-- `par_u0step` (`parcbpdn.py` 237-248) -/
def u0 (i : Fin L) (m : Mem M L A S Q) : Mem M L A S Q :=
  { m with U0 := update m.U0 i (m.U0 i + (m.DX i - m.Y0 i)) }

/-- `par_u1step` (`parcbpdn.py` 251-263) -/
def u1 (i : Fin L) (m : Mem M L A S Q) : Mem M L A S Q :=
  { m with U1 := wr grp i m.U1 (sl grp i m.U1 + O.alpha • (sl grp i m.X - sl grp i m.Y1)) }

/-- `par_compute_residuals` (`parcbpdn.py` 318-347), the seven stores as one operation. -/
def rs (i : Fin L) (m : Mem M L A S Q) : Mem M L A S Q :=
  { m with r := update m.r i (O.res i (m.DXnr i) (m.Y0 i) (m.Y0old i) (m.U0 i) (sl grp i m.Xnr)
      (sl grp i m.Y1) (sl grp i m.Y1old) (sl grp i m.U1)) }

/-- The functions passed to `distribute`. -/
inductive Phase where
  | initial
  | final
  | step
  | resid

open Classical in
/-- `par_initial_stepgrp(i)` (`parcbpdn.py` 267-279) -/
noncomputable def initialGrp (i : Fin L) : List (Mem M L A S Q → Mem M L A S Q) :=
  [x1 O i, x2 O i, r1 grp i, r2 i] ++ if O.rlx ≠ 1 then [r3 O i, r4 O i] else []

/-- `par_final_stepgrp(i)` (`parcbpdn.py` 300-314) -/
noncomputable def finalGrp (i : Fin L) : List (Mem M L A S Q → Mem M L A S Q) :=
  [y0b O i, y1 O i, u0 i, u1 O i]

/-- The statements of the function of each phase, for group `i` (`par_stepgrp`: `parcbpdn.py`
283-296). -/
noncomputable def prog : Phase → Fin L → List (Mem M L A S Q → Mem M L A S Q)
  | .initial, i => initialGrp O i
  | .final, i => finalGrp O i
  | .step, i => finalGrp O i ++ initialGrp O i
  | .resid, i => [rs O i]

/-- `distribute(f, ngrp)` without a pool (`parcbpdn.py` 866). -/
noncomputable def distSeq (p : Phase) (m : Mem M L A S Q) : Mem M L A S Q :=
  (List.finRange L).foldl (fun m i => exec (prog O p i) m) m

/-- Slices and entries of group `i` belong to task `i`; `b` is common. -/
def parts (grp : Fin M → Fin L) (A S Q : Type*) : Parts (Fin L) (Mem M L A S Q) where
  eqv p m m' := match p with
    | none => m.b = m'.b
    | some i => sl grp i m.X = sl grp i m'.X ∧ sl grp i m.Xnr = sl grp i m'.Xnr ∧
        sl grp i m.Y1 = sl grp i m'.Y1 ∧ sl grp i m.Y1old = sl grp i m'.Y1old ∧
        sl grp i m.U1 = sl grp i m'.U1 ∧ m.DX i = m'.DX i ∧ m.DXnr i = m'.DXnr i ∧ m.Y0 i = m'.Y0 i ∧
        m.Y0old i = m'.Y0old i ∧ m.U0 i = m'.U0 i ∧ m.r i = m'.r i
  equiv p := by
    cases p with
    | none => exact ⟨fun _ => rfl, fun h => h.symm, fun h h' => h.trans h'⟩
    | some k =>
      refine ⟨fun _ => ⟨rfl, rfl, rfl, rfl, rfl, rfl, rfl, rfl, rfl, rfl, rfl⟩, ?_, ?_⟩
      · rintro x y ⟨a, b, c, d, e, f, g, h, i, j, k⟩
        exact ⟨a.symm, b.symm, c.symm, d.symm, e.symm, f.symm, g.symm, h.symm, i.symm, j.symm, k.symm⟩
      · rintro x y z ⟨a, b, c, d, e, f, g, h, i, j, k⟩ ⟨a', b', c', d', e', f', g', h', i', j', k'⟩
        exact ⟨a.trans a', b.trans b', c.trans c', d.trans d', e.trans e', f.trans f', g.trans g', h.trans h',
          i.trans i', j.trans j', k.trans k'⟩
  ext m m' h := by
    refine Mem.ext (h none) (sl_ext grp fun i => (h (some i)).1) (sl_ext grp fun i => (h (some i)).2.1)
      (sl_ext grp fun i => (h (some i)).2.2.1) (sl_ext grp fun i => (h (some i)).2.2.2.1)
      (sl_ext grp fun i => (h (some i)).2.2.2.2.1) ?_ ?_ ?_ ?_ ?_ ?_ <;> funext k <;> have hk := h (some k)
    exacts [hk.2.2.2.2.2.1, hk.2.2.2.2.2.2.1,
      hk.2.2.2.2.2.2.2.1, hk.2.2.2.2.2.2.2.2.1, hk.2.2.2.2.2.2.2.2.2.1, hk.2.2.2.2.2.2.2.2.2.2]

theorem local_op (k : Fin L) : ∀ op ∈ [x1 O k, x2 O k, r1 grp k, r2 k, r3 O k, r4 O k, y0b O k, y1 O k, u0 k,
    u1 O k, rs O k], (parts grp A S Q).Local k op := by
  have mk : ∀ op : Mem M L A S Q → Mem M L A S Q, (∀ m, (op m).b = m.b) →
      (∀ m j, j ≠ k → (parts grp A S Q).eqv (some j) (op m) m) →
      (∀ m m', (parts grp A S Q).eqv none m m' → (parts grp A S Q).eqv (some k) m m' →
        (parts grp A S Q).eqv (some k) (op m) (op m')) → (parts grp A S Q).Local k op := by
    intro op h1 h2 h3
    refine ⟨fun p m hp => ?_, h3⟩
    cases p with
    | none => exact h1 m
    | some j => exact h2 m j fun h => hp (by rw [h])
  intro op hop
  simp only [List.mem_cons, List.not_mem_nil, or_false] at hop
  rcases hop with rfl | rfl | rfl | rfl | rfl | rfl | rfl | rfl | rfl | rfl | rfl <;>
    refine mk _ (fun m => rfl) (fun m j hj => ?_) (fun m m' h0 hk => ?_)
  all_goals first
    | (refine ⟨?_, ?_, ?_, ?_, ?_, ?_, ?_, ?_, ?_, ?_, ?_⟩ <;>
        first | rfl | exact update_of_ne hj _ _ | exact sl_wr_ne grp hj _ _)
    | (replace h0 : m.b = m'.b := h0
       obtain ⟨a, b, c, d, e, f, x, y, z, u, v⟩ := hk
       refine ⟨?_, ?_, ?_, ?_, ?_, ?_, ?_, ?_, ?_, ?_, ?_⟩ <;> first
        | assumption
        | simp only [x1, x2, r1, r2, r3, r4, y0b, y1, u0, u1, rs, xf, sl_wr, update_self, h0, a, b, c, d, e, f,
            x, y, z, u, v])

theorem local_prog (p : Phase) (k : Fin L) : ∀ op ∈ prog O p k, (parts grp A S Q).Local k op := by
  intro op hop
  apply local_op O k
  have hi : op ∈ initialGrp O k → op ∈ [x1 O k, x2 O k, r1 grp k, r2 k, r3 O k, r4 O k, y0b O k, y1 O k, u0 k,
      u1 O k, rs O k] := by
    intro h
    unfold initialGrp at h
    rcases List.mem_append.1 h with h | h
    · simp only [List.mem_cons, List.not_mem_nil, or_false] at h ⊢; tauto
    · split_ifs at h
      all_goals simp only [List.mem_cons, List.not_mem_nil, or_false] at h ⊢
      all_goals tauto
  have hf : op ∈ finalGrp O k → op ∈ [x1 O k, x2 O k, r1 grp k, r2 k, r3 O k, r4 O k, y0b O k, y1 O k, u0 k,
      u1 O k, rs O k] := by
    intro h
    simp only [finalGrp, List.mem_cons, List.not_mem_nil, or_false] at h ⊢
    tauto
  cases p with
  | initial => exact hi hop
  | final => exact hf hop
  | step =>
    rcases List.mem_append.1 hop with h | h
    · exact hf h
    · exact hi h
  | resid =>
    simp only [prog, List.mem_cons, List.not_mem_nil, or_false] at hop ⊢
    tauto

/-- **C53, one call of `distribute`.** Whatever the order in which the worker processes perform the
statements for the groups, the arrays are those of the loop over the groups. -/
theorem C53_distribute (p : Phase) (l : List (Fin L × (Mem M L A S Q → Mem M L A S Q)))
    (h : Interleaving (prog O p) l) (m : Mem M L A S Q) : execL l m = distSeq O p m :=
  (parts grp A S Q).interleaving_eq_loop _ (local_prog O p) _ (List.nodup_finRange L) List.mem_finRange l h m

/-! ## `solve` -/

/-- `y0astep` (`parcbpdn.py` 182-189) -/
def y0astep (m : Mem M L A S Q) : Mem M L A S Q := { m with b := O.y0a (m.DX + m.U0) }

/-- `self.k is first_iteration` (`parcbpdn.py` 774, 777): identity of integer objects.  CPython keeps one
object for each integer up to 256; larger ones produced by `range` are new objects. -/
def same (a b : ℕ) : Bool := a == b && decide (a ≤ 256)

/-- Body of the loop of `solve` (`parcbpdn.py` 770-794); `dist j p` is the effect of `distribute` in
iteration `j`, `comp` whether residuals are computed. -/
def body (dist : ℕ → Phase → Mem M L A S Q → Mem M L A S Q) (first last : ℕ) (comp : Bool) (j : ℕ)
    (m : Mem M L A S Q) : Mem M L A S Q :=
  let m := { m with Y0old := m.Y0, Y1old := m.Y1 }
  let m := if same j first then dist j .initial m else m
  let m := y0astep O m
  let m := if same j last then dist j .final m else dist j .step m
  if comp then dist j .resid m else m

/-- The loop of `solve` (`parcbpdn.py` 769-819).  `brk` is the decision to stop (callback or residual
tolerances), `ev` the recorded statistics. -/
def loop {V : Type*} (bd : ℕ → Mem M L A S Q → Mem M L A S Q) (brk : ℕ → Mem M L A S Q → Bool)
    (ev : ℕ → Mem M L A S Q → List V) :
    List ℕ → ℕ × Mem M L A S Q × List V → ℕ × Mem M L A S Q × List V
  | [], s => s
  | j :: js, (_, m, st) =>
    let m' := bd j m
    let s' := (j, m', st ++ ev j m')
    if brk j m' then s' else loop bd brk ev js s'

/-- `solve` (`parcbpdn.py` 766-822): iteration counter, arrays, statistics.  (`last` is computed in
integers; for `MaxMainIter = 0` the loop does not run and its value does not matter.) -/
def solve {V : Type*} (dist : ℕ → Phase → Mem M L A S Q → Mem M L A S Q) (comp : Bool)
    (brk : ℕ → Mem M L A S Q → Bool) (ev : ℕ → Mem M L A S Q → List V) (maxIter : ℕ)
    (s : ℕ × Mem M L A S Q × List V) : ℕ × Mem M L A S Q × List V :=
  let r := loop (body O dist s.1 (s.1 + maxIter - 1) comp) brk ev (List.range' s.1 maxIter) s
  (r.1 + 1, r.2)

/-- **C53, complete runs.** Arrays, iteration count and statistics after `solve()` are the same for every
number of processes and every schedule of every call of `distribute`. -/
theorem C53_solve {V : Type*} (sched : ℕ → Phase → List (Fin L × (Mem M L A S Q → Mem M L A S Q)))
    (h : ∀ j p, Interleaving (prog O p) (sched j p)) (comp : Bool) (brk : ℕ → Mem M L A S Q → Bool)
    (ev : ℕ → Mem M L A S Q → List V) (maxIter : ℕ) (s : ℕ × Mem M L A S Q × List V) :
    solve O (fun j p => execL (sched j p)) comp brk ev maxIter s =
      solve O (fun _ => distSeq O) comp brk ev maxIter s := by
  have e : (fun j p => execL (sched j p)) = fun _ => distSeq O :=
    funext fun j => funext fun p => funext fun m => C53_distribute O p (sched j p) (h j p) m
  rw [e]

/-! ## Pipelining

The code merges the end of an iteration with the start of the next. -/

/-- The variables that carry over from one ADMM iteration to the next. -/
@[ext] structure Core (M L : ℕ) (A S : Type*) where
  Y0 : Fin L → S
  Y1 : Fin M → A
  U0 : Fin L → S
  U1 : Fin M → A

/-- The carried variables of the shared arrays. -/
def Mem.core (m : Mem M L A S Q) : Core M L A S := ⟨m.Y0, m.Y1, m.U0, m.U1⟩

/-- X update for all groups: coefficient maps and products with the dictionary. -/
noncomputable def xAll (c : Core M L A S) : (Fin M → A) × (Fin L → S) :=
  (fun n => (O.xsol (grp n) (c.Y0 (grp n) - c.U0 (grp n))
      (sl grp (grp n) c.Y1 - O.alpha⁻¹ • sl grp (grp n) c.U1)).1 ⟨n, rfl⟩,
   fun i => (O.xsol i (c.Y0 i - c.U0 i) (sl grp i c.Y1 - O.alpha⁻¹ • sl grp i c.U1)).2)

/-- Relaxed X update. -/
noncomputable def xRel (c : Core M L A S) : (Fin M → A) × (Fin L → S) :=
  (O.rlx • (xAll O c).1 + (1 - O.rlx) • c.Y1, O.rlx • (xAll O c).2 + (1 - O.rlx) • c.Y0)

/-- Y and U updates for all groups, given relaxed `X` and `DX`. -/
noncomputable def yuAll (x : (Fin M → A) × (Fin L → S)) (c : Core M L A S) : Core M L A S :=
  let Y0 := fun i => O.y0b (x.2 i + c.U0 i) (O.y0a (x.2 + c.U0))
  let Y1 := fun n => O.prox (grp n) (sl grp (grp n) x.1 + O.alpha⁻¹ • sl grp (grp n) c.U1) ⟨n, rfl⟩
  ⟨Y0, Y1, c.U0 + (x.2 - Y0), c.U1 + O.alpha • (x.1 - Y1)⟩

/-- **Specification**: one ADMM iteration in the usual order, all groups at once. -/
noncomputable def admmStep (c : Core M L A S) : Core M L A S := yuAll O (xRel O c) c

/-- The X update for the next iteration has been done. -/
def Ahead (m : Mem M L A S Q) : Prop := m.X = (xRel O m.core).1 ∧ m.DX = (xRel O m.core).2 ∧
  m.Xnr = (xAll O m.core).1 ∧ m.DXnr = (xAll O m.core).2

theorem eqv_dist (p : Phase) (i : Fin L) (m : Mem M L A S Q) :
    (distSeq O p m).b = m.b ∧ (parts grp A S Q).eqv (some i) (distSeq O p m) (exec (prog O p i) m) := by
  have hint := interleaving_sequential (prog O p) _ (List.nodup_finRange L) List.mem_finRange
  rw [← C53_distribute O p _ hint]
  have h := (parts grp A S Q).execL_part _
    (fun e he => local_prog O p _ _ (mem_interleaving hint he)) i m
  rw [hint i] at h
  exact h

theorem pi_sl (f : (i : Fin L) → ({m // grp m = i} → A)) (i : Fin L) :
    sl grp i (fun n => f (grp n) ⟨n, rfl⟩) = f i := by
  funext ⟨n, hn⟩
  subst hn
  rfl

theorem sl_xAll (c : Core M L A S) (i : Fin L) : sl grp i (xAll O c).1 =
    (O.xsol i (c.Y0 i - c.U0 i) (sl grp i c.Y1 - O.alpha⁻¹ • sl grp i c.U1)).1 :=
  pi_sl (fun i => (O.xsol i (c.Y0 i - c.U0 i) (sl grp i c.Y1 - O.alpha⁻¹ • sl grp i c.U1)).1) i

theorem sl_xRel (c : Core M L A S) (i : Fin L) : sl grp i (xRel O c).1 =
    O.rlx • (O.xsol i (c.Y0 i - c.U0 i) (sl grp i c.Y1 - O.alpha⁻¹ • sl grp i c.U1)).1 +
      (1 - O.rlx) • sl grp i c.Y1 := by
  rw [← sl_xAll]; rfl

/-- What the initial phase leaves. -/
theorem dist_initial (m : Mem M L A S Q) : distSeq O .initial m =
    { m with X := (xRel O m.core).1, DX := (xRel O m.core).2, Xnr := (xAll O m.core).1,
             DXnr := (xAll O m.core).2 } := by
  refine (parts grp A S Q).ext _ _ fun p => ?_
  cases p with
  | none =>
    by_cases hL : Nonempty (Fin L)
    · obtain ⟨i⟩ := hL
      exact (eqv_dist O .initial i m).1
    · have : L = 0 := by
        by_contra h
        exact hL ⟨⟨0, by omega⟩⟩
      subst this
      rfl
  | some i =>
    refine ((parts grp A S Q).equiv _).trans (eqv_dist O .initial i m).2 ?_
    have e1 := sl_xRel O m.core i
    have e2 := sl_xAll O m.core i
    have e3 : (xRel O m.core).2 i = O.rlx • (O.xsol i (m.Y0 i - m.U0 i)
      (sl grp i m.Y1 - O.alpha⁻¹ • sl grp i m.U1)).2 + (1 - O.rlx) • m.Y0 i := rfl
    have e4 : (xAll O m.core).2 i = (O.xsol i (m.Y0 i - m.U0 i)
      (sl grp i m.Y1 - O.alpha⁻¹ • sl grp i m.U1)).2 := rfl
    refine ⟨?_, ?_, ?_, ?_, ?_, ?_, ?_, ?_, ?_, ?_, ?_⟩
    all_goals simp only [e1, e2, e3, e4]
    all_goals by_cases hx : O.rlx = 1
    all_goals simp [prog, initialGrp, exec, hx, x1, x2, r1, r2, r3, r4, xf, Mem.core]

theorem core_save (m : Mem M L A S Q) : ({ m with Y0old := m.Y0, Y1old := m.Y1 } : Mem M L A S Q).core = m.core := rfl

/-- What the final phase leaves. -/
theorem dist_final (m : Mem M L A S Q) (hb : m.b = O.y0a (m.DX + m.U0)) :
    (distSeq O .final m).core = yuAll O (m.X, m.DX) m.core ∧
    (distSeq O .final m).X = m.X ∧ (distSeq O .final m).DX = m.DX ∧
    (distSeq O .final m).Xnr = m.Xnr ∧ (distSeq O .final m).DXnr = m.DXnr ∧
    (distSeq O .final m).Y0old = m.Y0old ∧ (distSeq O .final m).Y1old = m.Y1old := by
  have hp : ∀ i, sl grp i (yuAll O (m.X, m.DX) m.core).Y1 =
      O.prox i (sl grp i m.X + O.alpha⁻¹ • sl grp i m.U1) := fun i =>
    pi_sl (fun i => O.prox i (sl grp i m.X + O.alpha⁻¹ • sl grp i m.U1)) i
  have key := fun i => (eqv_dist O .final i m).2
  refine ⟨Core.ext ?_ (sl_ext grp fun i => ?_) ?_ (sl_ext grp fun i => ?_), sl_ext grp fun i => ?_, ?_,
    sl_ext grp fun i => ?_, ?_, ?_, sl_ext grp fun i => ?_⟩
  · funext i
    refine (key i).2.2.2.2.2.2.2.1.trans ?_
    simp [prog, finalGrp, exec, y0b, y1, u0, u1, yuAll, Mem.core, hb]
  · refine (key i).2.2.1.trans ?_
    rw [hp]
    simp [prog, finalGrp, exec, y0b, y1, u0, u1]
  · funext i
    refine (key i).2.2.2.2.2.2.2.2.2.1.trans ?_
    simp [prog, finalGrp, exec, y0b, y1, u0, u1, yuAll, Mem.core, hb]
  · refine (key i).2.2.2.2.1.trans ?_
    have : sl grp i (yuAll O (m.X, m.DX) m.core).U1 =
      sl grp i m.U1 + O.alpha • (sl grp i m.X - sl grp i (yuAll O (m.X, m.DX) m.core).Y1) := rfl
    rw [this, hp]
    simp [prog, finalGrp, exec, y0b, y1, u0, u1]
  · refine (key i).1.trans ?_
    simp [prog, finalGrp, exec, y0b, y1, u0, u1]
  · funext i
    refine (key i).2.2.2.2.2.1.trans ?_
    simp [prog, finalGrp, exec, y0b, y1, u0, u1]
  · refine (key i).2.1.trans ?_
    simp [prog, finalGrp, exec, y0b, y1, u0, u1]
  · funext i
    refine (key i).2.2.2.2.2.2.1.trans ?_
    simp [prog, finalGrp, exec, y0b, y1, u0, u1]
  · funext i
    refine (key i).2.2.2.2.2.2.2.2.1.trans ?_
    simp [prog, finalGrp, exec, y0b, y1, u0, u1]
  · refine (key i).2.2.2.1.trans ?_
    simp [prog, finalGrp, exec, y0b, y1, u0, u1]

/-- The merged phase is the final phase of all groups followed by the initial phase of all groups. -/
theorem dist_step (m : Mem M L A S Q) : distSeq O .step m = distSeq O .initial (distSeq O .final m) := by
  refine (parts grp A S Q).ext _ _ fun p => ?_
  cases p with
  | none =>
    by_cases hL : Nonempty (Fin L)
    · obtain ⟨i⟩ := hL
      exact (eqv_dist O .step i m).1.trans
        ((eqv_dist O .initial i _).1.trans (eqv_dist O .final i m).1).symm
    · have : L = 0 := by
        by_contra h
        exact hL ⟨⟨0, by omega⟩⟩
      subst this
      rfl
  | some i =>
    refine ((parts grp A S Q).equiv _).trans (eqv_dist O .step i m).2 ?_
    refine ((parts grp A S Q).equiv _).symm (((parts grp A S Q).equiv _).trans (eqv_dist O .initial i _).2 ?_)
    change (parts grp A S Q).eqv (some i) (exec (initialGrp O i) (distSeq O .final m))
      (exec (finalGrp O i ++ initialGrp O i) m)
    rw [exec_append]
    refine (parts grp A S Q).exec_reads i _ (local_prog O .initial i) _ _ ?_ (eqv_dist O .final i m).2
    refine ((parts grp A S Q).equiv _).trans (eqv_dist O .final i m).1 (((parts grp A S Q).equiv _).symm ?_)
    exact (parts grp A S Q).exec_frame i _ (local_prog O .final i) none (by simp) m

theorem dist_resid (m : Mem M L A S Q) :
    (distSeq O .resid m).core = m.core ∧ (distSeq O .resid m).X = m.X ∧ (distSeq O .resid m).DX = m.DX ∧
    (distSeq O .resid m).Xnr = m.Xnr ∧ (distSeq O .resid m).DXnr = m.DXnr ∧
    ∀ i, (distSeq O .resid m).r i = O.res i (m.DXnr i) (m.Y0 i) (m.Y0old i) (m.U0 i) (sl grp i m.Xnr)
      (sl grp i m.Y1) (sl grp i m.Y1old) (sl grp i m.U1) := by
  have key := fun i => (eqv_dist O .resid i m).2
  refine ⟨Core.ext ?_ (sl_ext grp fun i => ?_) ?_ (sl_ext grp fun i => ?_), sl_ext grp fun i => ?_, ?_,
    sl_ext grp fun i => ?_, ?_, fun i => ?_⟩
  · funext i; exact (key i).2.2.2.2.2.2.2.1
  · exact (key i).2.2.1
  · funext i; exact (key i).2.2.2.2.2.2.2.2.2.1
  · exact (key i).2.2.2.2.1
  · exact (key i).1
  · funext i; exact (key i).2.2.2.2.2.1
  · exact (key i).2.1
  · funext i; exact (key i).2.2.2.2.2.2.1
  · refine (key i).2.2.2.2.2.2.2.2.2.2.trans ?_
    simp [prog, exec, rs]

/-- One pass through the loop, if it starts with an X update or after one, is one ADMM iteration; it
ends with the next X update unless it is recognised as the last, in which case the X variables are those of
this iteration. -/
theorem body_core (first last : ℕ) (comp : Bool) (j : ℕ) (m : Mem M L A S Q)
    (h : same j first = true ∨ Ahead O m) :
    (body O (fun _ => distSeq O) first last comp j m).core = admmStep O m.core ∧
    (same j last ≠ true → Ahead O (body O (fun _ => distSeq O) first last comp j m)) ∧
    (same j last = true →
      (body O (fun _ => distSeq O) first last comp j m).X = (xRel O m.core).1 ∧
      (body O (fun _ => distSeq O) first last comp j m).DX = (xRel O m.core).2 ∧
      (body O (fun _ => distSeq O) first last comp j m).Xnr = (xAll O m.core).1 ∧
      (body O (fun _ => distSeq O) first last comp j m).DXnr = (xAll O m.core).2) := by
  have hres : ∀ m : Mem M L A S Q, (if comp then distSeq O .resid m else m).core = m.core ∧
      (if comp then distSeq O .resid m else m).X = m.X ∧ (if comp then distSeq O .resid m else m).DX = m.DX ∧
      (if comp then distSeq O .resid m else m).Xnr = m.Xnr ∧
      (if comp then distSeq O .resid m else m).DXnr = m.DXnr := by
    intro m
    cases comp with
    | false => exact ⟨rfl, rfl, rfl, rfl, rfl⟩
    | true =>
      obtain ⟨h1, h2, h3, h4, h5, -⟩ := dist_resid O m
      exact ⟨h1, h2, h3, h4, h5⟩
  unfold body
  simp only
  set m0 : Mem M L A S Q := { m with Y0old := m.Y0, Y1old := m.Y1 } with hm0
  set m1 := if same j first = true then distSeq O .initial m0 else m0 with hm1
  have h1 : m1.core = m.core ∧ Ahead O m1 := by
    rw [hm1]
    split_ifs with hs
    · rw [dist_initial]; exact ⟨rfl, rfl, rfl, rfl, rfl⟩
    · rcases h with h | h
      · exact absurd h hs
      · exact ⟨rfl, h⟩
  have hb : (y0astep O m1).b = O.y0a ((y0astep O m1).DX + (y0astep O m1).U0) := rfl
  obtain ⟨f1, f2, f3, f4, f5, -, -⟩ := dist_final O (y0astep O m1) hb
  have hc : (distSeq O .final (y0astep O m1)).core = admmStep O m.core := by
    rw [f1]
    change yuAll O (m1.X, m1.DX) m1.core = _
    rw [h1.2.1, h1.2.2.1, h1.1]
    rfl
  unfold Ahead
  obtain ⟨e1, e2, e3, e4, e5⟩ := hres (if same j last = true then distSeq O .final (y0astep O m1)
    else distSeq O .step (y0astep O m1))
  rw [e1, e2, e3, e4, e5]
  by_cases hl : same j last = true
  · rw [if_pos hl]
    refine ⟨hc, fun h => absurd hl h, fun _ => ?_⟩
    rw [f2, f3, f4, f5, ← h1.1]
    exact h1.2
  · rw [if_neg hl, dist_step, dist_initial]
    exact ⟨hc, fun _ => ⟨rfl, rfl, rfl, rfl⟩, fun h => absurd h hl⟩

/-- The loop performs one ADMM iteration per pass, for any number of passes. -/
theorem loop_core {V : Type*} (first : ℕ) (comp : Bool) (brk : ℕ → Mem M L A S Q → Bool)
    (ev : ℕ → Mem M L A S Q → List V) (n j : ℕ) (hn : 0 < n) (s : ℕ × Mem M L A S Q × List V)
    (h : same j first = true ∨ Ahead O s.2.1) :
    ∃ t, 0 < t ∧ t ≤ n ∧ ((∀ i m, brk i m = false) → t = n) ∧
      (loop (body O (fun _ => distSeq O) first (j + n - 1) comp) brk ev (List.range' j n) s).1 = j + t - 1 ∧
      (loop (body O (fun _ => distSeq O) first (j + n - 1) comp) brk ev (List.range' j n) s).2.1.core =
        (admmStep O)^[t] s.2.1.core ∧
      (¬ (t = n ∧ j + n ≤ 257) →
        Ahead O (loop (body O (fun _ => distSeq O) first (j + n - 1) comp) brk ev (List.range' j n) s).2.1) ∧
      (t = n ∧ j + n ≤ 257 →
        (loop (body O (fun _ => distSeq O) first (j + n - 1) comp) brk ev (List.range' j n) s).2.1.X =
          (xRel O ((admmStep O)^[t - 1] s.2.1.core)).1 ∧
        (loop (body O (fun _ => distSeq O) first (j + n - 1) comp) brk ev (List.range' j n) s).2.1.DX =
          (xRel O ((admmStep O)^[t - 1] s.2.1.core)).2) := by
  induction n generalizing j s with
  | zero => omega
  | succ n ih =>
    obtain ⟨i, m, st⟩ := s
    obtain ⟨hc, hA, hX⟩ := body_core O first (j + (n + 1) - 1) comp j m h
    have hsame : same j (j + (n + 1) - 1) = true ↔ n = 0 ∧ j + (n + 1) ≤ 257 := by
      simp only [same, Bool.and_eq_true, beq_iff_eq, decide_eq_true_eq]
      omega
    rw [hsame] at hX
    rw [Ne, hsame] at hA
    rw [List.range'_succ]
    unfold loop
    simp only
    split_ifs with hb
    · refine ⟨1, by omega, by omega, fun hf => ?_, by simp, hc, fun hn => hA (by omega),
        fun hn => ?_⟩
      · rw [hf] at hb; cases hb
      · obtain ⟨a1, a2, -, -⟩ := hX (by omega)
        exact ⟨a1, a2⟩
    · rcases Nat.eq_zero_or_pos n with rfl | hpos
      · refine ⟨1, by omega, by omega, fun _ => rfl, by simp [loop], by simpa [loop] using hc,
          fun hn => hA (by omega), fun hn => ?_⟩
        obtain ⟨a1, a2, -, -⟩ := hX (by omega)
        exact ⟨a1, a2⟩
      · have hA' := hA (by omega)
        have e : j + (n + 1) - 1 = (j + 1) + n - 1 := by omega
        rw [e] at hA' hc ⊢
        obtain ⟨t, t1, t2, t0, t3, t4, t5, t6⟩ := ih (j + 1) hpos
          (j, body O (fun _ => distSeq O) first (j + 1 + n - 1) comp j m,
            st ++ ev j (body O (fun _ => distSeq O) first (j + 1 + n - 1) comp j m)) (Or.inr hA')
        refine ⟨t + 1, by omega, by omega, fun hf => by rw [t0 hf], by rw [t3]; omega, ?_,
          fun hn => t5 (by omega), fun hn => ?_⟩
        · rw [t4, hc, Function.iterate_succ_apply]
        · obtain ⟨a1, a2⟩ := t6 (by omega)
          simp only at a1 a2 ⊢
          rw [hc, ← Function.iterate_succ_apply, show (t - 1).succ = t + 1 - 1 by omega] at a1 a2
          exact ⟨a1, a2⟩

/-- What a call of `solve` was given: `MaxMainIter`, whether residuals are computed, the stopping decision. -/
structure Call (M L : ℕ) (A S Q : Type*) where
  maxIter : ℕ
  comp : Bool
  brk : ℕ → Mem M L A S Q → Bool

/-- A sequence of calls of `solve` on one object. -/
noncomputable def history {V : Type*} (ev : ℕ → Mem M L A S Q → List V) :
    List (Call M L A S Q) → ℕ × Mem M L A S Q × List V → ℕ × Mem M L A S Q × List V
  | [], s => s
  | c :: cs, s => history ev cs (solve O (fun _ => distSeq O) c.comp c.brk ev c.maxIter s)

/-- No call of the sequence starts at iteration number `k0`. -/
def NoStartAt {V : Type*} (ev : ℕ → Mem M L A S Q → List V) (k0 : ℕ) :
    List (Call M L A S Q) → ℕ × Mem M L A S Q × List V → Prop
  | [], _ => True
  | c :: cs, s => s.1 ≠ k0 ∧ NoStartAt ev k0 cs (solve O (fun _ => distSeq O) c.comp c.brk ev c.maxIter s)

/-- **C64, pipelining, partial.** After any sequence of `solve` calls with at least one iteration each, of
which none starts at iteration 257, the variables are those of as many ADMM iterations as the iteration
counter says, performed in the usual order. -/
theorem C64_pipeline_partial {V : Type*} (ev : ℕ → Mem M L A S Q → List V) (cs : List (Call M L A S Q))
    (s : ℕ × Mem M L A S Q × List V) (hpos : ∀ c ∈ cs, 0 < c.maxIter) (h257 : NoStartAt O ev 257 cs s)
    (h : s.1 ≤ 257 ∨ Ahead O s.2.1) :
    ∃ t, (history O ev cs s).1 = s.1 + t ∧ (history O ev cs s).2.1.core = (admmStep O)^[t] s.2.1.core := by
  induction cs generalizing s with
  | nil => exact ⟨0, rfl, rfl⟩
  | cons c cs ih =>
    obtain ⟨h1, h2⟩ := h257
    have h0 : same s.1 s.1 = true ∨ Ahead O s.2.1 := by
      rcases h with h | h
      · left
        simp [same]
        omega
      · exact Or.inr h
    obtain ⟨t, t1, t2, -, t3, t4, t5, -⟩ := loop_core O s.1 c.comp c.brk ev c.maxIter s.1 (hpos c (by simp)) s h0
    set s' := solve O (fun _ => distSeq O) c.comp c.brk ev c.maxIter s with hs'
    have hk : s'.1 = s.1 + t := by
      rw [hs']
      unfold solve
      simp only
      rw [t3]
      omega
    have hcore : s'.2.1.core = (admmStep O)^[t] s.2.1.core := t4
    have hA : s'.1 ≤ 257 ∨ Ahead O s'.2.1 := by
      by_cases ht : t = c.maxIter ∧ s.1 + c.maxIter ≤ 257
      · left; rw [hk]; omega
      · exact Or.inr (t5 ht)
    obtain ⟨t', e1, e2⟩ := ih s' (fun c hc => hpos c (List.mem_cons_of_mem _ hc)) h2 hA
    refine ⟨t + t', ?_, ?_⟩
    · change (history O ev cs s').1 = _
      rw [e1, hk]; omega
    · change (history O ev cs s').2.1.core = _
      rw [e2, hcore, ← Function.iterate_add_apply, Nat.add_comm]

/-- **C64, residuals, partial.** In an iteration recognised as the last of its `solve` call the recorded
residuals are those of this iteration: of the unrelaxed `X` update `x`, the new and the previous `Y`, and the new
`U`. -/
theorem C64_residual_partial (first last j : ℕ) (m : Mem M L A S Q)
    (h : same j first = true ∨ Ahead O m) (hl : j = last ∧ j ≤ 256) (i : Fin L) :
    let x := xAll O m.core
    let c := admmStep O m.core
    (body O (fun _ => distSeq O) first last true j m).r i =
      O.res i (x.2 i) (c.Y0 i) (m.Y0 i) (c.U0 i) (sl grp i x.1) (sl grp i c.Y1) (sl grp i m.Y1)
        (sl grp i c.U1) := by
  have hs : same j last = true := by simp [same, hl.1, hl.1 ▸ hl.2]
  obtain ⟨b1, -, b3⟩ := body_core O first last false j m h
  obtain ⟨-, -, b6, b7⟩ := b3 hs
  have e : body O (fun _ => distSeq O) first last true j m =
    distSeq O .resid (body O (fun _ => distSeq O) first last false j m) := rfl
  rw [e]
  rw [(dist_resid O _).2.2.2.2.2 i, b6, b7]
  have c1 : (body O (fun _ => distSeq O) first last false j m).Y0 = (admmStep O m.core).Y0 := by rw [← b1]; rfl
  have c2 : (body O (fun _ => distSeq O) first last false j m).Y1 = (admmStep O m.core).Y1 := by rw [← b1]; rfl
  have c3 : (body O (fun _ => distSeq O) first last false j m).U0 = (admmStep O m.core).U0 := by rw [← b1]; rfl
  have c4 : (body O (fun _ => distSeq O) first last false j m).U1 = (admmStep O m.core).U1 := by rw [← b1]; rfl
  have c5 : (body O (fun _ => distSeq O) first last false j m).Y0old = m.Y0 ∧
      (body O (fun _ => distSeq O) first last false j m).Y1old = m.Y1 := by
    unfold body
    simp only [if_pos hs, Bool.false_eq_true, if_false]
    split_ifs with hf
    · rw [dist_initial]
      obtain ⟨-, -, -, -, -, f6, f7⟩ := dist_final O (y0astep O { m with
        Y0old := m.Y0, Y1old := m.Y1, X := (xRel O m.core).1, DX := (xRel O m.core).2,
        Xnr := (xAll O m.core).1, DXnr := (xAll O m.core).2 }) rfl
      exact ⟨f6, f7⟩
    · obtain ⟨-, -, -, -, -, f6, f7⟩ := dist_final O (y0astep O { m with Y0old := m.Y0, Y1old := m.Y1 }) rfl
      exact ⟨f6, f7⟩
  rw [c1, c2, c3, c4, c5.1, c5.2]

end

/-! ## A concrete problem

One filter `d = 1`, one sample `s = 1`, `λ = 0`, `W = 1`, `rho = alpha = 1`, no relaxation: the exact formulas of
the code in this case.  The residual quantity is the squared primal residual. -/

/-- The functions of the code for this problem. -/
noncomputable def ops1 : Ops (fun _ : Fin 1 => (0 : Fin 1)) ℝ ℝ ℝ where
  xsol i a b := (fun n => (a + b n) / 2, (a + b ⟨0, Subsingleton.elim _ i⟩) / 2)
  prox _ v := v
  y0a v := -(1 / 2) * ∑ i, (1 + v i)
  y0b v b := 1 + v + b
  rlx := 1
  alpha := 1
  res i dx y0 _ _ x y1 _ _ := (dx - y0) ^ 2 +
    (x ⟨0, Subsingleton.elim _ i⟩ - y1 ⟨0, Subsingleton.elim _ i⟩) ^ 2

/-- All arrays zero, as constructed (`parcbpdn.py` 640-724). -/
def mem1 : Mem 1 1 ℝ ℝ ℝ := ⟨0, 0, 0, 0, 0, 0, 0, 0, 0, 0, 0, 0⟩

theorem step1 (c : Core 1 1 ℝ ℝ) :
    (admmStep ops1 c).Y1 0 = (c.Y0 0 - c.U0 0 + c.Y1 0 - c.U1 0) / 2 + c.U1 0 ∧ (admmStep ops1 c).U1 0 = 0 ∧
    (admmStep ops1 c).Y0 0 - (admmStep ops1 c).U0 0 = 1 := by
  simp only [admmStep, yuAll, xRel, xAll, ops1, Finset.univ_unique, Finset.sum_singleton, sl, Pi.add_apply,
    Pi.sub_apply, Pi.smul_apply, smul_eq_mul, Fin.default_eq_zero]
  refine ⟨?_, ?_, ?_⟩ <;> ring

theorem iter1 (n : ℕ) : ((admmStep ops1)^[n + 1] mem1.core).Y1 0 = 1 - (1 / 2) ^ n ∧
    ((admmStep ops1)^[n + 1] mem1.core).U1 0 = 0 ∧
    ((admmStep ops1)^[n + 1] mem1.core).Y0 0 - ((admmStep ops1)^[n + 1] mem1.core).U0 0 = 1 := by
  induction n with
  | zero =>
    obtain ⟨h1, h2, h3⟩ := step1 mem1.core
    rw [Function.iterate_one]
    refine ⟨?_, h2, h3⟩
    rw [h1]
    simp [mem1, Mem.core]
  | succ n ih =>
    rw [Function.iterate_succ_apply']
    obtain ⟨h1, h2, h3⟩ := step1 ((admmStep ops1)^[n + 1] mem1.core)
    refine ⟨?_, h2, h3⟩
    rw [h1, ih.1, ih.2.1, ih.2.2]
    rw [pow_succ]
    ring

/-- A call of `solve` that is not interrupted. -/
def call1 (n : ℕ) : Call 1 1 ℝ ℝ ℝ := ⟨n, true, fun _ _ => false⟩

/-- `n` iterations in one call, from the start. -/
theorem first1 (n : ℕ) (hn : 0 < n) (s : ℕ × Mem 1 1 ℝ ℝ ℝ × List ℝ)
    (hs : s = history ops1 (fun _ _ => []) [call1 n] (0, mem1, [])) :
    s.1 = n ∧ s.2.1.core = (admmStep ops1)^[n] mem1.core ∧
    (n ≤ 257 → s.2.1.X = (xRel ops1 ((admmStep ops1)^[n - 1] mem1.core)).1) := by
  obtain ⟨t, -, -, t0, t1, t2, -, t4⟩ := loop_core ops1 0 true (fun _ _ => false) (fun _ _ => ([] : List ℝ)) n 0
    hn (0, mem1, []) (Or.inl rfl)
  obtain rfl := t0 fun _ _ => rfl
  refine ⟨?_, ?_, fun h => ?_⟩
  · rw [hs]
    simp only [history, solve, call1]
    rw [t1]
    omega
  · rw [hs]
    exact t2
  · rw [hs]
    exact (t4 ⟨rfl, by omega⟩).1

/-- A second call, of one iteration, at iteration number 257 or later: no X update. -/
theorem second1 (s s' : ℕ × Mem 1 1 ℝ ℝ ℝ × List ℝ) (h : 257 ≤ s.1)
    (hs' : s' = history ops1 (fun _ _ => []) [call1 1] s) :
    s'.1 = s.1 + 1 ∧ s'.2.1.core.Y1 0 = s.2.1.X 0 + s.2.1.core.U1 0 := by
  have hsame : same s.1 s.1 = false := by simp [same]; omega
  have e4 : (body ops1 (fun _ => distSeq ops1) s.1 s.1 true s.1 s.2.1).core =
      yuAll ops1 (s.2.1.X, s.2.1.DX) s.2.1.core := by
    unfold body
    simp only [hsame, Bool.false_eq_true, if_false, if_true]
    rw [(dist_resid ops1 _).1, dist_step, dist_initial]
    exact (dist_final ops1 (y0astep ops1 { s.2.1 with Y0old := s.2.1.Y0, Y1old := s.2.1.Y1 }) rfl).1
  have e3 : s' = (s.1 + 1, body ops1 (fun _ => distSeq ops1) s.1 s.1 true s.1 s.2.1, s.2.2 ++ []) := by
    rw [hs']
    rfl
  rw [e3]
  refine ⟨rfl, ?_⟩
  simp only
  rw [e4]
  simp [yuAll, ops1, sl]

theorem history_append {M L : ℕ} {grp : Fin M → Fin L} {A S Q V : Type*} [AddCommGroup A] [Module ℝ A]
    [AddCommGroup S] [Module ℝ S] (O : Ops grp A S Q) (ev : ℕ → Mem M L A S Q → List V)
    (cs cs' : List (Call M L A S Q)) (s : ℕ × Mem M L A S Q × List V) :
    history O ev (cs ++ cs') s = history O ev cs' (history O ev cs s) := by
  induction cs generalizing s with
  | nil => rfl
  | cons c cs ih => exact ih _

/-- **C64, pipelining refuted.** 257 iterations followed by a second `solve()` of one iteration are not 258
iterations: the second call uses the `X` of the first one again. -/
theorem C64_pipeline_refuted :
    (history ops1 (fun _ _ => ([] : List ℝ)) [call1 257, call1 1] (0, mem1, [])).1 = 258 ∧
    (history ops1 (fun _ _ => ([] : List ℝ)) [call1 258] (0, mem1, [])).1 = 258 ∧
    (history ops1 (fun _ _ => ([] : List ℝ)) [call1 258] (0, mem1, [])).2.1.core =
      (admmStep ops1)^[258] mem1.core ∧
    (history ops1 (fun _ _ => ([] : List ℝ)) [call1 257, call1 1] (0, mem1, [])).2.1.core ≠
      (admmStep ops1)^[258] mem1.core := by
  have e : history ops1 (fun _ _ => ([] : List ℝ)) [call1 257, call1 1] (0, mem1, []) =
      history ops1 (fun _ _ => []) [call1 1] (history ops1 (fun _ _ => []) [call1 257] (0, mem1, [])) :=
    history_append ops1 (fun _ _ => ([] : List ℝ)) [call1 257] [call1 1] (0, mem1, [])
  obtain ⟨a1, a2, a3⟩ := first1 257 (by omega) _ rfl
  obtain ⟨b1, b2, -⟩ := first1 258 (by omega) _ rfl
  rw [e]
  generalize history ops1 (fun _ _ => ([] : List ℝ)) [call1 257] (0, mem1, []) = s at a1 a2 a3 ⊢
  obtain ⟨d1, d2⟩ := second1 s _ (by omega) rfl
  refine ⟨by rw [d1, a1], b1, b2, fun hcon => ?_⟩
  rw [hcon, a2, a3 (by omega), (iter1 257).1, (iter1 256).2.1] at d2
  obtain ⟨i1, i2, i3⟩ := iter1 255
  have b : ∀ c : Core 1 1 ℝ ℝ, (xRel ops1 c).1 0 = (c.Y0 0 - c.U0 0 + c.Y1 0 - c.U1 0) / 2 := by
    intro c
    simp only [xRel, xAll, ops1, sl, Pi.add_apply, Pi.sub_apply, Pi.smul_apply, smul_eq_mul]
    ring
  rw [b, show 257 - 1 = 255 + 1 from rfl, i1, i2, i3] at d2
  have h3 : ((1 : ℝ) / 2) ^ 257 = (1 / 2) ^ 255 / 4 := by
    rw [show (257 : ℕ) = 255 + 2 from rfl, pow_add]
    ring
  have h4 : (0 : ℝ) < (1 / 2) ^ 255 := by positivity
  rw [h3] at d2
  generalize ((1 : ℝ) / 2) ^ 255 = q at d2 h4
  linarith

/-- **C64, residuals refuted.** The primal residual recorded for an iteration depends on whether more
iterations follow.  In the second iteration here `X = Y` and `DX = Y0`, the primal residual is zero; it is recorded as such
if `MaxMainIter` is 2, but as `1/8` (squared) if it is 3. -/
theorem C64_residual_refuted :
    let st := fun n : ℕ => (history ops1 (fun _ m => [m.r 0]) [call1 n] (0, mem1, [])).2.2
    (st 2)[1]? = some 0 ∧ (st 3)[1]? = some (1 / 8) := by
  intro st
  obtain ⟨c0, a0, -⟩ := body_core ops1 0 1 true 0 mem1 (Or.inl rfl)
  have a0 := a0 (by decide)
  obtain ⟨c0', a0', -⟩ := body_core ops1 0 2 true 0 mem1 (Or.inl rfl)
  have a0' := a0' (by decide)
  have e2 : (st 2)[1]? = some ((body ops1 (fun _ => distSeq ops1) 0 1 true 1
      (body ops1 (fun _ => distSeq ops1) 0 1 true 0 mem1)).r 0) := rfl
  have e3 : (st 3)[1]? = some ((body ops1 (fun _ => distSeq ops1) 0 2 true 1
      (body ops1 (fun _ => distSeq ops1) 0 2 true 0 mem1)).r 0) := rfl
  have k1 : admmStep ops1 mem1.core = ⟨fun _ => 1 / 2, fun _ => 0, fun _ => -(1 / 2), fun _ => 0⟩ := by
    ext i <;> fin_cases i <;>
    simp [admmStep, yuAll, xRel, xAll, ops1, sl, mem1, Mem.core] <;> norm_num
  have k2 : admmStep ops1 (admmStep ops1 mem1.core) =
      ⟨fun _ => 1 / 2, fun _ => 1 / 2, fun _ => -(1 / 2), fun _ => 0⟩ := by
    rw [k1]
    ext i <;> fin_cases i <;>
    simp [admmStep, yuAll, xRel, xAll, ops1, sl] <;> norm_num
  rw [e2, e3]
  constructor
  · rw [C64_residual_partial ops1 0 1 1 _ (Or.inr a0) (by omega) 0]
    rw [c0, k2, k1]
    simp [xAll, ops1, sl]
  · obtain ⟨c1, a1, -⟩ := body_core ops1 0 2 false 1 _ (Or.inr a0')
    have a1 := a1 (by decide)
    have e : ∀ m, body ops1 (fun _ => distSeq ops1) 0 2 true 1 m =
      distSeq ops1 .resid (body ops1 (fun _ => distSeq ops1) 0 2 false 1 m) := fun _ => rfl
    rw [e, (dist_resid ops1 _).2.2.2.2.2 0, a1.2.2.1, a1.2.2.2, c1, c0', k2]
    have y0 : ∀ m : Mem 1 1 ℝ ℝ ℝ, m.Y0 = m.core.Y0 := fun _ => rfl
    have y1 : ∀ m : Mem 1 1 ℝ ℝ ℝ, m.Y1 = m.core.Y1 := fun _ => rfl
    rw [y0 (body ops1 (fun _ => distSeq ops1) 0 2 false 1 _), y1 (body ops1 (fun _ => distSeq ops1) 0 2 false 1 _), c1, c0', k2]
    simp [xAll, ops1, sl]
    norm_num

end Sporco.Par.PCbpdn
