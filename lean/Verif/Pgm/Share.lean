import Verif.Pgm.Bpdn
import Verif.Pgm.Backtrack
import Mathlib.Analysis.InnerProductSpace.Basic
import Mathlib.Tactic.Linarith
import Mathlib.Tactic.Ring
import Mathlib.Tactic.FieldSimp
import Mathlib.Tactic.Positivity

/-!
# Solver objects constructed from the same options object (C81)

A `PGM` object keeps the backtracking and step size policy objects of its options (`pgm/pgm.py` 246, 267) and these
keep the state of the line search (`pgm/backtrack.py` 157-158) and of the two-point step size (`pgm/stepsize.py`
104-105, 119-120).  The options object is not copied (`pgm/pgm.py` 234): solvers constructed from the same options
share that state.
-/

set_option autoImplicit false

namespace Sporco.Pgm

/-! ## Model -/

/-- The attributes of the backtracking object and of the policy object. -/
structure Shared (E : Type*) where
  Tk : ℝ
  Zrb : Option E
  bbX : E
  bbG : E

variable {E : Type*}

/-- What the solver sees of them. -/
def Vars.put (v : Vars E) (h : Shared E) : Vars E := { v with Tk := h.Tk, Zrb := h.Zrb, bbX := h.bbX, bbG := h.bbG }

/-- What a call leaves in them. -/
def Vars.shared (v : Vars E) : Shared E := ⟨v.Tk, v.Zrb, v.bbX, v.bbG⟩

variable [NormedAddCommGroup E] [InnerProductSpace ℝ E]

/-- The state of the objects in the options after their construction (`pgm/backtrack.py` 157-158, `pgm/stepsize.py`
104-105). -/
def shared0 : Shared E := ⟨0, .none, 0, 0⟩

/-- What a user sees of a solver: `getmin()` and the iteration statistics. -/
abbrev Res (E : Type*) := E × List Stat

/-- A sequence of `solve()` calls of solvers of classes `C i` constructed from one options object `o`: `h` is the
state of the objects in the options, `s i` the state of solver `i`. -/
noncomputable def runShared {ι : Type*} [DecidableEq ι] (C : ι → Cls E) (o : Opts) :
    List ι → Shared E → (ι → St (Vars E)) → List (Res E)
  | [], _, _ => []
  | i :: l, h, s =>
    let s' := solve (ops (C i) o) o .none { s i with v := (s i).v.put h }
    (s'.v.X, s'.itstat) :: runShared C o l s'.v.shared (Function.update s i s')

/-- The same calls of solvers each of which was constructed from an options object of its own. -/
noncomputable def runOwn {ι : Type*} [DecidableEq ι] (C : ι → Cls E) (o : Opts) :
    List ι → (ι → St (Vars E)) → List (Res E)
  | [], _ => []
  | i :: l, s =>
    let s' := solve (ops (C i) o) o .none (s i)
    (s'.v.X, s'.itstat) :: runOwn C o l (Function.update s i s')

/-! ## Options without state -/

/-- Neither the robust line search nor the Barzilai-Borwein policy is used. -/
def Stateless (o : Opts) : Prop := o.isRobust = false ∧ o.stepPolicy ≠ .bb

omit [NormedAddCommGroup E] [InnerProductSpace ℝ E] in
theorem storeBB_put {o : Opts} (ho : Stateless o) (v : Vars E) (g : E) : storeBB o v g = v := by
  unfold storeBB
  split
  · rename_i h; exact absurd h ho.2
  · rfl

theorem stepL_put {C : Cls E} {o : Opts} (ho : Stateless o) (k : ℕ) (v : Vars E) (g : E) (h : Shared E) :
    stepL C o k (v.put h) g = stepL C o k v g := by
  unfold stepL
  cases hp : o.stepPolicy with
  | none => rfl
  | cauchy => rfl
  | bb => exact absurd hp ho.2

omit [NormedAddCommGroup E] [InnerProductSpace ℝ E] in
theorem safeguard_put (C : Cls E) (o : Opts) (k : ℕ) (v : Vars E) (h : Shared E) :
    safeguard C o k (v.put h) = (safeguard C o k v).put h := by
  unfold safeguard
  by_cases h1 : o.monotone = true ∧ k > 0
  · simp only [if_pos h1]
    change (if v.objfnPrev.1 < (C.objfn v.X).1 then _ else _) = _
    by_cases h2 : v.objfnPrev.1 < (C.objfn v.X).1
    · simp only [if_pos h2]; rfl
    · simp only [if_neg h2]; rfl
  · simp only [if_neg h1]

theorem xstepG_put {C : Cls E} {o : Opts} (ho : Stateless o) (k : ℕ) (g : E) (v : Vars E) (h : Shared E) :
    xstepG C o k g (v.put h) = (xstepG C o k g v).put h := by
  unfold xstepG
  simp only [storeBB_put ho, stepL_put ho]
  exact safeguard_put C o k
    { v with L := stepL C o k v g, X := C.proxG (stepL C o k v g) (v.Y - (1 / stepL C o k v g) • g) } h

theorem ystep_put (o : Opts) (k : ℕ) (v : Vars E) (h : Shared E) : ystep o k (v.put h) = (ystep o k v).put h := by
  unfold ystep
  by_cases h1 : o.monotone = true ∧ k > 0
  · simp only [if_pos h1]; rfl
  · simp only [if_neg h1]; rfl

theorem btLoop_put {C : Cls E} {o : Opts} (ho : Stateless o) (k : ℕ) (gu : ℝ) (g : E) (n it : ℕ) (v : Vars E)
    (h : Shared E) : btLoop C o k gu g n it (v.put h) = (btLoop C o k gu g n it v).put h := by
  induction n generalizing it v with
  | zero => rfl
  | succ n ih =>
    unfold btLoop
    simp only [xstepG_put ho]
    generalize xstepG C o k g v = w
    change (if C.obfnF w.X ≤ quadQ C w.L w.X w.Y g then _ else _) = _
    by_cases h1 : C.obfnF w.X ≤ quadQ C w.L w.X w.Y g
    · simp only [if_pos h1]; rfl
    · simp only [if_neg h1]
      exact ih (it + 1) { w with F := some (C.obfnF w.X), Q := some (quadQ C w.L w.X w.Y g), iterBT := some (it + 1),
                                 L := w.L * gu }

theorem mainStep_put {C : Cls E} {o : Opts} (ho : Stateless o) (k : ℕ) (v : Vars E) (h : Shared E) :
    mainStep C o k (v.put h) = (mainStep C o k v).put h := by
  unfold mainStep
  cases hb : o.backtrack with
  | none =>
    simp only [xstep]
    rw [show (v.put h).Y = v.Y from rfl, xstepG_put ho, ystep_put]
  | standard gu n =>
    simp only [btStandard]
    rw [show (v.put h).Y = v.Y from rfl, btLoop_put ho, ystep_put]
  | robust gd gu n =>
    have := ho.1
    unfold Opts.isRobust at this
    rw [hb] at this
    exact absurd this (by simp)

omit [NormedAddCommGroup E] [InnerProductSpace ℝ E] in
theorem onStart_put (C : Cls E) (o : Opts) (k : ℕ) (v : Vars E) (h : Shared E) :
    onStart C o k (v.put h) = (onStart C o k v).put h := by
  unfold onStart
  cases (!o.fastSolve || o.isRobust) <;> cases o.monotone <;> by_cases hk : k = 0 <;> simp [hk, Vars.put]

/-- A state with other objects in the options. -/
def St.put (s : St (Vars E)) (h : Shared E) : St (Vars E) := { s with v := s.v.put h }

theorem body_put {C : Cls E} {o : Opts} (ho : Stateless o) (k : ℕ) (s : St (Vars E)) (h : Shared E) :
    body (ops C o) o .none k (s.put h) = ((body (ops C o) o .none k s).1.put h, (body (ops C o) o .none k s).2) := by
  unfold body St.put
  simp only [ops, onStart_put, mainStep_put ho]
  cases o.fastSolve <;> rfl

theorem loop_put {C : Cls E} {o : Opts} (ho : Stateless o) (ks : List ℕ) (s : St (Vars E)) (h : Shared E) :
    loop (ops C o) o .none ks (s.put h) = (loop (ops C o) o .none ks s).put h := by
  induction ks generalizing s with
  | nil => rfl
  | cons k ks ih =>
    unfold loop
    simp only [body_put ho]
    split_ifs
    · rfl
    · exact ih _

theorem solve_put {C : Cls E} {o : Opts} (ho : Stateless o) (s : St (Vars E)) (h : Shared E) :
    solve (ops C o) o .none (s.put h) = (solve (ops C o) o .none s).put h := by
  unfold solve
  simp only [loop_put ho, show (s.put h).k = s.k from rfl]
  rfl

/-- **C81, options without state** (partial: neither the robust line search nor the Barzilai-Borwein policy).  For
any number of solvers of any classes constructed from one options object, in any states, and any sequence of
`solve` calls: every call returns the same result and has recorded the same statistics as if each solver had been
constructed from an options object of its own. -/
theorem C81_share_partial {ι : Type*} [DecidableEq ι] (C : ι → Cls E) (o : Opts) (ho : Stateless o) (l : List ι)
    (h : Shared E) (s : ι → St (Vars E)) : runShared C o l h s = runOwn C o l s := by
  have key : ∀ (l : List ι) (h : Shared E) (s t : ι → St (Vars E)), (∀ i, ∃ g, s i = (t i).put g) →
      runShared C o l h s = runOwn C o l t := by
    intro l
    induction l with
    | nil => intros; rfl
    | cons i l ih =>
      intro h s t hs
      unfold runShared runOwn
      obtain ⟨g, hg⟩ := hs i
      have e : ({ s i with v := (s i).v.put h } : St (Vars E)) = (t i).put h := by rw [hg]; rfl
      simp only [e, solve_put ho]
      refine congrArg₂ List.cons rfl (ih _ _ _ fun j => ?_)
      by_cases hj : j = i
      · subst hj
        exact ⟨h, by simp⟩
      · simp only [Function.update_of_ne hj]
        exact hs j
  exact key l h s s fun i => ⟨(s i).v.shared, rfl⟩

/-! ## Robust line search -/

/-- One `solve()` of one iteration with the robust line search for `f(x) = 1/2 ‖x - a‖²`, `g = 0`, when the search
accepts at once. -/
theorem solve_sq {C : Cls E} {a : E} (hg : ∀ x, C.gradF x = x - a) (hp : ∀ L x, C.proxG L x = x)
    (hf : ∀ x, C.obfnF x = 1 / 2 * ‖x - a‖ ^ 2) {o : Opts} (h1 : o.fastSolve = true) (h2 : o.maxMainIter = 1)
    (h3 : o.monotone = false) {gd gu : ℝ} {n : ℕ} (h4 : o.backtrack = .robust gd gu (n + 1)) (s : St (Vars E))
    (hL : 1 ≤ s.v.L * gd) :
    let s' := solve (ops C o) o .none s
    let L := s.v.L * gd
    let t := robustT L s.v.Tk
    let Z := s.v.Zrb.getD s.v.X
    let y := (1 / (s.v.Tk + t)) • (s.v.Tk • s.v.X + t • Z)
    s'.v.X = y - (1 / L) • (y - a) ∧ s'.v.Tk = s.v.Tk + t ∧
      s'.v.Zrb = some (Z + (t * L) • ((y - (1 / L) • (y - a)) - y)) := by
  have hpol : o.stepPolicy = .none := by unfold Opts.stepPolicy; rw [h4]
  have hacc : ∀ L x y, 1 ≤ L → C.obfnF x ≤ quadQ C L x y (C.gradF y) := by
    intro L x y h
    refine not_rejected (Lf := 1) (fun x y => ?_) h x y
    rw [hf, hf, hg, show x - a = (y - a) + (x - y) by abel, norm_add_sq_real]
    linarith
  have hx : ∀ (k : ℕ) (g : E) (v : Vars E), xstepG C o k g v = { v with X := v.Y - (1 / v.L) • g } := by
    intro k g v
    unfold xstepG storeBB stepL safeguard
    simp only [hpol, h3, hp]
    simp
  have hs : ∀ (k : ℕ) (v : Vars E), 1 ≤ v.L * gd → ∀ T, T = robustT (v.L * gd) v.Tk → ∀ Y,
      Y = (1 / (v.Tk + T)) • (v.Tk • v.Xprv + T • v.Zrb.getD v.X) →
      (mainStep C o k v).X = Y - (1 / (v.L * gd)) • (Y - a) ∧ (mainStep C o k v).Tk = v.Tk + T ∧
      (mainStep C o k v).Zrb = some (v.Zrb.getD v.X + (T * (v.L * gd)) • ((Y - (1 / (v.L * gd)) • (Y - a)) - Y)) := by
    intro k v hv T hT Y hY
    unfold mainStep
    rw [h4]
    unfold btRobust rbLoop
    simp only [hx, ← hT, ← hY]
    rw [if_pos (hacc _ _ _ hv)]
    simp only [hg]
    exact ⟨trivial, trivial, trivial⟩
  have ho : ∀ (k : ℕ) (v : Vars E), onStart C o k v = { v with Xprv := v.X, Yprv := v.Y } := by
    intro k v
    unfold onStart Opts.isRobust
    rw [h4, h3, h1]
    simp
  have hsol : (solve (ops C o) o .none s).v = mainStep C o s.k { s.v with Xprv := s.v.X, Yprv := s.v.Y } := by
    unfold solve loop
    rw [h2]
    simp only [List.range', body, h1, ops, ho, loop]
    simp
  simp only [hsol]
  exact hs s.k { s.v with Xprv := s.v.X, Yprv := s.v.Y } hL _ rfl _ rfl

/-- `BPDN` with a one by one dictionary `1`, signal `a` and `lmbda = 0`. -/
noncomputable def cls1 (a : ℝ) : Cls (Sporco.Admm.Arr 1 1) := clsBPDN (1 : Matrix (Fin 1) (Fin 1) ℝ) (Matrix.of fun _ _ => a) 0 (fun _ => 1) false

/-- One iteration with the default robust line search (`pgm/backtrack.py` 132). -/
noncomputable def optR : Opts :=
  { fastSolve := true, maxMainIter := 1, relStopTol := 0, autoStop := false, tau0 := 1, monotone := false,
    momentum := .nesterov, policy := .none, backtrack := .robust (9 / 10) 2 50 }

/-- A solver constructed with `L = 20/9` and initial value 0. -/
noncomputable def st0 : St (Vars (Sporco.Admm.Arr 1 1)) :=
  { k := 0, itstat := [],
    v := { X := 0, Y := 0, Xprv := 0, Yprv := 0, ZZ := 0, L := 20 / 9, t := 1, objfn := (0, 0, 0),
           objfnPrev := (0, 0, 0), F := .none, Q := .none, iterBT := .none, bbX := 0, bbG := 0, Tk := 0,
           Zrb := .none } }

theorem st0_fresh : Fresh st0 := ⟨rfl, rfl, rfl, rfl, rfl, rfl⟩

/-- The constant array. -/
noncomputable def cst (a : ℝ) : Sporco.Admm.Arr 1 1 := Sporco.Admm.arr (Matrix.of fun _ _ => a)

theorem cst_apply (a : ℝ) (i : Fin 1 × Fin 1) : cst a i = a := rfl

theorem cls1_grad (a : ℝ) (x : Sporco.Admm.Arr 1 1) : (cls1 a).gradF x = x - cst a := by
  simp only [cls1, clsBPDN, Matrix.transpose_one, Matrix.one_mul]
  rfl

theorem cls1_prox (a L : ℝ) (x : Sporco.Admm.Arr 1 1) : (cls1 a).proxG L x = x := by
  ext i
  change Sporco.Prox.proxL1 (x i) (0 / L * 1) = x i
  unfold Sporco.Prox.proxL1 Sporco.Prox.npSign
  rw [zero_div, zero_mul, sub_zero, max_eq_left (abs_nonneg (x i))]
  rcases lt_trichotomy (x i) 0 with h | h | h
  · simp [h, abs_of_neg h, not_lt.2 h.le]
  · simp [h]
  · simp [h, abs_of_pos h]

theorem cls1_obfn (a : ℝ) (x : Sporco.Admm.Arr 1 1) : (cls1 a).obfnF x = 1 / 2 * ‖x - cst a‖ ^ 2 := by
  simp only [cls1, clsBPDN, Matrix.one_mul]
  rfl

theorem solve1 (a : ℝ) (s : St (Vars (Sporco.Admm.Arr 1 1))) (hL : s.v.L = 20 / 9) :
    let s' := solve (ops (cls1 a) optR) optR .none s
    let t := robustT 2 s.v.Tk
    let Z := s.v.Zrb.getD s.v.X
    let y := (1 / (s.v.Tk + t)) • (s.v.Tk • s.v.X + t • Z)
    s'.v.X = y - (1 / 2 : ℝ) • (y - cst a) ∧ s'.v.Tk = s.v.Tk + t ∧
      s'.v.Zrb = some (Z + (t * 2) • ((y - (1 / 2 : ℝ) • (y - cst a)) - y)) ∧ s'.itstat = s.itstat := by
  have e : s.v.L * (9 / 10) = 2 := by rw [hL]; norm_num
  have := solve_sq (cls1_grad a) (cls1_prox a) (cls1_obfn a) (o := optR) rfl rfl rfl (n := 49) rfl s
    (by rw [e]; norm_num)
  simp only [e] at this
  obtain ⟨h1, h2, h3⟩ := this
  refine ⟨h1, h2, h3, ?_⟩
  unfold solve loop
  simp [body, optR, loop]

/-- **C81 fails with the robust line search.**  Two `BPDN` solvers of the same size, for the signals 1 and 0, are
constructed from one options object with the default robust line search.  The second starts at its minimiser 0.
After the first has been solved for one iteration, one iteration moves the second away from its minimiser, while
with an options object of its own it stays there. -/
theorem C81_robust_refuted :
    (runOwn (fun b : Bool => cls1 (if b then 0 else 1)) optR [false, true] (fun _ => st0))[1]? = some (0, []) ∧
      ∃ x st, (runShared (fun b : Bool => cls1 (if b then 0 else 1)) optR [false, true] shared0
        (fun _ => st0))[1]? = some (x, st) ∧ x ≠ 0 := by
  constructor
  · obtain ⟨h1, -, -, h4⟩ := solve1 0 st0 rfl
    have hc : cst 0 = 0 := rfl
    simp only [runOwn, List.getElem?_cons_succ, List.getElem?_cons_zero, if_true, Option.some.injEq]
    rw [Function.update_of_ne (by simp)]
    refine Prod.ext ?_ h4
    rw [h1, hc]
    simp [st0]
  · obtain ⟨-, h2, h3, -⟩ := solve1 1 { st0 with v := st0.v.put shared0 } rfl
    have hT : robustT 2 0 = 1 / 2 := by unfold robustT; norm_num
    have h2' : (solve (ops (cls1 1) optR) optR .none { st0 with v := st0.v.put shared0 }).v.Tk = 1 / 2 := by
      rw [h2, show ({ st0 with v := st0.v.put shared0 } : St (Vars (Sporco.Admm.Arr 1 1))).v.Tk = 0 from rfl, hT]
      norm_num
    have h3' : (solve (ops (cls1 1) optR) optR .none { st0 with v := st0.v.put shared0 }).v.Zrb
        = some (cst (1 / 2)) := by
      rw [h3]
      refine congrArg some ?_
      ext i
      simp only [Vars.put, shared0, hT, st0, Option.getD_none, smul_zero, add_zero, zero_sub, zero_add, sub_zero,
        smul_neg, sub_neg_eq_add, PiLp.smul_apply, cst_apply, smul_eq_mul]
      norm_num
    generalize hh : (solve (ops (cls1 1) optR) optR .none { st0 with v := st0.v.put shared0 }).v.shared = h at *
    have e2 : h.Tk = 1 / 2 := by rw [← hh]; exact h2'
    have e3 : h.Zrb = some (cst (1 / 2)) := by rw [← hh]; exact h3'
    obtain ⟨h5, -, -, -⟩ := solve1 0 { st0 with v := st0.v.put h } rfl
    refine ⟨(solve (ops (cls1 0) optR) optR .none { st0 with v := st0.v.put h }).v.X,
      (solve (ops (cls1 0) optR) optR .none { st0 with v := st0.v.put h }).itstat, ?_, ?_⟩
    · rw [← hh]
      rfl
    · rw [h5]
      simp only [Vars.put, e2, e3, Option.getD_some, show st0.v.X = 0 from rfl, smul_zero, zero_add,
        show cst 0 = 0 from rfl, sub_zero]
      have ht : 0 < robustT 2 (1 / 2) := by unfold robustT; positivity
      intro h
      have := congrArg (fun x : Sporco.Admm.Arr 1 1 => x (0, 0)) h
      simp only [PiLp.sub_apply, PiLp.smul_apply, cst_apply, smul_eq_mul, PiLp.zero_apply] at this
      have hp : 0 < 1 / (1 / 2 + robustT 2 (1 / 2)) * (robustT 2 (1 / 2) * (1 / 2)) := by positivity
      linarith

/-- The options of `C81_share_partial` with their default values (`pgm/pgm.py` 113-131): no backtracking, no step size
policy. -/
example : Stateless { optR with backtrack := .none } := ⟨rfl, by simp [Opts.stepPolicy, optR]⟩
example : Stateless { optR with backtrack := .standard (6 / 5) 50, policy := .bb } := ⟨rfl, by simp [Opts.stepPolicy]⟩

/-! ## Barzilai-Borwein policy -/

theorem bb_none {o : Opts} (hb : o.stepPolicy = .bb) : o.backtrack = .none := by
  unfold Opts.stepPolicy at hb
  cases h : o.backtrack <;> rw [h] at hb <;> simp_all

/-- The first iteration overwrites the stored point and gradient before they are used. -/
theorem body_bb {C : Cls E} {o : Opts} (hb : o.stepPolicy = .bb) (s : St (Vars E)) (h : Shared E)
    (hT : h.Tk = s.v.Tk) (hZ : h.Zrb = s.v.Zrb) : body (ops C o) o .none 0 (s.put h) = body (ops C o) o .none 0 s := by
  have hm : mainStep C o 0 (onStart C o 0 (s.v.put h)) = mainStep C o 0 (onStart C o 0 s.v) := by
    rw [onStart_put]
    have e : (onStart C o 0 s.v).Tk = h.Tk ∧ (onStart C o 0 s.v).Zrb = h.Zrb := by
      rw [hT, hZ]
      unfold onStart
      cases (!o.fastSolve || o.isRobust) <;> cases o.monotone <;> simp
    generalize onStart C o 0 s.v = w at e
    unfold mainStep
    rw [bb_none hb]
    simp only [xstep]
    congr 1
    unfold xstepG stepL storeBB
    simp only [hb]
    simp [Vars.put, ← e.1, ← e.2]
  unfold body St.put
  simp only [ops, hm]
  rfl

theorem step_bb {C : Cls E} {o : Opts} (hb : o.stepPolicy = .bb) (k : ℕ) (v : Vars E) :
    (mainStep C o k (onStart C o k v)).Tk = v.Tk ∧ (mainStep C o k (onStart C o k v)).Zrb = v.Zrb := by
  have h1 : ∀ v : Vars E, (mainStep C o k v).Tk = v.Tk ∧ (mainStep C o k v).Zrb = v.Zrb := by
    intro v
    unfold mainStep
    rw [bb_none hb]
    simp only [ystep, xstep, xstepG, safeguard, storeBB, hb]
    split_ifs <;> exact ⟨rfl, rfl⟩
  have h2 : (onStart C o k v).Tk = v.Tk ∧ (onStart C o k v).Zrb = v.Zrb := by
    unfold onStart
    cases (!o.fastSolve || o.isRobust) <;> cases o.monotone <;> by_cases hk : k = 0 <;> simp [hk]
  exact ⟨(h1 _).1.trans h2.1, (h1 _).2.trans h2.2⟩

theorem loop_bb {C : Cls E} {o : Opts} (hb : o.stepPolicy = .bb) (ks : List ℕ) (s : St (Vars E)) :
    (loop (ops C o) o .none ks s).v.Tk = s.v.Tk ∧ (loop (ops C o) o .none ks s).v.Zrb = s.v.Zrb := by
  induction ks generalizing s with
  | nil => exact ⟨rfl, rfl⟩
  | cons k ks ih =>
    have e : (body (ops C o) o .none k s).1.v.Tk = s.v.Tk ∧ (body (ops C o) o .none k s).1.v.Zrb = s.v.Zrb := by
      have := step_bb (C := C) hb k s.v
      unfold body
      simp only [ops]
      cases o.fastSolve <;> exact this
    unfold loop
    simp only
    split_ifs
    · exact e
    · exact ⟨(ih _).1.trans e.1, (ih _).2.trans e.2⟩

/-- **C81, Barzilai-Borwein policy** (partial: each solver is solved once).  For any number of new solvers
constructed from one options object with this policy, solved one after the other, each once: results and statistics
are as if each had been constructed from an options object of its own. -/
theorem C81_bb_partial {ι : Type*} [DecidableEq ι] (C : ι → Cls E) (o : Opts) (hb : o.stepPolicy = .bb) (l : List ι)
    (hl : l.Nodup) (s : ι → St (Vars E)) (hs : ∀ i, Fresh (s i)) : runShared C o l shared0 s = runOwn C o l s := by
  have key : ∀ (l : List ι), l.Nodup → ∀ (h : Shared E) (t u : ι → St (Vars E)), h.Tk = 0 → h.Zrb = .none →
      (∀ i ∈ l, Fresh (t i)) → (∀ i ∈ l, t i = u i) → runShared C o l h t = runOwn C o l u := by
    intro l
    induction l with
    | nil => intros; rfl
    | cons i l ih =>
      intro hl h t u h1 h2 hf he
      have hnot : i ∉ l := (List.nodup_cons.1 hl).1
      have hi := hf i (List.mem_cons_self ..)
      have hsol : let a := solve (ops (C i) o) o .none { t i with v := (t i).v.put h }
          let b := solve (ops (C i) o) o .none (u i)
          (a.v.X, a.itstat) = (b.v.X, b.itstat) ∧ a.v.shared.Tk = 0 ∧ a.v.shared.Zrb = .none := by
        rw [← he i (List.mem_cons_self ..)]
        have hk := loop_bb (C := C i) hb (List.range' (t i).k o.maxMainIter) ((t i).put h)
        refine ⟨?_, hk.1.trans h1, hk.2.trans h2⟩
        unfold solve
        cases hn : o.maxMainIter with
        | zero => rfl
        | succ n =>
          simp only [List.range'_succ, loop, hi.k]
          have hbd := body_bb (C := C i) hb (t i) h (h1.trans hi.Tk.symm) (h2.trans hi.Zrb.symm)
          unfold St.put at hbd
          simp only [hi.k] at hbd
          rw [hbd]
      unfold runShared runOwn
      refine congrArg₂ List.cons hsol.1 (ih (List.nodup_cons.1 hl).2 _ _ _ hsol.2.1 hsol.2.2 ?_ ?_)
      · intro j hj
        rw [Function.update_of_ne (ne_of_mem_of_not_mem hj hnot)]
        exact hf j (List.mem_cons_of_mem _ hj)
      · intro j hj
        rw [Function.update_of_ne (ne_of_mem_of_not_mem hj hnot), Function.update_of_ne (ne_of_mem_of_not_mem hj hnot)]
        exact he j (List.mem_cons_of_mem _ hj)
  exact key l hl shared0 s s rfl rfl (fun i _ => hs i) (fun _ _ => rfl)

/-- One iteration with the Barzilai-Borwein policy and linear momentum. -/
noncomputable def optB : Opts :=
  { optR with momentum := .linear 2, policy := .bb, backtrack := .none }

/-- A state of a solver of `cls1` given by numbers. -/
noncomputable def stB (k : ℕ) (x y xp L t bx bg : ℝ) : St (Vars (Sporco.Admm.Arr 1 1)) :=
  { k := k, itstat := [],
    v := { X := cst x, Y := cst y, Xprv := cst xp, Yprv := 0, ZZ := 0, L := L, t := t, objfn := (0, 0, 0),
           objfnPrev := (0, 0, 0), F := .none, Q := .none, iterBT := .none, bbX := cst bx, bbG := cst bg, Tk := 0,
           Zrb := .none } }

/-- The step parameter in numbers. -/
noncomputable def lB (k : ℕ) (x L bx bg g : ℝ) : ℝ :=
  if k > 1 then (bbUpdate (cst L (0, 0)) (cst x) (cst bx) (cst g) (cst bg)).getD 0 else L

theorem solve2 (a : ℝ) (k : ℕ) (x y xp L t bx bg : ℝ) :
    solve (ops (cls1 a) optB) optB .none (stB k x y xp L t bx bg) =
      stB (k + 1) (y - 1 / lB k x L bx bg (y - a) * (y - a))
        ((y - 1 / lB k x L bx bg (y - a) * (y - a)) +
          (t - 1) / (((k : ℝ) + 2) / 2) * ((y - 1 / lB k x L bx bg (y - a) * (y - a)) - x)) x
        (lB k x L bx bg (y - a)) (((k : ℝ) + 2) / 2) x (y - a) := by
  have hg : (cls1 a).gradF (cst y) = cst (y - a) := by rw [cls1_grad]; rfl
  have hst : ∀ v : Vars (Sporco.Admm.Arr 1 1), v.X = cst x → v.L = L → v.bbX = cst bx → v.bbG = cst bg →
      stepL (cls1 a) optB k v (cst (y - a)) = lB k x L bx bg (y - a) := by
    intro v h1 h2 h3 h4
    unfold stepL lB
    rw [show optB.stepPolicy = .bb from rfl]
    simp only [h1, h2, h3, h4, cst_apply]
  have hos : ∀ v : Vars (Sporco.Admm.Arr 1 1), onStart (cls1 a) optB k v = { v with Xprv := v.X } := by
    intro v
    simp [onStart, optB, optR, Opts.isRobust]
  have hms : mainStep (cls1 a) optB k { (stB k x y xp L t bx bg).v with Xprv := cst x } =
      (stB (k + 1) (y - 1 / lB k x L bx bg (y - a) * (y - a))
        ((y - 1 / lB k x L bx bg (y - a) * (y - a)) +
          (t - 1) / (((k : ℝ) + 2) / 2) * ((y - 1 / lB k x L bx bg (y - a) * (y - a)) - x)) x
        (lB k x L bx bg (y - a)) (((k : ℝ) + 2) / 2) x (y - a)).v := by
    unfold mainStep
    rw [show optB.backtrack = .none from rfl]
    simp only [xstep, xstepG, ystep, safeguard, storeBB, show optB.stepPolicy = .bb from rfl,
      show optB.monotone = false from rfl, show optB.momentum = .linear 2 from rfl, Bool.false_eq_true, false_and,
      if_false, stB, hg, cls1_prox, Momentum.next, linearUpdate]
    rw [hst _ rfl rfl rfl rfl]
    rfl
  unfold solve
  rw [show optB.maxMainIter = 1 from rfl]
  have hM := (congrArg (mainStep (cls1 a) optB k) (hos (stB k x y xp L t bx bg).v)).trans hms
  simp only [List.range', loop, body, show optB.fastSolve = true from rfl, ops,
    show (stB k x y xp L t bx bg).k = k from rfl, hM]
  simp
  rfl

theorem bb_cst (L x bx g bg : ℝ) (h : (x - bx) * (g - bg) ≠ 0) :
    bbUpdate L (cst x) (cst bx) (cst g) (cst bg) =
      some (if (g - bg) ^ 2 / ((x - bx) * (g - bg)) < 0 then L else (g - bg) ^ 2 / ((x - bx) * (g - bg))) := by
  have hi : ∀ a b : ℝ, inner ℝ (cst a) (cst b) = a * b := by
    intro a b
    rw [cst, cst, Sporco.Admm.inner_arr]
    simp
  have hs : ∀ a b : ℝ, cst a - cst b = cst (a - b) := fun _ _ => rfl
  unfold bbUpdate npDiv
  simp only [hs, hi, if_neg h, Option.map_some, ← pow_two]

/-- **C81 fails with the Barzilai-Borwein policy** when calls alternate.  Two `BPDN` solvers for the signals 1 and 0
constructed from one options object with this policy: after two iterations of the first and one of the second, the
third iteration of the first gives 7/8.  With an options object of its own it reaches the minimiser 1. -/
theorem C81_bb_refuted :
    (runOwn (fun b : Bool => cls1 (if b then 0 else 1)) optB [false, false, true, false]
        (fun _ => stB 0 0 0 0 2 1 0 0))[3]? = some (cst 1, []) ∧
      (runShared (fun b : Bool => cls1 (if b then 0 else 1)) optB [false, false, true, false] shared0
        (fun _ => stB 0 0 0 0 2 1 0 0))[3]? = some (cst (7 / 8), []) ∧ cst (7 / 8) ≠ cst 1 := by
  have hput : ∀ (k : ℕ) (x y xp L t bx bg cx cg : ℝ), ({ stB k x y xp L t bx bg with
      v := (stB k x y xp L t bx bg).v.put ⟨0, .none, cst cx, cst cg⟩ } : St (Vars (Sporco.Admm.Arr 1 1)))
      = stB k x y xp L t cx cg := fun _ _ _ _ _ _ _ _ _ _ => rfl
  have hsh : ∀ (k : ℕ) (x y xp L t bx bg : ℝ), (stB k x y xp L t bx bg).v.shared = ⟨0, .none, cst bx, cst bg⟩ :=
    fun _ _ _ _ _ _ _ _ => rfl
  have h0 : (shared0 : Shared (Sporco.Admm.Arr 1 1)) = ⟨0, .none, cst 0, cst 0⟩ := rfl
  have l0 : ∀ x L bx bg g, lB 0 x L bx bg g = L := fun _ _ _ _ _ => rfl
  have l1 : ∀ x L bx bg g, lB 1 x L bx bg g = L := fun _ _ _ _ _ => rfl
  have s1 : ∀ bx bg, solve (ops (cls1 1) optB) optB .none (stB 0 0 0 0 2 1 bx bg)
      = stB 1 (1 / 2) (1 / 2) 0 2 1 0 (-1) := by
    intro bx bg; rw [solve2, l0]; norm_num
  have s2 : ∀ bx bg, solve (ops (cls1 1) optB) optB .none (stB 1 (1 / 2) (1 / 2) 0 2 1 bx bg)
      = stB 2 (3 / 4) (3 / 4) (1 / 2) 2 (3 / 2) (1 / 2) (-1 / 2) := by
    intro bx bg; rw [solve2, l1]; norm_num
  have s3 : ∀ bx bg, solve (ops (cls1 0) optB) optB .none (stB 0 0 0 0 2 1 bx bg) = stB 1 0 0 0 2 1 0 0 := by
    intro bx bg; rw [solve2, l0]; norm_num
  have s4 : (solve (ops (cls1 1) optB) optB .none (stB 2 (3 / 4) (3 / 4) (1 / 2) 2 (3 / 2) (1 / 2) (-1 / 2))).v.X
      = cst 1 := by
    rw [solve2]
    unfold lB
    rw [bb_cst _ _ _ _ _ (by norm_num)]
    simp only [stB, cst_apply]
    congr 1
    norm_num
  have s5 : (solve (ops (cls1 1) optB) optB .none (stB 2 (3 / 4) (3 / 4) (1 / 2) 2 (3 / 2) 0 0)).v.X
      = cst (7 / 8) := by
    rw [solve2]
    unfold lB
    rw [bb_cst _ _ _ _ _ (by norm_num)]
    simp only [stB, cst_apply]
    congr 1
    norm_num
  have s6 : ∀ bx bg, (solve (ops (cls1 1) optB) optB .none
      (stB 2 (3 / 4) (3 / 4) (1 / 2) 2 (3 / 2) bx bg)).itstat = [] := by
    intro bx bg; rw [solve2]; rfl
  refine ⟨?_, ?_, fun h => ?_⟩
  · simp only [runOwn, List.getElem?_cons_succ, List.getElem?_cons_zero, Bool.false_eq_true, if_false, if_true,
      Function.update_self, s1, s2, s3, ne_eq, Bool.true_eq_false, not_false_eq_true, Function.update_of_ne, s4, s6]
  · simp only [runShared, h0, hput, hsh, List.getElem?_cons_succ, List.getElem?_cons_zero, Bool.false_eq_true,
      if_false, if_true, Function.update_self, s1, s2, s3, ne_eq, Bool.true_eq_false, not_false_eq_true,
      Function.update_of_ne, s5, s6]
  · have := congrArg (fun x : Sporco.Admm.Arr 1 1 => x (0, 0)) h
    simp only [cst_apply] at this
    norm_num at this

theorem stB_fresh : Fresh (stB 0 0 0 0 2 1 0 0) := ⟨rfl, rfl, rfl, rfl, rfl, rfl⟩

/-- `C81_bb_partial` for the two solvers of the counterexample, one call each. -/
example : runShared (fun b : Bool => cls1 (if b then 0 else 1)) optB [false, true] shared0
    (fun _ => stB 0 0 0 0 2 1 0 0) = runOwn (fun b : Bool => cls1 (if b then 0 else 1)) optB [false, true]
    (fun _ => stB 0 0 0 0 2 1 0 0) :=
  C81_bb_partial _ _ rfl _ (by simp) _ fun _ => stB_fresh

end Sporco.Pgm
