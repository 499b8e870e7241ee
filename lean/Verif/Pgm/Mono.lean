import Verif.Pgm.BtRate
import Mathlib.Analysis.Complex.Basic

/-!
# The `Monotone` option (C47)
-/

set_option autoImplicit false
set_option linter.unusedSectionVars false

namespace Sporco.Pgm

open scoped RealInnerProductSpace

variable {E : Type*} [NormedAddCommGroup E] [InnerProductSpace ℝ E]

/-- What holds throughout an iteration that started with iterate `X0` and recorded
objective `obj0`. -/
structure Guarded (C : Cls E) (X0 : E) (obj0 : ℝ × ℝ × ℝ) (v : Vars E) : Prop where
  prev : v.objfnPrev = obj0
  Xprv : v.Xprv = X0
  le : v.objfn.1 ≤ obj0.1
  eq : obj0 = C.objfn X0 → v.objfn = C.objfn v.X

namespace Guarded
variable {C : Cls E} {X0 : E} {obj0 : ℝ × ℝ × ℝ} {v : Vars E}

theorem safeguard {o : Opts} {k : ℕ} (hm : o.monotone = true) (hk : 0 < k)
    (h1 : v.objfnPrev = obj0) (h2 : v.Xprv = X0) : Guarded C X0 obj0 (safeguard C o k v) := by
  unfold Pgm.safeguard
  simp only [hm, hk, gt_iff_lt, and_self, if_true]
  split_ifs with h
  · exact ⟨h1, h2, by simp only [h1]; exact le_rfl, fun e => by simp only [h1, h2]; exact e⟩
  · exact ⟨h1, h2, by simp only [← h1]; exact not_lt.1 h, fun _ => rfl⟩

theorem xstepG {o : Opts} {k : ℕ} (hm : o.monotone = true) (hk : 0 < k) (h : Guarded C X0 obj0 v) (g : E) :
    Guarded C X0 obj0 (xstepG C o k g v) := by
  unfold Pgm.xstepG
  simp only
  apply safeguard hm hk
  · unfold storeBB
    cases o.stepPolicy <;> exact h.prev
  · unfold storeBB
    cases o.stepPolicy <;> exact h.Xprv

theorem ystep {o : Opts} {k : ℕ} (h : Guarded C X0 obj0 v) : Guarded C X0 obj0 (ystep o k v) := by
  unfold Pgm.ystep
  simp only
  split_ifs <;> exact ⟨h.prev, h.Xprv, h.le, h.eq⟩

theorem btLoop {o : Opts} {k : ℕ} (hm : o.monotone = true) (hk : 0 < k) (gu : ℝ) (g : E) :
    ∀ (n it : ℕ) (v : Vars E), Guarded C X0 obj0 v → Guarded C X0 obj0 (btLoop C o k gu g n it v) := by
  intro n
  induction n with
  | zero => intro it v h; exact h
  | succ n ih =>
    intro it v h
    unfold Pgm.btLoop
    simp only
    have hx := h.xstepG hm hk g
    split_ifs
    · exact ⟨hx.prev, hx.Xprv, hx.le, hx.eq⟩
    · exact ih _ _ ⟨hx.prev, hx.Xprv, hx.le, hx.eq⟩

theorem rbLoop {o : Opts} {k : ℕ} (hm : o.monotone = true) (hk : 0 < k) (gu : ℝ) (Z : E) :
    ∀ (n it : ℕ) (t : ℝ) (v : Vars E), Guarded C X0 obj0 v →
      Guarded C X0 obj0 (rbLoop C o k gu Z n it (t, v)).2 := by
  intro n
  induction n with
  | zero => intro it t v h; exact h
  | succ n ih =>
    intro it t v h
    unfold Pgm.rbLoop
    simp only
    have h' : Guarded C X0 obj0 { v with
        Y := (1 / (v.Tk + robustT v.L v.Tk)) • (v.Tk • v.Xprv + robustT v.L v.Tk • Z) } :=
      ⟨h.prev, h.Xprv, h.le, h.eq⟩
    have hx := h'.xstepG hm hk (C.gradF ((1 / (v.Tk + robustT v.L v.Tk)) • (v.Tk • v.Xprv + robustT v.L v.Tk • Z)))
    split_ifs
    · exact ⟨hx.prev, hx.Xprv, hx.le, hx.eq⟩
    · exact ih _ _ _ ⟨hx.prev, hx.Xprv, hx.le, hx.eq⟩

theorem onStart {o : Opts} {k : ℕ} (hm : o.monotone = true) (hk : 0 < k) (v : Vars E) :
    Guarded C v.X v.objfn (onStart C o k v) := by
  have hk' : k ≠ 0 := by omega
  unfold Pgm.onStart
  cases hc : (!o.fastSolve || o.isRobust) <;> simp [hm, hk'] <;>
    exact ⟨rfl, rfl, le_rfl, fun e => e⟩

/-- One iteration, for every kind of step. -/
theorem iter {o : Opts} {k : ℕ} (hm : o.monotone = true) (hk : 0 < k) (v : Vars E) :
    Guarded C v.X v.objfn (mainStep C o k (Pgm.onStart C o k v)) := by
  have h := onStart (C := C) hm hk v
  unfold mainStep
  cases o.backtrack with
  | none => exact (h.xstepG hm hk _).ystep
  | standard gu n => exact (btLoop hm hk gu _ n 0 _ h).ystep
  | robust gd gu n =>
    simp only [btRobust]
    have := rbLoop hm hk gu ((Pgm.onStart C o k v).Zrb.getD (Pgm.onStart C o k v).X) n 0 0
      { Pgm.onStart C o k v with L := (Pgm.onStart C o k v).L * gd } ⟨h.prev, h.Xprv, h.le, h.eq⟩
    exact ⟨this.prev, this.Xprv, this.le, this.eq⟩

end Guarded

/-! ## C47 -/

/-- **C47, the part that holds for every problem.** Take any problem, any step parameter,
step-size policy and backtracking object.  Once the solver has made an iteration and its
recorded objective is that of its current iterate, the objective of successive iterates
never increases again.  (What is missing: before that, see `C47_refuted`.) -/
theorem C47_partial (C : Cls E) (o : Opts) (hm : o.monotone = true) (cb) (hcb : CallbackReads cb)
    (s : St (Vars E)) (hk : 1 ≤ s.k) (hs : s.v.objfn = C.objfn s.v.X) (n : ℕ) :
    C.F (iterX C o cb s (n + 1)) ≤ C.F (iterX C o cb s n) := by
  have hv : ∀ n, (traj (ops C o) o cb s (n + 1)).v =
      mainStep C o (traj (ops C o) o cb s n).k (onStart C o (traj (ops C o) o cb s n).k (traj (ops C o) o cb s n).v) :=
    fun n => traj_v_reads _ _ _ hcb _ _
  have hk' : ∀ n, 0 < (traj (ops C o) o cb s n).k := fun n => by rw [traj_k]; omega
  have inv : ∀ n, (traj (ops C o) o cb s n).v.objfn = C.objfn (traj (ops C o) o cb s n).v.X := by
    intro n
    induction n with
    | zero => exact hs
    | succ n ih => rw [hv]; exact (Guarded.iter hm (hk' n) _).eq ih
  have h1 : C.F (iterX C o cb s (n + 1)) = (traj (ops C o) o cb s (n + 1)).v.objfn.1 := by rw [inv (n + 1)]; rfl
  have h2 : C.F (iterX C o cb s n) = (traj (ops C o) o cb s n).v.objfn.1 := by rw [inv n]; rfl
  rw [h1, h2, hv]
  exact (Guarded.iter hm (hk' n) _).le

/-- **C47, the recorded values.** For every problem and all options, the `ObjFun` values
recorded by a run with `Monotone` never increase. -/
theorem C47_recorded_partial (C : Cls E) (o : Opts) (hm : o.monotone = true) (cb)
    (hcb : CallbackReads cb) (s : St (Vars E)) (n : ℕ) :
    (entryOf (ops C o) (traj (ops C o) o cb s (n + 1))).obj.1 ≤
      (entryOf (ops C o) (traj (ops C o) o cb s n)).obj.1 := by
  have hv := traj_v_reads (ops C o) o cb hcb s n
  have e : ∀ t : St (Vars E), (entryOf (ops C o) t).obj = (after (ops C o) t).objfn := by
    intro t; simp [entryOf, ops, statOf, hm]
  rw [e, e, ← hv]
  exact (Guarded.iter hm (by rw [traj_k]; omega) _).le

/-- **C47 for convex problems** with a step parameter dominating the Lipschitz constant,
no backtracking, and a feasible starting point: no iterate is worse than the one before. -/
theorem C47_convex_partial (C : Cls E) (Dg : Set E) (Lf : ℝ) (hC : Convex C Dg Lf) (o : Opts)
    (hm : o.monotone = true) (hb : o.backtrack = .none) (hp : o.policy = .none) (cb)
    (hcb : CallbackReads cb) (s : St (Vars E)) (hs : Fresh s) (hL : 0 < s.v.L) (hLf : Lf ≤ s.v.L)
    (hX0 : s.v.X ∈ Dg) (n : ℕ) :
    C.F (iterX C o cb s (n + 1)) ≤ C.F (iterX C o cb s n) := by
  have hst := fun j => plain_step C o hb hp (traj (ops C o) o cb s j).k (traj (ops C o) o cb s j).v
  have hv : ∀ n, (traj (ops C o) o cb s (n + 1)).v =
      mainStep C o (traj (ops C o) o cb s n).k (onStart C o (traj (ops C o) o cb s n).k (traj (ops C o) o cb s n).v) :=
    fun n => traj_v_reads _ _ _ hcb _ _
  have hLn := traj_L C o hb hp cb hcb s
  have hdesc : ∀ x ∈ Dg, C.F (proxPoint C s.v.L x) ≤ C.F x := by
    intro x hx
    have := (descent hC hL hLf x).2 x hx
    have h0 := sq_nonneg ‖x - proxPoint C s.v.L x‖
    simp only [sub_self, norm_zero] at this
    nlinarith
  -- iteration 0
  have h0 := (hst 0).2.2.2.1 hm hs.k
  rw [← hv] at h0
  have hx1 : iterX C o cb s 1 = proxPoint C s.v.L s.v.X := by
    unfold iterX; rw [h0.1, hLn, traj_zero, hs.Y]
  have hx1D : iterX C o cb s 1 ∈ Dg := by rw [hx1]; exact hC.prox.mem _ _ hL
  have hF1 : C.F (iterX C o cb s 1) ≤ C.F s.v.X := by rw [hx1]; exact hdesc _ hX0
  have hy1 : (traj (ops C o) o cb s 1).v.Y = iterX C o cb s 1 := by
    have := h0.2.2
    rw [traj_zero, hs.t, sub_self, zero_div, zero_smul, add_zero] at this
    exact this
  -- iteration 1
  have hk1 : 0 < (traj (ops C o) o cb s 1).k := by rw [traj_k]; omega
  have h1 := ((hst 1).2.2.2.2 hm hk1).1
  rw [← hv, hLn, hy1] at h1
  have ho1 : (traj (ops C o) o cb s 1).v.objfn.1 = C.F s.v.X := by
    have := congrArg Prod.fst h0.2.1
    exact this
  have hacc : iterX C o cb s 2 = proxPoint C s.v.L (iterX C o cb s 1) ∧
      (traj (ops C o) o cb s 2).v.objfn = C.objfn (proxPoint C s.v.L (iterX C o cb s 1)) := by
    rcases h1 with ⟨hlt, -, -⟩ | ⟨-, h2, h3⟩
    · rw [ho1] at hlt
      exact absurd ((hdesc _ hx1D).trans hF1) (not_le.2 hlt)
    · exact ⟨h2, h3⟩
  match n with
  | 0 => exact hF1
  | 1 => rw [hacc.1]; exact hdesc _ hx1D
  | n + 2 =>
    have h := C47_partial C o hm cb hcb (traj (ops C o) o cb s 2) (by rw [traj_k]; omega)
      (by have e : (traj (ops C o) o cb s 2).v.X = _ := hacc.1
          rw [hacc.2, e]) n
    unfold iterX at h ⊢
    rw [← traj_add, ← traj_add] at h
    rw [Nat.add_comm 2, Nat.add_comm 2] at h
    exact h

/-- The least squares problem `2x²` in one dimension. -/
noncomputable def exQuad : Cls ℝ := ⟨fun x => 4 * x, fun _ x => x, fun x => 4 * x, fun x => 2 * x ^ 2, fun _ => 0⟩

/-- Default options with `Monotone`. -/
noncomputable def exMono (m : Momentum) : Opts := ⟨false, 100, 0, false, 0, true, m, .none, .none⟩

/-- A fresh solver at `X = x` with step parameter `L`. -/
noncomputable def exAt (L x : ℝ) : St (Vars ℝ) :=
  ⟨0, [], ⟨x, x, 0, 0, 0, L, 1, (0, 0, 0), (0, 0, 0), .none, .none, .none, 0, 0, 0, .none⟩⟩

theorem exAt_fresh (L x : ℝ) : Fresh (exAt L x) := ⟨rfl, rfl, rfl, rfl, rfl, rfl⟩

/-- **C47 does not hold in general**: the first iteration is not guarded.  For `2x²` with
`L = 1`, starting at 1, the first iterate is -3, with objective 18 after 2; and it is
reported with objective 2. -/
theorem C47_refuted :
    let o := exMono .nesterov
    let s := exAt 1 1
    Fresh s ∧ exQuad.F (iterX exQuad o .none s 0) < exQuad.F (iterX exQuad o .none s 1) ∧
      (entryOf (ops exQuad o) (traj (ops exQuad o) o .none s 0)).obj.1 = 2 ∧
      exQuad.F (iterX exQuad o .none s 1) = 18 := by
  have h1 : iterX exQuad (exMono .nesterov) .none (exAt 1 1) 1 = -3 := by
    unfold iterX
    rw [traj_v]
    norm_num [after, traj_zero, ops, mainStep, exMono, ystep, xstep, xstepG, stepL, storeBB,
      Opts.stepPolicy, safeguard, onStart, exAt, exQuad]
  refine ⟨exAt_fresh 1 1, ?_, ?_, ?_⟩
  · rw [h1]; norm_num [iterX, traj_zero, exAt, exQuad, Cls.F]
  · norm_num [entryOf, after, traj_zero, ops, mainStep, exMono, ystep, xstep, xstepG, stepL, storeBB,
      Opts.stepPolicy, safeguard, onStart, exAt, exQuad, statOf, Cls.objfn]
  · rw [h1]; norm_num [exQuad, Cls.F]

/-- `2x²` satisfies the hypotheses of C45, C46, C47 with Lipschitz constant 4. -/
theorem exQuad_convex : Convex exQuad Set.univ 4 where
  smooth := by
    constructor
    · intro x y
      simp only [exQuad, RCLike.inner_apply, conj_trivial]
      nlinarith [sq_nonneg (x - y)]
    · intro x y
      simp only [exQuad, RCLike.inner_apply, conj_trivial, Real.norm_eq_abs, sq_abs]
      nlinarith
  prox := by
    refine ⟨convexOn_const _ convex_univ, fun _ _ _ => Set.mem_univ _, fun L v hL z _ => ?_⟩
    simp only [exQuad, sub_self, norm_zero]
    have := sq_nonneg ‖z - v‖
    nlinarith

example (n : ℕ) : exQuad.F (iterX exQuad (exMono .nesterov) .none (exAt 4 1) (n + 1)) ≤
    exQuad.F (iterX exQuad (exMono .nesterov) .none (exAt 4 1) n) :=
  C47_convex_partial exQuad Set.univ 4 exQuad_convex (exMono .nesterov) rfl rfl rfl .none
    (fun _ _ h => by cases h) _ (exAt_fresh 4 1) (by norm_num [exAt]) (by norm_num [exAt]) trivial n

/-! ## `PGMDFT` -/

/-- The recorded objective never increases for `PGMDFT` either. -/
theorem DFT.xstepG_objfn {E Ef : Type*} [NormedAddCommGroup Ef] [InnerProductSpace ℝ Ef]
    (C : ClsF E Ef) (o : Opts) (hm : o.monotone = true) (k : ℕ) (hk : 0 < k) (g : Ef) (v : VarsF E Ef) :
    (DFT.xstepG C o k g v).objfnPrev = v.objfnPrev ∧ (DFT.xstepG C o k g v).objfn.1 ≤ v.objfnPrev.1 := by
  have hs : ∀ w : VarsF E Ef, (DFT.safeguard C o k w).objfnPrev = w.objfnPrev ∧
      (DFT.safeguard C o k w).objfn.1 ≤ w.objfnPrev.1 := by
    intro w
    unfold DFT.safeguard
    simp only [hm, hk, gt_iff_lt, and_self, if_true]
    split_ifs with h
    · exact ⟨rfl, le_rfl⟩
    · exact ⟨rfl, not_lt.1 h⟩
  unfold DFT.xstepG DFT.storeBB
  cases o.stepPolicy <;> exact hs _

theorem DFT.btLoop_objfn {E Ef : Type*} [NormedAddCommGroup Ef] [InnerProductSpace ℝ Ef]
    (C : ClsF E Ef) (o : Opts) (hm : o.monotone = true) (k : ℕ) (hk : 0 < k) (gu : ℝ) (g : Ef) (c : ℝ) :
    ∀ (n it : ℕ) (v : VarsF E Ef), v.objfn.1 ≤ c → v.objfnPrev.1 ≤ c →
      (DFT.btLoop C o k gu g n it v).objfn.1 ≤ c := by
  intro n
  induction n with
  | zero => intro it v h _; exact h
  | succ n ih =>
    intro it v h h'
    obtain ⟨a, b⟩ := DFT.xstepG_objfn C o hm k hk g v
    unfold DFT.btLoop
    simp only
    split_ifs
    · exact b.trans h'
    · exact ih _ _ (b.trans h') (by simp only [a]; exact h')

theorem DFT.rbLoop_objfn {E Ef : Type*} [NormedAddCommGroup Ef] [InnerProductSpace ℝ Ef]
    (C : ClsF E Ef) (o : Opts) (hm : o.monotone = true) (k : ℕ) (hk : 0 < k) (gu : ℝ) (Z : Ef) (c : ℝ) :
    ∀ (n it : ℕ) (t : ℝ) (v : VarsF E Ef), v.objfn.1 ≤ c → v.objfnPrev.1 ≤ c →
      (DFT.rbLoop C o k gu Z n it (t, v)).2.objfn.1 ≤ c := by
  intro n
  induction n with
  | zero => intro it t v h _; exact h
  | succ n ih =>
    intro it t v h h'
    unfold DFT.rbLoop
    simp only
    generalize hv : ({ v with Yf := (1 / (v.Tk + robustT v.L v.Tk)) • (v.Tk • v.Xfprv + robustT v.L v.Tk • Z) } :
      VarsF E Ef) = w
    have hw : w.objfnPrev.1 ≤ c := by rw [← hv]; exact h'
    rw [show (1 / (v.Tk + robustT v.L v.Tk)) • (v.Tk • v.Xfprv + robustT v.L v.Tk • Z) = w.Yf by rw [← hv]]
    obtain ⟨a, b⟩ := DFT.xstepG_objfn C o hm k hk (C.gradF w.Yf) w
    split_ifs
    · exact b.trans hw
    · exact ih _ _ _ (b.trans hw) (by simp only [a]; exact hw)

theorem DFT.step_objfn {E Ef : Type*} [NormedAddCommGroup Ef] [InnerProductSpace ℝ Ef]
    (C : ClsF E Ef) (o : Opts) (hm : o.monotone = true) (k : ℕ) (hk : 0 < k) (v : VarsF E Ef) :
    (DFT.mainStep C o k (DFT.onStart C o k v)).objfn.1 ≤ v.objfn.1 := by
  have ho : (DFT.onStart C o k v).objfn = v.objfn ∧ (DFT.onStart C o k v).objfnPrev = v.objfn := by
    have hk' : k ≠ 0 := by omega
    unfold DFT.onStart
    cases hc : (!o.fastSolve || o.isRobust) <;> simp [hm, hk']
  have hy : ∀ v : VarsF E Ef, (DFT.ystep o k v).objfn = v.objfn := by
    intro v; unfold DFT.ystep; simp only; split_ifs <;> rfl
  obtain ⟨o1, o2⟩ := ho
  unfold DFT.mainStep
  split
  · rw [hy]
    refine (DFT.xstepG_objfn C o hm _ hk _ _).2.trans ?_
    rw [o2]
  · rw [hy]
    apply DFT.btLoop_objfn C o hm _ hk
    · rw [o1]
    · rw [o2]
  · unfold DFT.btRobust
    refine DFT.rbLoop_objfn C o hm k hk _ _ _ _ _ _ _ ?_ ?_
    · exact (congrArg Prod.fst o1).le
    · exact (congrArg Prod.fst o2).le

/-- **C47, recorded values, `PGMDFT`.** -/
theorem C47_dft_recorded_partial {E Ef : Type*} [NormedAddCommGroup Ef] [InnerProductSpace ℝ Ef]
    (C : ClsF E Ef) (o : Opts) (hm : o.monotone = true) (cb)
    (hcb : CallbackReads cb) (s : St (VarsF E Ef)) (n : ℕ) :
    (entryOf (DFT.ops C o) (traj (DFT.ops C o) o cb s (n + 1))).obj.1 ≤
      (entryOf (DFT.ops C o) (traj (DFT.ops C o) o cb s n)).obj.1 := by
  have hv := traj_v_reads (DFT.ops C o) o cb hcb s n
  have e : ∀ t : St (VarsF E Ef), (entryOf (DFT.ops C o) t).obj = (after (DFT.ops C o) t).objfn := by
    intro t; simp [entryOf, DFT.ops, DFT.statOf, hm]
  rw [e, e, ← hv]
  exact DFT.step_objfn C o hm _ (by rw [traj_k]; omega) _

/-- `pgm.cbpdn.ConvBPDN` for a signal with one sample equal to 0, a dictionary of one
filter with one sample equal to 1, and `lmbda = 0`: the transforms are the inclusion of
the reals into the complex numbers and the real part, `grad_f` (263-277) is the identity,
`prox_g` (288-298) is the identity, the objective (`eval_objfn`, 322-344) is `|xf|²/2`. -/
noncomputable def exDft : ClsF ℝ ℂ where
  rfftn x := (x : ℂ)
  irfftn z := z.re
  gradF z := z
  proxG _ x := x
  hessF z := z
  obfnF z := ‖z‖ ^ 2 / 2
  evalObj _ z := (‖z‖ ^ 2 / 2, ‖z‖ ^ 2 / 2, 0)
  rsdl x y := ‖x - y‖

/-- The variables that matter, as real numbers. -/
structure Reals (v : VarsF ℝ ℂ) (x xf y t obj : ℝ) : Prop where
  X : v.X = x
  Xf : v.Xf = (xf : ℂ)
  Yf : v.Yf = (y : ℂ)
  L : v.L = 2
  t : v.t = t
  obj : v.objfn = (obj, obj, 0)

noncomputable def exGen : Opts := exMono (.genLinear 50 2)

theorem exDft_step0 {v : VarsF ℝ ℂ} {x xf y t obj : ℝ} (h : Reals v x xf y t obj) :
    Reals (DFT.mainStep exDft exGen 0 (DFT.onStart exDft exGen 0 v)) (y / 2) (y / 2)
      (y / 2 + (t - 1) / 25 * (y / 2 - xf)) 25 (xf ^ 2 / 2) := by
  obtain ⟨h1, h2, h3, h4, h5, h6⟩ := h
  constructor <;>
    simp [DFT.mainStep, DFT.onStart, exGen, exMono, DFT.ystep, DFT.xstep, DFT.xstepG, DFT.stepL,
      DFT.storeBB, Opts.stepPolicy, DFT.safeguard, exDft, Momentum.next, genLinearUpdate, h1, h2, h3, h4, h5, h6]
  all_goals ring_nf

theorem exDft_accept {v : VarsF ℝ ℂ} {x xf y t obj : ℝ} (h : Reals v x xf y t obj) (k : ℕ) (hk : 0 < k)
    (ha : (y / 2) ^ 2 / 2 ≤ obj) :
    Reals (DFT.mainStep exDft exGen k (DFT.onStart exDft exGen k v)) (y / 2) (y / 2)
      (y / 2 + (t - 1) / ((k + 50) / 2) * (y / 2 - xf)) ((k + 50) / 2) ((y / 2) ^ 2 / 2) := by
  obtain ⟨h1, h2, h3, h4, h5, h6⟩ := h
  have hk' : k ≠ 0 := by omega
  have e : y - 2⁻¹ * y = y / 2 := by ring
  have e2 : (|y| / 2) ^ 2 = (y / 2) ^ 2 := by rw [div_pow, sq_abs, div_pow]
  have hc : ¬ obj < (y / 2) ^ 2 / 2 := not_lt.2 ha
  constructor <;>
    simp [DFT.mainStep, DFT.onStart, exGen, exMono, DFT.ystep, DFT.xstep, DFT.xstepG, DFT.stepL,
      DFT.storeBB, Opts.stepPolicy, DFT.safeguard, exDft, Momentum.next, genLinearUpdate, h1, h2, h3, h4, h5, h6, hk,
      hk', e, hc, e2]

theorem exDft_reject {v : VarsF ℝ ℂ} {x xf y t obj : ℝ} (h : Reals v x xf y t obj) (k : ℕ) (hk : 0 < k)
    (ha : obj < (y / 2) ^ 2 / 2) :
    (DFT.mainStep exDft exGen k (DFT.onStart exDft exGen k v)).X = y / 2 := by
  obtain ⟨h1, h2, h3, h4, h5, h6⟩ := h
  have hk' : k ≠ 0 := by omega
  have e : y - 2⁻¹ * y = y / 2 := by ring
  have e2 : (|y| / 2) ^ 2 = (y / 2) ^ 2 := by rw [div_pow, sq_abs, div_pow]
  have hc : obj < (|y| / 2) ^ 2 / 2 := by rw [e2]; exact ha
  simp [DFT.mainStep, DFT.onStart, exGen, exMono, DFT.ystep, DFT.xstep, DFT.xstepG, DFT.stepL,
      DFT.storeBB, Opts.stepPolicy, DFT.safeguard, exDft, Momentum.next, genLinearUpdate, h1, h2, h3, h4, h5, h6, hk,
      hk', e, hc]

/-- A fresh `exDft` solver at `X = 1`, with `L = 2` (twice the Lipschitz constant). -/
noncomputable def exDftStart : St (VarsF ℝ ℂ) :=
  ⟨0, [], ⟨1, ((1 : ℝ) : ℂ), ((1 : ℝ) : ℂ), 0, 0, 0, 2, 1, (0, 0, 0), (0, 0, 0), .none, .none, .none, 0, 0, 0, .none⟩⟩

/-- **C47 fails for the solvers working in the DFT domain**, also with a valid step
parameter: the rejected point is what the solver returns.  Here the third iterate is
1/136 and the fourth is -1565/14144, with more than 200 times the objective. -/
theorem C47_dft_refuted :
    let x := fun n => (traj (DFT.ops exDft exGen) exGen .none exDftStart n).v.X
    x 3 = 1 / 136 ∧ x 4 = -1565 / 14144 ∧ 200 * (x 3 ^ 2 / 2) < x 4 ^ 2 / 2 := by
  have hv : ∀ n, (traj (DFT.ops exDft exGen) exGen .none exDftStart (n + 1)).v =
      DFT.mainStep exDft exGen n (DFT.onStart exDft exGen n (traj (DFT.ops exDft exGen) exGen .none exDftStart n).v) := by
    intro n
    rw [traj_v]
    unfold after
    rw [traj_k]
    simp [exDftStart, DFT.ops]
  have r0 : Reals (traj (DFT.ops exDft exGen) exGen .none exDftStart 0).v 1 1 1 1 0 := by
    constructor <;> simp [traj_zero, exDftStart]
  have r1 := exDft_step0 r0
  rw [← hv] at r1
  have r2 := exDft_accept r1 1 (by norm_num) (by norm_num)
  rw [← hv] at r2
  have r3 := exDft_accept r2 2 (by norm_num) (by norm_num)
  rw [← hv] at r3
  have r4 := exDft_reject r3 3 (by norm_num) (by norm_num)
  rw [← hv] at r4
  have e3 := r3.X
  simp only
  rw [r4]
  norm_num at e3
  rw [e3]
  norm_num

end Sporco.Pgm
