import Verif.Pgm.Batch
import Verif.Admm.Scale

/-!
# Change of units in proximal gradient solvers (C92)
-/

set_option autoImplicit false
set_option linter.unusedSectionVars false

namespace Sporco.Pgm

open scoped RealInnerProductSpace
open Sporco.Admm (sqr)

variable {E : Type*} [NormedAddCommGroup E] [InnerProductSpace ℝ E]

/-! ## Specification -/

/-- An iteration record in other units: objective values and the values `F`, `Q` compared in line searches are quadratic
in the units, the residual is linear; the step parameter has no units. -/
def Stat.scaled (c : ℝ) (q : Stat) : Stat :=
  { iter := q.iter, obj := sqr c q.obj, rsdl := c * q.rsdl, F := q.F.map (c ^ 2 * ·), Q := q.Q.map (c ^ 2 * ·),
    iterBT := q.iterBT, L := q.L }

/-- The options in other units: the tolerances are multiplied by `c`. -/
def Opts.scaled (c : ℝ) (o : Opts) : Opts := { o with relStopTol := c * o.relStopTol, tau0 := c * o.tau0 }

/-- The attributes in other units. -/
def Vars.scaled (c : ℝ) (v : Vars E) : Vars E :=
  { X := c • v.X, Y := c • v.Y, Xprv := c • v.Xprv, Yprv := c • v.Yprv, ZZ := c • v.ZZ, L := v.L, t := v.t,
    objfn := sqr c v.objfn, objfnPrev := sqr c v.objfnPrev, F := v.F.map (c ^ 2 * ·), Q := v.Q.map (c ^ 2 * ·),
    iterBT := v.iterBT, bbX := c • v.bbX, bbG := c • v.bbG, Tk := v.Tk, Zrb := v.Zrb.map (c • ·) }

/-- A solver object in other units. -/
def St.scaled (c : ℝ) (s : St (Vars E)) : St (Vars E) := ⟨s.k, s.itstat.map (Stat.scaled c), s.v.scaled c⟩

/-! ## Runs of classes that scale -/

/-- The methods of the two classes agree up to the units. -/
structure ClsScales (c : ℝ) (C C' : Cls E) : Prop where
  gradF : ∀ x, C'.gradF (c • x) = c • C.gradF x
  proxG : ∀ L x, C'.proxG L (c • x) = c • C.proxG L x
  hessF : ∀ x, C'.hessF (c • x) = c • C.hessF x
  obfnF : ∀ x, C'.obfnF (c • x) = c ^ 2 * C.obfnF x
  obfnG : ∀ x, C'.obfnG (c • x) = c ^ 2 * C.obfnG x

variable {c : ℝ} {C C' : Cls E}

theorem objfn_scaled (h : ClsScales c C C') (x : E) : C'.objfn (c • x) = sqr c (C.objfn x) := by
  unfold Cls.objfn sqr
  rw [h.obfnF, h.obfnG, mul_add]

theorem inner_scaled (c : ℝ) (x y : E) : ⟪c • x, c • y⟫ = c ^ 2 * ⟪x, y⟫ := by
  rw [real_inner_smul_left, real_inner_smul_right]; ring

theorem npDiv_scaled (hc : 0 < c) (a b : ℝ) : npDiv (c ^ 2 * a) (c ^ 2 * b) = npDiv a b := by
  have h : c ^ 2 ≠ 0 := (pow_pos hc 2).ne'
  unfold npDiv
  simp only [mul_eq_zero, h, false_or, mul_div_mul_left _ _ h]

theorem stepL_scaled (hc : 0 < c) (h : ClsScales c C C') (o : Opts) (k : ℕ) (v : Vars E) (g : E) :
    stepL C' (o.scaled c) k (v.scaled c) (c • g) = stepL C o k v g := by
  unfold stepL
  rw [show (o.scaled c).stepPolicy = o.stepPolicy from rfl]
  cases o.stepPolicy
  · rfl
  · simp only [cauchyUpdate, h.hessF, inner_scaled, npDiv_scaled hc]
    rfl
  · simp only [bbUpdate, Vars.scaled, ← smul_sub, inner_scaled, npDiv_scaled hc]

theorem safeguard_scaled (hc : 0 < c) (h : ClsScales c C C') (o : Opts) (k : ℕ) (v : Vars E) :
    safeguard C' (o.scaled c) k (v.scaled c) = (safeguard C o k v).scaled c := by
  have h2 : 0 < c ^ 2 := pow_pos hc 2
  unfold safeguard
  rw [show (o.scaled c).monotone = o.monotone from rfl]
  by_cases h1 : o.monotone = true ∧ k > 0
  · have e : C'.objfn (v.scaled c).X = sqr c (C.objfn v.X) := objfn_scaled h _
    simp only [if_pos h1, e]
    by_cases h3 : v.objfnPrev.1 < (C.objfn v.X).1
    · have h4 : (v.scaled c).objfnPrev.1 < (sqr c (C.objfn v.X)).1 := (mul_lt_mul_iff_right₀ h2).2 h3
      rw [if_pos h3, if_pos h4]; rfl
    · have h4 : ¬ (v.scaled c).objfnPrev.1 < (sqr c (C.objfn v.X)).1 := fun h4 => h3 ((mul_lt_mul_iff_right₀ h2).1 h4)
      rw [if_neg h3, if_neg h4]; rfl
  · simp only [if_neg h1]

theorem xstepG_scaled (hc : 0 < c) (h : ClsScales c C C') (o : Opts) (k : ℕ) (g : E) (v : Vars E) :
    xstepG C' (o.scaled c) k (c • g) (v.scaled c) = (xstepG C o k g v).scaled c := by
  unfold xstepG
  simp only [stepL_scaled hc h]
  rw [← safeguard_scaled hc h]
  congr 1
  have e : storeBB (o.scaled c) ({ v.scaled c with L := stepL C o k v g }) (c • g) =
      (storeBB o ({ v with L := stepL C o k v g }) g).scaled c := by
    unfold storeBB
    rw [show (o.scaled c).stepPolicy = o.stepPolicy from rfl]
    cases o.stepPolicy <;> rfl
  rw [e]
  generalize storeBB o ({ v with L := stepL C o k v g }) g = u
  unfold Vars.scaled
  simp only [smul_comm _ c g, ← smul_sub, h.proxG]

theorem ystep_scaled (o : Opts) (k : ℕ) (v : Vars E) : ystep (o.scaled c) k (v.scaled c) = (ystep o k v).scaled c := by
  unfold ystep
  rw [show (o.scaled c).monotone = o.monotone from rfl, show (o.scaled c).momentum = o.momentum from rfl]
  by_cases h1 : o.monotone = true ∧ k > 0
  · simp only [if_pos h1, Vars.scaled, smul_add, smul_sub, smul_comm _ c]
  · simp only [if_neg h1, Vars.scaled, smul_add, smul_sub, smul_comm _ c]

theorem onStart_scaled (h : ClsScales c C C') (o : Opts) (k : ℕ) (v : Vars E) :
    onStart C' (o.scaled c) k (v.scaled c) = (onStart C o k v).scaled c := by
  unfold onStart
  rw [show (o.scaled c).monotone = o.monotone from rfl, show (o.scaled c).fastSolve = o.fastSolve from rfl,
    show (o.scaled c).isRobust = o.isRobust from rfl]
  simp only
  by_cases h1 : (!o.fastSolve || o.isRobust) = true <;> by_cases h2 : o.monotone = true <;> by_cases h3 : k = 0 <;>
    simp only [h1, h2, h3, if_true, if_false, Bool.false_eq_true, Vars.scaled, objfn_scaled h]

theorem quadQ_scaled (hc : 0 < c) (h : ClsScales c C C') (L : ℝ) (x y g : E) :
    quadQ C' L (c • x) (c • y) (c • g) = c ^ 2 * quadQ C L x y g := by
  unfold quadQ
  rw [h.obfnF, ← smul_sub, inner_scaled, norm_smul, Real.norm_of_nonneg hc.le]
  ring

theorem btLoop_scaled (hc : 0 < c) (h : ClsScales c C C') (o : Opts) (k : ℕ) (gu : ℝ) (g : E) (n : ℕ) :
    ∀ (it : ℕ) (v : Vars E),
    btLoop C' (o.scaled c) k gu (c • g) n it (v.scaled c) = (btLoop C o k gu g n it v).scaled c := by
  induction n with
  | zero => intro it v; rfl
  | succ n ih =>
    intro it v
    unfold btLoop
    simp only
    rw [xstepG_scaled hc h]
    generalize xstepG C o k g v = u
    have e1 : C'.obfnF (u.scaled c).X = c ^ 2 * C.obfnF u.X := h.obfnF _
    have e2 : quadQ C' (u.scaled c).L (u.scaled c).X (u.scaled c).Y (c • g) = c ^ 2 * quadQ C u.L u.X u.Y g :=
      quadQ_scaled hc h _ _ _ _
    rw [e1, e2]
    simp only [mul_le_mul_iff_right₀ (pow_pos hc 2)]
    split_ifs
    · rfl
    · exact ih (it + 1) { u with F := some (C.obfnF u.X), Q := some (quadQ C u.L u.X u.Y g), iterBT := some (it + 1),
                                 L := u.L * gu }

theorem rbLoop_scaled (hc : 0 < c) (h : ClsScales c C C') (o : Opts) (k : ℕ) (gu : ℝ) (Z : E) (n : ℕ) :
    ∀ (it : ℕ) (t0 : ℝ) (v : Vars E),
    rbLoop C' (o.scaled c) k gu (c • Z) n it (t0, v.scaled c) =
      ((rbLoop C o k gu Z n it (t0, v)).1, (rbLoop C o k gu Z n it (t0, v)).2.scaled c) := by
  induction n with
  | zero => intro it t0 v; rfl
  | succ n ih =>
    intro it t0 v
    unfold rbLoop
    simp only
    have e0 : (1 / ((v.scaled c).Tk + robustT (v.scaled c).L (v.scaled c).Tk)) •
        ((v.scaled c).Tk • (v.scaled c).Xprv + robustT (v.scaled c).L (v.scaled c).Tk • (c • Z)) =
        c • ((1 / (v.Tk + robustT v.L v.Tk)) • (v.Tk • v.Xprv + robustT v.L v.Tk • Z)) := by
      simp only [Vars.scaled, smul_add, smul_comm _ c]
    rw [e0, h.gradF]
    generalize (1 / (v.Tk + robustT v.L v.Tk)) • (v.Tk • v.Xprv + robustT v.L v.Tk • Z) = y
    have e3 : ({ v.scaled c with Y := c • y } : Vars E) = ({ v with Y := y } : Vars E).scaled c := rfl
    rw [e3, xstepG_scaled hc h]
    generalize xstepG C o k (C.gradF y) { v with Y := y } = u
    have e1 : C'.obfnF (u.scaled c).X = c ^ 2 * C.obfnF u.X := h.obfnF _
    have e2 : quadQ C' (u.scaled c).L (u.scaled c).X (u.scaled c).Y (c • C.gradF y) = c ^ 2 * quadQ C u.L u.X u.Y (C.gradF y) :=
      quadQ_scaled hc h _ _ _ _
    rw [e1, e2]
    simp only [mul_le_mul_iff_right₀ (pow_pos hc 2)]
    split_ifs
    · rfl
    · exact ih (it + 1) (robustT v.L v.Tk) { u with F := some (C.obfnF u.X), Q := some (quadQ C u.L u.X u.Y (C.gradF y)),
                                                    iterBT := some (it + 1), L := u.L * gu }

theorem mainStep_scaled (hc : 0 < c) (h : ClsScales c C C') (o : Opts) (k : ℕ) (v : Vars E) :
    mainStep C' (o.scaled c) k (v.scaled c) = (mainStep C o k v).scaled c := by
  unfold mainStep
  rw [show (o.scaled c).backtrack = o.backtrack from rfl]
  cases o.backtrack with
  | none =>
    simp only
    unfold xstep
    rw [show C'.gradF (v.scaled c).Y = c • C.gradF v.Y from h.gradF _, xstepG_scaled hc h, ystep_scaled]
  | standard gu n =>
    simp only
    unfold btStandard
    simp only
    rw [show C'.gradF (v.scaled c).Y = c • C.gradF v.Y from h.gradF _, btLoop_scaled hc h, ystep_scaled]
  | robust gd gu n =>
    simp only
    unfold btRobust
    simp only
    have e : (v.scaled c).Zrb.getD (v.scaled c).X = c • v.Zrb.getD v.X := by
      change (v.Zrb.map (c • ·)).getD (c • v.X) = _
      cases v.Zrb <;> rfl
    have e3 : ({ v.scaled c with L := (v.scaled c).L * gd } : Vars E) = ({ v with L := v.L * gd } : Vars E).scaled c := rfl
    rw [e, e3, rbLoop_scaled hc h]
    simp only [Vars.scaled, Option.map_some, smul_add, smul_sub, smul_comm _ c]

theorem rsdl_scaled (hc : 0 < c) (o : Opts) (k : ℕ) (v : Vars E) :
    rsdl (o.scaled c) k (v.scaled c) = c * rsdl o k v := by
  unfold rsdl
  rw [show (o.scaled c).monotone = o.monotone from rfl]
  split_ifs <;> simp only [Vars.scaled, ← smul_sub, norm_smul, Real.norm_of_nonneg hc.le]

theorem tolOf_scaled (o : Opts) (k : ℕ) : tolOf (o.scaled c) k = c * tolOf o k := by
  unfold tolOf
  rw [show (o.scaled c).autoStop = o.autoStop from rfl]
  split_ifs
  · simp only [Opts.scaled, mul_div_assoc]
  · rfl

theorem statOf_scaled (h : ClsScales c C C') (o : Opts) (k : ℕ) (v : Vars E) (r : ℝ) :
    statOf C' (o.scaled c) k (v.scaled c) (c * r) = (statOf C o k v r).scaled c := by
  unfold statOf Stat.scaled
  rw [show (o.scaled c).monotone = o.monotone from rfl]
  split_ifs <;> simp only [Vars.scaled, objfn_scaled h]

theorem body_scaled (hc : 0 < c) (h : ClsScales c C C') (o : Opts) (k : ℕ) (s : St (Vars E)) :
    body (ops C' (o.scaled c)) (o.scaled c) none k (s.scaled c) =
      ((body (ops C o) o none k s).1.scaled c, (body (ops C o) o none k s).2) := by
  unfold body
  simp only [ops, St.scaled, onStart_scaled h, mainStep_scaled hc h, rsdl_scaled hc, statOf_scaled h, tolOf_scaled,
    mul_lt_mul_iff_right₀ hc]
  rw [show (o.scaled c).fastSolve = o.fastSolve from rfl]
  have e : ∀ (P : Prop) (d1 d2 : Decidable P), @decide P d1 = @decide P d2 := fun P d1 d2 => by congr
  cases o.fastSolve
  · simp; exact e _ _ _
  · simp

theorem loop_scaled (hc : 0 < c) (h : ClsScales c C C') (o : Opts) (ks : List ℕ) : ∀ s : St (Vars E),
    loop (ops C' (o.scaled c)) (o.scaled c) none ks (s.scaled c) = (loop (ops C o) o none ks s).scaled c := by
  induction ks with
  | nil => intro s; rfl
  | cons k ks ih =>
    intro s
    unfold loop
    simp only
    rw [body_scaled hc h]
    simp only
    split_ifs
    · rfl
    · exact ih _

theorem solve_scaled (hc : 0 < c) (h : ClsScales c C C') (o : Opts) (s : St (Vars E)) :
    solve (ops C' (o.scaled c)) (o.scaled c) none (s.scaled c) = (solve (ops C o) o none s).scaled c := by
  unfold solve
  simp only
  rw [show (s.scaled c).k = s.k from rfl, show (o.scaled c).maxMainIter = o.maxMainIter from rfl, loop_scaled hc h]
  rfl

/-! ## The classes -/

open Matrix
open Sporco.Prox
open Sporco.Admm (Arr mat arr)
open Sporco.Admm.Bpdn (gystep)

section
variable {N M K : ℕ}

theorem mat_smul' (c : ℝ) (V : Arr M K) : mat (c • V) = c • mat V := by
  ext i j; rfl

theorem arr_smul' (c : ℝ) (A : Matrix (Fin M) (Fin K) ℝ) : arr (c • A) = c • arr A := by
  ext i; rfl

theorem had_smul' (c : ℝ) (W R : Matrix (Fin M) (Fin K) ℝ) : had W (c • R) = c • had W R := by
  ext i j; simp only [had, Matrix.of_apply, Matrix.smul_apply, smul_eq_mul]; ring

theorem resid_smul (c : ℝ) (D : Matrix (Fin N) (Fin M) ℝ) (S : Matrix (Fin N) (Fin K) ℝ) (V : Arr M K) :
    D * mat (c • V) - c • S = c • (D * mat V - S) := by
  rw [mat_smul', Matrix.mul_smul, smul_sub]

theorem normsq_smul (hc : 0 < c) (x : Arr M K) : ‖c • x‖ ^ 2 = c ^ 2 * ‖x‖ ^ 2 := by
  rw [norm_smul, Real.norm_of_nonneg hc.le, mul_pow]

theorem bpdn_proxG_smul (hc : 0 < c) (D : Matrix (Fin N) (Fin M) ℝ) (S : Matrix (Fin N) (Fin K) ℝ) (lmbda : ℝ)
    (w : Fin M × Fin K → ℝ) (b : Bool) (L : ℝ) (x : Arr M K) :
    (clsBPDN D (c • S) (c * lmbda) w b).proxG L (c • x) = c • (clsBPDN D S lmbda w b).proxG L x := by
  have e : proxL1Arr (c • x).ofLp (fun i => c * lmbda / L * w i) =
      fun i => c * proxL1Arr x.ofLp (fun i => lmbda / L * w i) i := by
    funext i
    change proxL1 (c * x i) (c * lmbda / L * w i) = c * proxL1 (x i) (lmbda / L * w i)
    rw [show c * lmbda / L * w i = c * (lmbda / L * w i) by ring, proxL1_smul hc]
  simp only [clsBPDN, e, gystep]
  cases b
  · rfl
  · simp only [if_true, clip_smul hc]
    rfl

theorem bpdn_obfnG_smul (hc : 0 < c) (D : Matrix (Fin N) (Fin M) ℝ) (S : Matrix (Fin N) (Fin K) ℝ) (lmbda : ℝ)
    (w : Fin M × Fin K → ℝ) (b : Bool) (x : Arr M K) :
    (clsBPDN D (c • S) (c * lmbda) w b).obfnG (c • x) = c ^ 2 * (clsBPDN D S lmbda w b).obfnG x := by
  have e : (fun i => w i * (c • x) i) = fun i => c * (w i * x i) := by
    funext i; rw [show (c • x) i = c * x i from rfl]; ring
  simp only [clsBPDN, e, normL1_smul hc]
  ring

theorem bpdn_scales (hc : 0 < c) (D : Matrix (Fin N) (Fin M) ℝ) (S : Matrix (Fin N) (Fin K) ℝ) (lmbda : ℝ)
    (w : Fin M × Fin K → ℝ) (b : Bool) :
    ClsScales c (clsBPDN D S lmbda w b) (clsBPDN D (c • S) (c * lmbda) w b) where
  gradF x := by simp only [clsBPDN, resid_smul, Matrix.mul_smul, arr_smul']
  proxG L x := bpdn_proxG_smul hc D S lmbda w b L x
  hessF x := by simp only [clsBPDN, mat_smul', Matrix.mul_smul, arr_smul']
  obfnF x := by simp only [clsBPDN, resid_smul, arr_smul', normsq_smul hc]; ring
  obfnG x := bpdn_obfnG_smul hc D S lmbda w b x

theorem wbpdn_scales (hc : 0 < c) (D : Matrix (Fin N) (Fin M) ℝ) (S : Matrix (Fin N) (Fin K) ℝ) (lmbda : ℝ)
    (w : Fin M × Fin K → ℝ) (b : Bool) (W : Matrix (Fin N) (Fin K) ℝ) :
    ClsScales c (clsWBPDN D S lmbda w b W) (clsWBPDN D (c • S) (c * lmbda) w b W) where
  gradF x := by simp only [clsWBPDN, resid_smul, had_smul', Matrix.mul_smul, arr_smul']
  proxG L x := bpdn_proxG_smul hc D S lmbda w b L x
  hessF x := by simp only [clsWBPDN, clsBPDN, mat_smul', Matrix.mul_smul, arr_smul']
  obfnF x := by simp only [clsWBPDN, resid_smul, had_smul', arr_smul', normsq_smul hc]; ring
  obfnG x := bpdn_obfnG_smul hc D S lmbda w b x

/-- **C92** (`pgm.bpdn.BPDN`, for every combination of step size policy, line search, momentum, restart and stopping
rule).  A signal measured in other units, with `lmbda`, the starting arrays and the stopping tolerances in those units and
the same `L`, gives the same solution, iteration records and number of iterations in those units. -/
theorem C92_pgm_bpdn (hc : 0 < c) (D : Matrix (Fin N) (Fin M) ℝ) (S : Matrix (Fin N) (Fin K) ℝ) (lmbda : ℝ)
    (w : Fin M × Fin K → ℝ) (b : Bool) (o : Opts) (s : St (Vars (Arr M K))) :
    solve (ops (clsBPDN D (c • S) (c * lmbda) w b) (o.scaled c)) (o.scaled c) none (s.scaled c) =
      (solve (ops (clsBPDN D S lmbda w b) o) o none s).scaled c :=
  solve_scaled hc (bpdn_scales hc D S lmbda w b) o s

/-- **C92** (`pgm.bpdn.WeightedBPDN`). -/
theorem C92_pgm_weightedbpdn (hc : 0 < c) (D : Matrix (Fin N) (Fin M) ℝ) (S : Matrix (Fin N) (Fin K) ℝ) (lmbda : ℝ)
    (w : Fin M × Fin K → ℝ) (b : Bool) (W : Matrix (Fin N) (Fin K) ℝ) (o : Opts) (s : St (Vars (Arr M K))) :
    solve (ops (clsWBPDN D (c • S) (c * lmbda) w b W) (o.scaled c)) (o.scaled c) none (s.scaled c) =
      (solve (ops (clsWBPDN D S lmbda w b W) o) o none s).scaled c :=
  solve_scaled hc (wbpdn_scales hc D S lmbda w b W) o s

end

/-! ## `RelStopTol` is not a relative tolerance -/

/-- Options of the example, for signals of one tenth of the size. -/
noncomputable def tenthOpts : Opts := { batOpts with relStopTol := 3 / 50, tau0 := 1 / 10 }

theorem tenth_scaled : tenthOpts.scaled 10 = batOpts := by
  unfold Opts.scaled tenthOpts batOpts
  norm_num

/-- **Negation of C92 for unchanged stopping tolerances.**  `RelStopTol` is compared with the norm of `X - Y` itself, so
it is not relative to the size of the signal: the signal 1 coded with tolerance 0.6 is left after one iteration with
coefficient 1/2, the signal 10 after two with 7.5. -/
theorem C92_pgm_reltol_refuted : ¬ ∀ (N M K : ℕ) (c : ℝ) (_ : 0 < c) (D : Matrix (Fin N) (Fin M) ℝ)
    (S : Matrix (Fin N) (Fin K) ℝ) (lmbda : ℝ) (w : Fin M × Fin K → ℝ) (b : Bool) (o : Opts) (s : St (Vars (Arr M K))),
    (solve (ops (clsBPDN D (c • S) (c * lmbda) w b) o) o none (s.scaled c)).v.X =
      c • (solve (ops (clsBPDN D S lmbda w b) o) o none s).v.X := by
  classical
  intro H
  have h := H 1 1 1 10 (by norm_num) (Matrix.of fun _ _ => 1) (Matrix.of fun _ _ => 1) 0 (fun _ => 0) false batOpts (batSt 1)
  have h' := C92_pgm_bpdn (c := 10) (by norm_num) (Matrix.of fun _ _ => 1 : Matrix (Fin 1) (Fin 1) ℝ)
    (Matrix.of fun _ _ => 1 : Matrix (Fin 1) (Fin 1) ℝ) 0 (fun _ => 0) false tenthOpts (batSt 1)
  rw [tenth_scaled] at h'
  rw [h'] at h
  change (10 : ℝ) • (solve (ops (batCls 1) batOpts) tenthOpts none (batSt 1)).v.X =
    (10 : ℝ) • (solve (ops (batCls 1) batOpts) batOpts none (batSt 1)).v.X at h
  have nrm : ‖batCst 1 ((0 + 1) / 2) - batCst 1 0‖ = 1 / 2 := by
    rw [EuclideanSpace.norm_eq]
    change Real.sqrt (∑ i : Fin 1 × Fin 1, ‖(0 + 1) / 2 - (0 : ℝ)‖ ^ 2) = _
    rw [show (1 : ℝ) / 2 = Real.sqrt ((1 / 2) ^ 2) by rw [Real.sqrt_sq]; norm_num]
    congr 1
    simp
  have run : (body (ops (batCls 1) batOpts) batOpts none 0 (batSt 1)).2 = true := by
    obtain ⟨-, h2, -, -⟩ := bat_step 1 0 (batSt 1).v 0 rfl rfl
    unfold body
    simp only [Bool.false_or]
    rw [h2, nrm]
    unfold tolOf
    norm_num [batOpts]
  have run' : (body (ops (batCls 1) batOpts) tenthOpts none 0 (batSt 1)).2 = false := by
    obtain ⟨-, h2, -, -⟩ := bat_step 1 0 (batSt 1).v 0 rfl rfl
    unfold body
    simp only [Bool.false_or]
    rw [h2, nrm]
    unfold tolOf
    norm_num [batOpts, tenthOpts]
  have e1 : (solve (ops (batCls 1) batOpts) batOpts none (batSt 1)).v.X = batCst 1 (1 / 2) := by
    unfold solve
    change (loop (ops (batCls 1) batOpts) batOpts none [0, 1] (batSt 1)).v.X = _
    unfold loop
    simp only [run, if_true]
    rw [(body_run _ _ _ _).1, (bat_step 1 0 (batSt 1).v 0 rfl rfl).1]
    norm_num
  have e4 : (solve (ops (batCls 1) batOpts) tenthOpts none (batSt 1)).v.X = batCst 1 (3 / 4) := by
    unfold solve
    change (loop (ops (batCls 1) batOpts) tenthOpts none [0, 1] (batSt 1)).v.X = _
    unfold loop
    simp only [run', Bool.false_eq_true, if_false]
    obtain ⟨-, -, h3, h4⟩ := bat_step 1 0 (batSt 1).v 0 rfl rfl
    have hv := (body_run (ops (batCls 1) batOpts) tenthOpts 0 (batSt 1)).1
    have h5 := (bat_step 1 1 (body (ops (batCls 1) batOpts) tenthOpts none 0 (batSt 1)).1.v ((0 + 1) / 2)
      (by rw [hv]; exact h3 rfl) (by rw [hv]; exact h4)).1
    unfold loop
    have h6 := (body_run (ops (batCls 1) batOpts) tenthOpts 1 (body (ops (batCls 1) batOpts) tenthOpts none 0 (batSt 1)).1).1
    have h7 : (body (ops (batCls 1) batOpts) tenthOpts none 1
        (body (ops (batCls 1) batOpts) tenthOpts none 0 (batSt 1)).1).1.v.X = batCst 1 (3 / 4) := by
      rw [h6, h5]; norm_num
    unfold loop
    simp only [ite_self]
    exact h7
  rw [e1, e4] at h
  have h8 : (10 : ℝ) * (3 / 4) = 10 * (1 / 2) := congrFun (congrArg WithLp.ofLp h) (0, 0)
  norm_num at h8

/-- A run meeting the hypotheses of the positive theorem in which the two signals differ. -/
example : (0 : ℝ) < 10 ∧ batSt 1 ≠ { batSt 1 with k := 1 } ∧ tenthOpts.scaled 10 = batOpts :=
  ⟨by norm_num, fun h => by simpa [batSt] using congrArg St.k h, tenth_scaled⟩

end Sporco.Pgm
