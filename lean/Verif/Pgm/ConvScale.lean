import Verif.Pgm.Scale
import Verif.Pgm.ConvGrad
import Verif.Conv.Scale

/-!
# Change of units in convolutional sparse coding by proximal gradient (C92)
-/

set_option autoImplicit false
set_option linter.unusedSectionVars false

namespace Sporco.Pgm

open scoped RealInnerProductSpace

variable {E Ef : Type*} [AddCommGroup E] [Module ℝ E] [NormedAddCommGroup Ef] [InnerProductSpace ℝ Ef]

/-! ## Specification -/

/-- Objective value, data fidelity and l1 norm in other units: the first two are quadratic in the units, the norm (recorded
without the factor `lmbda`) is linear. -/
def sqrF (c : ℝ) (q : ℝ × ℝ × ℝ) : ℝ × ℝ × ℝ := (c ^ 2 * q.1, c ^ 2 * q.2.1, c * q.2.2)

/-- An iteration record in other units.  The residual of these classes is the square of a norm. -/
def Stat.scaledF (c : ℝ) (q : Stat) : Stat :=
  { iter := q.iter, obj := sqrF c q.obj, rsdl := c ^ 2 * q.rsdl, F := q.F.map (c ^ 2 * ·), Q := q.Q.map (c ^ 2 * ·),
    iterBT := q.iterBT, L := q.L }

/-- The options in other units: the tolerances are quadratic in the units. -/
def Opts.scaledF (c : ℝ) (o : Opts) : Opts := { o with relStopTol := c ^ 2 * o.relStopTol, tau0 := c ^ 2 * o.tau0 }

/-- The attributes in other units. -/
def VarsF.scaled (c : ℝ) (v : VarsF E Ef) : VarsF E Ef :=
  { X := c • v.X, Xf := c • v.Xf, Yf := c • v.Yf, Xfprv := c • v.Xfprv, Yfprv := c • v.Yfprv, ZZf := c • v.ZZf, L := v.L,
    t := v.t, objfn := sqrF c v.objfn, objfnPrev := sqrF c v.objfnPrev, F := v.F.map (c ^ 2 * ·),
    Q := v.Q.map (c ^ 2 * ·), iterBT := v.iterBT, bbX := c • v.bbX, bbG := c • v.bbG, Tk := v.Tk,
    Zrb := v.Zrb.map (c • ·) }

/-- A solver object in other units. -/
def St.scaledF (c : ℝ) (s : St (VarsF E Ef)) : St (VarsF E Ef) := ⟨s.k, s.itstat.map (Stat.scaledF c), s.v.scaled c⟩

/-! ## Runs of classes that scale -/

/-- The methods of the two classes agree up to the units. -/
structure ClsFScales (c : ℝ) (C C' : ClsF E Ef) : Prop where
  rfftn : ∀ x, C'.rfftn (c • x) = c • C.rfftn x
  irfftn : ∀ x, C'.irfftn (c • x) = c • C.irfftn x
  gradF : ∀ x, C'.gradF (c • x) = c • C.gradF x
  proxG : ∀ L x, C'.proxG L (c • x) = c • C.proxG L x
  hessF : ∀ x, C'.hessF (c • x) = c • C.hessF x
  obfnF : ∀ x, C'.obfnF (c • x) = c ^ 2 * C.obfnF x
  evalObj : ∀ x y, C'.evalObj (c • x) (c • y) = sqrF c (C.evalObj x y)
  rsdl : ∀ x y, C'.rsdl (c • x) (c • y) = c ^ 2 * C.rsdl x y

namespace DFT

variable {c : ℝ} {C C' : ClsF E Ef}

theorem stepL_scaled (hc : 0 < c) (h : ClsFScales c C C') (o : Opts) (k : ℕ) (v : VarsF E Ef) (g : Ef) :
    stepL C' (o.scaledF c) k (v.scaled c) (c • g) = stepL C o k v g := by
  unfold stepL
  rw [show (o.scaledF c).stepPolicy = o.stepPolicy from rfl]
  cases o.stepPolicy
  · rfl
  · simp only [cauchyUpdate, h.hessF, inner_scaled, npDiv_scaled hc]
    rfl
  · simp only [bbUpdate, VarsF.scaled, ← smul_sub, inner_scaled, npDiv_scaled hc]

theorem safeguard_scaled (hc : 0 < c) (h : ClsFScales c C C') (o : Opts) (k : ℕ) (v : VarsF E Ef) :
    safeguard C' (o.scaledF c) k (v.scaled c) = (safeguard C o k v).scaled c := by
  have h2 : 0 < c ^ 2 := pow_pos hc 2
  unfold safeguard
  rw [show (o.scaledF c).monotone = o.monotone from rfl]
  by_cases h1 : o.monotone = true ∧ k > 0
  · have e : C'.evalObj (v.scaled c).X (v.scaled c).Xf = sqrF c (C.evalObj v.X v.Xf) := h.evalObj _ _
    simp only [if_pos h1, e]
    by_cases h3 : v.objfnPrev.1 < (C.evalObj v.X v.Xf).1
    · have h4 : (v.scaled c).objfnPrev.1 < (sqrF c (C.evalObj v.X v.Xf)).1 := (mul_lt_mul_iff_right₀ h2).2 h3
      rw [if_pos h3, if_pos h4]; rfl
    · have h4 : ¬ (v.scaled c).objfnPrev.1 < (sqrF c (C.evalObj v.X v.Xf)).1 :=
        fun h4 => h3 ((mul_lt_mul_iff_right₀ h2).1 h4)
      rw [if_neg h3, if_neg h4]; rfl
  · simp only [if_neg h1]

theorem xstepG_scaled (hc : 0 < c) (h : ClsFScales c C C') (o : Opts) (k : ℕ) (g : Ef) (v : VarsF E Ef) :
    xstepG C' (o.scaledF c) k (c • g) (v.scaled c) = (xstepG C o k g v).scaled c := by
  unfold xstepG
  simp only [stepL_scaled hc h]
  rw [← safeguard_scaled hc h]
  congr 1
  have e : storeBB (o.scaledF c) ({ v.scaled c with L := stepL C o k v g }) (c • g) =
      (storeBB o ({ v with L := stepL C o k v g }) g).scaled c := by
    unfold storeBB
    rw [show (o.scaledF c).stepPolicy = o.stepPolicy from rfl]
    cases o.stepPolicy <;> rfl
  rw [e]
  generalize storeBB o ({ v with L := stepL C o k v g }) g = u
  unfold VarsF.scaled
  simp only [smul_comm _ c g, ← smul_sub, h.irfftn, h.proxG, h.rfftn]

theorem ystep_scaled (o : Opts) (k : ℕ) (v : VarsF E Ef) :
    ystep (o.scaledF c) k (v.scaled c) = (ystep o k v).scaled c := by
  unfold ystep
  rw [show (o.scaledF c).monotone = o.monotone from rfl, show (o.scaledF c).momentum = o.momentum from rfl]
  by_cases h1 : o.monotone = true ∧ k > 0
  · simp only [if_pos h1, VarsF.scaled, smul_add, smul_sub, smul_comm _ c]
  · simp only [if_neg h1, VarsF.scaled, smul_add, smul_sub, smul_comm _ c]

theorem onStart_scaled (h : ClsFScales c C C') (o : Opts) (k : ℕ) (v : VarsF E Ef) :
    onStart C' (o.scaledF c) k (v.scaled c) = (onStart C o k v).scaled c := by
  unfold onStart
  rw [show (o.scaledF c).monotone = o.monotone from rfl, show (o.scaledF c).fastSolve = o.fastSolve from rfl,
    show (o.scaledF c).isRobust = o.isRobust from rfl]
  simp only
  by_cases h1 : (!o.fastSolve || o.isRobust) = true <;> by_cases h2 : o.monotone = true <;> by_cases h3 : k = 0 <;>
    simp only [h1, h2, h3, if_true, if_false, Bool.false_eq_true, VarsF.scaled, h.evalObj]

theorem quadQ_scaled (hc : 0 < c) (h : ClsFScales c C C') (L : ℝ) (x y g : Ef) :
    quadQ C' L (c • x) (c • y) (c • g) = c ^ 2 * quadQ C L x y g := by
  unfold quadQ
  rw [h.obfnF, ← smul_sub, inner_scaled, norm_smul, Real.norm_of_nonneg hc.le]
  ring

theorem btLoop_scaled (hc : 0 < c) (h : ClsFScales c C C') (o : Opts) (k : ℕ) (gu : ℝ) (g : Ef) (n : ℕ) :
    ∀ (it : ℕ) (v : VarsF E Ef),
    btLoop C' (o.scaledF c) k gu (c • g) n it (v.scaled c) = (btLoop C o k gu g n it v).scaled c := by
  induction n with
  | zero => intro it v; rfl
  | succ n ih =>
    intro it v
    unfold btLoop
    simp only
    rw [xstepG_scaled hc h]
    generalize xstepG C o k g v = u
    have e1 : C'.obfnF (u.scaled c).Xf = c ^ 2 * C.obfnF u.Xf := h.obfnF _
    have e2 : quadQ C' (u.scaled c).L (u.scaled c).Xf (u.scaled c).Yf (c • g) = c ^ 2 * quadQ C u.L u.Xf u.Yf g :=
      quadQ_scaled hc h _ _ _ _
    rw [e1, e2]
    simp only [mul_le_mul_iff_right₀ (pow_pos hc 2)]
    split_ifs
    · rfl
    · exact ih (it + 1) { u with F := some (C.obfnF u.Xf), Q := some (quadQ C u.L u.Xf u.Yf g), iterBT := some (it + 1),
                                 L := u.L * gu }

theorem rbLoop_scaled (hc : 0 < c) (h : ClsFScales c C C') (o : Opts) (k : ℕ) (gu : ℝ) (Z : Ef) (n : ℕ) :
    ∀ (it : ℕ) (t0 : ℝ) (v : VarsF E Ef),
    rbLoop C' (o.scaledF c) k gu (c • Z) n it (t0, v.scaled c) =
      ((rbLoop C o k gu Z n it (t0, v)).1, (rbLoop C o k gu Z n it (t0, v)).2.scaled c) := by
  induction n with
  | zero => intro it t0 v; rfl
  | succ n ih =>
    intro it t0 v
    unfold rbLoop
    simp only
    have e0 : (1 / ((v.scaled c).Tk + robustT (v.scaled c).L (v.scaled c).Tk)) •
        ((v.scaled c).Tk • (v.scaled c).Xfprv + robustT (v.scaled c).L (v.scaled c).Tk • (c • Z)) =
        c • ((1 / (v.Tk + robustT v.L v.Tk)) • (v.Tk • v.Xfprv + robustT v.L v.Tk • Z)) := by
      simp only [VarsF.scaled, smul_add, smul_comm _ c]
    rw [e0, h.gradF]
    generalize (1 / (v.Tk + robustT v.L v.Tk)) • (v.Tk • v.Xfprv + robustT v.L v.Tk • Z) = y
    have e3 : ({ v.scaled c with Yf := c • y } : VarsF E Ef) = ({ v with Yf := y } : VarsF E Ef).scaled c := rfl
    rw [e3, xstepG_scaled hc h]
    generalize xstepG C o k (C.gradF y) { v with Yf := y } = u
    have e1 : C'.obfnF (u.scaled c).Xf = c ^ 2 * C.obfnF u.Xf := h.obfnF _
    have e2 : quadQ C' (u.scaled c).L (u.scaled c).Xf (u.scaled c).Yf (c • C.gradF y) =
        c ^ 2 * quadQ C u.L u.Xf u.Yf (C.gradF y) := quadQ_scaled hc h _ _ _ _
    rw [e1, e2]
    simp only [mul_le_mul_iff_right₀ (pow_pos hc 2)]
    split_ifs
    · rfl
    · exact ih (it + 1) (robustT v.L v.Tk) { u with F := some (C.obfnF u.Xf),
                                                    Q := some (quadQ C u.L u.Xf u.Yf (C.gradF y)),
                                                    iterBT := some (it + 1), L := u.L * gu }

theorem mainStep_scaled (hc : 0 < c) (h : ClsFScales c C C') (o : Opts) (k : ℕ) (v : VarsF E Ef) :
    mainStep C' (o.scaledF c) k (v.scaled c) = (mainStep C o k v).scaled c := by
  unfold mainStep
  rw [show (o.scaledF c).backtrack = o.backtrack from rfl]
  cases o.backtrack with
  | none =>
    simp only
    unfold xstep
    rw [show C'.gradF (v.scaled c).Yf = c • C.gradF v.Yf from h.gradF _, xstepG_scaled hc h, ystep_scaled]
  | standard gu n =>
    simp only
    rw [show C'.gradF (v.scaled c).Yf = c • C.gradF v.Yf from h.gradF _, btLoop_scaled hc h, ystep_scaled]
  | robust gd gu n =>
    simp only
    unfold btRobust
    simp only
    have e : (v.scaled c).Zrb.getD (v.scaled c).Xf = c • v.Zrb.getD v.Xf := by
      change (v.Zrb.map (c • ·)).getD (c • v.Xf) = _
      cases v.Zrb <;> rfl
    have e3 : ({ v.scaled c with L := (v.scaled c).L * gd } : VarsF E Ef) =
      ({ v with L := v.L * gd } : VarsF E Ef).scaled c := rfl
    rw [e, e3, rbLoop_scaled hc h]
    simp only [VarsF.scaled, Option.map_some, smul_add, smul_sub, smul_comm _ c]

theorem tolOf_scaled (o : Opts) (k : ℕ) : tolOf (o.scaledF c) k = c ^ 2 * tolOf o k := by
  unfold tolOf
  rw [show (o.scaledF c).autoStop = o.autoStop from rfl]
  split_ifs
  · simp only [Opts.scaledF, mul_div_assoc]
  · rfl

theorem statOf_scaled (h : ClsFScales c C C') (o : Opts) (k : ℕ) (v : VarsF E Ef) (r : ℝ) :
    statOf C' (o.scaledF c) k (v.scaled c) (c ^ 2 * r) = (statOf C o k v r).scaledF c := by
  unfold statOf Stat.scaledF
  rw [show (o.scaledF c).monotone = o.monotone from rfl]
  split_ifs <;> simp only [VarsF.scaled, h.evalObj]

theorem body_scaled (hc : 0 < c) (h : ClsFScales c C C') (o : Opts) (k : ℕ) (s : St (VarsF E Ef)) :
    body (ops C' (o.scaledF c)) (o.scaledF c) none k (s.scaledF c) =
      ((body (ops C o) o none k s).1.scaledF c, (body (ops C o) o none k s).2) := by
  have hr : ∀ v : VarsF E Ef, C'.rsdl (v.scaled c).Xf (v.scaled c).Yfprv = c ^ 2 * C.rsdl v.Xf v.Yfprv :=
    fun v => h.rsdl _ _
  unfold body
  simp only [ops, St.scaledF, onStart_scaled h, mainStep_scaled hc h, hr, statOf_scaled h, tolOf_scaled,
    mul_lt_mul_iff_right₀ (pow_pos hc 2)]
  rw [show (o.scaledF c).fastSolve = o.fastSolve from rfl]
  have e : ∀ (P : Prop) (d1 d2 : Decidable P), @decide P d1 = @decide P d2 := fun P d1 d2 => by congr
  cases o.fastSolve
  · simp; exact e _ _ _
  · simp

theorem loop_scaled (hc : 0 < c) (h : ClsFScales c C C') (o : Opts) (ks : List ℕ) : ∀ s : St (VarsF E Ef),
    loop (ops C' (o.scaledF c)) (o.scaledF c) none ks (s.scaledF c) = (loop (ops C o) o none ks s).scaledF c := by
  induction ks with
  | nil => intro s; rfl
  | cons k ks ih =>
    intro s
    unfold loop
    simp only
    rw [body_scaled hc h]
    simp only
    split_ifs
    · rfl
    · exact ih _

theorem solve_scaled (hc : 0 < c) (h : ClsFScales c C C') (o : Opts) (s : St (VarsF E Ef)) :
    solve (ops C' (o.scaledF c)) (o.scaledF c) none (s.scaledF c) = (solve (ops C o) o none s).scaledF c := by
  unfold solve
  simp only
  rw [show (s.scaledF c).k = s.k from rfl, show (o.scaledF c).maxMainIter = o.maxMainIter from rfl, loop_scaled hc h]
  rfl

end DFT

end Sporco.Pgm

namespace Sporco.PgmConv

open Finset ComplexConjugate Sporco.Prox
open Sporco.Conv (Grid Half Dict Signal Coef part join rfft irfft dictF sigF COpts rfl2norm2)
open Sporco.Pgm (ClsF ClsFScales sqrF)

variable {d c : ℕ} {N Nd : Fin d → ℕ} [∀ k, NeZero (N k)] {A B K M : Type*} [Fintype A] [Fintype B]
  [Fintype K] [Fintype M] {a : Fin d} {t : ℝ}

/-- A signal in other units. -/
def scaledSig (t : ℝ) (S : Signal c K N) : Signal c K N := fun i k p => t * S i k p

theorem bwd_smul' (V : HS A B N a) : bwd a (t • V) = t • bwd a V := by
  refine PiLp.ext fun i => ?_
  exact Conv.irfft_smul t (fun ξ => V (i.1, i.2.1, ξ)) i.2.2

theorem hnorm2_smul (V : HS A B N a) : hnorm2 (t • V) = t ^ 2 * hnorm2 V :=
  Conv.rfl2norm2_smul t fun p : (A × B) × Half N a => V (p.1.1, p.1.2, p.2)

theorem evalRf_smul (D : Dict c M Nd) (S : Signal c K N) (V : HS K M N a) :
    evalRf D (scaledSig t S) (t • V) = t • evalRf D S V := by
  refine PiLp.ext fun i => ?_
  change Linalg.inner (fun m => dictF a D i.1 m i.2.2) (fun m => (t : ℂ) * V (i.2.1, m, i.2.2)) -
    rfft N a (fun p => t * S i.1 i.2.1 p) i.2.2 = (t : ℂ) * (Linalg.inner (fun m => dictF a D i.1 m i.2.2)
      (fun m => V (i.2.1, m, i.2.2)) - rfft N a (S i.1 i.2.1) i.2.2)
  rw [Conv.inner_smul, Conv.rfft_smul, mul_sub]

theorem conjDf_smul (D : Dict c M Nd) (R : HS (Fin (c + 1)) K N a) : conjDf D (t • R) = t • conjDf D R := by
  refine PiLp.ext fun j => ?_
  change ∑ i, conj (dictF a D i j.2.1 j.2.2) * ((t : ℂ) * R (i, j.1, j.2.2)) =
    (t : ℂ) * ∑ i, conj (dictF a D i j.2.1 j.2.2) * R (i, j.1, j.2.2)
  rw [mul_sum]
  exact sum_congr rfl fun _ _ => by ring

theorem proxG_smul (ht : 0 < t) (q : COpts) (Nd : Fin d → ℕ) (lmbda : ℝ) (w : K × M × Grid N → ℝ) (L : ℝ)
    (V : Coef K M N) : proxG q Nd (t * lmbda) w L (t • V) = t • proxG q Nd lmbda w L V := by
  have e : proxL1Arr (t • V).ofLp (fun i => t * lmbda / L * w i) =
      fun i => t * proxL1Arr V.ofLp (fun i => lmbda / L * w i) i := by
    funext i
    change proxL1 (t * V i) (t * lmbda / L * w i) = t * proxL1 (V i) (lmbda / L * w i)
    rw [show t * lmbda / L * w i = t * (lmbda / L * w i) by ring, proxL1_smul ht]
  unfold proxG
  rw [e, Conv.gystep_scaled ht]
  rfl

theorem rl1_smul (ht : 0 < t) (w : K × M × Grid N → ℝ) (X : Coef K M N) : rl1 w (t • X) = t * rl1 w X := by
  unfold rl1
  rw [← normL1_smul ht]
  congr 1
  funext i
  rw [show (t • X) i = t * X i from rfl]
  ring

theorem mulW_smul (W : A → B → Grid N → ℝ) (x : EuclideanSpace ℝ (A × B × Grid N)) :
    mulW W (t • x) = t • mulW W x := by
  refine PiLp.ext fun i => ?_
  change W i.1 i.2.1 i.2.2 * (t * x i) = t * (W i.1 i.2.1 i.2.2 * x i)
  ring

theorem normsq_smul' {F : Type*} [NormedAddCommGroup F] [NormedSpace ℝ F] (ht : 0 < t) (x : F) :
    ‖t • x‖ ^ 2 = t ^ 2 * ‖x‖ ^ 2 := by
  rw [norm_smul, Real.norm_of_nonneg ht.le, mul_pow]

theorem bpdn_scales (ht : 0 < t) (q : COpts) (D : Dict c M Nd) (S : Signal c K N) (lmbda : ℝ) (w : K × M × Grid N → ℝ) :
    ClsFScales t (clsBPDN a q D S lmbda w) (clsBPDN a q D (scaledSig t S) (t * lmbda) w) where
  rfftn x := fwd_smul t x
  irfftn x := bwd_smul' x
  gradF x := by simp only [clsBPDN, evalRf_smul, conjDf_smul]
  proxG L x := proxG_smul ht q Nd lmbda w L x
  hessF x := by
    simp only [clsBPDN]
    rw [← conjDf_smul]
    congr 1
    refine PiLp.ext fun i => ?_
    exact Conv.inner_smul (t : ℂ) (fun m => dictF a D i.1 m i.2.2) fun m => x (i.2.1, m, i.2.2)
  obfnF x := by simp only [clsBPDN, evalRf_smul, normsq_smul' ht]; ring
  evalObj x y := by
    simp only [clsBPDN, evalRf_smul, hnorm2_smul, rl1_smul ht, sqrF, Prod.mk.injEq, and_true]
    constructor <;> ring
  rsdl x y := by simp only [clsBPDN, ← smul_sub, hnorm2_smul]

theorem bpdnmask_scales (ht : 0 < t) (q : COpts) (D : Dict c M Nd) (S : Signal c K N) (lmbda : ℝ)
    (w : K × M × Grid N → ℝ) (W : Signal c K N) :
    ClsFScales t (clsBPDNMask a q D S lmbda w W) (clsBPDNMask a q D (scaledSig t S) (t * lmbda) w W) where
  rfftn x := fwd_smul t x
  irfftn x := bwd_smul' x
  gradF x := by simp only [clsBPDNMask, evalRf_smul, bwd_smul', mulW_smul, fwd_smul, conjDf_smul]
  proxG L x := proxG_smul ht q Nd lmbda w L x
  hessF x := (bpdn_scales ht q D S lmbda w).hessF x
  obfnF x := by simp only [clsBPDNMask, evalRf_smul, bwd_smul', mulW_smul, fwd_smul, normsq_smul' ht]; ring
  evalObj x y := by
    simp only [clsBPDNMask, evalRf_smul, bwd_smul', mulW_smul, normsq_smul' ht, rl1_smul ht, sqrF, Prod.mk.injEq, and_true]
    constructor <;> ring
  rsdl x y := (bpdn_scales ht q D S lmbda w).rsdl x y

/-- **C92** (`pgm.cbpdn.ConvBPDN`, for every combination of step size policy, line search, momentum, restart and stopping
rule).  A signal measured in other units, with `lmbda` and the starting arrays in those units, the stopping tolerances in
the squares of those units and the same `L`, gives the same coefficient maps, iteration records and number of iterations in
those units. -/
theorem C92_pgm_convbpdn (ht : 0 < t) (q : COpts) (D : Dict c M Nd) (S : Signal c K N) (lmbda : ℝ)
    (w : K × M × Grid N → ℝ) (o : Pgm.Opts) (s : Pgm.St (Pgm.VarsF (Coef K M N) (HS K M N a))) :
    Pgm.solve (Pgm.DFT.ops (clsBPDN a q D (fun i k p => t * S i k p) (t * lmbda) w) (o.scaledF t)) (o.scaledF t) none
      (s.scaledF t) = (Pgm.solve (Pgm.DFT.ops (clsBPDN a q D S lmbda w) o) o none s).scaledF t :=
  Pgm.DFT.solve_scaled ht (bpdn_scales ht q D S lmbda w) o s

/-- **C92** (`pgm.cbpdn.ConvBPDNMask`). -/
theorem C92_pgm_convbpdnmask (ht : 0 < t) (q : COpts) (D : Dict c M Nd) (S : Signal c K N) (lmbda : ℝ)
    (w : K × M × Grid N → ℝ) (W : Signal c K N) (o : Pgm.Opts) (s : Pgm.St (Pgm.VarsF (Coef K M N) (HS K M N a))) :
    Pgm.solve (Pgm.DFT.ops (clsBPDNMask a q D (fun i k p => t * S i k p) (t * lmbda) w W) (o.scaledF t)) (o.scaledF t) none
      (s.scaledF t) = (Pgm.solve (Pgm.DFT.ops (clsBPDNMask a q D S lmbda w W) o) o none s).scaledF t :=
  Pgm.DFT.solve_scaled ht (bpdnmask_scales ht q D S lmbda w W) o s

end Sporco.PgmConv
