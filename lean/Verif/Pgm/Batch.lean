import Verif.Admm.Batch
import Verif.Conv.Batch
import Verif.Pgm.Bpdn
import Verif.Pgm.ConvModel

/-!
# Signals processed together: proximal gradient (C85)
-/

set_option autoImplicit false
set_option linter.unusedSectionVars false

namespace Sporco.Pgm

/-! ## Two runs with the same number of iterations -/

section Gen
variable {V V' : Type*}

theorem body_run (C : Ops V) (o : Opts) (k : ℕ) (s : St V) :
    (body C o none k s).1.v = C.step k (C.start k s.v) ∧ (body C o none k s).1.k = k := by
  unfold body
  simp only
  cases o.fastSolve <;> simp

theorem loop_run (C : Ops V) (o : Opts) (n : ℕ) : ∀ (k : ℕ) (s : St V),
    ∃ j ≤ n, (0 < n → 0 < j) ∧ (loop C o none (List.range' k n) s).v =
      (List.range' k j).foldl (fun v k => C.step k (C.start k v)) s.v ∧
      (loop C o none (List.range' k n) s).k = if j = 0 then s.k else k + j - 1 := by
  classical
  induction n with
  | zero => intro k s; exact ⟨0, le_rfl, fun h => absurd h (by simp), rfl, rfl⟩
  | succ n ih =>
    intro k s
    obtain ⟨h1, h2⟩ := body_run C o k s
    rw [List.range'_succ]
    unfold loop
    simp only
    by_cases hb : (body C o none k s).2 = true
    · rw [if_pos hb]
      exact ⟨1, by omega, fun _ => one_pos, h1, by rw [h2]; simp⟩
    · rw [if_neg hb]
      obtain ⟨j, hj, hp, hc, hk⟩ := ih (k + 1) (body C o none k s).1
      refine ⟨j + 1, by omega, fun _ => Nat.succ_pos _, ?_, ?_⟩
      · rw [hc, h1, List.range'_succ]; rfl
      · rw [hk, h2]
        by_cases h0 : j = 0
        · simp [h0]
        · rw [if_neg h0, if_neg (by omega)]; omega

theorem solve_run (C : Ops V) (o : Opts) (hm : 0 < o.maxMainIter) (s : St V) :
    ∃ j, 0 < j ∧ j ≤ o.maxMainIter ∧ (solve C o none s).v =
      (List.range' s.k j).foldl (fun v k => C.step k (C.start k v)) s.v ∧ (solve C o none s).k = s.k + j := by
  obtain ⟨j, h1, h2, h3, h4⟩ := loop_run C o o.maxMainIter s.k s
  refine ⟨j, h2 hm, h1, h3, ?_⟩
  unfold solve
  simp only
  rw [h4, if_neg (by have := h2 hm; omega)]
  have := h2 hm
  omega

/-- A relation kept by every iteration holds after two runs with the same number of iterations. -/
theorem solve_rel (C : Ops V) (C' : Ops V') (o o' : Opts) (R : V → V' → Prop)
    (hR : ∀ k v v', R v v' → R (C.step k (C.start k v)) (C'.step k (C'.start k v')))
    (hm : 0 < o.maxMainIter) (hm' : 0 < o'.maxMainIter) (s : St V) (s' : St V') (hk : s'.k = s.k) (hs : R s.v s'.v)
    (he : (solve C' o' none s').k = (solve C o none s).k) : R (solve C o none s).v (solve C' o' none s').v := by
  obtain ⟨j, -, -, h1, h2⟩ := solve_run C o hm s
  obtain ⟨j', -, -, h1', h2'⟩ := solve_run C' o' hm' s'
  have : j' = j := by omega
  subst this
  rw [h1, h1', hk]
  generalize s.v = v at hs ⊢
  generalize s'.v = v' at hs ⊢
  generalize s.k = k
  clear h1 h1' h2 h2' he hk
  induction j' generalizing k v v' with
  | zero => exact hs
  | succ j ih =>
    rw [List.range'_succ]
    exact ih _ _ (hR k v v' hs) _

/-- No residual is negative, so with tolerance zero all iterations are made. -/
theorem solve_endless (C : Ops V) (o : Opts) (ho : o.fastSolve = true ∨ o.autoStop = false ∧ o.relStopTol = 0)
    (hr : ∀ k v, 0 ≤ C.rsdl k v) (hm : 0 < o.maxMainIter) (s : St V) :
    (solve C o none s).k = s.k + o.maxMainIter := by
  classical
  have key : ∀ (n k : ℕ) (s : St V), (loop C o none (List.range' k n) s).k = if n = 0 then s.k else k + n - 1 := by
    intro n
    induction n with
    | zero => intro k s; rfl
    | succ n ih =>
      intro k s
      obtain ⟨-, h2⟩ := body_run C o k s
      have hb : (body C o none k s).2 = false := by
        unfold body
        simp only [Bool.false_or]
        rcases ho with h | ⟨h, h'⟩
        · simp [h]
        · rw [Bool.and_eq_false_iff]
          right
          rw [decide_eq_false_iff_not]
          unfold tolOf
          rw [h, h']
          simpa using hr _ _
      rw [List.range'_succ]
      unfold loop
      simp only [hb, Bool.false_eq_true, if_false]
      rw [ih, h2]
      by_cases h0 : n = 0
      · simp [h0]
      · rw [if_neg h0, if_neg (by omega)]; omega
  unfold solve
  simp only
  rw [key, if_neg (by omega)]
  omega

/-- Options of the two runs: fixed step size, no backtracking, not the monotone variant. Stopping rule and tolerances
may differ. -/
structure SameOpts (o o' : Opts) : Prop where
  backtrack : o.backtrack = .none
  backtrack' : o'.backtrack = .none
  policy : o.policy = .none
  policy' : o'.policy = .none
  monotone : o.monotone = false
  monotone' : o'.monotone = false
  momentum : o'.momentum = o.momentum
  iter : 0 < o.maxMainIter
  iter' : 0 < o'.maxMainIter

theorem SameOpts.step {o o' : Opts} (h : SameOpts o o') : o.stepPolicy = .none ∧ o'.stepPolicy = .none := by
  unfold Opts.stepPolicy
  rw [h.backtrack, h.backtrack']
  exact ⟨h.policy, h.policy'⟩

end Gen

/-! ## `PGM` -/

section PGM
variable {E E' : Type*} [NormedAddCommGroup E] [InnerProductSpace ℝ E] [NormedAddCommGroup E'] [InnerProductSpace ℝ E']

theorem xstepG_off (C : Cls E) (o : Opts) (hm : o.monotone = false) (hp : o.stepPolicy = .none) (k : ℕ) (g : E)
    (v : Vars E) : xstepG C o k g v = { v with X := C.proxG v.L (v.Y - (1 / v.L) • g) } := by
  unfold xstepG safeguard stepL storeBB
  simp only [hp, hm, Bool.false_eq_true, false_and, if_false]

theorem ystep_off (o : Opts) (hm : o.monotone = false) (k : ℕ) (v : Vars E) :
    ystep o k v = { v with t := o.momentum.next k v.t,
                           Y := v.X + ((v.t - 1) / o.momentum.next k v.t) • (v.X - v.Xprv) } := by
  unfold ystep
  simp only [hm, Bool.false_eq_true, false_and, if_false]

theorem onStart_off (C : Cls E) (o : Opts) (hm : o.monotone = false) (k : ℕ) (v : Vars E) :
    ∃ y, onStart C o k v = { v with Xprv := v.X, Yprv := y } := by
  unfold onStart
  simp only [hm, Bool.false_eq_true, if_false]
  split_ifs
  · exact ⟨v.Y, rfl⟩
  · exact ⟨v.Yprv, rfl⟩

/-- What the second solver holds is the part `T` of what the first holds. -/
structure PartV (T : E → E') (v : Vars E) (v' : Vars E') : Prop where
  X : v'.X = T v.X
  Y : v'.Y = T v.Y
  t : v'.t = v.t
  L : v'.L = v.L

theorem step_off {F : Type*} [NormedAddCommGroup F] [InnerProductSpace ℝ F] (B : Cls F) (q : Opts) (k : ℕ) (u : Vars F)
    (h1 : q.backtrack = .none) (h2 : q.monotone = false) (h3 : q.stepPolicy = .none) :
      ((ops B q).step k ((ops B q).start k u)).X = B.proxG u.L (u.Y - (1 / u.L) • B.gradF u.Y) ∧
      ((ops B q).step k ((ops B q).start k u)).Y = B.proxG u.L (u.Y - (1 / u.L) • B.gradF u.Y) +
        ((u.t - 1) / q.momentum.next k u.t) • (B.proxG u.L (u.Y - (1 / u.L) • B.gradF u.Y) - u.X) ∧
      ((ops B q).step k ((ops B q).start k u)).t = q.momentum.next k u.t ∧
      ((ops B q).step k ((ops B q).start k u)).L = u.L := by
  change (mainStep B q k (onStart B q k u)).X = _ ∧ (mainStep B q k (onStart B q k u)).Y = _ ∧
    (mainStep B q k (onStart B q k u)).t = _ ∧ (mainStep B q k (onStart B q k u)).L = _
  obtain ⟨y, hy⟩ := onStart_off B q h2 k u
  rw [hy]
  unfold mainStep
  rw [h1]
  simp only
  unfold xstep
  rw [xstepG_off B q h2 h3, ystep_off q h2]
  exact ⟨rfl, rfl, rfl, rfl⟩

theorem step_part {C : Cls E} {C' : Cls E'} (T : E →ₗ[ℝ] E') (hg : ∀ x, C'.gradF (T x) = T (C.gradF x))
    (hp : ∀ L x, C'.proxG L (T x) = T (C.proxG L x)) {o o' : Opts} (ho : SameOpts o o') (k : ℕ) (v : Vars E) (v' : Vars E')
    (h : PartV T v v') :
    PartV T ((ops C o).step k ((ops C o).start k v)) ((ops C' o').step k ((ops C' o').start k v')) := by
  obtain ⟨a1, a2, a3, a4⟩ := step_off C o k v ho.backtrack ho.monotone ho.step.1
  obtain ⟨b1, b2, b3, b4⟩ := step_off C' o' k v' ho.backtrack' ho.monotone' ho.step.2
  have hX : C'.proxG v'.L (v'.Y - (1 / v'.L) • C'.gradF v'.Y) = T (C.proxG v.L (v.Y - (1 / v.L) • C.gradF v.Y)) := by
    rw [h.L, h.Y, hg, ← map_smul, ← map_sub, hp]
  exact ⟨by rw [a1, b1, hX], by rw [a2, b2, hX, h.X, h.t, ho.momentum, ← map_sub, ← map_smul, ← map_add],
    by rw [a3, b3, h.t, ho.momentum], by rw [a4, b4, h.L]⟩

end PGM

/-! ## `BPDN` and `WeightedBPDN` -/

section Bpdn
open Finset Matrix Sporco.Prox Sporco.Admm Sporco.Admm.Bpdn

variable {N M K K' : ℕ}

/-- The second solver holds the selected columns of what the first holds. -/
structure PartB (f : Fin K' → Fin K) (s : St (Vars (Arr M K))) (s' : St (Vars (Arr M K'))) : Prop where
  X : Cols f s.v.X s'.v.X
  Y : Cols f s.v.Y s'.v.Y
  t : s'.v.t = s.v.t
  L : s'.v.L = s.v.L
  k : s'.k = s.k

theorem partB_of {f : Fin K' → Fin K} {s : St (Vars (Arr M K))} {s' : St (Vars (Arr M K'))}
    (h : PartV (colsL f) s.v s'.v) (hk : s'.k = s.k) : PartB f s s' :=
  ⟨(cols_iff f _ _).2 h.X, (cols_iff f _ _).2 h.Y, h.t, h.L, hk⟩

theorem PartB.v {f : Fin K' → Fin K} {s : St (Vars (Arr M K))} {s' : St (Vars (Arr M K'))} (h : PartB f s s') :
    PartV (colsL f) s.v s'.v :=
  ⟨(cols_iff f _ _).1 h.X, (cols_iff f _ _).1 h.Y, h.t, h.L⟩

/-- **C85 for `pgm.bpdn.BPDN`.** With a fixed step size and without the monotone variant, if the run on a batch and the
run on a selection `f` of its signals make the same number of iterations, the second yields the selected part of the
first. -/
theorem C85_pgm_bpdn (f : Fin K' → Fin K) (D : Matrix (Fin N) (Fin M) ℝ) (S : Matrix (Fin N) (Fin K) ℝ) (lmbda : ℝ)
    (w : Fin M × Fin K → ℝ) (nonNeg : Bool) (o o' : Opts) (ho : SameOpts o o') (s : St (Vars (Arr M K))) (s')
    (h : PartB f s s')
    (hk : (solve (ops (clsBPDN D (S.submatrix id f) lmbda (fun i => w (i.1, f i.2)) nonNeg) o') o' none s').k =
      (solve (ops (clsBPDN D S lmbda w nonNeg) o) o none s).k) :
    PartB f (solve (ops (clsBPDN D S lmbda w nonNeg) o) o none s)
      (solve (ops (clsBPDN D (S.submatrix id f) lmbda (fun i => w (i.1, f i.2)) nonNeg) o') o' none s') := by
  refine partB_of (solve_rel _ _ o o' (PartV (colsL f)) (fun k v v' hv => step_part (colsL f) ?_ ?_ ho k v v' hv) ho.iter
    ho.iter' s s' h.k h.v hk) hk
  · intro x
    change arr (Dᵀ * (D * (mat x).submatrix id f - S.submatrix id f)) = colsL f (arr (Dᵀ * (D * mat x - S)))
    rw [submatrix_mul']
    exact congrArg arr (submatrix_mul' Dᵀ (D * mat x - S) f)
  · intro L x
    exact ystep_cols f nonNeg lmbda L w x

/-- **C85 for `pgm.bpdn.WeightedBPDN`.** -/
theorem C85_pgm_wbpdn (f : Fin K' → Fin K) (D : Matrix (Fin N) (Fin M) ℝ) (S W : Matrix (Fin N) (Fin K) ℝ) (lmbda : ℝ)
    (w : Fin M × Fin K → ℝ) (nonNeg : Bool) (o o' : Opts) (ho : SameOpts o o') (s : St (Vars (Arr M K))) (s')
    (h : PartB f s s')
    (hk : (solve (ops (clsWBPDN D (S.submatrix id f) lmbda (fun i => w (i.1, f i.2)) nonNeg (W.submatrix id f)) o') o'
      none s').k = (solve (ops (clsWBPDN D S lmbda w nonNeg W) o) o none s).k) :
    PartB f (solve (ops (clsWBPDN D S lmbda w nonNeg W) o) o none s)
      (solve (ops (clsWBPDN D (S.submatrix id f) lmbda (fun i => w (i.1, f i.2)) nonNeg (W.submatrix id f)) o') o'
        none s') := by
  refine partB_of (solve_rel _ _ o o' (PartV (colsL f)) (fun k v v' hv => step_part (colsL f) ?_ ?_ ho k v v' hv) ho.iter
    ho.iter' s s' h.k h.v hk) hk
  · intro x
    change arr (Dᵀ * had (W.submatrix id f) (D * (mat x).submatrix id f - S.submatrix id f)) =
      colsL f (arr (Dᵀ * had W (D * mat x - S)))
    rw [submatrix_mul']
    exact congrArg arr (submatrix_mul' Dᵀ (had W (D * mat x - S)) f)
  · intro L x
    exact ystep_cols f nonNeg lmbda L w x

/-! ### The stopping rule couples the signals -/

/-- The array with all entries `x`. -/
noncomputable def batCst (K : ℕ) (x : ℝ) : Arr 1 K := WithLp.toLp 2 fun _ => x

/-- `BPDN` with a dictionary of one atom, all signals equal to 1, and no regularisation. -/
noncomputable def batCls (K : ℕ) : Cls (Arr 1 K) := 
  clsBPDN (Matrix.of fun _ _ => 1 : Matrix (Fin 1) (Fin 1) ℝ) (Matrix.of fun _ _ => 1) 0 (fun _ => 0) false

/-- Options of the example. -/
noncomputable def batOpts : Opts where
  fastSolve := false
  maxMainIter := 2
  relStopTol := 3 / 5
  autoStop := false
  tau0 := 1
  monotone := false
  momentum := .nesterov
  policy := .none
  backtrack := .none

/-- The initial state of the example: zero coefficients, `L = 2`. -/
noncomputable def batSt (K : ℕ) : St (Vars (Arr 1 K)) where
  k := 0
  itstat := []
  v := { X := batCst K 0, Y := batCst K 0, Xprv := batCst K 0, Yprv := batCst K 1000, ZZ := batCst K 0, L := 2, t := 1, objfn := 0,
         objfnPrev := 0, F := none, Q := none, iterBT := none, bbX := batCst K 0, bbG := batCst K 0, Tk := 0, Zrb := none }

theorem bat_step (K : ℕ) (k : ℕ) (v : Vars (Arr 1 K)) (y : ℝ) (hY : v.Y = batCst K y) (hL : v.L = 2) :
    ((ops (batCls K) batOpts).step k ((ops (batCls K) batOpts).start k v)).X = batCst K ((y + 1) / 2) ∧
    (ops (batCls K) batOpts).rsdl k ((ops (batCls K) batOpts).step k ((ops (batCls K) batOpts).start k v)) =
      ‖batCst K ((y + 1) / 2) - batCst K y‖ ∧
    (v.t = 1 → ((ops (batCls K) batOpts).step k ((ops (batCls K) batOpts).start k v)).Y = batCst K ((y + 1) / 2)) ∧
    ((ops (batCls K) batOpts).step k ((ops (batCls K) batOpts).start k v)).L = 2 := by
  obtain ⟨h1, h2, -, h4⟩ := step_off (batCls K) batOpts k v rfl rfl rfl
  have hp : (batCls K).proxG v.L (v.Y - (1 / v.L) • (batCls K).gradF v.Y) = batCst K ((y + 1) / 2) := by
    rw [hY, hL]
    refine PiLp.ext fun i => ?_
    have hg : (batCls K).gradF (batCst K y) i = y - 1 := by
      change ((Matrix.of fun _ _ => 1 : Matrix (Fin 1) (Fin 1) ℝ)ᵀ * ((Matrix.of fun _ _ => 1 : Matrix (Fin 1) (Fin 1) ℝ) *
        mat (batCst K y) - (Matrix.of fun _ _ => 1 : Matrix (Fin 1) (Fin K) ℝ))) i.1 i.2 = y - 1
      simp [Matrix.mul_apply, mat, batCst]
    change proxL1 (y - 1 / 2 * (batCls K).gradF (batCst K y) i) (0 / 2 * 0) = (y + 1) / 2
    rw [hg]
    unfold proxL1
    have : y - 1 / 2 * (y - 1) = (y + 1) / 2 := by ring
    rw [this]
    rw [mul_zero, sub_zero, max_eq_left (abs_nonneg _), npSign_mul_abs]
  refine ⟨by rw [h1, hp], ?_, fun ht => ?_, by rw [h4, hL]⟩
  · have e : ((ops (batCls K) batOpts).step k ((ops (batCls K) batOpts).start k v)).Yprv = v.Y := by
      change (mainStep (batCls K) batOpts k (onStart (batCls K) batOpts k v)).Yprv = v.Y
      unfold mainStep
      simp only [batOpts]
      unfold xstep
      rw [xstepG_off _ _ rfl rfl, ystep_off _ rfl]
      rfl
    change rsdl batOpts k _ = _
    unfold rsdl
    rw [if_neg (by simp [batOpts]), h1, e, hp, hY]
  · rw [h2, hp, ht]
    simp

/-- **Negation of C85 without the condition on the iterations.** Four signals equal to 1 are coded with tolerance 0.6,
and one of them alone: alone it is left after one iteration with coefficient 1/2, in the batch after two with 3/4. -/
theorem C85_stopping_refuted : ¬ ∀ (N M K K' : ℕ) (f : Fin K' → Fin K) (D : Matrix (Fin N) (Fin M) ℝ)
    (S : Matrix (Fin N) (Fin K) ℝ) (lmbda : ℝ) (w : Fin M × Fin K → ℝ) (nonNeg : Bool) (o : Opts) (_ : SameOpts o o)
    (s : St (Vars (Arr M K))) (s' : St (Vars (Arr M K'))) (_ : PartB f s s'),
    Cols f (solve (ops (clsBPDN D S lmbda w nonNeg) o) o none s).v.X
      (solve (ops (clsBPDN D (S.submatrix id f) lmbda (fun i => w (i.1, f i.2)) nonNeg) o) o none s').v.X := by
  classical
  intro H
  have h := H 1 1 4 1 (fun _ => 0) (Matrix.of fun _ _ => 1) (Matrix.of fun _ _ => 1) 0 (fun _ => 0) false batOpts
    ⟨rfl, rfl, rfl, rfl, rfl, rfl, rfl, by norm_num [batOpts], by norm_num [batOpts]⟩ (batSt 4) (batSt 1)
    ⟨fun _ _ => rfl, fun _ _ => rfl, rfl, rfl, rfl⟩ 0 0
  change (solve (ops (batCls 1) batOpts) batOpts none (batSt 1)).v.X (0, 0) =
    (solve (ops (batCls 4) batOpts) batOpts none (batSt 4)).v.X (0, 0) at h
  have nrm : ∀ K, ‖batCst K ((0 + 1) / 2) - batCst K 0‖ = Real.sqrt (K / 4) := by
    intro K
    rw [EuclideanSpace.norm_eq]
    congr 1
    change ∑ i : Fin 1 × Fin K, ‖(0 + 1) / 2 - (0 : ℝ)‖ ^ 2 = _
    simp
    ring
  have run : ∀ K, ((body (ops (batCls K) batOpts) batOpts none 0 (batSt K)).2 = decide (Real.sqrt ((K : ℝ) / 4) < 3 / 5)) := by
    intro K
    obtain ⟨-, h2, -, -⟩ := bat_step K 0 (batSt K).v 0 rfl rfl
    unfold body
    simp only [Bool.false_or]
    rw [h2, nrm]
    unfold tolOf
    simp [batOpts]
  have e1 : (solve (ops (batCls 1) batOpts) batOpts none (batSt 1)).v.X = batCst 1 (1 / 2) := by
    unfold solve
    change (loop (ops (batCls 1) batOpts) batOpts none [0, 1] (batSt 1)).v.X = _
    unfold loop
    have hs : Real.sqrt (((1 : ℕ) : ℝ) / 4) < 3 / 5 := by
      rw [Real.sqrt_lt' (by norm_num)]; norm_num
    simp only [run, hs, decide_true, if_true]
    rw [(body_run _ _ _ _).1, (bat_step 1 0 (batSt 1).v 0 rfl rfl).1]
    norm_num
  have e4 : (solve (ops (batCls 4) batOpts) batOpts none (batSt 4)).v.X = batCst 4 (3 / 4) := by
    unfold solve
    change (loop (ops (batCls 4) batOpts) batOpts none [0, 1] (batSt 4)).v.X = _
    unfold loop
    have hs : ¬ Real.sqrt (((4 : ℕ) : ℝ) / 4) < 3 / 5 := by
      norm_num
    simp only [run, hs, decide_false, Bool.false_eq_true, if_false]
    obtain ⟨-, -, h3, h4⟩ := bat_step 4 0 (batSt 4).v 0 rfl rfl
    have hv := (body_run (ops (batCls 4) batOpts) batOpts 0 (batSt 4)).1
    have h5 := (bat_step 4 1 (body (ops (batCls 4) batOpts) batOpts none 0 (batSt 4)).1.v ((0 + 1) / 2)
      (by rw [hv]; exact h3 rfl) (by rw [hv]; exact h4)).1
    unfold loop
    have h6 := (body_run (ops (batCls 4) batOpts) batOpts 1 (body (ops (batCls 4) batOpts) batOpts none 0 (batSt 4)).1).1
    have h7 : (body (ops (batCls 4) batOpts) batOpts none 1 (body (ops (batCls 4) batOpts) batOpts none 0 (batSt 4)).1).1.v.X =
        batCst 4 (3 / 4) := by
      rw [h6, h5]; norm_num
    unfold loop
    simp only [ite_self]
    exact h7
  rw [e1, e4] at h
  have : (1 : ℝ) / 2 = 3 / 4 := h
  norm_num at this

end Bpdn

/-! ## `PGMDFT` -/

section DFT
variable {E E' Ef Ef' : Type*} [NormedAddCommGroup Ef] [InnerProductSpace ℝ Ef] [NormedAddCommGroup Ef']
  [InnerProductSpace ℝ Ef']

theorem xstepG_offF (C : ClsF E Ef) (o : Opts) (hm : o.monotone = false) (hp : o.stepPolicy = .none) (k : ℕ) (g : Ef)
    (v : VarsF E Ef) :
    DFT.xstepG C o k g v = { v with X := C.proxG v.L (C.irfftn (v.Yf - (1 / v.L) • g)),
                                    Xf := C.rfftn (C.proxG v.L (C.irfftn (v.Yf - (1 / v.L) • g))) } := by
  unfold DFT.xstepG DFT.safeguard DFT.stepL DFT.storeBB
  simp only [hp, hm, Bool.false_eq_true, false_and, if_false]

theorem ystep_offF (o : Opts) (hm : o.monotone = false) (k : ℕ) (v : VarsF E Ef) :
    DFT.ystep o k v = { v with t := o.momentum.next k v.t,
                               Yf := v.Xf + ((v.t - 1) / o.momentum.next k v.t) • (v.Xf - v.Xfprv) } := by
  unfold DFT.ystep
  simp only [hm, Bool.false_eq_true, false_and, if_false]

theorem onStart_offF (C : ClsF E Ef) (o : Opts) (hm : o.monotone = false) (k : ℕ) (v : VarsF E Ef) :
    ∃ y, DFT.onStart C o k v = { v with Xfprv := v.Xf, Yfprv := y } := by
  unfold DFT.onStart
  simp only [hm, Bool.false_eq_true, if_false]
  split_ifs
  · exact ⟨v.Yf, rfl⟩
  · exact ⟨v.Yfprv, rfl⟩

/-- What the second solver holds is the part of what the first holds. -/
structure PartF (T : E → E') (Tf : Ef → Ef') (v : VarsF E Ef) (v' : VarsF E' Ef') : Prop where
  X : v'.X = T v.X
  Xf : v'.Xf = Tf v.Xf
  Yf : v'.Yf = Tf v.Yf
  t : v'.t = v.t
  L : v'.L = v.L

theorem stepF_off {G F : Type*} [NormedAddCommGroup F] [InnerProductSpace ℝ F] (B : ClsF G F) (q : Opts) (k : ℕ)
    (u : VarsF G F) (h1 : q.backtrack = .none) (h2 : q.monotone = false) (h3 : q.stepPolicy = .none) :
      ((DFT.ops B q).step k ((DFT.ops B q).start k u)).X = B.proxG u.L (B.irfftn (u.Yf - (1 / u.L) • B.gradF u.Yf)) ∧
      ((DFT.ops B q).step k ((DFT.ops B q).start k u)).Xf =
        B.rfftn (B.proxG u.L (B.irfftn (u.Yf - (1 / u.L) • B.gradF u.Yf))) ∧
      ((DFT.ops B q).step k ((DFT.ops B q).start k u)).Yf =
        B.rfftn (B.proxG u.L (B.irfftn (u.Yf - (1 / u.L) • B.gradF u.Yf))) +
        ((u.t - 1) / q.momentum.next k u.t) •
          (B.rfftn (B.proxG u.L (B.irfftn (u.Yf - (1 / u.L) • B.gradF u.Yf))) - u.Xf) ∧
      ((DFT.ops B q).step k ((DFT.ops B q).start k u)).t = q.momentum.next k u.t ∧
      ((DFT.ops B q).step k ((DFT.ops B q).start k u)).L = u.L := by
  change (DFT.mainStep B q k (DFT.onStart B q k u)).X = _ ∧ (DFT.mainStep B q k (DFT.onStart B q k u)).Xf = _ ∧
    (DFT.mainStep B q k (DFT.onStart B q k u)).Yf = _ ∧
    (DFT.mainStep B q k (DFT.onStart B q k u)).t = _ ∧ (DFT.mainStep B q k (DFT.onStart B q k u)).L = _
  obtain ⟨y, hy⟩ := onStart_offF B q h2 k u
  rw [hy]
  unfold DFT.mainStep
  rw [h1]
  simp only
  unfold DFT.xstep
  rw [xstepG_offF B q h2 h3, ystep_offF q h2]
  exact ⟨rfl, rfl, rfl, rfl, rfl⟩

theorem stepF_part {C : ClsF E Ef} {C' : ClsF E' Ef'} (T : E → E') (Tf : Ef →ₗ[ℝ] Ef')
    (hg : ∀ x, C'.gradF (Tf x) = Tf (C.gradF x)) (hi : ∀ x, C'.irfftn (Tf x) = T (C.irfftn x))
    (hr : ∀ x, C'.rfftn (T x) = Tf (C.rfftn x))
    (hp : ∀ L x, C'.proxG L (T x) = T (C.proxG L x)) {o o' : Opts} (ho : SameOpts o o') (k : ℕ) (v : VarsF E Ef)
    (v' : VarsF E' Ef') (h : PartF T Tf v v') :
    PartF T Tf ((DFT.ops C o).step k ((DFT.ops C o).start k v)) ((DFT.ops C' o').step k ((DFT.ops C' o').start k v')) := by
  obtain ⟨a1, a5, a2, a3, a4⟩ := stepF_off C o k v ho.backtrack ho.monotone ho.step.1
  obtain ⟨b1, b5, b2, b3, b4⟩ := stepF_off C' o' k v' ho.backtrack' ho.monotone' ho.step.2
  have hX : C'.proxG v'.L (C'.irfftn (v'.Yf - (1 / v'.L) • C'.gradF v'.Yf)) =
      T (C.proxG v.L (C.irfftn (v.Yf - (1 / v.L) • C.gradF v.Yf))) := by
    rw [h.L, h.Yf, hg, ← map_smul, ← map_sub, hi, hp]
  exact ⟨by rw [a1, b1, hX], by rw [a5, b5, hX, hr],
    by rw [a2, b2, hX, hr, h.Xf, h.t, ho.momentum, ← map_sub, ← map_smul, ← map_add],
    by rw [a3, b3, h.t, ho.momentum], by rw [a4, b4, h.L]⟩

end DFT

end Sporco.Pgm

namespace Sporco.PgmConv

open Finset ComplexConjugate Sporco.Prox
open Sporco.Conv (Grid Half Dict Signal Coef Maps mapsL maps_iff COpts)
open Sporco.Pgm (SameOpts)

variable {d c : ℕ} {N Nd : Fin d → ℕ} [∀ k, NeZero (N k)] {K K' M : Type*} [Fintype K] [Fintype K']
  [Fintype M] {a : Fin d}

/-- Selection of the spectra of coefficient maps. -/
noncomputable def selF (f : K' → K) : HS K M N a →ₗ[ℝ] HS K' M N a where
  toFun x := WithLp.toLp 2 fun i => x (f i.1, i.2.1, i.2.2)
  map_add' _ _ := rfl
  map_smul' _ _ := rfl

/-- The second solver holds the part of what the first holds that belongs to the selected signals. -/
structure PartC (f : K' → K) (s : Pgm.St (Pgm.VarsF (Coef K M N) (HS K M N a)))
    (s' : Pgm.St (Pgm.VarsF (Coef K' M N) (HS K' M N a))) : Prop where
  X : Maps f s.v.X s'.v.X
  Xf : ∀ k m ξ, s'.v.Xf (k, m, ξ) = s.v.Xf (f k, m, ξ)
  Yf : ∀ k m ξ, s'.v.Yf (k, m, ξ) = s.v.Yf (f k, m, ξ)
  t : s'.v.t = s.v.t
  L : s'.v.L = s.v.L
  k : s'.k = s.k

theorem PartC.v {f : K' → K} {s : Pgm.St (Pgm.VarsF (Coef K M N) (HS K M N a))}
    {s' : Pgm.St (Pgm.VarsF (Coef K' M N) (HS K' M N a))} (h : PartC f s s') :
    Pgm.PartF (mapsL f) (selF f) s.v s'.v :=
  ⟨(maps_iff f _ _).1 h.X, PiLp.ext fun i => h.Xf i.1 i.2.1 i.2.2, PiLp.ext fun i => h.Yf i.1 i.2.1 i.2.2, h.t, h.L⟩

theorem partC_of {f : K' → K} {s : Pgm.St (Pgm.VarsF (Coef K M N) (HS K M N a))}
    {s' : Pgm.St (Pgm.VarsF (Coef K' M N) (HS K' M N a))} (h : Pgm.PartF (mapsL f) (selF f) s.v s'.v)
    (hk : s'.k = s.k) : PartC f s s' :=
  ⟨(maps_iff f _ _).2 h.X, fun k m ξ => by rw [h.Xf]; rfl, fun k m ξ => by rw [h.Yf]; rfl, h.t, h.L, hk⟩

theorem prox_sel (f : K' → K) (q : COpts) (lmbda : ℝ) (w : K × M × Grid N → ℝ) (L : ℝ) (x : Coef K M N) :
    proxG q Nd lmbda (fun i : K' × M × Grid N => w (f i.1, i.2)) L (mapsL f x) = mapsL f (proxG q Nd lmbda w L x) :=
  PiLp.ext fun i => congrFun (Conv.gystep_sel (Nd := Nd) f q (proxL1Arr x.ofLp fun j => lmbda / L * w j)) i

/-- **C85 for `pgm.cbpdn.ConvBPDN`.** With a fixed step size and without the monotone variant, if the run on a batch and
the run on a selection `f` of its signals make the same number of iterations, the second yields the selected part of
the first. -/
theorem C85_pgm_convbpdn (f : K' → K) (q : COpts) (D : Dict c M Nd) (S : Signal c K N) (lmbda : ℝ)
    (w : K × M × Grid N → ℝ) (o o' : Pgm.Opts) (ho : SameOpts o o')
    (s : Pgm.St (Pgm.VarsF (Coef K M N) (HS K M N a))) (s') (h : PartC f s s')
    (hk : (Pgm.solve (Pgm.DFT.ops (clsBPDN a q D (fun i k => S i (f k)) lmbda fun i => w (f i.1, i.2)) o') o' none s').k =
      (Pgm.solve (Pgm.DFT.ops (clsBPDN a q D S lmbda w) o) o none s).k) :
    PartC f (Pgm.solve (Pgm.DFT.ops (clsBPDN a q D S lmbda w) o) o none s)
      (Pgm.solve (Pgm.DFT.ops (clsBPDN a q D (fun i k => S i (f k)) lmbda fun i => w (f i.1, i.2)) o') o' none s') :=
  partC_of (Pgm.solve_rel _ _ o o' (Pgm.PartF (mapsL f) (selF f)) (fun k v v' hv =>
    Pgm.stepF_part (mapsL f) (selF f) (fun _ => rfl) (fun _ => rfl) (fun _ => rfl) (prox_sel f q lmbda w) ho k v v' hv)
    ho.iter ho.iter' s s' h.k h.v hk) hk

/-- **C85 for `pgm.cbpdn.ConvBPDNMask`.** -/
theorem C85_pgm_convbpdnmask (f : K' → K) (q : COpts) (D : Dict c M Nd) (S W : Signal c K N) (lmbda : ℝ)
    (w : K × M × Grid N → ℝ) (o o' : Pgm.Opts) (ho : SameOpts o o')
    (s : Pgm.St (Pgm.VarsF (Coef K M N) (HS K M N a))) (s') (h : PartC f s s')
    (hk : (Pgm.solve (Pgm.DFT.ops (clsBPDNMask a q D (fun i k => S i (f k)) lmbda (fun i => w (f i.1, i.2))
        fun i k => W i (f k)) o') o' none s').k =
      (Pgm.solve (Pgm.DFT.ops (clsBPDNMask a q D S lmbda w W) o) o none s).k) :
    PartC f (Pgm.solve (Pgm.DFT.ops (clsBPDNMask a q D S lmbda w W) o) o none s)
      (Pgm.solve (Pgm.DFT.ops (clsBPDNMask a q D (fun i k => S i (f k)) lmbda (fun i => w (f i.1, i.2))
        fun i k => W i (f k)) o') o' none s') :=
  partC_of (Pgm.solve_rel _ _ o o' (Pgm.PartF (mapsL f) (selF f)) (fun k v v' hv =>
    Pgm.stepF_part (mapsL f) (selF f) (fun _ => rfl) (fun _ => rfl) (fun _ => rfl) (prox_sel f q lmbda w) ho k v v' hv)
    ho.iter ho.iter' s s' h.k h.v hk) hk

end Sporco.PgmConv
