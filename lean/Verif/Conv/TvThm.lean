import Verif.Conv.Tv

/-!
# `ConvBPDNScalarTV` and `ConvBPDNVectorTV`: theorems (C39, C40, C43)
-/

set_option autoImplicit false
set_option linter.unusedSectionVars false

namespace Sporco.Conv.TVC

open Finset ComplexConjugate Sporco.Linalg Sporco.Prox Sporco.Admm Filter Topology Sporco.Conv Sporco.Conv.TB
  Sporco.Conv.Grd
open scoped RealInnerProductSpace

variable {d c : ℕ} {N Nd : Fin d → ℕ} [∀ k, NeZero (N k)] {a : Fin d} {K M : Type*} [Fintype K]
  [Fintype M] [DecidableEq K] [DecidableEq M]

/-! ## The regularisers -/

theorem gradW_diff (h2 : ∀ k, 2 ≤ N k) (wt : M → ℝ) (x : Coef K M N) (i : Fin d) (k : K) (m : M) (p : Grid N) :
    gradW wt x (i, (k, m), p) = wt m * diff i (part x k m) p := by
  change part (gradW wt x) i (k, m) p = _
  rw [part_gradW, Tv.Dec.rconv_gradG i (h2 i)]
  rfl

theorem sumGrp_mlast (h2 : ∀ k, 2 ≤ N k) (wt : M → ℝ) (x : Coef K M N) :
    sumGrp axMLast (gradW wt x).ofLp = vectorTV wt (part x) := by
  unfold sumGrp vectorTV
  rw [Fintype.sum_prod_type]
  refine sum_congr rfl fun k _ => sum_congr rfl fun p _ => ?_
  congr 1
  rw [sum_filter, Fintype.sum_prod_type, sum_comm (s := (univ : Finset M))]
  refine sum_congr rfl fun i _ => ?_
  rw [Fintype.sum_prod_type, Fintype.sum_prod_type, sum_eq_single k]
  · refine sum_congr rfl fun m _ => ?_
    rw [sum_eq_single p]
    · refine (if_pos rfl).trans ?_
      rw [gradW_diff h2]
    · exact fun p' _ hp => if_neg fun h => hp (congrArg Prod.snd h)
    · exact fun h => absurd (mem_univ _) h
  · intro k' _ hk
    refine sum_eq_zero fun m _ => sum_eq_zero fun p' _ => if_neg fun h => hk (congrArg Prod.fst h)
  · exact fun h => absurd (mem_univ _) h

theorem sumGrp_none (h2 : ∀ k, 2 ≤ N k) (wt : M → ℝ) (x : Coef K M N) :
    sumGrp axNone (gradW wt x).ofLp = wholeNorm wt (part x) := by
  unfold sumGrp wholeNorm
  rw [Fintype.sum_unique]
  congr 1
  rw [sum_filter, Fintype.sum_prod_type, sum_comm]
  simp only [Fintype.sum_prod_type]
  refine sum_congr rfl fun k _ => sum_congr rfl fun m _ => sum_congr rfl fun p _ => sum_congr rfl fun i _ => ?_
  refine (if_pos trivial).trans ?_
  rw [gradW_diff h2]

theorem sumGrp_last (h2 : ∀ k, 2 ≤ N k) (wt : M → ℝ) (hwt : ∀ m, 0 ≤ wt m) (x : Coef K M N) :
    sumGrp axLast (gradW wt x).ofLp = scalarTV wt (part x) := by
  unfold sumGrp scalarTV
  simp only [Fintype.sum_prod_type]
  refine sum_congr rfl fun k _ => sum_congr rfl fun m _ => ?_
  rw [mul_sum]
  refine sum_congr rfl fun p _ => ?_
  rw [sum_filter, Fintype.sum_prod_type]
  have e : ∀ i : Fin d, ∑ y : (K × M) × Grid N, (if axLast (i, y) = ((k, m), p) then (gradW wt x).ofLp (i, y) ^ 2
      else 0) = wt m ^ 2 * diff i (part x k m) p ^ 2 := by
    intro i
    rw [sum_eq_single ((k, m), p)]
    · refine (if_pos rfl).trans ?_
      rw [gradW_diff h2, mul_pow]
    · exact fun y _ hy => if_neg hy
    · exact fun h => absurd (mem_univ _) h
  simp only [e]
  rw [← mul_sum, Real.sqrt_mul (sq_nonneg _), Real.sqrt_sq (hwt m)]

theorem objTV_eq (hN : ∀ n, Nd n ≤ N n) (R : (K → M → Grid N → ℝ) → ℝ) {G : Type*} [Fintype G] [DecidableEq G]
    (g : GIdx K M N → G) (wt : M → ℝ) (hR : ∀ x : Coef K M N, sumGrp g (gradW wt x).ofLp = R (part x))
    (D : Dict c M Nd) (S : Signal c K N) (lmbda mu : ℝ) (wl : L1W M) (x : Coef K M N) :
    objTV R D S lmbda mu wl (part x) =
      1 / 2 * ‖convOp (padD N D) x - join S‖ ^ 2 + gSumT g lmbda mu wl.arr wt x := by
  unfold objTV gSumT
  rw [hR, dataTerm_eq hN, l1w_part]
  unfold l1Conv
  ring

/-! ## Convergence -/

/-- **C39 for `ConvBPDNVectorTV`**: for every signal, positive `lmbda` and `L1Weight`, non-negative `mu` and any
`TVWeight`, the problem in the class documentation has a solution, the primal and dual residuals tend to zero and
the objective at the array `solve()` would return tends to the minimum. Fixed rho, relaxation parameter in (0, 2),
any start, at least two samples along every axis. What is missing: single-channel dictionaries with a `TVWeight`
that differs between filters (see `C40_convtv_xstep_refuted`). -/
theorem C39_C67_convvectortv_partial (hN : ∀ n, Nd n ≤ N n) (h2 : ∀ k, 2 ≤ N k) (q : COpts) (D : Dict c M Nd)
    (S : Signal c K N) (lmbda mu : ℝ) (hl : 0 < lmbda) (hm : 0 ≤ mu) (wl : L1W M)
    (hw : ∀ i : K × M × Grid N, 0 < wl.arr i) (wt : M → ℝ) (hs : c ≠ 0 ∨ ∀ m n, wt m = wt n) (fe ge : Bool)
    (o : Opts) (ha : o.autoRho = false) (hrlx : 0 < o.rlx ∧ o.rlx < 2) (cb) (hcb : Bpdn.CallbackReads cb)
    (s : St (Coef K M N) (YT K M N) (YT K M N) (Attr c K M Nd N a)) (hp : 0 < s.rho) (Xf : Spec K M N a)
    (hI : s.extra = setdict q S wt s.rho D Xf) :
    let C : Cls _ _ _ (Attr c K M Nd N a) := clsVector q S lmbda mu wl wt fe ge
    let T := traj C o cb s
    let F := objTV (vectorTV wt) D S lmbda mu wl
    ∃ Xopt, IsMin F Set.univ Xopt ∧
      Tendsto (fun n => C.nrmR (T n).AXnr (T n).Y) atTop (𝓝 0) ∧
      Tendsto (fun n => C.nrmS (T n).rho (T n).Yprev (T n).Y (T n).U) atTop (𝓝 0) ∧
      Tendsto (fun n => F (part (T n).Y.snd)) atTop (𝓝 (F Xopt)) := by
  intro C T F
  have e : ∀ z : Coef K M N, F (part z) = _ :=
    objTV_eq hN (vectorTV wt) axMLast wt (sumGrp_mlast h2 wt) D S lmbda mu wl
  obtain ⟨x, hx, h1, h2, h3⟩ := convergence_tv (a := a) axMLast axMLast q D S lmbda mu hl hm wl hw wt hs fe ge o ha
    hrlx cb hcb s hp ⟨Xf, hI⟩
  refine ⟨part x, ⟨trivial, fun Z _ => ?_⟩, h1, h2, ?_⟩
  · have := hx (join Z)
    simp only [← e] at this
    exact this
  · simp only [e]
    exact h3

/-- **C39 for `ConvBPDNScalarTV`, as far as it is true.** The residuals tend to zero and the objective tends to
the minimum, but of another problem than the one in the class documentation: the regulariser is the norm
`√(∑ₘ ∑ᵢ ‖w_m Gᵢ x_m‖²)` of the array of all gradients, since `ystep` calls `prox_l2` without an axis. See
`C67_convscalartv_refuted`. -/
theorem C67_convscalartv_partial (hN : ∀ n, Nd n ≤ N n) (h2 : ∀ k, 2 ≤ N k) (q : COpts) (D : Dict c M Nd)
    (S : Signal c K N) (lmbda mu : ℝ) (hl : 0 < lmbda) (hm : 0 ≤ mu) (wl : L1W M)
    (hw : ∀ i : K × M × Grid N, 0 < wl.arr i) (wt : M → ℝ) (hs : c ≠ 0 ∨ ∀ m n, wt m = wt n) (fe ge : Bool)
    (o : Opts) (ha : o.autoRho = false) (hrlx : 0 < o.rlx ∧ o.rlx < 2) (cb) (hcb : Bpdn.CallbackReads cb)
    (s : St (Coef K M N) (YT K M N) (YT K M N) (Attr c K M Nd N a)) (hp : 0 < s.rho) (Xf : Spec K M N a)
    (hI : s.extra = setdict q S wt s.rho D Xf) :
    let C : Cls _ _ _ (Attr c K M Nd N a) := clsScalar q S lmbda mu wl wt fe ge
    let T := traj C o cb s
    let F := objTV (wholeNorm wt) D S lmbda mu wl
    ∃ Xopt, IsMin F Set.univ Xopt ∧
      Tendsto (fun n => C.nrmR (T n).AXnr (T n).Y) atTop (𝓝 0) ∧
      Tendsto (fun n => C.nrmS (T n).rho (T n).Yprev (T n).Y (T n).U) atTop (𝓝 0) ∧
      Tendsto (fun n => F (part (T n).Y.snd)) atTop (𝓝 (F Xopt)) := by
  intro C T F
  have e : ∀ z : Coef K M N, F (part z) = _ :=
    objTV_eq hN (wholeNorm wt) axNone wt (sumGrp_none h2 wt) D S lmbda mu wl
  obtain ⟨x, hx, h1, h2, h3⟩ := convergence_tv (a := a) axNone axLast q D S lmbda mu hl hm wl hw wt hs fe ge o ha
    hrlx cb hcb s hp ⟨Xf, hI⟩
  refine ⟨part x, ⟨trivial, fun Z _ => ?_⟩, h1, h2, ?_⟩
  · have := hx (join Z)
    simp only [← e] at this
    exact this
  · simp only [e]
    exact h3

/-- **C40, C43.** At every iteration of every run of either class, including after automatic changes of rho (the
cached component, if there is one, is recomputed), X is the unique minimiser of the augmented Lagrangian in x.
What is missing: as for `C40_convtv_xstep_partial`. -/
theorem C40_C43_convtv_history_partial {Gy Gr : Type*} [Fintype Gy] [DecidableEq Gy] [Fintype Gr] [DecidableEq Gr]
    (gy : GIdx K M N → Gy) (gr : GIdx K M N → Gr) (hN : ∀ n, Nd n ≤ N n) (h2 : ∀ k, 2 ≤ N k) (q : COpts)
    (D : Dict c M Nd) (S : Signal c K N) (lmbda mu : ℝ) (hl : 0 ≤ lmbda) (hm : 0 ≤ mu) (wl : L1W M)
    (hw : ∀ i : K × M × Grid N, 0 ≤ wl.arr i) (wt : M → ℝ) (hs : c ≠ 0 ∨ ∀ m n, wt m = wt n) (fe ge : Bool)
    (o : Opts) (ho : o.autoRho = true → o.RhoOk) (cb) (hcb : Bpdn.CallbackReads cb)
    (s : St (Coef K M N) (YT K M N) (YT K M N) (Attr c K M Nd N a)) (hp : 0 < s.rho) (Xf : Spec K M N a)
    (hI : s.extra = setdict q S wt s.rho D Xf) (n : ℕ) :
    let T := traj (cls gy gr q S lmbda mu wl wt fe ge) o cb s
    IsUniqueMin (augTV D S wt (T n).rho (part (T n).Y.fst) (part (T n).U.fst) (part (T n).Y.snd)
      (part (T n).U.snd)) Set.univ (part (T (n + 1)).X) := by
  have hC := implements_tv (a := a) gy gr q D S lmbda hl mu hm wl hw wt hs fe ge
  have hk : CallbackKeeps (CohT (a := a) q D S wt) cb := hcb.keeps _
  obtain ⟨h1, h3⟩ := traj_inv hC o ho cb hk s hp ⟨Xf, hI⟩ n
  simp only
  rw [traj_succ, oneIter_X, show (cls gy gr q S lmbda mu wl wt fe ge).xstep = xstep (c := c) (Nd := Nd) (a := a) wt from rfl]
  obtain ⟨Xf', h4⟩ := h3
  rw [h4]
  exact C40_convtv_xstep_partial hN h2 q D S wt hs _ h1 _ _ _ _

/-! ## Recorded values -/

/-- Up to `Xf` the attributes do not change in an iteration. -/
theorem dfd_eq (hN : ∀ n, Nd n ≤ N n) {q : COpts} {D : Dict c M Nd} {S : Signal c K N} {wt : M → ℝ} {rho : ℝ}
    (fe : Bool) (X : Coef K M N) (Y : YT K M N) {h : Attr c K M Nd N a} (hc : CohT q D S wt rho h)
    (hX : ∀ k m, h.Xf k m = rfft N a (part X k m)) :
    dfd S fe Y h = dataTerm D S (part (if fe then X else Y.snd)) := by
  have e : fvarf fe Y h = fun k m => rfft N a (part (if fe then X else Y.snd) k m) := by
    funext k m
    unfold fvarf
    cases fe
    · rfl
    · exact hX k m
  unfold dfd
  rw [e]
  obtain ⟨Xf, rfl⟩ := hc
  have e2 : (fun p : (Fin (c + 1) × K) × Half N a => Linalg.inner (fun m => (setdict q S wt rho D Xf).Df p.1.1 m p.2)
      (fun m => rfft N a (part (if fe then X else Y.snd) p.1.2 m) p.2) - sigF a S p.1.1 p.1.2 p.2) =
      fun p => rfft N a (part (convOp (padD N D) (if fe then X else Y.snd) - join S) p.1.1 p.1.2) p.2 := by
    funext ⟨⟨i, k⟩, ξ⟩
    change ∑ m, rf (padD N D i m) ξ.1 * rf (part (if fe then X else Y.snd) k m) ξ.1 - rf (S i k) ξ.1 =
      rf (fun p => part (convOp (padD N D) (if fe then X else Y.snd)) i k p - S i k p) ξ.1
    rw [rf_sub, part_convOp, rf_sum]
    simp only [rf_rconv]
  rw [e2, C32_rfl2norm2 a fun (ik : Fin (c + 1) × K) =>
    part (convOp (padD N D) (if fe then X else Y.snd) - join S) ik.1 ik.2, dataTerm_eq hN, norm_part]
  rw [Fintype.sum_prod_type]
  ring

theorem l1Conv_scalar (w : ℝ) (hw : 0 ≤ w) (v : Coef K M N) :
    rl1 (.scalar w) v = l1Conv (K := K) (N := N) (L1W.scalar w : L1W M).arr (part v) := by
  unfold rl1 l1Conv
  simp only [Fintype.sum_prod_type]
  refine sum_congr rfl fun k _ => sum_congr rfl fun m _ => sum_congr rfl fun p _ => ?_
  rw [abs_mul, abs_of_nonneg hw]
  rfl

/-- The recorded values for any grouping. -/
theorem recorded_tv (hN : ∀ n, Nd n ≤ N n) {G : Type*} [Fintype G] [DecidableEq G] (gr : GIdx K M N → G)
    (q : COpts) (D : Dict c M Nd) (S : Signal c K N) (lmbda mu : ℝ) (wl : L1W M) (wt : M → ℝ)
    (hs : SolverOk c wt) (fe ge : Bool) (rho : ℝ) (hr : 0 < rho) (X0 : Coef K M N) (Y0 U0 Y : YT K M N)
    (Xf : Spec K M N a) :
    let x := xstep wt rho X0 Y0 U0 (setdict q S wt rho D Xf)
    let f := dataTerm D S (part (if fe then x.1 else Y.snd))
    let r1 := rl1 wl (if ge then Y.snd else x.1)
    let rtv := sumGrp gr (if ge then Y.fst else gradW wt x.1).ofLp
    evalObjfn gr S lmbda mu wl wt fe ge x.1 Y x.2 = (f + (lmbda * r1 + mu * rtv), f, r1, rtv) := by
  intro x f r1 rtv
  have hX : ∀ k m, x.2.Xf k m = rfft N a (part x.1 k m) := xstep_Xf hs hr ⟨Xf, rfl⟩ X0 Y0 U0
  have hc : CohT q D S wt rho x.2 := ⟨_, rfl⟩
  have h1 : dfd S fe Y x.2 = f := dfd_eq hN fe x.1 Y hc hX
  have h2 : (if ge then Y else cnstA a wt x.1).snd = if ge then Y.snd else x.1 := by cases ge <;> rfl
  have h3 : (if ge then Y else cnstA a wt x.1).fst = if ge then Y.fst else gradW wt x.1 := by
    cases ge
    · exact cnstA0_eq wt x.1
    · rfl
  unfold evalObjfn
  simp only [h1, h2, h3]
  rfl

/-- **C40.** With a scalar `L1Weight` the values that `ConvBPDNScalarTV` records in an iteration are the objective
in the class documentation and its three terms at the new X if `fEvalX` is set and `gEvalY` is not; `fEvalX` false
evaluates the data term, `gEvalY` the other terms, at Y. What is missing: arrays as `L1Weight`
(`C40_convtv_recorded_refuted`), single-channel dictionaries with a `TVWeight` that differs between filters. -/
theorem C40_convscalartv_recorded_partial (hN : ∀ n, Nd n ≤ N n) (h2 : ∀ k, 2 ≤ N k) (q : COpts) (D : Dict c M Nd)
    (S : Signal c K N) (lmbda mu : ℝ) (w : ℝ) (hw : 0 ≤ w) (wt : M → ℝ) (hwt : ∀ m, 0 ≤ wt m)
    (hs : c ≠ 0 ∨ ∀ m n, wt m = wt n) (rho : ℝ) (hr : 0 < rho) (X0 : Coef K M N) (Y0 U0 Y : YT K M N)
    (Xf : Spec K M N a) :
    let x := xstep wt rho X0 Y0 U0 (setdict q S wt rho D Xf)
    let tvY := ∑ k, ∑ m, ∑ p, Real.sqrt (∑ i, part Y.fst i (k, m) p ^ 2)
    let l1 := l1Conv (K := K) (N := N) (L1W.scalar w : L1W M).arr
    evalObjfn axLast S lmbda mu (.scalar w) wt true false x.1 Y x.2 =
      (objTV (scalarTV wt) D S lmbda mu (.scalar w) (part x.1), dataTerm D S (part x.1), l1 (part x.1),
        scalarTV wt (part x.1)) ∧
    evalObjfn axLast S lmbda mu (.scalar w) wt false true x.1 Y x.2 =
      (dataTerm D S (part Y.snd) + lmbda * l1 (part Y.snd) + mu * tvY, dataTerm D S (part Y.snd), l1 (part Y.snd),
        tvY) := by
  intro x tvY l1
  have h := fun fe ge => recorded_tv (a := a) hN axLast q D S lmbda mu (.scalar w) wt hs fe ge rho hr X0 Y0 U0 Y Xf
  have e1 : sumGrp axLast (gradW wt x.1).ofLp = scalarTV wt (part x.1) := sumGrp_last h2 wt hwt x.1
  have e2 : sumGrp axLast Y.fst.ofLp = tvY := by
    unfold sumGrp
    simp only [Fintype.sum_prod_type]
    refine sum_congr rfl fun k _ => sum_congr rfl fun m _ => sum_congr rfl fun p _ => ?_
    congr 1
    rw [sum_filter, Fintype.sum_prod_type]
    refine sum_congr rfl fun i _ => ?_
    rw [sum_eq_single ((k, m), p)]
    · exact if_pos rfl
    · exact fun y _ hy => if_neg hy
    · exact fun h => absurd (mem_univ _) h
  constructor
  · refine (h true false).trans ?_
    simp only [Bool.false_eq_true, if_true, if_false]
    change (dataTerm D S (part x.1) + (lmbda * rl1 (.scalar w) x.1 + mu * sumGrp axLast (gradW wt x.1).ofLp), dataTerm D S (part x.1), rl1 (.scalar w) x.1, sumGrp axLast (gradW wt x.1).ofLp) = _
    rw [e1, l1Conv_scalar w hw]
    unfold objTV
    ext
    · simp only; ring
    all_goals rfl
  · refine (h false true).trans ?_
    simp only [Bool.false_eq_true, if_true, if_false]
    rw [e2, l1Conv_scalar w hw]
    ext
    · simp only [l1]; ring
    all_goals rfl

/-- **C40.** As `C40_convscalartv_recorded_partial`, for `ConvBPDNVectorTV`. -/
theorem C40_convvectortv_recorded_partial (hN : ∀ n, Nd n ≤ N n) (h2 : ∀ k, 2 ≤ N k) (q : COpts) (D : Dict c M Nd)
    (S : Signal c K N) (lmbda mu : ℝ) (w : ℝ) (hw : 0 ≤ w) (wt : M → ℝ)
    (hs : c ≠ 0 ∨ ∀ m n, wt m = wt n) (rho : ℝ) (hr : 0 < rho) (X0 : Coef K M N) (Y0 U0 Y : YT K M N)
    (Xf : Spec K M N a) :
    let x := xstep wt rho X0 Y0 U0 (setdict q S wt rho D Xf)
    let tvY := ∑ k, ∑ p, Real.sqrt (∑ m, ∑ i, part Y.fst i (k, m) p ^ 2)
    let l1 := l1Conv (K := K) (N := N) (L1W.scalar w : L1W M).arr
    evalObjfn axMLast S lmbda mu (.scalar w) wt true false x.1 Y x.2 =
      (objTV (vectorTV wt) D S lmbda mu (.scalar w) (part x.1), dataTerm D S (part x.1), l1 (part x.1),
        vectorTV wt (part x.1)) ∧
    evalObjfn axMLast S lmbda mu (.scalar w) wt false true x.1 Y x.2 =
      (dataTerm D S (part Y.snd) + lmbda * l1 (part Y.snd) + mu * tvY, dataTerm D S (part Y.snd), l1 (part Y.snd),
        tvY) := by
  intro x tvY l1
  have h := fun fe ge => recorded_tv (a := a) hN axMLast q D S lmbda mu (.scalar w) wt hs fe ge rho hr X0 Y0 U0 Y Xf
  have e1 : sumGrp axMLast (gradW wt x.1).ofLp = vectorTV wt (part x.1) := sumGrp_mlast h2 wt x.1
  have e2 : sumGrp axMLast Y.fst.ofLp = tvY := by
    unfold sumGrp
    rw [Fintype.sum_prod_type]
    refine sum_congr rfl fun k _ => sum_congr rfl fun p _ => ?_
    congr 1
    rw [sum_filter, Fintype.sum_prod_type, sum_comm (s := (univ : Finset M))]
    refine sum_congr rfl fun i _ => ?_
    rw [Fintype.sum_prod_type, Fintype.sum_prod_type, sum_eq_single k]
    · refine sum_congr rfl fun m _ => ?_
      rw [sum_eq_single p]
      · exact if_pos rfl
      · exact fun p' _ hp => if_neg fun h => hp (congrArg Prod.snd h)
      · exact fun h => absurd (mem_univ _) h
    · intro k' _ hk
      refine sum_eq_zero fun m _ => sum_eq_zero fun p' _ => if_neg fun h => hk (congrArg Prod.fst h)
    · exact fun h => absurd (mem_univ _) h
  constructor
  · refine (h true false).trans ?_
    simp only [Bool.false_eq_true, if_true, if_false]
    change (dataTerm D S (part x.1) + (lmbda * rl1 (.scalar w) x.1 + mu * sumGrp axMLast (gradW wt x.1).ofLp), dataTerm D S (part x.1), rl1 (.scalar w) x.1, sumGrp axMLast (gradW wt x.1).ofLp) = _
    rw [e1, l1Conv_scalar w hw]
    unfold objTV
    ext
    · simp only; ring
    all_goals rfl
  · refine (h false true).trans ?_
    simp only [Bool.false_eq_true, if_true, if_false]
    rw [e2, l1Conv_scalar w hw]
    ext
    · simp only [l1]; ring
    all_goals rfl

/-- **The recorded `RegL1` is wrong if `L1Weight` is an array with one weight for each filter.** It is the plain
l1 norm times the sum of the weights, where the documented weighted norm is `∑ₘ w_m ‖x_m‖₁`; with all weights
equal to one it is too large by a factor of the number of filters. The same error is in `ObjFun`. -/
theorem C40_convtv_recorded_refuted {G : Type*} [Fintype G] [DecidableEq G] (gr : GIdx K M N → G)
    (S : Signal c K N) (lmbda mu : ℝ) (w wt : M → ℝ) (fe : Bool) (X : Coef K M N) (Y : YT K M N)
    (h : Attr c K M Nd N a) :
    let v := evalObjfn gr S lmbda mu (.filter w) wt fe false X Y h
    v.2.2.1 = (∑ m, |w m|) * ∑ k, ∑ m, ∑ p, |part X k m p| ∧
    v.1 = v.2.1 + lmbda * v.2.2.1 + mu * v.2.2.2 ∧
    (w = (fun _ => 1) → 1 < Fintype.card M → X ≠ 0 →
      ∑ k, ∑ m, ∑ p, w m * |part X k m p| < v.2.2.1) := by
  intro v
  have e : v.2.2.1 = (∑ m, |w m|) * ∑ k, ∑ m, ∑ p, |part X k m p| := by
    change ∑ n, ∑ i, |w n * X i| = _
    rw [sum_mul]
    refine sum_congr rfl fun n _ => ?_
    simp only [Fintype.sum_prod_type, mul_sum]
    refine sum_congr rfl fun k _ => sum_congr rfl fun m _ => sum_congr rfl fun p _ => ?_
    rw [abs_mul]
    rfl
  refine ⟨e, ?_, ?_⟩
  · exact (add_assoc _ _ _).symm
  · rintro rfl hM hX
    rw [e]
    simp only [abs_one, sum_const, card_univ, nsmul_eq_mul, mul_one, one_mul]
    have hpos : 0 < ∑ k, ∑ m, ∑ p, |part X k m p| := by
      by_contra hn
      apply hX
      have h0 : ∀ k m p, |part X k m p| = 0 := by
        have hz := le_antisymm (not_lt.1 hn) (sum_nonneg fun k _ => sum_nonneg fun m _ =>
          sum_nonneg fun p _ => abs_nonneg _)
        intro k m p
        have h1 := (sum_eq_zero_iff_of_nonneg fun k _ => sum_nonneg fun m _ =>
          sum_nonneg fun p _ => abs_nonneg _).1 hz k (mem_univ k)
        have h2 := (sum_eq_zero_iff_of_nonneg fun m _ => sum_nonneg fun p _ => abs_nonneg _).1 h1 m (mem_univ m)
        exact (sum_eq_zero_iff_of_nonneg fun p _ => abs_nonneg _).1 h2 p (mem_univ p)
      ext ⟨k, m, p⟩
      exact abs_eq_zero.1 (h0 k m p)
    have hM' : (1 : ℝ) < Fintype.card M := by exact_mod_cast hM
    nlinarith

end Sporco.Conv.TVC
