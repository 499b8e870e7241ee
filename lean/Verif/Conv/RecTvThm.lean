import Verif.Conv.RecTv
import Verif.Conv.TvRef

/-!
# `ConvBPDNRecTV`: theorems (C39, C40, C43, C67)
-/

set_option autoImplicit false
set_option linter.unusedSectionVars false

namespace Sporco.Conv.RTV

open Finset ComplexConjugate Sporco.Linalg Sporco.Prox Sporco.Admm Filter Topology Sporco.Conv Sporco.Conv.TB
  Sporco.Conv.Grd Sporco.Conv.TVC
open scoped RealInnerProductSpace

section Congr
variable {E F G H : Type*} [NormedAddCommGroup E] [InnerProductSpace ℝ E] [NormedAddCommGroup F]
  [InnerProductSpace ℝ F] [NormedAddCommGroup G] [InnerProductSpace ℝ G]

theorem oneIter_extra (C : Cls E F G H) (o : Opts) (ha : o.autoRho = false) (cb) (hcb : Bpdn.CallbackReads cb)
    (s : St E F G H) : (oneIter C o cb s).extra = (steps C o s).extra := by
  have hu : ∀ (k : ℕ) (r t : ℝ) (st : St E F G H), updateRho C o k r t st = st := by
    intro k r t st; unfold updateRho; rw [if_neg (by simp [ha])]
  unfold oneIter body
  simp only [hu]
  cases hc : cb with
  | none => cases o.fastSolve <;> cases o.withRsdl <;> rfl
  | some f =>
    simp only
    rw [hcb f _ hc]
    cases o.fastSolve <;> cases o.withRsdl <;> rfl

/-- Two classes that differ only in the residuals and the objective have the same iterates. -/
theorem traj_congr (C C' : Cls E F G H) (hx : C.xstep = C'.xstep) (hy : C.ystep = C'.ystep)
    (hr : C.relax = C'.relax) (hu : C.ustep = C'.ustep) (o : Opts) (ha : o.autoRho = false) (cb)
    (hcb : Bpdn.CallbackReads cb) (s : St E F G H) (n : ℕ) :
    let A := traj C o cb s n
    let B := traj C' o cb s n
    A.X = B.X ∧ A.Y = B.Y ∧ A.U = B.U ∧ A.rho = B.rho ∧ A.AXnr = B.AXnr ∧ A.Yprev = B.Yprev ∧
      A.extra = B.extra := by
  induction n with
  | zero => exact ⟨rfl, rfl, rfl, rfl, rfl, rfl, rfl⟩
  | succ n ih =>
    obtain ⟨i1, i2, i3, i4, i5, i6, i7⟩ := ih
    simp only [traj_succ]
    obtain ⟨a1, a2, a3, a4, a5, a6⟩ := oneIter_steps C o ha cb (traj C o cb s n)
    obtain ⟨b1, b2, b3, b4, b5, b6⟩ := oneIter_steps C' o ha cb (traj C' o cb s n)
    rw [a1, a2, a3, a4, a5, a6, b1, b2, b3, b4, b5, b6, oneIter_extra C o ha cb hcb, oneIter_extra C' o ha cb hcb]
    unfold steps
    simp only [hx, hy, hr, hu, i1, i2, i3, i4, i7, and_self]

end Congr

variable {d c : ℕ} {N Nd : Fin d → ℕ} [∀ k, NeZero (N k)] {a : Fin d} {K M J : Type*} [Fintype K]
  [Fintype M] [Fintype J] [DecidableEq J]

/-! ## Exact steps -/

/-- The problem that is solved. -/
noncomputable def probR (sg : K → J) (D : Dict c M Nd) (S : Signal c K N) (lmbda : ℝ) (hl : 0 ≤ lmbda)
    (mu : ℝ) (hm : 0 ≤ mu) (w : K × M × Grid N → ℝ) (hw : ∀ i, 0 ≤ w i) (wt : M → ℝ) :
    Problem (Coef K M N) (YR c K M N) (YR c K M N) :=
  tbfProblem (gOp (K := K) (N := N) wt D) (gOpT (K := K) (N := N) wt D) (gOp_adj (K := K) (N := N) wt D) 0
    (fun x : Coef K M N => 1 / 2 * ‖convOp (padD N D) x - join S‖ ^ 2) (ls_convex (convOp (K := K) (padD N D)) (join S))
    (fun y : GR c K N => mu * sumGrp (axCLast sg) y.ofLp) (sumGrp_convex (axCLast sg) mu hm)
    (fun y : Coef K M N => lmbda * l1w w y.ofLp) Set.univ
    (Bpdn.convex_l1w w hw _ convex_univ lmbda hl)

/-- `ConvBPDNRecTV` with dual residuals computed from the adjoint. -/
noncomputable def clsA (sg : K → J) (D : Dict c M Nd) (S : Signal c K N) (lmbda mu : ℝ)
    (w : K × M × Grid N → ℝ) (wt : M → ℝ) (fe ge : Bool) :
    Cls (Coef K M N) (YR c K M N) (YR c K M N) (AttrR c K M Nd N a) :=
  { cls sg D S lmbda mu w wt fe ge with
    nrmS := fun rho Yprev Y _ => ‖rsdlS (foldR wt D) (fun y => -y) rho Yprev Y‖
    rsdlSn := Admm.rsdlSn (foldR wt D) }

theorem implements_rectv (sg : K → J) (hv : sep1View c K) (D : Dict c M Nd) (S : Signal c K N)
    (lmbda : ℝ) (hl : 0 ≤ lmbda) (mu : ℝ) (hm : 0 ≤ mu) (w : K × M × Grid N → ℝ)
    (hw : ∀ i, 0 ≤ w i) (wt : M → ℝ) (fe ge : Bool) :
    Implements (clsA sg D S lmbda mu w wt fe ge : Cls _ _ _ (AttrR c K M Nd N a))
      (probR sg D S lmbda hl mu hm w hw wt) (CohR D S wt) := by
  have eA : (cnstA a wt D : Coef K M N → YR c K M N) =
      catL (gOp (K := K) (N := N) wt D) (ContinuousLinearMap.id ℝ (Coef K M N)) :=
    funext fun X => by
      change WithLp.toLp 2 (cnstA1 a wt D X, X) = WithLp.toLp 2 (gOp wt D X, X)
      rw [cnstA1_eq]
  have eAT : (foldR wt D : YR c K M N → Coef K M N) =
      catLT (gOpT (K := K) (N := N) wt D) (ContinuousLinearMap.id ℝ (Coef K M N)) :=
    funext fun Y => by
      change Y.snd + gOpT wt D Y.fst = gOpT wt D Y.fst + Y.snd
      rw [add_comm]
  refine ⟨fun rlx x y => ?_, fun ax y u => rfl, fun ax y => rfl, Or.inl fun rho yp y u => ?_, fun ax y => ?_,
    fun rho u hr => mul_nonneg hr (norm_nonneg _), fun rho X Y U _ _ h => ?_, fun _ _ _ _ _ _ _ h => h,
    fun _ _ _ _ _ h => h, ?_, ?_⟩
  · change relaxAX (cnstA a wt D) _ _ _ _ _ = _
    rw [eA]; rfl
  · change ‖Admm.rsdlS (foldR wt D) _ _ _ _‖ = _
    rw [eAT]; rfl
  · exact le_max_of_le_right (norm_nonneg _)
  · obtain ⟨Xf, rfl⟩ := h
    exact ⟨_, rfl⟩
  · intro rho X Y U h hp hI
    refine ⟨trivial, fun z _ => ?_⟩
    have key : ∀ z : Coef K M N, ‖catL (gOp wt D) (ContinuousLinearMap.id ℝ (Coef K M N)) z +
        (-ContinuousLinearMap.id ℝ (YR c K M N)) Y - TwoBlock.cat 0 0 + U‖ ^ 2 =
        ‖gOp wt D z - Y.fst + U.fst‖ ^ 2 + ‖z - Y.snd + U.snd‖ ^ 2 := by
      intro z
      rw [WithLp.prod_norm_sq_eq_of_L2]
      change ‖gOp wt D z + -Y.fst - 0 + U.fst‖ ^ 2 + ‖z + -Y.snd - 0 + U.snd‖ ^ 2 = _
      rw [show gOp wt D z + -Y.fst - 0 + U.fst = gOp wt D z - Y.fst + U.fst by abel,
        show z + -Y.snd - 0 + U.snd = z - Y.snd + U.snd by abel]
    have h1 := xstep_excess hp hI X Y U z
    have h3 := mul_nonneg (half_pos hp).le (sq_nonneg ‖z - (xstep rho X Y U h).1‖)
    change 1 / 2 * ‖convOp (padD N D) (xstep rho X Y U h).1 - join S‖ ^ 2 + rho / 2 *
      ‖catL (gOp wt D) (ContinuousLinearMap.id ℝ (Coef K M N)) (xstep rho X Y U h).1 +
        (-ContinuousLinearMap.id ℝ (YR c K M N)) Y - TwoBlock.cat 0 0 + U‖ ^ 2 ≤
      1 / 2 * ‖convOp (padD N D) z - join S‖ ^ 2 + rho / 2 *
      ‖catL (gOp wt D) (ContinuousLinearMap.id ℝ (Coef K M N)) z +
        (-ContinuousLinearMap.id ℝ (YR c K M N)) Y - TwoBlock.cat 0 0 + U‖ ^ 2
    rw [key, key]
    simp only at h1
    linarith
  · intro rho AX X Y U h hp _
    obtain ⟨y, hy⟩ : ∃ y, y = (ystep (a := a) (c := c) (Nd := Nd) sg lmbda mu w rho AX X Y U h).1 := ⟨_, rfl⟩
    have e0 := proxGrp_min (axCLast (d := d) (c := c) (N := N) sg) mu hm rho hp (AX.fst + U.fst)
    have e1 := LG.prox_min w hw lmbda hl rho hp (AX.snd + U.snd)
    have key : ∀ z : YR c K M N, ‖AX + (-ContinuousLinearMap.id ℝ (YR c K M N)) z - TwoBlock.cat 0 0 + U‖ ^ 2 =
        ‖AX.fst + U.fst - z.fst‖ ^ 2 + ‖AX.snd + U.snd - z.snd‖ ^ 2 := by
      intro z
      rw [WithLp.prod_norm_sq_eq_of_L2]
      change ‖AX.fst + -z.fst - 0 + U.fst‖ ^ 2 + ‖AX.snd + -z.snd - 0 + U.snd‖ ^ 2 = _
      rw [show AX.fst + -z.fst - 0 + U.fst = AX.fst + U.fst - z.fst by abel,
        show AX.snd + -z.snd - 0 + U.snd = AX.snd + U.snd - z.snd by abel]
    have hyc : ((clsA sg D S lmbda mu w wt fe ge).ystep rho AX X Y U h).1 = y := hy.symm
    rw [hyc]
    refine ⟨⟨trivial, trivial⟩, fun z hz => ?_⟩
    change mu * sumGrp (axCLast sg) y.fst.ofLp + lmbda * l1w w y.snd.ofLp + rho / 2 *
      ‖AX + (-ContinuousLinearMap.id ℝ (YR c K M N)) y - TwoBlock.cat 0 0 + U‖ ^ 2 ≤
      mu * sumGrp (axCLast sg) z.fst.ofLp + lmbda * l1w w z.snd.ofLp + rho / 2 *
      ‖AX + (-ContinuousLinearMap.id ℝ (YR c K M N)) z - TwoBlock.cat 0 0 + U‖ ^ 2
    rw [key, key]
    have ey : y.fst = WithLp.toLp 2 (proxGrp (axCLast sg) (AX + U).fst.ofLp (mu / rho)) := by
      rw [hy]
      exact if_pos hv
    have a0 : mu * sumGrp (axCLast sg) y.fst.ofLp + rho / 2 * ‖AX.fst + U.fst - y.fst‖ ^ 2 +
        rho / 2 * ‖z.fst - y.fst‖ ^ 2 ≤
      mu * sumGrp (axCLast sg) z.fst.ofLp + rho / 2 * ‖AX.fst + U.fst - z.fst‖ ^ 2 := by rw [ey]; exact e0 z.fst
    have a1 : lmbda * l1w w y.snd.ofLp + rho / 2 * ‖AX.snd + U.snd - y.snd‖ ^ 2 ≤
      lmbda * l1w w z.snd.ofLp + rho / 2 * ‖AX.snd + U.snd - z.snd‖ ^ 2 := by rw [hy]; exact e1 z.snd
    have a2 := mul_nonneg (half_pos hp).le (sq_nonneg ‖z.fst - y.fst‖)
    linarith

/-! ## Convergence -/

/-- The two non-smooth terms as a function of one array. -/
noncomputable def gSumR (sg : K → J) (D : Dict c M Nd) (lmbda mu : ℝ) (w : K × M × Grid N → ℝ) (wt : M → ℝ)
    (y : Coef K M N) : ℝ := mu * sumGrp (axCLast sg) (gOp wt D y).ofLp + lmbda * l1w w y.ofLp

theorem exists_rectv (sg : K → J) (D : Dict c M Nd) (S : Signal c K N) (lmbda mu : ℝ) (hl : 0 < lmbda)
    (hm : 0 ≤ mu) (w : K × M × Grid N → ℝ) (hw : ∀ i, 0 < w i) (wt : M → ℝ) :
    ∃ x : Coef K M N, ∀ z : Coef K M N,
      1 / 2 * ‖convOp (padD N D) x - join S‖ ^ 2 + gSumR sg D lmbda mu w wt x ≤
        1 / 2 * ‖convOp (padD N D) z - join S‖ ^ 2 + gSumR sg D lmbda mu w wt z := by
  obtain ⟨r, hr, hgrow⟩ := Bpdn.l1w_grow w hw lmbda hl
  have hcont : Continuous (gSumR (N := N) sg D lmbda mu w wt) :=
    (continuous_const.mul ((continuous_sumGrp (axCLast sg)).comp (gOp wt D).continuous)).add
      (continuous_const.mul (Bpdn.continuous_l1w w))
  have hg : ∀ y : Coef K M N, r * ‖y‖ ≤ gSumR sg D lmbda mu w wt y := fun y =>
    (hgrow y).trans (le_add_of_nonneg_left (mul_nonneg hm (sumGrp_nonneg _ _)))
  obtain ⟨x, -, hmin⟩ := ls_exists_min (convOp (K := K) (padD N D)) (join S) (gSumR sg D lmbda mu w wt) Set.univ
    isClosed_univ ⟨0, trivial⟩ hcont r hr hg
  exact ⟨x, fun z => hmin z trivial⟩

theorem saddle_rectv (sg : K → J) (D : Dict c M Nd) (S : Signal c K N) (lmbda : ℝ) (hl : 0 ≤ lmbda)
    (mu : ℝ) (hm : 0 ≤ mu) (w : K × M × Grid N → ℝ) (hw : ∀ i, 0 ≤ w i) (wt : M → ℝ) (x : Coef K M N)
    (hmin : ∀ z : Coef K M N, 1 / 2 * ‖convOp (padD N D) x - join S‖ ^ 2 + gSumR sg D lmbda mu w wt x ≤
        1 / 2 * ‖convOp (padD N D) z - join S‖ ^ 2 + gSumR sg D lmbda mu w wt z) :
    ∃ l, (probR sg D S lmbda hl mu hm w hw wt).Saddle x (TwoBlock.cat (gOp wt D x - 0) x) l := by
  have hm' : ∀ z ∈ (Set.univ : Set (Coef K M N)),
      (fun x : Coef K M N => 1 / 2 * ‖convOp (padD N D) x - join S‖ ^ 2) x +
      (fun y : GR c K N => mu * sumGrp (axCLast sg) y.ofLp) (gOp wt D x - 0) +
      (fun y : Coef K M N => lmbda * l1w w y.ofLp) x ≤
      (fun x : Coef K M N => 1 / 2 * ‖convOp (padD N D) x - join S‖ ^ 2) z +
      (fun y : GR c K N => mu * sumGrp (axCLast sg) y.ofLp) (gOp wt D z - 0) +
      (fun y : Coef K M N => lmbda * l1w w y.ofLp) z := by
    intro z _
    have := hmin z
    unfold gSumR at this
    simp only [sub_zero]
    linarith
  have h0 := gOp_adj (K := K) (N := N) wt D
  have hf := ls_convex (convOp (K := K) (padD N D)) (join S)
  have hg0 := sumGrp_convex (axCLast (d := d) (c := c) (N := N) sg) mu hm
  have hg1 := Bpdn.convex_l1w w hw _ (convex_univ (𝕜 := ℝ) (E := Coef K M N)) lmbda hl
  exact tbf_saddle (h0 := h0) (hf := hf) (hg0 := hg0) (hg1 := hg1) x trivial hm'

theorem near_rectv (sg : K → J) (D : Dict c M Nd) (S : Signal c K N) (lmbda : ℝ) (hl : 0 ≤ lmbda)
    (mu : ℝ) (hm : 0 ≤ mu) (w : K × M × Grid N → ℝ) (hw : ∀ i, 0 ≤ w i) (wt : M → ℝ)
    (X : ℕ → Coef K M N) (Y : ℕ → YR c K M N) (p : ℝ)
    (h : Tendsto (fun n => 1 / 2 * ‖convOp (padD N D) (X n) - join S‖ ^ 2 +
      (mu * sumGrp (axCLast sg) (Y n).fst.ofLp + lmbda * l1w w (Y n).snd.ofLp)) atTop (𝓝 p))
    (h0 : Tendsto (fun n => gOp wt D (X n) - 0 - (Y n).fst) atTop (𝓝 0))
    (h1 : Tendsto (fun n => X n - (Y n).snd) atTop (𝓝 0)) :
    Tendsto (fun n => 1 / 2 * ‖convOp (padD N D) (Y n).snd - join S‖ ^ 2 + gSumR sg D lmbda mu w wt (Y n).snd)
      atTop (𝓝 p) := by
  have hd : Tendsto (fun n => (convOp (padD N D) (Y n).snd - join S) - (convOp (padD N D) (X n) - join S)) atTop
      (𝓝 0) := by
    have := ((convOp (K := K) (padD N D)).continuous.tendsto (0 : Coef K M N)).comp h1
    rw [map_zero] at this
    have := this.neg
    rw [neg_zero] at this
    refine this.congr fun n => ?_
    simp only [Function.comp]
    rw [map_sub]; abel
  have h2 := half_sq_near (fun n => convOp (padD N D) (X n) - join S) (fun n => convOp (padD N D) (Y n).snd - join S)
    (fun n => mu * sumGrp (axCLast sg) (Y n).fst.ofLp + lmbda * l1w w (Y n).snd.ofLp) p (fun n =>
      add_nonneg (mul_nonneg hm (sumGrp_nonneg _ _))
        (mul_nonneg hl (sum_nonneg fun i _ => mul_nonneg (hw i) (norm_nonneg _)))) h hd
  have hnear : Tendsto (fun n => gOp wt D (Y n).snd - (Y n).fst) atTop (𝓝 0) := by
    have h7 := ((gOp (K := K) (N := N) wt D).continuous.tendsto (0 : Coef K M N)).comp h1
    rw [map_zero] at h7
    have h8 := h0.sub h7
    rw [sub_zero] at h8
    refine h8.congr fun n => ?_
    simp only [Function.comp]
    rw [map_sub]
    abel
  have h3 : Tendsto (fun n => sumGrp (axCLast sg) (gOp wt D (Y n).snd).ofLp - sumGrp (axCLast sg) (Y n).fst.ofLp)
      atTop (𝓝 0) := by
    have h4 := ((continuous_sumGrp (axCLast (d := d) (c := c) (N := N) sg)).tendsto 0).comp hnear
    have e : sumGrp (axCLast sg) (0 : GR c K N).ofLp = 0 := sumGrp_zero (axCLast sg)
    rw [e] at h4
    exact squeeze_zero_norm (fun n => sumGrp_sub (axCLast sg) _ _) h4
  have h5 := h2.add (h3.const_mul mu)
  rw [mul_zero, add_zero] at h5
  refine h5.congr fun n => ?_
  unfold gSumR
  ring

theorem convergence_rectv (sg : K → J) (hv : sep1View c K) (D : Dict c M Nd)
    (S : Signal c K N) (lmbda mu : ℝ) (hl : 0 < lmbda) (hm : 0 ≤ mu) (w : K × M × Grid N → ℝ)
    (hw : ∀ i, 0 < w i) (wt : M → ℝ) (fe ge : Bool)
    (o : Opts) (ha : o.autoRho = false) (hrlx : 0 < o.rlx ∧ o.rlx < 2) (cb) (hcb : Bpdn.CallbackReads cb)
    (s : St (Coef K M N) (YR c K M N) (YR c K M N) (AttrR c K M Nd N a)) (hp : 0 < s.rho)
    (hI : CohR D S wt s.rho s.extra) :
    let C : Cls _ _ _ (AttrR c K M Nd N a) := cls sg D S lmbda mu w wt fe ge
    let T := traj C o cb s
    let F := fun z : Coef K M N => 1 / 2 * ‖convOp (padD N D) z - join S‖ ^ 2 + gSumR sg D lmbda mu w wt z
    ∃ x, (∀ z, F x ≤ F z) ∧
      Tendsto (fun n => C.nrmR (T n).AXnr (T n).Y) atTop (𝓝 0) ∧
      Tendsto (fun n => (T n).Y - (T n).Yprev) atTop (𝓝 0) ∧
      Tendsto (fun n => F (T n).Y.snd) atTop (𝓝 (F x)) := by
  intro C T F
  have hw0 : ∀ i, 0 ≤ w i := fun i => (hw i).le
  obtain ⟨x, hmin⟩ := exists_rectv sg D S lmbda mu hl hm w hw wt
  obtain ⟨l, hsad⟩ := saddle_rectv sg D S lmbda hl.le mu hm w hw0 wt x hmin
  have hC := implements_rectv (a := a) sg hv D S lmbda hl.le mu hm w hw0 wt fe ge
  have hk : CallbackKeeps (CohR (a := a) D S wt) cb := hcb.keeps _
  obtain ⟨k1, k2, k3, k4, k5, -⟩ := tbf_convergence hC o ha hrlx cb hk s hp hI _ _ _ hsad
  have hT : ∀ n, _ := traj_congr C (clsA sg D S lmbda mu w wt fe ge) rfl rfl rfl rfl o ha cb hcb s
  simp only at hT
  refine ⟨x, hmin, ?_, ?_, ?_⟩
  · refine k1.congr fun n => ?_
    rw [← (hT n).2.1, ← (hT n).2.2.2.2.1]
    rfl
  · have hrun := run_of_traj hC o ha hrlx cb hk s hp hI hsad
    refine (tendsto_add_atTop_iff_nat 1).1 ?_
    have h1 := hrun.delta_tendsto.1.neg
    rw [neg_zero] at h1
    refine h1.congr fun n => ?_
    have e1 : (T (n + 1)).Yprev = (T n).Y := by
      change (traj C o cb s (n + 1)).Yprev = _
      rw [traj_succ]
      exact (oneIter_steps C o ha cb (T n)).2.2.2.2.2
    rw [e1]
    change -((-(traj (clsA sg D S lmbda mu w wt fe ge) o cb s (n + 1)).Y - TwoBlock.cat 0 0) -
      (-(traj (clsA sg D S lmbda mu w wt fe ge) o cb s n).Y - TwoBlock.cat 0 0)) = _
    rw [← (hT n).2.1, ← (hT (n + 1)).2.1]
    abel
  have k7 := near_rectv sg D S lmbda hl.le mu hm w hw0 wt
    (fun n => (traj (clsA sg D S lmbda mu w wt fe ge) o cb s n).X)
    (fun n => (traj (clsA sg D S lmbda mu w wt fe ge) o cb s n).Y) _ k3 k4 k5
  change Tendsto _ _ (𝓝 (1 / 2 * ‖convOp (padD N D) x - join S‖ ^ 2 +
    (mu * sumGrp (axCLast sg) (gOp wt D x - 0).ofLp + lmbda * l1w w x.ofLp))) at k7
  rw [sub_zero] at k7
  refine k7.congr fun n => ?_
  rw [← (hT n).2.1]

/-! ## In terms of the documentation -/

theorem sumGrp_recTV (hN : ∀ n, Nd n ≤ N n) (h2 : ∀ k, 2 ≤ N k) (sg : K → J) (wt : M → ℝ) (D : Dict c M Nd)
    (x : Coef K M N) : sumGrp (axCLast sg) (gOp wt D x).ofLp = recTV sg wt D (part x) := by
  classical
  unfold sumGrp recTV
  rw [Fintype.sum_prod_type]
  refine sum_congr rfl fun j _ => sum_congr rfl fun p _ => ?_
  congr 1
  rw [sum_filter, sum_filter, Fintype.sum_prod_type]
  have e : ∀ (ic : Fin d × Fin (c + 1)), ∑ y : K × Grid N,
      (if axCLast sg (ic, y) = (j, p) then (gOp wt D x).ofLp (ic, y) ^ 2 else 0) =
      ∑ k, if sg k = j then diff ic.1 (wrecon wt D (part x k) ic.2) p ^ 2 else 0 := by
    intro ic
    rw [Fintype.sum_prod_type]
    refine sum_congr rfl fun k _ => ?_
    rw [sum_eq_single p]
    · by_cases hk : sg k = j
      · rw [if_pos hk, ← part_gOp hN h2]
        exact if_pos (by rw [← hk]; rfl)
      · rw [if_neg hk]
        exact if_neg fun h => hk (congrArg Prod.fst h)
    · exact fun p' _ hp => if_neg fun h => hp (congrArg Prod.snd h)
    · exact fun h => absurd (mem_univ _) h
  simp only [e]
  rw [sum_comm]
  refine sum_congr rfl fun k _ => ?_
  by_cases hk : sg k = j
  · simp only [if_pos hk]
    rw [Fintype.sum_prod_type, sum_comm]
  · simp only [if_neg hk, sum_const_zero]

theorem objR_eq (hN : ∀ n, Nd n ≤ N n) (h2 : ∀ k, 2 ≤ N k) (sg : K → J) (D : Dict c M Nd) (S : Signal c K N)
    (lmbda mu : ℝ) (w : K × M × Grid N → ℝ) (wt : M → ℝ) (x : Coef K M N) :
    objR sg D S lmbda mu w wt (part x) =
      1 / 2 * ‖convOp (padD N D) x - join S‖ ^ 2 + gSumR sg D lmbda mu w wt x := by
  unfold objR gSumR
  rw [sumGrp_recTV hN h2, dataTerm_eq hN, l1w_part]
  unfold l1Conv
  ring

/-- `cnst_AT` without transforms. -/
theorem cnstAT_part (wt : M → ℝ) (D : Dict c M Nd) (Y : YR c K M N) (ch : Fin (c + 1)) (k : K) (m : M) (p : Grid N) :
    part (cnstAT a wt D Y) (ch, k) m p =
      part Y.snd k m p + ∑ i, rcorr (gF N wt D (i, ch) m) (part Y.fst (i, ch) k) p := by
  change part Y.snd k m p + ∑ i, irfft N a (fun ξ =>
    conj (rf (pad N (Tv.Dec.gradG i)) ξ.1 * (wt m * rf (padD N D ch m) ξ.1)) * rf (part Y.fst (i, ch) k) ξ.1) p = _
  congr 1
  refine sum_congr rfl fun i _ => ?_
  have : (fun ξ : Half N a => conj (rf (pad N (Tv.Dec.gradG i)) ξ.1 * (wt m * rf (padD N D ch m) ξ.1)) *
      rf (part Y.fst (i, ch) k) ξ.1) = fun ξ => rf (rcorr (gF N wt D (i, ch) m) (part Y.fst (i, ch) k)) ξ.1 := by
    funext ξ
    rw [rf_rcorr, rf_gF]
  rw [this]
  exact congrFun (irfft_rfft a _) p

theorem continuous_cnstAT (wt : M → ℝ) (D : Dict c M Nd) :
    Continuous (cnstAT a wt D : YR c K M N → Coef (Fin (c + 1) × K) M N) := by
  have e : (cnstAT a wt D : YR c K M N → Coef (Fin (c + 1) × K) M N) = fun Y => WithLp.toLp 2 fun i =>
      Y.snd (i.1.2, i.2.1, i.2.2) + ∑ j, ∑ y, gF N wt D (j, i.1.1) i.2.1 y * Y.fst ((j, i.1.1), i.1.2, i.2.2 + y) := by
    funext Y
    ext ⟨⟨ch, k⟩, m, p⟩
    exact cnstAT_part wt D Y ch k m p
  rw [e]
  have h1 : Continuous fun Y : YR c K M N => Y.fst := WithLp.continuous_fst ..
  have h2 : Continuous fun Y : YR c K M N => Y.snd := WithLp.continuous_snd ..
  refine (PiLp.continuous_toLp 2 _).comp (continuous_pi fun i => Continuous.add ?_ ?_)
  · exact (EuclideanSpace.proj (𝕜 := ℝ) _).continuous.comp h2
  · refine continuous_finsetSum _ fun j _ => continuous_finsetSum _ fun y _ => continuous_const.mul ?_
    exact (EuclideanSpace.proj (𝕜 := ℝ) _).continuous.comp h1

theorem cnstAT_zero (wt : M → ℝ) (D : Dict c M Nd) : cnstAT a wt D (0 : YR c K M N) = 0 := by
  ext ⟨⟨ch, k⟩, m, p⟩
  refine (cnstAT_part wt D 0 ch k m p).trans ?_
  have h : ∀ i, rcorr (gF N wt D (i, ch) m) (part (0 : YR c K M N).fst (i, ch) k) p = 0 := fun i =>
    sum_eq_zero fun y _ => mul_zero _
  simp only [h, sum_const_zero]
  exact add_zero _

/-- **C39, C67 for `ConvBPDNRecTV`**: for every signal, positive `lmbda` and `L1Weight`, non-negative `mu` and any
`TVWeight`, the problem in the class documentation has a solution, the primal and dual residuals tend to zero and
the objective at the array `solve()` would return tends to the minimum. Fixed rho, relaxation parameter in (0, 2),
any start, at least two samples along every axis. What is missing: multi-channel dictionaries with a number of
signals that is neither one nor the number of channels (`C67_convrectv_refuted`). For multi-channel dictionaries
the dual residual is not that of the problem (`C61_convrectv_refuted`), but tends to zero too. -/
theorem C39_C67_convrectv_partial (hN : ∀ n, Nd n ≤ N n) (h2 : ∀ k, 2 ≤ N k) (sg : K → J)
    (hv : c = 0 ∨ Fintype.card K = 1 ∨ Fintype.card K = c + 1) (D : Dict c M Nd)
    (S : Signal c K N) (lmbda mu : ℝ) (hl : 0 < lmbda) (hm : 0 ≤ mu) (w : K × M × Grid N → ℝ)
    (hw : ∀ i, 0 < w i) (wt : M → ℝ) (fe ge : Bool)
    (o : Opts) (ha : o.autoRho = false) (hrlx : 0 < o.rlx ∧ o.rlx < 2) (cb) (hcb : Bpdn.CallbackReads cb)
    (s : St (Coef K M N) (YR c K M N) (YR c K M N) (AttrR c K M Nd N a)) (hp : 0 < s.rho) (Xf : Spec K M N a)
    (hI : s.extra = setdict S wt D Xf) :
    let C : Cls _ _ _ (AttrR c K M Nd N a) := cls sg D S lmbda mu w wt fe ge
    let T := traj C o cb s
    let F := objR sg D S lmbda mu w wt
    ∃ Xopt, IsMin F Set.univ Xopt ∧
      Tendsto (fun n => C.nrmR (T n).AXnr (T n).Y) atTop (𝓝 0) ∧
      Tendsto (fun n => C.nrmS (T n).rho (T n).Yprev (T n).Y (T n).U) atTop (𝓝 0) ∧
      Tendsto (fun n => F (part (T n).Y.snd)) atTop (𝓝 (F Xopt)) := by
  intro C T F
  have e : ∀ z : Coef K M N, F (part z) = _ := objR_eq hN h2 sg D S lmbda mu w wt
  obtain ⟨x, hx, h1, h3, h4⟩ := convergence_rectv (a := a) sg hv D S lmbda mu hl hm w hw wt fe ge o ha
    hrlx cb hcb s hp ⟨Xf, hI⟩
  refine ⟨part x, ⟨trivial, fun Z _ => ?_⟩, h1, ?_, ?_⟩
  · have := hx (join Z)
    simp only [← e] at this
    exact this
  · have h5 := ((continuous_cnstAT (a := a) (K := K) (N := N) wt D).tendsto 0).comp
      (by simpa using h3.neg : Tendsto (fun n => -((T n).Y - (T n).Yprev)) atTop (𝓝 0))
    rw [cnstAT_zero] at h5
    have h6 := tendsto_zero_iff_norm_tendsto_zero.1 (h5.const_smul s.rho |>.trans (by rw [smul_zero]))
    refine h6.congr fun n => ?_
    have e1 : (T n).rho = s.rho := traj_rho C o ha cb s n
    rw [e1]
    rfl
  · simp only [e]
    exact h4

/-- **C40, C43.** At every iteration of every run of `ConvBPDNRecTV`, including after automatic changes of rho, X
is the unique minimiser of the augmented Lagrangian in x. -/
theorem C40_C43_convrectv_history (hN : ∀ n, Nd n ≤ N n) (h2 : ∀ k, 2 ≤ N k) (sg : K → J)
    (D : Dict c M Nd) (S : Signal c K N) (lmbda mu : ℝ) (w : K × M × Grid N → ℝ) (wt : M → ℝ) (fe ge : Bool)
    (o : Opts) (ho : o.autoRho = true → o.RhoOk) (cb) (hcb : Bpdn.CallbackReads cb)
    (s : St (Coef K M N) (YR c K M N) (YR c K M N) (AttrR c K M Nd N a)) (hp : 0 < s.rho) (Xf : Spec K M N a)
    (hI : s.extra = setdict S wt D Xf) (n : ℕ) :
    let T := traj (cls sg D S lmbda mu w wt fe ge) o cb s
    IsUniqueMin (augR D S wt (T n).rho (part (T n).Y.fst) (part (T n).U.fst) (part (T n).Y.snd)
      (part (T n).U.snd)) Set.univ (part (T (n + 1)).X) := by
  have hK : Keeps (cls sg D S lmbda mu w wt fe ge) (CohR (a := a) D S wt) :=
    ⟨⟨fun _ _ => norm_nonneg _, fun _ _ _ _ => norm_nonneg _, fun _ _ => le_max_of_le_right (norm_nonneg _),
      fun _ _ h => mul_nonneg h (norm_nonneg _)⟩,
      fun rho X Y U h _ hh => by obtain ⟨Xf, rfl⟩ := hh; exact ⟨_, rfl⟩, fun _ _ _ _ _ _ _ h => h,
      fun _ _ _ _ _ h => h⟩
  have hk : CallbackKeeps (CohR (a := a) D S wt) cb := hcb.keeps _
  obtain ⟨h1, h3⟩ := traj_keeps hK o ho cb hk s hp ⟨Xf, hI⟩ n
  simp only
  rw [traj_succ, oneIter_X, show (cls sg D S lmbda mu w wt fe ge).xstep = xstep (c := c) (Nd := Nd) (a := a) from rfl]
  obtain ⟨Xf', h4⟩ := h3
  rw [h4]
  exact C40_convrectv_xstep hN h2 D S wt _ h1 _ _ _ _

/-- **C40.** The values that `ConvBPDNRecTV` records in an iteration are the objective in the class documentation
and its three terms at the new X if `fEvalX` is set and `gEvalY` is not; `fEvalX` false evaluates the data term,
`gEvalY` the other terms, at Y (the TV term at its first block). Any non-negative array as `L1Weight`. -/
theorem C40_convrectv_recorded (hN : ∀ n, Nd n ≤ N n) (h2 : ∀ k, 2 ≤ N k) (sg : K → J) (D : Dict c M Nd)
    (S : Signal c K N) (lmbda mu : ℝ) (w : K × M × Grid N → ℝ) (hw : ∀ i, 0 ≤ w i) (wt : M → ℝ)
    (rho : ℝ) (hr : 0 < rho) (X0 : Coef K M N) (Y0 U0 Y : YR c K M N) (Xf : Spec K M N a) :
    let x := xstep rho X0 Y0 U0 (setdict S wt D Xf)
    let tvY := ∑ j, ∑ p, Real.sqrt (∑ k with sg k = j, ∑ ch, ∑ i, part Y.fst (i, ch) k p ^ 2)
    evalObjfn sg D S lmbda mu w wt true false x.1 Y x.2 =
      (objR sg D S lmbda mu w wt (part x.1), dataTerm D S (part x.1), l1Conv w (part x.1),
        recTV sg wt D (part x.1)) ∧
    evalObjfn sg D S lmbda mu w wt false true x.1 Y x.2 =
      (dataTerm D S (part Y.snd) + lmbda * l1Conv w (part Y.snd) + mu * tvY, dataTerm D S (part Y.snd),
        l1Conv w (part Y.snd), tvY) := by
  classical
  intro x tvY
  have hX : ∀ k m, x.2.Xf k m = rfft N a (part x.1 k m) := xstep_Xf hr ⟨Xf, rfl⟩ X0 Y0 U0
  have hd : ∀ fe, dfd S fe Y x.2 = dataTerm D S (part (if fe then x.1 else Y.snd)) := by
    intro fe
    have e : fvarf fe Y x.2 = fun k m => rfft N a (part (if fe then x.1 else Y.snd) k m) := by
      funext k m
      unfold fvarf
      cases fe
      · rfl
      · exact hX k m
    unfold dfd
    rw [e]
    have e2 : (fun p : (Fin (c + 1) × K) × Half N a => Linalg.inner (fun m => x.2.Df p.1.1 m p.2)
        (fun m => rfft N a (part (if fe then x.1 else Y.snd) p.1.2 m) p.2) - sigF a S p.1.1 p.1.2 p.2) =
        fun p => rfft N a (part (convOp (padD N D) (if fe then x.1 else Y.snd) - join S) p.1.1 p.1.2) p.2 := by
      funext ⟨⟨i, k⟩, ξ⟩
      change ∑ m, rf (padD N D i m) ξ.1 * rf (part (if fe then x.1 else Y.snd) k m) ξ.1 - rf (S i k) ξ.1 =
        rf (fun p => part (convOp (padD N D) (if fe then x.1 else Y.snd)) i k p - S i k p) ξ.1
      rw [rf_sub, part_convOp, rf_sum]
      simp only [rf_rconv]
    rw [e2, C32_rfl2norm2 a fun (ik : Fin (c + 1) × K) =>
      part (convOp (padD N D) (if fe then x.1 else Y.snd) - join S) ik.1 ik.2, dataTerm_eq hN, norm_part]
    rw [Fintype.sum_prod_type]
    ring
  have hl1 : ∀ v : Coef K M N, normL1 (fun i => w i * v i) = l1Conv w (part v) := by
    intro v
    unfold normL1 l1Conv
    simp only [Fintype.sum_prod_type]
    refine sum_congr rfl fun k _ => sum_congr rfl fun m _ => sum_congr rfl fun p _ => ?_
    rw [Real.norm_eq_abs, abs_mul, abs_of_nonneg (hw _)]
    rfl
  have htv : sumGrp (axCLast sg) Y.fst.ofLp = tvY := by
    unfold sumGrp
    rw [Fintype.sum_prod_type]
    refine sum_congr rfl fun j _ => sum_congr rfl fun p _ => ?_
    congr 1
    rw [sum_filter, sum_filter, Fintype.sum_prod_type]
    have e : ∀ (ic : Fin d × Fin (c + 1)), ∑ y : K × Grid N,
        (if axCLast sg (ic, y) = (j, p) then Y.fst.ofLp (ic, y) ^ 2 else 0) =
        ∑ k, if sg k = j then part Y.fst ic k p ^ 2 else 0 := by
      intro ic
      rw [Fintype.sum_prod_type]
      refine sum_congr rfl fun k _ => ?_
      rw [sum_eq_single p]
      · by_cases hk : sg k = j
        · rw [if_pos hk]
          exact if_pos (by rw [← hk]; rfl)
        · rw [if_neg hk]
          exact if_neg fun h => hk (congrArg Prod.fst h)
      · exact fun p' _ hp => if_neg fun h => hp (congrArg Prod.snd h)
      · exact fun h => absurd (mem_univ _) h
    simp only [e]
    rw [sum_comm]
    refine sum_congr rfl fun k _ => ?_
    by_cases hk : sg k = j
    · simp only [if_pos hk]
      rw [Fintype.sum_prod_type, sum_comm]
    · simp only [if_neg hk, sum_const_zero]
  constructor
  · change (dfd S true Y x.2 + (lmbda * normL1 (fun i => w i * x.1 i) +
      mu * sumGrp (axCLast sg) (cnstA1 a wt D x.1).ofLp), dfd S true Y x.2, normL1 (fun i => w i * x.1 i),
      sumGrp (axCLast sg) (cnstA1 a wt D x.1).ofLp) = _
    rw [cnstA1_eq, sumGrp_recTV hN h2, hl1, hd]
    unfold objR
    ext
    · simp only [if_true]; ring
    all_goals rfl
  · change (dfd S false Y x.2 + (lmbda * normL1 (fun i => w i * Y.snd i) +
      mu * sumGrp (axCLast sg) Y.fst.ofLp), dfd S false Y x.2, normL1 (fun i => w i * Y.snd i),
      sumGrp (axCLast sg) Y.fst.ofLp) = _
    rw [htv, hl1, hd]
    ext
    · simp only [Bool.false_eq_true, if_false]; ring
    all_goals rfl

end Sporco.Conv.RTV
