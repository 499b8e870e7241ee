import Verif.Conv.Iterates
import Verif.Conv.ProjL1
import Verif.Conv.L1L1
import Verif.Admm.IterGen

/-!
# C39: iterates of `ConvBPDNProjL1`, `ConvBPDNGradReg`, `ConvBPDNMaskDcpl`, `ConvMinL1InL2Ball` and `ConvL1L1Grd`
-/

set_option autoImplicit false
set_option linter.unusedSectionVars false

open Finset ComplexConjugate Sporco.Linalg Sporco.Prox Sporco.Admm Filter Topology Sporco.Conv
open scoped RealInnerProductSpace

namespace Sporco.Conv.Prj

variable {d c : ℕ} {N Nd : Fin d → ℕ} [∀ k, NeZero (N k)] {a : Fin d} {K M L : Type*} [Fintype K]
  [Fintype M] [Fintype L]

/-- **C39, iterates of `ConvBPDNProjL1`.** Under the hypotheses of `C39_convprojl1`, X and Y themselves converge, to one and
the same minimiser of the data term over the arrays with l1 norm at most `gamma` for every signal. -/
theorem C39_convprojl1_iterates {n : ℕ} (e : L × M × Grid N ≃ Fin n) (hN : ∀ n, Nd n ≤ N n) (q : COpts)
    (hn : q.nonNeg = false) (hb : q.noBndry = false) (D : Dict c M Nd) (S : Signal c (L × K) N)
    (gamma : ℝ) (hγ : 0 ≤ gamma) (fe ge : Bool) (o : Opts) (ha : o.autoRho = false)
    (hrlx : 0 < o.rlx ∧ o.rlx < 2) (cb) (hcb : Bpdn.CallbackReads cb)
    (s : St (Coef (L × K) M N) (Coef (L × K) M N) (Coef (L × K) M N) (Attr c (L × K) M Nd N a))
    (hp : 0 < s.rho) (Xf : Spec (L × K) M N a) (hs : s.extra = setdict q S s.rho D Xf) :
    let T := traj (clsConvPrj e q S gamma fe ge) o cb s
    ∃ Xopt, IsMin (dataTerm D S) (ballConv gamma) Xopt ∧
      ConvTo (fun n => part (T n).X) Xopt ∧ ConvTo (fun n => part (T n).Y) Xopt := by
  intro T
  have hobj : ∀ y : Coef (L × K) M N, lsObj (convOp (padD N D)) (join S) zeroG y =
      dataTerm D S (part y) := by
    intro y
    unfold lsObj zeroG
    rw [dataTerm_eq hN, add_zero]
  have hcpt : IsCompact (bset gamma : Set (Coef (L × K) M N)) :=
    (isCompact_closedBall 0 (Fintype.card K * gamma)).of_isClosed_subset (closed_bset gamma)
      (bounded_bset gamma)
  have hne : (0 : Coef (L × K) M N) ∈ (bset gamma : Set (Coef (L × K) M N)) := by
    intro k
    have : l1 (slice (0 : Coef (L × K) M N) k) = 0 := by simp [l1, slice]
    rw [this]; exact hγ
  obtain ⟨x, hx, hmin⟩ := hcpt.exists_isMinOn ⟨0, hne⟩
    (f := lsObj (convOp (padD N D)) (join S) zeroG) (by unfold lsObj zeroG; fun_prop)
  have himp := implements_prj (a := a) e q hn hb D S gamma hγ fe ge
  have hI : Coh q D S s.rho s.extra := ⟨Xf, hs⟩
  have hck : CallbackKeeps (Coh q D S) cb := hcb.keeps _
  obtain ⟨y, u, hy, hymin, -, h1, h2, -⟩ := ls_iterates (convOp (K := L × K) (padD N D)) (convOpT (K := L × K) (padD N D))
    (convOp_adj (K := L × K) (padD N D)) (join S) zeroG (bset gamma) (convex_zeroG gamma) continuous_const
    (closed_bset gamma) (clsConvPrj e q S gamma fe ge) (Coh (a := a) q D S) himp o ha hrlx cb hck s hp hI
    ⟨x, hx, fun z hz => hmin hz⟩
  refine ⟨part y, ⟨(bset_iff gamma y).1 hy, fun Z hZ => ?_⟩, part_tendsto h1, part_tendsto h2⟩
  have h := hymin (join Z) ((bset_iff gamma _).2 hZ)
  rw [hobj, hobj] at h
  exact h

end Sporco.Conv.Prj

namespace Sporco.Conv.Grd

variable {d c : ℕ} {N Nd : Fin d → ℕ} [∀ k, NeZero (N k)] {a : Fin d} {K M : Type*} [Fintype K] [Fintype M]

/-- **C39, iterates of `ConvBPDNGradReg`.** Under the hypotheses of `C39_convgradreg`, X and Y themselves converge, to one
and the same minimiser. -/
theorem C39_convgradreg_iterates (hN : ∀ n, Nd n ≤ N n) (hN2 : ∀ k, 2 ≤ N k) (q : COpts) (hq : q.caches c = false)
    (h2 : q.noBndry = true → ∀ n, 2 ≤ Nd n)
    (D : Dict c M Nd) (S : Signal c K N) (lmbda mu : ℝ) (hl : 0 < lmbda) (hm : 0 ≤ mu)
    (w : K × M × Grid N → ℝ) (hw : ∀ i, 0 < w i) (wg : M → ℝ) (hg : ∀ m, 0 ≤ wg m) (fe ge : Bool) (o : Opts)
    (ha : o.autoRho = false) (hrlx : 0 < o.rlx ∧ o.rlx < 2) (cb) (hcb : Bpdn.CallbackReads cb)
    (s : St (Coef K M N) (Coef K M N) (Coef K M N) (Attr c K M Nd N a)) (hp : 0 < s.rho)
    (Xf : Spec K M N a) (hs : s.extra = setdict q S mu wg s.rho D Xf) :
    let T := traj (clsGrd q S lmbda mu w wg fe ge) o cb s
    ∃ Xopt, IsMin (objGrd D S lmbda mu w wg) (allowedConv q.nonNeg q.noBndry Nd) Xopt ∧
      ConvTo (fun n => part (T n).X) Xopt ∧ ConvTo (fun n => part (T n).Y) Xopt := by
  intro T
  have hcg := Bpdn.convex_l1w w (fun i => (hw i).le) _ (convex_cset (K := K) (M := M) (N := N) q Nd) lmbda hl.le
  obtain ⟨r, hr, hgrow⟩ := Bpdn.l1w_grow w hw lmbda hl
  have hex := ls_exists_min (grdL D fun m => Real.sqrt (mu * wg m)) (grdB S)
    (fun y : Coef K M N => lmbda * l1w w y.ofLp) (cset q Nd) (closed_cset q Nd)
    ⟨0, zero_cset q Nd⟩ (continuous_const.mul (Bpdn.continuous_l1w w)) r hr hgrow
  obtain ⟨x, u, hx, hmin, -, h3, h4, -⟩ := ls_iterates (grdL D fun m => Real.sqrt (mu * wg m)) (grdLT D _)
    (grdL_adj D _) (grdB S) (fun y : Coef K M N => lmbda * l1w w y.ofLp) (cset q Nd) hcg
    (continuous_const.mul (Bpdn.continuous_l1w w)) (closed_cset q Nd)
    (clsGrd q S lmbda mu w wg fe ge) (CohG (a := a) q D S mu wg)
    (implements_grd (a := a) q hq h2 hN D S lmbda mu hl.le hm w (fun i => (hw i).le) wg hg fe ge)
    o ha hrlx cb (hcb.keeps _) s hp ⟨Xf, hs⟩ hex
  refine ⟨part x, ⟨hx, fun Z hZ => ?_⟩, part_tendsto h3, part_tendsto h4⟩
  have := hmin (join Z) hZ
  rw [lsObj_grd hN hN2 D S lmbda mu hm w wg hg, lsObj_grd hN hN2 D S lmbda mu hm w wg hg] at this
  exact this

end Sporco.Conv.Grd

namespace Sporco.Conv.TB

open Sporco.PgmConv (maskTerm mulL mulL_adj maskTerm_eq)

variable {d c : ℕ} {N Nd : Fin d → ℕ} [∀ k, NeZero (N k)] {a : Fin d} {K M : Type*} [Fintype K] [Fintype M]

/-- **C39, iterates of `ConvBPDNMaskDcpl`.** Under the hypotheses of `C39_convmask`, X and the coefficient block of Y
(which `solve()` returns) converge themselves, to one and the same minimiser. -/
theorem C39_convmask_iterates (hN : ∀ n, Nd n ≤ N n) (q : COpts) (h2 : q.noBndry = true → ∀ n, 2 ≤ Nd n)
    (D : Dict c M Nd) (S W : Signal c K N) (lmbda : ℝ) (hl : 0 < lmbda) (w : K × M × Grid N → ℝ)
    (hw : ∀ i, 0 < w i) (av : Bool) (o : Opts) (ha : o.autoRho = false)
    (hrlx : 0 < o.rlx ∧ o.rlx < 2) (cb) (hcb : Bpdn.CallbackReads cb)
    (s : St (Coef K M N) (YY c K M N) (YY c K M N) (AttrTB K M N a)) (hp : 0 < s.rho)
    (Xf : Spec K M N a) (hs : s.extra = setdict q D Xf) :
    let T := traj (clsMask a q D S W lmbda w av) o cb s
    ∃ Xopt, IsMin (objMask D S W lmbda w) (allowedConv q.nonNeg q.noBndry Nd) Xopt ∧
      ConvTo (fun n => part (T n).X) Xopt ∧ ConvTo (fun n => part (T n).Y.snd) Xopt := by
  intro T
  have hw0 : ∀ i, 0 ≤ w i := fun i => (hw i).le
  obtain ⟨r, hr, hgrow⟩ := Bpdn.l1w_grow w hw lmbda hl
  obtain ⟨x, hx, hmin⟩ := ls_exists_min ((mulL W).comp (convOp (padD N D))) (mulL W (join S))
    (fun y : Coef K M N => lmbda * l1w w y.ofLp) (cset q Nd) (closed_cset q Nd) ⟨0, zero_cset q Nd⟩
    (continuous_const.mul (Bpdn.continuous_l1w w)) r hr hgrow
  have hobj : ∀ z : Coef K M N, lsObj ((mulL W).comp (convOp (padD N D))) (mulL W (join S))
      (fun y : Coef K M N => lmbda * l1w w y.ofLp) z = gMask W (convOp (padD N D) z - join S) +
        lmbda * l1w w z.ofLp := by
    intro z
    unfold lsObj gMask
    rw [map_sub]
    rfl
  simp only [hobj] at hmin
  have hg1 := Bpdn.convex_l1w w hw0 _ (convex_cset (K := K) (M := M) (N := N) q Nd) lmbda hl.le
  obtain ⟨l, hl'⟩ := exists_multiplier (convOp (padD N D)) (join S)
    (fun y : Coef K M N => lmbda * l1w w y.ofLp) (cset q Nd) (gMask W) Set.univ hg1 (convex_gMask W)
    _ (fun z hz _ => by rw [add_comm (lmbda * _)]; exact hmin z hz) x hx (by simp)
  have hsad := tb_saddle (A0 := convOp (padD N D)) (A0T := convOpT (padD N D)) (c0 := join S)
    (convOp_adj (padD N D)) (fun y : Coef K M N => lmbda * l1w w y.ofLp) (cset q Nd) (convex_gMask W) hg1
    x hx trivial l (fun z hz y hy => by
      have := hl' z hz y hy
      linarith)
  have hgc : Continuous (gMask (c := c) (K := K) (N := N) W) := by
    unfold gMask; fun_prop
  obtain ⟨z, -, hz1, hzm, h3, -, h4⟩ := tb_iterates (exact_mask (a := a) hN q h2 D S W lmbda hl.le w hw0 av)
    (convOp_adj (padD N D)) (fun _ _ => rfl) (convex_gMask W) hg1 (fun _ _ _ h => h) hgc
    (continuous_const.mul (Bpdn.continuous_l1w w)) isClosed_univ (closed_cset q Nd) o ha hrlx cb (hcb.keeps _) s hp
    ⟨Xf, hs⟩ hsad
  simp only [ContinuousLinearMap.id_apply, sub_zero] at hz1 hzm h4
  refine ⟨part z, ⟨hz1, fun Z hZ => ?_⟩, part_tendsto h3, part_tendsto h4⟩
  have h7 := hzm (join Z) trivial hZ
  rw [← objMask_eq hN, ← objMask_eq hN] at h7
  exact h7

/-- **C39, iterates of `ConvMinL1InL2Ball`.** Under the hypotheses of `C39_convminl1`, X and the coefficient block of Y
converge themselves, to one and the same array of smallest weighted l1 norm among those satisfying the constraints. -/
theorem C39_convminl1_iterates (hN : ∀ n, Nd n ≤ N n) (q : COpts) (h2 : q.noBndry = true → ∀ n, 2 ≤ Nd n)
    (D : Dict c M Nd) (S : Signal c K N) (eps : ℝ) (he : 0 < eps) (w : K × M × Grid N → ℝ)
    (hw : ∀ i, 0 < w i) (av : Bool)
    (Xb : K → M → Grid N → ℝ) (hXb : Xb ∈ allowedConv q.nonNeg q.noBndry Nd)
    (hsl : ∀ i k, residual D S Xb i k < eps)
    (o : Opts) (ha : o.autoRho = false) (hrlx : 0 < o.rlx ∧ o.rlx < 2) (cb) (hcb : Bpdn.CallbackReads cb)
    (s : St (Coef K M N) (YY c K M N) (YY c K M N) (AttrTB K M N a)) (hp : 0 < s.rho)
    (Xf : Spec K M N a) (hs : s.extra = setdict q D Xf) :
    let T := traj (clsBall a q D S eps w av) o cb s
    ∃ Xopt, IsMin (l1Conv w) (feasConv D S eps q) Xopt ∧
      ConvTo (fun n => part (T n).X) Xopt ∧ ConvTo (fun n => part (T n).Y.snd) Xopt := by
  intro T
  have hw0 : ∀ i, 0 ≤ w i := fun i => (hw i).le
  obtain ⟨r, hr, hgrow⟩ := Bpdn.l1w_grow w hw 1 one_pos
  have hstr : ∀ k, l2 (slice (sigEquiv c K N) (convOp (padD N D) (join Xb) - join S) k) < eps := by
    intro k
    have := l2_residual hN D S (join Xb) k.1 k.2
    rw [Prod.mk.eta] at this
    rw [this]
    exact hsl k.1 k.2
  have hcl : IsClosed {x : Coef K M N | x ∈ (cset q Nd : Set (Coef K M N)) ∧
      convOp (padD N D) x - join S ∈ sball (sigEquiv c K N) eps} := by
    refine (closed_cset q Nd).inter ?_
    refine (closed_sball (sigEquiv c K N) eps).preimage
      (f := fun x : Coef K M N => convOp (padD N D) x - join S) ?_
    fun_prop
  obtain ⟨x, ⟨hx, hx1⟩, hmin⟩ := ls_exists_min (0 : Coef K M N →L[ℝ] Coef K M N) 0
    (fun y => 1 * l1w w y.ofLp) _ hcl ⟨join Xb, hXb, fun k => (hstr k).le⟩
    (continuous_const.mul (Bpdn.continuous_l1w w)) r hr hgrow
  have hmin' : ∀ z ∈ (cset q Nd : Set (Coef K M N)), convOp (padD N D) z - join S ∈ sball (sigEquiv c K N) eps →
      1 * l1w w x.ofLp ≤ 1 * l1w w z.ofLp := by
    intro z hz hz1
    have := hmin z ⟨hz, hz1⟩
    simpa [lsObj] using this
  have hg1 := Bpdn.convex_l1w w hw0 _ (convex_cset (K := K) (M := M) (N := N) q Nd) 1 one_pos.le
  have hg0 : ConvexOn ℝ (sball (sigEquiv c K N) eps) (fun _ : Sig (Fin (c + 1)) K N => (0 : ℝ)) :=
    convexOn_const 0 (convex_sball _ eps)
  obtain ⟨l, hl⟩ := exists_multiplier (convOp (padD N D)) (join S)
    (fun y : Coef K M N => 1 * l1w w y.ofLp) (cset q Nd) (fun _ => 0) (sball (sigEquiv c K N) eps) hg1 hg0
    (1 * l1w w x.ofLp) (fun z hz hz1 => by rw [add_zero]; exact hmin' z hz hz1) (join Xb) hXb
    (interior_sball _ eps _ hstr)
  have hsad := tb_saddle (A0 := convOp (padD N D)) (A0T := convOpT (padD N D)) (c0 := join S)
    (g0 := fun _ => (0 : ℝ)) (convOp_adj (padD N D)) (fun y : Coef K M N => 1 * l1w w y.ofLp) (cset q Nd)
    hg0 hg1 x hx hx1 l (fun z hz y hy => by
      have := hl z hz y hy
      linarith)
  obtain ⟨z, hz0, hz1, hzm, h3, -, h4⟩ := tb_iterates (exact_ball (a := a) hN q h2 D S eps he.le w hw0 av)
    (convOp_adj (padD N D)) (fun _ _ => rfl) hg0 hg1 (fun _ _ _ h => h) continuous_const
    (continuous_const.mul (Bpdn.continuous_l1w w)) (closed_sball _ eps) (closed_cset q Nd) o ha hrlx cb (hcb.keeps _) s hp
    ⟨Xf, hs⟩ hsad
  simp only [ContinuousLinearMap.id_apply, sub_zero, zero_add, one_mul] at hz1 hzm h4
  have hl1 : ∀ x : Coef K M N, l1Conv w (part x) = l1w w x.ofLp := fun x => (l1w_part w x).symm
  refine ⟨part z, ⟨(mem_feasConv hN D S eps q z).2 ⟨hz1, hz0⟩, fun Z hZ => ?_⟩, part_tendsto h3, part_tendsto h4⟩
  obtain ⟨h7, h8⟩ := (mem_feasConv hN D S eps q (join Z)).1 hZ
  have := hzm (join Z) h8 h7
  rw [← hl1, ← hl1] at this
  exact this

end Sporco.Conv.TB

namespace Sporco.Conv.LG

open Sporco.Conv.TB Sporco.Conv.Grd

variable {d c : ℕ} {N Nd : Fin d → ℕ} [∀ k, NeZero (N k)] {a : Fin d} {K M : Type*} [Fintype K] [Fintype M]

/-- **C39, iterates of `ConvL1L1Grd`.** Under the hypotheses of `C39_convl1l1grd`, X and the coefficient block of Y
converge themselves, to one and the same minimiser. -/
theorem C39_convl1l1grd_iterates (hN : ∀ n, Nd n ≤ N n) (hN2 : ∀ k, 2 ≤ N k) (q : COpts)
    (h2 : q.noBndry = true → ∀ n, 2 ≤ Nd n)
    (D : Dict c M Nd) (S W : Signal c K N) (hW : ∀ i k p, 0 ≤ W i k p) (lmbda mu : ℝ) (hl : 0 < lmbda)
    (hm : 0 ≤ mu) (w : K × M × Grid N → ℝ) (hw : ∀ i, 0 < w i) (wg : M → ℝ) (hg : ∀ m, 0 ≤ wg m) (av : Bool)
    (o : Opts) (ha : o.autoRho = false) (hrlx : 0 < o.rlx ∧ o.rlx < 2) (cb) (hcb : Bpdn.CallbackReads cb)
    (s : St (Coef K M N) (YY c K M N) (YY c K M N) (AttrTB K M N a)) (hp : 0 < s.rho)
    (hs : s.extra.cc = cacheL q D mu wg s.rho) :
    let T := traj (clsL1L1 a q D S W lmbda mu w wg av) o cb s
    ∃ Xopt, IsMin (objL1L1 D S W lmbda mu w wg) (allowedConv q.nonNeg q.noBndry Nd) Xopt ∧
      ConvTo (fun n => part (T n).X) Xopt ∧ ConvTo (fun n => part (T n).Y.snd) Xopt := by
  intro T
  have hW' : ∀ i, 0 ≤ wA W i := fun i => hW _ _ _
  have hw0 : ∀ i, 0 ≤ w i := fun i => (hw i).le
  obtain ⟨x, hx, hmin⟩ := exists_l1l1 q D S W hW' lmbda mu hl w hw wg
  obtain ⟨l, hsad⟩ := saddle_l1l1 q D S W hW' lmbda mu hl.le w hw0 wg x hx hmin
  have hC := implements_l1l1 (a := a) hN q h2 D S W hW' lmbda hl.le mu hm w hw0 wg hg av
  have hk : CallbackKeeps (CohL (a := a) (K := K) q D mu wg) cb := hcb.keeps _
  have hfst : Continuous fun y : YY c K M N => y.fst :=
    continuous_fst.comp (WithLp.prodContinuousLinearEquiv 2 ℝ (Sig (Fin (c + 1)) K N) (Coef K M N)).continuous
  have hsnd : Continuous fun y : YY c K M N => y.snd :=
    continuous_snd.comp (WithLp.prodContinuousLinearEquiv 2 ℝ (Sig (Fin (c + 1)) K N) (Coef K M N)).continuous
  have hfd : FiniteDimensional ℝ (YY c K M N) :=
    LinearEquiv.finiteDimensional
      (WithLp.prodContinuousLinearEquiv 2 ℝ (Sig (Fin (c + 1)) K N) (Coef K M N)).symm.toLinearEquiv
  have hfc : Continuous (quadE (K := K) (N := N) mu wg) := by
    unfold quadE; fun_prop
  have e : ∀ z : Coef K M N, objL1L1 D S W lmbda mu w wg (part z) = quadE mu wg z + gSum D S W lmbda w z :=
    objL1L1_eq hN hN2 D S W hW' lmbda mu hm w wg hg
  obtain ⟨x, y, u, h0, h3, h4, -⟩ := gen_iterates (P := probL1L1 q D S W hW' lmbda hl.le mu w hw0 wg)
    (fun a b hab => congrArg (fun y : YY c K M N => y.snd) hab) (fun _ _ h => neg_injective h) hfc isClosed_univ
    ((continuous_const.mul ((Bpdn.continuous_l1w (wA W)).comp hfst)).add
      (continuous_const.mul ((Bpdn.continuous_l1w w).comp hsnd)))
    ((isClosed_univ.preimage hfst).inter ((closed_cset q Nd).preimage hsnd)) hC o ha hrlx cb hk s hp hs hsad
  have hfe := h0.feas
  have hy0 : y.fst = convOp (padD N D) x - join S := by
    have := congrArg (fun y : YY c K M N => y.fst) hfe
    change convOp (padD N D) x + -y.fst = join S at this
    rw [← this]; abel
  have hy1 : y.snd = x := by
    have := congrArg (fun y : YY c K M N => y.snd) hfe
    change x + -y.snd = 0 at this
    exact (add_neg_eq_zero.1 this).symm
  have hmem : y.snd ∈ (cset q Nd : Set (Coef K M N)) := h0.ymem.2
  have h5 := (hsnd.tendsto y).comp h4
  rw [hy1] at hmem h5
  refine ⟨part x, ⟨hmem, fun Z hZ => ?_⟩, part_tendsto h3, part_tendsto h5⟩
  have h6 := h0.solution (join Z) (TwoBlock.cat (convOp (padD N D) (join Z) - join S) (join Z)) trivial ⟨trivial, hZ⟩ (by
    change TwoBlock.cat (convOp (padD N D) (join Z)) (join Z) +
      -TwoBlock.cat (convOp (padD N D) (join Z) - join S) (join Z) = TwoBlock.cat (join S) 0
    apply (WithLp.equiv 2 (Sig (Fin (c + 1)) K N × Coef K M N)).injective
    change (convOp (padD N D) (join Z) + -(convOp (padD N D) (join Z) - join S), (join Z : Coef K M N) + -join Z) =
      (join S, 0)
    congr 1 <;> abel)
  change quadE mu wg x + (1 * l1w (wA W) y.fst.ofLp + lmbda * l1w w y.snd.ofLp) ≤
    quadE mu wg (join Z) + (1 * l1w (wA W) (convOp (padD N D) (join Z) - join S).ofLp +
      lmbda * l1w w (join Z : Coef K M N).ofLp) at h6
  rw [hy0, hy1] at h6
  have h7 := e x
  have h8 := e (join Z)
  unfold gSum at h7 h8
  have h9 : objL1L1 D S W lmbda mu w wg (part (join Z : Coef K M N)) = objL1L1 D S W lmbda mu w wg Z := rfl
  rw [← h9, h7, h8]
  exact h6

end Sporco.Conv.LG
