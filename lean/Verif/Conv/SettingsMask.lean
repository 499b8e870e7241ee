import Verif.Conv.Settings
import Verif.Conv.TwoBlock
import Verif.Conv.AddMask
import Verif.Pgm.ConvCert
import Verif.Par.ParExact

/-!
# C95 for the solvers with a mask

`admm.cbpdn.ConvBPDNMaskDcpl`, `admm.cbpdn.AddMaskSim` of `ConvBPDN`, `pgm.cbpdn.ConvBPDNMask` and
`admm.parcbpdn.ParConvBPDN` are four methods for one problem.  The coefficient maps they return may differ, but the
reconstructions from them tend to the same values at every sample the mask keeps.
-/

set_option autoImplicit false
set_option linter.unusedSectionVars false

namespace Sporco.Conv

open Filter Topology Finset ComplexConjugate Sporco.Prox Sporco.Admm
open scoped RealInnerProductSpace

variable {d c : ℕ} {K M : Type} [Fintype K] [Fintype M]
  {Nd N : Fin d → ℕ} [∀ n, NeZero (N n)] {a : Fin d}

/-- The distance of the masked reconstruction from that of a minimiser is at most twice the distance of the objective
from the minimum. -/
theorem mask_growth (hN : ∀ n, Nd n ≤ N n) (q : COpts) (D : Dict c M Nd) (S W : Signal c K N) (lmbda : ℝ)
    (hl : 0 ≤ lmbda) (w : K × M × Grid N → ℝ) (hw : ∀ i, 0 ≤ w i) (Xopt X : K → M → Grid N → ℝ)
    (hopt : IsMin (TB.objMask D S W lmbda w) (allowedConv q.nonNeg q.noBndry Nd) Xopt)
    (hX : X ∈ allowedConv q.nonNeg q.noBndry Nd) :
    ∑ i, ∑ k, ∑ p, (W i k p * (recon D X i k p - recon D Xopt i k p)) ^ 2 ≤
      2 * (TB.objMask D S W lmbda w X - TB.objMask D S W lmbda w Xopt) := by
  have hobj : ∀ z : Coef K M N, lsObj ((PgmConv.mulL W).comp (convOp (padD N D))) (PgmConv.mulL W (join S))
      (fun y : Coef K M N => lmbda * l1w w y.ofLp) z = TB.objMask D S W lmbda w (part z) := by
    intro z
    rw [TB.objMask_eq hN]
    unfold lsObj TB.gMask
    rw [map_sub]
    rfl
  have h5 := ls_growth ((PgmConv.mulL W).comp (convOp (padD N D))) ((convOpT (padD N D)).comp (PgmConv.mulL W))
    (fun x y => by rw [ContinuousLinearMap.comp_apply, PgmConv.mulL_adj, convOp_adj]; rfl) (PgmConv.mulL W (join S))
    (fun y : Coef K M N => lmbda * l1w w y.ofLp) (cset q Nd)
    (Bpdn.convex_l1w w hw _ (convex_cset (K := K) (M := M) (N := N) q Nd) lmbda hl) (join Xopt) hopt.1
    (fun z hz => by
      rw [hobj, hobj]
      exact hopt.2 _ hz) (join X) hX
  rw [hobj, hobj, map_sub, norm_part] at h5
  have e : ∑ i, ∑ j, ∑ p, part ((PgmConv.mulL W).comp (convOp (padD N D)) (join X) -
      (PgmConv.mulL W).comp (convOp (padD N D)) (join Xopt)) i j p ^ 2 =
      ∑ i, ∑ k, ∑ p, (W i k p * (recon D X i k p - recon D Xopt i k p)) ^ 2 := by
    refine Finset.sum_congr rfl fun i _ => Finset.sum_congr rfl fun j _ => Finset.sum_congr rfl fun p _ => ?_
    have e1 := congrFun (convOp_recon hN D (join X) i j) p
    have e2 := congrFun (convOp_recon hN D (join Xopt) i j) p
    have e3 : part ((PgmConv.mulL W).comp (convOp (padD N D)) (join X) -
        (PgmConv.mulL W).comp (convOp (padD N D)) (join Xopt)) i j p =
      W i j p * part (convOp (padD N D) (join X)) i j p - W i j p * part (convOp (padD N D) (join Xopt)) i j p := rfl
    rw [e3, e1, e2, mul_sub]
    rfl
  rw [e] at h5
  have h6 : TB.objMask D S W lmbda w (part (join X)) = TB.objMask D S W lmbda w X := rfl
  have h7 : TB.objMask D S W lmbda w (part (join Xopt)) = TB.objMask D S W lmbda w Xopt := rfl
  rw [h6, h7] at h5
  linarith

/-- Maps that satisfy the constraints and whose objective tends to the minimum have the reconstruction of any minimiser as
their limit where the mask is not zero. -/
theorem mask_limit (hN : ∀ n, Nd n ≤ N n) (q : COpts) (D : Dict c M Nd) (S W : Signal c K N) (lmbda : ℝ)
    (hl : 0 ≤ lmbda) (w : K × M × Grid N → ℝ) (hw : ∀ i, 0 ≤ w i) (Xopt X0 : K → M → Grid N → ℝ)
    (hopt : IsMin (TB.objMask D S W lmbda w) (allowedConv q.nonNeg q.noBndry Nd) Xopt)
    (hX0 : IsMin (TB.objMask D S W lmbda w) (allowedConv q.nonNeg q.noBndry Nd) X0)
    (X : ℕ → K → M → Grid N → ℝ) (hX : ∀ n, 0 < n → X n ∈ allowedConv q.nonNeg q.noBndry Nd)
    (ht : Tendsto (fun n => TB.objMask D S W lmbda w (X n)) atTop (𝓝 (TB.objMask D S W lmbda w X0)))
    (i : Fin (c + 1)) (k : K) (p : Grid N) (hW : W i k p ≠ 0) :
    Tendsto (fun n => recon D (X n) i k p) atTop (𝓝 (recon D Xopt i k p)) := by
  have hval : TB.objMask D S W lmbda w X0 = TB.objMask D S W lmbda w Xopt :=
    le_antisymm (hX0.2 _ hopt.1) (hopt.2 _ hX0.1)
  rw [hval] at ht
  have hz : Tendsto (fun n => 2 * (TB.objMask D S W lmbda w (X n) - TB.objMask D S W lmbda w Xopt)) atTop (𝓝 0) := by
    have := (ht.sub_const (TB.objMask D S W lmbda w Xopt)).const_mul 2
    rwa [sub_self, mul_zero] at this
  have h5 : Tendsto (fun n => |W i k p * (recon D (X n) i k p - recon D Xopt i k p)| ^ 2) atTop (𝓝 0) := by
    refine squeeze_zero' (Eventually.of_forall fun k => sq_nonneg _) ?_ hz
    filter_upwards [eventually_gt_atTop 0] with n hn
    refine le_trans ?_ (mask_growth hN q D S W lmbda hl w hw Xopt (X n) hopt (hX n hn))
    rw [sq_abs]
    refine le_trans ?_ (Finset.single_le_sum
      (f := fun i => ∑ j, ∑ p, (W i j p * (recon D (X n) i j p - recon D Xopt i j p)) ^ 2)
      (fun i _ => Finset.sum_nonneg fun j _ => Finset.sum_nonneg fun p _ => sq_nonneg _) (Finset.mem_univ i))
    refine le_trans ?_ (Finset.single_le_sum
      (f := fun j => ∑ p, (W i j p * (recon D (X n) i j p - recon D Xopt i j p)) ^ 2)
      (fun j _ => Finset.sum_nonneg fun p _ => sq_nonneg _) (Finset.mem_univ k))
    exact Finset.single_le_sum (f := fun p => (W i k p * (recon D (X n) i k p - recon D Xopt i k p)) ^ 2)
      (fun p _ => sq_nonneg _) (Finset.mem_univ p)
  have h6 := (Real.continuous_sqrt.tendsto 0).comp h5
  simp only [Function.comp_def, Real.sqrt_sq (abs_nonneg _), Real.sqrt_zero] at h6
  have h7 := ((tendsto_zero_iff_abs_tendsto_zero _).2 h6).const_mul (W i k p)⁻¹
  simp only [inv_mul_cancel_left₀ hW, mul_zero] at h7
  simpa using h7.add_const (recon D Xopt i k p)

/-- **C95 for `ConvBPDNMaskDcpl`.** Whatever the fixed rho, the relaxation parameter in (0, 2), `HighMemSolve`, `AuxVarObj`
and the start are, the reconstruction from the maps the solver returns tends to the one of any minimiser at every sample
where the mask is not zero. -/
theorem C95_convbpdnmaskdcpl (hN : ∀ n, Nd n ≤ N n) (q : COpts) (h2 : q.noBndry = true → ∀ n, 2 ≤ Nd n)
    (D : Dict c M Nd) (S W : Signal c K N) (lmbda : ℝ) (hl : 0 < lmbda) (w : K × M × Grid N → ℝ)
    (hw : ∀ i, 0 < w i) (av : Bool) (o : Opts) (ha : o.autoRho = false)
    (hrlx : 0 < o.rlx ∧ o.rlx < 2) (cb) (hcb : Bpdn.CallbackReads cb)
    (s : St (Coef K M N) (TB.YY c K M N) (TB.YY c K M N) (TB.AttrTB K M N a)) (hp : 0 < s.rho)
    (Xf : Spec K M N a) (hs : s.extra = TB.setdict q D Xf) (Xopt : K → M → Grid N → ℝ)
    (hopt : IsMin (TB.objMask D S W lmbda w) (allowedConv q.nonNeg q.noBndry Nd) Xopt)
    (i : Fin (c + 1)) (k : K) (p : Grid N) (hW : W i k p ≠ 0) :
    Tendsto (fun n => recon D (part (traj (TB.clsMask a q D S W lmbda w av) o cb s n).Y.snd) i k p) atTop
      (𝓝 (recon D Xopt i k p)) := by
  obtain ⟨X0, h3, h4, -, h5⟩ := TB.C39_convmask hN q h2 D S W lmbda hl w hw av o ha hrlx cb hcb s hp Xf hs
  refine mask_limit hN q D S W lmbda hl.le w (fun i => (hw i).le) Xopt X0 hopt h3 _ (fun n hn => ?_) h4 i k p hW
  obtain ⟨n, rfl⟩ := Nat.exists_eq_succ_of_ne_zero hn.ne'
  exact h5 n

/-- **C95 for `ConvBPDNMask` by PGM**, with the rate: the squared distance of the masked reconstruction is at most
`4 L ‖X₀ - Xopt‖² / (k + 1)²`. -/
theorem C95_convbpdnmask_pgm (hN : ∀ n, Nd n ≤ N n) (q : COpts) (h2 : q.noBndry = true → ∀ n, 2 ≤ Nd n)
    (D : Dict c M Nd) (S : Signal c K N) (lmbda : ℝ) (hl : 0 ≤ lmbda) (w : K × M × Grid N → ℝ)
    (hw : ∀ i, 0 ≤ w i) (W : Signal c K N) (o : Pgm.Opts) (hf : o.fastSolve = false) (hm : o.monotone = false)
    (hb : o.backtrack = .none) (hp : o.policy = .none) (hmom : o.momentum = .nesterov) (cb)
    (hcb : Pgm.CallbackReads cb)
    (s : Pgm.St (Pgm.VarsF (Coef K M N) (PgmConv.HS K M N a)))
    (hs : PgmConv.Fresh (PgmConv.clsBPDNMask a q D S lmbda w W) s)
    (hL : 0 < s.v.L) (hLD : ∀ X : K → M → Grid N → ℝ, PgmConv.maskSq D W X ≤ s.v.L * sumSq X)
    (Xopt : K → M → Grid N → ℝ)
    (hopt : IsMin (TB.objMask D S W lmbda w) (allowedConv q.nonNeg q.noBndry Nd) Xopt) :
    let X := fun k => part (Pgm.traj (Pgm.DFT.ops (PgmConv.clsBPDNMask a q D S lmbda w W) o) o cb s k).v.X
    (∀ n, 1 ≤ n → ∑ i, ∑ k, ∑ p, (W i k p * (recon D (X n) i k p - recon D Xopt i k p)) ^ 2 ≤
      4 * s.v.L * sumSq (fun k m p => part s.v.X k m p - Xopt k m p) / (n + 1) ^ 2) ∧
    ∀ i k p, W i k p ≠ 0 → Tendsto (fun n => recon D (X n) i k p) atTop (𝓝 (recon D Xopt i k p)) := by
  intro X
  have hcert := fun n hn => PgmConv.C45_C68_C69_convbpdnmask_partial hN q h2 D S lmbda hl w hw W o hf hm hb hp hmom cb hcb
    s hs hL hLD Xopt hopt n hn
  have hmem : ∀ n, 1 ≤ n → X n ∈ allowedConv q.nonNeg q.noBndry Nd := fun n hn => (hcert n hn).1
  have hrate : ∀ n, 1 ≤ n → TB.objMask D S W lmbda w (X n) - TB.objMask D S W lmbda w Xopt ≤
      2 * s.v.L * sumSq (fun k m p => part s.v.X k m p - Xopt k m p) / (n + 1) ^ 2 := fun n hn => (hcert n hn).2.1
  refine ⟨fun n hn => ?_, fun i k p hW => ?_⟩
  · refine (mask_growth hN q D S W lmbda hl w hw Xopt (X n) hopt (hmem n hn)).trans ?_
    refine (mul_le_mul_of_nonneg_left (hrate n hn) zero_le_two).trans (le_of_eq ?_)
    ring
  · refine mask_limit hN q D S W lmbda hl w hw Xopt Xopt hopt hopt X hmem ?_ i k p hW
    have hz : Tendsto (fun n : ℕ => TB.objMask D S W lmbda w Xopt +
        2 * s.v.L * sumSq (fun k m p => part s.v.X k m p - Xopt k m p) / ((n : ℝ) + 1) ^ 2) atTop
        (𝓝 (TB.objMask D S W lmbda w Xopt + 0)) := by
      refine tendsto_const_nhds.add (Tendsto.const_div_atTop ?_ _)
      exact (tendsto_pow_atTop two_ne_zero).comp (tendsto_atTop_add_const_right _ 1 tendsto_natCast_atTop_atTop)
    rw [add_zero] at hz
    refine tendsto_of_tendsto_of_tendsto_of_le_of_le' tendsto_const_nhds hz ?_ ?_
    · filter_upwards [eventually_ge_atTop 1] with n hn
      exact hopt.2 _ (hmem n hn)
    · filter_upwards [eventually_ge_atTop 1] with n hn
      have := hrate n hn
      linarith

open Classical in
/-- The mask with value one at the valid samples. -/
noncomputable def maskOf (valid : Fin (c + 1) → K → Grid N → Prop) : Signal c K N :=
  fun i k p => if valid i k p then 1 else 0

theorem objValid_mask (D : Dict c M Nd) (S : Signal c K N) (valid : Fin (c + 1) → K → Grid N → Prop) (lmbda : ℝ)
    (w : K × M × Grid N → ℝ) : Ams.objValid D S valid lmbda w = TB.objMask D S (maskOf valid) lmbda w := by
  funext X
  unfold Ams.objValid TB.objMask PgmConv.maskTerm maskOf
  congr 2
  refine Finset.sum_congr rfl fun i _ => Finset.sum_congr rfl fun k _ => Finset.sum_congr rfl fun p _ => ?_
  by_cases h : valid i k p
  · simp [h]
  · simp [h]

/-- **C95 for `AddMaskSim(ConvBPDN, ...)`**: the reconstruction tends to the one of any minimiser of the masked functional at
every valid sample. -/
theorem C95_addmasksim {C Kn : ℕ} (W : Ams.MaskArr d) (hW : Ams.FullShape c C Kn N W)
    (hN : ∀ n, Nd n ≤ N n) (h0 : ∀ n, 0 < Nd n) (q : COpts) (h2 : q.noBndry = true → ∀ n, 2 ≤ Nd n)
    (D : Dict c M Nd) (S : Signal c (Fin C × Fin Kn) N) (lmbda : ℝ) (hl : 0 < lmbda)
    (w : (Fin C × Fin Kn) × (M ⊕ Fin (c + 1)) × Grid N → ℝ)
    (hw : ∀ i, 0 < w i) (fe ge : Bool) (o : Opts) (ha : o.autoRho = false)
    (hrlx : 0 < o.rlx ∧ o.rlx < 2) (cb) (hcb : Bpdn.CallbackReads cb)
    (s : St (Coef (Fin C × Fin Kn) (M ⊕ Fin (c + 1)) N) (Coef (Fin C × Fin Kn) (M ⊕ Fin (c + 1)) N)
      (Coef (Fin C × Fin Kn) (M ⊕ Fin (c + 1)) N)
      (Attr c (Fin C × Fin Kn) (M ⊕ Fin (c + 1)) Nd N a)) (hp : 0 < s.rho)
    (Xf : Spec (Fin C × Fin Kn) (M ⊕ Fin (c + 1)) N a)
    (hs : s.extra = setdict q S s.rho (Ams.addImp D) Xf) (Xopt : Fin C × Fin Kn → M → Grid N → ℝ)
    (hopt : IsMin (Ams.objValid D S (Ams.validOf W) lmbda (Ams.wl w)) (allowedConv q.nonNeg q.noBndry Nd) Xopt)
    (i : Fin (c + 1)) (k : Fin C × Fin Kn) (p : Grid N) (hv : Ams.validOf W i k p) :
    Tendsto (fun n => recon D (part (Ams.primary
      (traj (Ams.clsAms (Ams.hitOf W) q S lmbda w fe ge) o cb s n).Y)) i k p) atTop (𝓝 (recon D Xopt i k p)) := by
  obtain ⟨X0, h3, h4, h5⟩ := Ams.C39_C59_addmask_partial W hW hN h0 q h2 D S lmbda hl w hw fe ge o ha hrlx cb hcb s hp Xf
    hs
  rw [objValid_mask] at h3 h4 hopt
  refine mask_limit hN q D S (maskOf (Ams.validOf W)) lmbda hl.le (Ams.wl w) (fun i => (hw _).le) Xopt X0 hopt h3 _
    (fun n hn => ?_) h4 i k p ?_
  · obtain ⟨n, rfl⟩ := Nat.exists_eq_succ_of_ne_zero hn.ne'
    exact h5 n
  · unfold maskOf
    rw [if_pos hv]
    exact one_ne_zero

end Sporco.Conv

namespace Sporco.Par.PCbpdn

open Finset Sporco.Conv Sporco.Prox Sporco.Admm Sporco.Par.PConv Filter Topology

variable {d M L : ℕ} {N Nd : Fin d → ℕ} [∀ k, NeZero (N k)] {K : Type} [Fintype K] {a : Fin d}

theorem objMask_tb (P : Prob d M N Nd K) :
    objMask P = TB.objMask P.D (fun _ => P.S) (fun _ => P.W) P.lmbda P.w := by
  funext X
  unfold objMask TB.objMask PgmConv.maskTerm
  rw [Fin.sum_univ_one]

/-- **C95 for `ParConvBPDN`**: for every interleaving, number of groups, rho, alpha and start, the reconstruction from the
maps `solve` returns tends to the one of any minimiser at every sample where the mask is not zero. -/
theorem C95_parconvbpdn {V : Type*} (hN : ∀ n, Nd n ≤ N n) (P : Prob d M N Nd K)
    (h2 : P.q.noBndry = true → ∀ n, 2 ≤ Nd n) (ha : 0 < P.alpha) (hr : 0 < P.rho) (hl : 0 < P.lmbda)
    (hw : ∀ i, 0 < P.w i) (hrlx : 0 < P.rlx ∧ P.rlx < 2) (grp : Fin M → Fin L)
    (sched : ℕ → ℕ → Phase → List (Fin L × (Mem M L (K → Grid N → ℝ) (K → Grid N → ℝ) (ℝ × ℝ) →
      Mem M L (K → Grid N → ℝ) (K → Grid N → ℝ) (ℝ × ℝ))))
    (hsched : ∀ n j p, Interleaving (prog (opsF a P grp) p) (sched n j p)) (comp : Bool)
    (ev : ℕ → Mem M L (K → Grid N → ℝ) (K → Grid N → ℝ) (ℝ × ℝ) → List V)
    (s : ℕ × Mem M L (K → Grid N → ℝ) (K → Grid N → ℝ) (ℝ × ℝ) × List V) (hs : s.1 ≤ 256)
    (Xopt : K → Fin M → Grid N → ℝ)
    (hopt : IsMin (objMask P) (allowedConv P.q.nonNeg P.q.noBndry Nd) Xopt) (k : K) (p : Grid N)
    (hW : P.W k p ≠ 0) :
    Tendsto (fun n => recon P.D (returned P grp a (sched n) comp ev n s) 0 k p) atTop (𝓝 (recon P.D Xopt 0 k p)) := by
  obtain ⟨X0, h3, h4, h5⟩ := C53_convergence hN P h2 ha hr hl hw hrlx grp sched hsched comp ev s hs
  rw [objMask_tb] at h3 h4 hopt
  exact mask_limit hN P.q P.D (fun _ => P.S) (fun _ => P.W) P.lmbda hl.le P.w (fun i => (hw i).le) Xopt X0 hopt h3 _ h5 h4
    0 k p hW

/-- A run of two groups of one filter on a masked signal of four samples has a minimiser, and at each of the samples that are
not masked its reconstruction tends to that of the minimiser, for either order of the workers. -/
example (o : Bool) (p : Grid fun _ : Fin 1 => 4) (hp : (p 0).val ≠ 1) :
    ∃ Xopt, IsMin (objMask prob2) (allowedConv true true fun _ => 2) Xopt ∧
      Tendsto (fun n => recon prob2.D (returned prob2 (fun m : Fin 2 => m) 0
        (fun _ p => sequential (prog (opsF 0 prob2 fun m => m) p) (if o then [0, 1] else [1, 0])) true
        (fun _ _ => ([] : List ℕ)) n (0, ⟨0, 0, 0, 0, 0, 0, 0, 0, 0, 0, 0, 0⟩, [])) 0 0 p) atTop
        (𝓝 (recon prob2.D Xopt 0 0 p)) :=
  have hI := fun (_ _ : ℕ) (p : Phase) => interleaving_sequential (prog (opsF 0 prob2 fun m => m) p)
    (if o then [0, 1] else [1, 0]) (by cases o <;> decide) (by intro k; cases o <;> fin_cases k <;> decide)
  let ⟨x, h1, _, _⟩ := C53_convergence (a := 0) (V := ℕ) (by intro n; simp) prob2 (by intro _ n; rfl)
    (by norm_num [prob2]) (by norm_num [prob2]) (by norm_num [prob2]) (by norm_num [prob2]) (by norm_num [prob2])
    (fun m : Fin 2 => m) _ hI true (fun _ _ => []) (0, ⟨0, 0, 0, 0, 0, 0, 0, 0, 0, 0, 0, 0⟩, []) (by norm_num)
  ⟨x, h1, C95_parconvbpdn (a := 0) (V := ℕ) (by intro n; simp) prob2 (by intro _ n; rfl)
    (by norm_num [prob2]) (by norm_num [prob2]) (by norm_num [prob2]) (by norm_num [prob2]) (by norm_num [prob2])
    (fun m : Fin 2 => m) _ hI true (fun _ _ => []) (0, ⟨0, 0, 0, 0, 0, 0, 0, 0, 0, 0, 0, 0⟩, []) (by norm_num) x h1 0 p
    (by simp [prob2, hp])⟩

end Sporco.Par.PCbpdn
