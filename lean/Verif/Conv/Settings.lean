import Verif.Admm.Settings
import Verif.Conv.Iterates
import Verif.Pgm.ConvRate

/-!
# C95 for the convolutional solvers

`ConvBPDN` by ADMM and by PGM tend to the same reconstruction whatever their settings are, and `ConvElasticNet` with
positive `mu` to the same coefficient maps.
-/

set_option autoImplicit false
set_option linter.unusedSectionVars false

namespace Sporco.Conv

open Filter Topology Finset ComplexConjugate Sporco.Prox Sporco.Admm
open scoped RealInnerProductSpace

variable {d c : ℕ} {K M : Type} [Fintype K] [Fintype M]
  {Nd N : Fin d → ℕ} [∀ n, NeZero (N n)] {a : Fin d}

/-- The reconstruction of tending coefficient maps tends. -/
theorem convTo_recon (hN : ∀ n, Nd n ≤ N n) (D : Dict c M Nd) {X : ℕ → K → M → Grid N → ℝ} {L : K → M → Grid N → ℝ}
    (h : ConvTo X L) : ConvTo (fun n => recon D (X n)) (recon D L) := by
  intro i k p
  have e : ∀ Z : K → M → Grid N → ℝ, recon D Z i k p = ∑ m, rconv (pad N (D i m)) (Z k m) p := by
    intro Z
    unfold recon
    simp only [rconv_pad hN]
  simp only [e]
  refine tendsto_finsetSum _ fun m _ => ?_
  unfold rconv
  exact tendsto_finsetSum _ fun j _ => (h k m _).const_mul _

/-- **C95 for `ConvBPDN` by ADMM.** Whatever the fixed rho, the relaxation parameter in (0, 2), `HighMemSolve`, the evaluation
options and the start are, the reconstruction from the coefficient maps the solver returns tends to the one of any minimiser. -/
theorem C95_convbpdn_admm (hN : ∀ n, Nd n ≤ N n) (q : COpts) (h2 : q.noBndry = true → ∀ n, 2 ≤ Nd n)
    (D : Dict c M Nd) (S : Signal c K N) (lmbda : ℝ) (hl : 0 < lmbda) (w : K × M × Grid N → ℝ)
    (hw : ∀ i, 0 < w i) (fe ge : Bool) (o : Opts) (ha : o.autoRho = false)
    (hrlx : 0 < o.rlx ∧ o.rlx < 2) (cb) (hcb : Bpdn.CallbackReads cb)
    (s : St (Coef K M N) (Coef K M N) (Coef K M N) (Attr c K M Nd N a)) (hp : 0 < s.rho)
    (Xf : Spec K M N a) (hs : s.extra = setdict q S s.rho D Xf) (Xopt : K → M → Grid N → ℝ)
    (hopt : IsMin (objConv D S lmbda w) (allowedConv q.nonNeg q.noBndry Nd) Xopt) :
    ConvTo (fun n => recon D (part (traj (clsConvBPDN q S lmbda w fe ge) o cb s n).Y)) (recon D Xopt) := by
  obtain ⟨X, hX, -, h3⟩ := C39_convbpdn_iterates hN q h2 D S lmbda hl w hw fe ge o ha hrlx cb hcb s hp Xf hs
  rw [← recon_unique hN q D S lmbda hl.le w (fun i => (hw i).le) hX hopt]
  exact convTo_recon hN D h3

/-- **C95 for `ConvBPDN` by PGM.** From any start and with any L at least the largest squared singular value of the
convolution operator the reconstruction tends to the same array, with the distance bounded by
`4 L ‖X₀ - Xopt‖² / (k + 1)²`. -/
theorem C95_convbpdn_pgm (hN : ∀ n, Nd n ≤ N n) (q : COpts) (h2 : q.noBndry = true → ∀ n, 2 ≤ Nd n)
    (D : Dict c M Nd) (S : Signal c K N) (lmbda : ℝ) (hl : 0 ≤ lmbda) (w : K × M × Grid N → ℝ)
    (hw : ∀ i, 0 ≤ w i) (o : Pgm.Opts) (hb : o.backtrack = .none) (hp : o.policy = .none)
    (hmom : o.momentum = .nesterov) (hm : o.monotone = false) (cb) (hcb : Pgm.CallbackReads cb)
    (s : Pgm.St (Pgm.VarsF (Coef K M N) (PgmConv.HS K M N a))) (hs : PgmConv.Fresh (PgmConv.clsBPDN a q D S lmbda w) s)
    (hL : 0 < s.v.L) (hLD : ∀ X : K → M → Grid N → ℝ, PgmConv.reconSq D X ≤ s.v.L * sumSq X)
    (Xopt : K → M → Grid N → ℝ)
    (hopt : IsMin (objConv D S lmbda w) (allowedConv q.nonNeg q.noBndry Nd) Xopt) :
    let X := fun k => part (Pgm.traj (Pgm.DFT.ops (PgmConv.clsBPDN a q D S lmbda w) o) o cb s k).v.X
    (∀ k, 1 ≤ k → ∑ i, ∑ j, ∑ p, (recon D (X k) i j p - recon D Xopt i j p) ^ 2 ≤
      4 * s.v.L * sumSq (fun k m p => part s.v.X k m p - Xopt k m p) / (k + 1) ^ 2) ∧
    ConvTo (fun k => recon D (X k)) (recon D Xopt) := by
  intro X
  set C := sumSq (fun k m p => part s.v.X k m p - Xopt k m p) with hC
  have key : ∀ k, 1 ≤ k → ∑ i, ∑ j, ∑ p, (recon D (X k) i j p - recon D Xopt i j p) ^ 2 ≤
      4 * s.v.L * C / (k + 1) ^ 2 := by
    intro k hk
    obtain ⟨h3, h4, -⟩ := PgmConv.C45_convbpdn hN q h2 D S lmbda hl w hw o hb hp hmom hm cb hcb s hs hL hLD Xopt hopt k hk
    have h5 := ls_growth (convOp (padD N D)) (convOpT (padD N D)) (convOp_adj (padD N D)) (join S)
      (fun y : Coef K M N => lmbda * l1w w y.ofLp) (cset q Nd)
      (Bpdn.convex_l1w w hw _ (convex_cset (K := K) (M := M) (N := N) q Nd) lmbda hl) (join Xopt) hopt.1
      (fun z hz => by
        rw [lsObj_conv hN, lsObj_conv hN]
        exact hopt.2 _ hz) (join (X k)) h3
    rw [lsObj_conv hN, lsObj_conv hN, map_sub, norm_part] at h5
    have e : ∑ i, ∑ j, ∑ p, part (convOp (padD N D) (join (X k)) - convOp (padD N D) (join Xopt)) i j p ^ 2 =
        ∑ i, ∑ j, ∑ p, (recon D (X k) i j p - recon D Xopt i j p) ^ 2 := by
      refine Finset.sum_congr rfl fun i _ => Finset.sum_congr rfl fun j _ => Finset.sum_congr rfl fun p _ => ?_
      have e1 := congrFun (convOp_recon hN D (join (X k)) i j) p
      have e2 := congrFun (convOp_recon hN D (join Xopt) i j) p
      have e3 : part (convOp (padD N D) (join (X k)) - convOp (padD N D) (join Xopt)) i j p =
        part (convOp (padD N D) (join (X k))) i j p - part (convOp (padD N D) (join Xopt)) i j p := rfl
      rw [e3, e1, e2]
      rfl
    rw [e] at h5
    have h6 := h5.trans h4
    have h7 : ∑ i, ∑ j, ∑ p, (recon D (X k) i j p - recon D Xopt i j p) ^ 2 ≤ 2 * (2 * s.v.L * C / (k + 1) ^ 2) := by
      linarith
    refine h7.trans (le_of_eq ?_)
    ring
  refine ⟨key, fun i j p => ?_⟩
  have hz : Tendsto (fun k : ℕ => 4 * s.v.L * C / ((k : ℝ) + 1) ^ 2) atTop (𝓝 0) := by
    refine Tendsto.const_div_atTop ?_ _
    exact (tendsto_pow_atTop two_ne_zero).comp (tendsto_atTop_add_const_right _ 1 tendsto_natCast_atTop_atTop)
  have h5 : Tendsto (fun k => |recon D (X k) i j p - recon D Xopt i j p| ^ 2) atTop (𝓝 0) := by
    refine squeeze_zero' (Eventually.of_forall fun k => sq_nonneg _) ?_ hz
    filter_upwards [eventually_ge_atTop 1] with k hk
    refine le_trans ?_ (key k hk)
    rw [sq_abs]
    refine le_trans ?_ (Finset.single_le_sum (f := fun i => ∑ j, ∑ p, (recon D (X k) i j p - recon D Xopt i j p) ^ 2)
      (fun i _ => Finset.sum_nonneg fun j _ => Finset.sum_nonneg fun p _ => sq_nonneg _) (Finset.mem_univ i))
    refine le_trans ?_ (Finset.single_le_sum (f := fun j => ∑ p, (recon D (X k) i j p - recon D Xopt i j p) ^ 2)
      (fun j _ => Finset.sum_nonneg fun p _ => sq_nonneg _) (Finset.mem_univ j))
    exact Finset.single_le_sum (f := fun p => (recon D (X k) i j p - recon D Xopt i j p) ^ 2)
      (fun p _ => sq_nonneg _) (Finset.mem_univ p)
  have h6 := (Real.continuous_sqrt.tendsto 0).comp h5
  simp only [Function.comp_def, Real.sqrt_sq (abs_nonneg _), Real.sqrt_zero] at h6
  have h7 := (tendsto_zero_iff_abs_tendsto_zero _).2 h6
  simpa using h7.add_const (recon D Xopt i j p)

/-- **C95 for `ConvElasticNet`** when no component is cached: with positive `mu` the functional has one minimiser, and X and Y
tend to it whatever the settings and the start are. -/
theorem C95_convelasticnet (hN : ∀ n, Nd n ≤ N n) (q : COpts) (hq : q.caches c = false)
    (h2 : q.noBndry = true → ∀ n, 2 ≤ Nd n)
    (D : Dict c M Nd) (S : Signal c K N) (lmbda mu : ℝ) (hl : 0 < lmbda) (hm : 0 < mu)
    (w : K × M × Grid N → ℝ) (hw : ∀ i, 0 < w i) :
    ∃ Xopt, IsMin (objConvEN D S lmbda mu w) (allowedConv q.nonNeg q.noBndry Nd) Xopt ∧
      (∀ Z, IsMin (objConvEN D S lmbda mu w) (allowedConv q.nonNeg q.noBndry Nd) Z → Z = Xopt) ∧
      ∀ (fe ge : Bool) (o : Opts), o.autoRho = false → 0 < o.rlx ∧ o.rlx < 2 → ∀ cb, Bpdn.CallbackReads cb →
        ∀ s : St (Coef K M N) (Coef K M N) (Coef K M N) (Attr c K M Nd N a), 0 < s.rho →
          ∀ Xf : Spec K M N a, s.extra = setdictEN q S mu s.rho D Xf →
            let T := traj (clsConvEN q S lmbda mu w fe ge) o cb s
            ConvTo (fun n => part (T n).X) Xopt ∧ ConvTo (fun n => part (T n).Y) Xopt := by
  have hobj := lsObj_conven hN D S lmbda mu hm.le w
  have hcg := Bpdn.convex_l1w w (fun i => (hw i).le) _ (convex_cset (K := K) (M := M) (N := N) q Nd) lmbda hl.le
  obtain ⟨r, hr, hgrow⟩ := Bpdn.l1w_grow w hw lmbda hl
  obtain ⟨x, hx, hmin⟩ := ls_exists_min (cenL D mu) (cenB S)
    (fun y : Coef K M N => lmbda * l1w w y.ofLp) (cset q Nd) (closed_cset q Nd)
    ⟨0, zero_cset q Nd⟩ (continuous_const.mul (Bpdn.continuous_l1w w)) r hr hgrow
  have hxm : IsMin (objConvEN D S lmbda mu w) (allowedConv q.nonNeg q.noBndry Nd) (part x) := by
    refine ⟨hx, fun Z hZ => ?_⟩
    have := hmin (join Z) hZ
    rw [hobj, hobj] at this
    exact this
  have huniq : ∀ Z, IsMin (objConvEN D S lmbda mu w) (allowedConv q.nonNeg q.noBndry Nd) Z → Z = part x := by
    intro Z hZ
    have h1 := ls_growth (cenL D mu) (cenLT D mu) (cenL_adj D mu) (cenB S) (fun y : Coef K M N => lmbda * l1w w y.ofLp)
      (cset q Nd) hcg x hx hmin (join Z) hZ.1
    rw [hobj, hobj] at h1
    have h2 := hZ.2 _ hxm.1
    have h2' : objConvEN D S lmbda mu w (part (join Z)) ≤ objConvEN D S lmbda mu w (part x) := h2
    have h3 : ‖cenL D mu (join Z - x)‖ ^ 2 = ‖convOp (padD N D) (join Z - x)‖ ^ 2 + ‖Real.sqrt mu • (join Z - x)‖ ^ 2 :=
      WithLp.prod_norm_sq_eq_of_L2 _
    rw [h3, norm_smul, mul_pow, Real.norm_of_nonneg (Real.sqrt_nonneg _), Real.sq_sqrt hm.le] at h1
    have h4 := sq_nonneg ‖convOp (padD N D) (join Z - x)‖
    have h5 : mu * ‖join Z - x‖ ^ 2 ≤ 0 := by linarith
    have h6 : ‖join Z - x‖ ^ 2 = 0 := le_antisymm (by nlinarith) (sq_nonneg _)
    have h7 : join Z - x = 0 := by simpa using h6
    exact congrArg part (sub_eq_zero.1 h7)
  refine ⟨part x, hxm, huniq, fun fe ge o ha hrlx cb hcb s hp Xf hs => ?_⟩
  obtain ⟨X, hX, h1, h2⟩ := C39_convelasticnet_iterates hN q hq h2 D S lmbda mu hl hm.le w hw fe ge o ha hrlx cb hcb s hp
    Xf hs
  rw [huniq X hX] at h1 h2
  exact ⟨h1, h2⟩

end Sporco.Conv
