import Verif.Admm.BpdnIter
import Verif.Conv.CbpdnJoint

/-!
# C39, C94: iterates of `ConvBPDN`, `ConvElasticNet` and `ConvBPDNJoint`
-/

set_option autoImplicit false
set_option linter.unusedSectionVars false

namespace Sporco.Conv

open Finset ComplexConjugate Sporco.Linalg Sporco.Prox Sporco.Admm Filter Topology
open scoped RealInnerProductSpace

variable {d c : ℕ} {N Nd : Fin d → ℕ} [∀ k, NeZero (N k)] {a : Fin d} {K M L : Type*} [Fintype K]
  [Fintype M] [Fintype L]

/-! ## Specification -/

/-- A sequence of coefficient maps converges, entry by entry. -/
def ConvTo (X : ℕ → K → M → Grid N → ℝ) (Z : K → M → Grid N → ℝ) : Prop :=
  ∀ k m p, Tendsto (fun n => X n k m p) atTop (𝓝 (Z k m p))

/-- Correlation of filter `m` with the arrays `R` of signal `k` at position `p`, summed over the channels. -/
def correl (D : Dict c M Nd) (R : Signal c K N) (k : K) (m : M) (p : Grid N) : ℝ :=
  ∑ i, ∑ t, D i m t * R i k (p + fun n => ((t n).val : ZMod (N n)))

/-- A coefficient is strictly inactive at `X`: the correlation of its filter with the residual at its position is strictly
below the threshold (and, without a sign constraint, strictly above minus the threshold). -/
def Inactive (D : Dict c M Nd) (S : Signal c K N) (lmbda : ℝ) (w : K × M × Grid N → ℝ) (nonNeg : Bool)
    (X : K → M → Grid N → ℝ) (k : K) (m : M) (p : Grid N) : Prop :=
  correl D (fun i k p => S i k p - recon D X i k p) k m p < lmbda * w (k, m, p) ∧
    (nonNeg = false → -(lmbda * w (k, m, p)) < correl D (fun i k p => S i k p - recon D X i k p) k m p)

/-! ## Convergence of the iterates -/

theorem part_tendsto {x : ℕ → Coef K M N} {l : Coef K M N} (h : Tendsto x atTop (𝓝 l)) :
    ConvTo (fun n => part (x n)) (part l) := fun k m p =>
  (((EuclideanSpace.proj (k, m, p) : Coef K M N →L[ℝ] ℝ).continuous).tendsto l).comp h

theorem conv_iter (hN : ∀ n, Nd n ≤ N n) (q : COpts) (h2 : q.noBndry = true → ∀ n, 2 ≤ Nd n)
    (D : Dict c M Nd) (S : Signal c K N) (lmbda : ℝ) (hl : 0 < lmbda) (w : K × M × Grid N → ℝ)
    (hw : ∀ i, 0 < w i) (fe ge : Bool) (o : Opts) (ha : o.autoRho = false)
    (hrlx : 0 < o.rlx ∧ o.rlx < 2) (cb) (hcb : Bpdn.CallbackReads cb)
    (s : St (Coef K M N) (Coef K M N) (Coef K M N) (Attr c K M Nd N a)) (hp : 0 < s.rho)
    (Xf : Spec K M N a) (hs : s.extra = setdict q S s.rho D Xf) :
    let T := traj (clsConvBPDN q S lmbda w fe ge) o cb s
    ∃ x u : Coef K M N, IsMin (objConv D S lmbda w) (allowedConv q.nonNeg q.noBndry Nd) (part x) ∧
      s.rho • u = -convOpT (padD N D) (convOp (padD N D) x - join S) ∧
      Tendsto (fun n => (T n).X) atTop (𝓝 x) ∧ Tendsto (fun n => (T n).Y) atTop (𝓝 x) ∧
      Tendsto (fun n => (T n).U) atTop (𝓝 u) := by
  have hcg := Bpdn.convex_l1w w (fun i => (hw i).le) _ (convex_cset (K := K) (M := M) (N := N) q Nd) lmbda hl.le
  obtain ⟨r, hr, hgrow⟩ := Bpdn.l1w_grow w hw lmbda hl
  have hex := ls_exists_min (convOp (padD N D)) (join S)
    (fun y : Coef K M N => lmbda * l1w w y.ofLp) (cset q Nd) (closed_cset q Nd)
    ⟨0, zero_cset q Nd⟩ (continuous_const.mul (Bpdn.continuous_l1w w)) r hr hgrow
  have himp : Implements (clsConvBPDN q S lmbda w fe ge)
      (lsProblem (convOp (padD N D)) (join S) (fun y : Coef K M N => lmbda * l1w w y.ofLp)
        (cset q Nd) hcg) (Coh (a := a) q D S) :=
    implements_conv q D S _ _ hcg _ (fun _ _ _ _ _ _ => rfl) _ fun rho AX X Y U h hp =>
      ystep_conv_min q h2 hN lmbda hl.le w (fun i => (hw i).le) rho hp AX X Y U h
  obtain ⟨x, u, hx, hmin, hu, h3, h4, h5⟩ := ls_iterates (convOp (padD N D)) (convOpT (padD N D))
    (convOp_adj (padD N D)) (join S) (fun y : Coef K M N => lmbda * l1w w y.ofLp) (cset q Nd) hcg
    (continuous_const.mul (Bpdn.continuous_l1w w)) (closed_cset q Nd)
    (clsConvBPDN q S lmbda w fe ge) (Coh (a := a) q D S) himp o ha hrlx cb (hcb.keeps _) s hp ⟨Xf, hs⟩ hex
  refine ⟨x, u, ⟨hx, fun Z hZ => ?_⟩, hu, h3, h4, h5⟩
  have := hmin (join Z) hZ
  rw [lsObj_conv hN, lsObj_conv hN] at this
  exact this

/-- **C39, iterates of `ConvBPDN`.** For every dictionary (single or multi-channel) and signal, positive `lmbda` and weights,
with or without `NonNegCoef`, `NoBndryCross`, `HighMemSolve`, fixed rho, relaxation parameter in (0, 2), from any start: X and
Y themselves converge, to one and the same minimiser. -/
theorem C39_convbpdn_iterates (hN : ∀ n, Nd n ≤ N n) (q : COpts) (h2 : q.noBndry = true → ∀ n, 2 ≤ Nd n)
    (D : Dict c M Nd) (S : Signal c K N) (lmbda : ℝ) (hl : 0 < lmbda) (w : K × M × Grid N → ℝ)
    (hw : ∀ i, 0 < w i) (fe ge : Bool) (o : Opts) (ha : o.autoRho = false)
    (hrlx : 0 < o.rlx ∧ o.rlx < 2) (cb) (hcb : Bpdn.CallbackReads cb)
    (s : St (Coef K M N) (Coef K M N) (Coef K M N) (Attr c K M Nd N a)) (hp : 0 < s.rho)
    (Xf : Spec K M N a) (hs : s.extra = setdict q S s.rho D Xf) :
    let T := traj (clsConvBPDN q S lmbda w fe ge) o cb s
    ∃ Xopt, IsMin (objConv D S lmbda w) (allowedConv q.nonNeg q.noBndry Nd) Xopt ∧
      ConvTo (fun n => part (T n).X) Xopt ∧ ConvTo (fun n => part (T n).Y) Xopt := by
  obtain ⟨x, u, h0, -, h3, h4, -⟩ := conv_iter hN q h2 D S lmbda hl w hw fe ge o ha hrlx cb hcb s hp Xf hs
  exact ⟨part x, h0, part_tendsto h3, part_tendsto h4⟩

/-- **C39, iterates of `ConvElasticNet`** when no component is cached. -/
theorem C39_convelasticnet_iterates (hN : ∀ n, Nd n ≤ N n) (q : COpts) (hq : q.caches c = false)
    (h2 : q.noBndry = true → ∀ n, 2 ≤ Nd n)
    (D : Dict c M Nd) (S : Signal c K N) (lmbda mu : ℝ) (hl : 0 < lmbda) (hm : 0 ≤ mu)
    (w : K × M × Grid N → ℝ) (hw : ∀ i, 0 < w i) (fe ge : Bool) (o : Opts) (ha : o.autoRho = false)
    (hrlx : 0 < o.rlx ∧ o.rlx < 2) (cb) (hcb : Bpdn.CallbackReads cb)
    (s : St (Coef K M N) (Coef K M N) (Coef K M N) (Attr c K M Nd N a)) (hp : 0 < s.rho)
    (Xf : Spec K M N a) (hs : s.extra = setdictEN q S mu s.rho D Xf) :
    let T := traj (clsConvEN q S lmbda mu w fe ge) o cb s
    ∃ Xopt, IsMin (objConvEN D S lmbda mu w) (allowedConv q.nonNeg q.noBndry Nd) Xopt ∧
      ConvTo (fun n => part (T n).X) Xopt ∧ ConvTo (fun n => part (T n).Y) Xopt := by
  have hcg := Bpdn.convex_l1w w (fun i => (hw i).le) _ (convex_cset (K := K) (M := M) (N := N) q Nd) lmbda hl.le
  obtain ⟨r, hr, hgrow⟩ := Bpdn.l1w_grow w hw lmbda hl
  have hex := ls_exists_min (cenL D mu) (cenB S)
    (fun y : Coef K M N => lmbda * l1w w y.ofLp) (cset q Nd) (closed_cset q Nd)
    ⟨0, zero_cset q Nd⟩ (continuous_const.mul (Bpdn.continuous_l1w w)) r hr hgrow
  obtain ⟨x, u, hx, hmin, -, h3, h4, -⟩ := ls_iterates (cenL D mu) (cenLT D mu) (cenL_adj D mu) (cenB S)
    (fun y : Coef K M N => lmbda * l1w w y.ofLp) (cset q Nd) hcg
    (continuous_const.mul (Bpdn.continuous_l1w w)) (closed_cset q Nd)
    (clsConvEN q S lmbda mu w fe ge) (fun rho => Coh (a := a) q D S (mu + rho))
    (implements_conven (a := a) q hq h2 hN D S lmbda mu hl.le hm w (fun i => (hw i).le) fe ge)
    o ha hrlx cb (hcb.keeps _) s hp ⟨Xf, hs⟩ hex
  refine ⟨part x, ⟨hx, fun Z hZ => ?_⟩, part_tendsto h3, part_tendsto h4⟩
  have := hmin (join Z) hZ
  rw [lsObj_conven hN D S lmbda mu hm, lsObj_conven hN D S lmbda mu hm] at this
  exact this

/-- **C39, iterates of `ConvBPDNJoint`** without `NonNegCoef`. -/
theorem C39_convjoint_iterates (hN : ∀ n, Nd n ≤ N n) (q : COpts) (hq : q.nonNeg = false)
    (h2 : q.noBndry = true → ∀ n, 2 ≤ Nd n)
    (D : Dict c M Nd) (S : Signal c (L × K) N) (lmbda mu : ℝ) (hl : 0 < lmbda) (hm : 0 ≤ mu)
    (w : (L × K) × M × Grid N → ℝ) (hw : ∀ i, 0 < w i) (wl21 : ℝ) (hv : 0 ≤ wl21) (fe ge : Bool)
    (o : Opts) (ha : o.autoRho = false)
    (hrlx : 0 < o.rlx ∧ o.rlx < 2) (cb) (hcb : Bpdn.CallbackReads cb)
    (s : St (Coef (L × K) M N) (Coef (L × K) M N) (Coef (L × K) M N) (Attr c (L × K) M Nd N a))
    (hp : 0 < s.rho) (Xf : Spec (L × K) M N a) (hs : s.extra = setdict q S s.rho D Xf) :
    let T := traj (clsConvJnt q S lmbda mu w wl21 fe ge) o cb s
    ∃ Xopt, IsMin (objConvJnt D S lmbda mu w wl21) (allowedConv false q.noBndry Nd) Xopt ∧
      ConvTo (fun n => part (T n).X) Xopt ∧ ConvTo (fun n => part (T n).Y) Xopt := by
  have hcg := convex_gCJnt lmbda mu hl.le hm w (fun i => (hw i).le) wl21 hv _
    (convex_cset (K := L × K) (M := M) (N := N) q Nd)
  obtain ⟨r, hr, hgrow⟩ := Bpdn.l1w_grow w hw lmbda hl
  have hsum : ∀ y : Coef (L × K) M N, 0 ≤ mu * wl21 * ∑ s, l2 (fib y s) := fun y =>
    mul_nonneg (mul_nonneg hm hv) (Finset.sum_nonneg fun i _ => l2_nonneg _)
  have hex := ls_exists_min (convOp (padD N D)) (join S)
    (gCJnt lmbda mu w wl21) (cset q Nd) (closed_cset q Nd)
    ⟨0, zero_cset q Nd⟩ (continuous_gCJnt lmbda mu w wl21) r hr (fun y => by
      unfold gCJnt; have := hgrow y; have := hsum y; linarith)
  have himp : Implements (clsConvJnt q S lmbda mu w wl21 fe ge)
      (lsProblem (convOp (padD N D)) (join S) (gCJnt lmbda mu w wl21)
        (cset q Nd) hcg) (Coh (a := a) q D S) :=
    implements_conv q D S _ _ hcg _ (fun _ _ _ _ _ _ => rfl) _ fun rho AX X Y U h hp =>
      ystep_cjnt_min q hq h2 hN lmbda mu hl.le hm w (fun i => (hw i).le) wl21 hv rho hp AX X Y U h
  have hI : Coh q D S s.rho s.extra := ⟨Xf, hs⟩
  have hck : CallbackKeeps (Coh q D S) cb := hcb.keeps _
  obtain ⟨x, u, hx, hmin, -, h3, h4, -⟩ := ls_iterates (convOp (K := L × K) (padD N D))
    (convOpT (K := L × K) (padD N D)) (convOp_adj (K := L × K) (padD N D)) (join S)
    (gCJnt lmbda mu w wl21) (cset q Nd) hcg (continuous_gCJnt lmbda mu w wl21) (closed_cset q Nd)
    (clsConvJnt q S lmbda mu w wl21 fe ge) (Coh (a := a) q D S) himp o ha hrlx cb hck s hp hI hex
  have hset : ∀ Z, Z ∈ allowedConv false q.noBndry Nd → join Z ∈ (cset q Nd : Set (Coef (L × K) M N)) :=
    fun Z hZ => ⟨fun hn => by simp [hq] at hn, hZ.2⟩
  refine ⟨part x, ⟨⟨fun hn => by simp at hn, hx.2⟩, fun Z hZ => ?_⟩, part_tendsto h3, part_tendsto h4⟩
  have := hmin (join Z) (hset Z hZ)
  rw [lsObj_cjnt hN, lsObj_cjnt hN] at this
  exact this

/-! ## Inactive coefficients -/

theorem rcorr_pad (hN : ∀ k, Nd k ≤ N k) (h : NArr Nd ℝ) (x : Grid N → ℝ) (p : Grid N) :
    rcorr (pad N h) x p = ∑ t, h t * x (p + fun n => ((t n).val : ZMod (N n))) := by
  unfold rcorr
  simp only [pad_eq hN, sum_mul, ite_mul, zero_mul]
  rw [sum_comm]
  refine sum_congr rfl fun i _ => ?_
  rw [sum_ite_eq univ, if_pos (mem_univ _)]

theorem convOp_recon (hN : ∀ n, Nd n ≤ N n) (D : Dict c M Nd) (x : Coef K M N) (i : Fin (c + 1)) (k : K) :
    part (convOp (padD N D) x) i k = recon D (part x) i k := by
  funext p
  change ∑ m, rconv (pad N (D i m)) (part x k m) p = ∑ m, filt (D i m) (part x k m) p
  simp only [rconv_pad hN]

/-- Where Y is not zero after an iteration, U sits at the threshold. -/
theorem dual_at_threshold (q : COpts) (S : Signal c K N) (lmbda : ℝ) (w : K × M × Grid N → ℝ) (fe ge : Bool)
    (o : Opts) (ha : o.autoRho = false) (cb)
    (s : St (Coef K M N) (Coef K M N) (Coef K M N) (Attr c K M Nd N a)) (hp : 0 < s.rho) (n : ℕ) (i : K × M × Grid N)
    (h : (traj (clsConvBPDN q S lmbda w fe ge) o cb s (n + 1)).Y i ≠ 0) :
    s.rho * (traj (clsConvBPDN q S lmbda w fe ge) o cb s (n + 1)).U i = lmbda * w i ∨
    (q.nonNeg = false ∧ s.rho * (traj (clsConvBPDN q S lmbda w fe ge) o cb s (n + 1)).U i = -(lmbda * w i)) := by
  set T := traj (clsConvBPDN q S lmbda w fe ge) o cb s with hT
  have hstep := oneIter_steps (clsConvBPDN q S lmbda w fe ge) o ha cb (T n)
  have hY : (T (n + 1)).Y = (steps (clsConvBPDN q S lmbda w fe ge) o (T n)).Y := by rw [hT, traj_succ]; exact hstep.2.1
  have hU : (T (n + 1)).U = (steps (clsConvBPDN q S lmbda w fe ge) o (T n)).U := by rw [hT, traj_succ]; exact hstep.2.2.1
  have hrho : (T n).rho = s.rho := traj_rho _ o ha cb s n
  set V := (steps (clsConvBPDN q S lmbda w fe ge) o (T n)).AX + (T n).U with hV
  have hY' : (steps (clsConvBPDN q S lmbda w fe ge) o (T n)).Y =
      WithLp.toLp 2 (gystep q Nd (proxL1Arr V.ofLp fun i => lmbda / (T n).rho * w i)) := rfl
  have hU' : (steps (clsConvBPDN q S lmbda w fe ge) o (T n)).U =
      V - (steps (clsConvBPDN q S lmbda w fe ge) o (T n)).Y := by
    have : (steps (clsConvBPDN q S lmbda w fe ge) o (T n)).U = Equal.ustep
      (steps (clsConvBPDN q S lmbda w fe ge) o (T n)).AX (steps (clsConvBPDN q S lmbda w fe ge) o (T n)).Y (T n).U := rfl
    rw [this]
    unfold Equal.ustep Equal.rsdlR
    rw [hV]; abel
  have hUi : (T (n + 1)).U i = V i - (T (n + 1)).Y i := by
    rw [hU, hU', hY]; rfl
  have hYi : (T (n + 1)).Y i = gystep q Nd (proxL1Arr V.ofLp fun i => lmbda / s.rho * w i) i := by
    rw [hY, hY', hrho]
  have hcl : ∀ y : K × M × Grid N → ℝ, (if q.nonNeg then clip y else y) i =
      if q.nonNeg then (if y i < 0 then 0 else y i) else y i := by
    intro y; cases q.nonNeg <;> rfl
  have hYmk : (T (n + 1)).Y i = if q.nonNeg then (if proxL1 (V i) (lmbda / s.rho * w i) < 0 then 0
      else proxL1 (V i) (lmbda / s.rho * w i)) else proxL1 (V i) (lmbda / s.rho * w i) := by
    rw [hYi] at h ⊢
    unfold gystep at h ⊢
    simp only at h ⊢
    cases hb : q.noBndry
    · rw [if_neg (by simp), hcl]; rfl
    · rw [hb, if_pos rfl, zeroTail_apply] at h
      rw [if_pos rfl, zeroTail_apply]
      by_cases h1 : ∃ n, sliceStart (1 - (Nd n : ℤ)) (N n) ≤ (i.2.2 n).val
      · rw [if_pos h1] at h
        exact absurd rfl h
      · rw [if_neg h1, hcl]; rfl
  have e : s.rho * (lmbda / s.rho * w i) = lmbda * w i := by field_simp
  rw [hYmk] at h
  rcases Bpdn.shrink_dual q.nonNeg _ _ h with h1 | ⟨h0, h1⟩
  · left
    rw [hUi, hYmk, h1, e]
  · right
    refine ⟨h0, ?_⟩
    rw [hUi, hYmk, h0]
    simp only [Bool.false_eq_true, if_false]
    rw [h1, mul_neg, e]

/-- Two minimisers have the same reconstruction. -/
theorem recon_unique (hN : ∀ n, Nd n ≤ N n) (q : COpts) (D : Dict c M Nd) (S : Signal c K N) (lmbda : ℝ)
    (hl : 0 ≤ lmbda) (w : K × M × Grid N → ℝ) (hw : ∀ i, 0 ≤ w i)
    {X Z : K → M → Grid N → ℝ} (hX : IsMin (objConv D S lmbda w) (allowedConv q.nonNeg q.noBndry Nd) X)
    (hZ : IsMin (objConv D S lmbda w) (allowedConv q.nonNeg q.noBndry Nd) Z) : recon D X = recon D Z := by
  have hg := Bpdn.convex_l1w w hw _ (convex_cset (K := K) (M := M) (N := N) q Nd) lmbda hl
  have hx : join X ∈ (cset q Nd : Set (Coef K M N)) := hX.1
  have hz : join Z ∈ (cset q Nd : Set (Coef K M N)) := hZ.1
  have hmem := hg.1 hx hz (by norm_num : (0 : ℝ) ≤ 1 / 2) (by norm_num : (0 : ℝ) ≤ 1 / 2) (by norm_num)
  have h1 := hg.2 hx hz (by norm_num : (0 : ℝ) ≤ 1 / 2) (by norm_num : (0 : ℝ) ≤ 1 / 2) (by norm_num)
  have h2 := hX.2 (part ((1 / 2 : ℝ) • join X + (1 / 2 : ℝ) • join Z)) hmem
  have h3 := hZ.2 X hX.1
  have e1 := lsObj_conv hN D S lmbda w (join X)
  have e2 := lsObj_conv hN D S lmbda w (join Z)
  have e3 := lsObj_conv hN D S lmbda w ((1 / 2 : ℝ) • join X + (1 / 2 : ℝ) • join Z)
  have pX : part (join X) = X := rfl
  have pZ : part (join Z) = Z := rfl
  rw [pX] at e1
  rw [pZ] at e2
  rw [← e1, ← e3] at h2
  rw [← e1, ← e2] at h3
  unfold lsObj at h2 h3
  simp only [smul_eq_mul] at h1
  set α := convOp (padD N D) (join X) - join S with hadef
  set β := convOp (padD N D) (join Z) - join S with hbdef
  have e4 : convOp (padD N D) ((1 / 2 : ℝ) • join X + (1 / 2 : ℝ) • join Z) - join S = (1 / 2 : ℝ) • (α + β) := by
    rw [map_add, map_smul, map_smul, hadef, hbdef]; module
  rw [e4, norm_smul, mul_pow] at h2
  have h5 := parallelogram_law_with_norm ℝ α β
  have h6 : ‖α - β‖ ^ 2 ≤ 0 := by
    rw [Real.norm_of_nonneg (by norm_num : (0 : ℝ) ≤ 1 / 2)] at h2
    nlinarith
  have h7 : α - β = 0 := by
    rw [← norm_eq_zero]; exact pow_eq_zero_iff two_ne_zero |>.1 (le_antisymm h6 (sq_nonneg _))
  have h8 : convOp (padD N D) (join X) = convOp (padD N D) (join Z) := by
    have : α - β = convOp (padD N D) (join X) - convOp (padD N D) (join Z) := by rw [hadef, hbdef]; abel
    exact sub_eq_zero.1 (this ▸ h7)
  funext i k
  rw [← pX, ← pZ, ← convOp_recon hN, ← convOp_recon hN, h8]

/-- **C94.** For every dictionary and signal, positive `lmbda` and weights, with or without `NonNegCoef`, `NoBndryCross`,
`HighMemSolve`, fixed rho, relaxation parameter in (0, 2), from any start: there is an iteration of `ConvBPDN` from which on
every coefficient that is strictly inactive at a minimiser is exactly zero in the array `solve()` returns. It does not matter
which minimiser is taken. -/
theorem C94_convbpdn (hN : ∀ n, Nd n ≤ N n) (q : COpts) (h2 : q.noBndry = true → ∀ n, 2 ≤ Nd n)
    (D : Dict c M Nd) (S : Signal c K N) (lmbda : ℝ) (hl : 0 < lmbda) (w : K × M × Grid N → ℝ)
    (hw : ∀ i, 0 < w i) (fe ge : Bool) (o : Opts) (ha : o.autoRho = false)
    (hrlx : 0 < o.rlx ∧ o.rlx < 2) (cb) (hcb : Bpdn.CallbackReads cb)
    (s : St (Coef K M N) (Coef K M N) (Coef K M N) (Attr c K M Nd N a)) (hp : 0 < s.rho)
    (Xf : Spec K M N a) (hs : s.extra = setdict q S s.rho D Xf) (Xopt : K → M → Grid N → ℝ)
    (hopt : IsMin (objConv D S lmbda w) (allowedConv q.nonNeg q.noBndry Nd) Xopt) :
    ∃ n0, ∀ n ≥ n0, ∀ k m p, Inactive D S lmbda w q.nonNeg Xopt k m p →
      part (traj (clsConvBPDN q S lmbda w fe ge) o cb s n).Y k m p = 0 := by
  obtain ⟨x, u, h0, hu, -, -, hU⟩ := conv_iter hN q h2 D S lmbda hl w hw fe ge o ha hrlx cb hcb s hp Xf hs
  set T := traj (clsConvBPDN q S lmbda w fe ge) o cb s with hT
  have hrec := recon_unique hN q D S lmbda hl.le w (fun i => (hw i).le) h0 hopt
  have hcorr : ∀ k m p, s.rho * u (k, m, p) = correl D (fun i k p => S i k p - recon D Xopt i k p) k m p := by
    intro k m p
    have h1 : (s.rho • u) (k, m, p) = (-convOpT (padD N D) (convOp (padD N D) x - join S)) (k, m, p) := by rw [hu]
    have h3 : (s.rho • u) (k, m, p) = s.rho * u (k, m, p) := rfl
    rw [h3] at h1
    rw [h1]
    change -(∑ i, rcorr (pad N (D i m)) (part (convOp (padD N D) x - join S) i k) p) = _
    unfold correl
    rw [← Finset.sum_neg_distrib]
    refine Finset.sum_congr rfl fun i _ => ?_
    rw [rcorr_pad hN, ← Finset.sum_neg_distrib]
    refine Finset.sum_congr rfl fun t _ => ?_
    have h4 : ∀ r, part (convOp (padD N D) x - join S) i k r = recon D Xopt i k r - S i k r := by
      intro r
      rw [← hrec, ← convOp_recon hN]; rfl
    rw [h4]; ring
  have hev : ∀ j : K × M × Grid N, ∀ᶠ n in atTop,
      Inactive D S lmbda w q.nonNeg Xopt j.1 j.2.1 j.2.2 → (T (n + 1)).Y j = 0 := by
    rintro ⟨k, m, p⟩
    by_cases hin : Inactive D S lmbda w q.nonNeg Xopt k m p
    · have h1 : Tendsto (fun n => s.rho * (T (n + 1)).U (k, m, p)) atTop (𝓝 (s.rho * u (k, m, p))) :=
        ((((EuclideanSpace.proj (k, m, p) : Coef K M N →L[ℝ] ℝ).continuous).tendsto u).comp
          ((tendsto_add_atTop_iff_nat 1).2 hU)).const_mul _
      rw [hcorr] at h1
      have h2 := h1.eventually (gt_mem_nhds hin.1)
      have h3 : ∀ᶠ n in atTop, q.nonNeg = false → -(lmbda * w (k, m, p)) < s.rho * (T (n + 1)).U (k, m, p) := by
        by_cases hb : q.nonNeg = false
        · filter_upwards [h1.eventually (lt_mem_nhds (hin.2 hb))] with n hn _ using hn
        · exact Eventually.of_forall fun n h => absurd h hb
      filter_upwards [h2, h3] with n hn2 hn3 _
      by_contra hne
      rcases dual_at_threshold q S lmbda w fe ge o ha cb s hp n (k, m, p) hne with h | ⟨hb, h⟩
      · rw [← hT] at h; linarith
      · rw [← hT] at h
        have := hn3 hb
        linarith
    · exact Eventually.of_forall fun n h => absurd h hin
  obtain ⟨n0, hn0⟩ := eventually_atTop.1 (eventually_all.2 hev)
  refine ⟨n0 + 1, fun n hn k m p hin => ?_⟩
  obtain ⟨j, rfl⟩ : ∃ j, n = j + 1 := ⟨n - 1, by omega⟩
  exact hn0 j (by omega) (k, m, p) hin

/-- Below the thresholds the zero array is a minimiser. -/
theorem zero_min (hN : ∀ n, Nd n ≤ N n) (q : COpts) (D : Dict c M Nd) (S : Signal c K N) (lmbda : ℝ)
    (w : K × M × Grid N → ℝ)
    (hc : ∀ k m p, correl D S k m p < lmbda * w (k, m, p) ∧ (q.nonNeg = false → -(lmbda * w (k, m, p)) < correl D S k m p)) :
    IsMin (objConv D S lmbda w) (allowedConv q.nonNeg q.noBndry Nd) (0 : K → M → Grid N → ℝ) := by
  refine ⟨⟨fun _ _ _ _ => le_rfl, fun _ _ _ _ _ => rfl⟩, fun Z hZ => ?_⟩
  have e1 := lsObj_conv hN D S lmbda w (join Z)
  have e0 := lsObj_conv hN D S lmbda w (0 : Coef K M N)
  have p0 : part (0 : Coef K M N) = (0 : K → M → Grid N → ℝ) := rfl
  have pZ : part (join Z) = Z := rfl
  rw [p0] at e0
  rw [pZ] at e1
  rw [← e0, ← e1]
  unfold lsObj
  have hq := quad1 (convOp (padD N D)) (join S) (0 : Coef K M N) (join Z)
  have h0 : l1w w (0 : Coef K M N).ofLp = 0 := by simp [l1w]
  have hin : ⟪join S, convOp (padD N D) (join Z)⟫ = ∑ i : K × M × Grid N, correl D S i.1 i.2.1 i.2.2 * (join Z) i := by
    rw [real_inner_comm, convOp_adj, PiLp.inner_apply]
    refine Finset.sum_congr rfl fun i _ => ?_
    change (∑ j, rcorr (pad N (D j i.2.1)) (S j i.1) i.2.2) * (join Z) i = _
    unfold correl
    simp only [rcorr_pad hN]
  have hle : ∑ i : K × M × Grid N, correl D S i.1 i.2.1 i.2.2 * (join Z) i ≤ lmbda * l1w w (join Z).ofLp := by
    unfold l1w
    rw [Finset.mul_sum]
    refine Finset.sum_le_sum fun i _ => ?_
    have h1 := hc i.1 i.2.1 i.2.2
    have hx : (join Z) i = Z i.1 i.2.1 i.2.2 := rfl
    rw [Real.norm_eq_abs, ← mul_assoc]
    rcases le_or_gt 0 ((join Z) i) with hz | hz
    · rw [abs_of_nonneg hz]
      exact mul_le_mul_of_nonneg_right h1.1.le hz
    · have hb : q.nonNeg = false := by
        cases h : q.nonNeg
        · rfl
        · have := hZ.1 h i.1 i.2.1 i.2.2
          rw [hx] at hz; linarith
      have h2 := h1.2 hb
      rw [abs_of_neg hz]
      nlinarith
  beta_reduce
  rw [h0]
  rw [sub_zero, map_zero, zero_sub, inner_neg_left, norm_neg] at hq
  rw [map_zero, zero_sub, norm_neg]
  have := sq_nonneg ‖convOp (padD N D) (join Z)‖
  linarith

/-- **C94.** When every correlation of a filter with a signal is strictly below the threshold, the array returned by
`ConvBPDN` is exactly zero after finitely many iterations. -/
theorem C94_convbpdn_zero (hN : ∀ n, Nd n ≤ N n) (q : COpts) (h2 : q.noBndry = true → ∀ n, 2 ≤ Nd n)
    (D : Dict c M Nd) (S : Signal c K N) (lmbda : ℝ) (hl : 0 < lmbda) (w : K × M × Grid N → ℝ)
    (hw : ∀ i, 0 < w i) (fe ge : Bool) (o : Opts) (ha : o.autoRho = false)
    (hrlx : 0 < o.rlx ∧ o.rlx < 2) (cb) (hcb : Bpdn.CallbackReads cb)
    (s : St (Coef K M N) (Coef K M N) (Coef K M N) (Attr c K M Nd N a)) (hp : 0 < s.rho)
    (Xf : Spec K M N a) (hs : s.extra = setdict q S s.rho D Xf)
    (hc : ∀ k m p, correl D S k m p < lmbda * w (k, m, p) ∧ (q.nonNeg = false → -(lmbda * w (k, m, p)) < correl D S k m p)) :
    ∃ n0, ∀ n ≥ n0, (traj (clsConvBPDN q S lmbda w fe ge) o cb s n).Y = 0 := by
  obtain ⟨n0, hn0⟩ := C94_convbpdn hN q h2 D S lmbda hl w hw fe ge o ha hrlx cb hcb s hp Xf hs 0
    (zero_min hN q D S lmbda w hc)
  refine ⟨n0, fun n hn => ?_⟩
  ext ⟨k, m, p⟩
  refine hn0 n hn k m p ?_
  have h0 : recon D (0 : K → M → Grid N → ℝ) = 0 := by
    funext i k p
    simp [recon, filt]
  unfold Inactive
  rw [h0]
  simp only [Pi.zero_apply, sub_zero]
  exact hc k m p

/-- The hypotheses are met for every dictionary and signal with `lmbda` large enough, unit weights. -/
example (q : COpts) (D : Dict c M Nd) (S : Signal c K N) : ∃ lmbda > 0, ∀ k m p,
    correl D S k m p < lmbda * (fun _ => 1 : K × M × Grid N → ℝ) (k, m, p) ∧
    (q.nonNeg = false → -(lmbda * (fun _ => 1 : K × M × Grid N → ℝ) (k, m, p)) < correl D S k m p) := by
  have hnn : ∀ i : K × M × Grid N, 0 ≤ |correl D S i.1 i.2.1 i.2.2| := fun i => abs_nonneg _
  refine ⟨1 + ∑ i : K × M × Grid N, |correl D S i.1 i.2.1 i.2.2|,
    by have := Finset.sum_nonneg fun i (_ : i ∈ (Finset.univ : Finset (K × M × Grid N))) => hnn i; linarith, fun k m p => ?_⟩
  have h := Finset.single_le_sum (fun i _ => hnn i) (Finset.mem_univ (k, m, p))
  have h' : |correl D S k m p| ≤ ∑ i : K × M × Grid N, |correl D S i.1 i.2.1 i.2.2| := h
  have h1 := le_abs_self (correl D S k m p)
  have h2 := neg_abs_le (correl D S k m p)
  simp only [mul_one]
  exact ⟨by linarith, fun _ => by linarith⟩

end Sporco.Conv
