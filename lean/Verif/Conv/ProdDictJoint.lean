import Verif.Conv.ProdDictThm
import Verif.Conv.CbpdnJoint

/-!
# `ConvProdDictBPDNJoint`: theorems (C39, C40, C67)
-/

set_option autoImplicit false
set_option linter.unusedSectionVars false

namespace Sporco.Conv.PD

open Finset ComplexConjugate Sporco.Linalg Sporco.Prox Sporco.Admm Sporco.Conv Filter Topology
open scoped RealInnerProductSpace

variable {d c : ℕ} {N Nd : Fin d → ℕ} [∀ k, NeZero (N k)] {a : Fin d} {K L M : Type*} [Fintype K]
  [Fintype L] [Fintype M] [DecidableEq L]

/-- The `ConvProdDictBPDNJoint` functional:
`(1/2) ‖D X Bᵀ - S‖² + λ ‖X‖₁ + μ ‖X‖_{2,1}`, the groups of the last term running along the channel axis of X. -/
noncomputable def objPDJ (D : Dict 0 M Nd) (B : Matrix (Fin (c + 1)) L ℝ) (S : Signal c K N) (lmbda mu : ℝ)
    (w : K × (L × M) × Grid N → ℝ) (X : K → L × M → Grid N → ℝ) : ℝ :=
  dataPD D B S X + lmbda * ∑ k, ∑ j, ∑ p, w (k, j, p) * |X k j p| +
    mu * ∑ k, ∑ m, ∑ p, Real.sqrt (∑ l, X k (l, m) p ^ 2)

/-- The channels at one position. -/
def fibP (y : Coef K (L × M) N) (s : K × M × Grid N) : L → ℝ := fun l => y (s.1, (l, s.2.1), s.2.2)

/-- The regulariser. -/
noncomputable def gJ (lmbda mu : ℝ) (w : K × (L × M) × Grid N → ℝ) (y : Coef K (L × M) N) : ℝ :=
  lmbda * l1w w y.ofLp + mu * ∑ s : K × M × Grid N, l2 (fibP y s)

theorem convex_gJ (lmbda mu : ℝ) (hl : 0 ≤ lmbda) (hm : 0 ≤ mu) (w : K × (L × M) × Grid N → ℝ)
    (hw : ∀ i, 0 ≤ w i) (C : Set (Coef K (L × M) N)) (hC : Convex ℝ C) :
    ConvexOn ℝ C (gJ (K := K) (M := M) (N := N) (L := L) lmbda mu w) := by
  refine ⟨hC, fun x _ y _ a b ha hb hab => ?_⟩
  have h1 := (Bpdn.convex_l1w w hw Set.univ convex_univ lmbda hl).2 (Set.mem_univ x) (Set.mem_univ y) ha hb hab
  have h2 : ∀ i, l2 (fibP (a • x + b • y) i) ≤ a * l2 (fibP x i) + b * l2 (fibP y i) := by
    intro i
    rw [Bpdn.l2_norm, Bpdn.l2_norm, Bpdn.l2_norm]
    have e : (WithLp.toLp 2 (fibP (a • x + b • y) i) : EuclideanSpace ℝ L) =
      a • WithLp.toLp 2 (fibP x i) + b • WithLp.toLp 2 (fibP y i) := rfl
    rw [e]
    refine (norm_add_le _ _).trans (le_of_eq ?_)
    rw [norm_smul, norm_smul, Real.norm_of_nonneg ha, Real.norm_of_nonneg hb]
  have h3 := Finset.sum_le_sum fun i (_ : i ∈ Finset.univ) => h2 i
  rw [Finset.sum_add_distrib, ← Finset.mul_sum, ← Finset.mul_sum] at h3
  have h4 := mul_le_mul_of_nonneg_left h3 hm
  simp only [smul_eq_mul] at h1 ⊢
  unfold gJ
  linarith

theorem continuous_gJ (lmbda mu : ℝ) (w : K × (L × M) × Grid N → ℝ) :
    Continuous (gJ (K := K) (M := M) (N := N) (L := L) lmbda mu w) := by
  unfold gJ
  refine (continuous_const.mul (Bpdn.continuous_l1w w)).add (continuous_const.mul
    (continuous_finsetSum _ fun i _ => ?_))
  unfold l2 Prox.sq
  refine Real.continuous_sqrt.comp (continuous_finsetSum _ fun j _ => ?_)
  exact ((EuclideanSpace.proj (i.1, (j, i.2.1), i.2.2) : Coef K (L × M) N →L[ℝ] ℝ).continuous).norm.pow 2

theorem sum_fib (f : K × (L × M) × Grid N → ℝ) :
    ∑ i, f i = ∑ s : K × M × Grid N, ∑ l : L, f (s.1, (l, s.2.1), s.2.2) := by
  simp only [Fintype.sum_prod_type]
  refine Finset.sum_congr rfl fun k _ => ?_
  rw [Finset.sum_comm]
  refine Finset.sum_congr rfl fun m _ => ?_
  rw [Finset.sum_comm]

/-- The Y update, with or without `NoBndryCross`, without `NonNegCoef`. -/
theorem ystepJ_min (q : COpts) (hq : q.nonNeg = false) (h2 : q.noBndry = true → ∀ n, 2 ≤ Nd n)
    (hN : ∀ n, Nd n ≤ N n) (lmbda mu : ℝ) (hl : 0 ≤ lmbda) (hm : 0 ≤ mu)
    (w : K × (L × M) × Grid N → ℝ) (hw : ∀ i, 0 ≤ w i) (rho : ℝ)
    (hr : 0 < rho) (AX X Y U : Coef K (L × M) N) (h : AttrP c K L M Nd N a) :
    let y := (ystepJ q lmbda mu w rho AX X Y U h).1
    y ∈ (cset q Nd : Set (Coef K (L × M) N)) ∧ ∀ z ∈ (cset q Nd : Set (Coef K (L × M) N)),
      gJ lmbda mu w y + rho / 2 * ‖AX - y + U‖ ^ 2 ≤ gJ lmbda mu w z + rho / 2 * ‖AX - z + U‖ ^ 2 := by
  classical
  intro y
  let al : K × M × Grid N → L → ℝ := fun s l => lmbda / rho * w (s.1, (l, s.2.1), s.2.2)
  let be : ℝ := mu / rho
  let phi : K × M × Grid N → (L → ℝ) → ℝ := fun s x =>
    proxObj (fun y => l1w (al s) y + be * l2 y) (fibP (AX + U) s) x
  let y0 : K × M × Grid N → L → ℝ := fun s => proxSl1l2 (fibP (AX + U) s) (al s) be
  have hmin := C19_prox_sl1l2 (σ := K × M × Grid N) (fun i => fibP (AX + U) i) al (fun _ => be)
    (fun i j => mul_nonneg (by positivity) (hw _)) (fun _ => by positivity)
  have e : ∀ z : Coef K (L × M) N, gJ lmbda mu w z + rho / 2 * ‖AX - z + U‖ ^ 2 =
      rho * ∑ s, phi s (fibP z s) := by
    intro z
    have h1 : ‖AX - z + U‖ ^ 2 = ∑ s, Prox.sq (fibP z s - fibP (AX + U) s) := by
      rw [show AX - z + U = -(z - (AX + U)) by abel, norm_neg, EuclideanSpace.norm_sq_eq, sum_fib]
      rfl
    have h2 : l1w w z.ofLp = ∑ s : K × M × Grid N, ∑ l, w (s.1, (l, s.2.1), s.2.2) * ‖fibP z s l‖ := by
      unfold l1w; rw [sum_fib]; rfl
    have h3 : ∀ s, l1w (al s) (fibP z s) = lmbda / rho * ∑ l, w (s.1, (l, s.2.1), s.2.2) * ‖fibP z s l‖ := by
      intro s; unfold l1w; rw [Finset.mul_sum]
      refine Finset.sum_congr rfl fun j _ => ?_
      simp only [al]; ring
    simp only [phi, gJ, proxObj]
    rw [h1, h2]
    simp only [h3, be]
    rw [Finset.mul_sum, Finset.mul_sum, Finset.mul_sum, Finset.mul_sum, ← Finset.sum_add_distrib,
      ← Finset.sum_add_distrib]
    refine Finset.sum_congr rfl fun i _ => ?_
    field_simp
    ring
  have hy : ∀ s, fibP y s = if q.noBndry = true ∧ crosses Nd s.2.2 then 0 else y0 s := by
    intro s
    funext l
    have e : y.ofLp = gystep q Nd fun p => y0 (p.1, p.2.1.2, p.2.2) p.2.1.1 := rfl
    change y.ofLp (s.1, (l, s.2.1), s.2.2) = _
    rw [e]
    unfold gystep
    rw [hq]
    by_cases hb : q.noBndry = true
    · simp only [hb, if_true, true_and, Bool.false_eq_true, if_false]
      rw [zeroTail_crosses Nd (h2 hb) hN]
      split_ifs <;> rfl
    · simp [hb]
  have hmem : y ∈ (cset q Nd : Set (Coef K (L × M) N)) := by
    refine ⟨fun hn => by simp [hq] at hn, fun hb k m p hc => ?_⟩
    have := congrFun (hy (k, m.2, p)) m.1
    rw [if_pos ⟨hb, hc⟩] at this
    exact this
  refine ⟨hmem, fun z hz => ?_⟩
  rw [e, e]
  refine mul_le_mul_of_nonneg_left ?_ hr.le
  let z' : K × M × Grid N → L → ℝ := fun s => if q.noBndry = true ∧ crosses Nd s.2.2 then y0 s else fibP z s
  have hle : ∑ s, phi s (y0 s) ≤ ∑ s, phi s (z' s) := by
    by_cases he : z' = y0
    · rw [he]
    · exact (hmin.2 z' trivial he).le
  have hd : ∑ s, phi s (fibP y s) - ∑ s, phi s (fibP z s) = ∑ s, phi s (y0 s) - ∑ s, phi s (z' s) := by
    rw [← Finset.sum_sub_distrib, ← Finset.sum_sub_distrib]
    refine Finset.sum_congr rfl fun s _ => ?_
    by_cases hc : q.noBndry = true ∧ crosses Nd s.2.2
    · have h1 : fibP z s = 0 := by
        funext l
        exact hz.2 hc.1 s.1 (l, s.2.1) s.2.2 hc.2
      have h2 : z' s = y0 s := if_pos hc
      rw [hy, if_pos hc, h1, h2]; ring
    · have h2 : z' s = fibP z s := if_neg hc
      rw [hy, if_neg hc, h2]
  linarith

theorem l2_fib (y : Coef K (L × M) N) :
    ∑ s : K × M × Grid N, l2 (fibP y s) = ∑ k, ∑ m, ∑ p, Real.sqrt (∑ l, part y k (l, m) p ^ 2) := by
  simp only [Fintype.sum_prod_type]
  refine Finset.sum_congr rfl fun k _ => Finset.sum_congr rfl fun m _ => Finset.sum_congr rfl fun p _ => ?_
  unfold l2 Prox.sq
  congr 1
  refine Finset.sum_congr rfl fun l _ => ?_
  rw [Real.norm_eq_abs, sq_abs]; rfl

theorem lsObj_pdj (hN : ∀ n, Nd n ≤ N n) (D : Dict 0 M Nd) (B : Matrix (Fin (c + 1)) L ℝ) (S : Signal c K N)
    (lmbda mu : ℝ) (w : K × (L × M) × Grid N → ℝ) (y : Coef K (L × M) N) :
    lsObj (convOp (padD N (prodDict B D))) (join S) (gJ lmbda mu w) y = objPDJ D B S lmbda mu w (part y) := by
  unfold lsObj objPDJ gJ
  rw [← data_prod, dataTerm_eq hN, ← l1w_part, l2_fib]
  ring

/-- The Y update as a function of the arrays. -/
noncomputable def ysJ (q : COpts) (Nd : Fin d → ℕ) (lmbda mu : ℝ) (w : K × (L × M) × Grid N → ℝ) (rho : ℝ)
    (AX U : Coef K (L × M) N) : Coef K (L × M) N :=
  WithLp.toLp 2 (gystep q Nd fun p =>
    proxSl1l2 (fun l => (AX + U).ofLp (p.1, (l, p.2.1.2), p.2.2))
      (fun l => lmbda / rho * w (p.1, (l, p.2.1.2), p.2.2)) (mu / rho) p.2.1.1)

/-- The class with the multi-channel dictionary that makes the same iterations. -/
noncomputable def clsCJ (q : COpts) (S : Signal c K N) (lmbda mu : ℝ) (w : K × (L × M) × Grid N → ℝ) (fe ge : Bool) :
    Cls (Coef K (L × M) N) (Coef K (L × M) N) (Coef K (L × M) N) (Attr c K (L × M) Nd N a) :=
  Cls.equal Conv.xstep (fun rho AX _ _ U h => (ysJ q Nd lmbda mu w rho AX U, h)) (Conv.rhochange (q.mem false))
    fun X Y h =>
      let f := Conv.dfd S fe Y h
      let r := regJ lmbda mu w (Bpdn.gvar ge X Y)
      (f + r, f, r)

theorem sim_clsPDJ {eigh : Eigh L} (he : EighOk eigh) (q : COpts) (D : Dict 0 M Nd) (B : Matrix (Fin (c + 1)) L ℝ)
    (S : Signal c K N) (lmbda mu : ℝ) (w : K × (L × M) × Grid N → ℝ) (fe ge : Bool) :
    ClsSim (toConv q S) (clsPDJ (Nd := Nd) (a := a) q S lmbda mu w fe ge) (clsCJ q S lmbda mu w fe ge)
      (Coh eigh q D B S) :=
  sim_pd he q D B S (fun rho AX _ _ U => ysJ q Nd lmbda mu w rho AX U) _ _ fun rho X Y h hc => by
    simp only [dfd_sim hc]

theorem keeps_clsPDJ (eigh : Eigh L) (q : COpts) (D : Dict 0 M Nd) (B : Matrix (Fin (c + 1)) L ℝ)
    (S : Signal c K N) (lmbda mu : ℝ) (w : K × (L × M) × Grid N → ℝ) (fe ge : Bool) :
    Keeps (clsPDJ (Nd := Nd) (a := a) q S lmbda mu w fe ge) (Coh eigh q D B S) :=
  keeps_pd eigh q D B S _ (fun _ _ _ _ _ _ => rfl) _

theorem nonneg_gJ (lmbda mu : ℝ) (hl : 0 ≤ lmbda) (hm : 0 ≤ mu) (w : K × (L × M) × Grid N → ℝ)
    (hw : ∀ i, 0 ≤ w i) (y : Coef K (L × M) N) : 0 ≤ gJ lmbda mu w y := by
  have h1 : 0 ≤ mu * ∑ s, l2 (fibP y s) := mul_nonneg hm (Finset.sum_nonneg fun i _ => l2_nonneg _)
  have h2 : 0 ≤ lmbda * l1w w y.ofLp := mul_nonneg hl
    (Finset.sum_nonneg fun i _ => mul_nonneg (hw i) (norm_nonneg _))
  unfold gJ
  linarith

theorem implements_cj (hN : ∀ n, Nd n ≤ N n) (q : COpts) (hq : q.nonNeg = false)
    (h2 : q.noBndry = true → ∀ n, 2 ≤ Nd n) (D : Dict c (L × M) Nd) (S : Signal c K N) (lmbda mu : ℝ) (hl : 0 ≤ lmbda)
    (hm : 0 ≤ mu) (w : K × (L × M) × Grid N → ℝ) (hw : ∀ i, 0 ≤ w i) (fe ge : Bool) (h0 : AttrP c K L M Nd N a) :
    Implements (clsCJ (Nd := Nd) (a := a) q S lmbda mu w fe ge)
      (lsProblem (convOp (padD N D)) (join S) (gJ lmbda mu w) (cset q Nd)
        (convex_gJ lmbda mu hl hm w hw _ (convex_cset (K := K) (M := L × M) (N := N) q Nd)))
      (Conv.Coh (a := a) (q.mem false) D S) :=
  implements_conv (q.mem false) D S _ _ _ _ (fun _ _ _ _ _ _ => rfl) _ fun rho AX X Y U _ hp =>
    ystepJ_min q hq h2 hN lmbda mu hl hm w hw rho hp AX X Y U h0

theorem conv_cj (hN : ∀ n, Nd n ≤ N n) (q : COpts) (hq : q.nonNeg = false)
    (h2 : q.noBndry = true → ∀ n, 2 ≤ Nd n) (D : Dict c (L × M) Nd) (S : Signal c K N) (lmbda mu : ℝ) (hl : 0 < lmbda)
    (hm : 0 ≤ mu) (w : K × (L × M) × Grid N → ℝ) (hw : ∀ i, 0 < w i) (fe ge : Bool) (h0 : AttrP c K L M Nd N a)
    (o : Opts) (ha : o.autoRho = false) (hrlx : 0 < o.rlx ∧ o.rlx < 2)
    (s : St (Coef K (L × M) N) (Coef K (L × M) N) (Coef K (L × M) N) (Attr c K (L × M) Nd N a))
    (hp : 0 < s.rho) (hI : Conv.Coh (a := a) (q.mem false) D S s.rho s.extra) :
    ∃ x ∈ (cset q Nd : Set (Coef K (L × M) N)),
      (∀ z ∈ (cset q Nd : Set (Coef K (L × M) N)), lsObj (convOp (padD N D)) (join S) (gJ lmbda mu w) x ≤
        lsObj (convOp (padD N D)) (join S) (gJ lmbda mu w) z) ∧
      Tendsto (fun n => lsObj (convOp (padD N D)) (join S) (gJ lmbda mu w)
        (traj (clsCJ q S lmbda mu w fe ge) o none s n).Y) atTop
        (𝓝 (lsObj (convOp (padD N D)) (join S) (gJ lmbda mu w) x)) ∧
      ∀ n, (traj (clsCJ q S lmbda mu w fe ge) o none s (n + 1)).Y ∈ (cset q Nd : Set (Coef K (L × M) N)) := by
  have hcg := convex_gJ lmbda mu hl.le hm w (fun i => (hw i).le) _
    (convex_cset (K := K) (M := L × M) (N := N) q Nd)
  obtain ⟨r, hr, hgrow⟩ := Bpdn.l1w_grow w hw lmbda hl
  obtain ⟨x, hx, hmin⟩ := ls_exists_min (convOp (padD N D)) (join S)
    (gJ lmbda mu w) (cset q Nd) (closed_cset q Nd)
    ⟨0, zero_cset q Nd⟩ (continuous_gJ lmbda mu w) r hr (fun y => by
      have h1 : 0 ≤ mu * ∑ s, l2 (fibP y s) := mul_nonneg hm (Finset.sum_nonneg fun i _ => l2_nonneg _)
      unfold gJ; have := hgrow y; linarith)
  have himp := implements_cj (a := a) hN q hq h2 D S lmbda mu hl.le hm w (fun i => (hw i).le) fe ge h0
  have hrd : Bpdn.CallbackReads (none : Option (St (Coef K (L × M) N) (Coef K (L × M) N) (Coef K (L × M) N)
      (Attr c K (L × M) Nd N a) → Bool × Attr c K (L × M) Nd N a)) := by intro f t hf; cases hf
  have hck : CallbackKeeps (Conv.Coh (a := a) (q.mem false) D S) none := hrd.keeps _
  have hconv := ls_convergence (convOp (K := K) (padD N D)) (convOpT (K := K) (padD N D))
    (convOp_adj (K := K) (padD N D)) (join S)
    (gJ lmbda mu w) (cset q Nd) hcg (fun y _ => nonneg_gJ lmbda mu hl.le hm w (fun i => (hw i).le) y)
    (clsCJ q S lmbda mu w fe ge) (Conv.Coh (a := a) (q.mem false) D S) himp o ha hrlx none hck
    s hp hI x hx hmin
  exact ⟨x, hx, hmin, hconv.1, hconv.2⟩

/-- **C39, C67 for `ConvProdDictBPDNJoint` (part).** As `C39_C67_proddict`, without `NonNegCoef`.  Missing: with
`NonNegCoef` the Y update is not exact (`C22_joint_refuted`). -/
theorem C39_C67_proddictjoint_partial (hN : ∀ n, Nd n ≤ N n) (eigh : Eigh L) (he : EighOk eigh) (q : COpts)
    (hq : q.nonNeg = false) (h2 : q.noBndry = true → ∀ n, 2 ≤ Nd n) (D : Dict 0 M Nd)
    (B : Matrix (Fin (c + 1)) L ℝ) (S : Signal c K N) (lmbda mu : ℝ) (hl : 0 < lmbda) (hm : 0 ≤ mu)
    (w : K × (L × M) × Grid N → ℝ) (hw : ∀ i, 0 < w i) (fe ge : Bool) (o : Opts)
    (ha : o.autoRho = false) (hrlx : 0 < o.rlx ∧ o.rlx < 2) (cb) (hcb : Bpdn.CallbackReads cb)
    (s : StP c K L M Nd N a) (hp : 0 < s.rho) (Xf : Spec K (L × M) N a)
    (hs : s.extra = setdict0 eigh q S s.rho D B Xf) :
    ∃ Xopt, IsMin (objPDJ D B S lmbda mu w) (allowedConv false q.noBndry Nd) Xopt ∧
      Tendsto (fun n => objPDJ D B S lmbda mu w (part (traj (clsPDJ q S lmbda mu w fe ge) o cb s n).Y)) atTop
        (𝓝 (objPDJ D B S lmbda mu w Xopt)) ∧
      ∀ n, part (traj (clsPDJ q S lmbda mu w fe ge) o cb s (n + 1)).Y ∈ allowedConv false q.noBndry Nd := by
  have ho : o.autoRho = true → o.RhoOk := fun h => by rw [ha] at h; cases h
  have hI : Conv.Coh (a := a) (q.mem false) (prodDict B D) S s.rho (toConv q S s.extra) :=
    ⟨Xf, by rw [hs]; exact setdict_mem q S 1 s.rho _ _⟩
  obtain ⟨x, hx, hmin, hc1, hc2⟩ := conv_cj hN q hq h2 (prodDict B D) S lmbda mu hl hm w hw fe ge s.extra o ha hrlx
    (s.mapExtra (toConv q S)) hp hI
  have hy : ∀ n, (traj (clsCJ q S lmbda mu w fe ge) o none (s.mapExtra (toConv q S)) n).Y =
      (traj (clsPDJ q S lmbda mu w fe ge) o cb s n).Y := by
    intro n
    rw [traj_sim (sim_clsPDJ he q D B S lmbda mu w fe ge) (keeps_clsPDJ eigh q D B S lmbda mu w fe ge) o ho s hp
      ⟨Xf, hs⟩ n, traj_reads _ o cb hcb]
    rfl
  simp only [hy, lsObj_pdj hN] at hc1
  have hset : ∀ z : Coef K (L × M) N, z ∈ (cset q Nd : Set (Coef K (L × M) N)) →
      part z ∈ allowedConv false q.noBndry Nd := by
    intro z hz
    unfold cset at hz
    rw [hq] at hz
    exact hz
  refine ⟨part x, ⟨hset x hx, fun Z hZ => ?_⟩, hc1, fun n => ?_⟩
  · have hZ' : join Z ∈ (cset q Nd : Set (Coef K (L × M) N)) := by
      unfold cset
      rw [hq]
      exact hZ
    have := hmin (join Z) hZ'
    rw [lsObj_pdj hN, lsObj_pdj hN] at this
    exact this
  · have := hc2 n
    rw [hy] at this
    exact hset _ this

/-- **C40 (part).** As `C40_proddict_history_partial`, for `ConvProdDictBPDNJoint`. -/
theorem C40_proddictjoint_history_partial (hN : ∀ k, Nd k ≤ N k) (eigh : Eigh L) (he : EighOk eigh) (q : COpts)
    (D : Dict 0 M Nd) (B : Matrix (Fin (c + 1)) L ℝ) (S : Signal c K N) (lmbda mu : ℝ)
    (w : K × (L × M) × Grid N → ℝ) (fe ge : Bool) (rho : ℝ) (hr : 0 < rho) (Xf : Spec K (L × M) N a)
    (Y U : Coef K (L × M) N) (l : List (Cmd c K L M Nd N)) (hl : ∀ x ∈ l, x.Ok ∧ x.WithD) (o : Opts)
    (ho : o.autoRho = true → o.RhoOk) (cb) (hcb : Bpdn.CallbackReads cb) (n : ℕ) :
    let C := clsPDJ q S lmbda mu w fe ge
    let DB := l.foldl lastDB (D, B)
    let T := traj C o cb (runAll eigh q S C l (start eigh q S lmbda (some rho) D B Xf Y U))
    IsUniqueMin (augPD DB.1 DB.2 S (T n).rho (part (T n).Y) (part (T n).U)) Set.univ (part (T (n + 1)).X) :=
  history_pd hN eigh he q S _ rfl (fun D B => keeps_clsPDJ eigh q D B S lmbda mu w fe ge) l hl
    (start eigh q S lmbda (some rho) D B Xf Y U) D B hr ⟨Xf, rfl⟩ o ho cb hcb n

/-- **C40.** With `AuxVarObj` the objective recorded by `ConvProdDictBPDNJoint` is the functional at Y, without it
the functional at the X just computed. -/
theorem C40_proddictjoint_recorded (hN : ∀ n, Nd n ≤ N n) (eigh : Eigh L) (he : EighOk eigh) (q : COpts)
    (D : Dict 0 M Nd) (B : Matrix (Fin (c + 1)) L ℝ) (S : Signal c K N) (lmbda mu rho : ℝ) (hr : 0 < rho)
    (w : K × (L × M) × Grid N → ℝ) (hw : ∀ i, 0 ≤ w i) (X0 X Y Y0 U : Coef K (L × M) N) (Xf : Spec K (L × M) N a) :
    let x := xstep rho X0 Y0 U (setdict0 eigh q S rho D B Xf)
    ((clsPDJ q S lmbda mu w false true).objfn X Y x.2).1 = objPDJ D B S lmbda mu w (part Y) ∧
    ((clsPDJ q S lmbda mu w true false).objfn x.1 Y x.2).1 = objPDJ D B S lmbda mu w (part x.1) := by
  intro x
  have h := C40_proddict_recorded (a := a) hN eigh he q D B S lmbda rho hr w hw X0 X Y Y0 U Xf
  obtain ⟨-, h1, -, h2⟩ := h
  have hreg : ∀ y : Coef K (L × M) N, regJ lmbda mu w y = lmbda * ∑ k, ∑ j, ∑ p, w (k, j, p) * |part y k j p| +
      mu * ∑ k, ∑ m, ∑ p, Real.sqrt (∑ l, part y k (l, m) p ^ 2) := by
    intro y
    rw [← regL1_eq lmbda w hw]
    unfold regJ regL1
    congr 2
    simp only [Fintype.sum_prod_type]
    rfl
  constructor
  · change dfd S false Y x.2 + regJ lmbda mu w Y = _
    have h3 : dfd S false Y x.2 = dataPD D B S (part Y) := h1
    rw [h3, hreg]
    unfold objPDJ
    ring
  · change dfd S true Y x.2 + regJ lmbda mu w x.1 = _
    have h3 : dfd S true Y x.2 = dataPD D B S (part x.1) := h2
    rw [h3, hreg]
    unfold objPDJ
    ring

/-- The hypotheses of `C39_C67_proddict` and `C39_C67_proddictjoint_partial` are met: two channels, two columns of
B, five filters, 4 x 4 images, all options on (without `NonNegCoef` for the second). -/
example : ∃ (eigh : Eigh (Fin 2)) (q : COpts) (o : Opts) (s : StP 1 Unit (Fin 2) (Fin 5) (fun _ : Fin 2 => 2) (fun _ => 4) 0)
    (D : Dict 0 (Fin 5) (fun _ : Fin 2 => 2)) (B : Matrix (Fin 2) (Fin 2) ℝ) (S : Signal 1 Unit (fun _ : Fin 2 => 4)) (Xf : _),
    EighOk eigh ∧ q.noBndry = true ∧ q.highMem = true ∧ q.nonNeg = false ∧ o.autoRho = false ∧ 0 < o.rlx ∧ o.rlx < 2 ∧
      0 < s.rho ∧ s.extra = setdict0 eigh q S s.rho D B Xf ∧ B ≠ 0 ∧ D ≠ 0 := by
  obtain ⟨eigh, he⟩ := eighOk_exists (L := Fin 2)
  let q : COpts := { highMem := true, nonNeg := false, noBndry := true }
  let D : Dict 0 (Fin 5) (fun _ : Fin 2 => 2) := fun _ m _ => (m : ℕ)
  let B : Matrix (Fin 2) (Fin 2) ℝ := !![1, 2; 3, 4]
  let o : Opts :=
    ⟨false, 10, 0, 0, false, 1, true, true, 160, 160, 2, 10, 1, 3 / 2⟩
  refine ⟨eigh, q, o, start eigh q (fun _ _ _ => 1) 1 (some 1) D B (fun _ _ _ => 0) 0 0, D, B,
    fun _ _ _ => 1, fun _ _ _ => 0, he, rfl, rfl, rfl, rfl, by norm_num [o], by norm_num [o], by
      change (0 : ℝ) < 1; norm_num, rfl, ?_, ?_⟩
  · intro h
    have := congrFun (congrFun h 0) 0
    simp [B] at this
  · intro h
    have := congrFun (congrFun (congrFun h 0) 1) 0
    simp [D] at this

end Sporco.Conv.PD
