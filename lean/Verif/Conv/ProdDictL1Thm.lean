import Verif.Conv.ProdDictL1

/-!
# `ConvProdDictL1L1Grd`, `ConvProdDictL1L1GrdJoint`: convergence, histories, recorded values (C39, C40, C43, C67)
-/

set_option autoImplicit false
set_option linter.unusedSectionVars false

namespace Sporco.Conv.PL

open Finset ComplexConjugate Sporco.Linalg Sporco.Prox Sporco.Admm Sporco.Conv Sporco.Conv.TB Sporco.Conv.Grd
  Sporco.Conv.PD Filter Topology
open scoped RealInnerProductSpace

variable {d c : ℕ} {N Nd : Fin d → ℕ} [∀ k, NeZero (N k)] {a : Fin d} {K L M : Type*} [Fintype K]
  [Fintype L] [Fintype M] [DecidableEq L]

/-- The state of a solver object. -/
abbrev StL (c : ℕ) (K L M : Type*) {d : ℕ} (N : Fin d → ℕ) [∀ k, NeZero (N k)] (a : Fin d) [Fintype K]
    [Fintype L] [Fintype M] : Type _ :=
  St (Coef K (L × M) N) (YY c K (L × M) N) (YY c K (L × M) N) (Spec K (L × M) N a)

/-! ## Comparison with a class for the multi-channel dictionary -/

/-- Attributes of the class for the multi-channel dictionary. -/
def toTB (Xf : Spec K (L × M) N a) : AttrTB K (L × M) N a := ⟨none, Xf⟩

/-- The class with the usual dual residual. -/
noncomputable def clsStd (C : Cls (Coef K (L × M) N) (YY c K (L × M) N) (YY c K (L × M) N) (Spec K (L × M) N a))
    (D : Dict c (L × M) Nd) (ob : ℝ × ℝ × ℝ) :
    Cls (Coef K (L × M) N) (YY c K (L × M) N) (YY c K (L × M) N) (Spec K (L × M) N a) :=
  { C with
    nrmS := fun rho Yprev Y _ => ‖rho • TwoBlock.cnstAT (TB.cnstA0T a D) (fun y => y) (Yprev - Y)‖
    rsdlSn := fun rho U => rho * ‖TwoBlock.cnstAT (TB.cnstA0T a D) (fun y => y) U‖
    objfn := fun _ _ _ => ob }

theorem sane_std (f : Fix c L M Nd N a) (S W : Signal c K N) (lmbda mu : ℝ) (ys) (g1) (wg : M → ℝ) (av : Bool)
    (D : Dict c (L × M) Nd) (ob : ℝ × ℝ × ℝ) : (clsStd (clsOf f S W lmbda mu ys g1 wg av) D ob).Sane :=
  ⟨fun _ _ => norm_nonneg _, fun _ _ _ _ => norm_nonneg _, fun ax y => by
    change 0 ≤ TwoBlock.rsdlRn (join S) 0 ax y
    unfold TwoBlock.rsdlRn
    positivity, fun rho u hr => mul_nonneg hr (norm_nonneg _)⟩

theorem sane_of (f : Fix c L M Nd N a) (S W : Signal c K N) (lmbda mu : ℝ) (ys) (g1) (wg : M → ℝ) (av : Bool) :
    (clsOf f S W lmbda mu ys g1 wg av).Sane :=
  ⟨fun _ _ => norm_nonneg _, fun _ _ _ _ => norm_nonneg _, fun ax y => by
    change 0 ≤ TwoBlock.rsdlRn (join S) 0 ax y
    unfold TwoBlock.rsdlRn
    positivity, fun rho u hr => mul_nonneg hr (norm_nonneg _)⟩

theorem keeps_of (f : Fix c L M Nd N a) (S W : Signal c K N) (lmbda mu : ℝ) (ys) (g1) (wg : M → ℝ) (av : Bool) :
    Keeps (clsOf f S W lmbda mu ys g1 wg av) fun _ _ => True :=
  ⟨sane_of f S W lmbda mu ys g1 wg av, fun _ _ _ _ _ _ _ => trivial, fun _ _ _ _ _ _ _ _ => trivial,
    fun _ _ _ _ _ _ => trivial⟩

/-- The Y update as a function of the arrays. -/
def ysArr (ys : ℝ → YY c K (L × M) N → Coef K (L × M) N → YY c K (L × M) N → YY c K (L × M) N → Spec K (L × M) N a →
      YY c K (L × M) N × Spec K (L × M) N a) (rho : ℝ) (AX U : YY c K (L × M) N) : YY c K (L × M) N :=
  (ys rho AX 0 0 U 0).1

theorem sim_std {eigh : Eigh L} (he : EighOk eigh) (D : Dict 0 M Nd) (B : Matrix (Fin (c + 1)) L ℝ)
    (S W : Signal c K N) (lmbda mu : ℝ) (hm : 0 ≤ mu) (ys)
    (hys : ∀ rho AX X Y U h, ys rho AX X Y U h = (ysArr (a := a) ys rho AX U, h))
    (g1) (wg : M → ℝ) (hg : ∀ m, 0 ≤ wg m) (av : Bool) (ob : ℝ × ℝ × ℝ) :
    ClsSim toTB (clsStd (clsOf (fix0 eigh D B) S W lmbda mu ys g1 wg av) (prodDict B D) ob)
      (LG.clsGen a (prodDict B D) S mu (fun j : L × M => wg j.2) (ysArr ys) fun _ _ _ => ob) (fun _ _ => True) where
  xstep rho X Y U h hp _ := xstep_sim he D B S mu hm wg hg rho hp X Y U h
  ystep rho AX X Y U h _ _ := by
    change (ysArr ys rho AX U, toTB h) = ((ys rho AX X Y U h).1, toTB (ys rho AX X Y U h).2)
    rw [hys]
  rhochange _ _ _ _ := rfl
  objfn _ _ _ _ _ := rfl
  relax := by
    change TwoBlock.relaxAX (TB.cnstA0 a (prodDict B D)) (fun x => x) (join S) 0 =
      TwoBlock.relaxAX (cnstA0 (fix0 eigh D B)) (fun x => x) (join S) 0
    rw [cnstA0_prod]
  ustep := rfl
  nrmR := rfl
  nrmS := rfl
  rsdlRn := rfl
  rsdlSn := rfl

/-- With fixed rho the arrays are those of the class for the multi-channel dictionary. -/
theorem traj_gen {eigh : Eigh L} (he : EighOk eigh) (D : Dict 0 M Nd) (B : Matrix (Fin (c + 1)) L ℝ)
    (S W : Signal c K N) (lmbda mu : ℝ) (hm : 0 ≤ mu) (ys)
    (hys : ∀ rho AX X Y U h, ys rho AX X Y U h = (ysArr (a := a) ys rho AX U, h))
    (g1) (wg : M → ℝ) (hg : ∀ m, 0 ≤ wg m) (av : Bool) (o : Opts) (ha : o.autoRho = false) (cb)
    (hcb : Bpdn.CallbackReads cb) (s : StL c K L M N a) (hp : 0 < s.rho) (n : ℕ) :
    let A := traj (clsOf (fix0 eigh D B) S W lmbda mu ys g1 wg av) o cb s n
    let A' := traj (LG.clsGen a (prodDict B D) S mu (fun j : L × M => wg j.2) (ysArr ys) fun _ _ _ => (0, 0, 0)) o none
      (s.mapExtra toTB) n
    A.X = A'.X ∧ A.Y = A'.Y ∧ A.U = A'.U ∧ A.rho = A'.rho ∧ A.AXnr = A'.AXnr ∧ A.Yprev = A'.Yprev := by
  intro A A'
  have ho : o.autoRho = true → o.RhoOk := fun h => by rw [ha] at h; cases h
  obtain ⟨h1, h2, h3, h4, h5, h6, -⟩ := RTV.traj_congr (clsOf (fix0 eigh D B) S W lmbda mu ys g1 wg av)
    (clsStd (clsOf (fix0 eigh D B) S W lmbda mu ys g1 wg av) (prodDict B D) (0, 0, 0)) rfl rfl rfl rfl o ha cb hcb s n
  have hk : Keeps (clsStd (clsOf (fix0 eigh D B) S W lmbda mu ys g1 wg av) (prodDict B D) (0, 0, 0))
      (fun _ _ => True) :=
    ⟨sane_std _ S W lmbda mu ys g1 wg av _ _, fun _ _ _ _ _ _ _ => trivial, fun _ _ _ _ _ _ _ _ => trivial,
      fun _ _ _ _ _ _ => trivial⟩
  have h7 := traj_sim (sim_std he D B S W lmbda mu hm ys hys g1 wg hg av (0, 0, 0)) hk o ho s hp trivial n
  rw [← traj_reads _ o cb hcb] at h7
  have h8 : A' = (traj (clsStd (clsOf (fix0 eigh D B) S W lmbda mu ys g1 wg av) (prodDict B D) (0, 0, 0)) o cb s
    n).mapExtra toTB := h7
  rw [h8]
  exact ⟨h1, h2, h3, h4, h5, h6⟩

/-! ## Convergence -/

/-- Convergence for a Y update that is exact for the second term `g1'` on the set `Cs`. -/
theorem conv_of {eigh : Eigh L} (he : EighOk eigh) (D : Dict 0 M Nd) (B : Matrix (Fin (c + 1)) L ℝ)
    (S W : Signal c K N) (hW : ∀ i, 0 ≤ LG.wA W i) (lmbda mu : ℝ) (hm : 0 ≤ mu) (ys)
    (hys : ∀ rho AX X Y U h, ys rho AX X Y U h = (ysArr (a := a) ys rho AX U, h))
    (g1) (wg : M → ℝ) (hg : ∀ m, 0 ≤ wg m) (av : Bool)
    (g1' : Coef K (L × M) N → ℝ) (Cs : Set (Coef K (L × M) N)) (hg1 : ConvexOn ℝ Cs g1')
    (hcl : IsClosed Cs) (hne : Cs.Nonempty) (hcont : Continuous g1')
    (r : ℝ) (hr : 0 < r) (hgrow : ∀ y, r * ‖y‖ ≤ g1' y) (hy : LG.YOk S W g1' Cs (ysArr ys))
    (o : Opts) (ha : o.autoRho = false) (hrlx : 0 < o.rlx ∧ o.rlx < 2)
    (cb) (hcb : Bpdn.CallbackReads cb) (s : StL c K L M N a) (hp : 0 < s.rho) :
    let C := clsOf (fix0 eigh D B) S W lmbda mu ys g1 wg av
    let T := traj C o cb s
    let F := fun z => LG.quadE mu (fun j : L × M => wg j.2) z + LG.gSumG (prodDict B D) S W g1' z
    ∃ x ∈ Cs, (∀ z ∈ Cs, F x ≤ F z) ∧
      Tendsto (fun n => C.nrmR (T n).AXnr (T n).Y) atTop (𝓝 0) ∧
      Tendsto (fun n => F (T n).Y.snd) atTop (𝓝 (F x)) ∧
      Tendsto (fun n => (T n).X - (T n).Y.snd) atTop (𝓝 0) ∧
      ∀ n, (T (n + 1)).Y.snd ∈ Cs := by
  intro C T F
  have hrd : Bpdn.CallbackReads (none : Option (St (Coef K (L × M) N) (YY c K (L × M) N) (YY c K (L × M) N)
      (AttrTB K (L × M) N a) → Bool × AttrTB K (L × M) N a)) := by intro f t hf; cases hf
  obtain ⟨x, hx, hmin, k1, -, k3, k4, k5⟩ := LG.conv_gen (a := a) (prodDict B D) S W hW mu hm (fun j : L × M => wg j.2)
    (fun j => hg j.2) g1' Cs hg1 hcl hne hcont r hr hgrow (ysArr ys) hy (fun _ _ _ => (0, 0, 0)) o ha hrlx none hrd
    (s.mapExtra toTB) hp rfl
  have ht := fun n => traj_gen he D B S W lmbda mu hm ys hys g1 wg hg av o ha cb hcb s hp n
  simp only at ht
  refine ⟨x, hx, hmin, k1.congr fun n => ?_, k3.congr fun n => ?_, k4.congr fun n => ?_, fun n => ?_⟩
  · rw [← (ht n).2.1, ← (ht n).2.2.2.2.1]
    rfl
  · rw [← (ht n).2.1]
  · rw [← (ht n).2.1, ← (ht n).1]
  · have := k5 n
    rw [← (ht (n + 1)).2.1] at this
    exact this

theorem yok_l1 (hN : ∀ n, Nd n ≤ N n) (q : COpts) (h2 : q.noBndry = true → ∀ n, 2 ≤ Nd n) (S W : Signal c K N)
    (lmbda : ℝ) (hl : 0 ≤ lmbda) (w : K × (L × M) × Grid N → ℝ) (hw : ∀ i, 0 ≤ w i) :
    LG.YOk S W (fun y => lmbda * l1w w y.ofLp) (cset q Nd) (ysArr (a := a) (ystep q Nd S W lmbda w)) := by
  intro rho AX U hp
  have h := gystep_l1 a q h2 hN lmbda hl w hw rho hp AX.snd U.snd
  simp only [sub_zero] at h
  exact ⟨rfl, h.1, h.2⟩

theorem obj_l1 (hN : ∀ n, Nd n ≤ N n) (hN2 : ∀ k, 2 ≤ N k) (D : Dict 0 M Nd) (B : Matrix (Fin (c + 1)) L ℝ)
    (S W : Signal c K N) (hW : ∀ i, 0 ≤ LG.wA W i) (lmbda mu : ℝ) (hm : 0 ≤ mu) (w : K × (L × M) × Grid N → ℝ)
    (wg : M → ℝ) (hg : ∀ m, 0 ≤ wg m) (x : Coef K (L × M) N) :
    LG.quadE mu (fun j : L × M => wg j.2) x + LG.gSumG (prodDict B D) S W (fun y => lmbda * l1w w y.ofLp) x =
      objPL D B S W lmbda mu w wg (part x) := by
  have h := LG.objL1L1_eq hN hN2 (prodDict B D) S W hW lmbda mu hm w (fun j : L × M => wg j.2) (fun j => hg j.2) x
  have e : LG.objL1L1 (prodDict B D) S W lmbda mu w (fun j : L × M => wg j.2) (part x) =
      objPL D B S W lmbda mu w wg (part x) := by
    unfold LG.objL1L1 objPL
    rw [l1_eq]
    rfl
  rw [← e, h]
  rfl

/-- **C39, C67 for `ConvProdDictL1L1Grd` (part).** For every single channel convolutional dictionary D, every
matrix B, signal, mask, positive `lmbda` and weights, `mu ≥ 0`, with or without `NonNegCoef` and `NoBndryCross`, with
fixed rho and relaxation parameter in (0, 2), from any start: the functional of the documentation has a minimiser,
its value at the array `solve()` would return tends to the minimum, the array always meets the constraints, and
the primal residual and the difference between X and the array returned tend to zero.  Missing: the dual residual,
which need not tend to zero (`C39_proddictl1_residual_refuted`). -/
theorem C39_C67_proddictl1_partial (hN : ∀ n, Nd n ≤ N n) (hN2 : ∀ k, 2 ≤ N k) (eigh : Eigh L) (he : EighOk eigh)
    (q : COpts) (h2 : q.noBndry = true → ∀ n, 2 ≤ Nd n) (D : Dict 0 M Nd) (B : Matrix (Fin (c + 1)) L ℝ)
    (S W : Signal c K N) (hW : ∀ i k p, 0 ≤ W i k p) (lmbda mu : ℝ) (hl : 0 < lmbda) (hm : 0 ≤ mu)
    (w : K × (L × M) × Grid N → ℝ) (hw : ∀ i, 0 < w i) (wg : M → ℝ) (hg : ∀ m, 0 ≤ wg m) (av : Bool) (o : Opts)
    (ha : o.autoRho = false) (hrlx : 0 < o.rlx ∧ o.rlx < 2) (cb) (hcb : Bpdn.CallbackReads cb)
    (s : StL c K L M N a) (hp : 0 < s.rho) :
    let C := clsPL q (fix0 eigh D B) S W lmbda mu w wg av
    let T := traj C o cb s
    ∃ Xopt, IsMin (objPL D B S W lmbda mu w wg) (allowedConv q.nonNeg q.noBndry Nd) Xopt ∧
      Tendsto (fun n => objPL D B S W lmbda mu w wg (part (T n).Y.snd)) atTop
        (𝓝 (objPL D B S W lmbda mu w wg Xopt)) ∧
      (∀ n, part (T (n + 1)).Y.snd ∈ allowedConv q.nonNeg q.noBndry Nd) ∧
      Tendsto (fun n => C.nrmR (T n).AXnr (T n).Y) atTop (𝓝 0) ∧
      Tendsto (fun n => (T n).X - (T n).Y.snd) atTop (𝓝 0) := by
  intro C T
  have hW' : ∀ i, 0 ≤ LG.wA W i := fun i => hW _ _ _
  have hw0 : ∀ i, 0 ≤ w i := fun i => (hw i).le
  obtain ⟨r, hr, hgrow⟩ := Bpdn.l1w_grow w hw lmbda hl
  obtain ⟨x, hx, hmin, k1, k2, k3, k4⟩ := conv_of (a := a) he D B S W hW' lmbda mu hm (ystep q Nd S W lmbda w)
    (fun _ _ _ _ _ _ => rfl) (fun y => normL1 fun i => w i * y i) wg hg av (fun y => lmbda * l1w w y.ofLp) (cset q Nd)
    (Bpdn.convex_l1w w hw0 _ (convex_cset (K := K) (M := L × M) (N := N) q Nd) lmbda hl.le)
    (closed_cset q Nd) ⟨0, zero_cset q Nd⟩ (continuous_const.mul (Bpdn.continuous_l1w w)) r hr hgrow
    (yok_l1 hN q h2 S W lmbda hl.le w hw0) o ha hrlx cb hcb s hp
  have e := obj_l1 (K := K) hN hN2 D B S W hW' lmbda mu hm w wg hg
  simp only [e] at hmin k2
  exact ⟨part x, ⟨hx, fun Z hZ => hmin (join Z) hZ⟩, k2, k4, k1, k3⟩

/-! ## The joint class -/

/-- The weighted `ℓ2,1` norm. -/
noncomputable def gW (lmbda : ℝ) (wl21 : K × M → ℝ) (y : Coef K (L × M) N) : ℝ :=
  lmbda * ∑ s : K × M × Grid N, wl21 (s.1, s.2.1) * l2 (fibP y s)

theorem convex_gW (lmbda : ℝ) (hl : 0 ≤ lmbda) (wl21 : K × M → ℝ) (hw : ∀ i, 0 ≤ wl21 i)
    (C : Set (Coef K (L × M) N)) (hC : Convex ℝ C) : ConvexOn ℝ C (gW (N := N) (L := L) lmbda wl21) := by
  refine ⟨hC, fun x _ y _ a b ha hb hab => ?_⟩
  have h2 : ∀ i : K × M × Grid N, wl21 (i.1, i.2.1) * l2 (fibP (a • x + b • y) i) ≤
      a * (wl21 (i.1, i.2.1) * l2 (fibP x i)) + b * (wl21 (i.1, i.2.1) * l2 (fibP y i)) := by
    intro i
    have h3 : l2 (fibP (a • x + b • y) i) ≤ a * l2 (fibP x i) + b * l2 (fibP y i) := by
      rw [Bpdn.l2_norm, Bpdn.l2_norm, Bpdn.l2_norm]
      have e : (WithLp.toLp 2 (fibP (a • x + b • y) i) : EuclideanSpace ℝ L) =
        a • WithLp.toLp 2 (fibP x i) + b • WithLp.toLp 2 (fibP y i) := rfl
      rw [e]
      refine (norm_add_le _ _).trans (le_of_eq ?_)
      rw [norm_smul, norm_smul, Real.norm_of_nonneg ha, Real.norm_of_nonneg hb]
    have := mul_le_mul_of_nonneg_left h3 (hw (i.1, i.2.1))
    linarith
  have h3 := Finset.sum_le_sum fun i (_ : i ∈ Finset.univ) => h2 i
  rw [Finset.sum_add_distrib, ← Finset.mul_sum, ← Finset.mul_sum] at h3
  have h4 := mul_le_mul_of_nonneg_left h3 hl
  simp only [smul_eq_mul]
  unfold gW
  linarith

theorem continuous_gW (lmbda : ℝ) (wl21 : K × M → ℝ) : Continuous (gW (N := N) (L := L) lmbda wl21) := by
  unfold gW
  refine continuous_const.mul (continuous_finsetSum _ fun i _ => continuous_const.mul ?_)
  unfold l2 Prox.sq
  refine Real.continuous_sqrt.comp (continuous_finsetSum _ fun j _ => ?_)
  exact ((EuclideanSpace.proj (i.1, (j, i.2.1), i.2.2) : Coef K (L × M) N →L[ℝ] ℝ).continuous).norm.pow 2

theorem gW_grow (lmbda : ℝ) (hl : 0 < lmbda) (wl21 : K × M → ℝ) (hw : ∀ i, 0 < wl21 i) :
    ∃ r, 0 < r ∧ ∀ y : Coef K (L × M) N, r * ‖y‖ ≤ gW lmbda wl21 y := by
  obtain ⟨r, hr, h⟩ := Bpdn.l1w_grow (fun s : K × M × Grid N => wl21 (s.1, s.2.1)) (fun s => hw _) lmbda hl
  refine ⟨r, hr, fun y => ?_⟩
  have h1 := h (WithLp.toLp 2 fun s => l2 (fibP y s))
  have h2 : ‖(WithLp.toLp 2 fun s => l2 (fibP y s) : EuclideanSpace ℝ (K × M × Grid N))‖ = ‖y‖ := by
    rw [← sq_eq_sq₀ (norm_nonneg _) (norm_nonneg _), EuclideanSpace.norm_sq_eq, EuclideanSpace.norm_sq_eq, sum_fib]
    refine Finset.sum_congr rfl fun s _ => ?_
    change ‖l2 (fibP y s)‖ ^ 2 = _
    rw [Real.norm_of_nonneg (l2_nonneg _)]
    unfold l2 Prox.sq
    rw [Real.sq_sqrt (Finset.sum_nonneg fun i _ => sq_nonneg _)]
    rfl
  rw [h2] at h1
  refine h1.trans (le_of_eq ?_)
  unfold gW l1w
  congr 1
  refine Finset.sum_congr rfl fun s _ => ?_
  change _ * ‖l2 (fibP y s)‖ = _
  rw [Real.norm_of_nonneg (l2_nonneg _)]

theorem yok_joint (hN : ∀ n, Nd n ≤ N n) (q : COpts) (hq : q.nonNeg = false)
    (h2 : q.noBndry = true → ∀ n, 2 ≤ Nd n) (S W : Signal c K N)
    (lmbda : ℝ) (hl : 0 ≤ lmbda) (wl21 : K × M → ℝ) (hw : ∀ i, 0 ≤ wl21 i) :
    LG.YOk S W (gW (N := N) (L := L) lmbda wl21) (cset q Nd) (ysArr (a := a) (ystepJ q Nd S W lmbda wl21)) := by
  classical
  intro rho AX U hr
  obtain ⟨y, hyd⟩ : ∃ y, y = (ysArr (a := a) (ystepJ (L := L) q Nd S W lmbda wl21) rho AX U).snd := ⟨_, rfl⟩
  refine ⟨rfl, ?_⟩
  rw [← hyd]
  obtain ⟨V, hV⟩ : ∃ V : Coef K (L × M) N, V = AX.snd + U.snd := ⟨_, rfl⟩
  rw [← hV]
  let be : K × M × Grid N → ℝ := fun s => lmbda / rho * wl21 (s.1, s.2.1)
  let phi : K × M × Grid N → (L → ℝ) → ℝ := fun s x =>
    proxObj (fun y => l1w (fun _ => 0) y + be s * l2 y) (fibP V s) x
  let y0 : K × M × Grid N → L → ℝ := fun s => proxSl1l2 (fibP V s) (fun _ => 0) (be s)
  have hmin := C19_prox_sl1l2 (σ := K × M × Grid N) (fun i => fibP V i) (fun _ (_ : L) => (0 : ℝ)) be
    (fun i j => le_refl 0) (fun _ => mul_nonneg (by positivity) (hw _))
  have e : ∀ z : Coef K (L × M) N, gW lmbda wl21 z + rho / 2 * ‖V - z‖ ^ 2 = rho * ∑ s, phi s (fibP z s) := by
    intro z
    have h1 : ‖V - z‖ ^ 2 = ∑ s, Prox.sq (fibP z s - fibP V s) := by
      rw [← norm_neg, neg_sub, EuclideanSpace.norm_sq_eq, sum_fib]
      rfl
    have h3 : ∀ s, l1w (fun _ => 0) (fibP z s) = 0 := fun s => by unfold l1w; simp
    simp only [phi, gW, proxObj]
    rw [h1]
    simp only [h3, be]
    rw [Finset.mul_sum, Finset.mul_sum, Finset.mul_sum, ← Finset.sum_add_distrib]
    refine Finset.sum_congr rfl fun i _ => ?_
    field_simp
    ring
  have hy : ∀ s, fibP y s = if q.noBndry = true ∧ crosses Nd s.2.2 then 0 else y0 s := by
    intro s
    funext l
    have e : y.ofLp = gystep q Nd fun p => y0 (p.1, p.2.1.2, p.2.2) p.2.1.1 := by
      rw [hyd]
      subst hV
      rfl
    change y.ofLp (s.1, (l, s.2.1), s.2.2) = _
    rw [e]
    unfold gystep
    rw [hq]
    by_cases hb : q.noBndry = true
    · simp only [hb, if_true, true_and, Bool.false_eq_true, if_false]
      rw [zeroTail_crosses Nd (h2 hb) hN]
      split_ifs <;> rfl
    · simp [hb]
  have hmem : y ∈ (cset q Nd : Set (Coef K (L × M) N)) := by
    refine ⟨fun hn => by simp [hq] at hn, fun hb k m p hc => ?_⟩
    have := congrFun (hy (k, m.2, p)) m.1
    rw [if_pos ⟨hb, hc⟩] at this
    exact this
  refine ⟨hmem, fun z hz => ?_⟩
  rw [e, e]
  refine mul_le_mul_of_nonneg_left ?_ hr.le
  let z' : K × M × Grid N → L → ℝ := fun s => if q.noBndry = true ∧ crosses Nd s.2.2 then y0 s else fibP z s
  have hle : ∑ s, phi s (y0 s) ≤ ∑ s, phi s (z' s) := by
    by_cases he : z' = y0
    · rw [he]
    · exact (hmin.2 z' trivial he).le
  have hd : ∑ s, phi s (fibP y s) - ∑ s, phi s (fibP z s) = ∑ s, phi s (y0 s) - ∑ s, phi s (z' s) := by
    rw [← Finset.sum_sub_distrib, ← Finset.sum_sub_distrib]
    refine Finset.sum_congr rfl fun s _ => ?_
    by_cases hc : q.noBndry = true ∧ crosses Nd s.2.2
    · have h1 : fibP z s = 0 := by
        funext l
        exact hz.2 hc.1 s.1 (l, s.2.1) s.2.2 hc.2
      have h2 : z' s = y0 s := if_pos hc
      rw [hy, if_pos hc, h1, h2]; ring
    · have h2 : z' s = fibP z s := if_neg hc
      rw [hy, if_neg hc, h2]
  linarith

theorem gW_eq (lmbda : ℝ) (wl21 : K × M → ℝ) (y : Coef K (L × M) N) :
    gW lmbda wl21 y =
      lmbda * ∑ k, ∑ m, ∑ p, wl21 (k, m) * Real.sqrt (∑ l, part y k (l, m) p ^ 2) := by
  unfold gW
  simp only [Fintype.sum_prod_type]
  congr 1
  refine Finset.sum_congr rfl fun k _ => Finset.sum_congr rfl fun m _ => Finset.sum_congr rfl fun p _ => ?_
  congr 1
  unfold l2 Prox.sq
  congr 1
  refine Finset.sum_congr rfl fun l _ => ?_
  rw [Real.norm_eq_abs, sq_abs]; rfl

theorem obj_joint (hN : ∀ n, Nd n ≤ N n) (hN2 : ∀ k, 2 ≤ N k) (D : Dict 0 M Nd) (B : Matrix (Fin (c + 1)) L ℝ)
    (S W : Signal c K N) (hW : ∀ i, 0 ≤ LG.wA W i) (lmbda mu : ℝ) (hm : 0 ≤ mu) (wl21 : K × M → ℝ)
    (wg : M → ℝ) (hg : ∀ m, 0 ≤ wg m) (x : Coef K (L × M) N) :
    LG.quadE mu (fun j : L × M => wg j.2) x + LG.gSumG (prodDict B D) S W (gW lmbda wl21) x =
      objPLJ D B S W lmbda mu wl21 wg (part x) := by
  unfold LG.gSumG objPLJ
  rw [LG.quadE_eq hN2 mu hm (fun j : L × M => wg j.2) (fun j => hg j.2), gW_eq, ← l1_eq, LG.l1Data_eq hN _ S W hW]
  change mu / 2 * gradPD wg (part x) + _ = _
  ring

/-- **C39, C67 for `ConvProdDictL1L1GrdJoint` (part).** As `C39_C67_proddictl1_partial`, without `NonNegCoef`.
Missing: the dual residual, and `NonNegCoef`, with which the Y update is not exact (`C22_joint_refuted`). -/
theorem C39_C67_proddictl1joint_partial (hN : ∀ n, Nd n ≤ N n) (hN2 : ∀ k, 2 ≤ N k) (eigh : Eigh L)
    (he : EighOk eigh) (q : COpts) (hq : q.nonNeg = false) (h2 : q.noBndry = true → ∀ n, 2 ≤ Nd n) (D : Dict 0 M Nd)
    (B : Matrix (Fin (c + 1)) L ℝ) (S W : Signal c K N) (hW : ∀ i k p, 0 ≤ W i k p) (lmbda mu : ℝ) (hl : 0 < lmbda)
    (hm : 0 ≤ mu) (wl21 : K × M → ℝ) (hw : ∀ i, 0 < wl21 i) (wg : M → ℝ) (hg : ∀ m, 0 ≤ wg m) (av : Bool) (o : Opts)
    (ha : o.autoRho = false) (hrlx : 0 < o.rlx ∧ o.rlx < 2) (cb) (hcb : Bpdn.CallbackReads cb)
    (s : StL c K L M N a) (hp : 0 < s.rho) :
    let C := clsPLJ q (fix0 eigh D B) S W lmbda mu wl21 wg av
    let T := traj C o cb s
    ∃ Xopt, IsMin (objPLJ D B S W lmbda mu wl21 wg) (allowedConv false q.noBndry Nd) Xopt ∧
      Tendsto (fun n => objPLJ D B S W lmbda mu wl21 wg (part (T n).Y.snd)) atTop
        (𝓝 (objPLJ D B S W lmbda mu wl21 wg Xopt)) ∧
      (∀ n, part (T (n + 1)).Y.snd ∈ allowedConv false q.noBndry Nd) ∧
      Tendsto (fun n => C.nrmR (T n).AXnr (T n).Y) atTop (𝓝 0) ∧
      Tendsto (fun n => (T n).X - (T n).Y.snd) atTop (𝓝 0) := by
  intro C T
  have hW' : ∀ i, 0 ≤ LG.wA W i := fun i => hW _ _ _
  have hw0 : ∀ i, 0 ≤ wl21 i := fun i => (hw i).le
  obtain ⟨r, hr, hgrow⟩ := gW_grow (N := N) (L := L) lmbda hl wl21 hw
  obtain ⟨x, hx, hmin, k1, k2, k3, k4⟩ := conv_of (a := a) he D B S W hW' lmbda mu hm (ystepJ q Nd S W lmbda wl21)
    (fun _ _ _ _ _ _ => rfl) (g1J wl21) wg hg av (gW lmbda wl21) (cset q Nd)
    (convex_gW lmbda hl.le wl21 hw0 _ (convex_cset (K := K) (M := L × M) (N := N) q Nd))
    (closed_cset q Nd) ⟨0, zero_cset q Nd⟩ (continuous_gW lmbda wl21) r hr hgrow
    (yok_joint hN q hq h2 S W lmbda hl.le wl21 hw0) o ha hrlx cb hcb s hp
  have e := obj_joint (K := K) hN hN2 D B S W hW' lmbda mu hm wl21 wg hg
  simp only [e] at hmin k2
  have hset : (cset q Nd : Set (Coef K (L × M) N)) = {z | part z ∈ allowedConv false q.noBndry Nd} := by
    unfold cset
    rw [hq]
  rw [hset] at hx hmin k4
  exact ⟨part x, ⟨hx, fun Z hZ => hmin (join Z) hZ⟩, k2, k4, k1, k3⟩

/-! ## Recorded values -/

theorem g0_eq (hN : ∀ n, Nd n ≤ N n) {eigh : Eigh L} (he : EighOk eigh) (D : Dict 0 M Nd)
    (B : Matrix (Fin (c + 1)) L ℝ) (S W : Signal c K N) (mu : ℝ) (hm : 0 ≤ mu) (wg : M → ℝ) (hg : ∀ m, 0 ≤ wg m)
    (rho : ℝ) (hr : 0 < rho) (X0 : Coef K (L × M) N) (Y0 U0 Y : YY c K (L × M) N) (Xf : Spec K (L × M) N a) :
    let f : Fix c L M Nd N a := fix0 eigh D B
    let x := xstep f S mu wg rho X0 Y0 U0 Xf
    ∑ i, ∑ k, ∑ p, |W i k p * part (g0var f S false Y x.2) i k p| = l1PD D B S W (part x.1) := by
  intro f x
  have hx := xstep_sim he D B S mu hm wg hg rho hr X0 Y0 U0 Xf
  have e : g0var f S false Y x.2 = TB.g0var a (prodDict B D) S false Y (⟨none, x.2⟩ : AttrTB K (L × M) N a) := by
    unfold g0var TB.g0var
    simp only [Bool.false_eq_true, if_false]
    congr 2
    funext i k
    congr 1
    funext ξ
    unfold Linalg.inner
    rw [Fintype.sum_prod_type]
    refine Finset.sum_congr rfl fun l _ => ?_
    rw [Finset.mul_sum]
    refine Finset.sum_congr rfl fun m _ => ?_
    change ((B i l : ℝ) : ℂ) * (dictF a D 0 m ξ * _) = dictF a (prodDict B D) i (l, m) ξ * _
    rw [dictF_prod, mul_assoc]
  have h := LG.g0var_x (q := ⟨false, false, false⟩) (D := prodDict B D) (wg := fun j : L × M => wg j.2) hm
    (fun j => hg j.2) hr (h := ⟨none, Xf⟩) rfl S X0 Y0 U0 Y
  rw [hx] at h
  rw [e, h, ← l1_eq]
  unfold LG.l1Data recon
  simp only [← rconv_pad hN]
  rfl

theorem rgr_eq (hN2 : ∀ k, 2 ≤ N k) {eigh : Eigh L} (he : EighOk eigh) (D : Dict 0 M Nd)
    (B : Matrix (Fin (c + 1)) L ℝ) (S : Signal c K N) (mu : ℝ) (hm : 0 ≤ mu) (wg : M → ℝ) (hg : ∀ m, 0 ≤ wg m)
    (rho : ℝ) (hr : 0 < rho) (X0 : Coef K (L × M) N) (Y0 U0 : YY c K (L × M) N) (Xf : Spec K (L × M) N a) :
    let f : Fix c L M Nd N a := fix0 eigh D B
    let x := xstep f S mu wg rho X0 Y0 U0 Xf
    regGrad (fun j : L × M => wg j.2) x.2 = 1 / 2 * gradPD wg (part x.1) := by
  intro f x
  have hx := xstep_sim he D B S mu hm wg hg rho hr X0 Y0 U0 Xf
  refine regGrad_eq hN2 (fun j : L × M => wg j.2) (fun j => hg j.2) x.1 _ fun k m => ?_
  have h := LG.xstep_Xf (q := ⟨false, false, false⟩) (D := prodDict B D) (wg := fun j : L × M => wg j.2) hm
    (fun j => hg j.2) hr (h := ⟨none, Xf⟩) rfl S X0 Y0 U0 k m
  rw [hx] at h
  exact h

/-- **C40.** Without `AuxVarObj` the objective, data fidelity and l1 terms recorded by `ConvProdDictL1L1Grd` are those
of the functional at the X just computed. -/
theorem C40_proddictl1_recorded (hN : ∀ n, Nd n ≤ N n) (hN2 : ∀ k, 2 ≤ N k) (eigh : Eigh L) (he : EighOk eigh)
    (q : COpts) (D : Dict 0 M Nd) (B : Matrix (Fin (c + 1)) L ℝ) (S W : Signal c K N) (lmbda mu : ℝ) (hm : 0 ≤ mu)
    (w : K × (L × M) × Grid N → ℝ) (hw : ∀ i, 0 ≤ w i) (wg : M → ℝ) (hg : ∀ m, 0 ≤ wg m) (rho : ℝ) (hr : 0 < rho)
    (X0 : Coef K (L × M) N) (Y0 U0 Y : YY c K (L × M) N) (Xf : Spec K (L × M) N a) :
    let C := clsPL q (fix0 eigh D B) S W lmbda mu w wg false
    let x := C.xstep rho X0 Y0 U0 Xf
    C.objfn x.1 Y x.2 = (objPL D B S W lmbda mu w wg (part x.1), l1PD D B S W (part x.1),
      ∑ k, ∑ j, ∑ p, w (k, j, p) * |part x.1 k j p|) := by
  intro C x
  have e0 := g0_eq hN he D B S W mu hm wg hg rho hr X0 Y0 U0 Y Xf
  have e2 := rgr_eq hN2 he D B S mu hm wg hg rho hr X0 Y0 U0 Xf
  have e1 : (normL1 fun i => w i * g1var false x.1 Y i) = ∑ k, ∑ j, ∑ p, w (k, j, p) * |part x.1 k j p| := by
    unfold g1var
    rw [← l1w_part, ← normL1_part hw]
    simp
  change (_ + lmbda * (normL1 fun i => w i * g1var false x.1 Y i) + mu * _, _,
    (normL1 fun i => w i * g1var false x.1 Y i)) = _
  simp only at e0 e2
  change (∑ i, ∑ k, ∑ p, |W i k p * part (g0var (fix0 eigh D B) S false Y
    (xstep (fix0 eigh D B) S mu wg rho X0 Y0 U0 Xf).2) i k p| + _ +
      mu * regGrad (fun j : L × M => wg j.2) (xstep (fix0 eigh D B) S mu wg rho X0 Y0 U0 Xf).2,
    ∑ i, ∑ k, ∑ p, |W i k p * part (g0var (fix0 eigh D B) S false Y
      (xstep (fix0 eigh D B) S mu wg rho X0 Y0 U0 Xf).2) i k p|, _) = _
  rw [e0, e1, e2]
  unfold objPL
  ext
  · change l1PD D B S W (part x.1) + _ + mu * (1 / 2 * gradPD wg (part x.1)) = _
    ring
  all_goals rfl

/-- **C40.** As `C40_proddictl1_recorded`, for `ConvProdDictL1L1GrdJoint`. -/
theorem C40_proddictl1joint_recorded (hN : ∀ n, Nd n ≤ N n) (hN2 : ∀ k, 2 ≤ N k) (eigh : Eigh L) (he : EighOk eigh)
    (q : COpts) (D : Dict 0 M Nd) (B : Matrix (Fin (c + 1)) L ℝ) (S W : Signal c K N) (lmbda mu : ℝ) (hm : 0 ≤ mu)
    (wl21 : K × M → ℝ) (wg : M → ℝ) (hg : ∀ m, 0 ≤ wg m) (rho : ℝ) (hr : 0 < rho)
    (X0 : Coef K (L × M) N) (Y0 U0 Y : YY c K (L × M) N) (Xf : Spec K (L × M) N a) :
    let C := clsPLJ q (fix0 eigh D B) S W lmbda mu wl21 wg false
    let x := C.xstep rho X0 Y0 U0 Xf
    C.objfn x.1 Y x.2 = (objPLJ D B S W lmbda mu wl21 wg (part x.1), l1PD D B S W (part x.1),
      ∑ k, ∑ m, ∑ p, wl21 (k, m) * Real.sqrt (∑ l, part x.1 k (l, m) p ^ 2)) := by
  intro C x
  have e0 := g0_eq hN he D B S W mu hm wg hg rho hr X0 Y0 U0 Y Xf
  have e2 := rgr_eq hN2 he D B S mu hm wg hg rho hr X0 Y0 U0 Xf
  have e1 : g1J wl21 (g1var false x.1 Y) = ∑ k, ∑ m, ∑ p, wl21 (k, m) * Real.sqrt (∑ l, part x.1 k (l, m) p ^ 2) := by
    unfold g1J g1var
    simp only [Fintype.sum_prod_type, Bool.false_eq_true, if_false, sub_zero]
    rfl
  simp only at e0 e2
  change (∑ i, ∑ k, ∑ p, |W i k p * part (g0var (fix0 eigh D B) S false Y
    (xstep (fix0 eigh D B) S mu wg rho X0 Y0 U0 Xf).2) i k p| + lmbda * g1J wl21 (g1var false x.1 Y) +
      mu * regGrad (fun j : L × M => wg j.2) (xstep (fix0 eigh D B) S mu wg rho X0 Y0 U0 Xf).2,
    ∑ i, ∑ k, ∑ p, |W i k p * part (g0var (fix0 eigh D B) S false Y
      (xstep (fix0 eigh D B) S mu wg rho X0 Y0 U0 Xf).2) i k p|, g1J wl21 (g1var false x.1 Y)) = _
  rw [e0, e1, e2]
  unfold objPLJ
  ext
  · change l1PD D B S W (part x.1) + _ + mu * (1 / 2 * gradPD wg (part x.1)) = _
    ring
  all_goals rfl

/-! ## Histories -/

/-- What a user does with a solver object: run `solve` with a callback that looks at the arrays and statistics, or
replace dictionaries. -/
inductive Cmd (c : ℕ) (K L M : Type*) {d : ℕ} (Nd N : Fin d → ℕ) [∀ k, NeZero (N k)] [Fintype K] [Fintype L]
    [Fintype M]
  | solve (o : Opts) (cb : Option (St (Coef K (L × M) N) (YY c K (L × M) N) (YY c K (L × M) N) Unit → Bool))
  | setdict (D : Option (Dict 0 M Nd)) (B : Option (Matrix (Fin (c + 1)) L ℝ))

/-- The callback as the solver loop sees it. -/
def liftCb (cb : Option (St (Coef K (L × M) N) (YY c K (L × M) N) (YY c K (L × M) N) Unit → Bool)) :
    Option (StL c K L M N a → Bool × Spec K (L × M) N a) :=
  cb.map fun f t => (f (t.mapExtra fun _ => ()), t.extra)

theorem liftCb_reads (cb : Option (St (Coef K (L × M) N) (YY c K (L × M) N) (YY c K (L × M) N) Unit → Bool)) :
    Bpdn.CallbackReads (liftCb (a := a) cb) := by
  intro f t hf
  cases cb with
  | none => simp [liftCb] at hf
  | some g =>
    simp only [liftCb, Option.map_some, Option.some.injEq] at hf
    rw [← hf]

/-- The effect of one command on an object: `cls f` is the class while the dictionary attributes are `f`. -/
noncomputable def Cmd.run (eigh : Eigh L) (cls : Fix c L M Nd N a →
    Cls (Coef K (L × M) N) (YY c K (L × M) N) (YY c K (L × M) N) (Spec K (L × M) N a))
    (s : Fix c L M Nd N a × StL c K L M N a) : Cmd c K L M Nd N → Fix c L M Nd N a × StL c K L M N a
  | .solve o cb => (s.1, Admm.solve (cls s.1) o (liftCb cb) s.2)
  | .setdict D B => (PL.setdict eigh D B s.1, s.2)

/-- The rho update of the options has a positive threshold and multiplier above one. -/
def Cmd.Ok : Cmd c K L M Nd N → Prop
  | .solve o _ => o.autoRho = true → o.RhoOk
  | .setdict _ _ => True

/-- The dictionaries given last. -/
def lastDB (p : Dict 0 M Nd × Matrix (Fin (c + 1)) L ℝ) : Cmd c K L M Nd N → Dict 0 M Nd × Matrix (Fin (c + 1)) L ℝ
  | .solve _ _ => p
  | .setdict D B => (D.getD p.1, B.getD p.2)

theorem runAll_fix (eigh : Eigh L) (cls : Fix c L M Nd N a →
    Cls (Coef K (L × M) N) (YY c K (L × M) N) (YY c K (L × M) N) (Spec K (L × M) N a))
    (hk : ∀ f, Keeps (cls f) fun _ _ => True) (l : List (Cmd c K L M Nd N)) :
    (∀ x ∈ l, x.Ok) → ∀ (s : Fix c L M Nd N a × StL c K L M N a) (DB : Dict 0 M Nd × Matrix (Fin (c + 1)) L ℝ),
      0 < s.2.rho → s.1 = fix0 eigh DB.1 DB.2 →
      0 < (l.foldl (Cmd.run eigh cls) s).2.rho ∧
      (l.foldl (Cmd.run eigh cls) s).1 = fix0 eigh (l.foldl lastDB DB).1 (l.foldl lastDB DB).2 := by
  induction l with
  | nil => intro _ s DB hp hI; exact ⟨hp, hI⟩
  | cons x l ih =>
    intro hok s DB hp hI
    have hx := hok x (List.mem_cons_self ..)
    have hl : ∀ y ∈ l, y.Ok := fun y hy => hok y (List.mem_cons_of_mem _ hy)
    rw [List.foldl_cons, List.foldl_cons]
    cases x with
    | solve o cb =>
      have h2 := loop_keeps (hk s.1) o hx (liftCb cb) ((liftCb_reads cb).keeps _) (List.range' s.2.k o.maxMainIter)
        s.2 hp trivial
      exact ih hl _ DB h2.1 hI
    | setdict Dn Bn =>
      refine ih hl (Cmd.run eigh cls s (.setdict Dn Bn)) (Dn.getD DB.1, Bn.getD DB.2) hp ?_
      change PL.setdict eigh Dn Bn s.1 = _
      rw [hI]
      exact setdict_fix eigh DB.1 DB.2 Dn Bn

/-- **C40.** `ConvProdDictL1L1Grd` and `ConvProdDictL1L1GrdJoint`: after every history of `solve` calls (with automatic
rho changes, relaxation, callbacks) and of dictionary replacements of every form, at every iteration of the next
run, X is the unique minimiser of the augmented Lagrangian for the dictionaries given last and the current rho, Y and
U. -/
theorem C40_proddictl1_history (hN : ∀ k, Nd k ≤ N k) (hN2 : ∀ k, 2 ≤ N k) (eigh : Eigh L) (he : EighOk eigh)
    (q : COpts) (D : Dict 0 M Nd) (B : Matrix (Fin (c + 1)) L ℝ) (S W : Signal c K N) (lmbda mu : ℝ) (hm : 0 ≤ mu)
    (w : K × (L × M) × Grid N → ℝ) (wl21 : K × M → ℝ) (wg : M → ℝ) (hg : ∀ m, 0 ≤ wg m) (av joint : Bool)
    (s : StL c K L M N a) (hr : 0 < s.rho) (l : List (Cmd c K L M Nd N)) (hl : ∀ x ∈ l, x.Ok) (o : Opts)
    (ho : o.autoRho = true → o.RhoOk) (cb) (hcb : Bpdn.CallbackReads cb) (n : ℕ) :
    let cls := fun f : Fix c L M Nd N a =>
      if joint then clsPLJ q f S W lmbda mu wl21 wg av else clsPL q f S W lmbda mu w wg av
    let DB := l.foldl lastDB (D, B)
    let t := l.foldl (Cmd.run eigh cls) (fix0 eigh D B, s)
    let T := traj (cls t.1) o cb t.2
    IsUniqueMin (augPL DB.1 DB.2 S mu wg (T n).rho (part (T n).Y.fst) (part (T n).U.fst) (part (T n).Y.snd)
      (part (T n).U.snd)) Set.univ (part (T (n + 1)).X) := by
  intro cls DB t T
  have hk : ∀ f, Keeps (cls f) fun _ _ => True := by
    intro f
    change Keeps (if joint then clsPLJ q f S W lmbda mu wl21 wg av else clsPL q f S W lmbda mu w wg av) _
    split_ifs
    · exact keeps_of f S W lmbda mu _ _ wg av
    · exact keeps_of f S W lmbda mu _ _ wg av
  have hx : ∀ f, (cls f).xstep = xstep f S mu wg := by
    intro f
    change (if joint then clsPLJ q f S W lmbda mu wl21 wg av else clsPL q f S W lmbda mu w wg av).xstep = _
    split_ifs <;> rfl
  obtain ⟨h1, h2⟩ := runAll_fix eigh cls hk l hl (fix0 eigh D B, s) (D, B) hr rfl
  obtain ⟨h3, -⟩ := traj_keeps (hk t.1) o ho cb (hcb.keeps _) t.2 h1 trivial n
  have e : (T (n + 1)).X = (xstep t.1 S mu wg (T n).rho (T n).X (T n).Y (T n).U (T n).extra).1 := by
    change (traj (cls t.1) o cb t.2 (n + 1)).X = _
    rw [traj_succ, oneIter_X, hx]
  have h4 : t.1 = fix0 eigh DB.1 DB.2 := h2
  rw [e, h4]
  exact (C40_proddictl1_xstep hN hN2 eigh he DB.1 DB.1 DB.2 DB.2 S mu hm wg hg _ h3 _ _ _ _).1

end Sporco.Conv.PL
