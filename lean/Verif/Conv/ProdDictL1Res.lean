import Verif.Conv.ProdDictL1Thm

/-!
# `ConvProdDictL1L1Grd`: the recorded dual residual, and construction (C39, C43)
-/

set_option autoImplicit false
set_option linter.unusedSectionVars false

namespace Sporco.Admm

open Filter Topology
open scoped RealInnerProductSpace

variable {E F G H V : Type*} [NormedAddCommGroup E] [InnerProductSpace ℝ E] [NormedAddCommGroup F]
  [InnerProductSpace ℝ F] [NormedAddCommGroup G] [InnerProductSpace ℝ G] [NormedAddCommGroup V]
  [InnerProductSpace ℝ V]

/-- With `f(x) = (1/2) ‖G x‖²`, the vector `rho Aᵀ u` approaches minus the gradient of f. -/
theorem dual_limit {C : Cls E F G H} {P : Problem E F G} {Inv : ℝ → H → Prop}
    (hC : Implements C P Inv) (o : Opts) (ha : o.autoRho = false) (hrlx : 0 < o.rlx ∧ o.rlx < 2) (cb)
    (hcb : CallbackKeeps Inv cb) (s : St E F G H) (hp : 0 < s.rho) (hI : Inv s.rho s.extra)
    {xs : E} {ys : F} {l : G} (hsad : P.Saddle xs ys l) (Gr : E →L[ℝ] V) (GT : V →L[ℝ] E)
    (hadj : ∀ x y, ⟪Gr x, y⟫ = ⟪x, GT y⟫) (hf : ∀ x, P.f x = 1 / 2 * ‖Gr x‖ ^ 2) (hD : P.Df = Set.univ) :
    let T := traj C o cb s
    Tendsto (fun n => s.rho • P.AT (T (n + 1)).U + GT (Gr (T (n + 1)).X)) atTop (𝓝 0) := by
  intro T
  have hstep : ∀ n, (T (n + 1)).X = (steps C o (T n)).X := by
    intro n
    have := oneIter_steps C o ha cb (T n)
    change (traj C o cb s (n + 1)).X = _
    rw [traj_succ]
    exact this.1
  have hrho : ∀ n, (T n).rho = s.rho := traj_rho C o ha cb s
  have hinv := fun n => traj_inv hC o (fun h => by simp [ha] at h) cb hcb s hp hI n
  have hspec := fun n => steps_spec hC o (T n) (hinv n).1 (hinv n).2
  have hx : ∀ n z, P.f (T (n + 1)).X -
      s.rho * ⟪P.A (T (n + 1)).X + (P.B (T n).Y - P.c) + (T n).U, P.A z - P.A (T (n + 1)).X⟫ ≤ P.f z := by
    intro n z
    have := (hspec n).2.2.2.2.2.2.1 z (by rw [hD]; trivial)
    rw [hrho n] at this
    rw [hstep n]; exact this
  have hopt : ∀ n, GT (Gr (T (n + 1)).X) +
      s.rho • P.AT (P.A (T (n + 1)).X + (P.B (T n).Y - P.c) + (T n).U) = 0 := by
    intro n
    obtain ⟨x, hxd⟩ : ∃ x, x = (T (n + 1)).X := ⟨_, rfl⟩
    obtain ⟨r, hrd⟩ : ∃ r, r = P.A (T (n + 1)).X + (P.B (T n).Y - P.c) + (T n).U := ⟨_, rfl⟩
    have h1 := hx n
    rw [← hrd, ← hxd] at *
    obtain ⟨w, hw⟩ : ∃ w, w = GT (Gr x) + s.rho • P.AT r := ⟨_, rfl⟩
    rw [← hw]
    have h2 : ∀ t : ℝ, 0 ≤ -t * ‖w‖ ^ 2 + t ^ 2 / 2 * ‖Gr w‖ ^ 2 := by
      intro t
      have h3 := h1 (x - t • w)
      rw [hf, hf, map_sub, map_sub, map_smul, map_smul, norm_sub_sq_real, norm_smul, inner_smul_right,
        show P.A x - t • P.A w - P.A x = -(t • P.A w) by abel, inner_neg_right, inner_smul_right,
        real_inner_comm, P.adj, Real.norm_eq_abs, mul_pow, sq_abs, hadj] at h3
      have h4 : ⟪w, w⟫ = ⟪w, GT (Gr x)⟫ + s.rho * ⟪w, P.AT r⟫ := by
        have : ⟪w, w⟫ = ⟪w, GT (Gr x) + s.rho • P.AT r⟫ := by rw [← hw]
        rw [this, inner_add_right, inner_smul_right]
      have h5 : ⟪w, GT (Gr x)⟫ = ⟪x, GT (Gr w)⟫ := by rw [← hadj, ← hadj, real_inner_comm]
      rw [h5] at h4
      rw [real_inner_self_eq_norm_sq] at h4
      rw [h4]
      linarith
    by_contra hne
    have hpos : 0 < ‖w‖ ^ 2 := by positivity
    have h3 := h2 (‖w‖ ^ 2 / (‖Gr w‖ ^ 2 + 1))
    have h5 : 0 < ‖Gr w‖ ^ 2 + 1 := by positivity
    have h6 : -(‖w‖ ^ 2 / (‖Gr w‖ ^ 2 + 1)) * ‖w‖ ^ 2 + (‖w‖ ^ 2 / (‖Gr w‖ ^ 2 + 1)) ^ 2 / 2 * ‖Gr w‖ ^ 2 =
        (‖w‖ ^ 2) ^ 2 * (-(‖Gr w‖ ^ 2 + 2)) / (2 * (‖Gr w‖ ^ 2 + 1) ^ 2) := by
      field_simp
      ring
    rw [h6] at h3
    have h7 : (‖w‖ ^ 2) ^ 2 * (-(‖Gr w‖ ^ 2 + 2)) / (2 * (‖Gr w‖ ^ 2 + 1) ^ 2) < 0 := by
      refine div_neg_of_neg_of_pos ?_ (by positivity)
      exact mul_neg_of_pos_of_neg (by positivity) (by nlinarith [sq_nonneg ‖Gr w‖])
    linarith
  have hrun := run_of_traj hC o ha hrlx cb hcb s hp hI hsad
  have h1 := hrun.delta_tendsto.2.sub hrun.ab_tendsto
  rw [sub_zero] at h1
  have h2 := ((P.AT.continuous.tendsto 0).comp h1).const_smul s.rho
  rw [map_zero, smul_zero] at h2
  refine h2.congr fun n => ?_
  have h3 := hopt n
  have h4 : GT (Gr (T (n + 1)).X) = -(s.rho • P.AT (P.A (T (n + 1)).X + (P.B (T n).Y - P.c) + (T n).U)) :=
    eq_neg_of_add_eq_zero_left h3
  rw [h4, ← sub_eq_add_neg, ← smul_sub, ← map_sub]
  change s.rho • P.AT ((T (n + 1)).U - (T n).U - (P.A (T (n + 1)).X + (P.B (T n).Y - P.c))) = _
  congr 2
  abel

end Sporco.Admm

namespace Sporco.Conv.LG

open Finset ComplexConjugate Sporco.Linalg Sporco.Prox Sporco.Admm Sporco.Conv Sporco.Conv.TB Sporco.Conv.Grd Filter
  Topology

variable {d c : ℕ} {N Nd : Fin d → ℕ} [∀ k, NeZero (N k)] {a : Fin d} {K M : Type*} [Fintype K]
  [Fintype M]

/-- `∑ᵢ Gᵢᵀ Gᵢ x` with weights. -/
def lap (wg : M → ℝ) (X : K → M → Grid N → ℝ) : K → M → Grid N → ℝ :=
  fun k m p => wg m * ∑ i, (2 * X k m p - X k m (p - Pi.single i 1) - X k m (p + Pi.single i 1))

theorem rcorr_rconv (h s : Grid N → ℝ) (p : Grid N) : rcorr h s p = rconv h (fun q => s (-q)) (-p) := by
  unfold rcorr rconv
  refine sum_congr rfl fun y _ => ?_
  simp only [neg_sub, sub_neg_eq_add]
  rw [add_comm]

theorem gradWT_gradW (h2 : ∀ k, 2 ≤ N k) (mu : ℝ) (hm : 0 ≤ mu) (wg : M → ℝ) (hg : ∀ m, 0 ≤ wg m)
    (x : Coef K M N) :
    gradWT (fun m => Real.sqrt (mu * wg m)) (gradW (fun m => Real.sqrt (mu * wg m)) x) = mu • join (lap wg (part x)) := by
  ext ⟨k, m, p⟩
  change part (gradWT _ (gradW _ x)) k m p = mu * lap wg (part x) k m p
  rw [part_gradWT]
  simp only [part_gradW, rcorr_rconv]
  unfold lap
  rw [← mul_assoc, mul_sum, mul_sum]
  refine sum_congr rfl fun i _ => ?_
  rw [Tv.Dec.rconv_gradG i (h2 i)]
  simp only [Tv.Dec.rconv_gradG i (h2 i)]
  have h3 : Real.sqrt (mu * wg m) * Real.sqrt (mu * wg m) = mu * wg m :=
    Real.mul_self_sqrt (mul_nonneg hm (hg m))
  unfold Tv.Dec.cdiff
  simp only [neg_neg]
  rw [show -(-p - Pi.single i 1) = p + Pi.single i 1 by abel, add_sub_cancel_right]
  linear_combination (2 * part x k m p - part x k m (p - Pi.single i 1) - part x k m (p + Pi.single i 1)) * h3

/-- The dual residual of the class, computed as `rho Aᵀ u`, approaches the gradient of the smooth term. -/
theorem dual_gen (h2 : ∀ k, 2 ≤ N k) (D : Dict c M Nd) (S W : Signal c K N) (hW : ∀ i, 0 ≤ wA W i) (mu : ℝ)
    (hm : 0 ≤ mu) (wg : M → ℝ) (hg : ∀ m, 0 ≤ wg m) (g1 : Coef K M N → ℝ) (Cs : Set (Coef K M N))
    (hg1 : ConvexOn ℝ Cs g1) (hcl : IsClosed Cs) (hne : Cs.Nonempty) (hcont : Continuous g1)
    (r : ℝ) (hr : 0 < r) (hgrow : ∀ y, r * ‖y‖ ≤ g1 y)
    (ys) (hys : YOk S W g1 Cs ys) (ob) (o : Opts) (ha : o.autoRho = false) (hrlx : 0 < o.rlx ∧ o.rlx < 2)
    (cb) (hcb : Bpdn.CallbackReads cb) (s : St (Coef K M N) (YY c K M N) (YY c K M N) (AttrTB K M N a))
    (hp : 0 < s.rho) (hs : s.extra.cc = none) :
    let T := traj (clsGen a D S mu wg ys ob) o cb s
    Tendsto (fun n => s.rho • TwoBlock.cnstAT (cnstA0T a D) (fun y => y) (T (n + 1)).U +
      mu • join (lap wg (part (T (n + 1)).X))) atTop (𝓝 0) := by
  intro T
  obtain ⟨x, hx, hmin⟩ := exists_gen D S W hW mu wg g1 Cs hcl hne hcont r hr hgrow
  obtain ⟨l, hsad⟩ := saddle_gen D S W hW mu wg g1 Cs hg1 x hx hmin
  have hC := implements_gen (a := a) D S W hW mu hm wg hg g1 Cs hg1 ys hys ob
  have hk : CallbackKeeps (fun (_ : ℝ) (h : AttrTB K M N a) => h.cc = none) cb := hcb.keeps _
  have h := dual_limit hC o ha hrlx cb hk s hp hs hsad (gradW fun m => Real.sqrt (mu * wg m))
    (gradWT fun m => Real.sqrt (mu * wg m)) (fun x y => gradW_adj _ x y) (fun x => rfl) rfl
  have hT : (cnstA0T a D : Sig (Fin (c + 1)) K N → Coef K M N) = convOpT (padD N D) :=
    funext fun X => cnstA0T_eq D X
  refine h.congr fun n => ?_
  rw [gradWT_gradW h2 mu hm wg hg, hT]
  rfl

end Sporco.Conv.LG

namespace Sporco.Conv.PL

open Finset ComplexConjugate Sporco.Linalg Sporco.Prox Sporco.Admm Sporco.Conv Sporco.Conv.TB Sporco.Conv.Grd
  Sporco.Conv.PD Filter Topology
open scoped RealInnerProductSpace

variable {d c : ℕ} {N Nd : Fin d → ℕ} [∀ k, NeZero (N k)] {a : Fin d} {K L M : Type*} [Fintype K]
  [Fintype L] [Fintype M] [DecidableEq L]

/-- `∑ᵢ Gᵢᵀ Gᵢ X` with weights: the gradient of `(1/2) gradPD`. -/
def lapPD (wg : M → ℝ) (X : K → L × M → Grid N → ℝ) : K → L × M → Grid N → ℝ :=
  fun k j p => wg j.2 * ∑ i, (2 * X k j p - X k j (p - Pi.single i 1) - X k j (p + Pi.single i 1))

theorem residual_of (hN2 : ∀ k, 2 ≤ N k) {eigh : Eigh L} (he : EighOk eigh) (D : Dict 0 M Nd)
    (B : Matrix (Fin (c + 1)) L ℝ)
    (S W : Signal c K N) (hW : ∀ i, 0 ≤ LG.wA W i) (lmbda mu : ℝ) (hm : 0 ≤ mu) (ys)
    (hys : ∀ rho AX X Y U h, ys rho AX X Y U h = (ysArr (a := a) ys rho AX U, h))
    (g1) (wg : M → ℝ) (hg : ∀ m, 0 ≤ wg m) (av : Bool)
    (g1' : Coef K (L × M) N → ℝ) (Cs : Set (Coef K (L × M) N)) (hg1 : ConvexOn ℝ Cs g1')
    (hcl : IsClosed Cs) (hne : Cs.Nonempty) (hcont : Continuous g1')
    (r : ℝ) (hr : 0 < r) (hgrow : ∀ y, r * ‖y‖ ≤ g1' y) (hy : LG.YOk S W g1' Cs (ysArr ys))
    (o : Opts) (ha : o.autoRho = false) (hrlx : 0 < o.rlx ∧ o.rlx < 2)
    (cb) (hcb : Bpdn.CallbackReads cb) (s : StL c K L M N a) (hp : 0 < s.rho) :
    let C := clsOf (fix0 eigh D B) S W lmbda mu ys g1 wg av
    let T := traj C o cb s
    Tendsto (fun n => C.nrmS (T n).rho (T n).Yprev (T n).Y (T n).U -
      mu * ‖(join (lapPD wg (part (T n).X)) : Coef K (L × M) N)‖) atTop (𝓝 0) := by
  intro C T
  have hrd : Bpdn.CallbackReads (none : Option (St (Coef K (L × M) N) (YY c K (L × M) N) (YY c K (L × M) N)
      (AttrTB K (L × M) N a) → Bool × AttrTB K (L × M) N a)) := by intro f t hf; cases hf
  have h := LG.dual_gen (a := a) hN2 (prodDict B D) S W hW mu hm (fun j : L × M => wg j.2)
    (fun j => hg j.2) g1' Cs hg1 hcl hne hcont r hr hgrow (ysArr ys) hy (fun _ _ _ => (0, 0, 0)) o ha hrlx none hrd
    (s.mapExtra toTB) hp rfl
  have ht := fun n => traj_gen he D B S W lmbda mu hm ys hys g1 wg hg av o ha cb hcb s hp n
  simp only at ht
  have hrho : ∀ n, (T n).rho = s.rho := traj_rho C o ha cb s
  refine (tendsto_add_atTop_iff_nat 1).1 ?_
  refine squeeze_zero_norm (fun n => ?_) (tendsto_zero_iff_norm_tendsto_zero.1 h)
  obtain ⟨h1, -, h3, -⟩ := ht (n + 1)
  rw [hrho, ← h1, ← h3, Real.norm_eq_abs]
  have e : C.nrmS s.rho (T (n + 1)).Yprev (T (n + 1)).Y (T (n + 1)).U =
      ‖s.rho • TwoBlock.cnstAT (TB.cnstA0T a (prodDict B D)) (fun y => y) (T (n + 1)).U‖ := by
    rw [← cnstA0T_prod eigh]
    rfl
  have e2 : mu * ‖(join (lapPD wg (part (T (n + 1)).X)) : Coef K (L × M) N)‖ =
      ‖-(mu • join (LG.lap (fun j : L × M => wg j.2) (part (T (n + 1)).X)) : Coef K (L × M) N)‖ := by
    rw [norm_neg, norm_smul, Real.norm_of_nonneg hm]
    rfl
  rw [e, e2]
  refine (abs_norm_sub_norm_le _ _).trans (le_of_eq ?_)
  rw [sub_neg_eq_add]
  rfl

/-- **C39 for `ConvProdDictL1L1Grd` (part).** In the setting of `C39_C67_proddictl1_partial`, the dual residual recorded
by the class approaches `mu` times the norm of `∑ᵢ Gᵢᵀ Gᵢ X`.  In particular it tends to zero when `mu = 0`.
Missing: for `mu > 0` it need not tend to zero, see `C39_proddictl1_residual_refuted`. -/
theorem C39_proddictl1_residual_partial (hN : ∀ n, Nd n ≤ N n) (hN2 : ∀ k, 2 ≤ N k) (eigh : Eigh L) (he : EighOk eigh)
    (q : COpts) (h2 : q.noBndry = true → ∀ n, 2 ≤ Nd n) (D : Dict 0 M Nd) (B : Matrix (Fin (c + 1)) L ℝ)
    (S W : Signal c K N) (hW : ∀ i k p, 0 ≤ W i k p) (lmbda mu : ℝ) (hl : 0 < lmbda) (hm : 0 ≤ mu)
    (w : K × (L × M) × Grid N → ℝ) (hw : ∀ i, 0 < w i) (wg : M → ℝ) (hg : ∀ m, 0 ≤ wg m) (av : Bool) (o : Opts)
    (ha : o.autoRho = false) (hrlx : 0 < o.rlx ∧ o.rlx < 2) (cb) (hcb : Bpdn.CallbackReads cb)
    (s : StL c K L M N a) (hp : 0 < s.rho) :
    let C := clsPL q (fix0 eigh D B) S W lmbda mu w wg av
    let T := traj C o cb s
    Tendsto (fun n => C.nrmS (T n).rho (T n).Yprev (T n).Y (T n).U -
      mu * Real.sqrt (∑ k, ∑ j, ∑ p, lapPD wg (part (T n).X) k j p ^ 2)) atTop (𝓝 0) := by
  intro C T
  have hW' : ∀ i, 0 ≤ LG.wA W i := fun i => hW _ _ _
  have hw0 : ∀ i, 0 ≤ w i := fun i => (hw i).le
  obtain ⟨r, hr, hgrow⟩ := Bpdn.l1w_grow w hw lmbda hl
  have h := residual_of (a := a) hN2 he D B S W hW' lmbda mu hm (ystep q Nd S W lmbda w)
    (fun _ _ _ _ _ _ => rfl) (fun y => normL1 fun i => w i * y i) wg hg av (fun y => lmbda * l1w w y.ofLp) (cset q Nd)
    (Bpdn.convex_l1w w hw0 _ (convex_cset (K := K) (M := L × M) (N := N) q Nd) lmbda hl.le)
    (closed_cset q Nd) ⟨0, zero_cset q Nd⟩ (continuous_const.mul (Bpdn.continuous_l1w w)) r hr hgrow
    (yok_l1 hN q h2 S W lmbda hl.le w hw0) o ha hrlx cb hcb s hp
  refine h.congr fun n => ?_
  congr 2
  rw [← Real.sqrt_sq (norm_nonneg _), norm_part]
  rfl

/-- **C39 for `ConvProdDictL1L1GrdJoint` (part).** As `C39_proddictl1_residual_partial`. -/
theorem C39_proddictl1joint_residual_partial (hN : ∀ n, Nd n ≤ N n) (hN2 : ∀ k, 2 ≤ N k) (eigh : Eigh L)
    (he : EighOk eigh) (q : COpts) (hq : q.nonNeg = false) (h2 : q.noBndry = true → ∀ n, 2 ≤ Nd n) (D : Dict 0 M Nd)
    (B : Matrix (Fin (c + 1)) L ℝ) (S W : Signal c K N) (hW : ∀ i k p, 0 ≤ W i k p) (lmbda mu : ℝ) (hl : 0 < lmbda)
    (hm : 0 ≤ mu) (wl21 : K × M → ℝ) (hw : ∀ i, 0 < wl21 i) (wg : M → ℝ) (hg : ∀ m, 0 ≤ wg m) (av : Bool) (o : Opts)
    (ha : o.autoRho = false) (hrlx : 0 < o.rlx ∧ o.rlx < 2) (cb) (hcb : Bpdn.CallbackReads cb)
    (s : StL c K L M N a) (hp : 0 < s.rho) :
    let C := clsPLJ q (fix0 eigh D B) S W lmbda mu wl21 wg av
    let T := traj C o cb s
    Tendsto (fun n => C.nrmS (T n).rho (T n).Yprev (T n).Y (T n).U -
      mu * Real.sqrt (∑ k, ∑ j, ∑ p, lapPD wg (part (T n).X) k j p ^ 2)) atTop (𝓝 0) := by
  intro C T
  have hW' : ∀ i, 0 ≤ LG.wA W i := fun i => hW _ _ _
  have hw0 : ∀ i, 0 ≤ wl21 i := fun i => (hw i).le
  obtain ⟨r, hr, hgrow⟩ := gW_grow (N := N) (L := L) lmbda hl wl21 hw
  have h := residual_of (a := a) hN2 he D B S W hW' lmbda mu hm (ystepJ q Nd S W lmbda wl21)
    (fun _ _ _ _ _ _ => rfl) (g1J wl21) wg hg av (gW lmbda wl21) (cset q Nd)
    (convex_gW lmbda hl.le wl21 hw0 _ (convex_cset (K := K) (M := L × M) (N := N) q Nd))
    (closed_cset q Nd) ⟨0, zero_cset q Nd⟩ (continuous_gW lmbda wl21) r hr hgrow
    (yok_joint hN q hq h2 S W lmbda hl.le wl21 hw0) o ha hrlx cb hcb s hp
  refine h.congr fun n => ?_
  congr 2
  rw [← Real.sqrt_sq (norm_nonneg _), norm_part]
  rfl

end Sporco.Conv.PL
