import Verif.Conv.CbpdnConv

/-!
# `ConvBPDNJoint`: convergence (C39)
-/

set_option autoImplicit false
set_option linter.unusedSectionVars false

namespace Sporco.Conv

open Finset ComplexConjugate Sporco.Linalg Sporco.Prox Sporco.Admm Filter Topology
open scoped RealInnerProductSpace

variable {d c : ℕ} {N Nd : Fin d → ℕ} [∀ k, NeZero (N k)] {a : Fin d} {K M L : Type*} [Fintype K]
  [Fintype M] [Fintype L]

/-- The `ConvBPDNJoint` functional: the channels of the coefficient array are indexed by `L`. -/
noncomputable def objConvJnt (D : Dict c M Nd) (S : Signal c (L × K) N) (lmbda mu : ℝ)
    (w : (L × K) × M × Grid N → ℝ) (wl21 : ℝ) (X : L × K → M → Grid N → ℝ) : ℝ :=
  dataTerm D S X + lmbda * ∑ k, ∑ m, ∑ p, w (k, m, p) * |X k m p| +
    mu * ∑ k : K, ∑ m, ∑ p, wl21 * Real.sqrt (∑ l : L, X (l, k) m p ^ 2)

/-- The channels at one position. -/
def fib (y : Coef (L × K) M N) (s : K × M × Grid N) : L → ℝ := fun l => y ((l, s.1), s.2)

/-- The regulariser. -/
noncomputable def gCJnt (lmbda mu : ℝ) (w : (L × K) × M × Grid N → ℝ) (wl21 : ℝ)
    (y : Coef (L × K) M N) : ℝ :=
  lmbda * l1w w y.ofLp + mu * wl21 * ∑ s : K × M × Grid N, l2 (fib y s)

theorem convex_gCJnt (lmbda mu : ℝ) (hl : 0 ≤ lmbda) (hm : 0 ≤ mu) (w : (L × K) × M × Grid N → ℝ)
    (hw : ∀ i, 0 ≤ w i) (wl21 : ℝ) (hv : 0 ≤ wl21) (C : Set (Coef (L × K) M N)) (hC : Convex ℝ C) :
    ConvexOn ℝ C (gCJnt (K := K) (M := M) (N := N) (L := L) lmbda mu w wl21) := by
  refine ⟨hC, fun x _ y _ a b ha hb hab => ?_⟩
  have h1 := (Bpdn.convex_l1w w hw Set.univ convex_univ lmbda hl).2 (Set.mem_univ x) (Set.mem_univ y) ha hb hab
  have h2 : ∀ i, l2 (fib (a • x + b • y) i) ≤ a * l2 (fib x i) + b * l2 (fib y i) := by
    intro i
    rw [Bpdn.l2_norm, Bpdn.l2_norm, Bpdn.l2_norm]
    have e : (WithLp.toLp 2 (fib (a • x + b • y) i) : EuclideanSpace ℝ L) =
      a • WithLp.toLp 2 (fib x i) + b • WithLp.toLp 2 (fib y i) := rfl
    rw [e]
    refine (norm_add_le _ _).trans (le_of_eq ?_)
    rw [norm_smul, norm_smul, Real.norm_of_nonneg ha, Real.norm_of_nonneg hb]
  have h3 := Finset.sum_le_sum fun i (_ : i ∈ Finset.univ) => h2 i
  rw [Finset.sum_add_distrib, ← Finset.mul_sum, ← Finset.mul_sum] at h3
  have h4 := mul_le_mul_of_nonneg_left h3 (mul_nonneg hm hv)
  simp only [smul_eq_mul] at h1 ⊢
  unfold gCJnt
  linarith

theorem continuous_gCJnt (lmbda mu : ℝ) (w : (L × K) × M × Grid N → ℝ) (wl21 : ℝ) :
    Continuous (gCJnt (K := K) (M := M) (N := N) (L := L) lmbda mu w wl21) := by
  unfold gCJnt
  refine (continuous_const.mul (Bpdn.continuous_l1w w)).add (continuous_const.mul
    (continuous_finsetSum _ fun i _ => ?_))
  unfold l2 Prox.sq
  refine Real.continuous_sqrt.comp (continuous_finsetSum _ fun j _ => ?_)
  exact ((EuclideanSpace.proj ((j, i.1), i.2) : Coef (L × K) M N →L[ℝ] ℝ).continuous).norm.pow 2

theorem sum_reassoc (f : (L × K) × M × Grid N → ℝ) :
    ∑ i, f i = ∑ s : K × M × Grid N, ∑ l : L, f ((l, s.1), s.2) := by
  rw [Fintype.sum_prod_type, Fintype.sum_prod_type, Finset.sum_comm]
  rw [Fintype.sum_prod_type]
  refine Finset.sum_congr rfl fun k _ => ?_
  rw [Finset.sum_comm]

/-- The Y update, with or without `NoBndryCross`, without `NonNegCoef`. -/
theorem ystep_cjnt_min (q : COpts) (hq : q.nonNeg = false) (h2 : q.noBndry = true → ∀ n, 2 ≤ Nd n)
    (hN : ∀ n, Nd n ≤ N n) (lmbda mu : ℝ) (hl : 0 ≤ lmbda) (hm : 0 ≤ mu)
    (w : (L × K) × M × Grid N → ℝ) (hw : ∀ i, 0 ≤ w i) (wl21 : ℝ) (hv : 0 ≤ wl21) (rho : ℝ)
    (hr : 0 < rho) (AX X Y U : Coef (L × K) M N) (h : Attr c (L × K) M Nd N a) :
    let y := (ystepJnt q lmbda mu w wl21 rho AX X Y U h).1
    y ∈ (cset q Nd : Set (Coef (L × K) M N)) ∧ ∀ z ∈ (cset q Nd : Set (Coef (L × K) M N)),
      gCJnt lmbda mu w wl21 y + rho / 2 * ‖AX - y + U‖ ^ 2 ≤
        gCJnt lmbda mu w wl21 z + rho / 2 * ‖AX - z + U‖ ^ 2 := by
  classical
  intro y
  let al : K × M × Grid N → L → ℝ := fun s l => lmbda / rho * w ((l, s.1), s.2)
  let be : ℝ := mu / rho * wl21
  let phi : K × M × Grid N → (L → ℝ) → ℝ := fun s x =>
    proxObj (fun y => l1w (al s) y + be * l2 y) (fib (AX + U) s) x
  let y0 : K × M × Grid N → L → ℝ := fun s => proxSl1l2 (fib (AX + U) s) (al s) be
  have hmin := C19_prox_sl1l2 (σ := K × M × Grid N) (fun i => fib (AX + U) i) al (fun _ => be)
    (fun i j => mul_nonneg (by positivity) (hw _)) (fun _ => by positivity)
  have e : ∀ z : Coef (L × K) M N, gCJnt lmbda mu w wl21 z + rho / 2 * ‖AX - z + U‖ ^ 2 =
      rho * ∑ s, phi s (fib z s) := by
    intro z
    have h1 : ‖AX - z + U‖ ^ 2 = ∑ s, Prox.sq (fib z s - fib (AX + U) s) := by
      rw [show AX - z + U = -(z - (AX + U)) by abel, norm_neg, EuclideanSpace.norm_sq_eq, sum_reassoc]
      rfl
    have h2 : l1w w z.ofLp = ∑ s : K × M × Grid N, ∑ l, w ((l, s.1), s.2) * ‖fib z s l‖ := by
      unfold l1w; rw [sum_reassoc]; rfl
    have h3 : ∀ s, l1w (al s) (fib z s) = lmbda / rho * ∑ l, w ((l, s.1), s.2) * ‖fib z s l‖ := by
      intro s; unfold l1w; rw [Finset.mul_sum]
      refine Finset.sum_congr rfl fun j _ => ?_
      simp only [al]; ring
    simp only [phi, gCJnt, proxObj]
    rw [h1, h2]
    simp only [h3, be]
    rw [Finset.mul_sum, Finset.mul_sum, Finset.mul_sum, Finset.mul_sum, ← Finset.sum_add_distrib,
      ← Finset.sum_add_distrib]
    refine Finset.sum_congr rfl fun i _ => ?_
    field_simp
    ring
  have hy : ∀ s, fib y s = if q.noBndry = true ∧ crosses Nd s.2.2 then 0 else y0 s := by
    intro s
    funext l
    have e : y.ofLp = gystep q Nd fun p => y0 (p.1.2, p.2) p.1.1 := rfl
    change y.ofLp ((l, s.1), s.2) = _
    rw [e]
    unfold gystep
    rw [hq]
    by_cases hb : q.noBndry = true
    · simp only [hb, if_true, true_and, Bool.false_eq_true, if_false]
      rw [zeroTail_crosses Nd (h2 hb) hN]
      split_ifs <;> rfl
    · simp [hb]
  have hmem : y ∈ (cset q Nd : Set (Coef (L × K) M N)) := by
    refine ⟨fun hn => by simp [hq] at hn, fun hb k m p hc => ?_⟩
    have := congrFun (hy (k.2, m, p)) k.1
    rw [if_pos ⟨hb, hc⟩] at this
    exact this
  refine ⟨hmem, fun z hz => ?_⟩
  rw [e, e]
  refine mul_le_mul_of_nonneg_left ?_ hr.le
  let z' : K × M × Grid N → L → ℝ := fun s => if q.noBndry = true ∧ crosses Nd s.2.2 then y0 s else fib z s
  have hle : ∑ s, phi s (y0 s) ≤ ∑ s, phi s (z' s) := by
    by_cases he : z' = y0
    · rw [he]
    · exact (hmin.2 z' trivial he).le
  have hd : ∑ s, phi s (fib y s) - ∑ s, phi s (fib z s) = ∑ s, phi s (y0 s) - ∑ s, phi s (z' s) := by
    rw [← Finset.sum_sub_distrib, ← Finset.sum_sub_distrib]
    refine Finset.sum_congr rfl fun s _ => ?_
    by_cases hc : q.noBndry = true ∧ crosses Nd s.2.2
    · have h1 : fib z s = 0 := by
        funext l
        exact hz.2 hc.1 (l, s.1) s.2.1 s.2.2 hc.2
      have h2 : z' s = y0 s := if_pos hc
      rw [hy, if_pos hc, h1, h2]; ring
    · have h2 : z' s = fib z s := if_neg hc
      rw [hy, if_neg hc, h2]
  linarith

theorem lsObj_cjnt (hN : ∀ n, Nd n ≤ N n) (D : Dict c M Nd) (S : Signal c (L × K) N) (lmbda mu : ℝ)
    (w : (L × K) × M × Grid N → ℝ) (wl21 : ℝ) (y : Coef (L × K) M N) :
    lsObj (convOp (padD N D)) (join S) (gCJnt lmbda mu w wl21) y =
      objConvJnt D S lmbda mu w wl21 (part y) := by
  unfold lsObj objConvJnt gCJnt
  rw [dataTerm_eq hN, ← l1w_part, add_assoc, mul_assoc]
  congr 3
  rw [Fintype.sum_prod_type]
  simp only [Fintype.sum_prod_type, Finset.mul_sum]
  refine Finset.sum_congr rfl fun k _ => Finset.sum_congr rfl fun m _ => Finset.sum_congr rfl fun p _ => ?_
  congr 1
  unfold l2 Prox.sq
  congr 1
  refine Finset.sum_congr rfl fun l _ => ?_
  rw [Real.norm_eq_abs, sq_abs]; rfl

/-- **C39 for `ConvBPDNJoint`** without `NonNegCoef` (with it the Y update is not exact, see
`C22_joint_refuted`), with or without `NoBndryCross` and `HighMemSolve`. -/
theorem C39_convjoint (hN : ∀ n, Nd n ≤ N n) (q : COpts) (hq : q.nonNeg = false)
    (h2 : q.noBndry = true → ∀ n, 2 ≤ Nd n)
    (D : Dict c M Nd) (S : Signal c (L × K) N) (lmbda mu : ℝ) (hl : 0 < lmbda) (hm : 0 ≤ mu)
    (w : (L × K) × M × Grid N → ℝ) (hw : ∀ i, 0 < w i) (wl21 : ℝ) (hv : 0 ≤ wl21) (fe ge : Bool)
    (o : Opts) (ha : o.autoRho = false)
    (hrlx : 0 < o.rlx ∧ o.rlx < 2) (cb) (hcb : Bpdn.CallbackReads cb)
    (s : St (Coef (L × K) M N) (Coef (L × K) M N) (Coef (L × K) M N) (Attr c (L × K) M Nd N a))
    (hp : 0 < s.rho) (Xf : Spec (L × K) M N a) (hs : s.extra = setdict q S s.rho D Xf) :
    ∃ Xopt, IsMin (objConvJnt D S lmbda mu w wl21) (allowedConv false q.noBndry Nd) Xopt ∧
      Tendsto (fun n => objConvJnt D S lmbda mu w wl21
        (part (traj (clsConvJnt q S lmbda mu w wl21 fe ge) o cb s n).Y)) atTop
        (𝓝 (objConvJnt D S lmbda mu w wl21 Xopt)) := by
  have hcg := convex_gCJnt lmbda mu hl.le hm w (fun i => (hw i).le) wl21 hv _
    (convex_cset (K := L × K) (M := M) (N := N) q Nd)
  obtain ⟨r, hr, hgrow⟩ := Bpdn.l1w_grow w hw lmbda hl
  have hsum : ∀ y : Coef (L × K) M N, 0 ≤ mu * wl21 * ∑ s, l2 (fib y s) := fun y =>
    mul_nonneg (mul_nonneg hm hv) (Finset.sum_nonneg fun i _ => l2_nonneg _)
  obtain ⟨x, hx, hmin⟩ := ls_exists_min (convOp (padD N D)) (join S)
    (gCJnt lmbda mu w wl21) (cset q Nd) (closed_cset q Nd)
    ⟨0, zero_cset q Nd⟩ (continuous_gCJnt lmbda mu w wl21) r hr (fun y => by
      unfold gCJnt; have := hgrow y; have := hsum y; linarith)
  have himp : Implements (clsConvJnt q S lmbda mu w wl21 fe ge)
      (lsProblem (convOp (padD N D)) (join S) (gCJnt lmbda mu w wl21)
        (cset q Nd) hcg) (Coh (a := a) q D S) :=
    implements_conv q D S _ _ hcg _ (fun _ _ _ _ _ _ => rfl) _ fun rho AX X Y U h hp =>
      ystep_cjnt_min q hq h2 hN lmbda mu hl.le hm w (fun i => (hw i).le) wl21 hv rho hp AX X Y U h
  have hpos : ∀ y : Coef (L × K) M N, 0 ≤ gCJnt lmbda mu w wl21 y := by
    intro y
    unfold gCJnt
    exact add_nonneg (mul_nonneg hl.le
      (Finset.sum_nonneg fun i _ => mul_nonneg (hw i).le (norm_nonneg _))) (hsum y)
  have hI : Coh q D S s.rho s.extra := ⟨Xf, hs⟩
  have hck : CallbackKeeps (Coh q D S) cb := hcb.keeps _
  have hconv := ls_convergence (convOp (K := L × K) (padD N D)) (convOpT (K := L × K) (padD N D))
    (convOp_adj (K := L × K) (padD N D)) (join S)
    (gCJnt lmbda mu w wl21) (cset q Nd) hcg
    (fun y _ => hpos y)
    (clsConvJnt q S lmbda mu w wl21 fe ge) (Coh (a := a) q D S) himp o ha hrlx cb hck s hp
    hI x hx hmin
  have hset : ∀ Z, Z ∈ allowedConv false q.noBndry Nd → join Z ∈ (cset q Nd : Set (Coef (L × K) M N)) :=
    fun Z hZ => ⟨fun hn => by simp [hq] at hn, hZ.2⟩
  refine ⟨part x, ⟨⟨fun hn => by simp at hn, hx.2⟩, fun Z hZ => ?_⟩, ?_⟩
  · have := hmin (join Z) (hset Z hZ)
    rw [lsObj_cjnt hN, lsObj_cjnt hN] at this
    exact this
  · have := hconv.1
    simp only [lsObj_cjnt hN] at this
    exact this

end Sporco.Conv
