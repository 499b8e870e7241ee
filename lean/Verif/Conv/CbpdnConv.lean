import Verif.Conv.CbpdnCache
import Verif.Admm.BpdnConv2

/-!
# Convergence of the convolutional BPDN solvers (C39)
-/

set_option autoImplicit false
set_option linter.unusedSectionVars false

namespace Sporco.Conv

open Finset ComplexConjugate Sporco.Linalg Sporco.Prox Sporco.Admm Filter Topology
open scoped RealInnerProductSpace

variable {d c : ℕ} {N Nd : Fin d → ℕ} [∀ k, NeZero (N k)] {a : Fin d} {K M L : Type*} [Fintype K]
  [Fintype M] [Fintype L]

/-! ## Specification -/

/-- The `ConvBPDN` functional. -/
noncomputable def objConv (D : Dict c M Nd) (S : Signal c K N) (lmbda : ℝ)
    (w : K × M × Grid N → ℝ) (X : K → M → Grid N → ℝ) : ℝ :=
  dataTerm D S X + lmbda * ∑ k, ∑ m, ∑ p, w (k, m, p) * |X k m p|

/-- The `ConvElasticNet` functional. -/
noncomputable def objConvEN (D : Dict c M Nd) (S : Signal c K N) (lmbda mu : ℝ)
    (w : K × M × Grid N → ℝ) (X : K → M → Grid N → ℝ) : ℝ :=
  dataTerm D S X + lmbda * ∑ k, ∑ m, ∑ p, w (k, m, p) * |X k m p| + mu / 2 * sumSq X

/-- The arrays allowed by `NonNegCoef` and `NoBndryCross`. -/
def allowedConv (nonNeg noBndry : Bool) (Nd : Fin d → ℕ) : Set (K → M → Grid N → ℝ) :=
  {X | (nonNeg = true → ∀ k m p, 0 ≤ X k m p) ∧
    (noBndry = true → ∀ k m p, crosses Nd p → X k m p = 0)}

/-! ## The constraint set and the Y update -/

/-- The constraint set on arrays. -/
def cset (q : COpts) (Nd : Fin d → ℕ) : Set (Coef K M N) := {x | part x ∈ allowedConv q.nonNeg q.noBndry Nd}

theorem cset_eq (q : COpts) (Nd : Fin d → ℕ) : (cset q Nd : Set (Coef K M N)) =
    Bpdn.coefs q.nonNeg ∩ {x | q.noBndry = true → ∀ i, crosses Nd i.2.2 → x i = 0} := by
  ext x
  rw [Set.mem_inter_iff, Bpdn.mem_coefs]
  exact ⟨fun h => ⟨fun hn i => h.1 hn i.1 i.2.1 i.2.2, fun hn i => h.2 hn i.1 i.2.1 i.2.2⟩,
    fun h => ⟨fun hn k m p => h.1 hn (k, m, p), fun hn k m p => h.2 hn (k, m, p)⟩⟩

theorem convex_cset (q : COpts) (Nd : Fin d → ℕ) : Convex ℝ (cset q Nd : Set (Coef K M N)) := by
  rw [cset_eq]
  refine (Bpdn.convex_coefs _).inter ?_
  intro x hx y hy s t _ _ _ hn i hc
  have h1 := hx hn i hc
  have h2 := hy hn i hc
  change s * x i + t * y i = 0
  rw [h1, h2]; simp

theorem closed_cset (q : COpts) (Nd : Fin d → ℕ) : IsClosed (cset q Nd : Set (Coef K M N)) := by
  rw [cset_eq]
  refine (Bpdn.closed_coefs _).inter ?_
  have : {x : Coef K M N | q.noBndry = true → ∀ i, crosses Nd i.2.2 → x i = 0} =
      ⋂ (_ : q.noBndry = true), ⋂ i, ⋂ (_ : crosses Nd i.2.2), {x | x i = 0} := by
    ext x; simp
  rw [this]
  refine isClosed_iInter fun _ => isClosed_iInter fun i => isClosed_iInter fun _ => ?_
  exact isClosed_eq (EuclideanSpace.proj i : Coef K M N →L[ℝ] ℝ).continuous continuous_const

theorem zero_cset (q : COpts) (Nd : Fin d → ℕ) : (0 : Coef K M N) ∈ (cset q Nd : Set (Coef K M N)) :=
  ⟨fun _ _ _ _ => le_rfl, fun _ _ _ _ _ => rfl⟩

/-- The Y update of `ConvBPDN` and `ConvElasticNet` in terms of norms. -/
theorem ystep_conv_min (q : COpts) (h2 : q.noBndry = true → ∀ n, 2 ≤ Nd n) (hN : ∀ n, Nd n ≤ N n)
    (lmbda : ℝ) (hl : 0 ≤ lmbda) (w : K × M × Grid N → ℝ) (hw : ∀ i, 0 ≤ w i) (rho : ℝ) (hr : 0 < rho)
    (AX X Y U : Coef K M N) (h : Attr c K M Nd N a) :
    let y := (ystep q lmbda w rho AX X Y U h).1
    y ∈ (cset q Nd : Set (Coef K M N)) ∧ ∀ z ∈ (cset q Nd : Set (Coef K M N)),
      lmbda * l1w w y.ofLp + rho / 2 * ‖AX - y + U‖ ^ 2 ≤ lmbda * l1w w z.ofLp + rho / 2 * ‖AX - z + U‖ ^ 2 := by
  classical
  intro y
  obtain ⟨y0, hy0⟩ : ∃ y0, y0 = ystepL1 q.nonNeg (AX + U).ofLp w lmbda rho := ⟨_, rfl⟩
  have hm := C22_l1_partial q.nonNeg (AX + U).ofLp w lmbda rho hl hr hw
  rw [← hy0] at hm
  have hy : ∀ i, y.ofLp i = if q.noBndry = true ∧ crosses Nd i.2.2 then 0 else y0 i := by
    intro i
    have e : y.ofLp = if q.noBndry then zeroTail Nd y0 else y0 := by rw [hy0]; rfl
    rw [e]
    by_cases hb : q.noBndry = true
    · rw [if_pos hb, zeroTail_crosses Nd (h2 hb) hN]
      simp [hb]
    · rw [if_neg hb, if_neg fun h => hb h.1]
  have hn0 : q.nonNeg = true → ∀ i, 0 ≤ y0 i := by
    have := (Bpdn.mem_coefs q.nonNeg (WithLp.toLp 2 y0)).1 hm.1
    exact this
  have hmem : y ∈ (cset q Nd : Set (Coef K M N)) := by
    rw [cset_eq, Set.mem_inter_iff, Bpdn.mem_coefs]
    refine ⟨fun hn i => ?_, fun hb i hc => ?_⟩
    · rw [hy]; split_ifs
      · exact le_rfl
      · exact hn0 hn i
    · rw [hy, if_pos ⟨hb, hc⟩]
  refine ⟨hmem, fun z hz => ?_⟩
  rw [cset_eq, Set.mem_inter_iff, Bpdn.mem_coefs] at hz
  -- compare y0 with z completed by y0 where the constraint applies
  let z' : K × M × Grid N → ℝ := fun i => if q.noBndry = true ∧ crosses Nd i.2.2 then y0 i else z i
  have hz' : z' ∈ coefSet q.nonNeg := by
    refine (Bpdn.mem_coefs q.nonNeg (WithLp.toLp 2 z')).2 fun hn i => ?_
    change 0 ≤ z' i
    simp only [z']
    split_ifs
    · exact hn0 hn i
    · exact hz.1 hn i
  have hle : yObj (fun y => lmbda * l1w w y) rho (AX + U).ofLp y0 ≤
      yObj (fun y => lmbda * l1w w y) rho (AX + U).ofLp z' := by
    by_cases he : z' = y0
    · rw [he]
    · exact (hm.2 z' hz' he).le
  have ee : ∀ z : Coef K M N, yObj (fun y => lmbda * l1w w y) rho (AX + U).ofLp z.ofLp =
      lmbda * l1w w z.ofLp + rho / 2 * ‖AX - z + U‖ ^ 2 := by
    intro z
    unfold yObj
    rw [Bpdn.sq_norm]
    congr 4
    change AX + U - z = _
    abel
  have es : ∀ v : K × M × Grid N → ℝ, yObj (fun y => lmbda * l1w w y) rho (AX + U).ofLp v =
      ∑ i, (lmbda * (w i * ‖v i‖) + rho / 2 * ‖(AX + U).ofLp i - v i‖ ^ 2) := by
    intro v
    unfold yObj l1w Prox.sq
    rw [Finset.sum_add_distrib, ← Finset.mul_sum, ← Finset.mul_sum]
    rfl
  rw [← ee, ← ee]
  rw [es, es] at hle ⊢
  have hd : ∑ i, (lmbda * (w i * ‖y.ofLp i‖) + rho / 2 * ‖(AX + U).ofLp i - y.ofLp i‖ ^ 2) -
      ∑ i, (lmbda * (w i * ‖z.ofLp i‖) + rho / 2 * ‖(AX + U).ofLp i - z.ofLp i‖ ^ 2) =
      ∑ i, (lmbda * (w i * ‖y0 i‖) + rho / 2 * ‖(AX + U).ofLp i - y0 i‖ ^ 2) -
      ∑ i, (lmbda * (w i * ‖z' i‖) + rho / 2 * ‖(AX + U).ofLp i - z' i‖ ^ 2) := by
    rw [← Finset.sum_sub_distrib, ← Finset.sum_sub_distrib]
    refine Finset.sum_congr rfl fun i _ => ?_
    by_cases hc : q.noBndry = true ∧ crosses Nd i.2.2
    · have h1 : z.ofLp i = 0 := hz.2 hc.1 i hc.2
      have h2 : z' i = y0 i := if_pos hc
      rw [hy, if_pos hc, h1, h2]; ring
    · have h2 : z' i = z.ofLp i := if_neg hc
      rw [hy, if_neg hc, h2]
  linarith

/-! ## Exact steps -/

theorem xOf_min (D : Dict c M Nd) (S : Signal c K N) (mu rho : ℝ) (hd : 0 < mu + rho)
    (Y U z : Coef K M N) :
    let x := xOf a D S (mu + rho) rho Y U
    1 / 2 * ‖convOp (padD N D) x - join S‖ ^ 2 + mu / 2 * ‖x‖ ^ 2 + rho / 2 * ‖x - Y + U‖ ^ 2 ≤
    1 / 2 * ‖convOp (padD N D) z - join S‖ ^ 2 + mu / 2 * ‖z‖ ^ 2 + rho / 2 * ‖z - Y + U‖ ^ 2 := by
  intro x
  have h := xOf_excess (a := a) D S mu rho hd Y U z
  simp only at h
  rw [h]
  have h1 := sq_nonneg ‖convOp (padD N D) (z - x)‖
  have h2 := mul_nonneg (half_pos hd).le (sq_nonneg ‖z - x‖)
  change 1 / 2 * ‖convOp (padD N D) x - join S‖ ^ 2 + mu / 2 * ‖x‖ ^ 2 + rho / 2 * ‖x - Y + U‖ ^ 2 ≤
    1 / 2 * ‖convOp (padD N D) x - join S‖ ^ 2 + mu / 2 * ‖x‖ ^ 2 + rho / 2 * ‖x - Y + U‖ ^ 2 +
      1 / 2 * ‖convOp (padD N D) (z - x)‖ ^ 2 + (mu + rho) / 2 * ‖z - x‖ ^ 2
  linarith

/-- Any class with this X update and an exact Y update runs exact ADMM. -/
theorem implements_conv (q : COpts) (D : Dict c M Nd) (S : Signal c K N)
    (g : Coef K M N → ℝ) (Dg : Set (Coef K M N)) (hg : ConvexOn ℝ Dg g)
    (ys : ℝ → Coef K M N → Coef K M N → Coef K M N → Coef K M N → Attr c K M Nd N a →
      Coef K M N × Attr c K M Nd N a) (hys : ∀ rho AX X Y U h, (ys rho AX X Y U h).2 = h) (ob)
    (hy : ∀ rho AX X Y U h, 0 < rho → (ys rho AX X Y U h).1 ∈ Dg ∧ ∀ z ∈ Dg,
      g (ys rho AX X Y U h).1 + rho / 2 * ‖AX - (ys rho AX X Y U h).1 + U‖ ^ 2 ≤
        g z + rho / 2 * ‖AX - z + U‖ ^ 2) :
    Implements (Cls.equal xstep ys (rhochange q) ob)
      (lsProblem (convOp (padD N D)) (join S) g Dg hg) (Coh q D S) := by
  refine equal_implements _ _ _ _ (ls_convex _ _) hg _ _ _ _ _
    (fun _ X Y U _ _ h => coh_xstep h X Y U)
    (fun rho AX X Y U h _ hc => by rw [hys]; exact hc)
    (fun _ _ _ _ _ h => coh_rhochange h) ?_ ?_
  · intro rho X Y U h hp hI
    refine ⟨trivial, fun z _ => ?_⟩
    rw [xstep_coh hI]
    have := xOf_min (a := a) D S 0 rho (by linarith) Y U z
    simpa using this
  · intro rho AX X Y U h hp _
    exact hy rho AX X Y U h hp

theorem l1w_part (w : K × M × Grid N → ℝ) (x : Coef K M N) :
    l1w w x.ofLp = ∑ k, ∑ m, ∑ p, w (k, m, p) * |part x k m p| := by
  unfold l1w
  rw [Fintype.sum_prod_type]
  simp only [Fintype.sum_prod_type]
  rfl

theorem lsObj_conv (hN : ∀ n, Nd n ≤ N n) (D : Dict c M Nd) (S : Signal c K N) (lmbda : ℝ)
    (w : K × M × Grid N → ℝ) (y : Coef K M N) :
    lsObj (convOp (padD N D)) (join S) (fun y : Coef K M N => lmbda * l1w w y.ofLp) y =
      objConv D S lmbda w (part y) := by
  unfold lsObj objConv
  rw [dataTerm_eq hN, ← l1w_part]

/-- **C39 for `ConvBPDN`.** For every dictionary (single or multi-channel) and signal, positive
`lmbda` and weights, with or without `NonNegCoef`, `NoBndryCross` (filters with at least two samples
along each axis), `HighMemSolve`, fixed rho, relaxation parameter in (0, 2), from any start: the
problem has a minimiser, and the objective at the array `solve()` would return tends to the
minimum; the array satisfies the constraints after every iteration. -/
theorem C39_convbpdn (hN : ∀ n, Nd n ≤ N n) (q : COpts) (h2 : q.noBndry = true → ∀ n, 2 ≤ Nd n)
    (D : Dict c M Nd) (S : Signal c K N) (lmbda : ℝ) (hl : 0 < lmbda) (w : K × M × Grid N → ℝ)
    (hw : ∀ i, 0 < w i) (fe ge : Bool) (o : Opts) (ha : o.autoRho = false)
    (hrlx : 0 < o.rlx ∧ o.rlx < 2) (cb) (hcb : Bpdn.CallbackReads cb)
    (s : St (Coef K M N) (Coef K M N) (Coef K M N) (Attr c K M Nd N a)) (hp : 0 < s.rho)
    (Xf : Spec K M N a) (hs : s.extra = setdict q S s.rho D Xf) :
    ∃ Xopt, IsMin (objConv D S lmbda w) (allowedConv q.nonNeg q.noBndry Nd) Xopt ∧
      Tendsto (fun n => objConv D S lmbda w
        (part (traj (clsConvBPDN q S lmbda w fe ge) o cb s n).Y)) atTop
        (𝓝 (objConv D S lmbda w Xopt)) ∧
      ∀ n, part (traj (clsConvBPDN q S lmbda w fe ge) o cb s (n + 1)).Y ∈
        allowedConv q.nonNeg q.noBndry Nd := by
  have hcg := Bpdn.convex_l1w w (fun i => (hw i).le) _ (convex_cset (K := K) (M := M) (N := N) q Nd) lmbda hl.le
  obtain ⟨r, hr, hgrow⟩ := Bpdn.l1w_grow w hw lmbda hl
  obtain ⟨x, hx, hmin⟩ := ls_exists_min (convOp (padD N D)) (join S)
    (fun y : Coef K M N => lmbda * l1w w y.ofLp) (cset q Nd) (closed_cset q Nd)
    ⟨0, zero_cset q Nd⟩ (continuous_const.mul (Bpdn.continuous_l1w w)) r hr hgrow
  have himp : Implements (clsConvBPDN q S lmbda w fe ge)
      (lsProblem (convOp (padD N D)) (join S) (fun y : Coef K M N => lmbda * l1w w y.ofLp)
        (cset q Nd) hcg) (Coh (a := a) q D S) :=
    implements_conv q D S _ _ hcg _ (fun _ _ _ _ _ _ => rfl) _ fun rho AX X Y U h hp =>
      ystep_conv_min q h2 hN lmbda hl.le w (fun i => (hw i).le) rho hp AX X Y U h
  have hconv := ls_convergence (convOp (padD N D)) (convOpT (padD N D)) (convOp_adj (padD N D)) (join S)
    (fun y : Coef K M N => lmbda * l1w w y.ofLp) (cset q Nd) hcg
    (fun y _ => mul_nonneg hl.le (Finset.sum_nonneg fun i _ => mul_nonneg (hw i).le (norm_nonneg _)))
    (clsConvBPDN q S lmbda w fe ge) (Coh (a := a) q D S) himp o ha hrlx cb (hcb.keeps _) s hp ⟨Xf, hs⟩ x hx hmin
  refine ⟨part x, ⟨hx, fun Z hZ => ?_⟩, ?_, fun n => hconv.2 n⟩
  · have := hmin (join Z) hZ
    rw [lsObj_conv hN, lsObj_conv hN] at this
    exact this
  · have := hconv.1
    simp only [lsObj_conv hN] at this
    exact this

theorem dfd_eq (hN : ∀ n, Nd n ≤ N n) (D : Dict c M Nd) (S : Signal c K N) (y : Coef K M N)
    (V : Spec K M N a) (hV : ∀ k m, V k m = rfft N a (part y k m)) :
    rfl2norm2 N a (fun p : (Fin (c + 1) × K) × Half N a =>
        Linalg.inner (fun m => dictF a D p.1.1 m p.2) (fun m => V p.1.2 m p.2) -
        sigF a S p.1.1 p.1.2 p.2) / 2 = dataTerm D S (part y) := by
  have e : (fun p : (Fin (c + 1) × K) × Half N a =>
      Linalg.inner (fun m => dictF a D p.1.1 m p.2) (fun m => V p.1.2 m p.2) -
      sigF a S p.1.1 p.1.2 p.2) = fun p => rfft N a ((fun i : Fin (c + 1) × K => fun t =>
        recon D (part y) i.1 i.2 t - S i.1 i.2 t) p.1) p.2 := by
    funext p
    have h1 : rfft N a (fun t => recon D (part y) p.1.1 p.1.2 t - S p.1.1 p.1.2 t) p.2 =
        rf (fun t => recon D (part y) p.1.1 p.1.2 t - S p.1.1 p.1.2 t) p.2.1 := rfl
    rw [h1, rf_sub]
    unfold recon
    simp only [← rconv_pad hN, rf_sum, rf_rconv, hV, Linalg.inner]
    rfl
  rw [e, C32_rfl2norm2 a (fun i : Fin (c + 1) × K => fun t => recon D (part y) i.1 i.2 t - S i.1 i.2 t),
    Fintype.sum_prod_type]
  unfold dataTerm
  ring

theorem regL1_eq (lmbda : ℝ) (w : K × M × Grid N → ℝ) (hw : ∀ i, 0 ≤ w i) (y : Coef K M N) :
    regL1 lmbda w y = lmbda * ∑ k, ∑ m, ∑ p, w (k, m, p) * |part y k m p| := by
  rw [← l1w_part]
  unfold regL1 normL1 l1w
  congr 1
  refine Finset.sum_congr rfl fun i _ => ?_
  rw [norm_mul, Real.norm_of_nonneg (hw _)]

/-- The objective recorded for each iteration with `AuxVarObj` is the `ConvBPDN` functional at Y,
and without it the functional at the X just computed. -/
theorem C39_convbpdn_recorded (hN : ∀ n, Nd n ≤ N n) (q : COpts) (D : Dict c M Nd) (S : Signal c K N)
    (lmbda rho : ℝ) (hr : 0 < rho) (w : K × M × Grid N → ℝ) (hw : ∀ i, 0 ≤ w i)
    (X0 X Y Y0 U : Coef K M N) (Xf : Spec K M N a) :
    let x := xstep rho X0 Y0 U (setdict q S rho D Xf)
    ((clsConvBPDN q S lmbda w false true).objfn X Y x.2).1 = objConv D S lmbda w (part Y) ∧
    ((clsConvBPDN q S lmbda w true false).objfn x.1 Y x.2).1 = objConv D S lmbda w (part x.1) := by
  intro x
  constructor
  · change dfd S false Y x.2 + regL1 lmbda w Y = _
    rw [regL1_eq lmbda w hw]
    unfold objConv
    congr 1
    exact dfd_eq hN D S Y _ fun _ _ => rfl
  · change dfd S true Y x.2 + regL1 lmbda w x.1 = _
    rw [regL1_eq lmbda w hw]
    unfold objConv
    congr 1
    exact dfd_eq hN D S x.1 _ fun k m => xstep_Xf hr ⟨Xf, rfl⟩ X0 Y0 U k m

/-! ## Elastic net -/

/-- `x ↦ (D x, √μ x)`. -/
noncomputable def cenL (D : Dict c M Nd) (mu : ℝ) :
    Coef K M N →L[ℝ] WithLp 2 (Sig (Fin (c + 1)) K N × Coef K M N) :=
  LinearMap.toContinuousLinearMap
    { toFun := fun x => WithLp.toLp 2 (convOp (padD N D) x, Real.sqrt mu • x)
      map_add' := fun x y => by rw [map_add, smul_add]; rfl
      map_smul' := fun c x => by rw [map_smul, smul_comm]; rfl }

/-- Adjoint of `cenL`. -/
noncomputable def cenLT (D : Dict c M Nd) (mu : ℝ) :
    WithLp 2 (Sig (Fin (c + 1)) K N × Coef K M N) →L[ℝ] Coef K M N :=
  LinearMap.toContinuousLinearMap
    { toFun := fun y => convOpT (padD N D) y.fst + Real.sqrt mu • y.snd
      map_add' := fun x y => by
        change convOpT (padD N D) (x.fst + y.fst) + Real.sqrt mu • (x.snd + y.snd) = _
        rw [map_add, smul_add]; abel
      map_smul' := fun c x => by
        change convOpT (padD N D) (c • x.fst) + Real.sqrt mu • (c • x.snd) = _
        rw [map_smul, smul_comm, ← smul_add]; rfl }

theorem cenL_adj (D : Dict c M Nd) (mu : ℝ) (x : Coef K M N) (y) :
    ⟪cenL D mu x, y⟫ = ⟪x, cenLT D mu y⟫ := by
  rw [WithLp.prod_inner_apply]
  change ⟪convOp (padD N D) x, y.fst⟫ + ⟪Real.sqrt mu • x, y.snd⟫ =
    ⟪x, convOpT (padD N D) y.fst + Real.sqrt mu • y.snd⟫
  rw [inner_add_right, convOp_adj, real_inner_smul_left, real_inner_smul_right]

/-- The data in the product space. -/
noncomputable def cenB (S : Signal c K N) : WithLp 2 (Sig (Fin (c + 1)) K N × Coef K M N) :=
  WithLp.toLp 2 (join S, 0)

theorem cenL_norm (D : Dict c M Nd) (S : Signal c K N) (mu : ℝ) (hm : 0 ≤ mu) (x : Coef K M N) :
    1 / 2 * ‖cenL D mu x - cenB S‖ ^ 2 =
      1 / 2 * ‖convOp (padD N D) x - join S‖ ^ 2 + mu / 2 * ‖x‖ ^ 2 := by
  rw [WithLp.prod_norm_sq_eq_of_L2]
  change 1 / 2 * (‖convOp (padD N D) x - join S‖ ^ 2 + ‖Real.sqrt mu • x - 0‖ ^ 2) = _
  rw [sub_zero, norm_smul, mul_pow, Real.norm_of_nonneg (Real.sqrt_nonneg _), Real.sq_sqrt hm]
  ring

theorem coh_any {q : COpts} (hq : q.caches c = false) {D : Dict c M Nd} {S : Signal c K N}
    {dg dg' : ℝ} {h : Attr c K M Nd N a} (hc : Coh q D S dg h) : Coh q D S dg' h := by
  obtain ⟨Xf, rfl⟩ := hc
  exact ⟨Xf, by simp [setdict, hq]⟩

theorem rhochange_none {q : COpts} (hq : q.caches c = false) (rho : ℝ) (h : Attr c K M Nd N a) :
    rhochange q rho h = h := by
  simp [rhochange, hq]

theorem coh_xstepEN {q : COpts} {D : Dict c M Nd} {S : Signal c K N} {mu rho dg : ℝ}
    {h : Attr c K M Nd N a} (hc : Coh q D S dg h) (X Y U : Coef K M N) :
    Coh q D S dg (xstepEN mu rho X Y U h).2 := by
  obtain ⟨Xf, rfl⟩ := hc
  exact ⟨_, rfl⟩

theorem implements_conven (q : COpts) (hq : q.caches c = false)
    (h2 : q.noBndry = true → ∀ n, 2 ≤ Nd n) (hN : ∀ n, Nd n ≤ N n) (D : Dict c M Nd)
    (S : Signal c K N) (lmbda mu : ℝ) (hl : 0 ≤ lmbda) (hm : 0 ≤ mu) (w : K × M × Grid N → ℝ)
    (hw : ∀ i, 0 ≤ w i) (fe ge : Bool) :
    Implements (clsConvEN q S lmbda mu w fe ge)
      (lsProblem (cenL D mu) (cenB S) (fun y => lmbda * l1w w y.ofLp) (cset q Nd)
        (Bpdn.convex_l1w w hw _ (convex_cset q Nd) lmbda hl))
      (fun rho => Coh (a := a) q D S (mu + rho)) := by
  refine equal_implements _ _ _ _ (ls_convex _ _) (Bpdn.convex_l1w w hw _ (convex_cset q Nd) lmbda hl) _
    _ _ _ _ (fun _ X Y U _ _ h => coh_xstepEN h X Y U) (fun _ _ _ _ _ _ _ h => h)
    (fun _ _ _ _ _ h => by rw [rhochange_none hq]; exact coh_any hq h) ?_ ?_
  · intro rho X Y U h hp hI
    refine ⟨trivial, fun z _ => ?_⟩
    rw [xstepEN_coh hI, cenL_norm D S mu hm, cenL_norm D S mu hm]
    exact xOf_min D S mu rho (by linarith) Y U z
  · intro rho AX X Y U h hp _
    exact ystep_conv_min q h2 hN lmbda hl w hw rho hp AX X Y U h

theorem lsObj_conven (hN : ∀ n, Nd n ≤ N n) (D : Dict c M Nd) (S : Signal c K N) (lmbda mu : ℝ)
    (hm : 0 ≤ mu) (w : K × M × Grid N → ℝ) (y : Coef K M N) :
    lsObj (cenL D mu) (cenB S) (fun y : Coef K M N => lmbda * l1w w y.ofLp) y =
      objConvEN D S lmbda mu w (part y) := by
  unfold lsObj objConvEN
  rw [cenL_norm D S mu hm, dataTerm_eq hN, ← l1w_part, sumSq_eq]
  ring

/-- **C39 for `ConvElasticNet`** when no component is cached (`HighMemSolve` off, or a multi-channel
dictionary); see `C43_elasticnet_refuted` for the other case. -/
theorem C39_convelasticnet (hN : ∀ n, Nd n ≤ N n) (q : COpts) (hq : q.caches c = false)
    (h2 : q.noBndry = true → ∀ n, 2 ≤ Nd n)
    (D : Dict c M Nd) (S : Signal c K N) (lmbda mu : ℝ) (hl : 0 < lmbda) (hm : 0 ≤ mu)
    (w : K × M × Grid N → ℝ) (hw : ∀ i, 0 < w i) (fe ge : Bool) (o : Opts) (ha : o.autoRho = false)
    (hrlx : 0 < o.rlx ∧ o.rlx < 2) (cb) (hcb : Bpdn.CallbackReads cb)
    (s : St (Coef K M N) (Coef K M N) (Coef K M N) (Attr c K M Nd N a)) (hp : 0 < s.rho)
    (Xf : Spec K M N a) (hs : s.extra = setdictEN q S mu s.rho D Xf) :
    ∃ Xopt, IsMin (objConvEN D S lmbda mu w) (allowedConv q.nonNeg q.noBndry Nd) Xopt ∧
      Tendsto (fun n => objConvEN D S lmbda mu w
        (part (traj (clsConvEN q S lmbda mu w fe ge) o cb s n).Y)) atTop
        (𝓝 (objConvEN D S lmbda mu w Xopt)) ∧
      ∀ n, part (traj (clsConvEN q S lmbda mu w fe ge) o cb s (n + 1)).Y ∈
        allowedConv q.nonNeg q.noBndry Nd := by
  have hcg := Bpdn.convex_l1w w (fun i => (hw i).le) _ (convex_cset (K := K) (M := M) (N := N) q Nd) lmbda hl.le
  obtain ⟨r, hr, hgrow⟩ := Bpdn.l1w_grow w hw lmbda hl
  obtain ⟨x, hx, hmin⟩ := ls_exists_min (cenL D mu) (cenB S)
    (fun y : Coef K M N => lmbda * l1w w y.ofLp) (cset q Nd) (closed_cset q Nd)
    ⟨0, zero_cset q Nd⟩ (continuous_const.mul (Bpdn.continuous_l1w w)) r hr hgrow
  have hconv := ls_convergence (cenL D mu) (cenLT D mu) (cenL_adj D mu) (cenB S)
    (fun y : Coef K M N => lmbda * l1w w y.ofLp) (cset q Nd) hcg
    (fun y _ => mul_nonneg hl.le (Finset.sum_nonneg fun i _ => mul_nonneg (hw i).le (norm_nonneg _)))
    (clsConvEN q S lmbda mu w fe ge) (fun rho => Coh (a := a) q D S (mu + rho)) (implements_conven (a := a) q hq h2 hN D S lmbda mu hl.le hm w (fun i => (hw i).le) fe ge)
    o ha hrlx cb (hcb.keeps _) s hp ⟨Xf, hs⟩ x hx hmin
  refine ⟨part x, ⟨hx, fun Z hZ => ?_⟩, ?_, fun n => hconv.2 n⟩
  · have := hmin (join Z) hZ
    rw [lsObj_conven hN D S lmbda mu hm, lsObj_conven hN D S lmbda mu hm] at this
    exact this
  · have := hconv.1
    simp only [lsObj_conven hN D S lmbda mu hm] at this
    exact this

end Sporco.Conv
