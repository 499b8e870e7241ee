import Verif.Conv.CbpdnConv

/-!
# `ConvBPDNProjL1`

Model of `sporco/admm/cbpdn.py` 1220-1395, convergence and recorded values.
-/

set_option autoImplicit false
set_option linter.unusedSectionVars false

namespace Sporco.Conv.Prj

open Finset ComplexConjugate Sporco.Linalg Sporco.Prox Sporco.Admm Filter Topology Sporco.Conv

variable {d c : ℕ} {N Nd : Fin d → ℕ} [∀ k, NeZero (N k)] {a : Fin d} {K M L : Type*} [Fintype K]
  [Fintype M] [Fintype L]

/-! ## Model -/

/-- The entries of the coefficient array for signal `k`: channels of the array, filters and
positions. -/
def slice (y : Coef (L × K) M N) (k : K) : L × M × Grid N → ℝ := fun i => y ((i.1, k), i.2)

/-- `sp.proj_l1(v, gamma, axis=axisN + (axisC, axisM))` (`_l1proj.py` 68-71): the axes are
flattened into one axis (`ndto2d`), whose order of the entries is `e`, the projection is computed
along it and the result is put back. -/
noncomputable def projFlat {n : ℕ} (e : L × M × Grid N ≃ Fin n) (gamma : ℝ) (y : Coef (L × K) M N) :
    Coef (L × K) M N :=
  WithLp.toLp 2 fun i =>
    projL1SortAxis (fun j => slice y i.1.2 (e.symm j)) gamma (e (i.1.1, i.2))

/-- `ConvBPDNProjL1.ystep` (`cbpdn.py` 1373-1381). -/
noncomputable def ystepPrj {n : ℕ} (e : L × M × Grid N ≃ Fin n) (q : COpts) (gamma : ℝ) (_rho : ℝ)
    (AX _X _Y U : Coef (L × K) M N) (h : Attr c (L × K) M Nd N a) :
    Coef (L × K) M N × Attr c (L × K) M Nd N a :=
  (WithLp.toLp 2 (gystep q Nd (projFlat e gamma (AX + U)).ofLp), h)

/-- The class `ConvBPDNProjL1` with `eval_objfn` (`cbpdn.py` 1385-1395). -/
noncomputable def clsConvPrj {n : ℕ} (e : L × M × Grid N ≃ Fin n) (q : COpts)
    (S : Signal c (L × K) N) (gamma : ℝ) (fEvalX gEvalY : Bool) :
    Cls (Coef (L × K) M N) (Coef (L × K) M N) (Coef (L × K) M N) (Attr c (L × K) M Nd N a) :=
  Cls.equal xstep (ystepPrj e q gamma) (rhochange q) fun X Y h =>
    let f := dfd S fEvalX Y h
    let y := Bpdn.gvar gEvalY X Y
    (f, f, ‖projFlat e gamma y - y‖)

/-! ## Specification -/

/-- Coefficient arrays whose l1 norm is at most `gamma` for every signal. -/
def ballConv (gamma : ℝ) : Set ((L × K) → M → Grid N → ℝ) :=
  {X | ∀ k, ∑ l, ∑ m, ∑ p, |X (l, k) m p| ≤ gamma}

/-! ## Lemmas -/

/-- The constraint set on arrays. -/
def bset (gamma : ℝ) : Set (Coef (L × K) M N) := {y | ∀ k, l1 (slice y k) ≤ gamma}

theorem bset_iff (gamma : ℝ) (y : Coef (L × K) M N) :
    y ∈ (bset gamma : Set (Coef (L × K) M N)) ↔ part y ∈ ballConv gamma := by
  refine forall_congr' fun k => ?_
  have : l1 (slice y k) = ∑ l, ∑ m, ∑ p, |part y (l, k) m p| := by
    unfold l1
    simp only [Fintype.sum_prod_type]
    rfl
  rw [this]

theorem l1_convex {ι : Type*} [Fintype ι] (x y : ι → ℝ) (s t : ℝ) (hs : 0 ≤ s) (ht : 0 ≤ t) :
    l1 (fun i => s * x i + t * y i) ≤ s * l1 x + t * l1 y := by
  unfold l1
  rw [mul_sum, mul_sum, ← sum_add_distrib]
  refine sum_le_sum fun i _ => (norm_add_le _ _).trans (le_of_eq ?_)
  rw [norm_mul, norm_mul, Real.norm_of_nonneg hs, Real.norm_of_nonneg ht]

theorem convex_bset (gamma : ℝ) : Convex ℝ (bset gamma : Set (Coef (L × K) M N)) := by
  intro x hx y hy s t hs ht hst k
  have h := l1_convex (slice x k) (slice y k) s t hs ht
  have h3 := mul_le_mul_of_nonneg_left (hx k) hs
  have h4 := mul_le_mul_of_nonneg_left (hy k) ht
  have h5 : s * gamma + t * gamma = gamma := by rw [← add_mul, hst, one_mul]
  change l1 (fun i => s * slice x k i + t * slice y k i) ≤ gamma
  linarith

theorem closed_bset (gamma : ℝ) : IsClosed (bset gamma : Set (Coef (L × K) M N)) := by
  have : (bset gamma : Set (Coef (L × K) M N)) = ⋂ k, {y | l1 (slice y k) ≤ gamma} := by
    ext y; simp [bset]
  rw [this]
  refine isClosed_iInter fun k => isClosed_le ?_ continuous_const
  unfold l1
  exact continuous_finsetSum _ fun i _ =>
    ((EuclideanSpace.proj ((i.1, k), i.2) : Coef (L × K) M N →L[ℝ] ℝ).continuous).norm

theorem sum_slices (f : (L × K) × M × Grid N → ℝ) :
    ∑ i, f i = ∑ k, ∑ i : L × M × Grid N, f ((i.1, k), i.2) := by
  simp only [Fintype.sum_prod_type]
  rw [sum_comm]

theorem bounded_bset (gamma : ℝ) : (bset gamma : Set (Coef (L × K) M N)) ⊆
    Metric.closedBall 0 (Fintype.card K * gamma) := by
  intro y hy
  rw [mem_closedBall_zero_iff]
  have h1 : ‖y‖ ≤ ∑ p, ‖y.ofLp p‖ := by
    rw [EuclideanSpace.norm_eq]
    apply Real.sqrt_le_iff.2
    exact ⟨Finset.sum_nonneg fun i _ => norm_nonneg _,
      Finset.sum_sq_le_sq_sum_of_nonneg fun i _ => norm_nonneg _⟩
  have h2 : ∑ p, ‖y.ofLp p‖ = ∑ k, l1 (slice y k) := sum_slices _
  have h3 := Finset.sum_le_sum fun k (_ : k ∈ Finset.univ) => hy k
  rw [Finset.sum_const, Finset.card_univ, nsmul_eq_mul] at h3
  linarith

/-- `projFlat` projects every signal's coefficients onto the l1 ball, whatever the order of the
flattened axis. -/
theorem projFlat_min {n : ℕ} (e : L × M × Grid N ≃ Fin n) (gamma : ℝ) (hγ : 0 ≤ gamma)
    (v : Coef (L × K) M N) :
    projFlat e gamma v ∈ (bset gamma : Set (Coef (L × K) M N)) ∧
    ∀ z ∈ (bset gamma : Set (Coef (L × K) M N)), z ≠ projFlat e gamma v →
      ‖v - projFlat e gamma v‖ ^ 2 < ‖v - z‖ ^ 2 := by
  have hm := C18_proj_l1_sort_axis (σ := K) (fun k j => slice v k (e.symm j)) gamma hγ
  have hl : ∀ (z : Coef (L × K) M N) k, l1 (fun j => slice z k (e.symm j)) = l1 (slice z k) := by
    intro z k
    unfold l1
    exact e.symm.sum_comp fun i => ‖slice z k i‖
  have hp : ∀ k j, slice (projFlat e gamma v) k (e.symm j) =
      projL1SortAxis (fun j => slice v k (e.symm j)) gamma j := by
    intro k j
    change projL1SortAxis (fun j => slice v k (e.symm j)) gamma (e ((e.symm j).1, (e.symm j).2)) = _
    rw [Prod.mk.eta, e.apply_symm_apply]
  have hn : ∀ z : Coef (L × K) M N, ‖v - z‖ ^ 2 =
      2 * ∑ k, 1 / 2 * Prox.sq ((fun j => slice z k (e.symm j)) - fun j => slice v k (e.symm j)) := by
    intro z
    rw [norm_sub_rev, EuclideanSpace.norm_sq_eq, sum_slices, ← mul_sum, ← mul_assoc]
    norm_num
    refine sum_congr rfl fun k _ => ?_
    unfold Prox.sq
    rw [← e.symm.sum_comp]
    refine sum_congr rfl fun j _ => ?_
    rw [Real.norm_eq_abs, sq_abs]
    rfl
  refine ⟨fun k => ?_, fun z hz hne => ?_⟩
  · rw [← hl]
    have := hm.1 k
    simp only [hp]
    exact this
  · have h1 := hm.2 (fun k j => slice z k (e.symm j)) (fun k => by
      change l1 (fun j => slice z k (e.symm j)) ≤ gamma
      rw [hl]; exact hz k) (fun h => hne ?_)
    · rw [hn, hn]
      simp only [hp]
      linarith
    · ext i
      have := congrFun (congrFun h i.1.2) (e (i.1.1, i.2))
      simp only [e.symm_apply_apply] at this
      exact this

theorem ystepPrj_min {n : ℕ} (e : L × M × Grid N ≃ Fin n) (q : COpts) (hn : q.nonNeg = false)
    (hb : q.noBndry = false) (gamma : ℝ) (hγ : 0 ≤ gamma) (rho : ℝ) (hr : 0 < rho)
    (AX X Y U : Coef (L × K) M N) (h : Attr c (L × K) M Nd N a) :
    let y := (ystepPrj e q gamma rho AX X Y U h).1
    y ∈ (bset gamma : Set (Coef (L × K) M N)) ∧ ∀ z ∈ (bset gamma : Set (Coef (L × K) M N)),
      0 + rho / 2 * ‖AX - y + U‖ ^ 2 ≤ 0 + rho / 2 * ‖AX - z + U‖ ^ 2 := by
  intro y
  have hy : y = projFlat e gamma (AX + U) := by
    change WithLp.toLp 2 (gystep q Nd (projFlat e gamma (AX + U)).ofLp) = _
    simp [gystep, hn, hb]
  obtain ⟨h1, h2⟩ := projFlat_min e gamma hγ (AX + U)
  rw [hy]
  refine ⟨h1, fun z hz => ?_⟩
  have e2 : ∀ z : Coef (L × K) M N, AX - z + U = AX + U - z := fun z => by abel
  rw [e2, e2]
  by_cases hne : z = projFlat e gamma (AX + U)
  · rw [hne]
  · have := mul_lt_mul_of_pos_left (h2 z hz hne) (half_pos hr)
    linarith

/-- The regulariser, which is zero. -/
def zeroG (_ : Coef (L × K) M N) : ℝ := 0

theorem convex_zeroG (gamma : ℝ) : ConvexOn ℝ (bset gamma : Set (Coef (L × K) M N)) zeroG :=
  convexOn_const 0 (convex_bset gamma)

theorem implements_prj {n : ℕ} (e : L × M × Grid N ≃ Fin n) (q : COpts) (hn : q.nonNeg = false)
    (hb : q.noBndry = false) (D : Dict c M Nd) (S : Signal c (L × K) N) (gamma : ℝ) (hγ : 0 ≤ gamma)
    (fe ge : Bool) :
    Implements (clsConvPrj e q S gamma fe ge)
      (lsProblem (convOp (padD N D)) (join S) zeroG (bset gamma)
        (convex_zeroG gamma)) (Coh (a := a) q D S) :=
  implements_conv q D S _ _ (convex_zeroG gamma) _ (fun _ _ _ _ _ _ => rfl) _
    fun rho AX X Y U h hp => ystepPrj_min e q hn hb gamma hγ rho hp AX X Y U h

/-! ## Theorems -/

/-- **C18 for the Y update of `ConvBPDNProjL1`.** The projection computed along the flattened axes
is the nearest array whose coefficients have l1 norm at most `gamma` for every signal. -/
theorem C18_projl1_axes {n : ℕ} (e : L × M × Grid N ≃ Fin n) (gamma : ℝ) (hγ : 0 ≤ gamma)
    (v : (L × K) → M → Grid N → ℝ) :
    IsUniqueMin (fun X => ∑ k, ∑ m, ∑ p, (X k m p - v k m p) ^ 2) (ballConv gamma)
      (part (projFlat e gamma (join v))) := by
  obtain ⟨h1, h2⟩ := projFlat_min e gamma hγ (join v)
  refine ⟨(bset_iff gamma _).1 h1, fun Z hZ hne => ?_⟩
  have h3 := h2 (join Z) ((bset_iff gamma _).2 hZ) (fun hh => hne (by rw [← hh]; rfl))
  rw [norm_sub_rev, norm_sub_rev (join v), norm_part, norm_part] at h3
  exact h3

/-- **C39 for `ConvBPDNProjL1`** without `NonNegCoef` and `NoBndryCross`: for every dictionary
(single or multi-channel), signal and `gamma ≥ 0`, fixed rho, relaxation parameter in (0, 2), from
any start, the data term at the array that would be returned tends to its minimum over the arrays
with l1 norm at most `gamma` for every signal, and every Y is such an array. -/
theorem C39_convprojl1 {n : ℕ} (e : L × M × Grid N ≃ Fin n) (hN : ∀ n, Nd n ≤ N n) (q : COpts)
    (hn : q.nonNeg = false) (hb : q.noBndry = false) (D : Dict c M Nd) (S : Signal c (L × K) N)
    (gamma : ℝ) (hγ : 0 ≤ gamma) (fe ge : Bool) (o : Opts) (ha : o.autoRho = false)
    (hrlx : 0 < o.rlx ∧ o.rlx < 2) (cb) (hcb : Bpdn.CallbackReads cb)
    (s : St (Coef (L × K) M N) (Coef (L × K) M N) (Coef (L × K) M N) (Attr c (L × K) M Nd N a))
    (hp : 0 < s.rho) (Xf : Spec (L × K) M N a) (hs : s.extra = setdict q S s.rho D Xf) :
    ∃ Xopt, IsMin (dataTerm D S) (ballConv gamma) Xopt ∧
      Tendsto (fun n => dataTerm D S (part (traj (clsConvPrj e q S gamma fe ge) o cb s n).Y)) atTop
        (𝓝 (dataTerm D S Xopt)) ∧
      ∀ n, part (traj (clsConvPrj e q S gamma fe ge) o cb s (n + 1)).Y ∈ ballConv gamma := by
  have hobj : ∀ y : Coef (L × K) M N, lsObj (convOp (padD N D)) (join S) zeroG y =
      dataTerm D S (part y) := by
    intro y
    unfold lsObj zeroG
    rw [dataTerm_eq hN, add_zero]
  have hcpt : IsCompact (bset gamma : Set (Coef (L × K) M N)) :=
    (isCompact_closedBall 0 (Fintype.card K * gamma)).of_isClosed_subset (closed_bset gamma)
      (bounded_bset gamma)
  have hne : (0 : Coef (L × K) M N) ∈ (bset gamma : Set (Coef (L × K) M N)) := by
    intro k
    have : l1 (slice (0 : Coef (L × K) M N) k) = 0 := by simp [l1, slice]
    rw [this]; exact hγ
  obtain ⟨x, hx, hmin⟩ := hcpt.exists_isMinOn ⟨0, hne⟩
    (f := lsObj (convOp (padD N D)) (join S) zeroG) (by unfold lsObj zeroG; fun_prop)
  have hmin : ∀ z ∈ (bset gamma : Set (Coef (L × K) M N)),
      lsObj (convOp (padD N D)) (join S) zeroG x ≤
        lsObj (convOp (padD N D)) (join S) zeroG z := fun z hz => hmin hz
  have himp := implements_prj (a := a) e q hn hb D S gamma hγ fe ge
  have hI : Coh q D S s.rho s.extra := ⟨Xf, hs⟩
  have hck : CallbackKeeps (Coh q D S) cb := hcb.keeps _
  have hpos : ∀ y ∈ (bset gamma : Set (Coef (L × K) M N)), 0 ≤ zeroG y := fun _ _ => le_rfl
  have hconv := ls_convergence (convOp (K := L × K) (padD N D)) (convOpT (K := L × K) (padD N D))
    (convOp_adj (K := L × K) (padD N D)) (join S) zeroG (bset gamma) (convex_zeroG gamma) hpos
    (clsConvPrj e q S gamma fe ge) (Coh (a := a) q D S) himp o ha hrlx cb hck s hp hI x hx hmin
  refine ⟨part x, ⟨(bset_iff gamma x).1 hx, fun Z hZ => ?_⟩, ?_, fun n => (bset_iff gamma _).1 (hconv.2 n)⟩
  · have h := hmin (join Z) ((bset_iff gamma _).2 hZ)
    rw [hobj, hobj] at h
    exact h
  · have h := hconv.1
    simp only [hobj] at h
    exact h

/-- The values recorded with `AuxVarObj`: the data term at Y, and a constraint violation that is
zero exactly if Y satisfies the constraint and otherwise is its distance to the constraint set. -/
theorem C39_convprojl1_recorded {n : ℕ} (e : L × M × Grid N ≃ Fin n) (hN : ∀ n, Nd n ≤ N n)
    (q : COpts) (D : Dict c M Nd) (S : Signal c (L × K) N) (gamma rho : ℝ) (hγ : 0 ≤ gamma)
    (X Y : Coef (L × K) M N) (Xf : Spec (L × K) M N a) :
    let r := (clsConvPrj e q S gamma false true).objfn X Y (setdict q S rho D Xf)
    r.1 = dataTerm D S (part Y) ∧
    (r.2.2 = 0 ↔ part Y ∈ ballConv gamma) ∧
    IsLeast {t | ∃ Z ∈ ballConv gamma, t = Real.sqrt (sumSq fun k m p => Z k m p - part Y k m p)}
      r.2.2 := by
  intro r
  obtain ⟨h1, h2⟩ := projFlat_min e gamma hγ Y
  have hr : r.2.2 = ‖projFlat e gamma Y - Y‖ := rfl
  have hs : ∀ z : Coef (L × K) M N,
      ‖z - Y‖ = Real.sqrt (sumSq fun k m p => part z k m p - part Y k m p) := by
    intro z
    rw [← Real.sqrt_sq (norm_nonneg (z - Y)), norm_part]
    rfl
  refine ⟨?_, ?_, ?_⟩
  · change dfd S false Y _ = _
    exact dfd_eq hN D S Y _ fun _ _ => rfl
  · rw [hr, norm_eq_zero, sub_eq_zero, ← bset_iff]
    constructor
    · intro h; rw [← h]; exact h1
    · intro h
      by_contra hne
      have := h2 Y h (Ne.symm hne)
      rw [sub_self, norm_zero] at this
      have := sq_nonneg ‖Y - projFlat e gamma Y‖
      simp only [ne_eq, OfNat.ofNat_ne_zero, not_false_eq_true, zero_pow] at *
      linarith
  · rw [hr]
    refine ⟨⟨part (projFlat e gamma Y), (bset_iff gamma _).1 h1, hs _⟩, ?_⟩
    rintro t ⟨Z, hZ, rfl⟩
    rw [show (Real.sqrt (sumSq fun k m p => Z k m p - part Y k m p)) = ‖join Z - Y‖ from (hs (join Z)).symm]
    by_cases hne : join Z = projFlat e gamma Y
    · rw [hne]
    · have := h2 (join Z) ((bset_iff gamma _).2 hZ) hne
      rw [norm_sub_rev, norm_sub_rev Y] at this
      exact (pow_le_pow_iff_left₀ (norm_nonneg _) (norm_nonneg _) two_ne_zero).1 this.le

/-- The constraint is not vacuous: an array with one coefficient equal to 2 violates it for
`gamma = 1`, so by `C39_convprojl1_recorded` a positive violation is recorded for it. -/
example : (fun (_ : Fin 1 × Fin 1) (_ : Fin 1) (_ : Grid (d := 1) fun _ => 1) => (2 : ℝ)) ∉ ballConv 1 := by
  intro h
  have h1 : ∑ _p : Grid (d := 1) (fun _ => 1), (|2| : ℝ) ≤ 1 := by simpa using h 0
  rw [Finset.sum_const, Finset.card_univ, nsmul_eq_mul] at h1
  norm_num at h1

end Sporco.Conv.Prj
