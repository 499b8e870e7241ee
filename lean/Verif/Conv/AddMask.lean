import Verif.Conv.AddMaskModel
import Verif.Conv.CbpdnConv
import Verif.Pgm.ConvGrad

/-!
# `AddMaskSim` solves the masked problem
-/

set_option autoImplicit false
set_option linter.unusedSectionVars false

namespace Sporco.Conv.Ams

open Finset ComplexConjugate Sporco.Linalg Sporco.Prox Sporco.Admm Filter Topology Sporco.Conv
open Sporco.PgmConv (maskTerm mulL maskTerm_eq)

variable {d c : ℕ} {N Nd : Fin d → ℕ} [∀ k, NeZero (N k)] {a : Fin d} {K M : Type*} [Fintype K]
  [Fintype M]

/-! ## Specification -/

open Classical in
/-- The masked functional: only the samples marked valid enter the data term. -/
noncomputable def objValid (D : Dict c M Nd) (S : Signal c K N)
    (valid : Fin (c + 1) → K → Grid N → Prop) (lmbda : ℝ) (w : K × M × Grid N → ℝ)
    (X : K → M → Grid N → ℝ) : ℝ :=
  1 / 2 * ∑ i, ∑ k, ∑ p, (if valid i k p then (recon D X i k p - S i k p) ^ 2 else 0) +
    lmbda * ∑ k, ∑ m, ∑ p, w (k, m, p) * |X k m p|

/-- Index into an axis of length `n`, which is 0 if the array is broadcast along the axis. -/
def bcast (n i : ℕ) : ℕ := if n = 1 then 0 else i

/-- What the documentation says: the mask is compatible for multiplication with the signal, so
sample (channel `i`, signal `sg`, position `p`) is valid if the entry of the mask it is multiplied
with is not zero.  For a single-channel dictionary the channel of the signal is that of the
coefficient array. -/
def validOf {C Kn : ℕ} (W : MaskArr d) (i : Fin (c + 1)) (k : Fin C × Fin Kn) (p : Grid N) : Prop :=
  W.val (fun n => bcast (W.Nw n) (p n).val) (bcast W.Cw (if c = 0 then k.1.val else i.val))
    (bcast W.Kw k.2.val) ≠ 0

/-- The mask has all the axes of the signal (number of channels of the coefficient array `C`, which
is one for a multi-channel dictionary). -/
def FullShape (c C Kn : ℕ) (N : Fin d → ℕ) (W : MaskArr d) : Prop :=
  W.Nw = N ∧ W.Kw = Kn ∧ (if c = 0 then W.Cw = C else W.Cw = c + 1 ∧ C = 1)

theorem hit_iff_valid {C Kn : ℕ} (W : MaskArr d) (hW : FullShape c C Kn N W) (i : Fin (c + 1))
    (k : Fin C × Fin Kn) (p : Grid N) : hitOf W k i p ↔ validOf W i k p := by
  obtain ⟨h1, h2, h3⟩ := hW
  have hb : ∀ n m : ℕ, m < n → bcast n m = m := fun n m h => by unfold bcast; split_ifs <;> omega
  have hp : ∀ n, (p n).val < W.Nw n := fun n => by rw [h1]; exact ZMod.val_lt _
  have hk := k.1.isLt
  have hk2 : k.2.val < W.Kw := by rw [h2]; exact k.2.isLt
  unfold hitOf validOf MaskArr.hit MaskArr.inside
  simp only [hb _ _ (hp _), hb _ _ hk2]
  by_cases hc : c = 0
  · rw [if_pos hc] at h3
    subst hc
    have hi : i.val = 0 := by omega
    rw [if_neg (by omega), if_pos rfl, hb _ _ (h3 ▸ hk)]
    exact ⟨fun h => h.2.2, fun h => ⟨hi, ⟨hp, h3 ▸ hk, hk2⟩, h⟩⟩
  · rw [if_neg hc] at h3
    have hi : i.val < W.Cw := by rw [h3.1]; exact i.isLt
    rw [if_pos (by omega), if_neg hc, hb _ _ hi]
    exact ⟨fun h => h.2.2, fun h => ⟨by omega, ⟨hp, hi, hk2⟩, h⟩⟩

/-! ## The extended dictionary -/

theorem filt_impulse (h0 : ∀ k, 0 < Nd k) (x : Grid N → ℝ) : filt (impulse Nd) x = x := by
  funext p
  unfold filt
  rw [Finset.sum_eq_single (fun k => ⟨0, h0 k⟩)]
  · simp only [impulse]
    simp only [implies_true, if_true, one_mul]
    congr 1
    funext k
    simp
  · intro i _ hi
    have : ¬ ∀ k, (i k).val = 0 := fun h => hi (by funext k; exact Fin.ext (h k))
    simp [impulse, this]
  · simp

theorem recon_addImp (h0 : ∀ k, 0 < Nd k) (D : Dict c M Nd)
    (Y : K → M ⊕ Fin (c + 1) → Grid N → ℝ) (i : Fin (c + 1)) (k : K) (p : Grid N) :
    recon (addImp D) Y i k p =
      recon D (fun k m => Y k (Sum.inl m)) i k p + Y k (Sum.inr i) p := by
  unfold recon
  rw [Fintype.sum_sum_type]
  congr 1
  rw [Finset.sum_eq_single i]
  · simp only [addImp, Sum.elim_inr, imp, if_true]
    rw [filt_impulse h0]
  · intro j _ hj
    simp only [addImp, Sum.elim_inr, imp, if_neg (Ne.symm hj), filt, Pi.zero_apply, zero_mul,
      Finset.sum_const_zero]
  · simp

/-- Weights with the entries of the impulses replaced by zero. -/
def w0 (w : K × (M ⊕ Fin (c + 1)) × Grid N → ℝ) : K × (M ⊕ Fin (c + 1)) × Grid N → ℝ :=
  fun i => if i.2.1.isLeft then w i else 0

/-- Weights of the user's filters. -/
def wl (w : K × (M ⊕ Fin (c + 1)) × Grid N → ℝ) : K × M × Grid N → ℝ :=
  fun i => w (i.1, Sum.inl i.2.1, i.2.2)

theorem l1w_w0 (w : K × (M ⊕ Fin (c + 1)) × Grid N → ℝ) (y : Coef K (M ⊕ Fin (c + 1)) N) :
    l1w (w0 w) y.ofLp = l1w (wl w) (primary y).ofLp := by
  rw [l1w_part, l1w_part]
  refine sum_congr rfl fun k _ => ?_
  rw [Fintype.sum_sum_type]
  have : ∑ j : Fin (c + 1), ∑ p : Grid N, w0 w (k, Sum.inr j, p) * |part y k (Sum.inr j) p| = 0 := by
    simp [w0]
  rw [this, add_zero]
  rfl

/-- The constraint set of the extended problem. -/
def aset (hit : K → Fin (c + 1) → Grid N → Prop) (q : COpts) (Nd : Fin d → ℕ) :
    Set (Coef K (M ⊕ Fin (c + 1)) N) :=
  {y | primary y ∈ (cset q Nd : Set (Coef K M N)) ∧
    ∀ k j p, hit k j p → part y k (Sum.inr j) p = 0}

theorem convex_aset (hit : K → Fin (c + 1) → Grid N → Prop) (q : COpts) (Nd : Fin d → ℕ) :
    Convex ℝ (aset hit q Nd : Set (Coef K (M ⊕ Fin (c + 1)) N)) := by
  intro x hx y hy s t hs ht hst
  refine ⟨?_, fun k j p h => ?_⟩
  · have := convex_cset (K := K) (M := M) (N := N) q Nd hx.1 hy.1 hs ht hst
    exact this
  · change s * part x k (Sum.inr j) p + t * part y k (Sum.inr j) p = 0
    rw [hx.2 k j p h, hy.2 k j p h]; simp

theorem norm_split (y : Coef K (M ⊕ Fin (c + 1)) N) :
    ‖y‖ ^ 2 = ‖primary y‖ ^ 2 + ∑ k, ∑ j, ∑ p, part y k (Sum.inr j) p ^ 2 := by
  rw [norm_part, norm_part, ← sum_add_distrib]
  refine sum_congr rfl fun k _ => ?_
  rw [Fintype.sum_sum_type]
  rfl

theorem l1w_split (w : K × (M ⊕ Fin (c + 1)) × Grid N → ℝ) (y : Coef K (M ⊕ Fin (c + 1)) N) :
    l1w w y.ofLp = l1w (wl w) (primary y).ofLp +
      ∑ k, ∑ j, ∑ p, w (k, Sum.inr j, p) * |part y k (Sum.inr j) p| := by
  rw [l1w_part, l1w_part, ← sum_add_distrib]
  refine sum_congr rfl fun k _ => ?_
  rw [Fintype.sum_sum_type]
  rfl

/-- The Y update of the wrapped object is exact for the extended problem. -/
theorem ams_ystep_min (hit : K → Fin (c + 1) → Grid N → Prop) (q : COpts)
    (h2 : q.noBndry = true → ∀ n, 2 ≤ Nd n) (hN : ∀ n, Nd n ≤ N n)
    (lmbda : ℝ) (hl : 0 ≤ lmbda) (w : K × (M ⊕ Fin (c + 1)) × Grid N → ℝ) (hw : ∀ i, 0 ≤ w i)
    (rho : ℝ) (hr : 0 < rho) (AX X Y U : Coef K (M ⊕ Fin (c + 1)) N)
    (h : Attr c K (M ⊕ Fin (c + 1)) Nd N a) :
    let y := (amsYstep hit (ystep q lmbda w) rho AX X Y U h).1
    y ∈ (aset hit q Nd : Set (Coef K (M ⊕ Fin (c + 1)) N)) ∧
    ∀ z ∈ (aset hit q Nd : Set (Coef K (M ⊕ Fin (c + 1)) N)),
      lmbda * l1w (w0 w) y.ofLp + rho / 2 * ‖AX - y + U‖ ^ 2 ≤
        lmbda * l1w (w0 w) z.ofLp + rho / 2 * ‖AX - z + U‖ ^ 2 := by
  classical
  intro y
  obtain ⟨v, hv⟩ : ∃ v, v = (ystep q lmbda w rho AX X Y U h).1 := ⟨_, rfl⟩
  obtain ⟨hm, hmin⟩ := ystep_conv_min q h2 hN lmbda hl w hw rho hr AX X Y U h
  rw [← hv] at hm hmin
  have hyl : primary y = primary v := by rw [hv]; rfl
  have hyr : ∀ k j p, part y k (Sum.inr j) p =
      if hit k j p then 0 else part AX k (Sum.inr j) p + part U k (Sum.inr j) p := fun _ _ _ => rfl
  refine ⟨⟨?_, fun k j p hh => by rw [hyr, if_pos hh]⟩, fun z hz => ?_⟩
  · rw [hyl]
    exact ⟨fun hn k m p => hm.1 hn k (Sum.inl m) p, fun hn k m p hc => hm.2 hn k (Sum.inl m) p hc⟩
  -- the coefficients of the user's filters
  let z' : Coef K (M ⊕ Fin (c + 1)) N :=
    join fun k => Sum.elim (fun m => part z k (Sum.inl m)) fun j => part v k (Sum.inr j)
  have hz' : z' ∈ (cset q Nd : Set (Coef K (M ⊕ Fin (c + 1)) N)) := by
    refine ⟨fun hn k m p => ?_, fun hn k m p hc => ?_⟩
    · cases m with
      | inl m => exact hz.1.1 hn k m p
      | inr j => exact hm.1 hn k (Sum.inr j) p
    · cases m with
      | inl m => exact hz.1.2 hn k m p hc
      | inr j => exact hm.2 hn k (Sum.inr j) p hc
  have key := hmin z' hz'
  rw [l1w_split, l1w_split, norm_split, norm_split (AX - z' + U)] at key
  have e1 : primary z' = primary z := rfl
  have e2 : primary (AX - z' + U) = primary AX - primary z + primary U := rfl
  have e3 : primary (AX - v + U) = primary AX - primary v + primary U := rfl
  have e4 : ∀ k j p, part (AX - z' + U) k (Sum.inr j) p = part (AX - v + U) k (Sum.inr j) p :=
    fun _ _ _ => rfl
  have e5 : ∀ k j p, part z' k (Sum.inr j) p = part v k (Sum.inr j) p := fun _ _ _ => rfl
  simp only [e1, e2, e3, e4, e5] at key
  rw [l1w_w0, l1w_w0, norm_split (AX - y + U), norm_split (AX - z + U)]
  have e6 : primary (AX - y + U) = primary AX - primary v + primary U := by rw [← hyl]; rfl
  have e7 : primary (AX - z + U) = primary AX - primary z + primary U := rfl
  rw [hyl, e6, e7]
  have hle : ∑ k, ∑ j, ∑ p, part (AX - y + U) k (Sum.inr j) p ^ 2 ≤
      ∑ k, ∑ j, ∑ p, part (AX - z + U) k (Sum.inr j) p ^ 2 := by
    refine sum_le_sum fun k _ => sum_le_sum fun j _ => sum_le_sum fun p _ => ?_
    change (part AX k (Sum.inr j) p - part y k (Sum.inr j) p + part U k (Sum.inr j) p) ^ 2 ≤
      (part AX k (Sum.inr j) p - part z k (Sum.inr j) p + part U k (Sum.inr j) p) ^ 2
    rw [hyr]
    by_cases hh : hit k j p
    · rw [if_pos hh, hz.2 k j p hh]
    · rw [if_neg hh]
      have : part AX k (Sum.inr j) p - (part AX k (Sum.inr j) p + part U k (Sum.inr j) p) +
        part U k (Sum.inr j) p = 0 := by ring
      rw [this, zero_pow two_ne_zero]
      exact sq_nonneg _
  have := mul_le_mul_of_nonneg_left hle (half_pos hr).le
  linarith

/-! ## Extended and masked functional -/

theorem dataTerm_ext (h0 : ∀ k, 0 < Nd k) (D : Dict c M Nd) (S : Signal c K N)
    (y : Coef K (M ⊕ Fin (c + 1)) N) :
    dataTerm (addImp D) S (part y) = 1 / 2 * ∑ i, ∑ k, ∑ p,
      (recon D (part (primary y)) i k p - S i k p + part y k (Sum.inr i) p) ^ 2 := by
  unfold dataTerm
  congr 1
  refine sum_congr rfl fun i _ => sum_congr rfl fun k _ => sum_congr rfl fun p _ => ?_
  rw [recon_addImp h0]
  change (recon D (part (primary y)) i k p + part y k (Sum.inr i) p - S i k p) ^ 2 = _
  ring

theorem valid_le_ext (h0 : ∀ k, 0 < Nd k) (D : Dict c M Nd) (S : Signal c K N)
    (hit : K → Fin (c + 1) → Grid N → Prop) (q : COpts) (lmbda : ℝ)
    (w : K × (M ⊕ Fin (c + 1)) × Grid N → ℝ) (y : Coef K (M ⊕ Fin (c + 1)) N)
    (hy : y ∈ (aset hit q Nd : Set (Coef K (M ⊕ Fin (c + 1)) N))) :
    objValid D S (fun i k p => hit k i p) lmbda (wl w) (part (primary y)) ≤
      dataTerm (addImp D) S (part y) + lmbda * l1w (w0 w) y.ofLp := by
  classical
  unfold objValid
  rw [dataTerm_ext h0, l1w_w0, ← l1w_part]
  have : ∑ i, ∑ k, ∑ p, (if hit k i p then (recon D (part (primary y)) i k p - S i k p) ^ 2 else 0) ≤
      ∑ i, ∑ k, ∑ p, (recon D (part (primary y)) i k p - S i k p + part y k (Sum.inr i) p) ^ 2 := by
    refine sum_le_sum fun i _ => sum_le_sum fun k _ => sum_le_sum fun p _ => ?_
    split_ifs with hh
    · rw [hy.2 k i p hh, add_zero]
    · positivity
  linarith

open Classical in
/-- The best extension of an array: the additive component takes up the residual where it may. -/
noncomputable def extend (D : Dict c M Nd) (S : Signal c K N) (hit : K → Fin (c + 1) → Grid N → Prop)
    (x : Coef K M N) : Coef K (M ⊕ Fin (c + 1)) N :=
  join fun k => Sum.elim (part x k) fun j p =>
    if hit k j p then 0 else S j k p - recon D (part x) j k p

theorem ext_eq_valid (h0 : ∀ k, 0 < Nd k) (D : Dict c M Nd) (S : Signal c K N)
    (hit : K → Fin (c + 1) → Grid N → Prop) (lmbda : ℝ)
    (w : K × (M ⊕ Fin (c + 1)) × Grid N → ℝ) (x : Coef K M N) :
    dataTerm (addImp D) S (part (extend D S hit x)) + lmbda * l1w (w0 w) (extend D S hit x).ofLp =
      objValid D S (fun i k p => hit k i p) lmbda (wl w) (part x) := by
  classical
  unfold objValid
  rw [dataTerm_ext h0, l1w_w0, ← l1w_part]
  have e : primary (extend D S hit x) = x := rfl
  rw [e]
  congr 2
  refine sum_congr rfl fun i _ => sum_congr rfl fun k _ => sum_congr rfl fun p _ => ?_
  have e2 : part (extend D S hit x) k (Sum.inr i) p =
    if hit k i p then 0 else S i k p - recon D (part x) i k p := rfl
  rw [e2]
  split_ifs <;> ring

theorem objValid_norm (hN : ∀ n, Nd n ≤ N n) (D : Dict c M Nd) (S : Signal c K N)
    (valid : Fin (c + 1) → K → Grid N → Prop) [∀ i k p, Decidable (valid i k p)] (lmbda : ℝ)
    (w : K × M × Grid N → ℝ) (x : Coef K M N) :
    objValid D S valid lmbda w (part x) =
      1 / 2 * ‖mulL (fun i k p => if valid i k p then 1 else 0) (convOp (padD N D) x - join S)‖ ^ 2 +
        lmbda * l1w w x.ofLp := by
  rw [← maskTerm_eq hN, l1w_part]
  unfold objValid maskTerm
  congr 2
  refine sum_congr rfl fun i _ => sum_congr rfl fun k _ => sum_congr rfl fun p _ => ?_
  by_cases h : valid i k p
  · simp [h]
  · simp [h]

theorem exists_min_valid (hN : ∀ n, Nd n ≤ N n) (q : COpts) (D : Dict c M Nd) (S : Signal c K N)
    (valid : Fin (c + 1) → K → Grid N → Prop) (lmbda : ℝ) (hl : 0 < lmbda) (w : K × M × Grid N → ℝ)
    (hw : ∀ i, 0 < w i) :
    ∃ x ∈ (cset q Nd : Set (Coef K M N)), ∀ z ∈ (cset q Nd : Set (Coef K M N)),
      objValid D S valid lmbda w (part x) ≤ objValid D S valid lmbda w (part z) := by
  classical
  obtain ⟨r, hr, hgrow⟩ := Bpdn.l1w_grow w hw lmbda hl
  obtain ⟨x, hx, hmin⟩ := ls_exists_min
    ((mulL fun i k p => if valid i k p then 1 else 0).comp (convOp (padD N D)))
    (mulL (fun i k p => if valid i k p then 1 else 0) (join S))
    (fun y : Coef K M N => lmbda * l1w w y.ofLp) (cset q Nd) (closed_cset q Nd)
    ⟨0, zero_cset q Nd⟩ (continuous_const.mul (Bpdn.continuous_l1w w)) r hr hgrow
  refine ⟨x, hx, fun z hz => ?_⟩
  have := hmin z hz
  unfold lsObj at this
  simp only [ContinuousLinearMap.comp_apply, ← map_sub] at this
  rw [objValid_norm hN, objValid_norm hN]
  exact this

/-! ## Theorems -/

theorem implements_ams (hit : K → Fin (c + 1) → Grid N → Prop) (hN : ∀ n, Nd n ≤ N n) (q : COpts)
    (h2 : q.noBndry = true → ∀ n, 2 ≤ Nd n) (D : Dict c M Nd) (S : Signal c K N) (lmbda : ℝ)
    (hl : 0 ≤ lmbda) (w : K × (M ⊕ Fin (c + 1)) × Grid N → ℝ) (hw : ∀ i, 0 ≤ w i) (fe ge : Bool)
    (hcg : ConvexOn ℝ (aset hit q Nd : Set (Coef K (M ⊕ Fin (c + 1)) N))
      fun y => lmbda * l1w (w0 w) y.ofLp) :
    Implements (clsAms hit q S lmbda w fe ge)
      (lsProblem (convOp (padD N (addImp D))) (join S) _ _ hcg) (Coh (a := a) q (addImp D) S) :=
  implements_conv q (addImp D) S _ _ hcg _ (fun _ _ _ _ _ _ => rfl) _ fun rho AX X Y U h hp =>
    ams_ystep_min hit q h2 hN lmbda hl w hw rho hp AX X Y U h

/-- Convergence for an arbitrary set of zeroed entries. -/
theorem ams_convergence (hit : K → Fin (c + 1) → Grid N → Prop) (hN : ∀ n, Nd n ≤ N n)
    (h0 : ∀ n, 0 < Nd n) (q : COpts) (h2 : q.noBndry = true → ∀ n, 2 ≤ Nd n) (D : Dict c M Nd)
    (S : Signal c K N) (lmbda : ℝ) (hl : 0 < lmbda) (w : K × (M ⊕ Fin (c + 1)) × Grid N → ℝ)
    (hw : ∀ i, 0 < w i) (fe ge : Bool) (o : Opts) (ha : o.autoRho = false)
    (hrlx : 0 < o.rlx ∧ o.rlx < 2) (cb) (hcb : Bpdn.CallbackReads cb)
    (s : St (Coef K (M ⊕ Fin (c + 1)) N) (Coef K (M ⊕ Fin (c + 1)) N) (Coef K (M ⊕ Fin (c + 1)) N)
      (Attr c K (M ⊕ Fin (c + 1)) Nd N a)) (hp : 0 < s.rho)
    (Xf : Spec K (M ⊕ Fin (c + 1)) N a) (hs : s.extra = setdict q S s.rho (addImp D) Xf) :
    let C := clsAms hit q S lmbda w fe ge
    ∃ Xopt, IsMin (objValid D S (fun i k p => hit k i p) lmbda (wl w))
        (allowedConv q.nonNeg q.noBndry Nd) Xopt ∧
      Tendsto (fun n => objValid D S (fun i k p => hit k i p) lmbda (wl w)
        (part (primary (traj C o cb s n).Y))) atTop
        (𝓝 (objValid D S (fun i k p => hit k i p) lmbda (wl w) Xopt)) ∧
      ∀ n, part (primary (traj C o cb s (n + 1)).Y) ∈ allowedConv q.nonNeg q.noBndry Nd := by
  classical
  intro C
  have hw0 : ∀ i, 0 ≤ w0 w i := fun i => by
    unfold w0; split_ifs
    · exact (hw i).le
    · exact le_rfl
  have hcg := Bpdn.convex_l1w (w0 w) hw0 _
    (convex_aset (K := K) (M := M) (N := N) hit q Nd) lmbda hl.le
  obtain ⟨x, hx, hmin⟩ := exists_min_valid hN q D S (fun i k p => hit k i p) lmbda hl (wl w)
    fun i => hw _
  have hF : ∀ y : Coef K (M ⊕ Fin (c + 1)) N, lsObj (convOp (padD N (addImp D))) (join S)
      (fun y => lmbda * l1w (w0 w) y.ofLp) y =
      dataTerm (addImp D) S (part y) + lmbda * l1w (w0 w) y.ofLp := by
    intro y
    unfold lsObj
    rw [dataTerm_eq hN]
  have hmem : extend D S hit x ∈ (aset hit q Nd : Set (Coef K (M ⊕ Fin (c + 1)) N)) := by
    refine ⟨hx, fun k j p hh => ?_⟩
    change (if hit k j p then 0 else S j k p - recon D (part x) j k p) = 0
    rw [if_pos hh]
  have hconv := ls_convergence (convOp (padD N (addImp D))) (convOpT (padD N (addImp D)))
    (convOp_adj (padD N (addImp D))) (join S)
    (fun y => lmbda * l1w (w0 w) y.ofLp) (aset hit q Nd) hcg
    (fun y _ => mul_nonneg hl.le (Finset.sum_nonneg fun i _ => mul_nonneg (hw0 i) (norm_nonneg _)))
    C (Coh (a := a) q (addImp D) S)
    (implements_ams hit hN q h2 D S lmbda hl.le w (fun i => (hw i).le) fe ge hcg)
    o ha hrlx cb (hcb.keeps _) s hp ⟨Xf, hs⟩ (extend D S hit x) hmem (fun z hz => by
      rw [hF, hF, ext_eq_valid h0]
      exact (hmin _ hz.1).trans (valid_le_ext h0 D S hit q lmbda w z hz))
  refine ⟨part x, ⟨hx, fun Z hZ => hmin (join Z) hZ⟩, ?_, fun n => (hconv.2 n).1⟩
  have h1 := hconv.1
  simp only [hF] at h1
  rw [ext_eq_valid h0] at h1
  refine tendsto_of_tendsto_of_tendsto_of_le_of_le' tendsto_const_nhds h1 ?_ ?_
  · filter_upwards [eventually_ge_atTop 1] with n hn
    obtain ⟨m, rfl⟩ : ∃ m, n = m + 1 := ⟨n - 1, by omega⟩
    exact hmin _ (hconv.2 m).1
  · filter_upwards [eventually_ge_atTop 1] with n hn
    obtain ⟨m, rfl⟩ : ∃ m, n = m + 1 := ⟨n - 1, by omega⟩
    exact valid_le_ext h0 D S hit q lmbda w _ (hconv.2 m)

theorem objValid_congr {D : Dict c M Nd} {S : Signal c K N}
    {v v' : Fin (c + 1) → K → Grid N → Prop} (h : ∀ i k p, v i k p ↔ v' i k p) (lmbda : ℝ)
    (w : K × M × Grid N → ℝ) : objValid D S v lmbda w = objValid D S v' lmbda w := by
  have : v = v' := by funext i k p; exact propext (h i k p)
  rw [this]

/-- **C39 for `AddMaskSim(ConvBPDN, ...)`.** For every dictionary and signal, every mask with all
the axes of the signal, positive `lmbda` and weights, with or without `NonNegCoef`, `NoBndryCross`,
`HighMemSolve`, fixed rho, relaxation parameter in (0, 2), from any start: the problem in which only
the samples with non-zero mask enter the data term has a minimiser, and its objective at the array
that `solve()` and `getcoef()` return tends to the minimum; the array satisfies the constraints.
The weights of the impulse filters do not matter. -/
theorem C39_C59_addmask_partial {C Kn : ℕ} (W : MaskArr d) (hW : FullShape c C Kn N W)
    (hN : ∀ n, Nd n ≤ N n) (h0 : ∀ n, 0 < Nd n) (q : COpts) (h2 : q.noBndry = true → ∀ n, 2 ≤ Nd n)
    (D : Dict c M Nd) (S : Signal c (Fin C × Fin Kn) N) (lmbda : ℝ) (hl : 0 < lmbda)
    (w : (Fin C × Fin Kn) × (M ⊕ Fin (c + 1)) × Grid N → ℝ)
    (hw : ∀ i, 0 < w i) (fe ge : Bool) (o : Opts) (ha : o.autoRho = false)
    (hrlx : 0 < o.rlx ∧ o.rlx < 2) (cb) (hcb : Bpdn.CallbackReads cb)
    (s : St (Coef (Fin C × Fin Kn) (M ⊕ Fin (c + 1)) N) (Coef (Fin C × Fin Kn) (M ⊕ Fin (c + 1)) N)
      (Coef (Fin C × Fin Kn) (M ⊕ Fin (c + 1)) N)
      (Attr c (Fin C × Fin Kn) (M ⊕ Fin (c + 1)) Nd N a)) (hp : 0 < s.rho)
    (Xf : Spec (Fin C × Fin Kn) (M ⊕ Fin (c + 1)) N a)
    (hs : s.extra = setdict q S s.rho (addImp D) Xf) :
    ∃ Xopt, IsMin (objValid D S (validOf W) lmbda (wl w)) (allowedConv q.nonNeg q.noBndry Nd) Xopt ∧
      Tendsto (fun n => objValid D S (validOf W) lmbda (wl w)
        (part (primary (traj (clsAms (hitOf W) q S lmbda w fe ge) o cb s n).Y))) atTop
        (𝓝 (objValid D S (validOf W) lmbda (wl w) Xopt)) ∧
      ∀ n, part (primary (traj (clsAms (hitOf W) q S lmbda w fe ge) o cb s (n + 1)).Y) ∈
        allowedConv q.nonNeg q.noBndry Nd := by
  have h := ams_convergence (hitOf W) hN h0 q h2 D S lmbda hl w hw fe ge o ha hrlx cb hcb s hp Xf hs
  rw [← objValid_congr (hit_iff_valid W hW)]
  exact h

/-- `reconstruct` of the wrapper is the convolutional sum over the user's filters. -/
theorem C40_addmask_reconstruct (hN : ∀ n, Nd n ≤ N n) (q : COpts) (D : Dict c M Nd)
    (S : Signal c K N) (rho : ℝ) (Xf : Spec K (M ⊕ Fin (c + 1)) N a) (X : Coef K M N) :
    amsReconstruct (setdict q S rho (addImp D) Xf) X = recon D (part X) := by
  rw [← C40_reconstruct hN q D S rho (fun _ _ _ => 0 : Spec K M N a)]
  rfl

/-- The recorded values with `AuxVarObj`: the data term of the extended representation, and the
weighted l1 norm of the coefficients that are returned, without the additive component. -/
theorem C40_addmask_recorded (hit : K → Fin (c + 1) → Grid N → Prop) (hN : ∀ n, Nd n ≤ N n)
    (h0 : ∀ n, 0 < Nd n) (q : COpts) (D : Dict c M Nd) (S : Signal c K N) (lmbda rho : ℝ)
    (w : K × (M ⊕ Fin (c + 1)) × Grid N → ℝ) (hw : ∀ i, 0 ≤ w i)
    (X Y : Coef K (M ⊕ Fin (c + 1)) N) (Xf : Spec K (M ⊕ Fin (c + 1)) N a) :
    let r := (clsAms hit q S lmbda w false true).objfn X Y (setdict q S rho (addImp D) Xf)
    r.1 = r.2.1 + r.2.2 ∧
    r.2.1 = 1 / 2 * ∑ i, ∑ k, ∑ p,
      (recon D (part (primary Y)) i k p - S i k p + part Y k (Sum.inr i) p) ^ 2 ∧
    r.2.2 = lmbda * ∑ k, ∑ m, ∑ p, w (k, Sum.inl m, p) * |part Y k (Sum.inl m) p| := by
  intro r
  refine ⟨rfl, ?_, ?_⟩
  · change dfd S false Y _ = _
    rw [← dataTerm_ext h0]
    exact dfd_eq hN (addImp D) S Y _ fun _ _ => rfl
  · change regL1 lmbda w (amsGvar Y) = _
    rw [regL1_eq lmbda w hw]
    congr 1
    refine sum_congr rfl fun k _ => ?_
    rw [Fintype.sum_sum_type]
    have : ∑ j : Fin (c + 1), ∑ p : Grid N,
        w (k, Sum.inr j, p) * |part (amsGvar Y) k (Sum.inr j) p| = 0 := by
      refine sum_eq_zero fun j _ => sum_eq_zero fun p _ => ?_
      have : part (amsGvar Y) k (Sum.inr j) p = 0 := rfl
      rw [this]; simp
    rw [this, add_zero]
    rfl

/-! ## Masks without all axes -/

/-- One spatial axis of one sample. -/
abbrev N1 : Fin 1 → ℕ := fun _ => 1

instance : ∀ k, NeZero (N1 k) := fun _ => ⟨one_ne_zero⟩

instance : Subsingleton (Grid N1) :=
  ⟨fun x y => funext fun k => Subsingleton.elim (α := Fin 1) (x k) (y k)⟩

/-- One filter with the single entry 1. -/
def D1 : Dict 0 (Fin 1) N1 := fun _ _ => impulse N1

/-- Two signals, 0 and 3. -/
def S1 : Signal 0 (Fin 1 × Fin 2) N1 := fun _ k _ => if k.2 = 0 then 0 else 3

/-- A mask of ones without a signal axis. -/
def W1 : MaskArr 1 := { Nw := N1, Cw := 1, Kw := 1, val := fun _ _ _ => 1 }

theorem obj1 (v : Fin 1 → Fin 1 × Fin 2 → Grid N1 → Prop) [∀ i k p, Decidable (v i k p)]
    (X : Fin 1 × Fin 2 → Fin 1 → Grid N1 → ℝ) :
    objValid D1 S1 v 1 (fun _ => 1) X =
      1 / 2 * ((if v 0 (0, 0) 0 then X (0, 0) 0 0 ^ 2 else 0) +
        (if v 0 (0, 1) 0 then (X (0, 1) 0 0 - 3) ^ 2 else 0)) +
        (|X (0, 0) 0 0| + |X (0, 1) 0 0|) := by
  have hr : ∀ i k p, recon D1 X i k p = X k 0 p := by
    intro i k p
    unfold recon D1
    simp only [filt_impulse (fun _ => one_pos)]
    simp
  have h1 : (∀ f : Grid N1 → ℝ, ∑ p, f p = f 0) := fun f => Fintype.sum_subsingleton f 0
  have h2 : ∀ f : Fin (0 + 1) → ℝ, ∑ i, f i = f 0 := fun f => Fin.sum_univ_one f
  have h3 : ∀ f : Fin 1 → ℝ, ∑ i, f i = f 0 := fun f => Fin.sum_univ_one f
  unfold objValid
  rw [h2]
  simp only [h1, hr, Fintype.sum_prod_type, h3, Fin.sum_univ_two, S1, Fin.isValue, if_true,
    one_ne_zero, if_false, sub_zero, one_mul]

/-- **C59, refuted for the additive mask simulation.** A mask of ones without a signal axis is
compatible for multiplication with a pair of signals, so it masks nothing and the coefficient of the
second signal, 3, is 2 in every minimiser for `lmbda = 1`.  From any start, the coefficient computed
by `AddMaskSim` tends to 0: for all signals but the first the additive component is not masked at
all. -/
theorem C59_addmask_broadcast_refuted (fe ge : Bool) (o : Opts) (ha : o.autoRho = false)
    (hrlx : 0 < o.rlx ∧ o.rlx < 2) (cb) (hcb : Bpdn.CallbackReads cb)
    (s : St (Coef (Fin 1 × Fin 2) (Fin 1 ⊕ Fin 1) N1) (Coef (Fin 1 × Fin 2) (Fin 1 ⊕ Fin 1) N1)
      (Coef (Fin 1 × Fin 2) (Fin 1 ⊕ Fin 1) N1)
      (Attr 0 (Fin 1 × Fin 2) (Fin 1 ⊕ Fin 1) N1 N1 0)) (hp : 0 < s.rho) (q : COpts)
    (hq : q.noBndry = false) (Xf : Spec (Fin 1 × Fin 2) (Fin 1 ⊕ Fin 1) N1 0)
    (hs : s.extra = setdict q S1 s.rho (addImp D1) Xf) :
    (∀ Xopt, IsMin (objValid D1 S1 (validOf W1) 1 fun _ => 1) (allowedConv q.nonNeg q.noBndry N1) Xopt →
      Xopt (0, 1) 0 0 = 2) ∧
    Tendsto (fun n => part (primary
      (traj (clsAms (hitOf W1) q S1 1 (fun _ => 1) fe ge) o cb s n).Y) (0, 1) 0 0) atTop (𝓝 0) := by
  classical
  constructor
  · intro Xo ⟨_, hmin⟩
    have h := hmin (fun k _ _ => if k.2 = 0 then 0 else 2)
      ⟨fun _ k _ _ => by
        change (0 : ℝ) ≤ if k.2 = 0 then 0 else 2
        split_ifs <;> norm_num, fun h => by simp [hq] at h⟩
    have hv : ∀ i k p, validOf (c := 0) (N := N1) (C := 1) (Kn := 2) W1 i k p :=
      fun _ _ _ => one_ne_zero
    rw [obj1, obj1] at h
    simp only [hv, if_true, one_ne_zero, if_false, Fin.isValue] at h
    have h1 := le_abs_self (Xo (0, 1) 0 0)
    have h2 := abs_nonneg (Xo (0, 0) 0 0)
    have h3 : |(2 : ℝ)| = 2 := abs_of_pos two_pos
    have h4 : |(0 : ℝ)| = 0 := abs_zero
    rw [h3, h4] at h
    have h5 : (Xo (0, 1) 0 0 - 2) ^ 2 ≤ 0 := by nlinarith [sq_nonneg (Xo (0, 0) 0 0)]
    have h6 := pow_eq_zero_iff two_ne_zero |>.1 (le_antisymm h5 (sq_nonneg _))
    linarith
  · obtain ⟨Xo, ⟨_, hmin⟩, ht, _⟩ := ams_convergence (hitOf W1) (fun _ => le_rfl) (fun _ => one_pos) q
      (fun h => by simp [hq] at h) D1 S1 1 one_pos (fun _ => 1) (fun _ => one_pos) fe ge o ha hrlx cb
      hcb s hp Xf hs
    have e : wl (c := 0) (fun _ => 1 : (Fin 1 × Fin 2) × (Fin 1 ⊕ Fin (0 + 1)) × Grid N1 → ℝ) =
      fun _ => 1 := rfl
    have h00 : hitOf (c := 0) (N := N1) W1 ((0, 0) : Fin 1 × Fin 2) 0 0 :=
      ⟨rfl, ⟨fun _ => one_pos, one_pos, one_pos⟩, one_ne_zero⟩
    have h01 : ¬ hitOf (c := 0) (N := N1) W1 ((0, 1) : Fin 1 × Fin 2) 0 0 := by
      rintro ⟨-, ⟨-, -, h⟩, -⟩
      exact absurd h (lt_irrefl 1)
    rw [e] at ht hmin
    have hz : objValid D1 S1 (fun i k p => hitOf W1 k i p) 1 (fun _ => 1) Xo ≤ 0 := by
      have h := hmin (fun _ _ _ => 0) ⟨fun _ _ _ _ => le_rfl, fun _ _ _ _ _ => rfl⟩
      rw [obj1 _ fun _ _ _ => 0] at h
      simpa [h00, h01] using h
    have h0' : (0 : ℝ) ≤ objValid D1 S1 (fun i k p => hitOf W1 k i p) 1 (fun _ => 1) Xo := by
      rw [obj1]
      simp only [h00, h01, if_true, if_false]
      positivity
    rw [le_antisymm hz h0'] at ht
    refine squeeze_zero_norm (fun n => ?_) ht
    rw [obj1, Real.norm_eq_abs]
    simp only [h00, h01, if_true, if_false]
    have := abs_nonneg (part (primary
      (traj (clsAms (hitOf W1) q S1 1 (fun _ => 1) fe ge) o cb s n).Y) (0, 0) 0 0)
    have := sq_nonneg (part (primary
      (traj (clsAms (hitOf W1) q S1 1 (fun _ => 1) fe ge) o cb s n).Y) (0, 0) 0 0)
    linarith

/-- A mask satisfying the hypothesis of `C39_C59_addmask_partial`: two signals of one sample, the
first of which is masked out. -/
example : FullShape 0 1 2 N1
    { Nw := N1, Cw := 1, Kw := 2, val := fun _ _ sg => if sg = 0 then 0 else 1 } :=
  ⟨rfl, rfl, rfl⟩

end Sporco.Conv.Ams
