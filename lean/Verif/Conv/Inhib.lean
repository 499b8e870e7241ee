import Verif.Conv.InhibModel
import Verif.Admm.Sim

/-!
# Convolutional sparse coding with inhibition (C73)
-/

set_option autoImplicit false
set_option linter.unusedSectionVars false

namespace Sporco.Conv.Inhib

open Finset ComplexConjugate Sporco.Linalg Sporco.Prox Sporco.Admm Filter Topology
open scoped RealInnerProductSpace

variable {d c : ℕ} {N Nd : Fin d → ℕ} [∀ k, NeZero (N k)] {a : Fin d} {K M Γ : Type*} [Fintype K]
  [Fintype M] [Fintype Γ] [DecidableEq M]

/-! ## Specification -/

/-- The inhibition weights of the documentation: `ω_m = Σ_n c_{m,n} (|x_n| * h)`, with circular convolution. -/
def inhibW (cm : M → M → ℝ) (h : Grid N → ℝ) (X : K → M → Grid N → ℝ) (i : K × M × Grid N) : ℝ :=
  ∑ n, cm i.2.1 n * rconv h (fun p => |X i.1 n p|) i.2.2

/-- The coupling matrix for groups of filters: the number of groups that contain both filters, zero on the
diagonal. -/
def coupling (G : Γ → M → Bool) (m n : M) : ℝ := if m = n then 0 else ∑ g, if G g m && G g n then 1 else 0

/-- The identity coupling, of the self inhibition. -/
def selfC (m n : M) : ℝ := if m = n then 1 else 0

/-- The `ConvBPDNInhib` functional with lateral weights `om` and self weights `z`. -/
noncomputable def objInhib (D : Dict c M Nd) (S : Signal c K N) (lmbda mu gamma : ℝ) (w om z : K × M × Grid N → ℝ)
    (X : K → M → Grid N → ℝ) : ℝ :=
  dataTerm D S X + lmbda * (∑ k, ∑ m, ∑ p, w (k, m, p) * |X k m p|) +
    mu * (∑ k, ∑ m, ∑ p, om (k, m, p) * |X k m p|) + gamma * ∑ k, ∑ m, ∑ p, z (k, m, p) * |X k m p|

/-- The group matrix with entries 0 and 1. -/
def Wof (G : Γ → M → Bool) : Γ → M → ℝ := fun g m => if G g m then 1 else 0

/-! ## The weights -/

theorem windowed_eq (Wh : Grid N → ℝ) (X : Coef K M N) (k : K) (m : M) :
    windowed a Wh X k m = rconv Wh fun p => |part X k m p| := by
  rw [← irfft_rfft a (rconv Wh fun p => |part X k m p|)]
  unfold windowed
  simp only
  refine congrArg (irfft N a) ?_
  funext ξ
  exact (rf_rconv _ _ ξ.1).symm

theorem rconv_nonneg {h x : Grid N → ℝ} (hh : ∀ p, 0 ≤ h p) (hx : ∀ p, 0 ≤ x p) (p : Grid N) : 0 ≤ rconv h x p :=
  Finset.sum_nonneg fun _ _ => mul_nonneg (hh _) (hx _)

theorem selfNew_eq (Wh : Grid N → ℝ) (X : Coef K M N) : selfNew a Wh X = inhibW selfC Wh (part X) := by
  funext i
  unfold selfNew inhibW selfC
  rw [windowed_eq]
  simp

/-- Any matrix of group weights gives this coupling. -/
def couplingW (W : Γ → M → ℝ) (m n : M) : ℝ := (∑ g, W g m * W g n) - if m = n then ∑ g, W g m else 0

theorem latNew_eqW (W : Γ → M → ℝ) (Wh : Grid N → ℝ) (X : Coef K M N) :
    latNew a W Wh X = inhibW (couplingW W) Wh (part X) := by
  funext i
  unfold latNew inhibW couplingW
  simp only [windowed_eq, sub_mul, Finset.sum_sub_distrib, ite_mul, zero_mul, Finset.sum_ite_eq, Finset.mem_univ,
    if_true]
  congr 1
  simp only [Finset.sum_mul]
  rw [Finset.sum_comm]
  exact Finset.sum_congr rfl fun n _ => Finset.sum_congr rfl fun g _ => by ring

theorem couplingW_groups (G : Γ → M → Bool) : couplingW (Wof G) = coupling G := by
  funext m n
  unfold couplingW coupling Wof
  by_cases h : m = n
  · subst h
    rw [if_pos rfl, if_pos rfl, sub_eq_zero]
    exact Finset.sum_congr rfl fun g _ => by cases G g m <;> simp
  · rw [if_neg h, if_neg h, sub_zero]
    exact Finset.sum_congr rfl fun g _ => by cases G g m <;> cases G g n <;> simp

theorem coupling_nonneg (G : Γ → M → Bool) (m n : M) : 0 ≤ coupling G m n := by
  unfold coupling
  split_ifs
  · exact le_rfl
  · exact Finset.sum_nonneg fun g _ => by split_ifs <;> norm_num

theorem inhibW_nonneg {cm : M → M → ℝ} (hc : ∀ m n, 0 ≤ cm m n) {h : Grid N → ℝ} (hh : ∀ p, 0 ≤ h p)
    (X : K → M → Grid N → ℝ) (i : K × M × Grid N) : 0 ≤ inhibW cm h X i :=
  Finset.sum_nonneg fun _ _ => mul_nonneg (hc _ _) (rconv_nonneg hh (fun _ => abs_nonneg _) _)

/-! ## One iteration -/

variable (q : COpts) (S : Signal c K N) (lmbda : ℝ) (w : K × M × Grid N → ℝ) (P : Par Γ M N)

/-- Whether the object ignores the inhibition. -/
def Off : Prop := (P.Wg = none ∨ P.mu = 0) ∧ P.gamma = 0

theorem ystepI_base (rho : ℝ) (AX X Y U : Coef K M N) (h : AttrI c K M Nd N a) :
    (ystepI q lmbda w P rho AX X Y U h).2.base = h.base := by
  unfold ystepI; split_ifs <;> rfl

/-- The lateral weights after the Y update. -/
theorem ystepI_wml (rho : ℝ) (AX X Y U : Coef K M N) (h : AttrI c K M Nd N a) (W : Γ → M → ℝ) (hW : P.Wg = some W)
    (hm : 0 < P.mu) : (ystepI q lmbda w P rho AX X Y U h).2.wml =
      fun i => P.smooth * h.wml i + (1 - P.smooth) * inhibW (couplingW W) P.Whl (part X) i := by
  have hn : ¬ ((P.Wg = none ∨ P.mu = 0) ∧ P.gamma = 0) := by
    rintro ⟨h | h, -⟩
    · rw [hW] at h; cases h
    · exact hm.ne' h
  unfold ystepI
  rw [if_neg hn]
  simp only [hW, if_pos hm, gt_iff_lt, latNew_eqW]

/-- Without groups the lateral weights stay as they are. -/
theorem ystepI_wml_none (rho : ℝ) (AX X Y U : Coef K M N) (h : AttrI c K M Nd N a) (hW : P.Wg = none ∨ ¬ 0 < P.mu) :
    (ystepI q lmbda w P rho AX X Y U h).2.wml = h.wml := by
  unfold ystepI
  by_cases h1 : (P.Wg = none ∨ P.mu = 0) ∧ P.gamma = 0
  · rw [if_pos h1]
  · rw [if_neg h1]
    rcases hW with hW | hW
    · simp only [hW]
    · simp only [gt_iff_lt, if_neg hW]
      cases P.Wg <;> rfl

theorem ystepI_wms (rho : ℝ) (AX X Y U : Coef K M N) (h : AttrI c K M Nd N a) (hg : 0 < P.gamma) :
    (ystepI q lmbda w P rho AX X Y U h).2.wms =
      fun i => P.smooth * h.wms i + (1 - P.smooth) * inhibW selfC P.Whs (part X) i := by
  have hn : ¬ ((P.Wg = none ∨ P.mu = 0) ∧ P.gamma = 0) := fun h => hg.ne' h.2
  unfold ystepI
  rw [if_neg hn]
  simp only [if_pos hg, gt_iff_lt, selfNew_eq]

theorem ystepI_wms_none (rho : ℝ) (AX X Y U : Coef K M N) (h : AttrI c K M Nd N a) (hg : ¬ 0 < P.gamma) :
    (ystepI q lmbda w P rho AX X Y U h).2.wms = h.wms := by
  unfold ystepI
  by_cases h1 : (P.Wg = none ∨ P.mu = 0) ∧ P.gamma = 0
  · rw [if_pos h1]
  · rw [if_neg h1]
    simp only [gt_iff_lt, if_neg hg]

/-- The combined weights. -/
def comb (h : AttrI c K M Nd N a) (i : K × M × Grid N) : ℝ := lmbda * w i + P.mu * h.wml i + P.gamma * h.wms i

theorem ystepI_fst (rho : ℝ) (AX X Y U : Coef K M N) (h : AttrI c K M Nd N a)
    (h0 : P.Wg = none → h.wml = fun _ => 0) :
    (ystepI q lmbda w P rho AX X Y U h).1 = (ystep q 1 (comb lmbda w P h) rho AX X Y U h.base).1 := by
  unfold ystepI ystep
  by_cases h1 : (P.Wg = none ∨ P.mu = 0) ∧ P.gamma = 0
  · rw [if_pos h1]
    have e : (fun i => lmbda / rho * w i) = fun i => 1 / rho * comb lmbda w P h i := by
      funext i
      have : P.mu * h.wml i = 0 := by
        rcases h1.1 with h | h
        · rw [h0 h, mul_zero]
        · rw [h, zero_mul]
      unfold comb
      rw [this, h1.2]; ring
    simp only [e]
  · rw [if_neg h1]
    have e : (fun i => (lmbda * w i + P.mu * h.wml i + P.gamma * h.wms i) / rho) =
        fun i => 1 / rho * comb lmbda w P h i := by
      funext i; unfold comb; ring
    simp only [e]

/-- Non-negative weights, and none without groups. -/
structure Good (h : AttrI c K M Nd N a) : Prop where
  wml : ∀ i, 0 ≤ h.wml i
  wms : ∀ i, 0 ≤ h.wms i
  none : P.Wg = none → h.wml = fun _ => 0

/-- The parameters the theorems ask for: groups given by a 0/1 matrix, non-negative `mu`, `gamma` and windows, and a
smoothing weight in [0, 1]. -/
structure ParOk : Prop where
  groups : ∀ W, P.Wg = some W → ∃ G : Γ → M → Bool, W = Wof G
  mu : 0 ≤ P.mu
  gamma : 0 ≤ P.gamma
  smooth0 : 0 ≤ P.smooth
  smooth1 : P.smooth ≤ 1
  Whl : ∀ p, 0 ≤ P.Whl p
  Whs : ∀ p, 0 ≤ P.Whs p

theorem selfC_nonneg (m n : M) : 0 ≤ selfC m n := by unfold selfC; split_ifs <;> norm_num

theorem couplingW_nonneg (hP : ParOk P) {W : Γ → M → ℝ} (hW : P.Wg = some W) (m n : M) : 0 ≤ couplingW W m n := by
  obtain ⟨G, rfl⟩ := hP.groups W hW
  rw [couplingW_groups]; exact coupling_nonneg G m n

theorem good_ystep (hP : ParOk P) (rho : ℝ) (AX X Y U : Coef K M N) (h : AttrI c K M Nd N a) (hg : Good P h) :
    Good P (ystepI q lmbda w P rho AX X Y U h).2 := by
  refine ⟨fun i => ?_, fun i => ?_, fun hn => ?_⟩
  · cases hW : P.Wg with
    | none => rw [ystepI_wml_none q lmbda w P rho AX X Y U h (Or.inl hW)]; exact hg.wml i
    | some W =>
      by_cases hm : 0 < P.mu
      · rw [ystepI_wml q lmbda w P rho AX X Y U h W hW hm]
        exact add_nonneg (mul_nonneg hP.smooth0 (hg.wml i)) (mul_nonneg (by linarith [hP.smooth1])
          (inhibW_nonneg (couplingW_nonneg P hP hW) hP.Whl _ _))
      · rw [ystepI_wml_none q lmbda w P rho AX X Y U h (Or.inr hm)]; exact hg.wml i
  · by_cases hm : 0 < P.gamma
    · rw [ystepI_wms q lmbda w P rho AX X Y U h hm]
      exact add_nonneg (mul_nonneg hP.smooth0 (hg.wms i)) (mul_nonneg (by linarith [hP.smooth1])
        (inhibW_nonneg selfC_nonneg hP.Whs _ _))
    · rw [ystepI_wms_none q lmbda w P rho AX X Y U h hm]; exact hg.wms i
  · rw [ystepI_wml_none q lmbda w P rho AX X Y U h (Or.inl hn)]; exact hg.none hn

/-- What the attributes satisfy along a run. -/
def InvI (D : Dict c M Nd) (rho : ℝ) (h : AttrI c K M Nd N a) : Prop := Coh q D S rho h.base ∧ Good P h

theorem keepsI (D : Dict c M Nd) (hP : ParOk P) (fe ge : Bool) :
    Keeps (clsInhib (a := a) (Nd := Nd) q S lmbda w P fe ge) (InvI q S P D) :=
  ⟨equal_sane _ _ _ _, fun _ X Y U _ _ h => ⟨coh_xstep h.1 X Y U, ⟨h.2.wml, h.2.wms, h.2.none⟩⟩,
    fun rho AX X Y U h _ hc => by
      refine ⟨?_, good_ystep q lmbda w P hP rho AX X Y U h hc.2⟩
      change Coh q D S rho (ystepI q lmbda w P rho AX X Y U h).2.base
      rw [ystepI_base]; exact hc.1,
    fun _ _ _ _ _ h => ⟨coh_rhochange h.1, ⟨h.2.wml, h.2.wms, h.2.none⟩⟩⟩

theorem init_inv (D : Dict c M Nd) (rho : ℝ) (Xf : Spec K M N a) : InvI q S P D rho (initI q S rho D Xf) :=
  ⟨⟨Xf, rfl⟩, ⟨fun _ => le_rfl, fun _ => le_rfl, fun _ => rfl⟩⟩

/-- The weights after an iteration are those of the Y update. -/
theorem oneIter_weights (fe ge : Bool) (o : Opts) (cb) (hcb : Bpdn.CallbackReads cb)
    (s : St (Coef K M N) (Coef K M N) (Coef K M N) (AttrI c K M Nd N a)) :
    let C := clsInhib q S lmbda w P fe ge
    (oneIter C o cb s).extra.wml = (steps C o s).extra.wml ∧ (oneIter C o cb s).extra.wms = (steps C o s).extra.wms := by
  intro C
  have hu : ∀ (k : ℕ) (r t : ℝ) (st : St (Coef K M N) (Coef K M N) (Coef K M N) (AttrI c K M Nd N a)),
      (updateRho C o k r t st).extra.wml = st.extra.wml ∧ (updateRho C o k r t st).extra.wms = st.extra.wms := by
    intro k r t st
    unfold updateRho
    simp only
    split_ifs <;> exact ⟨rfl, rfl⟩
  have hk : (steps C o { s with k := s.k }).extra = (steps C o s).extra := rfl
  unfold oneIter body
  cases cb with
  | none => cases o.fastSolve <;> cases o.withRsdl <;> simp [hu]
  | some f =>
    have := hcb f
    cases o.fastSolve <;> cases o.withRsdl <;> simp [hu, this]

/-! ## C73 -/

/-- **C73, no inhibition.** Without groups (or with `mu = 0`) and with `gamma = 0`, a newly constructed object goes
through the same run as a `ConvBPDN` object: `solve` leaves it with the same variables, penalty parameter, counter and
statistics. -/
theorem C73_off (hoff : (P.Wg = none ∨ P.mu = 0) ∧ P.gamma = 0) (fe ge : Bool) (o : Opts)
    (ho : o.autoRho = true → o.RhoOk) (s : St (Coef K M N) (Coef K M N) (Coef K M N) (AttrI c K M Nd N a))
    (hp : 0 < s.rho) (D : Dict c M Nd) (rho0 : ℝ) (Xf : Spec K M N a) (hs : s.extra = initI q S rho0 D Xf) :
    let s' := solve (clsInhib q S lmbda w P fe ge) o none s
    let t' := solve (clsConvBPDN q S lmbda w fe ge) o none
      ⟨s.X, s.Y, s.Yprev, s.U, s.AX, s.AXnr, s.rho, s.k, s.itstat, setdict q S rho0 D Xf⟩
    s'.X = t'.X ∧ s'.Y = t'.Y ∧ s'.U = t'.U ∧ s'.rho = t'.rho ∧ s'.k = t'.k ∧ s'.itstat = t'.itstat := by
  let Inv : ℝ → AttrI c K M Nd N a → Prop := fun _ h => (h.wml = fun _ => 0) ∧ h.wms = fun _ => 0
  have hk : Keeps (clsInhib (a := a) (Nd := Nd) q S lmbda w P fe ge) Inv := by
    refine ⟨equal_sane _ _ _ _, fun _ _ _ _ _ _ h => h, fun rho AX X Y U h _ hc => ?_, fun _ _ _ _ _ h => h⟩
    change Inv rho (ystepI q lmbda w P rho AX X Y U h).2
    unfold ystepI; rw [if_pos hoff]; exact hc
  have hsim : ClsSim AttrI.base (clsInhib (a := a) (Nd := Nd) q S lmbda w P fe ge) (clsConvBPDN q S lmbda w fe ge)
      Inv := by
    refine ⟨fun _ _ _ _ _ _ _ => rfl, fun rho AX X Y U h _ _ => ?_, fun _ _ _ _ => rfl, fun _ X Y h hI => ?_, rfl, rfl,
      rfl, rfl, rfl, rfl⟩
    · change ystep q lmbda w rho AX X Y U h.base = ((ystepI q lmbda w P rho AX X Y U h).1,
        (ystepI q lmbda w P rho AX X Y U h).2.base)
      unfold ystepI; rw [if_pos hoff]; rfl
    · change (dfd S fe Y h.base + regL1 lmbda w (Bpdn.gvar ge X Y), dfd S fe Y h.base, regL1 lmbda w (Bpdn.gvar ge X Y)) =
        (dfd S fe Y h.base + regI lmbda w P h (Bpdn.gvar ge X Y), dfd S fe Y h.base, regI lmbda w P h (Bpdn.gvar ge X Y))
      have e : regI lmbda w P h (Bpdn.gvar ge X Y) = regL1 lmbda w (Bpdn.gvar ge X Y) := by
        unfold regI regTerms regL1
        rw [hI.1, hI.2]
        simp [normL1]
      rw [e]
  have h := solve_sim hsim hk o ho none none (fun _ _ h => by cases h) (Or.inl ⟨rfl, rfl⟩) s hp
    (by rw [hs]; exact ⟨rfl, rfl⟩)
  have e : s.mapExtra AttrI.base = (⟨s.X, s.Y, s.Yprev, s.U, s.AX, s.AXnr, s.rho, s.k, s.itstat,
      setdict q S rho0 D Xf⟩ : St (Coef K M N) (Coef K M N) (Coef K M N) (Attr c K M Nd N a)) := by
    unfold St.mapExtra; rw [hs]; rfl
  rw [e] at h
  intro s' t'
  have ht : t' = s'.mapExtra AttrI.base := h
  rw [ht]
  exact ⟨rfl, rfl, rfl, rfl, rfl, rfl⟩

/-- **C73, the weights.** With groups and `mu > 0`, the lateral weights after an iteration are the old ones and those
of the documentation for the X just computed, mixed in the proportion `SmoothWeight`; the same for the self weights
if `gamma > 0`.  All weights are non-negative at all times. -/
theorem C73_weights (D : Dict c M Nd) (hP : ParOk P) (fe ge : Bool) (o : Opts) (ho : o.autoRho = true → o.RhoOk) (cb)
    (hcb : Bpdn.CallbackReads cb) (s : St (Coef K M N) (Coef K M N) (Coef K M N) (AttrI c K M Nd N a))
    (hp : 0 < s.rho) (Xf : Spec K M N a) (hs : s.extra = initI q S s.rho D Xf) (n : ℕ) :
    let T := traj (clsInhib q S lmbda w P fe ge) o cb s
    (∀ G : Γ → M → Bool, P.Wg = some (Wof G) → 0 < P.mu → ∀ i, (T (n + 1)).extra.wml i =
      P.smooth * (T n).extra.wml i + (1 - P.smooth) * inhibW (coupling G) P.Whl (part (T (n + 1)).X) i) ∧
    (0 < P.gamma → ∀ i, (T (n + 1)).extra.wms i =
      P.smooth * (T n).extra.wms i + (1 - P.smooth) * inhibW selfC P.Whs (part (T (n + 1)).X) i) ∧
    ∀ i, 0 ≤ (T n).extra.wml i ∧ 0 ≤ (T n).extra.wms i := by
  intro T
  have hT : T (n + 1) = oneIter (clsInhib q S lmbda w P fe ge) o cb (T n) := traj_succ _ _ _ _ _
  have hw := oneIter_weights q S lmbda w P fe ge o cb hcb (T n)
  have hX : (T (n + 1)).X = (xstep (T n).rho (T n).X (T n).Y (T n).U (T n).extra.base).1 := by
    rw [hT, oneIter_X]; rfl
  have hg := (traj_keeps (keepsI q S lmbda w P D hP fe ge) o ho cb (hcb.keeps _) s hp
    (by rw [hs]; exact init_inv q S P D _ _) n).2.2
  refine ⟨fun G hG hm i => ?_, fun hm i => ?_, fun i => ⟨hg.wml i, hg.wms i⟩⟩
  · rw [hX, hT, hw.1, ← couplingW_groups]
    exact congrFun (ystepI_wml q lmbda w P _ _ _ _ _ _ _ hG hm) i
  · rw [hX, hT, hw.2]
    exact congrFun (ystepI_wms q lmbda w P _ _ _ _ _ _ hm) i

theorem comb_nonneg (hl : 0 ≤ lmbda) (hw : ∀ i, 0 ≤ w i) (hP : ParOk P) (h : AttrI c K M Nd N a) (hg : Good P h) (i) :
    0 ≤ comb lmbda w P h i :=
  add_nonneg (add_nonneg (mul_nonneg hl (hw i)) (mul_nonneg hP.mu (hg.wml i))) (mul_nonneg hP.gamma (hg.wms i))

theorem l1w_comb (h : AttrI c K M Nd N a) (y : Coef K M N) :
    l1w (comb lmbda w P h) y.ofLp = lmbda * (∑ k, ∑ m, ∑ p, w (k, m, p) * |part y k m p|) +
      P.mu * (∑ k, ∑ m, ∑ p, h.wml (k, m, p) * |part y k m p|) +
      P.gamma * ∑ k, ∑ m, ∑ p, h.wms (k, m, p) * |part y k m p| := by
  rw [← l1w_part, ← l1w_part, ← l1w_part]
  unfold l1w comb
  rw [Finset.mul_sum, Finset.mul_sum, Finset.mul_sum, ← Finset.sum_add_distrib, ← Finset.sum_add_distrib]
  exact Finset.sum_congr rfl fun i _ => by ring

theorem oneIter_Y (C : Cls (Coef K M N) (Coef K M N) (Coef K M N) (AttrI c K M Nd N a)) (o : Opts) (cb)
    (s : St (Coef K M N) (Coef K M N) (Coef K M N) (AttrI c K M Nd N a)) :
    (oneIter C o cb s).Y = (steps C o s).Y := by
  have hu : ∀ (k : ℕ) (r t : ℝ) (st : St (Coef K M N) (Coef K M N) (Coef K M N) (AttrI c K M Nd N a)),
      (updateRho C o k r t st).Y = st.Y := by
    intro k r t st; unfold updateRho
    simp only
    split_ifs <;> rfl
  unfold oneIter body
  cases o.fastSolve <;> cases o.withRsdl <;> cases cb <;> simp [hu]

theorem relax_eq (rlx : ℝ) (X Y : Coef K M N) : (Equal.relaxAX rlx X Y).1 = rlx • X + (1 - rlx) • Y := by
  unfold Equal.relaxAX
  split_ifs with h
  · subst h; simp
  · rfl

/-- The Y update in terms of norms. -/
theorem Y_min (hN : ∀ n, Nd n ≤ N n) (h2 : q.noBndry = true → ∀ n, 2 ≤ Nd n) (hP : ParOk P)
    (hl : 0 ≤ lmbda) (hw : ∀ i, 0 ≤ w i) (fe ge : Bool) (o : Opts) (cb)
    (s : St (Coef K M N) (Coef K M N) (Coef K M N) (AttrI c K M Nd N a)) (hr : 0 < s.rho) (hg : Good P s.extra) :
    let s' := oneIter (clsInhib q S lmbda w P fe ge) o cb s
    let AX := o.rlx • s'.X + (1 - o.rlx) • s.Y
    s'.Y ∈ (cset q Nd : Set (Coef K M N)) ∧ ∀ z ∈ (cset q Nd : Set (Coef K M N)),
      l1w (comb lmbda w P s.extra) s'.Y.ofLp + s.rho / 2 * ‖AX - s'.Y + s.U‖ ^ 2 ≤
        l1w (comb lmbda w P s.extra) z.ofLp + s.rho / 2 * ‖AX - z + s.U‖ ^ 2 := by
  intro s' AX
  let x := xstepI s.rho s.X s.Y s.U s.extra
  have hX : s'.X = x.1 := oneIter_X _ _ _ _
  have hAX : AX = (Equal.relaxAX o.rlx x.1 s.Y).1 := by rw [relax_eq, ← hX]
  have hY : s'.Y = (ystep q 1 (comb lmbda w P x.2) s.rho AX x.1 s.Y s.U x.2.base).1 := by
    change (oneIter _ o cb s).Y = _
    rw [oneIter_Y, hAX]
    exact ystepI_fst q lmbda w P s.rho _ x.1 s.Y s.U x.2 hg.none
  have hc : comb lmbda w P x.2 = comb lmbda w P s.extra := rfl
  have := ystep_conv_min q h2 hN 1 (by norm_num) (comb lmbda w P s.extra) (comb_nonneg lmbda w P hl hw hP _ hg) s.rho hr
    AX x.1 s.Y s.U x.2.base
  simp only [one_mul] at this
  rw [hY, hc]
  exact this

/-- **C73, the updates.** In each iteration the X update gives the unique minimiser of the augmented Lagrangian, and
the Y update a minimiser, over the arrays allowed by `NonNegCoef` and `NoBndryCross`, of the regularisation terms with
the current weights plus the quadratic penalty. -/
theorem C73_updates (hN : ∀ n, Nd n ≤ N n) (h2 : q.noBndry = true → ∀ n, 2 ≤ Nd n) (D : Dict c M Nd) (hP : ParOk P)
    (hl : 0 ≤ lmbda) (hw : ∀ i, 0 ≤ w i) (fe ge : Bool) (o : Opts) (ho : o.autoRho = true → o.RhoOk) (cb)
    (hcb : Bpdn.CallbackReads cb) (s : St (Coef K M N) (Coef K M N) (Coef K M N) (AttrI c K M Nd N a))
    (hp : 0 < s.rho) (Xf : Spec K M N a) (hs : s.extra = initI q S s.rho D Xf) (n : ℕ) :
    let T := traj (clsInhib q S lmbda w P fe ge) o cb s
    let AX := o.rlx • (T (n + 1)).X + (1 - o.rlx) • (T n).Y
    let J := fun y : K → M → Grid N → ℝ => lmbda * (∑ k, ∑ m, ∑ p, w (k, m, p) * |y k m p|) +
      P.mu * (∑ k, ∑ m, ∑ p, (T n).extra.wml (k, m, p) * |y k m p|) +
      P.gamma * (∑ k, ∑ m, ∑ p, (T n).extra.wms (k, m, p) * |y k m p|) +
      (T n).rho / 2 * sumSq fun k m p => part AX k m p - y k m p + part (T n).U k m p
    IsUniqueMin (augConv D S (T n).rho (part (T n).Y) (part (T n).U)) Set.univ (part (T (n + 1)).X) ∧
      IsMin J (allowedConv q.nonNeg q.noBndry Nd) (part (T (n + 1)).Y) := by
  intro T AX J
  have hT : T (n + 1) = oneIter (clsInhib q S lmbda w P fe ge) o cb (T n) := traj_succ _ _ _ _ _
  obtain ⟨hr, hI⟩ := traj_keeps (keepsI q S lmbda w P D hP fe ge) o ho cb (hcb.keeps _) s hp
    (by rw [hs]; exact init_inv q S P D _ _) n
  have hX : (T (n + 1)).X = (xstep (T n).rho (T n).X (T n).Y (T n).U (T n).extra.base).1 := by
    rw [hT, oneIter_X]; rfl
  have hJ : ∀ y : Coef K M N, J (part y) =
      l1w (comb lmbda w P (T n).extra) y.ofLp + (T n).rho / 2 * ‖AX - y + (T n).U‖ ^ 2 := by
    intro y
    rw [l1w_comb, ← sumSq_eq]
    rfl
  obtain ⟨hm, hmin⟩ := Y_min q S lmbda w P hN h2 hP hl hw fe ge o cb (T n) hr hI.2
  rw [← hT] at hm hmin
  refine ⟨?_, hm, fun y hy => ?_⟩
  · obtain ⟨Xf', he⟩ := hI.1
    rw [hX, he]
    exact C40_convbpdn_xstep hN q D S _ hr _ _ _ Xf'
  · have h1 := hJ (T (n + 1)).Y
    have h3 := hJ (join y)
    rw [h1]
    have h4 : J y = J (part (join y)) := rfl
    rw [h4, h3]
    exact hmin (join y) hy

/-- **C73, the recorded values.** Each entry records, with `AuxVarObj`, the functional at Y with the weights just
computed, and without it the functional at X; and the fields `RegL1`, `RegLat` and `RegSelf` are the sums of the
documentation. -/
theorem C73_recorded (hN : ∀ n, Nd n ≤ N n) (D : Dict c M Nd) (hP : ParOk P) (hw : ∀ i, 0 ≤ w i) (aux : Bool)
    (o : Opts) (ho : o.autoRho = true → o.RhoOk) (hf : o.fastSolve = false) (cb) (hcb : Bpdn.CallbackReads cb)
    (s : St (Coef K M N) (Coef K M N) (Coef K M N) (AttrI c K M Nd N a)) (hp : 0 < s.rho) (Xf : Spec K M N a)
    (hs : s.extra = initI q S s.rho D Xf) (n : ℕ) :
    let T := traj (clsInhib q S lmbda w P (!aux) aux) o cb s
    let V := part (if aux then (T (n + 1)).Y else (T (n + 1)).X)
    let om := (T (n + 1)).extra.wml
    let z := (T (n + 1)).extra.wms
    (∃ e, (T (n + 1)).itstat = (T n).itstat ++ [e] ∧ e.obj.1 = objInhib D S lmbda P.mu P.gamma w om z V ∧
      e.obj.2.1 = dataTerm D S V) ∧
    regTerms w (T (n + 1)).extra (if aux then (T (n + 1)).Y else (T (n + 1)).X) =
      (∑ k, ∑ m, ∑ p, w (k, m, p) * |V k m p|, ∑ k, ∑ m, ∑ p, om (k, m, p) * |V k m p|,
        ∑ k, ∑ m, ∑ p, z (k, m, p) * |V k m p|) := by
  intro T V om z
  have hT : T (n + 1) = oneIter (clsInhib q S lmbda w P (!aux) aux) o cb (T n) := traj_succ _ _ _ _ _
  obtain ⟨hr, hI⟩ := traj_keeps (keepsI q S lmbda w P D hP (!aux) aux) o ho cb (hcb.keeps _) s hp
    (by rw [hs]; exact init_inv q S P D _ _) n
  obtain ⟨-, hI'⟩ := traj_keeps (keepsI q S lmbda w P D hP (!aux) aux) o ho cb (hcb.keeps _) s hp
    (by rw [hs]; exact init_inv q S P D _ _) (n + 1)
  have hg : ∀ i, 0 ≤ om i ∧ 0 ≤ z i := fun i => ⟨hI'.2.wml i, hI'.2.wms i⟩
  have hn : ∀ (v : K × M × Grid N → ℝ) (hv : ∀ i, 0 ≤ v i) (y : Coef K M N),
      normL1 (fun i => v i * y i) = ∑ k, ∑ m, ∑ p, v (k, m, p) * |part y k m p| := by
    intro v hv y
    have := regL1_eq 1 v hv y
    unfold regL1 at this
    rwa [one_mul, one_mul] at this
  have hreg : regTerms w (T (n + 1)).extra (if aux then (T (n + 1)).Y else (T (n + 1)).X) =
      (∑ k, ∑ m, ∑ p, w (k, m, p) * |V k m p|, ∑ k, ∑ m, ∑ p, om (k, m, p) * |V k m p|,
        ∑ k, ∑ m, ∑ p, z (k, m, p) * |V k m p|) := by
    unfold regTerms
    rw [hn w hw, hn _ fun i => (hg i).1, hn _ fun i => (hg i).2]
  refine ⟨⟨statOf (clsInhib q S lmbda w P (!aux) aux) o (s.k + n) (T n), ?_, ?_⟩, hreg⟩
  · change (traj _ o cb s (n + 1)).itstat = (traj _ o cb s n).itstat ++ _
    rw [traj_itstat, traj_itstat]
    simp [hf, List.range_succ, T]
  · have hst : (statOf (clsInhib q S lmbda w P (!aux) aux) o (s.k + n) (T n)).obj =
        (clsInhib q S lmbda w P (!aux) aux).objfn (steps (clsInhib q S lmbda w P (!aux) aux) o (T n)).X
          (steps (clsInhib q S lmbda w P (!aux) aux) o (T n)).Y (steps (clsInhib q S lmbda w P (!aux) aux) o (T n)).extra :=
      rfl
    have hX : (T (n + 1)).X = (steps (clsInhib q S lmbda w P (!aux) aux) o (T n)).X := by
      rw [hT, oneIter_X]; rfl
    have hY : (T (n + 1)).Y = (steps (clsInhib q S lmbda w P (!aux) aux) o (T n)).Y := by
      rw [hT, oneIter_Y]
    obtain ⟨hw1, hw2⟩ := oneIter_weights q S lmbda w P (!aux) aux o cb hcb (T n)
    rw [← hT] at hw1 hw2
    rw [hst, ← hX, ← hY]
    have hb : (steps (clsInhib q S lmbda w P (!aux) aux) o (T n)).extra.base =
        (xstep (T n).rho (T n).X (T n).Y (T n).U (T n).extra.base).2 := by
      change (ystepI q lmbda w P _ _ _ _ _ _).2.base = _
      rw [ystepI_base]; rfl
    generalize hh : (steps (clsInhib q S lmbda w P (!aux) aux) o (T n)).extra = h at hw1 hw2 hb ⊢
    have hd : dfd S (!aux) (T (n + 1)).Y h.base = dataTerm D S V := by
      rw [hb]
      obtain ⟨Xf', he⟩ := hI.1
      cases aux with
      | true =>
        rw [he]
        exact dfd_eq hN D S (T (n + 1)).Y _ fun _ _ => rfl
      | false =>
        have hx := fun k m => xstep_Xf hr hI.1 (T n).X (T n).Y (T n).U k m
        have hX' : (T (n + 1)).X = (xstep (T n).rho (T n).X (T n).Y (T n).U (T n).extra.base).1 := by
          rw [hT, oneIter_X]; rfl
        rw [← hX'] at hx
        rw [he] at hx ⊢
        exact dfd_eq hN D S (T (n + 1)).X _ hx
    have hgv : Bpdn.gvar aux (T (n + 1)).X (T (n + 1)).Y = if aux then (T (n + 1)).Y else (T (n + 1)).X := rfl
    have hrI : regI lmbda w P h (Bpdn.gvar aux (T (n + 1)).X (T (n + 1)).Y) =
        lmbda * (∑ k, ∑ m, ∑ p, w (k, m, p) * |V k m p|) + P.mu * (∑ k, ∑ m, ∑ p, om (k, m, p) * |V k m p|) +
        P.gamma * ∑ k, ∑ m, ∑ p, z (k, m, p) * |V k m p| := by
      have e : regTerms w h (Bpdn.gvar aux (T (n + 1)).X (T (n + 1)).Y) =
          regTerms w (T (n + 1)).extra (if aux then (T (n + 1)).Y else (T (n + 1)).X) := by
        rw [hgv]; unfold regTerms; rw [hw1, hw2]
      unfold regI
      rw [e, hreg]
    change dfd S (!aux) (T (n + 1)).Y h.base + regI lmbda w P h (Bpdn.gvar aux (T (n + 1)).X (T (n + 1)).Y) = _ ∧
      dfd S (!aux) (T (n + 1)).Y h.base = _
    rw [hd, hrI]
    unfold objInhib
    exact ⟨by ring, rfl⟩

end Sporco.Conv.Inhib
