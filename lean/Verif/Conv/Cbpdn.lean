import Verif.Conv.CbpdnModel

/-!
# Exactness of the X update of the convolutional solvers, cache coherence, `NoBndryCross`
(C40, C43, C44)
-/

set_option autoImplicit false
set_option linter.unusedSectionVars false

namespace Sporco.Conv

open Finset ComplexConjugate Sporco.Linalg Sporco.Prox Sporco.Admm
open scoped RealInnerProductSpace

variable {d c : ℕ} {N Nd : Fin d → ℕ} [∀ k, NeZero (N k)] {a : Fin d} {K M : Type*} [Fintype K]
  [Fintype M]

/-! ## Specification -/

/-- `∑ₘ d_m * x_m` for channel `i` and signal `k`: the signal the coefficients stand for. -/
def recon (D : Dict c M Nd) (X : K → M → Grid N → ℝ) : Signal c K N :=
  fun i k p => ∑ m, filt (D i m) (X k m) p

/-- `(1/2) ‖∑ₘ d_m * x_m - s‖²`. -/
noncomputable def dataTerm (D : Dict c M Nd) (S : Signal c K N) (X : K → M → Grid N → ℝ) : ℝ :=
  1 / 2 * ∑ i, ∑ k, ∑ p, (recon D X i k p - S i k p) ^ 2

/-- Sum of squares of all entries. -/
def sumSq (X : K → M → Grid N → ℝ) : ℝ := ∑ k, ∑ m, ∑ p, X k m p ^ 2

/-- The augmented Lagrangian of `ConvBPDN` as a function of X. -/
noncomputable def augConv (D : Dict c M Nd) (S : Signal c K N) (rho : ℝ) (Y U X : K → M → Grid N → ℝ) : ℝ :=
  dataTerm D S X + rho / 2 * sumSq (fun k m p => X k m p - Y k m p + U k m p)

/-- The augmented Lagrangian of `ConvElasticNet` as a function of X. -/
noncomputable def augConvEN (D : Dict c M Nd) (S : Signal c K N) (mu rho : ℝ)
    (Y U X : K → M → Grid N → ℝ) : ℝ :=
  dataTerm D S X + mu / 2 * sumSq X + rho / 2 * sumSq (fun k m p => X k m p - Y k m p + U k m p)

/-! ## The linear solve -/

theorem freqSolve_cached (df : Fin (c + 1) → M → ℂ) (rho : ℝ) (b : M → ℂ) :
    freqSolve df rho b (some (solvedbiSmC (df 0) (fun n => conj (df 0 n)) rho)) =
      freqSolve df rho b none := rfl

theorem freqSolve_spec (df : Fin (c + 1) → M → ℂ) (rho : ℝ) (hr : 0 < rho) (b : M → ℂ) (m : M) :
    ∑ i, conj (df i m) * ∑ n, df i n * freqSolve df rho b none n +
      rho * freqSolve df rho b none m = b m := by
  classical
  by_cases hc : c = 0
  · subst hc
    have h := congrFun (C23_solvedbi (df 0) b rho hr) m
    rw [rankOne_apply] at h
    simp only [Complex.conj_conj, Linalg.inner] at h
    rw [Fin.sum_univ_succ, Fin.sum_univ_zero, add_zero]
    unfold freqSolve
    rw [if_pos rfl, add_comm]
    exact h
  · have h := congrFun (C24_ism (df 0) (List.ofFn fun i : Fin c => df i.succ) rho hr b) m
    rw [sumMatrix_mulVec] at h
    simp only [List.map_cons, List.sum_cons, List.map_ofFn, List.sum_ofFn, Function.comp_def,
      Complex.conj_conj, Linalg.inner] at h
    rw [Fin.sum_univ_succ]
    unfold freqSolve
    rw [if_neg hc, add_comm]
    exact h

/-- Padded filters. -/
def padD (N : Fin d → ℕ) (D : Dict c M Nd) : Fin (c + 1) → M → Grid N → ℝ := fun i m => pad N (D i m)

/-- What the attributes hold when the cached component belongs to the diagonal term `dg`. -/
def Coh (q : COpts) (D : Dict c M Nd) (S : Signal c K N) (dg : ℝ) (h : Attr c K M Nd N a) : Prop :=
  ∃ Xf, h = setdict q S dg D Xf

/-- The spectrum computed by the X update, at every frequency. -/
noncomputable def fullF (D : Dict c M Nd) (S : Signal c K N) (dg rho : ℝ) (Y U : Coef K M N)
    (k : K) (m : M) (ξ : Grid N) : ℂ :=
  freqSolve (fun i n => rf (padD N D i n) ξ) dg
    (fun n => ∑ i, conj (rf (padD N D i n) ξ) * rf (S i k) ξ + rho * rf (part (Y - U) k n) ξ) none m

theorem solveF_coh {q : COpts} {D : Dict c M Nd} {S : Signal c K N} {dg : ℝ}
    {h : Attr c K M Nd N a} (hc : Coh q D S dg h) (rho : ℝ) (Y U : Coef K M N) (k : K) (m : M) :
    solveF dg rho Y U h k m = fun ξ => fullF D S dg rho Y U k m ξ.1 := by
  obtain ⟨Xf, rfl⟩ := hc
  funext ξ
  unfold solveF fullF setdict
  simp only
  by_cases hq : q.caches c
  · rw [if_pos hq]
    exact congrFun (freqSolve_cached (fun i n => dictF a D i n ξ) dg _) m
  · rw [if_neg hq]
    rfl

theorem fullF_herm (D : Dict c M Nd) (S : Signal c K N) (dg rho : ℝ) (hd : 0 < dg)
    (Y U : Coef K M N) (k : K) (m : M) : Herm (fullF D S dg rho Y U k m) := by
  refine freq_herm (fun i n => rf (padD N D i n)) (fun i n => rf_herm _) (fun _ _ => dg)
    (fun _ _ => hd) (fun _ _ => rfl)
    (fun n ξ => ∑ i, conj (rf (padD N D i n) ξ) * rf (S i k) ξ + rho * rf (part (Y - U) k n) ξ)
    (fullF D S dg rho Y U k) ?_ ?_ m
  · intro n ξ
    simp only [rf_herm _ ξ, map_add, map_sum, map_mul, Complex.conj_ofReal]
  · intro n ξ
    exact freqSolve_spec (fun i n => rf (padD N D i n) ξ) dg hd _ n

/-- The array computed by the X update with diagonal term `dg`. -/
noncomputable def xOf (a : Fin d) (D : Dict c M Nd) (S : Signal c K N) (dg rho : ℝ)
    (Y U : Coef K M N) : Coef K M N :=
  join fun k m => irfft N a fun ξ => fullF D S dg rho Y U k m ξ.1

theorem rf_xOf (D : Dict c M Nd) (S : Signal c K N) (dg rho : ℝ) (hd : 0 < dg)
    (Y U : Coef K M N) (k : K) (m : M) :
    rf (part (xOf a D S dg rho Y U) k m) = fullF D S dg rho Y U k m := by
  unfold xOf
  rw [part_join]
  exact rf_irfft a (fullF_herm D S dg rho hd Y U k m)

/-- The normal equations. -/
theorem xOf_normal (D : Dict c M Nd) (S : Signal c K N) (dg rho : ℝ) (hd : 0 < dg)
    (Y U : Coef K M N) :
    convOpT (padD N D) (convOp (padD N D) (xOf a D S dg rho Y U)) + dg • xOf a D S dg rho Y U =
      convOpT (padD N D) (join S) + rho • (Y - U) := by
  refine part_ext fun k m ξ => ?_
  have hp : ∀ (x y : Coef K M N) (r : ℝ), rf (part (x + r • y) k m) ξ =
      rf (part x k m) ξ + r * rf (part y k m) ξ := by
    intro x y r
    rw [← rf_smul, ← rf_add]; rfl
  rw [hp, hp, part_convOpT, part_convOpT, rf_sum, rf_sum]
  simp only [rf_rcorr, part_convOp, part_join, rf_sum, rf_rconv, rf_xOf D S dg rho hd]
  exact freqSolve_spec (fun i n => rf (padD N D i n) ξ) dg hd _ m

/-! ## Quadratics -/

theorem dataTerm_eq (hN : ∀ k, Nd k ≤ N k) (D : Dict c M Nd) (S : Signal c K N) (x : Coef K M N) :
    dataTerm D S (part x) = 1 / 2 * ‖convOp (padD N D) x - join S‖ ^ 2 := by
  unfold dataTerm recon
  rw [norm_part]
  simp only [← rconv_pad hN]
  rfl

theorem sumSq_eq (x : Coef K M N) : sumSq (part x) = ‖x‖ ^ 2 := (norm_part x).symm

theorem augConvEN_eq (hN : ∀ k, Nd k ≤ N k) (D : Dict c M Nd) (S : Signal c K N) (mu rho : ℝ)
    (Y U x : Coef K M N) : augConvEN D S mu rho (part Y) (part U) (part x) =
      1 / 2 * ‖convOp (padD N D) x - join S‖ ^ 2 + mu / 2 * ‖x‖ ^ 2 + rho / 2 * ‖x - Y + U‖ ^ 2 := by
  unfold augConvEN
  rw [dataTerm_eq hN, ← sumSq_eq x, ← sumSq_eq (x - Y + U)]
  rfl

theorem augConv_eq (hN : ∀ k, Nd k ≤ N k) (D : Dict c M Nd) (S : Signal c K N) (rho : ℝ)
    (Y U x : Coef K M N) : augConv D S rho (part Y) (part U) (part x) =
      1 / 2 * ‖convOp (padD N D) x - join S‖ ^ 2 + rho / 2 * ‖x - Y + U‖ ^ 2 := by
  unfold augConv
  rw [dataTerm_eq hN, ← sumSq_eq (x - Y + U)]
  rfl

/-- The excess of any array over the one computed by the X update. -/
theorem xOf_excess (D : Dict c M Nd) (S : Signal c K N) (mu rho : ℝ)
    (hd : 0 < mu + rho) (Y U z : Coef K M N) :
    let x := xOf a D S (mu + rho) rho Y U
    1 / 2 * ‖convOp (padD N D) z - join S‖ ^ 2 + mu / 2 * ‖z‖ ^ 2 + rho / 2 * ‖z - Y + U‖ ^ 2 =
      1 / 2 * ‖convOp (padD N D) x - join S‖ ^ 2 + mu / 2 * ‖x‖ ^ 2 + rho / 2 * ‖x - Y + U‖ ^ 2 +
      1 / 2 * ‖convOp (padD N D) (z - x)‖ ^ 2 + (mu + rho) / 2 * ‖z - x‖ ^ 2 := by
  intro x
  have hn : convOpT (padD N D) (convOp (padD N D) x) + (mu + rho) • x =
    convOpT (padD N D) (join S) + rho • (Y - U) := xOf_normal D S (mu + rho) rho hd Y U
  have h1 := quad1 (convOp (K := K) (padD N D)) (join S) x z
  have h2 := quad1 (ContinuousLinearMap.id ℝ (Coef K M N)) 0 x z
  have h3 := quad1 (ContinuousLinearMap.id ℝ (Coef K M N)) (Y - U) x z
  simp only [ContinuousLinearMap.id_apply, sub_zero] at h2 h3
  have hg : ⟪convOp (padD N D) x - join S, convOp (padD N D) (z - x)⟫ + mu * ⟪x, z - x⟫ +
      rho * ⟪x - (Y - U), z - x⟫ = 0 := by
    rw [real_inner_comm, convOp_adj, real_inner_comm, ← real_inner_smul_left,
      ← real_inner_smul_left, ← inner_add_left, ← inner_add_left, map_sub]
    have : convOpT (padD N D) (convOp (padD N D) x) - convOpT (padD N D) (join S) + mu • x +
        rho • (x - (Y - U)) = 0 := by
      have e := sub_eq_zero.2 hn
      rw [← e]; module
    rw [this, inner_zero_left]
  rw [show z - Y + U = z - (Y - U) by abel, show x - Y + U = x - (Y - U) by abel]
  linear_combination h1 + mu * h2 + rho * h3 + hg

theorem xstep_coh {q : COpts} {D : Dict c M Nd} {S : Signal c K N} {rho : ℝ}
    {h : Attr c K M Nd N a} (hc : Coh q D S rho h) (X Y U : Coef K M N) :
    (xstep rho X Y U h).1 = xOf a D S rho rho Y U := by
  unfold xstep xOf
  simp only [solveF_coh hc]

theorem xstepEN_coh {q : COpts} {D : Dict c M Nd} {S : Signal c K N} {mu rho : ℝ}
    {h : Attr c K M Nd N a} (hc : Coh q D S (mu + rho) h) (X Y U : Coef K M N) :
    (xstepEN mu rho X Y U h).1 = xOf a D S (mu + rho) rho Y U := by
  unfold xstepEN xOf
  simp only [solveF_coh hc]

theorem augEN_unique (hN : ∀ k, Nd k ≤ N k) (D : Dict c M Nd) (S : Signal c K N) (mu rho : ℝ)
    (hd : 0 < mu + rho) (Y U : Coef K M N) :
    IsUniqueMin (augConvEN D S mu rho (part Y) (part U)) Set.univ
      (part (xOf a D S (mu + rho) rho Y U)) := by
  refine ⟨trivial, fun Z _ hne => ?_⟩
  have h := xOf_excess (a := a) D S mu rho hd Y U (join Z)
  simp only at h
  change augConvEN D S mu rho (part Y) (part U) _ <
    augConvEN D S mu rho (part Y) (part U) (part (join Z))
  rw [augConvEN_eq hN, augConvEN_eq hN, h]
  have hp : 0 < ‖join Z - xOf a D S (mu + rho) rho Y U‖ := by
    rw [norm_pos_iff, sub_ne_zero]
    intro he
    apply hne
    rw [← he]; rfl
  have := mul_pos (half_pos hd) (pow_pos hp 2)
  have := sq_nonneg ‖convOp (padD N D) (join Z - xOf a D S (mu + rho) rho Y U)‖
  linarith

theorem augConv_en (D : Dict c M Nd) (S : Signal c K N) (rho : ℝ) (Y U : K → M → Grid N → ℝ) :
    augConv D S rho Y U = augConvEN D S 0 rho Y U := by
  funext X; unfold augConv augConvEN; ring

/-- **C40.** The X update of the convolutional BPDN classes, with a cache that belongs to the
current `rho` or without cache, gives the unique minimiser of the augmented Lagrangian over all
real arrays, for dictionaries with one or several channels. -/
theorem C40_convbpdn_xstep (hN : ∀ k, Nd k ≤ N k) (q : COpts) (D : Dict c M Nd) (S : Signal c K N)
    (rho : ℝ) (hr : 0 < rho) (X Y U : Coef K M N) (Xf : Spec K M N a) :
    IsUniqueMin (augConv D S rho (part Y) (part U)) Set.univ
      (part (xstep rho X Y U (setdict q S rho D Xf)).1) := by
  rw [xstep_coh ⟨Xf, rfl⟩, augConv_en]
  have := augEN_unique (a := a) hN D S 0 rho (by linarith) Y U
  rwa [zero_add] at this

/-- **C40.** The X update of `ConvElasticNet`. -/
theorem C40_convelasticnet_xstep (hN : ∀ k, Nd k ≤ N k) (q : COpts) (D : Dict c M Nd)
    (S : Signal c K N) (mu rho : ℝ) (hm : 0 ≤ mu) (hr : 0 < rho) (X Y U : Coef K M N)
    (Xf : Spec K M N a) :
    IsUniqueMin (augConvEN D S mu rho (part Y) (part U)) Set.univ
      (part (xstepEN mu rho X Y U (setdictEN q S mu rho D Xf)).1) := by
  have hc : Coh q D S (mu + rho) (setdictEN q S mu rho D Xf) := ⟨Xf, rfl⟩
  rw [xstepEN_coh hc]
  exact augEN_unique hN D S mu rho (by linarith) Y U

/-- After the X update `Xf` is the transform of X. -/
theorem xstep_Xf {q : COpts} {D : Dict c M Nd} {S : Signal c K N} {rho : ℝ} (hr : 0 < rho)
    {h : Attr c K M Nd N a} (hc : Coh q D S rho h) (X Y U : Coef K M N) (k : K) (m : M) :
    (xstep rho X Y U h).2.Xf k m = rfft N a (part (xstep rho X Y U h).1 k m) := by
  rw [xstep_coh hc]
  funext ξ
  change solveF rho rho Y U h k m ξ = _
  rw [solveF_coh hc]
  exact (congrFun (rf_xOf D S rho rho hr Y U k m) ξ.1).symm

/-- **C40.** `reconstruct(X)` is the sum of the circular convolutions of the filters with the
coefficient maps. -/
theorem C40_reconstruct (hN : ∀ k, Nd k ≤ N k) (q : COpts) (D : Dict c M Nd) (S : Signal c K N)
    (rho : ℝ) (Xf : Spec K M N a) (X : Coef K M N) :
    reconstruct (setdict q S rho D Xf) X = recon D (part X) := by
  funext i k
  unfold reconstruct recon
  have hh : Herm fun ξ => ∑ m, rf (pad N (D i m)) ξ * rf (part X k m) ξ := by
    intro ξ
    simp only [rf_herm _ ξ, map_sum, map_mul]
  have h1 := rf_irfft a hh
  apply rf_injective
  intro ξ
  have h2 := congrFun h1 ξ
  simp only [← rconv_pad hN, rf_sum, rf_rconv]
  exact h2

/-! ## Cache coherence -/

theorem coh_xstep {q : COpts} {D : Dict c M Nd} {S : Signal c K N} {rho dg : ℝ}
    {h : Attr c K M Nd N a} (hc : Coh q D S dg h) (X Y U : Coef K M N) :
    Coh q D S dg (xstep rho X Y U h).2 := by
  obtain ⟨Xf, rfl⟩ := hc
  exact ⟨_, rfl⟩

theorem coh_rhochange {q : COpts} {D : Dict c M Nd} {S : Signal c K N} {rho rho' : ℝ}
    {h : Attr c K M Nd N a} (hc : Coh q D S rho h) : Coh q D S rho' (rhochange q rho' h) := by
  obtain ⟨Xf, rfl⟩ := hc
  refine ⟨Xf, ?_⟩
  unfold rhochange setdict
  by_cases hq : q.caches c
  · simp only [if_pos hq]
  · simp only [if_neg hq]

theorem keeps_conv (q : COpts) (D : Dict c M Nd) (S : Signal c K N)
    (ys : ℝ → Coef K M N → Coef K M N → Coef K M N → Coef K M N → Attr c K M Nd N a →
      Coef K M N × Attr c K M Nd N a)
    (hys : ∀ rho AX X Y U h, (ys rho AX X Y U h).2 = h) (ob) :
    Keeps (Cls.equal xstep ys (rhochange q) ob) (Coh q D S) :=
  ⟨equal_sane _ _ _ _, fun _ X Y U _ _ h => coh_xstep h X Y U, fun rho AX X Y U h _ hc => by
    change Coh q D S rho (ys rho AX X Y U h).2; rw [hys]; exact hc, fun _ _ _ _ _ h => coh_rhochange h⟩

end Sporco.Conv
