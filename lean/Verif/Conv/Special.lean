import Verif.Admm.Special
import Verif.Conv.GradModel
import Verif.Conv.InhibModel

/-!
# Special cases of the convolutional solver classes (C90)
-/

set_option autoImplicit false
set_option linter.unusedSectionVars false

namespace Sporco.Conv

open Finset ComplexConjugate Sporco.Linalg Sporco.Prox Sporco.Admm

variable {d c : ℕ} {N Nd : Fin d → ℕ} [∀ k, NeZero (N k)] {a : Fin d} {K M L Γ : Type*} [Fintype K] [Fintype M]
  [Fintype L] [Fintype Γ]

/-- States of two objects of classes derived from `GenericConvBPDN`. -/
abbrev Same (s s' : St (Coef K M N) (Coef K M N) (Coef K M N) (Attr c K M Nd N a)) : Prop := SameState id s s'

/-- **C90 for `ConvElasticNet`.** With `mu = 0` it is `ConvBPDN`: the constructor (or `setdict`) sets up the same
attributes, and all runs agree. -/
theorem C90_convelasticnet (q : COpts) (S : Signal c K N) (lmbda : ℝ) (w : K × M × Grid N → ℝ) (fe ge : Bool) (o : Opts)
    (ho : o.RhoOk) :
    (∀ (rho : ℝ) (D : Dict c M Nd) (Xf : Spec K M N a), setdictEN q S 0 rho D Xf = setdict q S rho D Xf) ∧
    ∀ s s' : St (Coef K M N) (Coef K M N) (Coef K M N) (Attr c K M Nd N a), Same s s' → 0 < s.rho →
      Same (solve (clsConvBPDN q S lmbda w fe ge) o none s) (solve (clsConvEN q S lmbda 0 w fe ge) o none s') := by
  refine ⟨fun rho D Xf => by unfold setdictEN setdict; rw [zero_add], fun s s' hs hp => ?_⟩
  refine (agrees_solve (agrees_equal (fun rho X Y U h _ => ?_) (fun _ _ _ _ _ _ _ => ?_) (fun rho h _ => ?_)
    fun X Y h => ?_) (equal_sane _ _ _ _) ho hs hp).1
  · unfold xstepEN xstep; rw [zero_add]; rfl
  · rfl
  · rfl
  · simp only [zero_mul, add_zero, id]

/-- **C90 for `ConvBPDNJoint`.** With `mu = 0` it is `ConvBPDN`. -/
theorem C90_convbpdnjoint (q : COpts) (S : Signal c (L × K) N) (lmbda wl21 : ℝ) (w : (L × K) × M × Grid N → ℝ)
    (fe ge : Bool) (o : Opts) (ho : o.RhoOk) :
    ∀ s s' : St (Coef (L × K) M N) (Coef (L × K) M N) (Coef (L × K) M N) (Attr c (L × K) M Nd N a), Same s s' →
      0 < s.rho → Same (solve (clsConvBPDN q S lmbda w fe ge) o none s)
        (solve (clsConvJnt q S lmbda 0 w wl21 fe ge) o none s') := by
  intro s s' hs hp
  refine (agrees_solve (agrees_equal (fun _ _ _ _ _ _ => ?_) (fun rho AX X Y U h _ => ?_) (fun _ _ _ => ?_)
    fun X Y h => ?_) (equal_sane _ _ _ _) ho hs hp).1
  · rfl
  · unfold ystepJnt ystep
    rw [zero_div, zero_mul]
    simp only [proxSl1l2_zero]
    rfl
  · rfl
  · simp only [regJnt, regL1, zero_mul, add_zero, id]

/-- **C90 for `ConvBPDNJoint` with a single channel.** The l2,1 norm is the l1 norm: the class is `ConvBPDN` with the
weights `lmbda w + mu wl21`. -/
theorem C90_convbpdnjoint_single [Unique L] (q : COpts) (S : Signal c (L × K) N) (lmbda mu wl21 : ℝ)
    (w : (L × K) × M × Grid N → ℝ) (fe ge : Bool) (o : Opts) (ho : o.RhoOk) (hl : 0 ≤ lmbda) (hw : ∀ i, 0 ≤ w i)
    (hmu : 0 ≤ mu) (hwl : 0 ≤ wl21) :
    ∀ s s' : St (Coef (L × K) M N) (Coef (L × K) M N) (Coef (L × K) M N) (Attr c (L × K) M Nd N a), Same s s' →
      0 < s.rho → Same (solve (clsConvBPDN q S 1 (fun i => lmbda * w i + mu * wl21) fe ge) o none s)
        (solve (clsConvJnt q S lmbda mu w wl21 fe ge) o none s') := by
  intro s s' hs hp
  refine (agrees_solve (agrees_equal (fun _ _ _ _ _ _ => ?_) (fun rho AX X Y U h hr => ?_) (fun _ _ _ => ?_)
    fun X Y h => ?_) (equal_sane _ _ _ _) ho hs hp).1
  · rfl
  · have e : (fun p : (L × K) × M × Grid N => proxSl1l2 (fun l => (AX + U).ofLp ((l, p.1.2), p.2))
        (fun l => lmbda / rho * w ((l, p.1.2), p.2)) (mu / rho * wl21) p.1.1) =
        proxL1Arr (AX + U).ofLp fun i => 1 / rho * (lmbda * w i + mu * wl21) := by
      funext p
      rw [proxSl1l2_one _ _ _ (fun j => ?_) (mul_nonneg (div_nonneg hmu hr.le) hwl)]
      · unfold proxL1Arr
        congr 1
        change lmbda / rho * w p + mu / rho * wl21 = _
        ring
      · rw [div_mul_eq_mul_div]
        exact div_nonneg (mul_nonneg hl (hw _)) hr.le
    unfold ystepJnt ystep
    rw [e]
  · rfl
  · simp only [regJnt, regL1, id]
    congr 1
    generalize Bpdn.gvar ge X Y = y
    unfold normL1
    have hsum : ∀ f : (L × K) × M × Grid N → ℝ, ∑ i, f i = ∑ p : K × M × Grid N, f ((default, p.1), p.2) := fun f => by
      rw [Fintype.sum_prod_type, Fintype.sum_prod_type, Fintype.sum_prod_type, Fintype.sum_unique]
    rw [one_mul, hsum, hsum, Finset.mul_sum, Finset.mul_sum, ← Finset.sum_add_distrib]
    refine Finset.sum_congr rfl fun i _ => ?_
    simp only [Fintype.sum_unique, Real.sqrt_sq_eq_abs, Real.norm_eq_abs]
    rw [abs_mul, abs_mul, abs_of_nonneg (add_nonneg (mul_nonneg hl (hw _)) (mul_nonneg hmu hwl)), abs_of_nonneg (hw _)]
    ring

/-! ## `ConvBPDNGradReg` -/

theorem solvedbdSmC_const (ah a : M → ℂ) (rho : ℂ) (hr : rho ≠ 0) : solvedbdSmC ah a (fun _ => rho) = solvedbiSmC ah a rho := by
  funext m
  have e : Linalg.inner ah (fun n => a n / rho) = Linalg.inner ah a / rho := by
    unfold Linalg.inner
    rw [Finset.sum_div]
    exact Finset.sum_congr rfl fun _ _ => by ring
  unfold solvedbdSmC solvedbiSmC
  simp only
  rw [e, div_add_one hr, div_div_div_cancel_right₀ hr]

theorem freqSolveD_const (df : Fin (c + 1) → M → ℂ) (rho : ℝ) (hr : rho ≠ 0) (b : M → ℂ) (cc : Option (M → ℂ)) :
    Grd.freqSolveD df (fun _ => (rho : ℂ)) b cc = freqSolve df rho b cc := by
  unfold Grd.freqSolveD freqSolve
  split_ifs
  · unfold solvedbdSm solvedbiSm
    simp only
    rw [solvedbdSmC_const _ _ _ (by exact_mod_cast hr)]
  · exact ismLoopD_const _ _ _ _ _

theorem diagG_zero (wg : M → ℝ) (rho : ℝ) (m : M) (ξ : Half N a) : Grd.diagG a 0 wg rho m ξ = rho := by
  unfold Grd.diagG
  rw [zero_mul, zero_add]

/-- **C90 for `ConvBPDNGradReg`.** With `mu = 0` it is `ConvBPDN`, although it solves the linear systems by other
functions: the constructor sets up the same attributes, and all runs agree. -/
theorem C90_convbpdngradreg (q : COpts) (S : Signal c K N) (lmbda : ℝ) (w : K × M × Grid N → ℝ) (wg : M → ℝ)
    (fe ge : Bool) (o : Opts) (ho : o.RhoOk) :
    (∀ (rho : ℝ) (D : Dict c M Nd) (Xf : Spec K M N a), 0 < rho → Grd.setdict q S 0 wg rho D Xf = setdict q S rho D Xf) ∧
    ∀ s s' : St (Coef K M N) (Coef K M N) (Coef K M N) (Attr c K M Nd N a), Same s s' → 0 < s.rho →
      Same (solve (clsConvBPDN q S lmbda w fe ge) o none s) (solve (Grd.clsGrd q S lmbda 0 w wg fe ge) o none s') := by
  refine ⟨fun rho D Xf hr => ?_, fun s s' hs hp => ?_⟩
  · have e : Grd.cacheD (N := N) (dictF a D) (Grd.diagG a 0 wg rho) = cacheOf (dictF a D) rho := by
      funext m ξ
      unfold Grd.cacheD cacheOf
      simp only [diagG_zero]
      rw [solvedbdSmC_const _ _ _ (by exact_mod_cast hr.ne')]
    unfold Grd.setdict setdict
    simp only [e]
  refine (agrees_solve (agrees_equal (fun rho X Y U h hr => ?_) (fun _ _ _ _ _ _ _ => ?_) (fun rho h _ => ?_)
    fun X Y h => ?_) (equal_sane _ _ _ _) ho hs hp).1
  · unfold Grd.xstep xstep solveF
    simp only [diagG_zero, freqSolveD_const _ _ hr.ne']
    rfl
  · rfl
  · rfl
  · simp only [regL1, zero_mul, add_zero, id]

/-! ## `ConvBPDNInhib` -/

/-- **C90 for `ConvBPDNInhib`.** Without inhibition between filters (no groups, or `mu = 0`) and without self inhibition
(`gamma = 0`) it is `ConvBPDN`: the constructor adds weights that are zero, they remain zero, and all runs agree. -/
theorem C90_convbpdninhib [DecidableEq M] (q : COpts) (S : Signal c K N) (lmbda : ℝ) (w : K × M × Grid N → ℝ)
    (P : Inhib.Par Γ M N) (fe ge : Bool) (o : Opts) (ho : o.RhoOk) (hP : (P.Wg = none ∨ P.mu = 0) ∧ P.gamma = 0) :
    (∀ (rho : ℝ) (D : Dict c M Nd) (Xf : Spec K M N a),
      Inhib.initI q S rho D Xf = ⟨setdict q S rho D Xf, fun _ => 0, fun _ => 0⟩) ∧
    ∀ (s : St (Coef K M N) (Coef K M N) (Coef K M N) (Attr c K M Nd N a))
      (s' : St (Coef K M N) (Coef K M N) (Coef K M N) (Inhib.AttrI c K M Nd N a)),
      SameState (fun h => ⟨h, fun _ => 0, fun _ => 0⟩) s s' → 0 < s.rho →
      SameState (fun h => ⟨h, fun _ => 0, fun _ => 0⟩) (solve (clsConvBPDN q S lmbda w fe ge) o none s)
        (solve (Inhib.clsInhib q S lmbda w P fe ge) o none s') := by
  refine ⟨fun _ _ _ => rfl, fun s s' hs hp => ?_⟩
  refine (agrees_solve (agrees_equal (fun rho X Y U h _ => ?_) (fun _ _ _ _ _ _ _ => ?_) (fun rho h _ => ?_)
    fun X Y h => ?_) (equal_sane _ _ _ _) ho hs hp).1
  · rfl
  · unfold Inhib.ystepI
    rw [if_pos hP]
    rfl
  · rfl
  · simp only [Inhib.regI, Inhib.regTerms, regL1, zero_mul]
    have e : normL1 (fun _ : K × M × Grid N => (0 : ℝ)) = 0 := by simp [normL1]
    rw [e, mul_zero, mul_zero, add_zero, add_zero]

/-- A run to which the theorems apply: the constructor was called with `rho = 1` and 10 iterations are to be done with
the automatic update of `rho`. -/
example (q : COpts) (S : Signal c K N) (D : Dict c M Nd) (Xf : Spec K M N a) :
    ∃ (o : Opts) (s : St (Coef K M N) (Coef K M N) (Coef K M N) (Attr c K M Nd N a)), o.RhoOk ∧ o.maxMainIter = 10 ∧
      o.autoRho = true ∧ Same s s ∧ 0 < s.rho ∧ s.extra = setdict q S s.rho D Xf :=
  ⟨⟨false, 10, 0, 1, true, 5, false, false, 6, 6, 2, 10, 1, 1⟩, ⟨0, 0, 0, 0, 0, 0, 1, 0, [], setdict q S 1 D Xf⟩,
    by constructor <;> norm_num, rfl, rfl, ⟨rfl, rfl, rfl, rfl, rfl, rfl, rfl, rfl, rfl, rfl⟩, one_pos, rfl⟩

end Sporco.Conv
