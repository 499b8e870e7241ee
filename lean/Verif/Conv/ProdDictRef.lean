import Verif.Conv.ProdDictThm
import Verif.Conv.TvRef

/-!
# `ConvProdDictBPDN`: where the claims fail (C40, C43)
-/

set_option autoImplicit false
set_option linter.unusedSectionVars false

namespace Sporco.Conv.PD

open Finset ComplexConjugate Sporco.Linalg Sporco.Prox Sporco.Admm Sporco.Conv

/-- A matrix with one entry. -/
def exB (r : ℝ) : Matrix (Fin (0 + 1)) Unit ℝ := fun _ _ => r

theorem sigF_one (i : Fin (0 + 1)) (k : Unit) (ξ : Half N1 0) : sigF 0 exS i k ξ = 1 := by
  have := rf_one (exS i k) ξ.1
  change rf (exS i k) ξ.1 = 1
  rw [this]
  simp [exS]

/-- Eigenvector and eigenvalue of a matrix with one entry. -/
theorem eigs_one {eigh : Eigh Unit} (he : EighOk eigh) (r : ℝ) :
    (eigs eigh (exB r)).2 () () * (eigs eigh (exB r)).2 () () = 1 ∧ (eigs eigh (exB r)).1 () = r ^ 2 := by
  obtain ⟨h1, -, -, h4⟩ := eigs_spec he (exB r)
  have h5 := congrFun (congrFun h1 ()) ()
  rw [Matrix.mul_apply, Fintype.sum_unique] at h5
  have h6 : (eigs eigh (exB r)).2 () () * (eigs eigh (exB r)).2 () () = 1 := h5
  refine ⟨h6, ?_⟩
  have h7 := congrFun (congrFun h4 ()) ()
  rw [Matrix.mul_diagonal, Matrix.mul_apply, Fintype.sum_unique, Matrix.mul_apply] at h7
  have h8 : (∑ j : Fin (0 + 1), (exB r).transpose () j * exB r j ()) = r ^ 2 := by
    rw [Fin.sum_univ_succ, Fin.sum_univ_zero]
    change r * r + 0 = _
    ring
  rw [show (default : Unit) = () from rfl, h8] at h7
  have h9 : (eigs eigh (exB r)).2 () () ≠ 0 := by
    intro h; rw [h] at h6; norm_num at h6
  have h10 : r ^ 2 * (eigs eigh (exB r)).2 () () = (eigs eigh (exB r)).1 () * (eigs eigh (exB r)).2 () () := by
    rw [h7]; ring
  exact (mul_right_cancel₀ h9 h10).symm

/-- The X update on one sample. -/
theorem xstep_one (rho r t g : ℝ) (qv b : ℝ) (h : AttrP 0 Unit Unit Unit N1 N1 0)
    (hQ : h.Q () () = qv) (hg : ∀ ξ, h.gDf () () ξ = (g : ℂ)) (hb : ∀ ξ, h.DSfBQ () ((), ()) ξ = (b : ℂ))
    (hc : h.cc = some (cacheP h.gDf r) ∨ (h.cc = none ∧ r = rho)) (hr : g * g + r = t) :
    part (xstep rho 0 0 0 h).1 () ((), ()) 0 = qv * ((b - g * (g / t * b)) / rho) := by
  have e0 : part (xstep rho 0 0 0 h).1 () ((), ()) 0 = irfft N1 0 (solveP rho 0 0 h () ((), ())) 0 := rfl
  rw [e0, irfft_one]
  have h0 : ∀ (l m : Unit), rfft N1 0 (part (0 - 0 : Coef Unit (Unit × Unit) N1) () (l, m)) ⟨0, by simp⟩ = 0 := by
    intro l m
    have := rf_one (part (0 - 0 : Coef Unit (Unit × Unit) N1) () (l, m)) 0
    change rf (part (0 - 0 : Coef Unit (Unit × Unit) N1) () (l, m)) 0 = 0
    rw [this]
    simp [part]
  have hcc : ∀ ξ, (h.cc.map fun f (n : Unit) => f () n ξ).getD
      (solvedbiSmC (fun n => h.gDf () n ξ) (fun n => conj (h.gDf () n ξ)) rho) () = ((g / t : ℝ) : ℂ) := by
    intro ξ
    rcases hc with hc | ⟨hc, rfl⟩
    · simp only [hc, Option.map_some, Option.getD_some, cacheP, solvedbiSmC, Linalg.inner, Fintype.sum_unique]
      rw [show (default : Unit) = () from rfl, hg, Complex.conj_ofReal, ← Complex.ofReal_mul, ← Complex.ofReal_add, hr,
        ← Complex.ofReal_div]
    · simp only [hc, Option.map_none, Option.getD_none, solvedbiSmC, Linalg.inner, Fintype.sum_unique]
      rw [show (default : Unit) = () from rfl, hg, Complex.conj_ofReal, ← Complex.ofReal_mul, ← Complex.ofReal_add, hr,
        ← Complex.ofReal_div]
  have key : solveP rho 0 0 h () ((), ()) ⟨0, by simp⟩ = ((qv * ((b - g * (g / t * b)) / rho) : ℝ) : ℂ) := by
    unfold solveP solvedbiSm
    simp only [Fintype.sum_unique, Linalg.inner]
    simp only [show (default : Unit) = () from rfl, h0, hcc]
    simp only [hg, hb, hQ, Complex.conj_ofReal]
    push_cast
    ring
  rw [key, Complex.ofReal_re]

theorem gdf_one (g : Unit → ℝ) (ξ : Half N1 0) : gdf g (dictF 0 exD) () () ξ = ((Real.sqrt (g ()) : ℝ) : ℂ) := by
  unfold gdf
  rw [show dictF 0 exD 0 () ξ = 1 from dictF_one 0 () ξ, mul_one]

theorem dsBQ_one (r : ℝ) (Q : Matrix Unit Unit ℝ) (ξ : Half N1 0) :
    dsBQ (exB r) Q (dictF 0 exD) exS () ((), ()) ξ = ((r * Q () () : ℝ) : ℂ) := by
  unfold dsBQ
  rw [Fin.sum_univ_succ, Fin.sum_univ_zero, add_zero, sigF_one, show dictF 0 exD 0 () ξ = 1 from dictF_one 0 () ξ,
    Matrix.mul_apply, Fintype.sum_unique, map_one, mul_one, mul_one]
  rfl

/-- The augmented Lagrangian on one sample with `Y = U = 0`, `rho = 1`. -/
theorem aug_one (r : ℝ) (X : Unit → Unit × Unit → Grid N1 → ℝ) :
    augPD exD (exB r) exS 1 (fun _ _ _ => 0) (fun _ _ _ => 0) X =
      1 / 2 * (r * X () ((), ()) 0 - 1) ^ 2 + 1 / 2 * X () ((), ()) 0 ^ 2 := by
  have hf : ∀ p, reconPD exD (exB r) X 0 () p = r * X () ((), ()) 0 := by
    intro p
    unfold reconPD
    simp only [Fintype.sum_unique]
    have : filt (exD 0 ()) (X () ((), ())) p = X () ((), ()) 0 := by
      rw [Subsingleton.elim p 0]
      unfold filt exD
      rw [Fintype.sum_unique, one_mul]
      congr 1
      exact Subsingleton.elim _ _
    rw [show (default : Unit) = () from rfl, this]
    rfl
  unfold augPD dataPD
  rw [Fin.sum_univ_succ, Fin.sum_univ_zero]
  simp only [Fintype.sum_prod_type, Fintype.sum_unique, hf, sub_zero, add_zero]
  rw [show (default : Unit) = () from rfl, Subsingleton.elim (default : Grid N1) 0]
  rfl

/-- **C40 fails after `setdict(B=...)`.** One filter, one signal and one column of B, one sample each, all of value
1, rho = 1; then B is replaced by 2 with `setdict(B=2)`.  The next X is `1/5` or `-1/5`, depending on the sign of the
eigenvectors, while the minimiser is `2/5`: `DSfBQ`, which depends on B, is recomputed only if D is given. -/
theorem C40_proddict_setB_refuted (eigh : Eigh Unit) (he : EighOk eigh) (q : COpts)
    (Xf : Spec Unit (Unit × Unit) N1 0) :
    let h := setdict eigh q exS 1 none (some (exB 2)) (setdict0 eigh q exS 1 exD (exB 1) Xf)
    let x := part (xstep 1 0 0 0 h).1
    (x () ((), ()) 0 = 1 / 5 ∨ x () ((), ()) 0 = -1 / 5) ∧
      augPD exD (exB 2) exS 1 (part (0 : Coef Unit (Unit × Unit) N1)) (part (0 : Coef Unit (Unit × Unit) N1))
          (fun _ _ _ => 2 / 5) <
        augPD exD (exB 2) exS 1 (part (0 : Coef Unit (Unit × Unit) N1)) (part (0 : Coef Unit (Unit × Unit) N1)) x := by
  intro h x
  obtain ⟨h1, -⟩ := eigs_one he 1
  obtain ⟨h3, h4⟩ := eigs_one he 2
  set s1 := (eigs eigh (exB 1)).2 () () with hs1
  set s2 := (eigs eigh (exB 2)).2 () () with hs2
  have hsq : Real.sqrt ((eigs eigh (exB 2)).1 ()) = 2 := by
    rw [h4]; exact Real.sqrt_sq (by norm_num)
  have hv : x () ((), ()) 0 = s2 * ((s1 - 2 * (2 / 5 * s1)) / 1) := by
    refine xstep_one 1 1 5 2 s2 s1 h rfl (fun ξ => ?_) (fun ξ => ?_) ?_ (by norm_num)
    · change gdf (eigs eigh (exB 2)).1 (dictF 0 exD) () () ξ = _
      rw [gdf_one, hsq]
    · change dsBQ (exB 1) (eigs eigh (exB 1)).2 (dictF 0 exD) exS () ((), ()) ξ = _
      rw [dsBQ_one, one_mul]
    · by_cases hq : q.highMem = true
      · left
        change (if q.highMem = true then _ else _) = _
        rw [if_pos hq]
        rfl
      · right
        refine ⟨?_, rfl⟩
        change (if q.highMem = true then _ else _) = _
        rw [if_neg hq]
  have hp : s1 * s2 = 1 ∨ s1 * s2 = -1 := by
    have : (s1 * s2) ^ 2 = 1 := by
      have : (s1 * s2) ^ 2 = (s1 * s1) * (s2 * s2) := by ring
      rw [this, h1, h3, mul_one]
    rcases mul_eq_zero.1 (show (s1 * s2 - 1) * (s1 * s2 + 1) = 0 by linear_combination this) with h | h
    · left; linarith
    · right; linarith
  have hx : x () ((), ()) 0 = 1 / 5 ∨ x () ((), ()) 0 = -1 / 5 := by
    rcases hp with hp | hp
    · left; rw [hv]; linear_combination 1 / 5 * hp
    · right; rw [hv]; linear_combination 1 / 5 * hp
  refine ⟨hx, ?_⟩
  change augPD exD (exB 2) exS 1 (fun _ _ _ => 0) (fun _ _ _ => 0) _ <
    augPD exD (exB 2) exS 1 (fun _ _ _ => 0) (fun _ _ _ => 0) _
  rw [aug_one, aug_one]
  rcases hx with hx | hx <;> rw [hx] <;> norm_num

/-- **C43 fails for the default penalty parameter.** `ConvProdDictBPDN` with `rho` not given, one filter, one signal
and one column of B with one sample of value 1 and `lmbda = 1`: the first X is 1/102 with `HighMemSolve` and 1/52
without, as for `ConvBPDN`. -/
theorem C43_proddict_refuted (eigh : Eigh Unit) (he : EighOk eigh) (Xf : Spec Unit (Unit × Unit) N1 0) :
    let i := fun b => initPD eigh ⟨b, false, false⟩ exS 1 none exD (exB 1) Xf
    (∀ b, (i b).1 = 51) ∧ part (xstep 51 0 0 0 (i true).2).1 () ((), ()) 0 = 1 / 102 ∧
      part (xstep 51 0 0 0 (i false).2).1 () ((), ()) 0 = 1 / 52 := by
  intro i
  obtain ⟨h1, h2⟩ := eigs_one he 1
  set s1 := (eigs eigh (exB 1)).2 () () with hs1
  have hsq : Real.sqrt ((eigs eigh (exB 1)).1 ()) = 1 := by
    rw [h2]; norm_num
  have hg : ∀ ξ, gdf (eigs eigh (exB 1)).1 (dictF 0 exD) () () ξ = ((1 : ℝ) : ℂ) := fun ξ => by rw [gdf_one, hsq]
  have hb : ∀ ξ, dsBQ (exB 1) (eigs eigh (exB 1)).2 (dictF 0 exD) exS () ((), ()) ξ = ((s1 : ℝ) : ℂ) :=
    fun ξ => by rw [dsBQ_one, one_mul]
  refine ⟨fun b => ?_, ?_, ?_⟩
  · change (none : Option ℝ).getD (50 * 1 + 1) = 51
    norm_num
  · rw [xstep_one 51 1 2 1 s1 s1 (i true).2 rfl hg hb (Or.inl rfl) (by norm_num)]
    linear_combination 1 / 102 * h1
  · rw [xstep_one 51 51 52 1 s1 s1 (i false).2 rfl hg hb (Or.inr ⟨rfl, rfl⟩) (by norm_num)]
    linear_combination 1 / 52 * h1

end Sporco.Conv.PD
