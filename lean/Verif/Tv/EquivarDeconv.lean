import Verif.Tv.Stable

/-!
# C101 for total variation deconvolution

The minimiser of the deconvolution problem need not be unique. The blurred image is.
-/

set_option autoImplicit false
set_option linter.unusedSectionVars false

namespace Sporco.Tv.Dec

open Finset ComplexConjugate Sporco.Conv Sporco.Admm Sporco.Signal Filter Topology
open scoped RealInnerProductSpace

variable {d : ℕ} {N Nd : Fin d → ℕ} [∀ k, NeZero (N k)] {a : Fin d} {γ χ : Type*} [Fintype γ] [Fintype χ]

/-- Two minimisers have the same blurred image. -/
theorem fit_unique (hN : ∀ k, Nd k ≤ N k) (h2 : ∀ k, 2 ≤ N k) (A : γ × χ → NArr Nd ℝ)
    (S : γ × χ → Grid N → ℝ) (lmbda : ℝ) (hl : 0 < lmbda) (w : γ → Grid N → ℝ) (hw : ∀ g p, 0 < w g p)
    (x x' : γ × χ → Grid N → ℝ) (hx : ∀ z, tvL2 A S lmbda w x ≤ tvL2 A S lmbda w z)
    (hx' : ∀ z, tvL2 A S lmbda w x' ≤ tvL2 A S lmbda w z) (i : γ × χ) (p : Grid N) :
    filt (A i) (x i) p = filt (A i) (x' i) p := by
  have hw0 : ∀ g p, 0 ≤ w g p := fun g p => (hw g p).le
  have key : ∑ i, ∑ p, (filt (A i) (x i) p - filt (A i) (x' i) p) ^ 2 ≤ ∑ i, ∑ p, (S i p - S i p) ^ 2 := by
    have hobj : ∀ (S : γ × χ → Grid N → ℝ) (z : ImgD γ χ N),
        lsObj (blurL A) (sigL S) (fun x => lmbda * regTv w (gradL x)) z = tvL2 A S lmbda w (img z) := by
      intro S z
      rw [tvL2_eq hN h2, sub_zero]
      rfl
    have h := ls_nonexpansive (blurL A) (blurLT A) (blurL_adj A) (sigL S) (sigL S)
      (fun x : ImgD γ χ N => lmbda * regTv w (gradL x)) Set.univ
      ((regTv_convex lmbda hl.le w hw0).comp_linearMap (gradL (γ := γ) (χ := χ) (N := N)).toLinearMap)
      (join fun i _ => x i) (join fun i _ => x' i) trivial trivial
      (fun z _ => by
        rw [hobj, hobj]
        exact hx (img z))
      (fun z _ => by
        rw [hobj, hobj]
        exact hx' (img z))
    have hb : ∀ z : ImgD γ χ N, blurL A z = sigL fun i p => filt (A i) (img z i) p := by
      intro z
      have h := norm_blur hN A (fun i p => filt (A i) (img z i) p) z
      simp only [sub_self, ne_eq, OfNat.ofNat_ne_zero, not_false_eq_true, zero_pow, sum_const_zero] at h
      exact sub_eq_zero.1 (norm_eq_zero.1 (pow_eq_zero_iff two_ne_zero |>.1 h))
    have hn : ∀ f g : γ × χ → Grid N → ℝ, ‖sigL f - sigL g‖ ^ 2 = ∑ i, ∑ p, (f i p - g i p) ^ 2 := by
      intro f g
      rw [norm_part]
      refine sum_congr rfl fun i _ => ?_
      rw [Fintype.sum_unique]
      rfl
    rw [map_sub, hb, hb, hn, hn] at h
    exact h
  simp only [sub_self, ne_eq, OfNat.ofNat_ne_zero, not_false_eq_true, zero_pow, sum_const_zero] at key
  have h1 := (sum_eq_zero_iff_of_nonneg fun i _ => sum_nonneg fun p _ => sq_nonneg _).1
    (le_antisymm key (sum_nonneg fun i _ => sum_nonneg fun p _ => sq_nonneg _)) i (mem_univ _)
  have h3 := (sum_eq_zero_iff_of_nonneg fun p _ => sq_nonneg _).1 h1 p (mem_univ _)
  exact sub_eq_zero.1 (pow_eq_zero_iff two_ne_zero |>.1 h3)

theorem filt_smul (h : NArr Nd ℝ) (x : Grid N → ℝ) (t : ℝ) (p : Grid N) :
    filt h (fun q => t * x q) p = t * filt h x p := by
  unfold filt
  rw [mul_sum]
  exact sum_congr rfl fun j _ => mul_left_comm _ _ _

theorem tv_smul (w : γ → Grid N → ℝ) (x : γ × χ → Grid N → ℝ) (t : ℝ) (ht : 0 ≤ t) :
    tv w (fun i p => t * x i p) = t * tv w x := by
  unfold tv
  have hd : ∀ g c k p, cdiff k (fun p => t * x (g, c) p) p = t * cdiff k (x (g, c)) p := fun g c k p => by
    unfold cdiff
    ring
  simp only [hd, mul_pow, ← mul_sum, Real.sqrt_mul (sq_nonneg t), Real.sqrt_sq ht, mul_left_comm _ t]

/-- **C101 for `TVL2Deconv`, scaling.** Multiplying the signal and `lmbda` by a positive number multiplies the blurred limit of the
returned images by it, and `t` times the limit for the original signal is a minimiser for the scaled one. -/
theorem C101_tvl2deconv_scale (hN : ∀ k, Nd k ≤ N k) (h2 : ∀ k, 2 ≤ N k) (A : γ × χ → NArr Nd ℝ)
    (hA : ∀ i, ∑ j, A i j ≠ 0) (S : γ × χ → Grid N → ℝ) (t : ℝ) (ht : 0 < t) (lmbda : ℝ) (hl : 0 < lmbda)
    (w : γ → Grid N → ℝ) (hw : ∀ g p, 0 < w g p) (ge ge' : Bool) (o o' : Opts) (ha : o.autoRho = false)
    (ha' : o'.autoRho = false) (hrlx : 0 < o.rlx ∧ o.rlx < 2) (hrlx' : 0 < o'.rlx ∧ o'.rlx < 2) (cb cb')
    (s s' : St (ImgD γ χ N) (GradD γ χ N) (GradD γ χ N) (γ × χ → Half N a → ℂ)) (hp : 0 < s.rho) (hp' : 0 < s'.rho) :
    ∃ x x' : γ × χ → Grid N → ℝ,
      (∀ i p, Tendsto (fun n => img (traj (clsL2 A S lmbda w ge) o cb s n).X i p) atTop (𝓝 (x i p))) ∧
      (∀ i p, Tendsto (fun n => img (traj (clsL2 A (fun i p => t * S i p) (t * lmbda) w ge') o' cb' s' n).X i p)
        atTop (𝓝 (x' i p))) ∧
      (∀ i p, filt (A i) (x' i) p = t * filt (A i) (x i) p) ∧
      ∀ z, tvL2 A (fun i p => t * S i p) (t * lmbda) w (fun i p => t * x i p) ≤
        tvL2 A (fun i p => t * S i p) (t * lmbda) w z := by
  obtain ⟨x, hx, h3⟩ := C39_tvl2deconv_iterates (a := a) hN h2 A hA S lmbda hl w hw ge o ha hrlx cb s hp
  obtain ⟨x', hx', h3'⟩ := C39_tvl2deconv_iterates (a := a) hN h2 A hA (fun i p => t * S i p) (t * lmbda) (mul_pos ht hl) w
    hw ge' o' ha' hrlx' cb' s' hp'
  have hsc : ∀ z : γ × χ → Grid N → ℝ, tvL2 A (fun i p => t * S i p) (t * lmbda) w (fun i p => t * z i p) =
      t ^ 2 * tvL2 A S lmbda w z := by
    intro z
    unfold tvL2
    rw [tv_smul w z t ht.le]
    simp only [filt_smul, ← mul_sub, mul_pow, ← mul_sum]
    ring
  have hm : ∀ z, tvL2 A (fun i p => t * S i p) (t * lmbda) w (fun i p => t * x i p) ≤
      tvL2 A (fun i p => t * S i p) (t * lmbda) w z := by
    intro z
    have hz : z = fun i p => t * (t⁻¹ * z i p) := by
      funext i p
      rw [mul_inv_cancel_left₀ ht.ne']
    rw [hz, hsc, hsc]
    exact mul_le_mul_of_nonneg_left (hx _) (sq_nonneg t)
  refine ⟨x, x', h3, h3', fun i p => ?_, hm⟩
  rw [fit_unique hN h2 A _ _ (mul_pos ht hl) w hw x' (fun i p => t * x i p) hx' hm i p, filt_smul]
/-- The hypotheses are met by a signal of four samples and a kernel of two: twice the signal and `lmbda`, twice the
blurred limit. -/
example (o : Opts) (ha : o.autoRho = false) (hr : o.rlx = 1.8) (cb)
    (s : St (ImgD (Fin 1) (Fin 1) fun _ : Fin 1 => 4) (GradD (Fin 1) (Fin 1) fun _ : Fin 1 => 4)
      (GradD (Fin 1) (Fin 1) fun _ : Fin 1 => 4) (Fin 1 × Fin 1 → Half (fun _ : Fin 1 => 4) 0 → ℂ)) (hp : 0 < s.rho) :
    let A : Fin 1 × Fin 1 → NArr (fun _ : Fin 1 => 2) ℝ := fun _ j => if j 0 = 0 then 2 else 1
    let S : Fin 1 × Fin 1 → Grid (fun _ : Fin 1 => 4) → ℝ := fun _ p => if p = 0 then 12 else 0
    ∃ x x' : Fin 1 × Fin 1 → Grid (fun _ : Fin 1 => 4) → ℝ,
      (∀ i p, Tendsto (fun n => img (traj (clsL2 A S 1 (fun _ _ => 1) false) o cb s n).X i p) atTop (𝓝 (x i p))) ∧
      (∀ i p, Tendsto (fun n => img (traj (clsL2 A (fun i p => 2 * S i p) (2 * 1) (fun _ _ => 1) false) o cb s n).X i p)
        atTop (𝓝 (x' i p))) ∧
      ∀ i p, filt (A i) (x' i) p = 2 * filt (A i) (x i) p := by
  intro A S
  have hs : ∀ i, ∑ j, A i j = 3 := by
    intro i
    rw [← (Equiv.funUnique (Fin 1) (Fin 2)).symm.sum_comp]
    simp [A, Equiv.funUnique, uniqueElim]
    norm_num
  have hr2 : 0 < o.rlx ∧ o.rlx < 2 := by
    rw [hr]
    norm_num
  obtain ⟨x, x', h1, h2, h3, -⟩ := C101_tvl2deconv_scale (a := 0) (fun _ => by norm_num) (fun _ => le_of_lt (by norm_num)) A
    (fun i => by rw [hs i]; norm_num) S 2 two_pos 1 one_pos (fun _ _ => 1) (fun _ _ => one_pos) false false o o ha ha hr2
    hr2 cb cb s s hp hp
  exact ⟨x, x', h1, h2, h3⟩

end Sporco.Tv.Dec
