import Verif.Admm.Stable
import Verif.Tv.DenoiseLimit
import Verif.Tv.Iterates

/-!
# C95, C98, C99 and C100 for total variation denoising and deconvolution
-/

set_option autoImplicit false
set_option linter.unusedSectionVars false

namespace Sporco.Tv.Den

open Finset Sporco.Admm Filter Topology
open scoped RealInnerProductSpace

variable {D : ℕ} {n : Fin D → ℕ} {axes : List (Fin D)} {γ χ : Type*} [Fintype γ] [Fintype χ]

/-- Multiplication by the data weights. -/
noncomputable def wdL (wd : Img n) : ImE n →L[ℝ] ImE n :=
  LinearMap.toContinuousLinearMap
    { toFun := fun x => WithLp.toLp 2 fun p => wd p * x p
      map_add' := fun x y => by
        ext p
        exact mul_add _ _ _
      map_smul' := fun c x => by
        ext p
        exact mul_left_comm _ _ _ }

theorem wdL_adj (wd : Img n) (x y : ImE n) : ⟪wdL wd x, y⟫ = ⟪x, wdL wd y⟫ := by
  rw [PiLp.inner_apply, PiLp.inner_apply]
  refine sum_congr rfl fun p _ => ?_
  change ⟪wd p * x p, y p⟫ = ⟪x p, wd p * y p⟫
  simp only [RCLike.inner_apply, conj_trivial]
  ring

theorem norm_wdL (wd : Img n) (x : ImE n) : ‖wdL wd x‖ ^ 2 = ∑ p, (wd p * x p) ^ 2 := by
  rw [EuclideanSpace.norm_sq_eq]
  refine sum_congr rfl fun p _ => ?_
  change ‖wd p * x p‖ ^ 2 = _
  rw [Real.norm_eq_abs, sq_abs]

theorem lsObj_tv (e : Pix n ≃ γ × χ) (S wd : Img n) (lmbda : ℝ) (w : γ → ℝ) (x : ImE n) :
    lsObj (wdL wd) (wdL wd (WithLp.toLp 2 S)) (fun x => lmbda * regTv e w (gradE axes x)) x =
      tvL2 axes e S wd lmbda w x.ofLp := by
  rw [tvL2_eq, sub_zero]
  unfold lsObj dataE
  rw [← map_sub, norm_wdL]
  rfl

theorem convex_tv (e : Pix n ≃ γ × χ) (lmbda : ℝ) (hl : 0 ≤ lmbda) (w : γ → ℝ) (hw : ∀ g, 0 ≤ w g) :
    ConvexOn ℝ Set.univ fun x : ImE n => lmbda * regTv e w (gradE axes x) :=
  (regTv_convex (axes := axes) e lmbda hl w hw).comp_linearMap (gradE axes)

/-- **C95 for `TVL2Denoise`.** With non-zero data weights the functional has one minimiser, and the image that `solve()`
returns tends to it sample by sample, whatever the fixed rho, the relaxation parameter in (0, 2), the even number of inner
passes and the start are (`GSTol` zero). -/
theorem C95_tvl2denoise (hax : GoodAxes n axes) (e : Pix n ≃ γ × χ) (S wd : Img n) (lmbda : ℝ) (w : γ → ℝ)
    (hl : 0 ≤ lmbda) (hw : ∀ g, 0 ≤ w g) (hwd : ∀ p, wd p ≠ 0) :
    ∃ xs, (∀ z, tvL2 axes e S wd lmbda w xs ≤ tvL2 axes e S wd lmbda w z) ∧
      (∀ x, (∀ z, tvL2 axes e S wd lmbda w x ≤ tvL2 axes e S wd lmbda w z) → x = xs) ∧
      ∀ P : Par γ n, P.lmbda = lmbda → P.wd = wd → P.w = w → P.tol ≤ 0 → 0 < P.maxIter ∧ Even P.maxIter →
        ∀ o : Opts, o.autoRho = false → 0 < o.rlx ∧ o.rlx < 2 → ∀ cb (s : St (ImE n) (GradE axes n) (GradE axes n) Xs),
          0 < s.rho → ∀ p, Tendsto (fun j => (traj (clsL2 axes e P S) o cb s j).X p) atTop (𝓝 (xs p)) := by
  obtain ⟨xs, hxs⟩ := exists_minL2 (axes := axes) e S wd hwd lmbda hl w hw
  have hgr : ∀ x : ImE n, ∑ p, (wd p * (x p - xs p)) ^ 2 ≤
      2 * (tvL2 axes e S wd lmbda w x.ofLp - tvL2 axes e S wd lmbda w xs) := by
    intro x
    have h := ls_growth (wdL wd) (wdL wd) (wdL_adj wd) (wdL wd (WithLp.toLp 2 S))
      (fun x => lmbda * regTv e w (gradE axes x)) Set.univ (convex_tv e lmbda hl w hw) (WithLp.toLp 2 xs) trivial
      (fun z _ => by
        rw [lsObj_tv, lsObj_tv]
        exact hxs z.ofLp) x trivial
    rw [lsObj_tv, lsObj_tv, norm_wdL] at h
    have e1 : ∀ p, (x - WithLp.toLp 2 xs) p = x p - xs p := fun p => rfl
    simp only [e1] at h
    linarith
  have hone : ∀ (x : ImE n) p, (wd p * (x p - xs p)) ^ 2 ≤
      2 * (tvL2 axes e S wd lmbda w x.ofLp - tvL2 axes e S wd lmbda w xs) := fun x p =>
    (single_le_sum (f := fun p => (wd p * (x p - xs p)) ^ 2) (fun p _ => sq_nonneg _) (mem_univ p)).trans (hgr x)
  refine ⟨xs, hxs, fun x hx => ?_, ?_⟩
  · funext p
    have h := hone (WithLp.toLp 2 x) p
    have h1 := hx xs
    have h2 : (wd p * (x p - xs p)) ^ 2 ≤ 2 * (tvL2 axes e S wd lmbda w x - tvL2 axes e S wd lmbda w xs) := h
    have h3 : (wd p * (x p - xs p)) ^ 2 = 0 := le_antisymm (by linarith) (sq_nonneg _)
    exact sub_eq_zero.1 ((mul_eq_zero.1 (pow_eq_zero_iff two_ne_zero |>.1 h3)).resolve_left (hwd p))
  · rintro P rfl rfl rfl ht hm o ha hrlx cb s hp p
    have hconv := (C39_tvl2denoise_partial hax e P S hl hw (connected_of_pos _ _ fun p => by have := hwd p; positivity) ht hm
      o ha hrlx cb s hp xs hxs).2.2
    have hz : Tendsto (fun j => 2 * (tvL2 axes e S P.wd P.lmbda P.w (traj (clsL2 axes e P S) o cb s j).X.ofLp -
        tvL2 axes e S P.wd P.lmbda P.w xs)) atTop (𝓝 0) := by
      have := (hconv.sub_const (tvL2 axes e S P.wd P.lmbda P.w xs)).const_mul 2
      rwa [sub_self, mul_zero] at this
    have h5 : Tendsto (fun j => |P.wd p * ((traj (clsL2 axes e P S) o cb s j).X p - xs p)| ^ 2) atTop (𝓝 0) := by
      refine squeeze_zero (fun _ => sq_nonneg _) (fun j => ?_) hz
      rw [sq_abs]
      exact hone _ p
    have h6 := (Real.continuous_sqrt.tendsto 0).comp h5
    simp only [Function.comp_def, Real.sqrt_sq (abs_nonneg _), Real.sqrt_zero] at h6
    have h7 := ((tendsto_zero_iff_abs_tendsto_zero _).2 h6).const_mul (P.wd p)⁻¹
    simp only [inv_mul_cancel_left₀ (hwd p), mul_zero] at h7
    simpa using h7.add_const (xs p)

/-- **C98 for `TVL2Denoise`.** The images returned for signals `S` and `S'` tend to images whose distance, with the data weights,
is at most that of the signals. -/
theorem C98_tvl2denoise (hax : GoodAxes n axes) (e : Pix n ≃ γ × χ) (S S' : Img n) (P P' : Par γ n)
    (hl : 0 ≤ P.lmbda) (hw : ∀ g, 0 ≤ P.w g) (hwd : ∀ p, P.wd p ≠ 0) (h1 : P'.lmbda = P.lmbda) (h2 : P'.wd = P.wd)
    (h3 : P'.w = P.w) (ht : P.tol ≤ 0) (ht' : P'.tol ≤ 0) (hm : 0 < P.maxIter ∧ Even P.maxIter)
    (hm' : 0 < P'.maxIter ∧ Even P'.maxIter) (o o' : Opts) (ha : o.autoRho = false) (ha' : o'.autoRho = false)
    (hrlx : 0 < o.rlx ∧ o.rlx < 2) (hrlx' : 0 < o'.rlx ∧ o'.rlx < 2) (cb cb')
    (s s' : St (ImE n) (GradE axes n) (GradE axes n) Xs) (hp : 0 < s.rho) (hp' : 0 < s'.rho) :
    ∃ x x' : Img n, (∀ p, Tendsto (fun j => (traj (clsL2 axes e P S) o cb s j).X p) atTop (𝓝 (x p))) ∧
      (∀ p, Tendsto (fun j => (traj (clsL2 axes e P' S') o' cb' s' j).X p) atTop (𝓝 (x' p))) ∧
      ∑ p, (P.wd p * (x p - x' p)) ^ 2 ≤ ∑ p, (P.wd p * (S p - S' p)) ^ 2 := by
  obtain ⟨x, hx, -, hr⟩ := C95_tvl2denoise hax e S P.wd P.lmbda P.w hl hw hwd
  obtain ⟨x', hx', -, hr'⟩ := C95_tvl2denoise hax e S' P.wd P.lmbda P.w hl hw hwd
  refine ⟨x, x', hr P rfl rfl rfl ht hm o ha hrlx cb s hp, hr' P' h1 h2 h3 ht' hm' o' ha' hrlx' cb' s' hp', ?_⟩
  have h := ls_nonexpansive (wdL P.wd) (wdL P.wd) (wdL_adj P.wd) (wdL P.wd (WithLp.toLp 2 S)) (wdL P.wd (WithLp.toLp 2 S'))
    (fun x => P.lmbda * regTv e P.w (gradE axes x)) Set.univ (convex_tv e P.lmbda hl P.w hw) (WithLp.toLp 2 x)
    (WithLp.toLp 2 x') trivial trivial
    (fun z _ => by
      rw [lsObj_tv, lsObj_tv]
      exact hx z.ofLp)
    (fun z _ => by
      rw [lsObj_tv, lsObj_tv]
      exact hx' z.ofLp)
  rw [← map_sub, norm_wdL, norm_wdL] at h
  exact h

/-- **C99 for `TVL2Denoise`.** The larger of two values of `lmbda` gives the larger or equal data term and the smaller or equal
total variation. -/
theorem C99_tvl2denoise_lmbda (hax : GoodAxes n axes) (e : Pix n ≃ γ × χ) (S : Img n) (P P' : Par γ n)
    (hl : 0 ≤ P.lmbda) (hll : P.lmbda < P'.lmbda) (hw : ∀ g, 0 ≤ P.w g) (hwd : ∀ p, P.wd p ≠ 0) (h2 : P'.wd = P.wd)
    (h3 : P'.w = P.w) (ht : P.tol ≤ 0) (ht' : P'.tol ≤ 0) (hm : 0 < P.maxIter ∧ Even P.maxIter)
    (hm' : 0 < P'.maxIter ∧ Even P'.maxIter) (o o' : Opts) (ha : o.autoRho = false) (ha' : o'.autoRho = false)
    (hrlx : 0 < o.rlx ∧ o.rlx < 2) (hrlx' : 0 < o'.rlx ∧ o'.rlx < 2) (cb cb')
    (s s' : St (ImE n) (GradE axes n) (GradE axes n) Xs) (hp : 0 < s.rho) (hp' : 0 < s'.rho) :
    ∃ x x' : Img n, (∀ p, Tendsto (fun j => (traj (clsL2 axes e P S) o cb s j).X p) atTop (𝓝 (x p))) ∧
      (∀ p, Tendsto (fun j => (traj (clsL2 axes e P' S) o' cb' s' j).X p) atTop (𝓝 (x' p))) ∧
      ∑ p, (P.wd p * (x p - S p)) ^ 2 ≤ ∑ p, (P.wd p * (x' p - S p)) ^ 2 ∧ tv axes e P.w x' ≤ tv axes e P.w x := by
  obtain ⟨x, hx, -, hr⟩ := C95_tvl2denoise hax e S P.wd P.lmbda P.w hl hw hwd
  obtain ⟨x', hx', -, hr'⟩ := C95_tvl2denoise hax e S P.wd P'.lmbda P.w (hl.trans hll.le) hw hwd
  obtain ⟨h4, h5⟩ := trade_off (fun x : Img n => 1 / 2 * ∑ p, (P.wd p * (x p - S p)) ^ 2) (tv axes e P.w) Set.univ P.lmbda
    P'.lmbda hll hl x x' ⟨trivial, fun z _ => hx z⟩ ⟨trivial, fun z _ => hx' z⟩
  exact ⟨x, x', hr P rfl rfl rfl ht hm o ha hrlx cb s hp, hr' P' rfl h2 h3 ht' hm' o' ha' hrlx' cb' s' hp', by linarith, h5⟩

theorem tv_shift (e : Pix n ≃ γ × χ) (w : γ → ℝ) (x : Img n) (t : ℝ) : tv axes e w (fun p => x p + t) = tv axes e w x := by
  unfold tv
  have h : ∀ ax p, diff ax (fun p => x p + t) p = diff ax x p := by
    intro ax p
    unfold diff
    split
    · ring
    · rfl
  simp only [h]

/-- **C100 for `TVL2Denoise`.** The limit of the returned images has the same weighted mean as the signal, and adding a constant to
the signal adds it to the limit. -/
theorem C100_tvl2denoise (hax : GoodAxes n axes) (e : Pix n ≃ γ × χ) (S : Img n) (t : ℝ) (P : Par γ n)
    (hl : 0 ≤ P.lmbda) (hw : ∀ g, 0 ≤ P.w g) (hwd : ∀ p, P.wd p ≠ 0) (ht : P.tol ≤ 0)
    (hm : 0 < P.maxIter ∧ Even P.maxIter) (o o' : Opts) (ha : o.autoRho = false) (ha' : o'.autoRho = false)
    (hrlx : 0 < o.rlx ∧ o.rlx < 2) (hrlx' : 0 < o'.rlx ∧ o'.rlx < 2) (cb cb')
    (s s' : St (ImE n) (GradE axes n) (GradE axes n) Xs) (hp : 0 < s.rho) (hp' : 0 < s'.rho) :
    ∃ x : Img n, (∀ p, Tendsto (fun j => (traj (clsL2 axes e P S) o cb s j).X p) atTop (𝓝 (x p))) ∧
      ∑ p, P.wd p ^ 2 * x p = ∑ p, P.wd p ^ 2 * S p ∧
      ∀ p, Tendsto (fun j => (traj (clsL2 axes e P fun p => S p + t) o' cb' s' j).X p) atTop (𝓝 (x p + t)) := by
  obtain ⟨x, hx, -, hr⟩ := C95_tvl2denoise hax e S P.wd P.lmbda P.w hl hw hwd
  obtain ⟨x', -, hu', hr'⟩ := C95_tvl2denoise hax e (fun p => S p + t) P.wd P.lmbda P.w hl hw hwd
  refine ⟨x, hr P rfl rfl rfl ht hm o ha hrlx cb s hp, ?_, ?_⟩
  · have hq : ∀ c : ℝ, 0 ≤ (∑ p, P.wd p ^ 2) * (c * c) + 2 * (∑ p, P.wd p ^ 2 * (x p - S p)) * c + 0 := by
      intro c
      have h := hx fun p => x p + c
      unfold tvL2 at h
      rw [tv_shift] at h
      have e1 : ∑ p, (P.wd p * (x p + c - S p)) ^ 2 = ∑ p, (P.wd p * (x p - S p)) ^ 2 +
          2 * (∑ p, P.wd p ^ 2 * (x p - S p)) * c + (∑ p, P.wd p ^ 2) * (c * c) := by
        rw [mul_sum, sum_mul, sum_mul, ← sum_add_distrib, ← sum_add_distrib]
        refine sum_congr rfl fun p _ => ?_
        ring
      rw [e1] at h
      linarith
    have hd := discrim_le_zero hq
    unfold discrim at hd
    have h0 : ∑ p, P.wd p ^ 2 * (x p - S p) = 0 := by
      have : (∑ p, P.wd p ^ 2 * (x p - S p)) ^ 2 ≤ 0 := by nlinarith
      exact pow_eq_zero_iff two_ne_zero |>.1 (le_antisymm this (sq_nonneg _))
    simp only [mul_sub, sum_sub_distrib] at h0
    linarith
  · have hs : (fun p => x p + t) = x' := by
      refine hu' _ fun z => ?_
      have h := hx fun p => z p + -t
      unfold tvL2 at h ⊢
      rw [tv_shift] at h ⊢
      have e1 : ∀ p, x p + t - (S p + t) = x p - S p := fun p => by ring
      have e2 : ∀ p, z p + -t - S p = z p - (S p + t) := fun p => by ring
      simp only [e1]
      simp only [e2] at h
      exact h
    intro p
    have h := hr' P rfl rfl rfl ht hm o' ha' hrlx' cb' s' hp' p
    rw [← hs] at h
    exact h

/-- The hypotheses of the theorems above are met by the image `(0, 4)`, whose limit has the mean 2. -/
example (o : Opts) (ha : o.autoRho = false) (hr : o.rlx = 1.8) (cb)
    (s : St (ImE n2) (GradE [0] n2) (GradE [0] n2) Xs) (hp : 0 < s.rho) :
    ∃ x : Img n2, (∀ p, Tendsto (fun j => (traj (clsL2 [0] noChan exPar exS) o cb s j).X p) atTop (𝓝 (x p))) ∧
      x (fun _ => 0) + x (fun _ => 1) = 4 ∧
      ∀ p, Tendsto (fun j => (traj (clsL2 [0] noChan exPar fun p => exS p + 5) o cb s j).X p) atTop (𝓝 (x p + 5)) := by
  have hr2 : 0 < o.rlx ∧ o.rlx < 2 := by
    rw [hr]
    norm_num
  obtain ⟨x, h1, h2, h3⟩ := C100_tvl2denoise goodAxes2 noChan exS 5 exPar zero_le_one (fun _ => zero_le_one)
    (fun _ => by norm_num [exPar]) le_rfl ⟨by decide, by decide⟩ o o ha ha hr2 hr2 cb cb s s hp hp
  refine ⟨x, h1, ?_, h3⟩
  rw [sum_pix2, sum_pix2] at h2
  simpa [exPar, exS] using h2

end Sporco.Tv.Den

namespace Sporco.Tv.Dec

open Finset ComplexConjugate Sporco.Conv Sporco.Admm Sporco.Signal Filter Topology
open scoped RealInnerProductSpace

variable {d : ℕ} {N Nd : Fin d → ℕ} [∀ k, NeZero (N k)] {a : Fin d} {γ χ : Type*} [Fintype γ] [Fintype χ]

/-- **C98 for `TVL2Deconv`.** The blurred images, for the images returned for signals `S` and `S'`, tend to images whose distance is
at most that of the signals. -/
theorem C98_tvl2deconv (hN : ∀ k, Nd k ≤ N k) (h2 : ∀ k, 2 ≤ N k) (A : γ × χ → NArr Nd ℝ)
    (hA : ∀ i, ∑ j, A i j ≠ 0) (S S' : γ × χ → Grid N → ℝ) (lmbda : ℝ) (hl : 0 < lmbda) (w : γ → Grid N → ℝ)
    (hw : ∀ g p, 0 < w g p) (ge ge' : Bool) (o o' : Opts) (ha : o.autoRho = false) (ha' : o'.autoRho = false)
    (hrlx : 0 < o.rlx ∧ o.rlx < 2) (hrlx' : 0 < o'.rlx ∧ o'.rlx < 2) (cb cb')
    (s s' : St (ImgD γ χ N) (GradD γ χ N) (GradD γ χ N) (γ × χ → Half N a → ℂ)) (hp : 0 < s.rho) (hp' : 0 < s'.rho) :
    ∃ x x' : γ × χ → Grid N → ℝ,
      (∀ i p, Tendsto (fun n => img (traj (clsL2 A S lmbda w ge) o cb s n).X i p) atTop (𝓝 (x i p))) ∧
      (∀ i p, Tendsto (fun n => img (traj (clsL2 A S' lmbda w ge') o' cb' s' n).X i p) atTop (𝓝 (x' i p))) ∧
      ∑ i, ∑ p, (filt (A i) (x i) p - filt (A i) (x' i) p) ^ 2 ≤ ∑ i, ∑ p, (S i p - S' i p) ^ 2 := by
  have hw0 : ∀ g p, 0 ≤ w g p := fun g p => (hw g p).le
  obtain ⟨x, hx, h3⟩ := C39_tvl2deconv_iterates (a := a) hN h2 A hA S lmbda hl w hw ge o ha hrlx cb s hp
  obtain ⟨x', hx', h3'⟩ := C39_tvl2deconv_iterates (a := a) hN h2 A hA S' lmbda hl w hw ge' o' ha' hrlx' cb' s' hp'
  refine ⟨x, x', h3, h3', ?_⟩
  have hobj : ∀ (S : γ × χ → Grid N → ℝ) (z : ImgD γ χ N),
      lsObj (blurL A) (sigL S) (fun x => lmbda * regTv w (gradL x)) z = tvL2 A S lmbda w (img z) := by
    intro S z
    rw [tvL2_eq hN h2, sub_zero]
    rfl
  have h := ls_nonexpansive (blurL A) (blurLT A) (blurL_adj A) (sigL S) (sigL S')
    (fun x : ImgD γ χ N => lmbda * regTv w (gradL x)) Set.univ
    ((regTv_convex lmbda hl.le w hw0).comp_linearMap (gradL (γ := γ) (χ := χ) (N := N)).toLinearMap)
    (join fun i _ => x i) (join fun i _ => x' i) trivial trivial
    (fun z _ => by
      rw [hobj, hobj]
      exact hx (img z))
    (fun z _ => by
      rw [hobj, hobj]
      exact hx' (img z))
  have hb : ∀ z : ImgD γ χ N, blurL A z = sigL fun i p => filt (A i) (img z i) p := by
    intro z
    have h := norm_blur hN A (fun i p => filt (A i) (img z i) p) z
    simp only [sub_self, ne_eq, OfNat.ofNat_ne_zero, not_false_eq_true, zero_pow, sum_const_zero] at h
    exact sub_eq_zero.1 (norm_eq_zero.1 (pow_eq_zero_iff two_ne_zero |>.1 h))
  have hn : ∀ f g : γ × χ → Grid N → ℝ, ‖sigL f - sigL g‖ ^ 2 = ∑ i, ∑ p, (f i p - g i p) ^ 2 := by
    intro f g
    rw [norm_part]
    refine sum_congr rfl fun i _ => ?_
    rw [Fintype.sum_unique]
    rfl
  rw [map_sub, hb, hb, hn, hn] at h
  exact h

/-- **C99 for `TVL2Deconv`.** The larger of two values of `lmbda` gives the larger or equal data term and the smaller or equal total
variation. -/
theorem C99_tvl2deconv_lmbda (hN : ∀ k, Nd k ≤ N k) (h2 : ∀ k, 2 ≤ N k) (A : γ × χ → NArr Nd ℝ)
    (hA : ∀ i, ∑ j, A i j ≠ 0) (S : γ × χ → Grid N → ℝ) (lmbda lmbda' : ℝ) (hl : 0 < lmbda) (hll : lmbda < lmbda')
    (w : γ → Grid N → ℝ)
    (hw : ∀ g p, 0 < w g p) (ge ge' : Bool) (o o' : Opts) (ha : o.autoRho = false) (ha' : o'.autoRho = false)
    (hrlx : 0 < o.rlx ∧ o.rlx < 2) (hrlx' : 0 < o'.rlx ∧ o'.rlx < 2) (cb cb')
    (s s' : St (ImgD γ χ N) (GradD γ χ N) (GradD γ χ N) (γ × χ → Half N a → ℂ)) (hp : 0 < s.rho) (hp' : 0 < s'.rho) :
    ∃ x x' : γ × χ → Grid N → ℝ,
      (∀ i p, Tendsto (fun n => img (traj (clsL2 A S lmbda w ge) o cb s n).X i p) atTop (𝓝 (x i p))) ∧
      (∀ i p, Tendsto (fun n => img (traj (clsL2 A S lmbda' w ge') o' cb' s' n).X i p) atTop (𝓝 (x' i p))) ∧
      ∑ i, ∑ p, (filt (A i) (x i) p - S i p) ^ 2 ≤ ∑ i, ∑ p, (filt (A i) (x' i) p - S i p) ^ 2 ∧
      tv w x' ≤ tv w x := by
  obtain ⟨x, hx, h3⟩ := C39_tvl2deconv_iterates (a := a) hN h2 A hA S lmbda hl w hw ge o ha hrlx cb s hp
  obtain ⟨x', hx', h3'⟩ := C39_tvl2deconv_iterates (a := a) hN h2 A hA S lmbda' (hl.trans hll) w hw ge' o' ha' hrlx' cb' s' hp'
  obtain ⟨h4, h5⟩ := trade_off (fun x : γ × χ → Grid N → ℝ => 1 / 2 * ∑ i, ∑ p, (filt (A i) (x i) p - S i p) ^ 2) (tv w)
    Set.univ lmbda lmbda' hll hl.le x x' ⟨trivial, fun z _ => hx z⟩ ⟨trivial, fun z _ => hx' z⟩
  exact ⟨x, x', h3, h3', by linarith, h5⟩

theorem filt_shift (h : NArr Nd ℝ) (x : Grid N → ℝ) (c : ℝ) (p : Grid N) :
    filt h (fun q => x q + c) p = filt h x p + c * ∑ j, h j := by
  unfold filt
  simp only [mul_add, sum_add_distrib, mul_sum]
  congr 1
  exact sum_congr rfl fun j _ => mul_comm _ _

theorem sum_filt (h : NArr Nd ℝ) (x : Grid N → ℝ) : ∑ p, filt h x p = (∑ j, h j) * ∑ p, x p := by
  unfold filt
  rw [sum_comm, sum_mul]
  refine sum_congr rfl fun j _ => ?_
  rw [← mul_sum]
  congr 1
  exact Equiv.sum_comp (Equiv.subRight fun k => ((j k).val : ZMod (N k))) x

theorem tv_shift (w : γ → Grid N → ℝ) (x : γ × χ → Grid N → ℝ) (t : γ × χ → ℝ) :
    tv w (fun i p => x i p + t i) = tv w x := by
  unfold tv
  have h : ∀ g c k p, cdiff k (fun p => x (g, c) p + t (g, c)) p = cdiff k (x (g, c)) p := fun g c k p => by
    unfold cdiff
    ring
  simp only [h]

open Classical in
/-- **C100 for `TVL2Deconv`.** In every channel the sum of the limit of the returned images is the sum of the signal, divided by the sum
of the kernel: the restored image, blurred, has the mean of the signal. -/
theorem C100_tvl2deconv (hN : ∀ k, Nd k ≤ N k) (h2 : ∀ k, 2 ≤ N k) (A : γ × χ → NArr Nd ℝ)
    (hA : ∀ i, ∑ j, A i j ≠ 0) (S : γ × χ → Grid N → ℝ) (lmbda : ℝ) (hl : 0 < lmbda) (w : γ → Grid N → ℝ)
    (hw : ∀ g p, 0 < w g p) (ge : Bool) (o : Opts) (ha : o.autoRho = false) (hrlx : 0 < o.rlx ∧ o.rlx < 2) (cb)
    (s : St (ImgD γ χ N) (GradD γ χ N) (GradD γ χ N) (γ × χ → Half N a → ℂ)) (hp : 0 < s.rho) :
    ∃ x : γ × χ → Grid N → ℝ,
      (∀ i p, Tendsto (fun n => img (traj (clsL2 A S lmbda w ge) o cb s n).X i p) atTop (𝓝 (x i p))) ∧
      ∀ i, (∑ j, A i j) * ∑ p, x i p = ∑ p, S i p := by
  obtain ⟨x, hx, h3⟩ := C39_tvl2deconv_iterates (a := a) hN h2 A hA S lmbda hl w hw ge o ha hrlx cb s hp
  refine ⟨x, h3, fun i => ?_⟩
  have hq : ∀ c : ℝ, 0 ≤ (∑ _p : Grid N, (∑ j, A i j) ^ 2) * (c * c) +
      2 * (∑ p, (filt (A i) (x i) p - S i p) * ∑ j, A i j) * c + 0 := by
    intro c
    have h := hx fun l p => x l p + if l = i then c else 0
    unfold tvL2 at h
    rw [tv_shift w x fun l => if l = i then c else 0] at h
    have e1 : ∀ l, ∑ p, (filt (A l) (fun p => x l p + if l = i then c else 0) p - S l p) ^ 2 =
        ∑ p, (filt (A l) (x l) p - S l p) ^ 2 + if l = i then
          (∑ _p : Grid N, (∑ j, A i j) ^ 2) * (c * c) +
            2 * (∑ p, (filt (A i) (x i) p - S i p) * ∑ j, A i j) * c else 0 := by
      intro l
      by_cases hli : l = i
      · subst hli
        simp only [if_true, filt_shift]
        generalize ∑ j, A l j = q
        rw [mul_sum, sum_mul, sum_mul, ← sum_add_distrib, ← sum_add_distrib]
        refine sum_congr rfl fun p _ => ?_
        ring
      · simp only [if_neg hli, add_zero]
    simp only [e1, sum_add_distrib, sum_ite_eq', mem_univ, if_true] at h
    linarith
  have hd := discrim_le_zero hq
  unfold discrim at hd
  have h0 : (∑ p, (filt (A i) (x i) p - S i p)) * ∑ j, A i j = 0 := by
    rw [sum_mul]
    have : (∑ p, (filt (A i) (x i) p - S i p) * ∑ j, A i j) ^ 2 ≤ 0 := by nlinarith
    exact pow_eq_zero_iff two_ne_zero |>.1 (le_antisymm this (sq_nonneg _))
  have h5 := (mul_eq_zero.1 h0).resolve_right (hA i)
  rw [sum_sub_distrib, sum_filt] at h5
  linarith

/-- The hypotheses are met by a signal of four samples and a kernel of two with sum 3: the limit has the sum 4. -/
example (o : Opts) (ha : o.autoRho = false) (hr : o.rlx = 1.8) (cb)
    (s : St (ImgD (Fin 1) (Fin 1) fun _ : Fin 1 => 4) (GradD (Fin 1) (Fin 1) fun _ : Fin 1 => 4)
      (GradD (Fin 1) (Fin 1) fun _ : Fin 1 => 4) (Fin 1 × Fin 1 → Half (fun _ : Fin 1 => 4) 0 → ℂ)) (hp : 0 < s.rho) :
    let A : Fin 1 × Fin 1 → NArr (fun _ : Fin 1 => 2) ℝ := fun _ j => if j 0 = 0 then 2 else 1
    let S : Fin 1 × Fin 1 → Grid (fun _ : Fin 1 => 4) → ℝ := fun _ p => if p = 0 then 12 else 0
    ∃ x : Fin 1 × Fin 1 → Grid (fun _ : Fin 1 => 4) → ℝ,
      (∀ i p, Tendsto (fun n => img (traj (clsL2 A S 1 (fun _ _ => 1) false) o cb s n).X i p) atTop (𝓝 (x i p))) ∧
      ∀ i, ∑ p, x i p = 4 := by
  intro A S
  have hs : ∀ i, ∑ j, A i j = 3 := by
    intro i
    rw [← (Equiv.funUnique (Fin 1) (Fin 2)).symm.sum_comp]
    simp [A, Equiv.funUnique, uniqueElim]
    norm_num
  obtain ⟨x, h1, h2⟩ := C100_tvl2deconv (a := 0) (fun _ => by norm_num) (fun _ => le_of_lt (by norm_num)) A
    (fun i => by rw [hs i]; norm_num) S 1 one_pos (fun _ _ => 1) (fun _ _ => one_pos) false o ha
    (by rw [hr]; norm_num) cb s hp
  refine ⟨x, h1, fun i => ?_⟩
  have h := h2 i
  have e : ∑ p, S i p = 12 := by
    simp [S]
  rw [hs i, e] at h
  linarith

end Sporco.Tv.Dec
