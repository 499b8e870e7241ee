import Verif.Tv.DeconvLemmas
import Verif.Admm.Generic
import Verif.Admm.TwoBlock
import Verif.Admm.BpdnConv

/-!
# TV deconvolution: exact updates, recorded values and convergence (C40, C61, C39, C37)
-/

set_option autoImplicit false
set_option linter.unusedSectionVars false

namespace Sporco.Tv.Dec

open Finset ComplexConjugate Sporco.Conv Sporco.Admm Sporco.Signal Filter Topology
open Sporco.Prox (IsUniqueMin)
open scoped RealInnerProductSpace

variable {d : ℕ} {N Nd : Fin d → ℕ} [∀ k, NeZero (N k)] {a : Fin d} {γ χ : Type*} [Fintype γ] [Fintype χ]

/-! ## Specification -/

/-- `(1/2) ‖A * x - s‖² + (ρ/2) ∑_k ‖∂_k x - y_k + u_k‖²`, with circular convolution and circular
differences. -/
noncomputable def augL2 (A : γ × χ → NArr Nd ℝ) (S : γ × χ → Grid N → ℝ) (rho : ℝ)
    (Y U : γ × χ → Fin d → Grid N → ℝ) (x : γ × χ → Grid N → ℝ) : ℝ :=
  1 / 2 * ∑ i, ∑ p, (filt (A i) (x i) p - S i p) ^ 2 +
    rho / 2 * ∑ i, ∑ k, ∑ p, (cdiff k (x i) p - Y i k p + U i k p) ^ 2

/-- `(ρ/2) (∑_k ‖∂_k x - y_k + u_k‖² + ‖A * x - s - z + v‖²)`. -/
noncomputable def augL1 (A : γ × χ → NArr Nd ℝ) (S : γ × χ → Grid N → ℝ) (rho : ℝ)
    (Y U : γ × χ → Fin d → Grid N → ℝ) (Z V : γ × χ → Grid N → ℝ) (x : γ × χ → Grid N → ℝ) : ℝ :=
  rho / 2 * (∑ i, ∑ k, ∑ p, (cdiff k (x i) p - Y i k p + U i k p) ^ 2 +
    ∑ i, ∑ p, (filt (A i) (x i) p - S i p - Z i p + V i p) ^ 2)

/-- Total variation, vectorial over the index `χ` and weighted: the weighted sum over the pixels of the l2
norm of the differences. -/
noncomputable def tv (w : γ → Grid N → ℝ) (x : γ × χ → Grid N → ℝ) : ℝ :=
  ∑ g, ∑ p, w g p * Real.sqrt (∑ c, ∑ k, cdiff k (x (g, c)) p ^ 2)

/-- The problem of `TVL2Deconv`: `(1/2) ‖A * x - s‖² + λ TV(x)`. -/
noncomputable def tvL2 (A : γ × χ → NArr Nd ℝ) (S : γ × χ → Grid N → ℝ) (lmbda : ℝ) (w : γ → Grid N → ℝ)
    (x : γ × χ → Grid N → ℝ) : ℝ :=
  1 / 2 * ∑ i, ∑ p, (filt (A i) (x i) p - S i p) ^ 2 + lmbda * tv w x

/-- The problem of `TVL1Deconv`: `‖W (A * x - s)‖₁ + λ TV(x)`. -/
noncomputable def tvL1 (A : γ × χ → NArr Nd ℝ) (S : γ × χ → Grid N → ℝ) (lmbda : ℝ)
    (wd : γ × χ → Grid N → ℝ) (w : γ → Grid N → ℝ) (x : γ × χ → Grid N → ℝ) : ℝ :=
  ∑ i, ∑ p, wd i p * |filt (A i) (x i) p - S i p| + lmbda * tv w x

/-- The image in an array with the (trivial) last index. -/
def img (x : ImgD γ χ N) (i : γ × χ) : Grid N → ℝ := part x i ()

/-! ## The operators in the specification -/

theorem img_inj {x y : ImgD γ χ N} (h : img x = img y) : x = y := by
  ext ⟨i, u, p⟩
  exact congrFun (congrFun h i) p

theorem part_blur (hN : ∀ k, Nd k ≤ N k) (A : γ × χ → NArr Nd ℝ) (x : ImgD γ χ N) (i : γ × χ) (u : Unit) :
    part (blurL A x) i u = filt (A i) (img x i) := by
  unfold blurL
  rw [part_stk, rconv_pad hN]
  rfl

theorem part_grad (h2 : ∀ k, 2 ≤ N k) (x : ImgD γ χ N) (i : γ × χ) (k : Fin d) :
    part (gradL x) i k = cdiff k (img x i) := by
  unfold gradL
  rw [part_stk, rconv_gradG k (h2 k)]
  rfl

theorem sum_unit (f : Unit → ℝ) : ∑ u, f u = f () := by rw [univ_unique, sum_singleton]

theorem norm_blur (hN : ∀ k, Nd k ≤ N k) (A : γ × χ → NArr Nd ℝ) (S : γ × χ → Grid N → ℝ) (x : ImgD γ χ N) :
    ‖blurL A x - sigL S‖ ^ 2 = ∑ i, ∑ p, (filt (A i) (img x i) p - S i p) ^ 2 := by
  rw [norm_part]
  refine sum_congr rfl fun i _ => ?_
  rw [sum_unit]
  refine sum_congr rfl fun p _ => ?_
  change (part (blurL A x) i () p - S i p) ^ 2 = _
  rw [part_blur hN]

theorem norm_grad (h2 : ∀ k, 2 ≤ N k) (Y U : GradD γ χ N) (x : ImgD γ χ N) :
    ‖gradL x - (Y - U)‖ ^ 2 = ∑ i, ∑ k, ∑ p, (cdiff k (img x i) p - part Y i k p + part U i k p) ^ 2 := by
  rw [norm_part]
  refine sum_congr rfl fun i _ => sum_congr rfl fun k _ => sum_congr rfl fun p _ => ?_
  change (part (gradL x) i k p - (part Y i k p - part U i k p)) ^ 2 = _
  rw [part_grad h2]
  ring

theorem augL2_eq (hN : ∀ k, Nd k ≤ N k) (h2 : ∀ k, 2 ≤ N k) (A : γ × χ → NArr Nd ℝ)
    (S : γ × χ → Grid N → ℝ) (rho : ℝ) (Y U : GradD γ χ N) (x : ImgD γ χ N) :
    augL2 A S rho (part Y) (part U) (img x) =
      1 / 2 * ‖blurL A x - sigL S‖ ^ 2 + rho / 2 * ‖gradL x - (Y - U)‖ ^ 2 := by
  rw [norm_blur hN, norm_grad h2]
  rfl

/-- **C61, deconvolution.** `cnst_A` of the deconvolution solvers computes circular differences and
`cnst_AT` is its adjoint, for axes of length at least two. Missing: `C61_deconv_short_refuted`. -/
theorem C61_deconv_partial (h2 : ∀ k, 2 ≤ N k) (A : γ × χ → NArr Nd ℝ) (S : γ × χ → Grid N → ℝ)
    (X : ImgD γ χ N) (Y : GradD γ χ N) :
    let q : Attr γ χ N a := init A S
    (∀ i k p, part (cnstA q X) i k p = cdiff k (img X i) p) ∧ ⟪cnstA q X, Y⟫ = ⟪X, cnstAT q Y⟫ := by
  intro q
  refine ⟨fun i k p => ?_, ?_⟩
  · rw [cnstA_eq, part_grad h2]
  · rw [cnstA_eq, cnstAT_eq]
    exact stk_adj _ _ _

/-- Along an axis with one entry the difference is zero, but `cnst_A` returns the image itself: the
filter `[1, -1]` is cropped to `[1]`. -/
theorem C61_deconv_short_refuted (k : Fin d) (hk : N k = 1) (A : γ × χ → NArr Nd ℝ)
    (S : γ × χ → Grid N → ℝ) (X : ImgD γ χ N) (i : γ × χ) (p : Grid N) :
    cdiff k (img X i) p = 0 ∧ part (cnstA (init A S : Attr γ χ N a) X) i k p = img X i p := by
  constructor
  · have : Pi.single k 1 = (0 : Grid N) := by
      funext j
      by_cases h : j = k
      · subst h
        rw [Pi.single_eq_same]
        have : Subsingleton (ZMod (N j)) := by rw [hk]; infer_instance
        exact Subsingleton.elim _ _
      · rw [Pi.single_eq_of_ne h]; rfl
    unfold cdiff
    rw [this, sub_zero, sub_self]
  · rw [cnstA_eq]
    unfold gradL
    rw [part_stk, rconv_gradG_one k hk]
    rfl

/-! ## The x update -/

theorem dfull_ne (hN : ∀ k, Nd k ≤ N k) (h2 : ∀ k, 2 ≤ N k) (A : γ × χ → NArr Nd ℝ) (rho : ℝ) (hp : 0 < rho)
    (hA : ∀ i, ∑ j, A i j ≠ 0) (i : γ × χ) (ξ : Grid N) : dfull A rho i ξ ≠ 0 := fun h =>
  hA i ((dfull_zero_iff hN h2 A rho hp i ξ).1 h).2

theorem unique_of_excess {A : γ × χ → NArr Nd ℝ} {rho : ℝ} (hp : 0 < rho)
    (hd : ∀ i ξ, dfull (N := N) A rho i ξ ≠ 0) {z x : ImgD γ χ N} (hne : z ≠ x) :
    0 < 1 / 2 * ‖blurL A (z - x)‖ ^ 2 + rho / 2 * ‖gradL (z - x)‖ ^ 2 := by
  by_contra hc
  have n1 : 0 ≤ ‖blurL A (z - x)‖ ^ 2 := sq_nonneg _
  have n2 : 0 ≤ rho / 2 * ‖gradL (z - x)‖ ^ 2 := by positivity
  have h1 : ‖blurL A (z - x)‖ ^ 2 = 0 := by linarith
  have h3' : rho / 2 * ‖gradL (z - x)‖ ^ 2 = 0 := by linarith
  have h3 : ‖gradL (z - x)‖ ^ 2 = 0 := (mul_eq_zero.1 h3').resolve_left (by positivity)
  have := stack_inj A rho hd (z - x) (by simpa using h1) (by simpa using h3)
  exact hne (sub_eq_zero.1 this)

/-- **C40.** The x update of `TVL2Deconv` gives the unique minimiser of the augmented Lagrangian over all
images, if no kernel has entries adding up to zero and no axis has length one.  Missing:
`C40_deconv_singular_refuted`, `C61_deconv_short_refuted`. -/
theorem C40_tvl2deconv_xstep_partial (hN : ∀ k, Nd k ≤ N k) (h2 : ∀ k, 2 ≤ N k) (A : γ × χ → NArr Nd ℝ)
    (hA : ∀ i, ∑ j, A i j ≠ 0) (S : γ × χ → Grid N → ℝ) (rho : ℝ) (hp : 0 < rho) (X : ImgD γ χ N)
    (Y U : GradD γ χ N) (h : γ × χ → Half N a → ℂ) :
    IsUniqueMin (augL2 A S rho (part Y) (part U)) Set.univ (img (xstep (init A S) rho X Y U h).1) := by
  refine ⟨trivial, fun v _ hne => ?_⟩
  have hd := dfull_ne hN h2 A rho hp hA
  set x := (xstep (init A S) rho X Y U h).1 with hx
  set z : ImgD γ χ N := join fun i _ => v i with hz
  have hv : v = img z := rfl
  rw [hv, augL2_eq hN h2, augL2_eq hN h2, xstep_excess A S rho hd Y U X h z]
  have := unique_of_excess hp hd (z := z) (x := x) (fun e => hne (by rw [hv, e]))
  linarith

/-- **C40.** The division in the x update of `TVL2Deconv` is by zero, so that the image becomes NaN, if
and only if the entries of a kernel add up to zero, whatever the (positive) rho and the other data. -/
theorem C40_deconv_nan (hN : ∀ k, Nd k ≤ N k) (h2 : ∀ k, 2 ≤ N k) (A : γ × χ → NArr Nd ℝ)
    (S : γ × χ → Grid N → ℝ) (rho : ℝ) (hp : 0 < rho) :
    (xstepNaN (init A S : Attr γ χ N a) rho ↔ ∃ i, ∑ j, A i j = 0) ∧
    (xstep1NaN (init A S : Attr γ χ N a) ↔ ∃ i, ∑ j, A i j = 0) := by
  have key : ∀ r, 0 < r → (xstepNaN (init A S : Attr γ χ N a) r ↔ ∃ i, ∑ j, A i j = 0) := by
    intro r hr
    unfold xstepNaN
    constructor
    · rintro ⟨i, ξ, h⟩
      rw [den_eq] at h
      exact ⟨i, ((dfull_zero_iff hN h2 A r hr i _).1 h).2⟩
    · rintro ⟨i, h⟩
      refine ⟨i, ⟨0, by simp⟩, ?_⟩
      rw [den_eq]
      exact (dfull_zero_iff hN h2 A r hr i _).2 ⟨rfl, h⟩
  refine ⟨key rho hp, ?_⟩
  rw [← key 1 one_pos]
  have e : ∀ i (ξ : Half N a), den1 (init A S : Attr γ χ N a) i ξ = den (init A S) 1 i ξ := by
    intro i ξ; unfold den1 den; rw [Complex.ofReal_one, one_mul]
  unfold xstep1NaN xstepNaN
  simp only [e]

/-- Adding a constant to an image changes neither its blur by a kernel with zero sum nor its differences. -/
theorem augL2_const (A : γ × χ → NArr Nd ℝ) (hA : ∀ i, ∑ j, A i j = 0)
    (S : γ × χ → Grid N → ℝ) (rho : ℝ) (Y U : γ × χ → Fin d → Grid N → ℝ) (x : γ × χ → Grid N → ℝ) (t : ℝ) :
    augL2 A S rho Y U (fun i p => x i p + t) = augL2 A S rho Y U x := by
  unfold augL2
  have e1 : ∀ i p, filt (A i) (fun p => x i p + t) p = filt (A i) (x i) p := by
    intro i p
    unfold filt
    simp only [mul_add, sum_add_distrib]
    rw [← sum_mul, hA i, zero_mul, add_zero]
  have e2 : ∀ i k p, cdiff k (fun p => x i p + t) p = cdiff k (x i) p := by
    intro i k p; unfold cdiff; ring
  simp only [e1, e2]

/-! ## `TVL1Deconv` -/

theorem xf1_eq (A : γ × χ → NArr Nd ℝ) (S : γ × χ → Grid N → ℝ) (Y U : Y1 γ χ N) :
    xf1 (init A S : Attr γ χ N a) Y U =
      xf (init A (fun i p => S i p + part (Y.snd - U.snd) i () p)) 1 Y.fst U.fst := by
  funext i ξ
  have e : rfft N a (fun p => S i p + part (Y.snd - U.snd) i () p) ξ =
      rfft N a (S i) ξ + rfft N a (part (Y.snd - U.snd) i ()) ξ := rf_add _ _ ξ.1
  have ed : den1 (init A S : Attr γ χ N a) i ξ = den (init A fun i p => S i p + part (Y.snd - U.snd) i () p)
      1 i ξ := by
    unfold den1 den; rw [Complex.ofReal_one, one_mul]; rfl
  unfold xf1 xf
  rw [ed]
  congr 1
  have h1 : (init A (fun i p => S i p + part (Y.snd - U.snd) i () p) : Attr γ χ N a).AHSf i ξ =
      conj ((init A S : Attr γ χ N a).Af i ξ) * rfft N a (fun p => S i p + part (Y.snd - U.snd) i () p) ξ := rfl
  have h3 : (init A S : Attr γ χ N a).AHSf i ξ =
      conj ((init A S : Attr γ χ N a).Af i ξ) * rfft N a (S i) ξ := rfl
  have h4 : (init A (fun i p => S i p + part (Y.snd - U.snd) i () p) : Attr γ χ N a).Gf =
      (init A S : Attr γ χ N a).Gf := rfl
  rw [h1, h3, h4, e, Complex.ofReal_one, one_mul]
  ring

theorem xstep1_eq (A : γ × χ → NArr Nd ℝ) (S : γ × χ → Grid N → ℝ) (rho : ℝ) (X : ImgD γ χ N) (Y U : Y1 γ χ N)
    (h : γ × χ → Half N a → ℂ) : xstep1 (init A S : Attr γ χ N a) rho X Y U h =
      xstep (init A fun i p => S i p + part (Y.snd - U.snd) i () p) 1 X Y.fst U.fst h := by
  unfold xstep1 xstep
  rw [xf1_eq]

theorem xstep1_excess (A : γ × χ → NArr Nd ℝ) (S : γ × χ → Grid N → ℝ) (rho : ℝ)
    (hd : ∀ i ξ, dfull (N := N) A 1 i ξ ≠ 0) (Y U : Y1 γ χ N)
    (X0 : ImgD γ χ N) (h0 : γ × χ → Half N a → ℂ) (z : ImgD γ χ N) :
    let X := (xstep1 (init A S : Attr γ χ N a) rho X0 Y U h0).1
    ‖gradL z - (Y.fst - U.fst)‖ ^ 2 + ‖blurL A z - (Y.snd - U.snd + sigL S)‖ ^ 2 =
      ‖gradL X - (Y.fst - U.fst)‖ ^ 2 + ‖blurL A X - (Y.snd - U.snd + sigL S)‖ ^ 2 +
      2 * (1 / 2 * ‖blurL A (z - X)‖ ^ 2 + 1 / 2 * ‖gradL (z - X)‖ ^ 2) := by
  intro X
  have e : sigL (fun i p => S i p + part (Y.snd - U.snd) i () p) = Y.snd - U.snd + sigL S := by
    ext ⟨i, u, p⟩
    change S i p + part (Y.snd - U.snd) i () p = part (Y.snd - U.snd) i () p + S i p
    ring
  have hX : X = (xstep (init A fun i p => S i p + part (Y.snd - U.snd) i () p : Attr γ χ N a) 1 X0 Y.fst
      U.fst h0).1 := by
    change (xstep1 (init A S : Attr γ χ N a) rho X0 Y U h0).1 = _
    rw [xstep1_eq]
  have := xstep_excess A (fun i p => S i p + part (Y.snd - U.snd) i () p) 1 hd Y.fst U.fst X0 h0 z
  simp only at this
  rw [← hX, e] at this
  linarith

theorem augL1_eq (hN : ∀ k, Nd k ≤ N k) (h2 : ∀ k, 2 ≤ N k) (A : γ × χ → NArr Nd ℝ)
    (S : γ × χ → Grid N → ℝ) (rho : ℝ) (Y U : Y1 γ χ N) (x : ImgD γ χ N) :
    augL1 A S rho (part Y.fst) (part U.fst) (img Y.snd) (img U.snd) (img x) =
      rho / 2 * (‖gradL x - (Y.fst - U.fst)‖ ^ 2 + ‖blurL A x - (Y.snd - U.snd + sigL S)‖ ^ 2) := by
  unfold augL1
  rw [norm_grad h2]
  congr 2
  rw [norm_part]
  refine sum_congr rfl fun i _ => ?_
  rw [sum_unit]
  refine sum_congr rfl fun p _ => ?_
  change _ = (part (blurL A x) i () p - (img Y.snd i p - img U.snd i p + S i p)) ^ 2
  rw [part_blur hN]
  ring

/-- **C40.** The x update of `TVL1Deconv` gives the unique minimiser of the augmented Lagrangian over all
images, for every rho, under the same conditions. -/
theorem C40_tvl1deconv_xstep_partial (hN : ∀ k, Nd k ≤ N k) (h2 : ∀ k, 2 ≤ N k) (A : γ × χ → NArr Nd ℝ)
    (hA : ∀ i, ∑ j, A i j ≠ 0) (S : γ × χ → Grid N → ℝ) (rho : ℝ) (hp : 0 < rho) (X : ImgD γ χ N)
    (Y U : Y1 γ χ N) (h : γ × χ → Half N a → ℂ) :
    IsUniqueMin (augL1 A S rho (part Y.fst) (part U.fst) (img Y.snd) (img U.snd)) Set.univ
      (img (xstep1 (init A S) rho X Y U h).1) := by
  refine ⟨trivial, fun v _ hne => ?_⟩
  have hd := dfull_ne hN h2 A 1 one_pos hA
  set x := (xstep1 (init A S) rho X Y U h).1 with hx
  set z : ImgD γ χ N := join fun i _ => v i with hz
  have hv : v = img z := rfl
  rw [hv, augL1_eq hN h2, augL1_eq hN h2, xstep1_excess A S rho hd Y U X h z]
  have := unique_of_excess one_pos hd (z := z) (x := x) (fun e => hne (by rw [hv, e]))
  apply mul_lt_mul_of_pos_left _ (by positivity)
  linarith

/-! ## The Y update -/

/-- The differences at one pixel. -/
noncomputable def slice (v : GradD γ χ N) (g : γ) (p : Grid N) : EuclideanSpace ℝ (χ × Fin d) :=
  WithLp.toLp 2 fun q => part v (g, q.1) q.2 p

theorem slice_add (v u : GradD γ χ N) (g : γ) (p : Grid N) :
    slice (v + u) g p = slice v g p + slice u g p := rfl

theorem slice_sub (v u : GradD γ χ N) (g : γ) (p : Grid N) :
    slice (v - u) g p = slice v g p - slice u g p := rfl

theorem slice_smul (t : ℝ) (v : GradD γ χ N) (g : γ) (p : Grid N) :
    slice (t • v) g p = t • slice v g p := rfl

theorem norm_slice (v : GradD γ χ N) (g : γ) (p : Grid N) :
    ‖slice v g p‖ = Real.sqrt (∑ c, ∑ k, part v (g, c) k p ^ 2) := by
  rw [EuclideanSpace.norm_eq, Fintype.sum_prod_type]
  congr 1
  refine sum_congr rfl fun c _ => sum_congr rfl fun k _ => ?_
  rw [Real.norm_eq_abs, sq_abs]; rfl

theorem regTv_eq (w : γ → Grid N → ℝ) (v : GradD γ χ N) : regTv w v = ∑ g, ∑ p, w g p * ‖slice v g p‖ := by
  unfold regTv
  simp only [norm_slice]

theorem regTv_grad (h2 : ∀ k, 2 ≤ N k) (w : γ → Grid N → ℝ) (x : ImgD γ χ N) :
    regTv w (gradL x) = tv w (img x) := by
  unfold regTv tv
  simp only [part_grad h2]

theorem norm_slices (v : GradD γ χ N) : ‖v‖ ^ 2 = ∑ s : γ × Grid N, ‖slice v s.1 s.2‖ ^ 2 := by
  rw [norm_part, Fintype.sum_prod_type, Fintype.sum_prod_type]
  refine sum_congr rfl fun g _ => ?_
  have e : ∀ p, ‖slice v g p‖ ^ 2 = ∑ c, ∑ k, part v (g, c) k p ^ 2 := by
    intro p
    rw [norm_slice, Real.sq_sqrt (sum_nonneg fun _ _ => sum_nonneg fun _ _ => sq_nonneg _)]
  simp only [e]
  rw [sum_comm (s := (univ : Finset (Grid N)))]
  exact sum_congr rfl fun c _ => sum_comm

/-- **C40.** The Y update of `TVL2Deconv`, and the gradient block in that of `TVL1Deconv`, give the unique
minimiser of `λ ∑ w ‖z‖₂ + (ρ/2) ‖v - z‖²` over all arrays. -/
theorem C40_deconv_ystep (lmbda : ℝ) (hl : 0 ≤ lmbda) (w : γ → Grid N → ℝ) (hw : ∀ g p, 0 ≤ w g p) (rho : ℝ)
    (hp : 0 < rho) (v : GradD γ χ N) :
    IsUniqueMin (fun z => lmbda * (∑ g, ∑ p, w g p * Real.sqrt (∑ c, ∑ k, part z (g, c) k p ^ 2)) +
      rho / 2 * ‖v - z‖ ^ 2) Set.univ (proxTv lmbda rho w v) := by
  refine ⟨trivial, fun z _ hne => ?_⟩
  have key := Prox.C17_prox_l2 (σ := γ × Grid N) (ι := χ × Fin d) (E := ℝ)
    (fun s q => part v (s.1, q.1) q.2 s.2) (fun s => lmbda / rho * w s.1 s.2)
    (fun s => mul_nonneg (div_nonneg hl hp.le) (hw _ _))
  have hval : ∀ z : GradD γ χ N, lmbda * (∑ g, ∑ p, w g p * Real.sqrt (∑ c, ∑ k, part z (g, c) k p ^ 2)) +
      rho / 2 * ‖v - z‖ ^ 2 = rho * ∑ s : γ × Grid N, Prox.proxObj
        (fun y => lmbda / rho * w s.1 s.2 * Prox.l2 y) (fun q : χ × Fin d => part v (s.1, q.1) q.2 s.2)
        (fun q => part z (s.1, q.1) q.2 s.2) := by
    intro z
    have e1 : ∀ y : EuclideanSpace ℝ (χ × Fin d), Prox.l2 y.ofLp = ‖y‖ := by
      intro y; rw [EuclideanSpace.norm_eq]; rfl
    have e2 : ∀ y : EuclideanSpace ℝ (χ × Fin d), Prox.sq y.ofLp = ‖y‖ ^ 2 := by
      intro y; rw [EuclideanSpace.norm_sq_eq]; rfl
    change lmbda * regTv w z + _ = _
    have e3 : regTv w z = ∑ s : γ × Grid N, w s.1 s.2 * ‖slice z s.1 s.2‖ := by
      rw [regTv_eq, Fintype.sum_prod_type]
    rw [e3, norm_slices, mul_sum, mul_sum univ _ (rho / 2), mul_sum, ← sum_add_distrib]
    refine sum_congr rfl fun s _ => ?_
    have e4 : Prox.proxObj (fun y => lmbda / rho * w s.1 s.2 * Prox.l2 y)
        (fun q : χ × Fin d => part v (s.1, q.1) q.2 s.2) (fun q => part z (s.1, q.1) q.2 s.2) =
        1 / 2 * ‖slice z s.1 s.2 - slice v s.1 s.2‖ ^ 2 + lmbda / rho * w s.1 s.2 * ‖slice z s.1 s.2‖ := by
      rw [← e2, ← e1]; rfl
    rw [e4, slice_sub, norm_sub_rev]
    field_simp
    ring
  beta_reduce
  rw [hval, hval]
  apply mul_lt_mul_of_pos_left _ hp
  refine key.2 (fun s q => part z (s.1, q.1) q.2 s.2) trivial fun e => hne ?_
  ext ⟨⟨g, c⟩, k, p⟩
  exact congrFun (congrFun e (g, p)) (c, k)

end Sporco.Tv.Dec
