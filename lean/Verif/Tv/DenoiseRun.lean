import Verif.Tv.DenoiseModel
import Verif.Tv.Denoise
import Verif.Tv.JacobiProx
import Verif.Admm.ProxConv
import Verif.Admm.Generic
import Verif.Prox.Props

/-!
# TV denoising: the updates of the two classes
-/

set_option autoImplicit false
set_option linter.unusedSectionVars false

namespace Sporco.Tv.Den

open Finset Sporco.Admm Filter Topology
open Sporco.Prox (IsUniqueMin)
open scoped RealInnerProductSpace

variable {D : ℕ} {n : Fin D → ℕ} {γ χ : Type*} [Fintype γ] [Fintype χ] {axes : List (Fin D)}

/-! ## Operators -/

theorem diff_add (ax : Fin D) (x y : Img n) (p : Pix n) :
    diff ax (fun q => x q + y q) p = diff ax x p + diff ax y p := by
  unfold diff; split_ifs <;> ring

theorem diff_smul (ax : Fin D) (c : ℝ) (x : Img n) (p : Pix n) : diff ax (fun q => c * x q) p = c * diff ax x p := by
  unfold diff; split_ifs <;> ring

/-- The stacked forward differences. -/
noncomputable def gradE (axes : List (Fin D)) : ImE n →ₗ[ℝ] GradE axes n where
  toFun x := WithLp.toLp 2 fun j => diff (axes.get j.1) x.ofLp j.2
  map_add' x y := by ext j; exact diff_add _ x.ofLp y.ofLp _
  map_smul' c x := by ext j; exact diff_smul _ c x.ofLp _

theorem cnstA_stk (x : ImE n) : cnstA axes x.ofLp = stk (gradE axes x) := by
  rw [cnstA_eq]
  refine List.ext_getElem (by simp [stk]) fun i h1 h2 => ?_
  simp only [List.getElem_map, stk, List.getElem_ofFn]
  rfl

theorem unstk_stk (v : GradE axes n) : unstk axes (stk v) = v := by
  ext j
  change (stk v).getD j.1 (fun _ => 0) j.2 = v j
  have h : (j.1 : ℕ) < (stk v).length := by simp [stk]
  rw [List.getD_eq_getElem _ _ h]
  have h2 : (stk v)[(j.1 : ℕ)] = fun p => v (j.1, p) := List.getElem_ofFn _
  rw [h2]

theorem cnstAE_eq (x : ImE n) : cnstAE axes x = gradE axes x := by
  unfold cnstAE; rw [cnstA_stk, unstk_stk]

theorem stk_length (v : GradE axes n) : (stk v).length = axes.length := by simp [stk]

theorem subStack_stk (y u : GradE axes n) : subStack (stk y) (stk u) = stk (y - u) := by
  refine List.ext_getElem (by simp [stk, subStack]) fun i h1 h2 => ?_
  simp [stk, subStack]

theorem dotStack_stk (a b : GradE axes n) : dotStack (stk a) (stk b) = ⟪a, b⟫ := by
  have h1 : List.zipWith (fun a b : Img n => ∑ p, a p * b p) (stk a) (stk b) =
      List.ofFn fun i : Fin axes.length => ∑ p, a (i, p) * b (i, p) := by
    refine List.ext_getElem (by simp [stk]) fun i h1 h2 => ?_
    simp [stk]
  unfold dotStack
  rw [h1, List.sum_ofFn, PiLp.inner_apply, Fintype.sum_prod_type]
  exact sum_congr rfl fun i _ => sum_congr rfl fun p _ => by simp [mul_comm]

/-- The transpose of the stacked forward differences. -/
noncomputable def gradTE (v : GradE axes n) : Img n := sumImg (List.zipWith gradTVal axes (stk v))

theorem gradTE_adj (hax : GoodAxes n axes) (v : GradE axes n) (z : ImE n) :
    ∑ p, z p * gradTE v p = ⟪gradE axes z, v⟫ := by
  have h := dotStack_zip axes (fun ax h => by have := hax.2 ax h; omega) (stk v) z.ofLp
  rw [← cnstA_eq, cnstA_stk, dotStack_stk] at h
  exact h.symm

theorem cnstAT_stk (hax : GoodAxes n axes) (v : GradE axes n) : cnstAT axes (stk v) = some (gradTE v) := by
  unfold cnstAT
  rw [gradTerms_eq hax _ (by simp [stk])]
  rfl

theorem cnstATE_eq (hax : GoodAxes n axes) (v : GradE axes n) : cnstATE v = WithLp.toLp 2 (gradTE v) := by
  unfold cnstATE; rw [cnstAT_stk hax]; rfl

theorem gradTE_grad (hax : GoodAxes n axes) (x : ImE n) (p : Pix n) :
    gradTE (gradE axes x) p = lcw axes p * x p - xss axes x.ofLp p := by
  unfold gradTE
  rw [← cnstA_stk, cnstA_eq]
  exact sumImg_gradT_diff hax.2 x.ofLp p

theorem adj_symm (p q : Pix n) : adj axes p q = adj axes q p := by
  classical
  unfold adj
  congr 1
  exact List.map_congr_left fun ax _ => add_comm _ _

/-- The normal equations tested against an image. -/
theorem normal_eq (hax : GoodAxes n axes) (ρ : ℝ) (W2 S : Img n) (v : GradE axes n) (x z : ImE n) :
    ∑ p, ((W2 p + ρ * ∑ q, adj axes p q) * x p - ρ * ∑ q, adj axes p q * x q - (ρ * gradTE v p + W2 p * S p)) * z p =
      ∑ p, W2 p * (x p - S p) * z p + ρ * ⟪gradE axes x - v, gradE axes z⟫ := by
  have h1 : ⟪gradE axes x - v, gradE axes z⟫ = ∑ p, z p * gradTE (gradE axes x) p - ∑ p, z p * gradTE v p := by
    rw [gradTE_adj hax, gradTE_adj hax, ← inner_sub_right, real_inner_comm]
  rw [h1, ← sum_sub_distrib, mul_sum, ← sum_add_distrib]
  refine sum_congr rfl fun p _ => ?_
  rw [gradTE_grad hax, lcw_row hax.2, xss_eq]
  ring

/-! ## The X update of `TVL2Denoise` -/

theorem augLag_stk (S : Img n) (Y U : GradE axes n) (ρ : ℝ) (W2 : Img n) (x : ImE n) :
    augLag axes S (stk Y) (stk U) ρ W2 x.ofLp =
      1 / 2 * ∑ p, W2 p * (x p - S p) ^ 2 + ρ / 2 * ‖gradE axes x - Y + U‖ ^ 2 := by
  have h1 : List.zipWith (fun ax (c : Img n × Img n) => ∑ p, (diff ax x.ofLp p - c.1 p + c.2 p) ^ 2) axes
      ((stk Y).zip (stk U)) = List.ofFn fun i : Fin axes.length =>
        ∑ p, (diff (axes.get i) x.ofLp p - Y (i, p) + U (i, p)) ^ 2 := by
    refine List.ext_getElem (by simp [stk]) fun i h1 h2 => ?_
    simp [stk]
  unfold augLag
  rw [h1, List.sum_ofFn, EuclideanSpace.norm_sq_eq, Fintype.sum_prod_type]
  congr 2
  exact sum_congr rfl fun i _ => sum_congr rfl fun p _ => by rw [Real.norm_eq_abs, sq_abs]; rfl

/-- With `GSTol` at most zero the X update is `MaxGSIter` passes. -/
theorem xstepE_iter (hax : GoodAxes n axes) (P : Par γ n) (hc : Connected axes fun p => P.wd p ^ 2) (S : Img n) (rho : ℝ)
    (hp : 0 < rho) (ht : P.tol ≤ 0) (hm : 0 < P.maxIter) (X : ImE n) (Y U : GradE axes n) (h : Xs) :
    (xstepE P S rho X Y U h).1.ofLp = (jac (adj axes) (fun p => P.wd p ^ 2) rho
      fun p => rho * gradTE (Y - U) p + P.wd p ^ 2 * S p)^[P.maxIter] X.ofLp := by
  have hW : ∀ p, 0 ≤ P.wd p ^ 2 := fun p => sq_nonneg _
  obtain ⟨a, X', k, r, h1, h2, -, h4, h5, h6, h7, h8⟩ := C41_xstep_partial axes hax S X.ofLp (stk Y) (stk U) (stk_length Y)
    (stk_length U) rho hp (fun p => P.wd p ^ 2) hW hc P.tol P.maxIter hm
  obtain ⟨a', h9, x, h10, h11, h12, -⟩ := C41_tvl2_partial axes hax S (stk Y) (stk U) (stk_length Y) (stk_length U)
    rho hp (fun p => P.wd p ^ 2) hW hc
  rw [h1] at h9
  cases h9
  rw [subStack_stk, cnstAT_stk hax] at h1
  cases h1
  have hstep : (fun x => gsStep axes S x (gradTE (Y - U)) rho fun p => P.wd p ^ 2) = jac (adj axes) (fun p => P.wd p ^ 2)
      rho fun p => rho * gradTE (Y - U) p + P.wd p ^ 2 * S p := funext fun x => gsStep_eq hax.2 _ _ _ _ _
  have e : (xstepE P S rho X Y U h).1.ofLp = X' := by unfold xstepE; rw [h2]
  rw [e, ← hstep]
  rcases Nat.lt_or_ge k P.maxIter with hk | hk
  · have hr : r = 0 := le_antisymm ((h7 hk).trans ht) h6
    have hX' : X' = x := h11 X' (h8.1 hr x)
    obtain ⟨l, hl⟩ := Nat.exists_eq_add_of_lt hk
    rw [hl, show k + l + 1 = (l + 1) + k by omega, Function.iterate_add_apply, ← h5]
    exact (Function.iterate_fixed ((h12 X').2 hX') _).symm
  · rw [h5, le_antisymm h4 hk]

/-- The data term. -/
noncomputable def dataE (wd S : Img n) (x : ImE n) : ℝ := 1 / 2 * ∑ p, (wd p * (x p - S p)) ^ 2

theorem dataE_lower (wd S : Img n) (x z : ImE n) :
    dataE wd S x + ∑ p, wd p ^ 2 * (x p - S p) * (z p - x p) ≤ dataE wd S z := by
  unfold dataE
  rw [mul_sum, mul_sum, ← sum_add_distrib]
  exact sum_le_sum fun p _ => by nlinarith [sq_nonneg (wd p * (z p - x p))]

/-- The form of the proximal term, on images as elements of the Euclidean space. -/
noncomputable def liftQ (Q : LinearMap.BilinForm ℝ (Img n)) : LinearMap.BilinForm ℝ (ImE n) :=
  LinearMap.BilinForm.comp Q (WithLp.linearEquiv 2 ℝ (Pix n → ℝ)).toLinearMap (WithLp.linearEquiv 2 ℝ (Pix n → ℝ)).toLinearMap

/-- The X update of `TVL2Denoise` with an even number of passes. -/
theorem xstepE_prox (hax : GoodAxes n axes) (P : Par γ n) (hc : Connected axes fun p => P.wd p ^ 2) (S : Img n) (rho : ℝ)
    (hp : 0 < rho) (ht : P.tol ≤ 0) (j : ℕ) (hj : 0 < j) (hm : P.maxIter = 2 * j) :
    ∃ Q : LinearMap.BilinForm ℝ (ImE n), (∀ a b, Q a b = Q b a) ∧ (∀ a, 0 ≤ Q a a) ∧
      ∀ (X : ImE n) (Y U : GradE axes n) (h : Xs) (z : ImE n),
        let X' := (xstepE P S rho X Y U h).1
        dataE P.wd S X' + rho * ⟪gradE axes X' - Y + U, gradE axes X' - gradE axes z⟫ + Q (X' - X) (X' - z) ≤
          dataE P.wd S z := by
  obtain ⟨Q, hs, h0, hQ⟩ := jac_prox (N := adj (n := n) axes) (W := fun p => P.wd p ^ 2) (ρ := rho) (adj_nonneg axes)
    adj_symm (fun p => sq_nonneg _) hp (anchored hc) j hj
  refine ⟨liftQ Q, fun a b => hs _ _, fun a => h0 _, fun X Y U h z => ?_⟩
  intro X'
  have e1 : X'.ofLp = _ := xstepE_iter hax P hc S rho hp ht (by omega) X Y U h
  rw [hm] at e1
  have h1 := hQ (fun p => rho * gradTE (Y - U) p + P.wd p ^ 2 * S p) X.ofLp (X' - z).ofLp
  rw [← e1] at h1
  have h2 := normal_eq hax rho (fun p => P.wd p ^ 2) S (Y - U) X' (X' - z)
  rw [h2, map_sub] at h1
  have h3 := dataE_lower P.wd S X' z
  have e2 : gradE axes X' - Y + U = gradE axes X' - (Y - U) := by abel
  have e3 : ∑ p, P.wd p ^ 2 * (X' p - S p) * (X' - z).ofLp p = -∑ p, P.wd p ^ 2 * (X' p - S p) * (z p - X' p) := by
    rw [← sum_neg_distrib]
    exact sum_congr rfl fun p _ => by simp only [PiLp.sub_apply]; ring
  have e4 : (X' - z).ofLp = X'.ofLp - z.ofLp := rfl
  rw [e2]
  change _ + Q (X'.ofLp - X.ofLp) (X' - z).ofLp ≤ _
  simp only at h1
  rw [e3] at h1
  linarith

/-! ## The Y update -/

/-- The entries that `prox_l2` treats together. -/
noncomputable def slice (e : Pix n ≃ γ × χ) (v : GradE axes n) (g : γ) : EuclideanSpace ℝ (χ × Fin axes.length) :=
  WithLp.toLp 2 fun q => v (q.2, e.symm (g, q.1))

theorem slice_add (e : Pix n ≃ γ × χ) (x y : GradE axes n) (g : γ) : slice e (x + y) g = slice e x g + slice e y g := rfl

theorem slice_sub (e : Pix n ≃ γ × χ) (x y : GradE axes n) (g : γ) : slice e (x - y) g = slice e x g - slice e y g := rfl

theorem slice_smul (e : Pix n ≃ γ × χ) (c : ℝ) (x : GradE axes n) (g : γ) : slice e (c • x) g = c • slice e x g := rfl

theorem regTv_eq (e : Pix n ≃ γ × χ) (w : γ → ℝ) (v : GradE axes n) : regTv e w v = ∑ g, w g * ‖slice e v g‖ := by
  unfold regTv
  refine sum_congr rfl fun g _ => ?_
  rw [EuclideanSpace.norm_eq, Fintype.sum_prod_type]
  congr 2
  exact sum_congr rfl fun c _ => sum_congr rfl fun i _ => by rw [Real.norm_eq_abs, sq_abs]; rfl

theorem norm_slices (e : Pix n ≃ γ × χ) (v : GradE axes n) : ‖v‖ ^ 2 = ∑ g, ‖slice e v g‖ ^ 2 := by
  rw [EuclideanSpace.norm_sq_eq, Fintype.sum_prod_type]
  have : ∀ g, ‖slice e v g‖ ^ 2 = ∑ c, ∑ i, ‖v (i, e.symm (g, c))‖ ^ 2 := by
    intro g
    rw [EuclideanSpace.norm_sq_eq, Fintype.sum_prod_type]
    rfl
  simp only [this]
  rw [sum_comm, ← Equiv.sum_comp e.symm, Fintype.sum_prod_type]

theorem slice_inj (e : Pix n ≃ γ × χ) {v u : GradE axes n} (h : ∀ g, slice e v g = slice e u g) : v = u := by
  ext ⟨i, p⟩
  have := congrArg (fun s => s ((e p).2, i)) (h (e p).1)
  change v (i, e.symm ((e p).1, (e p).2)) = u (i, e.symm ((e p).1, (e p).2)) at this
  simpa using this

/-- **C40.** The Y update of `TVL2Denoise`, and the gradient block in that of `TVL1Denoise`, give the unique
minimiser of `λ ∑ w ‖z‖₂ + (ρ/2) ‖v - z‖²` over all arrays. -/
theorem C40_tvdenoise_ystep (e : Pix n ≃ γ × χ) (lmbda : ℝ) (hl : 0 ≤ lmbda) (w : γ → ℝ) (hw : ∀ g, 0 ≤ w g) (rho : ℝ)
    (hp : 0 < rho) (v : GradE axes n) :
    IsUniqueMin (fun z => lmbda * (∑ g, w g * Real.sqrt (∑ c, ∑ i, z (i, e.symm (g, c)) ^ 2)) +
      rho / 2 * ‖v - z‖ ^ 2) Set.univ (proxTv e lmbda rho w v) := by
  refine ⟨trivial, fun z _ hne => ?_⟩
  have key := Prox.C17_prox_l2 (σ := γ) (ι := χ × Fin axes.length) (E := ℝ)
    (fun s q => v (q.2, e.symm (s, q.1))) (fun s => lmbda / rho * w s)
    (fun s => mul_nonneg (div_nonneg hl hp.le) (hw _))
  have hval : ∀ z : GradE axes n, lmbda * (∑ g, w g * Real.sqrt (∑ c, ∑ i, z (i, e.symm (g, c)) ^ 2)) +
      rho / 2 * ‖v - z‖ ^ 2 = rho * ∑ s : γ, Prox.proxObj
        (fun y => lmbda / rho * w s * Prox.l2 y) (fun q : χ × Fin axes.length => v (q.2, e.symm (s, q.1)))
        (fun q => z (q.2, e.symm (s, q.1))) := by
    intro z
    have e1 : ∀ y : EuclideanSpace ℝ (χ × Fin axes.length), Prox.l2 y.ofLp = ‖y‖ := by
      intro y; rw [EuclideanSpace.norm_eq]; rfl
    have e2 : ∀ y : EuclideanSpace ℝ (χ × Fin axes.length), Prox.sq y.ofLp = ‖y‖ ^ 2 := by
      intro y; rw [EuclideanSpace.norm_sq_eq]; rfl
    change lmbda * regTv e w z + _ = _
    rw [regTv_eq, norm_slices e, mul_sum, mul_sum univ _ (rho / 2), mul_sum, ← sum_add_distrib]
    refine sum_congr rfl fun s _ => ?_
    have e4 : Prox.proxObj (fun y => lmbda / rho * w s * Prox.l2 y)
        (fun q : χ × Fin axes.length => v (q.2, e.symm (s, q.1))) (fun q => z (q.2, e.symm (s, q.1))) =
        1 / 2 * ‖slice e z s - slice e v s‖ ^ 2 + lmbda / rho * w s * ‖slice e z s‖ := by
      rw [← e2, ← e1]; rfl
    rw [e4, slice_sub, norm_sub_rev]
    field_simp
    ring
  beta_reduce
  rw [hval, hval]
  have hpx : ∀ s, (fun q : χ × Fin axes.length => (proxTv e lmbda rho w v) (q.2, e.symm (s, q.1))) =
      Prox.proxL2 (fun q => v (q.2, e.symm (s, q.1))) (lmbda / rho * w s) := by
    intro s
    funext q
    change Prox.proxL2 (fun q' : χ × Fin axes.length => v (q'.2, e.symm ((e (e.symm (s, q.1))).1, q'.1)))
      (lmbda / rho * w (e (e.symm (s, q.1))).1) ((e (e.symm (s, q.1))).2, q.2) = _
    rw [Equiv.apply_symm_apply]
  simp only [hpx]
  apply mul_lt_mul_of_pos_left _ hp
  refine key.2 (fun s q => z (q.2, e.symm (s, q.1))) trivial fun eq => hne (slice_inj e fun g => ?_)
  ext q
  have h1 := congrFun (congrFun eq g) q
  have h2 := congrFun (hpx g) q
  simp only at h1 h2
  exact h1.trans h2.symm

theorem regTv_convex (e : Pix n ≃ γ × χ) (lmbda : ℝ) (hl : 0 ≤ lmbda) (w : γ → ℝ) (hw : ∀ g, 0 ≤ w g) :
    ConvexOn ℝ Set.univ fun v : GradE axes n => lmbda * regTv e w v := by
  refine ⟨convex_univ, fun x _ y _ s t hs ht _ => ?_⟩
  simp only [smul_eq_mul]
  have key : regTv e w (s • x + t • y) ≤ s * regTv e w x + t * regTv e w y := by
    rw [regTv_eq, regTv_eq, regTv_eq, mul_sum, mul_sum, ← sum_add_distrib]
    refine sum_le_sum fun g _ => ?_
    rw [slice_add, slice_smul, slice_smul]
    have := norm_add_le (s • slice e x g) (t • slice e y g)
    rw [norm_smul, norm_smul, Real.norm_of_nonneg hs, Real.norm_of_nonneg ht] at this
    have := mul_le_mul_of_nonneg_left this (hw g)
    linarith
  have := mul_le_mul_of_nonneg_left key hl
  linarith

theorem regTv_sub (e : Pix n ≃ γ × χ) (w : γ → ℝ) (hw : ∀ g, 0 ≤ w g) (y z : GradE axes n) :
    |regTv e w y - regTv e w z| ≤ regTv e w (y - z) := by
  rw [regTv_eq, regTv_eq, regTv_eq, ← sum_sub_distrib]
  refine (abs_sum_le_sum_abs _ _).trans (sum_le_sum fun g _ => ?_)
  rw [← mul_sub, abs_mul, abs_of_nonneg (hw g), slice_sub]
  exact mul_le_mul_of_nonneg_left (abs_norm_sub_norm_le _ _) (hw g)

theorem continuous_regTv (e : Pix n ≃ γ × χ) (w : γ → ℝ) : Continuous (regTv e w : GradE axes n → ℝ) := by
  have : (regTv e w : GradE axes n → ℝ) = fun v => ∑ g, w g * ‖slice e v g‖ := funext (regTv_eq e w)
  rw [this]
  refine continuous_finsetSum _ fun g _ => (Continuous.norm ?_).const_mul _
  refine (PiLp.continuous_toLp 2 _).comp (continuous_pi fun q => ?_)
  exact (EuclideanSpace.proj (q.2, e.symm (g, q.1))).continuous

theorem regTv_zero (e : Pix n ≃ γ × χ) (w : γ → ℝ) : regTv e w (0 : GradE axes n) = 0 := by
  rw [regTv_eq]
  refine sum_eq_zero fun g _ => ?_
  rw [show slice e (0 : GradE axes n) g = 0 from rfl, norm_zero, mul_zero]

end Sporco.Tv.Den
