import Verif.Tv.DenoiseConv
import Verif.Tv.DeconvL1

/-!
# TV denoising: `TVL1Denoise` (C39, C40, C41, C67)
-/

set_option autoImplicit false
set_option linter.unusedSectionVars false

namespace Sporco.Tv.Den

open Finset Sporco.Admm Filter Topology
open Sporco.Prox (IsUniqueMin l1w proxL1Arr)
open scoped RealInnerProductSpace

variable {D : ℕ} {n : Fin D → ℕ} {γ χ : Type*} [Fintype γ] [Fintype χ] {axes : List (Fin D)}

/-! ## Operators -/

/-- Stacked forward differences and the image. -/
noncomputable def gradE1 (axes : List (Fin D)) : ImE n →ₗ[ℝ] Y1 axes n where
  toFun x := WithLp.toLp 2 (gradE axes x, x)
  map_add' x y := by rw [map_add]; rfl
  map_smul' c x := by rw [map_smul]; rfl

theorem cnstA1E_eq (x : ImE n) : cnstA1E axes x = gradE1 axes x := by
  have h1 : cnstA1 axes x.ofLp = stk (gradE axes x) ++ [x.ofLp] := by unfold cnstA1; rw [cnstA_stk]
  have h2 : unstk axes (stk (gradE axes x) ++ [x.ofLp]) = gradE axes x := by
    ext j
    change (stk (gradE axes x) ++ [x.ofLp]).getD j.1 (fun _ => 0) j.2 = _
    have h : (j.1 : ℕ) < (stk (gradE axes x)).length := by simp [stk]
    rw [List.getD_append _ _ _ _ h]
    exact congrArg (fun v : GradE axes n => v j) (unstk_stk (gradE axes x))
  have h3 : (stk (gradE axes x) ++ [x.ofLp]).getD axes.length (fun _ => 0) = x.ofLp := by
    rw [List.getD_append_right _ _ _ _ (by rw [stk_length]), stk_length]
    simp
  unfold cnstA1E
  rw [h1]
  simp only
  rw [h2, h3]
  rfl

theorem gradTerms_stk1 (hax : GoodAxes n axes) (v : GradE axes n) (c : Img n) :
    gradTerms axes (stk v ++ [c]) = some (List.zipWith gradTVal axes (stk v)) := by
  rw [gradTerms_eq hax _ (by simp [stk])]
  congr 1
  have := List.zipWith_append (f := gradTVal) (l₁ := axes) (l₁' := []) (l₂ := stk v) (l₂' := [c]) (stk_length v).symm
  simpa using this

theorem sumImg_append (l : List (Img n)) (c : Img n) : sumImg (l ++ [c]) = fun p => sumImg l p + c p := by
  funext p; simp [sumImg]

theorem cnstAT1_stk1 (hax : GoodAxes n axes) (v : GradE axes n) (c : Img n) :
    cnstAT1 axes (stk v ++ [c]) = some fun p => gradTE v p + c p := by
  unfold cnstAT1
  rw [gradTerms_stk1 hax]
  simp only [Option.bind_some, List.getLast?_append, List.getLast?_singleton, Option.some_or, Option.map_some]
  rw [sumImg_append]
  rfl

theorem cnstAT1E_eq (hax : GoodAxes n axes) (v : Y1 axes n) :
    cnstAT1E v = WithLp.toLp 2 fun p => gradTE v.fst p + v.snd p := by
  unfold cnstAT1E stk1
  rw [cnstAT1_stk1 hax]
  rfl

theorem inner_gradE1 (hax : GoodAxes n axes) (v : Y1 axes n) (z : ImE n) : ⟪gradE1 axes z, v⟫ = ⟪z, cnstAT1E v⟫ := by
  have h1 : ⟪gradE1 axes z, v⟫ = ⟪gradE axes z, v.fst⟫ + ⟪z, v.snd⟫ := WithLp.prod_inner_apply _ _
  rw [h1, ← gradTE_adj hax, cnstAT1E_eq hax, PiLp.inner_apply, PiLp.inner_apply, ← sum_add_distrib]
  refine sum_congr rfl fun p _ => ?_
  change z p * gradTE v.fst p + v.snd p * z p = (gradTE v.fst p + v.snd p) * z p
  ring

/-! ## The X update -/

/-- A pass of the inner iteration. -/
noncomputable def pass1 (S : Img n) (Y U : Y1 axes n) (x : Img n) : Img n :=
  gsStep axes (fun p => S p + (Y.snd p - U.snd p)) x (gradTE (Y.fst - U.fst)) 1 fun _ => 1

theorem gsStep1_stk (hax : GoodAxes n axes) (S X : Img n) (Y U : Y1 axes n) :
    gsStep1 axes S X (stk1 Y) (stk1 U) = some (pass1 S Y U X) := by
  have hsub : subStack (stk1 Y) (stk1 U) = stk (Y.fst - U.fst) ++ [fun p => Y.snd p - U.snd p] := by
    unfold stk1
    rw [← subStack_stk]
    unfold subStack
    rw [List.zipWith_append (by rw [stk_length, stk_length])]
    rfl
  unfold gsStep1
  rw [hsub]
  simp only [List.getLast?_append, List.getLast?_singleton, Option.some_or, Option.bind_some, List.dropLast_concat]
  rw [cnstAT1_stk1 hax]
  simp only [add_zero, Option.map_some]
  rfl

theorem pass1_jac (hax : GoodAxes n axes) (S : Img n) (Y U : Y1 axes n) :
    pass1 S Y U = jac (adj axes) (fun _ => 1) 1 fun p => 1 * gradTE (Y.fst - U.fst) p +
      1 * (S p + (Y.snd p - U.snd p)) := funext fun _ => gsStep_eq hax.2 _ _ _ _ _

theorem connected_one : Connected (n := n) axes fun _ => 1 := connected_of_pos _ _ fun _ => one_pos

theorem pass1_fix (hax : GoodAxes n axes) (S : Img n) (Y U : Y1 axes n) :
    ∃ x, (∀ x', pass1 S Y U x' = x' ↔ x' = x) ∧
      (∀ x', augLag1 axes S (stk Y.fst) (stk U.fst) Y.snd.ofLp U.snd.ofLp x ≤
        augLag1 axes S (stk Y.fst) (stk U.fst) Y.snd.ofLp U.snd.ofLp x') ∧
      (∀ x', augLag1 axes S (stk Y.fst) (stk U.fst) Y.snd.ofLp U.snd.ofLp x' ≤
        augLag1 axes S (stk Y.fst) (stk U.fst) Y.snd.ofLp U.snd.ofLp x → x' = x) ∧
      ∀ x0 p, Tendsto (fun k => ((pass1 S Y U)^[k] x0) p) atTop (𝓝 (x p)) := by
  obtain ⟨step, x, h1, h2, h3, h4, h5⟩ := C41_tvl1_partial axes hax S (stk Y.fst) (stk U.fst) Y.snd.ofLp U.snd.ofLp
    (stk_length _) (stk_length _)
  have : step = pass1 S Y U := by
    funext x'
    have := h1 x'
    rw [show stk Y.fst ++ [Y.snd.ofLp] = stk1 Y from rfl, show stk U.fst ++ [U.snd.ofLp] = stk1 U from rfl,
      gsStep1_stk hax] at this
    exact (Option.some.inj this).symm
  subst this
  exact ⟨x, h4, h2, h3, h5⟩

/-- **C41, the loop of `TVL1Denoise`.** The x update performs `k` passes of the inner iteration, at most as many as
allowed; if it stops before, the reported relative residual is at most the tolerance; the reported residual is zero
only at the exact minimiser. -/
theorem C41_tvl1_xstep_partial (hax : GoodAxes n axes) (S X : Img n) (Y U : Y1 axes n) (tol : ℝ) (maxIter : ℕ)
    (hm : 0 < maxIter) :
    ∃ (X' : Img n) (k : ℕ) (r : ℝ), xloop1 S Y U tol maxIter X 0 none = some (X', k, some r) ∧ 0 < k ∧ k ≤ maxIter ∧
      X' = (pass1 S Y U)^[k] X ∧ 0 ≤ r ∧ (k < maxIter → r ≤ tol) ∧
      (r = 0 ↔ ∀ x', augLag1 axes S (stk Y.fst) (stk U.fst) Y.snd.ofLp U.snd.ofLp X' ≤
        augLag1 axes S (stk Y.fst) (stk U.fst) Y.snd.ofLp U.snd.ofLp x') := by
  obtain ⟨x, h1, h2, h3, -⟩ := pass1_fix hax S Y U
  have hD := den_pos (adj_nonneg axes) (fun _ => zero_le_one) one_pos (anchored (connected_one (n := n) (axes := axes)))
  have hAA : ∀ X' : Img n, cnstAT1 axes (cnstA1 axes X') = some fun p => lcw axes p * X' p - xss axes X' p + X' p := by
    intro X'
    have := cnstAT1_stk1 hax (gradE axes (WithLp.toLp 2 X')) X'
    rw [← cnstA_stk] at this
    unfold cnstA1
    refine this.trans ?_
    congr 1
    funext p
    rw [gradTE_grad hax]
  have hB : cnstAT1 axes (stk1 (cnstC1 axes S + Y - U)) =
      some fun p => gradTE (Y.fst - U.fst) p + (S p + (Y.snd p - U.snd p)) := by
    have e : cnstC1 axes S + Y - U = WithLp.toLp 2 (Y.fst - U.fst, WithLp.toLp 2 fun p => S p + (Y.snd p - U.snd p)) := by
      have e1 : (cnstC1 axes S + Y - U).fst = Y.fst - U.fst := by
        change (0 : GradE axes n) + Y.fst - U.fst = _
        rw [zero_add]
      have e2 : (cnstC1 axes S + Y - U).snd = WithLp.toLp 2 fun p => S p + (Y.snd p - U.snd p) := by
        ext p
        change S p + Y.snd p - U.snd p = S p + (Y.snd p - U.snd p)
        ring
      rw [← e1, ← e2]; rfl
    rw [e]
    exact cnstAT1_stk1 hax _ _
  let res : Img n → ℝ := fun X' => Linalg.rrs (fun p => lcw axes p * X' p - xss axes X' p + X' p)
    (fun p => gradTE (Y.fst - U.fst) p + (S p + (Y.snd p - U.snd p)))
  have hres0 : ∀ X', res X' = 0 ↔ ∀ x', augLag1 axes S (stk Y.fst) (stk U.fst) Y.snd.ofLp U.snd.ofLp X' ≤
        augLag1 axes S (stk Y.fst) (stk U.fst) Y.snd.ofLp U.snd.ofLp x' := by
    intro X'
    have hmin : (∀ x', augLag1 axes S (stk Y.fst) (stk U.fst) Y.snd.ofLp U.snd.ofLp X' ≤
        augLag1 axes S (stk Y.fst) (stk U.fst) Y.snd.ofLp U.snd.ofLp x') ↔ X' = x :=
      ⟨fun h => h3 X' (h x), fun h => h ▸ h2⟩
    rw [(Linalg.C58_rrs _ _).2, hmin, ← h1 X', pass1_jac hax, funext_iff, funext_iff]
    refine forall_congr' fun p => ?_
    unfold jac
    rw [div_eq_iff (hD p).ne', ← xss_eq, ← lcw_row hax.2]
    constructor <;> intro h <;> linarith
  have hnn : ∀ X', 0 ≤ res X' := fun X' => (Linalg.C58_rrs _ _).1
  have key : ∀ (fuel : ℕ) (X0 : Img n) (k0 : ℕ) (r0 : Option ℝ),
      (∃ r, r0 = some r ∧ r = res X0) ∨ (r0 = none ∧ 0 < fuel) →
      ∃ j r, xloop1 S Y U tol fuel X0 k0 r0 = some ((pass1 S Y U)^[j] X0, k0 + j, some r) ∧ j ≤ fuel ∧
        (r0 = none → 0 < j) ∧ r = res ((pass1 S Y U)^[j] X0) ∧ (j < fuel → r ≤ tol) := by
    intro fuel
    induction fuel with
    | zero =>
      rintro X0 k0 r0 (⟨r, rfl, hr⟩ | ⟨-, h⟩)
      · exact ⟨0, r, rfl, le_rfl, fun h => (by cases h), hr, fun h => absurd h (by omega)⟩
      · omega
    | succ fuel ih =>
      intro X0 k0 r0 hr0
      unfold xloop1
      by_cases hcond : ∀ r', r0 = some r' → tol < r'
      · rw [if_pos hcond, gsStep1_stk hax]
        simp only [Option.bind_some, hAA, hB]
        obtain ⟨j, r, e, hj, -, hr, hs⟩ := ih (pass1 S Y U X0) (k0 + 1)
          (some (res (pass1 S Y U X0))) (Or.inl ⟨_, rfl, rfl⟩)
        refine ⟨j + 1, r, ?_, by omega, fun _ => by omega, by rw [Function.iterate_succ_apply]; exact hr,
          fun h => hs (by omega)⟩
        rw [Function.iterate_succ_apply]
        refine Eq.trans e ?_
        congr 3
        omega
      · rw [if_neg hcond]
        push Not at hcond
        obtain ⟨r', rfl, hr'⟩ := hcond
        obtain ⟨r, hr1, hr2⟩ := hr0.resolve_right (by rintro ⟨h, -⟩; cases h)
        cases hr1
        exact ⟨0, r', rfl, by omega, fun h => (by cases h), hr2, fun _ => hr'⟩
  obtain ⟨j, r, e, hj, hj0, hr, hs⟩ := key maxIter X 0 none (Or.inr ⟨rfl, hm⟩)
  refine ⟨_, j, r, ?_, hj0 rfl, hj, rfl, ?_, hs, ?_⟩
  · rw [e, Nat.zero_add]
  · rw [hr]; exact hnn _
  · rw [hr]; exact hres0 _

/-- With `GSTol` at most zero the X update is `MaxGSIter` passes. -/
theorem xstep1E_iter (hax : GoodAxes n axes) (P : Par γ n) (S : Img n) (rho : ℝ) (ht : P.tol ≤ 0) (hm : 0 < P.maxIter)
    (X : ImE n) (Y U : Y1 axes n) (h : Xs) :
    (xstep1E P S rho X Y U h).1.ofLp = (pass1 S Y U)^[P.maxIter] X.ofLp := by
  obtain ⟨X', k, r, h2, -, h4, h5, h6, h7, h8⟩ := C41_tvl1_xstep_partial hax S X.ofLp Y U P.tol P.maxIter hm
  obtain ⟨x, h12, -, h11, -⟩ := pass1_fix hax S Y U
  have e : (xstep1E P S rho X Y U h).1.ofLp = X' := by unfold xstep1E; rw [h2]
  rw [e]
  rcases Nat.lt_or_ge k P.maxIter with hk | hk
  · have hr : r = 0 := le_antisymm ((h7 hk).trans ht) h6
    have hX' : X' = x := h11 X' (h8.1 hr x)
    obtain ⟨l, hl⟩ := Nat.exists_eq_add_of_lt hk
    rw [hl, show k + l + 1 = (l + 1) + k by omega, Function.iterate_add_apply, ← h5]
    exact (Function.iterate_fixed ((h12 X').2 hX') _).symm
  · rw [h5, le_antisymm h4 hk]

/-- The X update of `TVL1Denoise` with an even number of passes. -/
theorem xstep1E_prox (hax : GoodAxes n axes) (P : Par γ n) (S : Img n) (rho : ℝ) (hp : 0 < rho) (ht : P.tol ≤ 0) (j : ℕ)
    (hj : 0 < j) (hm : P.maxIter = 2 * j) :
    ∃ Q : LinearMap.BilinForm ℝ (ImE n), (∀ a b, Q a b = Q b a) ∧ (∀ a, 0 ≤ Q a a) ∧
      ∀ (X : ImE n) (Y U : Y1 axes n) (h : Xs) (z : ImE n),
        let X' := (xstep1E P S rho X Y U h).1
        rho * ⟪gradE1 axes X' - (Y + cnstC1 axes S) + U, gradE1 axes z⟫ + Q (X' - X) z = 0 := by
  obtain ⟨Q, hs, h0, hQ⟩ := jac_prox (N := adj (n := n) axes) (W := fun _ => 1) (ρ := 1) (adj_nonneg axes)
    adj_symm (fun p => zero_le_one) one_pos (anchored connected_one) j hj
  refine ⟨rho • liftQ Q, fun a b => ?_, fun a => ?_, fun X Y U h z => ?_⟩
  · change rho * _ = rho * _
    congr 1
    exact hs _ _
  · exact mul_nonneg hp.le (h0 _)
  intro X'
  have e1 : X'.ofLp = _ := xstep1E_iter hax P S rho ht (by omega) X Y U h
  rw [hm, pass1_jac hax] at e1
  have h1 := hQ (fun p => 1 * gradTE (Y.fst - U.fst) p + 1 * (S p + (Y.snd p - U.snd p))) X.ofLp z.ofLp
  rw [← e1] at h1
  have h2 := normal_eq hax 1 (fun p => 1) (fun p => S p + (Y.snd p - U.snd p)) (Y.fst - U.fst) X' z
  rw [h2] at h1
  have h3 : ⟪gradE1 axes X' - (Y + cnstC1 axes S) + U, gradE1 axes z⟫ =
      ⟪gradE axes X' - (Y.fst - U.fst), gradE axes z⟫ + ∑ p, 1 * (X' p - (S p + (Y.snd p - U.snd p))) * z p := by
    have e2 : ⟪gradE1 axes X' - (Y + cnstC1 axes S) + U, gradE1 axes z⟫ =
        ⟪gradE axes X' - (Y.fst + 0) + U.fst, gradE axes z⟫ + ⟪X' - (Y.snd + (WithLp.toLp 2 S : ImE n)) + U.snd, z⟫ :=
      WithLp.prod_inner_apply _ _
    rw [e2]
    congr 1
    · congr 1; abel
    · rw [PiLp.inner_apply]
      refine sum_congr rfl fun p _ => ?_
      change z p * (X' p - (Y.snd p + S p) + U.snd p) = _
      ring
  rw [h3]
  change _ + rho * Q (X'.ofLp - X.ofLp) z.ofLp = 0
  have h4 := congrArg (fun t => rho * t) h1
  simp only [mul_zero] at h4
  rw [← h4]
  ring

/-! ## The Y update -/

/-- The l1 block of the Y update. -/
theorem ystep1_l1 (wd : Img n) (hwd : ∀ p, 0 ≤ wd p) (rho : ℝ) (hp : 0 < rho) (v z : ImE n) :
    let y : ImE n := WithLp.toLp 2 (proxL1Arr v.ofLp fun p => 1 / rho * wd p)
    l1w wd y.ofLp + rho / 2 * ‖v - y‖ ^ 2 ≤ l1w wd z.ofLp + rho / 2 * ‖v - z‖ ^ 2 := by
  intro y
  have key := Prox.C15_prox_l1_real v.ofLp (fun p => 1 / rho * wd p) (fun p => mul_nonneg (by positivity) (hwd _))
  have hval : ∀ z : ImE n, l1w wd z.ofLp + rho / 2 * ‖v - z‖ ^ 2 =
      rho * Prox.proxObj (l1w fun p => 1 / rho * wd p) v.ofLp z.ofLp := by
    intro z
    have e1 : l1w (fun p => 1 / rho * wd p) z.ofLp = 1 / rho * l1w wd z.ofLp := by
      unfold l1w
      rw [mul_sum]
      exact sum_congr rfl fun j _ => by rw [mul_assoc]
    have e2 : Prox.sq (z.ofLp - v.ofLp) = ‖v - z‖ ^ 2 := by
      rw [norm_sub_rev, EuclideanSpace.norm_sq_eq]; rfl
    unfold Prox.proxObj
    rw [e1, e2]
    field_simp
    ring
  rw [hval, hval]
  by_cases h : z.ofLp = proxL1Arr v.ofLp fun p => 1 / rho * wd p
  · rw [h]
  · exact mul_le_mul_of_nonneg_left (key.2 z.ofLp trivial h).le hp.le

/-- The regularisation term of `TVL1Denoise`. -/
noncomputable def g1 (e : Pix n ≃ γ × χ) (P : Par γ n) (y : Y1 axes n) : ℝ :=
  P.lmbda * regTv e P.w y.fst + l1w P.wd y.snd.ofLp

theorem g1_convex (e : Pix n ≃ γ × χ) (P : Par γ n) (hl : 0 ≤ P.lmbda) (hw : ∀ g, 0 ≤ P.w g) (hwd : ∀ p, 0 ≤ P.wd p) :
    ConvexOn ℝ Set.univ (g1 e P : Y1 axes n → ℝ) := by
  have h1 := regTv_convex (axes := axes) e P.lmbda hl P.w hw
  have h2 := Bpdn.convex_l1w P.wd hwd Set.univ convex_univ 1 zero_le_one
  simp only [one_mul] at h2
  refine ⟨convex_univ, fun x _ y _ s t hs ht hst => ?_⟩
  have k1 := h1.2 (Set.mem_univ x.fst) (Set.mem_univ y.fst) hs ht hst
  have k2 := h2.2 (Set.mem_univ x.snd) (Set.mem_univ y.snd) hs ht hst
  simp only [smul_eq_mul] at k1 k2 ⊢
  change P.lmbda * regTv e P.w (s • x.fst + t • y.fst) + l1w P.wd (s • x.snd + t • y.snd).ofLp ≤
    s * (P.lmbda * regTv e P.w x.fst + l1w P.wd x.snd.ofLp) + t * (P.lmbda * regTv e P.w y.fst + l1w P.wd y.snd.ofLp)
  linarith

theorem ystep1_min (e : Pix n ≃ γ × χ) (P : Par γ n) (S : Img n) (hl : 0 ≤ P.lmbda) (hw : ∀ g, 0 ≤ P.w g)
    (hwd : ∀ p, 0 ≤ P.wd p) (rho : ℝ) (hp : 0 < rho) (AX : Y1 axes n) (X : ImE n) (Y U : Y1 axes n) (h : Xs)
    (z : Y1 axes n) :
    let Y' := (ystep1E e P S rho AX X Y U h).1
    g1 e P Y' + rho / 2 * ‖AX + U - cnstC1 axes S - Y'‖ ^ 2 ≤ g1 e P z + rho / 2 * ‖AX + U - cnstC1 axes S - z‖ ^ 2 := by
  intro Y'
  have hn : ∀ z : Y1 axes n, ‖AX + U - cnstC1 axes S - z‖ ^ 2 = ‖AX.fst + U.fst - z.fst‖ ^ 2 +
      ‖AX.snd + U.snd - WithLp.toLp 2 S - z.snd‖ ^ 2 := by
    intro z
    rw [WithLp.prod_norm_sq_eq_of_L2]
    congr 1
    change ‖AX.fst + U.fst - 0 - z.fst‖ ^ 2 = _
    rw [sub_zero]
  rw [hn, hn]
  have h1 := C40_tvdenoise_ystep e P.lmbda hl P.w hw rho hp (AX.fst + U.fst)
  have k1 : P.lmbda * regTv e P.w Y'.fst + rho / 2 * ‖AX.fst + U.fst - Y'.fst‖ ^ 2 ≤
      P.lmbda * regTv e P.w z.fst + rho / 2 * ‖AX.fst + U.fst - z.fst‖ ^ 2 := by
    by_cases hz : z.fst = Y'.fst
    · rw [hz]
    · exact (h1.2 z.fst trivial hz).le
  have k2 := ystep1_l1 P.wd hwd rho hp (AX.snd + U.snd - WithLp.toLp 2 S) z.snd
  unfold g1
  have k3 : l1w P.wd Y'.snd.ofLp + rho / 2 * ‖AX.snd + U.snd - WithLp.toLp 2 S - Y'.snd‖ ^ 2 ≤
      l1w P.wd z.snd.ofLp + rho / 2 * ‖AX.snd + U.snd - WithLp.toLp 2 S - z.snd‖ ^ 2 := k2
  linarith

/-! ## Runs -/

/-- The functional of `TVL1Denoise`: `‖W (x - s)‖₁ + λ TV(x)`. -/
noncomputable def tvL1 (axes : List (Fin D)) (e : Pix n ≃ γ × χ) (S wd : Img n) (lmbda : ℝ) (w : γ → ℝ) (x : Img n) : ℝ :=
  ∑ p, wd p * |x p - S p| + lmbda * tv axes e w x

theorem tvL1_eq (e : Pix n ≃ γ × χ) (P : Par γ n) (S : Img n) (x : ImE n) :
    tvL1 axes e S P.wd P.lmbda P.w x.ofLp = 0 + g1 e P (gradE1 axes x - cnstC1 axes S) := by
  have h1 : g1 e P (gradE1 axes x - cnstC1 axes S) = P.lmbda * regTv e P.w (gradE axes x - 0) +
    l1w P.wd (x - (WithLp.toLp 2 S : ImE n)).ofLp := rfl
  rw [h1, sub_zero, zero_add, add_comm]
  rfl

theorem g1_sub (e : Pix n ≃ γ × χ) (P : Par γ n) (hl : 0 ≤ P.lmbda) (hw : ∀ g, 0 ≤ P.w g) (hwd : ∀ p, 0 ≤ P.wd p)
    (y z : Y1 axes n) : |g1 e P y - g1 e P z| ≤ g1 e P (y - z) := by
  have h1 := regTv_sub e P.w hw y.fst z.fst
  have h2 := Dec.l1w_sub P.wd hwd y.snd.ofLp z.snd.ofLp
  have h3 : |P.lmbda * (regTv e P.w y.fst - regTv e P.w z.fst)| ≤ P.lmbda * regTv e P.w (y.fst - z.fst) := by
    rw [abs_mul, abs_of_nonneg hl]
    exact mul_le_mul_of_nonneg_left h1 hl
  have e1 : g1 e P y - g1 e P z = P.lmbda * (regTv e P.w y.fst - regTv e P.w z.fst) +
      (l1w P.wd y.snd.ofLp - l1w P.wd z.snd.ofLp) := by unfold g1; ring
  rw [e1]
  exact (abs_add_le _ _).trans (add_le_add h3 h2)

theorem g1_continuous (e : Pix n ≃ γ × χ) (P : Par γ n) : Continuous (g1 e P : Y1 axes n → ℝ) := by
  have h1 : Continuous fun y : Y1 axes n => y.fst := WithLp.prod_continuous_ofLp 2 _ _ |>.fst
  have h2 : Continuous fun y : Y1 axes n => y.snd := WithLp.prod_continuous_ofLp 2 _ _ |>.snd
  unfold g1
  refine (((continuous_regTv e P.w).comp h1).const_mul _).add ?_
  unfold l1w
  exact continuous_finsetSum _ fun p _ => continuous_const.mul
    (((EuclideanSpace.proj p : ImE n →L[ℝ] ℝ).continuous.comp h2).norm)

theorem g1_zero (e : Pix n ≃ γ × χ) (P : Par γ n) : g1 e P (0 : Y1 axes n) = 0 := by
  have h1 : l1w P.wd (0 : ImE n).ofLp = 0 :=
    sum_eq_zero fun j _ => by change P.wd j * ‖(0 : ℝ)‖ = 0; rw [norm_zero, mul_zero]
  change P.lmbda * regTv e P.w (0 : GradE axes n) + l1w P.wd (0 : ImE n).ofLp = 0
  rw [h1, regTv_zero]; ring

theorem runL1 (hax : GoodAxes n axes) (e : Pix n ≃ γ × χ) (P : Par γ n) (S : Img n) (hl : 0 ≤ P.lmbda)
    (hw : ∀ g, 0 ≤ P.w g) (hwd : ∀ p, 0 ≤ P.wd p) (ht : P.tol ≤ 0) (j : ℕ) (hj : 0 < j)
    (hm : P.maxIter = 2 * j) (o : Opts) (ha : o.autoRho = false) (cb)
    (s : St (ImE n) (Y1 axes n) (Y1 axes n) Xs) (hp : 0 < s.rho) :
    let T := traj (clsL1 axes e P S) o cb s
    ∃ Q : LinearMap.BilinForm ℝ (ImE n), (∀ a b, Q a b = Q b a) ∧ (∀ a, 0 ≤ Q a a) ∧
      (ProxRun (gradE1 axes) Q (fun _ => 0) (fun y => g1 e P (y - cnstC1 axes S)) s.rho o.rlx (fun n => (T n).X)
        (fun n => (T n).Y + cnstC1 axes S) (fun n => (T n).U) ∧
      ∀ n, (T (n + 1)).AXnr = gradE1 axes (T (n + 1)).X ∧ (T (n + 1)).Yprev = (T n).Y) ∧
      ∀ n z, s.rho * ⟪gradE1 axes (T (n + 1)).X - ((T n).Y + cnstC1 axes S) + (T n).U, gradE1 axes z⟫ +
        Q ((T (n + 1)).X - (T n).X) z = 0 := by
  intro T
  obtain ⟨Q, hs, h0, hQ⟩ := xstep1E_prox hax P S s.rho hp ht j hj hm
  refine ⟨Q, hs, h0, ?_, fun k z => ?_⟩
  · refine run_prox (clsL1 axes e P S) (gradE1 axes) (cnstC1 axes S) (fun rlx x y => ?_) (fun _ _ _ => rfl) (fun _ => 0)
      (g1 e P) (g1_convex e P hl hw hwd) Q o ha cb s (fun X Y U h z => ?_)
      (fun AX X Y U h z => ystep1_min e P S hl hw hwd s.rho hp AX X Y U h z)
    · change relaxAX (cnstA1E axes) _ _ _ _ _ = _
      rw [show cnstA1E axes = (gradE1 axes : ImE n → Y1 axes n) from funext cnstA1E_eq]
    · intro X'
      have := hQ X Y U h (X' - z)
      rw [map_sub (gradE1 axes)] at this
      rw [zero_add]
      exact this.le
  · have e1 : (T (k + 1)).X = (xstep1E P S s.rho (T k).X (T k).Y (T k).U (T k).extra).1 := by
      have hT : T (k + 1) = oneIter (clsL1 axes e P S) o cb (T k) := traj_succ _ _ _ _ _
      rw [hT, oneIter_X, show (T k).rho = s.rho from traj_rho _ o ha cb s k]
      rfl
    rw [e1]
    exact hQ _ _ _ _ z

/-- **C39 for `TVL1Denoise`.** As `C39_tvl2denoise_partial`: with the defaults of the class (rho fixed, relaxation
parameter in (0, 2), `GSTol` zero, an even number of inner passes) and any start, the residuals tend to zero and the
functional at the image that `solve()` returns tends to its minimum, if it has one. -/
theorem C39_tvl1denoise_partial (hax : GoodAxes n axes) (e : Pix n ≃ γ × χ) (P : Par γ n) (S : Img n)
    (hl : 0 ≤ P.lmbda) (hw : ∀ g, 0 ≤ P.w g) (hwd : ∀ p, 0 ≤ P.wd p) (ht : P.tol ≤ 0)
    (hm : 0 < P.maxIter ∧ Even P.maxIter) (o : Opts) (ha : o.autoRho = false) (hrlx : 0 < o.rlx ∧ o.rlx < 2) (cb)
    (s : St (ImE n) (Y1 axes n) (Y1 axes n) Xs) (hp : 0 < s.rho) (xs : Img n)
    (hxs : ∀ z, tvL1 axes e S P.wd P.lmbda P.w xs ≤ tvL1 axes e S P.wd P.lmbda P.w z) :
    let C := clsL1 axes e P S
    let T := traj C o cb s
    Tendsto (fun n => C.nrmR (T n).AXnr (T n).Y) atTop (𝓝 0) ∧
    Tendsto (fun n => C.nrmS (T n).rho (T n).Yprev (T n).Y (T n).U) atTop (𝓝 0) ∧
    Tendsto (fun n => tvL1 axes e S P.wd P.lmbda P.w (T n).X.ofLp) atTop (𝓝 (tvL1 axes e S P.wd P.lmbda P.w xs)) := by
  intro C T
  obtain ⟨j, hj⟩ := hm.2
  obtain ⟨Q, hs, h0, ⟨hrun, hst⟩, hx0⟩ := runL1 hax e P S hl hw hwd ht j (by omega) (by omega) o ha cb s hp
  obtain ⟨k1, k2, k3, k4⟩ := run_convergence (g := g1 e P) hrun hs h0 (convexOn_const 0 convex_univ)
    (g1_convex e P hl hw hwd) (g1 e P) (g1_continuous e P).continuousAt (g1_zero e P) (g1_sub e P hl hw hwd) hp
    hrlx.1 hrlx.2 (WithLp.toLp 2 xs) (fun z => by rw [← tvL1_eq, ← tvL1_eq]; exact hxs z.ofLp)
  refine ⟨shift ?_, shift ?_, ?_⟩
  · have h1 := (k1.comp (tendsto_add_atTop_nat 1)).norm
    rw [norm_zero] at h1
    refine h1.congr fun k => ?_
    change _ = ‖(T (k + 1)).AXnr + -(T (k + 1)).Y - cnstC1 axes S‖
    rw [(hst k).1, ← sub_eq_add_neg, sub_sub]
    rfl
  · -- each component of the transpose of U tends to zero
    have hcomp : ∀ z : ImE n, Tendsto (fun k => ⟪(T (k + 1)).U, gradE1 axes z⟫) atTop (𝓝 0) := by
      intro z
      have q1 : Tendsto (fun k => Q ((T (k + 1)).X - (T k).X) z) atTop (𝓝 0) := by
        have q2 : Tendsto (fun k => Real.sqrt (Q ((T (k + 1)).X - (T k).X) ((T (k + 1)).X - (T k).X)) *
            Real.sqrt (Q z z)) atTop (𝓝 0) := by
          have := ((Real.continuous_sqrt.tendsto 0).comp k3).mul_const (Real.sqrt (Q z z))
          rw [Real.sqrt_zero, zero_mul] at this
          exact this
        exact squeeze_zero_norm (fun k => psd_cauchy Q hs h0 _ _) q2
      have q3 : ∀ k, ⟪(T (k + 1)).U, gradE1 axes z⟫ = -(s.rho⁻¹ * Q ((T (k + 1)).X - (T k).X) z) +
          ⟪(o.rlx - 1) • (gradE1 axes (T (k + 1)).X - ((T (k + 1)).Y + cnstC1 axes S)) +
            (o.rlx - 2) • (((T (k + 1)).Y + cnstC1 axes S) - ((T k).Y + cnstC1 axes S)), gradE1 axes z⟫ := by
        intro k
        have h1 := hx0 k z
        have h2 := hrun.u k
        have h3 : ⟪gradE1 axes (T (k + 1)).X - ((T k).Y + cnstC1 axes S) + (T k).U, gradE1 axes z⟫ =
            -(s.rho⁻¹ * Q ((T (k + 1)).X - (T k).X) z) := by
          rw [eq_neg_iff_add_eq_zero]
          have h5 : s.rho⁻¹ * (s.rho * ⟪gradE1 axes (T (k + 1)).X - ((T k).Y + cnstC1 axes S) + (T k).U, gradE1 axes z⟫ +
            Q ((T (k + 1)).X - (T k).X) z) = 0 := by rw [h1, mul_zero]
          rw [mul_add, inv_mul_cancel_left₀ hp.ne'] at h5
          exact h5
        have h4 : (T (k + 1)).U = (gradE1 axes (T (k + 1)).X - ((T k).Y + cnstC1 axes S) + (T k).U) +
            ((o.rlx - 1) • (gradE1 axes (T (k + 1)).X - ((T (k + 1)).Y + cnstC1 axes S)) +
            (o.rlx - 2) • (((T (k + 1)).Y + cnstC1 axes S) - ((T k).Y + cnstC1 axes S))) := by
          rw [show (T (k + 1)).U = _ from h2]; module
        rw [← h3, ← inner_add_left, ← h4]
      have q5 : Tendsto (fun k => (o.rlx - 1) • (gradE1 axes (T (k + 1)).X - ((T (k + 1)).Y + cnstC1 axes S)) +
            (o.rlx - 2) • (((T (k + 1)).Y + cnstC1 axes S) - ((T k).Y + cnstC1 axes S))) atTop (𝓝 0) := by
        have := ((k1.comp (tendsto_add_atTop_nat 1)).const_smul (o.rlx - 1)).add (k2.const_smul (o.rlx - 2))
        rw [smul_zero, smul_zero, add_zero] at this
        exact this
      have q6 := (q1.const_mul s.rho⁻¹).neg.add (Filter.Tendsto.inner (𝕜 := ℝ) q5
        (tendsto_const_nhds (x := gradE1 axes z)))
      rw [inner_zero_left, mul_zero, neg_zero, add_zero] at q6
      exact q6.congr fun k => (q3 k).symm
    have hAT : Tendsto (fun k => cnstAT1E (T (k + 1)).U) atTop (𝓝 (0 : ImE n)) := by
      have h1 : ∀ p, Tendsto (fun k => cnstAT1E (T (k + 1)).U p) atTop (𝓝 0) := by
        intro p
        classical
        refine (hcomp (EuclideanSpace.single p (1 : ℝ))).congr fun k => ?_
        rw [real_inner_comm, inner_gradE1 hax, EuclideanSpace.inner_single_left]
        simp
      have h2 : Tendsto (fun k => (cnstAT1E (T (k + 1)).U).ofLp) atTop (𝓝 (0 : Pix n → ℝ)) := tendsto_pi_nhds.2 h1
      exact ((PiLp.continuous_toLp 2 _).tendsto _).comp h2
    have h1 := (hAT.norm.const_mul s.rho).norm
    rw [norm_zero, mul_zero, norm_zero] at h1
    refine h1.congr fun k => ?_
    change _ = ‖(T (k + 1)).rho * ‖cnstAT1E (T (k + 1)).U‖‖
    rw [show (T (k + 1)).rho = s.rho from traj_rho _ o ha cb s (k + 1)]
  · rw [← tvL1_eq] at k4
    refine k4.congr fun k => ?_
    rw [← tvL1_eq]

/-- A minimiser exists if the data weights are positive. -/
theorem exists_minL1 (e : Pix n ≃ γ × χ) (P : Par γ n) (S : Img n) (hwd : ∀ p, 0 < P.wd p) (hl : 0 ≤ P.lmbda)
    (hw : ∀ g, 0 ≤ P.w g) : ∃ xs : Img n, ∀ z, tvL1 axes e S P.wd P.lmbda P.w xs ≤ tvL1 axes e S P.wd P.lmbda P.w z := by
  obtain ⟨c, hc, hcw⟩ := Dec.min_weight P.wd hwd
  obtain ⟨x, hx⟩ := Dec.exists_min_of_growth (fun x : ImE n => tvL1 axes e S P.wd P.lmbda P.w x.ofLp) (by
      simp only [tvL1_eq, zero_add]
      exact (g1_continuous e P).comp
        ((LinearMap.continuous_of_finiteDimensional (gradE1 (n := n) axes)).sub continuous_const))
    (fun M => ‖(WithLp.toLp 2 S : ImE n)‖ + M / c) (fun x M hM => by
      have h1 : tvL1 axes e S P.wd P.lmbda P.w x.ofLp = ∑ p, P.wd p * |x p - S p| +
        P.lmbda * regTv e P.w (gradE axes x) := rfl
      have h2 := mul_nonneg hl (regTv_nonneg e P.w hw (gradE axes x))
      have n1 : ‖x - WithLp.toLp 2 S‖ ≤ ∑ p, |x p - S p| := by
        refine le_of_sq_le_sq ?_ (sum_nonneg fun _ _ => abs_nonneg _)
        rw [EuclideanSpace.norm_sq_eq, sq (∑ j, _), sum_mul]
        refine sum_le_sum fun p hp => ?_
        rw [sq]
        exact mul_le_mul_of_nonneg_left (single_le_sum (f := fun p => |x p - S p|) (fun _ _ => abs_nonneg _) hp)
          (abs_nonneg _)
      have h3 : c * ∑ p, |x p - S p| ≤ ∑ p, P.wd p * |x p - S p| := by
        rw [mul_sum]
        exact sum_le_sum fun p _ => mul_le_mul_of_nonneg_right (hcw p) (abs_nonneg _)
      have h4 : ‖x - WithLp.toLp 2 S‖ ≤ M / c := by
        rw [le_div_iff₀ hc]
        have := mul_le_mul_of_nonneg_left n1 hc.le
        simp only at hM
        linarith
      have h6 := norm_add_le (WithLp.toLp 2 S : ImE n) (x - WithLp.toLp 2 S)
      rw [add_sub_cancel] at h6
      linarith)
  exact ⟨x.ofLp, fun z => hx (WithLp.toLp 2 z)⟩

/-- **C67 for `TVL1Denoise`.** As `C67_tvl2denoise_partial`, with positive data weights. -/
theorem C67_tvl1denoise_partial (hax : GoodAxes n axes) (e : Pix n ≃ γ × χ) (P : Par γ n) (S : Img n)
    (hl : 0 ≤ P.lmbda) (hw : ∀ g, 0 ≤ P.w g) (hwd : ∀ p, 0 < P.wd p) (ht : P.tol ≤ 0)
    (hm : 0 < P.maxIter ∧ Even P.maxIter) (o : Opts) (ha : o.autoRho = false) (hrlx : 0 < o.rlx ∧ o.rlx < 2) (cb)
    (s : St (ImE n) (Y1 axes n) (Y1 axes n) Xs) (hp : 0 < s.rho) :
    ∃ xs, (∀ z, tvL1 axes e S P.wd P.lmbda P.w xs ≤ tvL1 axes e S P.wd P.lmbda P.w z) ∧
      Tendsto (fun n => tvL1 axes e S P.wd P.lmbda P.w (traj (clsL1 axes e P S) o cb s n).X.ofLp) atTop
        (𝓝 (tvL1 axes e S P.wd P.lmbda P.w xs)) := by
  obtain ⟨xs, hxs⟩ := exists_minL1 (axes := axes) e P S hwd hl hw
  exact ⟨xs, hxs, (C39_tvl1denoise_partial hax e P S hl hw (fun p => (hwd p).le) ht hm o ha hrlx cb s hp xs hxs).2.2⟩

/-- **C40.** The values that `TVL1Denoise` records in an iteration are those of its functional at the new image, or with
both terms evaluated at Y if `gEvalY` is set. -/
theorem C40_tvl1denoise_recorded (e : Pix n ≃ γ × χ) (P : Par γ n) (S : Img n) (hwd : ∀ p, 0 ≤ P.wd p) (o : Opts)
    (s : St (ImE n) (Y1 axes n) (Y1 axes n) Xs) :
    let C := clsL1 axes e P S
    let t := steps C o s
    let dfdX := ∑ p, P.wd p * |t.X p - S p|
    let dfdY := ∑ p, P.wd p * |t.Y.snd p|
    let regY := ∑ g, P.w g * Real.sqrt (∑ c, ∑ i, t.Y.fst (i, e.symm (g, c)) ^ 2)
    C.objfn t.X t.Y t.extra = if P.gEvalY then (dfdY + P.lmbda * regY, dfdY, regY)
      else (tvL1 axes e S P.wd P.lmbda P.w t.X.ofLp, dfdX, tv axes e P.w t.X.ofLp) := by
  intro C t dfdX dfdY regY
  change objfn1E e P S t.X t.Y t.extra = _
  unfold objfn1E
  rw [cnstA1E_eq]
  have hab : ∀ v : ImE n, ∑ p, |P.wd p * v p| = ∑ p, P.wd p * |v p| :=
    fun v => sum_congr rfl fun p _ => by rw [abs_mul, abs_of_nonneg (hwd p)]
  simp only [hab]
  have h1 : (gradE1 axes t.X - cnstC1 axes S).fst = gradE axes t.X := by
    change gradE axes t.X - 0 = _
    rw [sub_zero]
  cases P.gEvalY
  · simp only [Bool.false_eq_true, if_false]
    rw [h1]
    rfl
  · rfl

theorem cnstAT1E_adjoint (hax : GoodAxes n axes) (v : Y1 axes n) :
    cnstAT1E v = LinearMap.adjoint (gradE1 axes : ImE n →ₗ[ℝ] Y1 axes n) v := by
  refine ext_inner_left ℝ fun z => ?_
  rw [LinearMap.adjoint_inner_right, inner_gradE1 hax]

/-- **C37.** The dual residual that `TVL1Denoise` records is the norm of `ρ Aᵀ u`.  Without relaxation it differs from
that of the generic class by at most `ρ` times the residual with which the inner iteration stopped, hence not at all
if the X update is exact.  `X` is the image the X update returned and `Y'` the result of the Y update.  The
normalisation is `ρ ‖u‖`. -/
theorem C37_tvl1denoise_dual_partial (hax : GoodAxes n axes) (e : Pix n ≃ γ × χ) (P : Par γ n) (S : Img n) (rho : ℝ)
    (hp : 0 < rho) (X : ImE n) (Y U Y' : Y1 axes n) :
    let C := clsL1 axes e P S
    let U' := C.ustep (C.relax 1 X Y).1 Y' U
    (∀ (x : ImE n) (y : Y1 axes n), ⟪cnstA1E axes x, y⟫ = ⟪x, cnstAT1E y⟫) ∧
    C.nrmS rho Y Y' U' = rho * ‖cnstAT1E U'‖ ∧
    |C.nrmS rho Y Y' U' - ‖rsdlS cnstAT1E (fun y => -y) rho Y Y'‖| ≤
      rho * ‖cnstAT1E (cnstA1E axes X) - cnstAT1E (cnstC1 axes S + Y - U)‖ ∧
    C.rsdlSn rho U' = rho * ‖U'‖ := by
  intro C U'
  have hn : C.nrmS rho Y Y' U' = rho * ‖cnstAT1E U'‖ := by
    change ‖rho * ‖cnstAT1E U'‖‖ = _
    rw [norm_mul, norm_norm, Real.norm_of_nonneg hp.le]
  refine ⟨fun x y => by rw [cnstA1E_eq, inner_gradE1 hax], hn, ?_, rfl⟩
  rw [hn]
  have hU : U' = U + (cnstA1E axes X - Y' - cnstC1 axes S) := by
    change Admm.ustep (fun y => -y) (cnstC1 axes S) (Admm.relaxAX (cnstA1E axes) (fun y => -y) (cnstC1 axes S) 1 X Y).1 Y' U
      = _
    unfold Admm.ustep Admm.relaxAX Admm.rsdlR
    simp [sub_eq_add_neg]
  have h1 : rho * ‖cnstAT1E U'‖ = ‖rho • cnstAT1E U'‖ := by rw [norm_smul, Real.norm_of_nonneg hp.le]
  rw [h1]
  refine (abs_norm_sub_norm_le _ _).trans (le_of_eq ?_)
  have h2 : rho • cnstAT1E U' - rsdlS cnstAT1E (fun y => -y) rho Y Y' =
      rho • (cnstAT1E (cnstA1E axes X) - cnstAT1E (cnstC1 axes S + Y - U)) := by
    unfold rsdlS
    rw [← smul_sub]
    congr 1
    simp only [cnstAT1E_adjoint hax]
    rw [← map_sub, ← map_sub, hU]
    congr 1
    abel
  rw [h2, norm_smul, Real.norm_of_nonneg hp.le]

end Sporco.Tv.Den
