import Verif.Tv.DenoiseL1

/-!
# TV denoising: any number of inner passes (C41, C67)

Each pass of the inner iteration lowers the function that the X update should minimise.  Whatever the number of passes
and the inner tolerance, if the iterates converge then the limit is a minimiser of the functional.
-/

set_option autoImplicit false
set_option linter.unusedSectionVars false

namespace Sporco.Tv.Den

open Finset Sporco.Admm Filter Topology
open Sporco.Prox (l1w)
open scoped RealInnerProductSpace

variable {D : ℕ} {n : Fin D → ℕ} {γ χ : Type*} [Fintype γ] [Fintype χ] {axes : List (Fin D)}

/-! ## Descent -/

section

variable {I : Type*} [Fintype I] {N : I → I → ℝ} {W : I → ℝ} {ρ : ℝ}

theorem jac_sub (b x y : I → ℝ) : jac N W ρ b x - jac N W ρ b y = jacL N W ρ (x - y) := by
  rw [map_sub]
  funext i
  change jac N W ρ b x i - jac N W ρ b y i = jac N W ρ 0 x i - jac N W ρ 0 y i
  simp only [jac, Pi.zero_apply]
  ring

theorem energy_eq (hD : ∀ i, 0 < W i + ρ * ∑ j, N i j) (c : I → ℝ) :
    energy N W ρ c = ∑ i, ((W i + ρ * ∑ j, N i j) * c i - ρ * ∑ j, N i j * c j) * c i := by
  unfold energy
  rw [ipD_sub]
  unfold ipD
  rw [← sum_sub_distrib]
  refine sum_congr rfl fun i _ => ?_
  rw [dia_jacL hD]
  unfold dia
  ring

theorem jac_normal (hD : ∀ i, 0 < W i + ρ * ∑ j, N i j) {b x : I → ℝ} (h : jac N W ρ b x = x) (i : I) :
    (W i + ρ * ∑ j, N i j) * x i - ρ * ∑ j, N i j * x j - b i = 0 := by
  have := congrFun h i
  unfold jac at this
  rw [div_eq_iff (hD i).ne'] at this
  linarith

theorem jac_fix_of_iter (hN : ∀ i j, 0 ≤ N i j) (hW : ∀ i, 0 ≤ W i) (hρ : 0 < ρ) (hA : Anchored N W) {b x : I → ℝ}
    {m : ℕ} (hm : 0 < m) (h : (jac N W ρ b)^[m] x = x) : jac N W ρ b x = x := by
  obtain ⟨y, hy, -, hl⟩ := jacobi hN hW hρ hA b
  have h1 : ∀ k, (jac N W ρ b)^[m * k] x = x := fun k => by
    rw [Function.iterate_mul]; exact Function.iterate_fixed h k
  have h2 : x = y := by
    funext i
    have h3 := (hl x i).comp (tendsto_id.const_mul_atTop' (r := m) hm)
    have h4 : (fun k => ((jac N W ρ b)^[k] x) i) ∘ (fun k => m * id k) = fun _ => x i := by
      funext k; simp only [Function.comp, id, h1]
    rw [h4] at h3
    exact tendsto_nhds_unique tendsto_const_nhds h3
  rw [h2, hy]

theorem jac_tendsto {β : Type*} {l : Filter β} {b x : β → I → ℝ} {b0 x0 : I → ℝ} (hb : Tendsto b l (𝓝 b0))
    (hx : Tendsto x l (𝓝 x0)) (m : ℕ) : Tendsto (fun k => (jac N W ρ (b k))^[m] (x k)) l (𝓝 ((jac N W ρ b0)^[m] x0)) := by
  induction m with
  | zero => exact hx
  | succ m ih =>
    simp only [Function.iterate_succ_apply']
    refine tendsto_pi_nhds.2 fun i => ?_
    unfold jac at ih ⊢
    refine Tendsto.div_const (Tendsto.add (Tendsto.const_mul _ (tendsto_finsetSum _ fun j _ => ?_)) (tendsto_pi_nhds.1 hb i)) _
    exact (tendsto_pi_nhds.1 ih j).const_mul _

/-- If each step is some number of passes between 1 and `M` and the steps converge, the limit is a fixed point. -/
theorem jac_limit (hN : ∀ i j, 0 ≤ N i j) (hW : ∀ i, 0 ≤ W i) (hρ : 0 < ρ) (hA : Anchored N W) (M : ℕ)
    {b x : ℕ → I → ℝ} {b0 x0 : I → ℝ} (hb : Tendsto b atTop (𝓝 b0)) (hx : Tendsto x atTop (𝓝 x0))
    (h : ∀ k, ∃ m, 0 < m ∧ m ≤ M ∧ x (k + 1) = (jac N W ρ (b k))^[m] (x k)) : jac N W ρ b0 x0 = x0 := by
  have h1 : Tendsto (fun k => ∏ m ∈ Icc 1 M, ‖x (k + 1) - (jac N W ρ (b k))^[m] (x k)‖) atTop
      (𝓝 (∏ m ∈ Icc 1 M, ‖x0 - (jac N W ρ b0)^[m] x0‖)) :=
    tendsto_finsetProd _ fun m _ => ((hx.comp (tendsto_add_atTop_nat 1)).sub (jac_tendsto hb hx m)).norm
  have h2 : ∀ k, ∏ m ∈ Icc 1 M, ‖x (k + 1) - (jac N W ρ (b k))^[m] (x k)‖ = 0 := by
    intro k
    obtain ⟨m, hm1, hm2, hm⟩ := h k
    exact prod_eq_zero (mem_Icc.2 ⟨hm1, hm2⟩) (by rw [← hm, sub_self, norm_zero])
  simp only [h2] at h1
  have h3 := tendsto_nhds_unique h1 tendsto_const_nhds
  obtain ⟨m, hm, hm0⟩ := prod_eq_zero_iff.1 h3
  exact jac_fix_of_iter hN hW hρ hA (mem_Icc.1 hm).1 (sub_eq_zero.1 (norm_eq_zero.1 hm0)).symm

end

/-- The function of the X update around the fixed point of the passes. -/
theorem augLag_expand (hax : GoodAxes n axes) (S : Img n) (Y U : GradE axes n) (rho : ℝ) (hp : 0 < rho) (W2 : Img n)
    (hW : ∀ p, 0 ≤ W2 p) (hc : Connected axes W2) (xs : Img n)
    (hxs : jac (adj axes) W2 rho (fun p => rho * gradTE (Y - U) p + W2 p * S p) xs = xs) (x : Img n) :
    augLag axes S (stk Y) (stk U) rho W2 x =
      augLag axes S (stk Y) (stk U) rho W2 xs + 1 / 2 * energy (adj axes) W2 rho (x - xs) := by
  have hD := den_pos (adj_nonneg axes) hW hp (anchored hc)
  let d : ImE n := WithLp.toLp 2 (x - xs)
  let xe : ImE n := WithLp.toLp 2 xs
  have h1 := normal_eq hax rho W2 S (Y - U) xe d
  have h2 : ∑ p, ((W2 p + rho * ∑ q, adj axes p q) * xe p - rho * ∑ q, adj axes p q * xe q -
      (rho * gradTE (Y - U) p + W2 p * S p)) * d p = 0 :=
    sum_eq_zero fun p _ => by rw [show xe.ofLp = xs from rfl, jac_normal hD hxs p, zero_mul]
  rw [h2] at h1
  have h3 := normal_eq hax rho W2 0 (0 : GradE axes n) d d
  have h4 : ∑ p, ((W2 p + rho * ∑ q, adj axes p q) * d p - rho * ∑ q, adj axes p q * d q -
      (rho * gradTE (0 : GradE axes n) p + W2 p * (0 : Img n) p)) * d p = energy (adj axes) W2 rho (x - xs) := by
    rw [energy_eq hD]
    refine sum_congr rfl fun p _ => ?_
    have h5 : gradTE (0 : GradE axes n) p = 0 := by
      have := gradTE_grad hax (0 : ImE n) p
      rw [map_zero] at this
      rw [this, xss_eq]
      simp
    rw [h5]
    change ((W2 p + rho * ∑ q, adj axes p q) * (x - xs) p - rho * ∑ q, adj axes p q * (x - xs) q -
      (rho * 0 + W2 p * 0)) * (x - xs) p = _
    ring
  rw [h4, sub_zero] at h3
  have e1 : x = (xe + d).ofLp := by
    funext p
    change x p = xs p + (x p - xs p)
    ring
  have e2 := augLag_stk S Y U rho W2 (xe + d)
  rw [← e1] at e2
  rw [e2, show xs = xe.ofLp from rfl, augLag_stk, h3]
  have e3 : ‖gradE axes (xe + d) - Y + U‖ ^ 2 = ‖gradE axes xe - Y + U‖ ^ 2 +
      2 * ⟪gradE axes xe - (Y - U), gradE axes d⟫ + ⟪gradE axes d, gradE axes d⟫ := by
    have : gradE axes (xe + d) - Y + U = (gradE axes xe - Y + U) + gradE axes d := by rw [map_add]; abel
    rw [this, norm_add_sq_real, real_inner_self_eq_norm_sq, show gradE axes xe - Y + U = gradE axes xe - (Y - U) by abel]
  have e4 : ∑ p, W2 p * ((xe + d) p - S p) ^ 2 = ∑ p, W2 p * (xe p - S p) ^ 2 + 2 * ∑ p, W2 p * (xe p - S p) * d p +
      ∑ p, W2 p * (d p - (0 : Img n) p) * d p := by
    rw [mul_sum, ← sum_add_distrib, ← sum_add_distrib]
    refine sum_congr rfl fun p _ => ?_
    change W2 p * (xe p + d p - S p) ^ 2 = W2 p * (xe p - S p) ^ 2 + 2 * (W2 p * (xe p - S p) * d p) + W2 p * (d p - 0) * d p
    ring
  rw [← e1] at e4
  rw [e3, e4]
  linarith

theorem augLag_descent (hax : GoodAxes n axes) (S : Img n) (Y U : GradE axes n) (rho : ℝ) (hp : 0 < rho) (W2 : Img n)
    (hW : ∀ p, 0 ≤ W2 p) (hc : Connected axes W2) (x : Img n) :
    augLag axes S (stk Y) (stk U) rho W2 (gsStep axes S x (gradTE (Y - U)) rho W2) ≤
      augLag axes S (stk Y) (stk U) rho W2 x := by
  have hD := den_pos (adj_nonneg axes) hW hp (anchored hc)
  obtain ⟨xs, hxs, -, -⟩ := jacobi (adj_nonneg axes) hW hp (anchored hc) (fun p => rho * gradTE (Y - U) p + W2 p * S p)
  rw [augLag_expand hax S Y U rho hp W2 hW hc xs hxs, augLag_expand hax S Y U rho hp W2 hW hc xs hxs x]
  have e1 : gsStep axes S x (gradTE (Y - U)) rho W2 =
      jac (adj axes) W2 rho (fun p => rho * gradTE (Y - U) p + W2 p * S p) x := gsStep_eq hax.2 _ _ _ _ _
  have e2 : gsStep axes S x (gradTE (Y - U)) rho W2 - xs = jacL (adj axes) W2 rho (x - xs) := by
    rw [← jac_sub (fun p => rho * gradTE (Y - U) p + W2 p * S p), hxs, e1]
  rw [e2]
  have := energy_jac (adj_nonneg axes) adj_symm hW hp.le hD (x - xs)
  linarith

/-- **C41, descent.** Whatever `MaxGSIter` and `GSTol`, the X update of `TVL2Denoise` does not increase the function that
it should minimise. -/
theorem C41_tvl2_descent (hax : GoodAxes n axes) (P : Par γ n) (hc : Connected axes fun p => P.wd p ^ 2) (S : Img n)
    (rho : ℝ) (hp : 0 < rho) (X : ImE n) (Y U : GradE axes n) (h : Xs) :
    augLag axes S (stk Y) (stk U) rho (fun p => P.wd p ^ 2) (xstepE P S rho X Y U h).1.ofLp ≤
      augLag axes S (stk Y) (stk U) rho (fun p => P.wd p ^ 2) X.ofLp := by
  have hW : ∀ p, 0 ≤ P.wd p ^ 2 := fun p => sq_nonneg _
  rcases Nat.eq_zero_or_pos P.maxIter with hm | hm
  · have : xstepE P S rho X Y U h = (X, 0, none) := by
      unfold xstepE xstep
      rw [hm]
      rfl
    rw [this]
  obtain ⟨a, X', k, r, h1, h2, -, -, h5, -⟩ := C41_xstep_partial axes hax S X.ofLp (stk Y) (stk U) (stk_length Y)
    (stk_length U) rho hp (fun p => P.wd p ^ 2) hW hc P.tol P.maxIter hm
  rw [subStack_stk, cnstAT_stk hax] at h1
  cases h1
  have e : (xstepE P S rho X Y U h).1.ofLp = X' := by unfold xstepE; rw [h2]
  rw [e, h5]
  clear h5 h2 e
  induction k with
  | zero => exact le_rfl
  | succ k ih =>
    rw [Function.iterate_succ_apply']
    exact (augLag_descent hax S Y U rho hp _ hW hc _).trans ih

theorem augLag1_eq (S : Img n) (Y U : Y1 axes n) (x : Img n) :
    augLag1 axes S (stk Y.fst) (stk U.fst) Y.snd.ofLp U.snd.ofLp x =
      augLag axes (fun p => S p + (Y.snd p - U.snd p)) (stk Y.fst) (stk U.fst) 1 (fun _ => 1) x := by
  unfold augLag1 augLag
  have : ∑ p, (x p - S p - Y.snd p + U.snd p) ^ 2 = ∑ p, 1 * (x p - (S p + (Y.snd p - U.snd p))) ^ 2 :=
    sum_congr rfl fun p _ => by ring
  rw [this]
  ring

/-- **C41, descent.** The same for `TVL1Denoise`. -/
theorem C41_tvl1_descent (hax : GoodAxes n axes) (P : Par γ n) (S : Img n) (rho : ℝ) (X : ImE n) (Y U : Y1 axes n)
    (h : Xs) :
    augLag1 axes S (stk Y.fst) (stk U.fst) Y.snd.ofLp U.snd.ofLp (xstep1E P S rho X Y U h).1.ofLp ≤
      augLag1 axes S (stk Y.fst) (stk U.fst) Y.snd.ofLp U.snd.ofLp X.ofLp := by
  rcases Nat.eq_zero_or_pos P.maxIter with hm | hm
  · have : xstep1E P S rho X Y U h = (X, 0, none) := by
      unfold xstep1E
      rw [hm]
      rfl
    rw [this]
  obtain ⟨X', k, r, h2, -, -, h5, -⟩ := C41_tvl1_xstep_partial hax S X.ofLp Y U P.tol P.maxIter hm
  have e : (xstep1E P S rho X Y U h).1.ofLp = X' := by unfold xstep1E; rw [h2]
  rw [e, h5]
  clear h5 h2 e
  induction k with
  | zero => exact le_rfl
  | succ k ih =>
    rw [Function.iterate_succ_apply']
    refine le_trans ?_ ih
    rw [augLag1_eq, augLag1_eq]
    exact augLag_descent hax _ Y.fst U.fst 1 one_pos _ (fun _ => zero_le_one) connected_one _

/-! ## Limits -/

section

variable {E F H : Type*} [NormedAddCommGroup E] [InnerProductSpace ℝ E] [NormedAddCommGroup F] [InnerProductSpace ℝ F]

/-- A limit of the iterates minimises the functional, if it satisfies the condition of the X update. -/
theorem run_limit (C : Cls E F F H) (A : E →ₗ[ℝ] F) (hA : Continuous A) (c : F)
    (hrel : ∀ rlx x y, C.relax rlx x y = relaxAX A (fun y => -y) c rlx x y)
    (hu : ∀ ax y u, C.ustep ax y u = Admm.ustep (fun y => -y) c ax y u) (f : E → ℝ) (g : F → ℝ)
    (hg : ConvexOn ℝ Set.univ g) (hgc : Continuous g) (o : Opts) (ha : o.autoRho = false) (hrlx : o.rlx ≠ 0) (cb)
    (s : St E F F H)
    (hY : ∀ AX X Y U h z, let Y' := (C.ystep s.rho AX X Y U h).1
      g Y' + s.rho / 2 * ‖AX + U - c - Y'‖ ^ 2 ≤ g z + s.rho / 2 * ‖AX + U - c - z‖ ^ 2) (x : E) (y u : F) :
    let T := traj C o cb s
    Tendsto (fun k => (T k).X) atTop (𝓝 x) → Tendsto (fun k => (T k).Y) atTop (𝓝 y) →
    Tendsto (fun k => (T k).U) atTop (𝓝 u) →
    A x = y + c ∧ ((∀ z, f x + s.rho * ⟪A x - (y + c) + u, A x - A z⟫ ≤ f z) →
      ∀ z, f x + g (A x - c) ≤ f z + g (A z - c)) := by
  intro T hx hy hU
  have hrho : ∀ n, (T n).rho = s.rho := traj_rho C o ha cb s
  have hT : ∀ n, T (n + 1) = oneIter C o cb (T n) := fun n => traj_succ _ _ _ _ _
  have hrl : ∀ x y, (C.relax o.rlx x y).1 = o.rlx • A x + (1 - o.rlx) • (y + c) := by
    intro x y
    rw [hrel]
    unfold relaxAX
    split_ifs with h
    · rw [h]; module
    · module
  have hUn : ∀ n, (T (n + 1)).U = (T n).U + (o.rlx • A (T (n + 1)).X + (1 - o.rlx) • ((T n).Y + c)) -
      ((T (n + 1)).Y + c) := by
    intro n
    obtain ⟨e1, e2, e3, -⟩ := oneIter_steps C o ha cb (T n)
    rw [hT, e1, e2, e3]
    have e4 : (steps C o (T n)).U = C.ustep (C.relax o.rlx (steps C o (T n)).X (T n).Y).1 (steps C o (T n)).Y (T n).U := rfl
    rw [e4, hu, hrl]
    unfold Admm.ustep Admm.rsdlR
    module
  have hx1 := hx.comp (tendsto_add_atTop_nat 1)
  have hy1 := hy.comp (tendsto_add_atTop_nat 1)
  have hU1 := hU.comp (tendsto_add_atTop_nat 1)
  have hAx := (hA.tendsto x).comp hx1
  have hr : Tendsto (fun k => o.rlx • A (T (k + 1)).X + (1 - o.rlx) • ((T k).Y + c)) atTop
      (𝓝 (o.rlx • A x + (1 - o.rlx) • (y + c))) := (hAx.const_smul o.rlx).add ((hy.add_const c).const_smul (1 - o.rlx))
  have e1 : A x = y + c := by
    have h1 := (hU.add hr).sub (hy1.add_const c)
    have h2 : u = u + (o.rlx • A x + (1 - o.rlx) • (y + c)) - (y + c) :=
      tendsto_nhds_unique hU1 (h1.congr fun k => (hUn k).symm)
    have h3 : o.rlx • (A x - (y + c)) = 0 := by
      have h4 : u + (o.rlx • A x + (1 - o.rlx) • (y + c)) - (y + c) - u = 0 := by rw [← h2, sub_self]
      rw [← h4]; module
    rcases smul_eq_zero.1 h3 with h | h
    · exact absurd h hrlx
    · exact sub_eq_zero.1 h
  refine ⟨e1, fun hX z => ?_⟩
  have hmin : ∀ z, g y + s.rho / 2 * ‖A x + u - c - y‖ ^ 2 ≤ g z + s.rho / 2 * ‖A x + u - c - z‖ ^ 2 := by
    intro z
    have e2 : o.rlx • A x + (1 - o.rlx) • (y + c) = A x := by rw [← e1]; module
    rw [e2] at hr
    have h1 := ((hgc.tendsto y).comp hy1).add (((((hr.add hU).sub_const c).sub hy1).norm.pow 2).const_mul (s.rho / 2))
    have h2 := ((((hr.add hU).sub_const c).sub_const z).norm.pow 2).const_mul (s.rho / 2) |>.const_add (g z)
    refine le_of_tendsto_of_tendsto' h1 h2 fun k => ?_
    obtain ⟨q1, q2, q3, -⟩ := oneIter_steps C o ha cb (T k)
    have e4 : (T (k + 1)).Y = (C.ystep s.rho (C.relax o.rlx (T (k + 1)).X (T k).Y).1 (T (k + 1)).X (T k).Y (T k).U
        (C.xstep (T k).rho (T k).X (T k).Y (T k).U (T k).extra).2).1 := by
      rw [hT, q1, q2, ← hrho k]; rfl
    have h3 := hY (C.relax o.rlx (T (k + 1)).X (T k).Y).1 (T (k + 1)).X (T k).Y (T k).U
        (C.xstep (T k).rho (T k).X (T k).Y (T k).U (T k).extra).2 z
    simp only at h3
    rw [← e4, hrl] at h3
    exact h3
  have h2 := subgrad_of_min hg (LinearMap.id : F →ₗ[ℝ] F) (-(A x + u - c)) s.rho (Set.mem_univ y)
    (fun z _ => by
      have := hmin z
      rw [← norm_neg (A x + u - c - y), ← norm_neg (A x + u - c - z)] at this
      simp only [LinearMap.id_apply]
      rw [show y + -(A x + u - c) = -(A x + u - c - y) by abel, show z + -(A x + u - c) = -(A x + u - c - z) by abel]
      exact this) (Set.mem_univ (A z - c))
  simp only [LinearMap.id_apply] at h2
  have e5 : y + -(A x + u - c) = -u := by rw [e1]; abel
  have e6 : A z - c - y = -(A x - A z) := by rw [e1]; abel
  rw [e5, e6, inner_neg_neg] at h2
  have h3 := hX z
  rw [e1, sub_self, zero_add] at h3
  rw [e1] at h2 ⊢
  rw [add_sub_cancel_right]
  linarith

end

theorem continuous_gradTE (hax : GoodAxes n axes) : Continuous fun v : GradE axes n => gradTE v := by
  classical
  refine continuous_pi fun p => ?_
  have h1 : (fun v : GradE axes n => gradTE v p) = fun v => ⟪gradE axes (EuclideanSpace.single p (1 : ℝ)), v⟫ := by
    funext v
    rw [← gradTE_adj hax]
    simp
  rw [h1]
  exact continuous_const.inner continuous_id

/-- **C67 for `TVL2Denoise`, limits.** With fixed rho and any relaxation parameter, `MaxGSIter` and `GSTol`: if the
iterates converge, their limit is a minimiser of the functional. -/
theorem C67_tvl2denoise_limit (hax : GoodAxes n axes) (e : Pix n ≃ γ × χ) (P : Par γ n) (S : Img n)
    (hl : 0 ≤ P.lmbda) (hw : ∀ g, 0 ≤ P.w g) (hc : Connected axes fun p => P.wd p ^ 2) (hm : 0 < P.maxIter) (o : Opts)
    (ha : o.autoRho = false) (hrlx : o.rlx ≠ 0) (cb) (s : St (ImE n) (GradE axes n) (GradE axes n) Xs) (hp : 0 < s.rho)
    (x : ImE n) (y u : GradE axes n) :
    let T := traj (clsL2 axes e P S) o cb s
    Tendsto (fun k => (T k).X) atTop (𝓝 x) → Tendsto (fun k => (T k).Y) atTop (𝓝 y) →
    Tendsto (fun k => (T k).U) atTop (𝓝 u) →
    ∀ z, tvL2 axes e S P.wd P.lmbda P.w x.ofLp ≤ tvL2 axes e S P.wd P.lmbda P.w z := by
  intro T hx hy hU z
  have hW : ∀ p, 0 ≤ P.wd p ^ 2 := fun p => sq_nonneg _
  have hD := den_pos (adj_nonneg axes) hW hp (anchored hc)
  obtain ⟨-, key⟩ := run_limit (clsL2 axes e P S) (gradE axes) continuous_gradE 0 (fun rlx x y => by
      change relaxAX (cnstAE axes) _ _ _ _ _ = _
      rw [show cnstAE axes = (gradE axes : ImE n → GradE axes n) from funext cnstAE_eq]) (fun _ _ _ => rfl)
    (dataE P.wd S) (fun v => P.lmbda * regTv e P.w v) (regTv_convex e P.lmbda hl P.w hw)
    ((continuous_regTv e P.w).const_mul _) o ha hrlx cb s (fun AX X Y U h z => by
      intro Y'
      rw [sub_zero]
      by_cases hz : z = Y'
      · rw [hz]
      · exact ((C40_tvdenoise_ystep e P.lmbda hl P.w hw s.rho hp (AX + U)).2 z trivial hz).le) x y u hx hy hU
  have hfix := jac_limit (N := adj axes) (W := fun p => P.wd p ^ 2) (ρ := s.rho) (adj_nonneg axes) hW hp (anchored hc)
    P.maxIter (b := fun k p => s.rho * gradTE ((T k).Y - (T k).U) p + P.wd p ^ 2 * S p) (x := fun k => (T k).X.ofLp)
    (b0 := fun p => s.rho * gradTE (y - u) p + P.wd p ^ 2 * S p) (x0 := x.ofLp)
    (by
      have h1 := ((continuous_gradTE hax).tendsto _).comp (hy.sub hU)
      exact tendsto_pi_nhds.2 fun p => ((tendsto_pi_nhds.1 h1 p).const_mul _).add_const _)
    (((PiLp.continuous_ofLp 2 _).tendsto x).comp hx)
    (fun k => by
      obtain ⟨a, X', m, r, h1, h2, h3, h4, h5, -⟩ := C41_xstep_partial axes hax S (T k).X.ofLp (stk (T k).Y)
        (stk (T k).U) (stk_length _) (stk_length _) s.rho hp (fun p => P.wd p ^ 2) hW hc P.tol P.maxIter hm
      rw [subStack_stk, cnstAT_stk hax] at h1
      cases h1
      refine ⟨m, h3, h4, ?_⟩
      have e1 : (T (k + 1)).X = (xstepE P S s.rho (T k).X (T k).Y (T k).U (T k).extra).1 := by
        have hT : T (k + 1) = oneIter (clsL2 axes e P S) o cb (T k) := traj_succ _ _ _ _ _
        rw [hT, oneIter_X, show (T k).rho = s.rho from traj_rho _ o ha cb s k]
        rfl
      have e2 : (xstepE P S s.rho (T k).X (T k).Y (T k).U (T k).extra).1.ofLp = X' := by unfold xstepE; rw [h2]
      have hstep : (fun x => gsStep axes S x (gradTE ((T k).Y - (T k).U)) s.rho fun p => P.wd p ^ 2) =
          jac (adj axes) (fun p => P.wd p ^ 2) s.rho
            fun p => s.rho * gradTE ((T k).Y - (T k).U) p + P.wd p ^ 2 * S p := funext fun x => gsStep_eq hax.2 _ _ _ _ _
      change (T (k + 1)).X.ofLp = _
      rw [e1, e2, h5, hstep])
  have := key (fun z => by
    have h1 := normal_eq hax s.rho (fun p => P.wd p ^ 2) S (y - u) x (x - z)
    have h2 : ∑ p, (((P.wd p ^ 2) + s.rho * ∑ q, adj axes p q) * x p - s.rho * ∑ q, adj axes p q * x q -
        (s.rho * gradTE (y - u) p + P.wd p ^ 2 * S p)) * (x - z) p = 0 :=
      sum_eq_zero fun p _ => by
        have := jac_normal hD hfix p
        simp only at this
        rw [this, zero_mul]
    rw [h2, map_sub] at h1
    have h3 := dataE_lower P.wd S x z
    have e3 : ∑ p, P.wd p ^ 2 * (x p - S p) * (x - z).ofLp p = -∑ p, P.wd p ^ 2 * (x p - S p) * (z p - x p) := by
      rw [← sum_neg_distrib]
      exact sum_congr rfl fun p _ => by simp only [PiLp.sub_apply]; ring
    rw [e3] at h1
    rw [show gradE axes x - (y + 0) + u = gradE axes x - (y - u) by abel]
    linarith) (WithLp.toLp 2 z)
  rw [← tvL2_eq, ← tvL2_eq] at this
  exact this

/-- **C67 for `TVL1Denoise`, limits.** As `C67_tvl2denoise_limit`. -/
theorem C67_tvl1denoise_limit (hax : GoodAxes n axes) (e : Pix n ≃ γ × χ) (P : Par γ n) (S : Img n)
    (hl : 0 ≤ P.lmbda) (hw : ∀ g, 0 ≤ P.w g) (hwd : ∀ p, 0 ≤ P.wd p) (hm : 0 < P.maxIter) (o : Opts)
    (ha : o.autoRho = false) (hrlx : o.rlx ≠ 0) (cb) (s : St (ImE n) (Y1 axes n) (Y1 axes n) Xs) (hp : 0 < s.rho)
    (x : ImE n) (y u : Y1 axes n) :
    let T := traj (clsL1 axes e P S) o cb s
    Tendsto (fun k => (T k).X) atTop (𝓝 x) → Tendsto (fun k => (T k).Y) atTop (𝓝 y) →
    Tendsto (fun k => (T k).U) atTop (𝓝 u) →
    ∀ z, tvL1 axes e S P.wd P.lmbda P.w x.ofLp ≤ tvL1 axes e S P.wd P.lmbda P.w z := by
  intro T hx hy hU z
  have hW : ∀ p : Pix n, (0 : ℝ) ≤ 1 := fun _ => zero_le_one
  have hD := den_pos (adj_nonneg axes) hW one_pos (anchored (connected_one (n := n) (axes := axes)))
  obtain ⟨-, key⟩ := run_limit (clsL1 axes e P S) (gradE1 axes)
    (LinearMap.continuous_of_finiteDimensional (gradE1 (n := n) axes)) (cnstC1 axes S) (fun rlx x y => by
      change relaxAX (cnstA1E axes) _ _ _ _ _ = _
      rw [show cnstA1E axes = (gradE1 axes : ImE n → Y1 axes n) from funext cnstA1E_eq]) (fun _ _ _ => rfl)
    (fun _ => 0) (g1 e P) (g1_convex e P hl hw hwd) (g1_continuous e P) o ha hrlx cb s
    (fun AX X Y U h z => ystep1_min e P S hl hw hwd s.rho hp AX X Y U h z) x y u hx hy hU
  have hf : Continuous fun y : Y1 axes n => y.fst := WithLp.prod_continuous_ofLp 2 _ _ |>.fst
  have hs : Continuous fun y : Y1 axes n => y.snd := WithLp.prod_continuous_ofLp 2 _ _ |>.snd
  have hfix := jac_limit (N := adj axes) (W := fun _ => 1) (ρ := 1) (adj_nonneg axes) hW one_pos (anchored connected_one)
    P.maxIter (b := fun k p => 1 * gradTE ((T k).Y.fst - (T k).U.fst) p + 1 * (S p + ((T k).Y.snd p - (T k).U.snd p)))
    (x := fun k => (T k).X.ofLp)
    (b0 := fun p => 1 * gradTE (y.fst - u.fst) p + 1 * (S p + (y.snd p - u.snd p))) (x0 := x.ofLp)
    (by
      have h1 := ((continuous_gradTE hax).tendsto _).comp (((hf.tendsto y).comp hy).sub ((hf.tendsto u).comp hU))
      have h2 := ((PiLp.continuous_ofLp 2 _).tendsto _).comp (((hs.tendsto y).comp hy).sub ((hs.tendsto u).comp hU))
      exact tendsto_pi_nhds.2 fun p => ((tendsto_pi_nhds.1 h1 p).const_mul 1).add
        (((tendsto_pi_nhds.1 h2 p).const_add (S p)).const_mul 1))
    (((PiLp.continuous_ofLp 2 _).tendsto x).comp hx)
    (fun k => by
      obtain ⟨X', m, r, h2, h3, h4, h5, -⟩ := C41_tvl1_xstep_partial hax S (T k).X.ofLp (T k).Y (T k).U P.tol P.maxIter hm
      refine ⟨m, h3, h4, ?_⟩
      have e1 : (T (k + 1)).X = (xstep1E P S s.rho (T k).X (T k).Y (T k).U (T k).extra).1 := by
        have hT : T (k + 1) = oneIter (clsL1 axes e P S) o cb (T k) := traj_succ _ _ _ _ _
        rw [hT, oneIter_X, show (T k).rho = s.rho from traj_rho _ o ha cb s k]
        rfl
      have e2 : (xstep1E P S s.rho (T k).X (T k).Y (T k).U (T k).extra).1.ofLp = X' := by unfold xstep1E; rw [h2]
      change (T (k + 1)).X.ofLp = _
      rw [e1, e2, h5, pass1_jac hax])
  have := key (fun z => by
    have h1 := normal_eq hax 1 (fun _ => 1) (fun p => S p + (y.snd p - u.snd p)) (y.fst - u.fst) x (x - z)
    have h2 : ∑ p, (((1 : ℝ) + 1 * ∑ q, adj axes p q) * x p - 1 * ∑ q, adj axes p q * x q -
        (1 * gradTE (y.fst - u.fst) p + 1 * (S p + (y.snd p - u.snd p)))) * (x - z) p = 0 :=
      sum_eq_zero fun p _ => by
        have := jac_normal hD hfix p
        simp only at this
        rw [this, zero_mul]
    rw [h2] at h1
    have h3 : ⟪gradE1 axes x - (y + cnstC1 axes S) + u, gradE1 axes x - gradE1 axes z⟫ =
        ∑ p, 1 * (x p - (S p + (y.snd p - u.snd p))) * (x - z) p +
          1 * ⟪gradE axes x - (y.fst - u.fst), gradE axes (x - z)⟫ := by
      have e2 : ⟪gradE1 axes x - (y + cnstC1 axes S) + u, gradE1 axes (x - z)⟫ =
          ⟪gradE axes x - (y.fst + 0) + u.fst, gradE axes (x - z)⟫ +
            ⟪x - (y.snd + (WithLp.toLp 2 S : ImE n)) + u.snd, x - z⟫ := WithLp.prod_inner_apply _ _
      rw [← map_sub, e2, add_comm, one_mul]
      congr 1
      · rw [PiLp.inner_apply]
        refine sum_congr rfl fun p _ => ?_
        change (x - z) p * (x p - (y.snd p + S p) + u.snd p) = _
        ring
      · congr 1; abel
    rw [h3, ← h1]
    simp) (WithLp.toLp 2 z)
  rw [← tvL1_eq, ← tvL1_eq] at this
  exact this

/-! ## A concrete case: two pixels with values 0 and 4 -/

section

/-- One axis with two pixels. -/
abbrev n2 : Fin 1 → ℕ := fun _ => 2

/-- The image (0, 4). -/
def exS : Img n2 := fun p => if (p 0 : ℕ) = 0 then 0 else 4

/-- The image (1, 3). -/
def exX : Img n2 := fun p => if (p 0 : ℕ) = 0 then 1 else 3

theorem goodAxes2 : GoodAxes n2 [0] := by
  refine ⟨?_, ?_⟩ <;> simp

/-- Default options of the classes with `lmbda` 1. -/
def exPar : Par (Pix n2) n2 := ⟨1, fun _ => 1, fun _ => 1, true, 0, 2⟩

theorem sum_pix2 (f : Pix n2 → ℝ) : ∑ p, f p = f (fun _ => 0) + f (fun _ => 1) := by
  rw [← (Equiv.funUnique (Fin 1) (Fin 2)).symm.sum_comp f, Fin.sum_univ_two]
  rfl

theorem tv_ex (x : Img n2) : tv [0] noChan exPar.w x = |x (fun _ => 1) - x (fun _ => 0)| := by
  have h0 : diff (0 : Fin 1) x (fun _ => (0 : Fin 2)) = x (fun _ => 1) - x (fun _ => 0) := by
    have : Function.update (fun _ => (0 : Fin 2)) (0 : Fin 1) (1 : Fin 2) = fun _ => 1 := by
      funext i; rw [Subsingleton.elim i 0]; simp
    have h : diff (0 : Fin 1) x (fun _ => (0 : Fin 2)) =
      x (Function.update (fun _ => (0 : Fin 2)) (0 : Fin 1) (1 : Fin 2)) - x fun _ => 0 := rfl
    rw [h, this]
  have h1 : diff (0 : Fin 1) x (fun _ => (1 : Fin 2)) = 0 := rfl
  have h2 : ∀ g : Pix n2, ∑ c : Unit, ∑ i : Fin [(0 : Fin 1)].length, diff (([(0 : Fin 1)]).get i) x (noChan.symm (g, c)) ^ 2 =
      diff 0 x g ^ 2 := by
    intro g
    rw [Fintype.sum_unique, show (∑ i : Fin [(0 : Fin 1)].length, diff (([(0 : Fin 1)]).get i) x
      (noChan.symm (g, (default : Unit))) ^ 2) = ∑ i : Fin 1, diff (([(0 : Fin 1)]).get i) x g ^ 2 from rfl,
      Fintype.sum_unique]
    rfl
  unfold tv
  rw [sum_pix2]
  simp only [h2, h0, h1]
  simp [exPar, Real.sqrt_sq_eq_abs]

theorem tvL2_ex (x : Img n2) : tvL2 [0] noChan exS exPar.wd exPar.lmbda exPar.w x =
    1 / 2 * (x (fun _ => 0) ^ 2 + (x (fun _ => 1) - 4) ^ 2) + |x (fun _ => 1) - x (fun _ => 0)| := by
  unfold tvL2
  rw [tv_ex, sum_pix2]
  simp [exPar, exS]

theorem exX_min (z : Img n2) : tvL2 [0] noChan exS exPar.wd exPar.lmbda exPar.w exX ≤
    tvL2 [0] noChan exS exPar.wd exPar.lmbda exPar.w z := by
  rw [tvL2_ex, tvL2_ex]
  have h := neg_le_abs (z (fun _ => 1) - z (fun _ => 0))
  have h' := le_abs_self (z (fun _ => 1) - z (fun _ => 0))
  have e : exX (fun _ => 0) = 1 ∧ exX (fun _ => 1) = 3 := by simp [exX]
  rw [e.1, e.2]
  have : |(3 : ℝ) - 1| = 2 := by rw [abs_of_pos] <;> norm_num
  rw [this]
  nlinarith [sq_nonneg (z (fun _ => 0) - 1), sq_nonneg (z (fun _ => 1) - 3)]

/-- The defaults of `TVL2Denoise` (relaxation parameter 1.8, two passes, tolerance zero) applied to the signal (0, 4) with
`lmbda` 1, from any start: the functional tends to 3, its value at the solution (1, 3). -/
example (o : Opts) (ha : o.autoRho = false) (hr : o.rlx = 1.8) (cb)
    (s : St (ImE n2) (GradE [0] n2) (GradE [0] n2) Xs) (hp : 0 < s.rho) :
    Tendsto (fun k => tvL2 [0] noChan exS exPar.wd exPar.lmbda exPar.w
      (traj (clsL2 [0] noChan exPar exS) o cb s k).X.ofLp) atTop (𝓝 3) := by
  have h := (C39_tvl2denoise_partial goodAxes2 noChan exPar exS zero_le_one (fun _ => zero_le_one)
    (connected_of_pos _ _ fun _ => by norm_num [exPar]) le_rfl ⟨by decide, by decide⟩ o ha (by rw [hr]; norm_num) cb s hp
    exX exX_min).2.2
  rw [tvL2_ex exX] at h
  have e : exX (fun _ => 0) = 1 ∧ exX (fun _ => 1) = 3 := by simp [exX]
  rw [e.1, e.2] at h
  have : (1 / 2 * ((1 : ℝ) ^ 2 + (3 - 4) ^ 2) + |3 - 1|) = 3 := by
    rw [abs_of_pos (by norm_num)]; norm_num
  rw [this] at h
  exact h

/-- The same for `TVL1Denoise`: any image between the two values has functional 4. -/
example (o : Opts) (ha : o.autoRho = false) (hr : o.rlx = 1.8) (cb)
    (s : St (ImE n2) (Y1 [0] n2) (Y1 [0] n2) Xs) (hp : 0 < s.rho) :
    Tendsto (fun k => tvL1 [0] noChan exS exPar.wd exPar.lmbda exPar.w
      (traj (clsL1 [0] noChan exPar exS) o cb s k).X.ofLp) atTop (𝓝 4) := by
  have hv : ∀ x : Img n2, tvL1 [0] noChan exS exPar.wd exPar.lmbda exPar.w x =
      |x (fun _ => 0)| + |x (fun _ => 1) - 4| + |x (fun _ => 1) - x (fun _ => 0)| := by
    intro x
    unfold tvL1
    rw [tv_ex, sum_pix2]
    simp [exPar, exS]
  have h4 : tvL1 [0] noChan exS exPar.wd exPar.lmbda exPar.w exX = 4 := by
    rw [hv]
    have e : exX (fun _ => 0) = 1 ∧ exX (fun _ => 1) = 3 := by simp [exX]
    rw [e.1, e.2]
    norm_num
  have h := (C39_tvl1denoise_partial goodAxes2 noChan exPar exS zero_le_one (fun _ => zero_le_one)
    (fun _ => zero_le_one) le_rfl ⟨by decide, by decide⟩ o ha (by rw [hr]; norm_num) cb s hp
    exX (fun z => by
      rw [h4, hv]
      have a1 := le_abs_self (z fun _ => 0)
      have a2 := neg_le_abs ((z fun _ => 1) - 4)
      have a3 := le_abs_self ((z fun _ => 1) - z fun _ => 0)
      linarith)).2.2
  rw [h4] at h
  exact h

end

end Sporco.Tv.Den
