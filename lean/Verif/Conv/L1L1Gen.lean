import Verif.Conv.L1L1

/-!
# The problem of `ConvL1L1Grd` with any convex second term

Used for the classes of `admm/pdcsc.py`.
-/

set_option autoImplicit false
set_option linter.unusedSectionVars false

namespace Sporco.Conv.LG

open Finset ComplexConjugate Sporco.Linalg Sporco.Prox Sporco.Admm Sporco.Conv Sporco.Conv.TB Sporco.Conv.Grd Filter
  Topology
open scoped RealInnerProductSpace

variable {d c : ℕ} {N Nd : Fin d → ℕ} [∀ k, NeZero (N k)] {a : Fin d} {K M : Type*} [Fintype K]
  [Fintype M]

/-- The problem. -/
noncomputable def probGen (D : Dict c M Nd) (S W : Signal c K N) (hW : ∀ i, 0 ≤ wA W i) (mu : ℝ) (wg : M → ℝ)
    (g1 : Coef K M N → ℝ) (Cs : Set (Coef K M N)) (hg1 : ConvexOn ℝ Cs g1) :
    Problem (Coef K M N) (YY c K M N) (YY c K M N) :=
  tbfProblem (convOp (K := K) (padD N D)) (convOpT (K := K) (padD N D)) (convOp_adj (K := K) (padD N D)) (join S)
    (quadE (K := K) (N := N) mu wg) (convex_quadE (K := K) (N := N) mu wg)
    (fun y : Sig (Fin (c + 1)) K N => 1 * l1w (wA W) y.ofLp)
    (Bpdn.convex_l1w (wA W) hW _ convex_univ 1 zero_le_one) g1 Cs hg1

/-- A class that solves it. -/
noncomputable def clsGen (a : Fin d) (D : Dict c M Nd) (S : Signal c K N) (mu : ℝ) (wg : M → ℝ)
    (ys : ℝ → YY c K M N → YY c K M N → YY c K M N)
    (ob : Coef K M N → YY c K M N → AttrTB K M N a → ℝ × ℝ × ℝ) :
    Cls (Coef K M N) (YY c K M N) (YY c K M N) (AttrTB K M N a) where
  xstep := xstep D S mu wg
  ystep rho AX _ _ U h := (ys rho AX U, h)
  relax := TwoBlock.relaxAX (cnstA0 a D) (fun x => x) (join S) 0
  ustep := TwoBlock.ustep (join S) 0
  nrmR AX Y := ‖TwoBlock.rsdlR (join S) 0 AX Y‖
  nrmS rho Yprev Y _ := ‖rho • TwoBlock.cnstAT (cnstA0T a D) (fun y => y) (Yprev - Y)‖
  rsdlRn := TwoBlock.rsdlRn (join S) 0
  rsdlSn rho U := rho * ‖TwoBlock.cnstAT (cnstA0T a D) (fun y => y) U‖
  rhochange _ h := h
  objfn := ob

/-- The Y update is exact. -/
def YOk (S W : Signal c K N) (g1 : Coef K M N → ℝ) (Cs : Set (Coef K M N))
    (ys : ℝ → YY c K M N → YY c K M N → YY c K M N) : Prop :=
  ∀ rho AX U, 0 < rho →
    (ys rho AX U).fst = WithLp.toLp 2 (proxL1Arr (AX.fst + U.fst - join S).ofLp fun i => 1 / rho * wA W i) ∧
    (ys rho AX U).snd ∈ Cs ∧ ∀ z ∈ Cs, g1 (ys rho AX U).snd + rho / 2 * ‖AX.snd + U.snd - (ys rho AX U).snd‖ ^ 2 ≤
      g1 z + rho / 2 * ‖AX.snd + U.snd - z‖ ^ 2

theorem implements_gen (D : Dict c M Nd) (S W : Signal c K N) (hW : ∀ i, 0 ≤ wA W i) (mu : ℝ) (hm : 0 ≤ mu)
    (wg : M → ℝ) (hg : ∀ m, 0 ≤ wg m) (g1 : Coef K M N → ℝ) (Cs : Set (Coef K M N)) (hg1 : ConvexOn ℝ Cs g1)
    (ys) (hys : YOk S W g1 Cs ys) (ob) :
    Implements (clsGen a D S mu wg ys ob) (probGen D S W hW mu wg g1 Cs hg1) (fun _ h => h.cc = none) := by
  have hA : (cnstA0 a D : Coef K M N → Sig (Fin (c + 1)) K N) = convOp (padD N D) :=
    funext fun X => cnstA0_eq D X
  have hT : (cnstA0T a D : Sig (Fin (c + 1)) K N → Coef K M N) = convOpT (padD N D) :=
    funext fun X => cnstA0T_eq D X
  have t := fun (rho rlx : ℝ) (X : Coef K M N) (Y Yp AX U : YY c K M N) =>
    C37_twoblock (convOp (K := K) (padD N D)).toLinearMap (ContinuousLinearMap.id ℝ (Coef K M N)).toLinearMap
      (convOpT (K := K) (padD N D)).toLinearMap (ContinuousLinearMap.id ℝ (Coef K M N)).toLinearMap
      (join S) 0 rho rlx X Y Yp AX U
  refine ⟨fun rlx x y => ?_, fun ax y u => ?_, fun ax y => ?_, Or.inl fun rho yp y u => ?_,
    fun ax y => ?_, fun rho u hr => mul_nonneg hr (norm_nonneg _),
    fun rho X Y U h _ hc => hc, fun _ _ _ _ _ _ _ h => h, fun _ rho' _ _ _ h => h, ?_, ?_⟩
  · change TwoBlock.relaxAX (cnstA0 a D) (fun x => x) (join S) 0 rlx x y = _
    rw [hA]
    exact (t 0 rlx x y 0 0 0).2.2.2.2.1
  · exact (t 0 0 0 y 0 ax u).2.2.2.2.2
  · exact congrArg norm (t 0 0 0 y 0 ax 0).1
  · change ‖rho • TwoBlock.cnstAT (cnstA0T a D) (fun y => y) (yp - y)‖ = _
    rw [hT]
    unfold rsdlS
    have e : (-ContinuousLinearMap.id ℝ (YY c K M N)) (y - yp) = yp - y := by
      change -(y - yp) = _
      abel
    change _ = ‖rho • catLT (convOpT (padD N D)) (ContinuousLinearMap.id ℝ (Coef K M N))
      ((-ContinuousLinearMap.id ℝ (YY c K M N)) (y - yp))‖
    rw [e]
    rfl
  · change 0 ≤ TwoBlock.rsdlRn (join S) 0 ax y
    unfold TwoBlock.rsdlRn
    positivity
  · intro rho X Y U h hp hI
    refine ⟨trivial, fun z _ => ?_⟩
    have key : ∀ z : Coef K M N, ‖catL (convOp (padD N D)) (ContinuousLinearMap.id ℝ (Coef K M N)) z +
        (-ContinuousLinearMap.id ℝ (YY c K M N)) Y - TwoBlock.cat (join S) 0 + U‖ ^ 2 =
        ‖convOp (padD N D) z - (Y.fst - U.fst + join S)‖ ^ 2 + ‖z - Y.snd + U.snd‖ ^ 2 := by
      intro z
      rw [WithLp.prod_norm_sq_eq_of_L2]
      change ‖convOp (padD N D) z + -Y.fst - join S + U.fst‖ ^ 2 + ‖z + -Y.snd - 0 + U.snd‖ ^ 2 = _
      rw [show convOp (padD N D) z + -Y.fst - join S + U.fst =
        convOp (padD N D) z - (Y.fst - U.fst + join S) by abel,
        show z + -Y.snd - 0 + U.snd = z - Y.snd + U.snd by abel]
    have hI' : CohL ⟨false, false, false⟩ D mu wg rho h := hI
    have h1 := xstep_excess hm hg hp hI' S X Y U z
    have h3 := mul_nonneg (half_pos hp).le (sq_nonneg ‖z - (xstep D S mu wg rho X Y U h).1‖)
    change quadE mu wg (xstep D S mu wg rho X Y U h).1 + rho / 2 *
      ‖catL (convOp (padD N D)) (ContinuousLinearMap.id ℝ (Coef K M N)) (xstep D S mu wg rho X Y U h).1 +
        (-ContinuousLinearMap.id ℝ (YY c K M N)) Y - TwoBlock.cat (join S) 0 + U‖ ^ 2 ≤
      quadE mu wg z + rho / 2 * ‖catL (convOp (padD N D)) (ContinuousLinearMap.id ℝ (Coef K M N)) z +
        (-ContinuousLinearMap.id ℝ (YY c K M N)) Y - TwoBlock.cat (join S) 0 + U‖ ^ 2
    rw [key, key]
    simp only at h1
    linarith
  · intro rho AX X Y U h hp _
    obtain ⟨hy0, hy1, hy2⟩ := hys rho AX U hp
    have e0 := prox_min (wA W) hW 1 zero_le_one rho hp (AX.fst + U.fst - join S)
    obtain ⟨y, hy⟩ : ∃ y, y = ys rho AX U := ⟨_, rfl⟩
    rw [← hy] at hy0 hy1 hy2
    have key : ∀ z : YY c K M N, ‖AX + (-ContinuousLinearMap.id ℝ (YY c K M N)) z -
        TwoBlock.cat (join S) 0 + U‖ ^ 2 =
        ‖AX.fst + U.fst - join S - z.fst‖ ^ 2 + ‖AX.snd + U.snd - z.snd‖ ^ 2 := by
      intro z
      rw [WithLp.prod_norm_sq_eq_of_L2]
      change ‖AX.fst + -z.fst - join S + U.fst‖ ^ 2 + ‖AX.snd + -z.snd - 0 + U.snd‖ ^ 2 = _
      rw [show AX.fst + -z.fst - join S + U.fst = AX.fst + U.fst - join S - z.fst by abel,
        show AX.snd + -z.snd - 0 + U.snd = AX.snd + U.snd - z.snd by abel]
    have hyc : ((clsGen a D S mu wg ys ob).ystep rho AX X Y U h).1 = y := hy.symm
    rw [hyc]
    refine ⟨⟨trivial, hy1⟩, fun z hz => ?_⟩
    change 1 * l1w (wA W) y.fst.ofLp + g1 y.snd + rho / 2 *
      ‖AX + (-ContinuousLinearMap.id ℝ (YY c K M N)) y - TwoBlock.cat (join S) 0 + U‖ ^ 2 ≤
      1 * l1w (wA W) z.fst.ofLp + g1 z.snd + rho / 2 *
      ‖AX + (-ContinuousLinearMap.id ℝ (YY c K M N)) z - TwoBlock.cat (join S) 0 + U‖ ^ 2
    rw [key, key]
    have a0 : 1 * l1w (wA W) y.fst.ofLp + rho / 2 * ‖AX.fst + U.fst - join S - y.fst‖ ^ 2 ≤
      1 * l1w (wA W) z.fst.ofLp + rho / 2 * ‖AX.fst + U.fst - join S - z.fst‖ ^ 2 := by rw [hy0]; exact e0 z.fst
    have a1 := hy2 z.snd hz.2
    linarith

/-- The terms other than the gradient term, at one array. -/
noncomputable def gSumG (D : Dict c M Nd) (S W : Signal c K N) (g1 : Coef K M N → ℝ) (y : Coef K M N) : ℝ :=
  1 * l1w (wA W) (convOp (padD N D) y - join S).ofLp + g1 y

theorem exists_gen (D : Dict c M Nd) (S W : Signal c K N) (hW : ∀ i, 0 ≤ wA W i) (mu : ℝ) (wg : M → ℝ)
    (g1 : Coef K M N → ℝ) (Cs : Set (Coef K M N)) (hc : IsClosed Cs) (hne : Cs.Nonempty) (hcont : Continuous g1)
    (r : ℝ) (hr : 0 < r) (hgrow : ∀ y, r * ‖y‖ ≤ g1 y) :
    ∃ x ∈ Cs, ∀ z ∈ Cs, quadE mu wg x + gSumG D S W g1 x ≤ quadE mu wg z + gSumG D S W g1 z := by
  have hcont : Continuous (gSumG D S W g1) :=
    (continuous_const.mul ((Bpdn.continuous_l1w (wA W)).comp (by fun_prop))).add hcont
  have hg : ∀ y : Coef K M N, r * ‖y‖ ≤ gSumG D S W g1 y := fun y =>
    (hgrow y).trans (le_add_of_nonneg_left
      (by rw [one_mul]; exact sum_nonneg fun i _ => mul_nonneg (hW i) (norm_nonneg _)))
  obtain ⟨x, hx, hmin⟩ := ls_exists_min (gradW (K := K) (N := N) fun m => Real.sqrt (mu * wg m)) 0
    (gSumG D S W g1) Cs hc hne hcont r hr hg
  refine ⟨x, hx, fun z hz => ?_⟩
  have := hmin z hz
  unfold lsObj at this
  rw [sub_zero, sub_zero] at this
  exact this

theorem saddle_gen (D : Dict c M Nd) (S W : Signal c K N) (hW : ∀ i, 0 ≤ wA W i) (mu : ℝ) (wg : M → ℝ)
    (g1 : Coef K M N → ℝ) (Cs : Set (Coef K M N)) (hg1 : ConvexOn ℝ Cs g1) (x : Coef K M N) (hx : x ∈ Cs)
    (hmin : ∀ z ∈ Cs, quadE mu wg x + gSumG D S W g1 x ≤ quadE mu wg z + gSumG D S W g1 z) :
    ∃ l, (probGen D S W hW mu wg g1 Cs hg1).Saddle x (TwoBlock.cat (convOp (padD N D) x - join S) x) l := by
  have hm' : ∀ z ∈ Cs, quadE mu wg x +
      (fun y : Sig (Fin (c + 1)) K N => 1 * l1w (wA W) y.ofLp) (convOp (padD N D) x - join S) + g1 x ≤ quadE mu wg z +
      (fun y : Sig (Fin (c + 1)) K N => 1 * l1w (wA W) y.ofLp) (convOp (padD N D) z - join S) + g1 z := by
    intro z hz
    have := hmin z hz
    unfold gSumG at this
    simp only
    linarith
  have h0 := convOp_adj (K := K) (padD N D)
  have hf := convex_quadE (K := K) (N := N) mu wg
  have hg0 := Bpdn.convex_l1w (wA W) hW _ convex_univ 1 zero_le_one
  exact tbf_saddle (h0 := h0) (hf := hf) (hg0 := hg0) (hg1 := hg1) x hx hm'

/-- From the split objective to the objective at one of the arrays, `V` near X. -/
theorem near_gen (D : Dict c M Nd) (S W : Signal c K N) (hW : ∀ i, 0 ≤ wA W i) (mu : ℝ) (wg : M → ℝ)
    (X V : ℕ → Coef K M N) (Y : ℕ → Sig (Fin (c + 1)) K N) (r : ℕ → ℝ) (hr : ∀ n, 0 ≤ r n) (p : ℝ)
    (h : Tendsto (fun n => quadE mu wg (X n) + (1 * l1w (wA W) (Y n).ofLp + r n)) atTop (𝓝 p))
    (h0 : Tendsto (fun n => convOp (padD N D) (X n) - join S - Y n) atTop (𝓝 0))
    (h1 : Tendsto (fun n => X n - V n) atTop (𝓝 0)) :
    Tendsto (fun n => quadE mu wg (V n) + (1 * l1w (wA W) (convOp (padD N D) (V n) - join S).ofLp + r n))
      atTop (𝓝 p) := by
  obtain ⟨G, hG⟩ : ∃ G, G = gradW (K := K) (N := N) fun m : M => Real.sqrt (mu * wg m) := ⟨_, rfl⟩
  have hq : ∀ x, quadE mu wg x = 1 / 2 * ‖G x‖ ^ 2 := fun x => by rw [hG]; rfl
  have hd : Tendsto (fun n => G (V n) - G (X n)) atTop (𝓝 0) := by
    have := (G.continuous.tendsto (0 : Coef K M N)).comp h1
    rw [map_zero] at this
    have := this.neg
    rw [neg_zero] at this
    refine this.congr fun n => ?_
    simp only [Function.comp]
    rw [map_sub]; abel
  simp only [hq] at h ⊢
  have h2 := half_sq_near (fun n => G (X n)) (fun n => G (V n))
    (fun n => 1 * l1w (wA W) (Y n).ofLp + r n) p (fun n => by
      rw [one_mul]
      exact add_nonneg (sum_nonneg fun i _ => mul_nonneg (hW i) (norm_nonneg _)) (hr n)) h hd
  have hnear : Tendsto (fun n => convOp (padD N D) (V n) - join S - Y n) atTop (𝓝 0) := by
    have h7 := ((convOp (padD N D)).continuous.tendsto (0 : Coef K M N)).comp h1
    rw [map_zero] at h7
    have h8 := h0.sub h7
    rw [sub_zero] at h8
    refine h8.congr fun n => ?_
    simp only [Function.comp]
    rw [map_sub]
    abel
  have h3 : Tendsto (fun n => l1w (wA W) (convOp (padD N D) (V n) - join S).ofLp -
      l1w (wA W) (Y n).ofLp) atTop (𝓝 0) := by
    have h4 := ((Bpdn.continuous_l1w (wA W)).tendsto 0).comp hnear
    have e : l1w (wA W) (0 : Sig (Fin (c + 1)) K N).ofLp = 0 := by simp [l1w]
    rw [e] at h4
    exact squeeze_zero_norm (fun n => Tv.Dec.l1w_sub (wA W) hW _ _) h4
  have h5 := h2.add h3
  rw [add_zero] at h5
  refine h5.congr fun n => ?_
  ring

/-- Convergence. -/
theorem conv_gen (D : Dict c M Nd) (S W : Signal c K N) (hW : ∀ i, 0 ≤ wA W i) (mu : ℝ) (hm : 0 ≤ mu)
    (wg : M → ℝ) (hg : ∀ m, 0 ≤ wg m) (g1 : Coef K M N → ℝ) (Cs : Set (Coef K M N)) (hg1 : ConvexOn ℝ Cs g1)
    (hcl : IsClosed Cs) (hne : Cs.Nonempty) (hcont : Continuous g1)
    (r : ℝ) (hr : 0 < r) (hgrow : ∀ y, r * ‖y‖ ≤ g1 y)
    (ys) (hys : YOk S W g1 Cs ys) (ob) (o : Opts) (ha : o.autoRho = false) (hrlx : 0 < o.rlx ∧ o.rlx < 2)
    (cb) (hcb : Bpdn.CallbackReads cb) (s : St (Coef K M N) (YY c K M N) (YY c K M N) (AttrTB K M N a))
    (hp : 0 < s.rho) (hs : s.extra.cc = none) :
    let C := clsGen a D S mu wg ys ob
    let T := traj C o cb s
    ∃ x ∈ Cs, (∀ z ∈ Cs, quadE mu wg x + gSumG D S W g1 x ≤ quadE mu wg z + gSumG D S W g1 z) ∧
      Tendsto (fun n => C.nrmR (T n).AXnr (T n).Y) atTop (𝓝 0) ∧
      Tendsto (fun n => C.nrmS (T n).rho (T n).Yprev (T n).Y (T n).U) atTop (𝓝 0) ∧
      Tendsto (fun n => quadE mu wg (T n).Y.snd + gSumG D S W g1 (T n).Y.snd) atTop
        (𝓝 (quadE mu wg x + gSumG D S W g1 x)) ∧
      Tendsto (fun n => (T n).X - (T n).Y.snd) atTop (𝓝 0) ∧
      ∀ n, (T (n + 1)).Y.snd ∈ Cs := by
  intro C T
  obtain ⟨x, hx, hmin⟩ := exists_gen D S W hW mu wg g1 Cs hcl hne hcont r hr hgrow
  obtain ⟨l, hsad⟩ := saddle_gen D S W hW mu wg g1 Cs hg1 x hx hmin
  have hC := implements_gen (a := a) D S W hW mu hm wg hg g1 Cs hg1 ys hys ob
  have hk : CallbackKeeps (fun (_ : ℝ) (h : AttrTB K M N a) => h.cc = none) cb := hcb.keeps _
  obtain ⟨k1, k2, k3, k4, k5, k6⟩ := tbf_convergence hC o ha hrlx cb hk s hp hs _ _ _ hsad
  have k7 := near_gen D S W hW mu wg (fun n => (T n).X) (fun n => (T n).Y.snd) (fun n => (T n).Y.fst)
    (fun n => g1 (T n).Y.snd) (fun n => (mul_nonneg hr.le (norm_nonneg _)).trans (hgrow _)) _ k3 k4 k5
  exact ⟨x, hx, hmin, k1, k2, k7, k5, k6⟩

end Sporco.Conv.LG
