import Verif.Conv.TvThm

/-!
# `ConvBPDNScalarTV` and `ConvBPDNVectorTV`: where the documentation is not met (C39, C40)
-/

set_option autoImplicit false
set_option linter.unusedSectionVars false

namespace Sporco.Conv.TVC

open Finset ComplexConjugate Sporco.Linalg Sporco.Prox Sporco.Admm Filter Topology Sporco.Conv Sporco.Conv.TB
  Sporco.Conv.Grd
open scoped RealInnerProductSpace

/-! ## Arrays with two samples -/

/-- The two positions. -/
abbrev p0 : Grid N2 := fun _ => (0 : ZMod 2)
abbrev p1 : Grid N2 := fun _ => (1 : ZMod 2)

theorem sum_grid2 (f : Grid N2 → ℝ) : ∑ p, f p = f p0 + f p1 := by
  have e : ∑ p : Grid N2, f p = ∑ t : ZMod 2, f (fun _ => t) := by
    refine Fintype.sum_equiv (Equiv.funUnique (Fin 1) (ZMod 2)) _ _ fun p => ?_
    congr 1
    funext k
    fin_cases k
    rfl
  rw [e]
  exact Fin.sum_univ_two (fun t : Fin 2 => f (fun _ => (t : ZMod 2)))

theorem p0_sub : p0 - Pi.single 0 1 = p1 := by
  funext k; fin_cases k; decide

theorem p1_sub : p1 - Pi.single 0 1 = p0 := by
  funext k; fin_cases k; decide

theorem diff_p0 (x : Grid N2 → ℝ) : diff 0 x p0 = x p0 - x p1 := by unfold diff; rw [p0_sub]
theorem diff_p1 (x : Grid N2 → ℝ) : diff 0 x p1 = x p1 - x p0 := by unfold diff; rw [p1_sub]

theorem filt_one (x : Grid N2 → ℝ) (h : NArr N1 ℝ) (hh : ∀ j, h j = 1) (p : Grid N2) : filt h x p = x p := by
  unfold filt
  rw [Fintype.sum_unique]
  rw [hh, one_mul]
  congr 1
  funext k
  simp

/-! ## The regulariser of `ConvBPDNScalarTV` -/

/-- The signal (8, 0). -/
def s80 : Signal 0 Unit N2 := fun _ _ p => if p = p0 then 8 else 0

theorem p1_ne : p1 ≠ p0 := fun h => by
  have := congrFun h 0
  revert this
  decide

theorem sum_chn (f : Fin (0 + 1) → ℝ) : ∑ i, f i = f 0 := Fin.sum_univ_one f

theorem data80 (X : Unit → Unit → Grid N2 → ℝ) :
    dataTerm gD s80 X = 1 / 2 * ((X () () p0 - 8) ^ 2 + X () () p1 ^ 2) := by
  unfold dataTerm recon
  simp only [Fintype.sum_unique, sum_grid2, sum_chn]
  rw [filt_one _ (gD 0 default) fun _ => rfl, filt_one _ (gD 0 default) fun _ => rfl]
  unfold s80
  rw [if_pos rfl, if_neg p1_ne]
  simp only [sub_zero]

theorem l1_80 (X : Unit → Unit → Grid N2 → ℝ) :
    l1Conv (L1W.scalar 1 : L1W Unit).arr X = |X () () p0| + |X () () p1| := by
  unfold l1Conv
  simp only [Fintype.sum_unique, sum_grid2, L1W.arr, one_mul]

theorem doc80 (X : Unit → Unit → Grid N2 → ℝ) :
    objTV (scalarTV fun _ => 1) gD s80 1 1 (.scalar 1) X =
      1 / 2 * ((X () () p0 - 8) ^ 2 + X () () p1 ^ 2) + (|X () () p0| + |X () () p1|) +
        2 * |X () () p0 - X () () p1| := by
  unfold objTV scalarTV
  rw [data80, l1_80]
  simp only [Fintype.sum_unique, sum_grid2, one_mul]
  have e : (default : Fin 1) = 0 := rfl
  simp only [e, diff_p0, diff_p1, Real.sqrt_sq_eq_abs]
  rw [abs_sub_comm (X default default p1)]
  change _ + (|X () () p0 - X () () p1| + |X () () p0 - X () () p1|) = _
  ring

theorem all80 (X : Unit → Unit → Grid N2 → ℝ) :
    objTV (wholeNorm fun _ => 1) gD s80 1 1 (.scalar 1) X =
      1 / 2 * ((X () () p0 - 8) ^ 2 + X () () p1 ^ 2) + (|X () () p0| + |X () () p1|) +
        Real.sqrt 2 * |X () () p0 - X () () p1| := by
  unfold objTV wholeNorm
  rw [data80, l1_80]
  simp only [Fintype.sum_unique, sum_grid2, one_mul]
  have e : (default : Fin 1) = 0 := rfl
  simp only [e, diff_p0, diff_p1]
  congr 1
  rw [← Real.sqrt_sq_eq_abs, ← Real.sqrt_mul (by norm_num)]
  congr 1
  change (X () () p0 - X () () p1) ^ 2 + (X () () p1 - X () () p0) ^ 2 = _
  ring

/-- The array with the two entries given. -/
def arr2 (u v : ℝ) : Unit → Unit → Grid N2 → ℝ := fun _ _ p => if p = p0 then u else v

theorem arr2_p0 (u v : ℝ) : arr2 u v () () p0 = u := if_pos rfl
theorem arr2_p1 (u v : ℝ) : arr2 u v () () p1 = v := if_neg p1_ne

/-- **`ConvBPDNScalarTV` does not solve the documented problem.** One filter with one sample of value 1, the
signal (8, 0), `lmbda = mu = 1`, default weights. The documented objective
`(1/2)((x₀ - 8)² + x₁²) + |x₀| + |x₁| + 2|x₀ - x₁|` has the minimiser (5, 1), with value 19. From any start and
with any options as in `C67_convscalartv_partial` the iterates tend to (7 - √2, √2 - 1), where the objective is
25 - 4√2. -/
theorem C67_convscalartv_refuted (q : COpts) (fe ge : Bool) (o : Opts) (ha : o.autoRho = false)
    (hrlx : 0 < o.rlx ∧ o.rlx < 2) (cb) (hcb : Bpdn.CallbackReads cb)
    (s : St (Coef Unit Unit N2) (YT Unit Unit N2) (YT Unit Unit N2) (Attr 0 Unit Unit N1 N2 0)) (hp : 0 < s.rho)
    (Xf : Spec Unit Unit N2 0) (hI : s.extra = setdict q s80 (fun _ => 1) s.rho gD Xf) :
    let C : Cls _ _ _ (Attr 0 Unit Unit N1 N2 0) := clsScalar q s80 1 1 (.scalar 1) (fun _ => 1) fe ge
    let T := traj C o cb s
    let F := objTV (scalarTV fun _ => 1) gD s80 1 1 (.scalar 1)
    IsMin F Set.univ (arr2 5 1) ∧ F (arr2 5 1) = 19 ∧
      Tendsto (fun n => part (T n).Y.snd () () p0) atTop (𝓝 (7 - Real.sqrt 2)) ∧
      Tendsto (fun n => part (T n).Y.snd () () p1) atTop (𝓝 (Real.sqrt 2 - 1)) ∧
      Tendsto (fun n => F (part (T n).Y.snd)) atTop (𝓝 (25 - 4 * Real.sqrt 2)) ∧
      19 < 25 - 4 * Real.sqrt 2 := by
  intro C T F
  have hq0 : 0 ≤ Real.sqrt 2 := Real.sqrt_nonneg 2
  have hq2 : Real.sqrt 2 ^ 2 = 2 := Real.sq_sqrt (by norm_num)
  have hq1 : 1 < Real.sqrt 2 := by nlinarith
  have hq3 : Real.sqrt 2 < 3 / 2 := by nlinarith
  obtain ⟨A, hA⟩ : ∃ A, A = objTV (K := Unit) (M := Unit) (wholeNorm fun _ => 1) gD s80 1 1 (.scalar 1) := ⟨_, rfl⟩
  obtain ⟨Xo, hX, -, -, h3⟩ := C67_convscalartv_partial (a := 0) (fun _ => by simp) (fun _ => le_rfl) q gD s80 1 1
    one_pos zero_le_one (.scalar 1) (fun _ => one_pos) (fun _ => 1) (Or.inr fun _ _ => rfl) fe ge o ha hrlx cb hcb s
    hp Xf hI
  simp only [← hA] at hX h3
  obtain ⟨q, hq⟩ : ∃ q, q = Real.sqrt 2 := ⟨_, rfl⟩
  rw [← hq] at hq0 hq2 hq1 hq3
  have hAx : ∀ X, A X = 1 / 2 * ((X () () p0 - 8) ^ 2 + X () () p1 ^ 2) + (|X () () p0| + |X () () p1|) +
      q * |X () () p0 - X () () p1| := by
    intro X; rw [hA, all80, hq]
  have hstar : A (arr2 (7 - q) (q - 1)) = 5 + 8 * q := by
    rw [hAx, arr2_p0, arr2_p1, abs_of_nonneg (by linarith), abs_of_nonneg (by linarith), abs_of_nonneg (by linarith)]
    nlinarith
  have hlow : ∀ X, A (arr2 (7 - q) (q - 1)) +
      1 / 2 * ((X () () p0 - (7 - q)) ^ 2 + (X () () p1 - (q - 1)) ^ 2) ≤ A X := by
    intro X
    rw [hstar, hAx]
    have a1 := le_abs_self (X () () p0)
    have a2 := le_abs_self (X () () p1)
    have a3 := mul_le_mul_of_nonneg_left (le_abs_self (X () () p0 - X () () p1)) hq0
    nlinarith
  have hmin : A Xo = A (arr2 (7 - q) (q - 1)) := by
    refine le_antisymm (hX.2 _ trivial) (le_trans ?_ (hlow Xo))
    nlinarith [sq_nonneg (Xo () () p0 - (7 - q)), sq_nonneg (Xo () () p1 - (q - 1))]
  have hz : Tendsto (fun n => 2 * (A (part (T n).Y.snd) - A (arr2 (7 - q) (q - 1)))) atTop (𝓝 0) := by
    have := (h3.sub_const (A (arr2 (7 - q) (q - 1)))).const_mul 2
    rw [hmin, sub_self, mul_zero] at this
    exact this
  have hsq : ∀ (f : ℕ → ℝ) (l : ℝ), (∀ n, (f n - l) ^ 2 ≤ 2 * (A (part (T n).Y.snd) - A (arr2 (7 - q) (q - 1)))) →
      Tendsto f atTop (𝓝 l) := by
    intro f l h
    have h1 : Tendsto (fun n => (f n - l) ^ 2) atTop (𝓝 0) :=
      squeeze_zero (fun n => sq_nonneg _) h hz
    have h2 : Tendsto (fun n => |f n - l|) atTop (𝓝 0) := by
      have := (Real.continuous_sqrt.tendsto 0).comp h1
      rw [Real.sqrt_zero] at this
      refine this.congr fun n => ?_
      exact Real.sqrt_sq_eq_abs _
    have h3 := (tendsto_zero_iff_abs_tendsto_zero _).2 h2
    have h4 := h3.add_const l
    simpa using h4
  have t0 : Tendsto (fun n => part (T n).Y.snd () () p0) atTop (𝓝 (7 - q)) := hsq _ _ fun n => by
    have := hlow (part (T n).Y.snd)
    nlinarith [sq_nonneg (part (T n).Y.snd () () p1 - (q - 1))]
  have t1 : Tendsto (fun n => part (T n).Y.snd () () p1) atTop (𝓝 (q - 1)) := hsq _ _ fun n => by
    have := hlow (part (T n).Y.snd)
    nlinarith [sq_nonneg (part (T n).Y.snd () () p0 - (7 - q))]
  have hF : F (arr2 5 1) = 19 := by
    change objTV _ _ _ _ _ _ _ = _
    rw [doc80, arr2_p0, arr2_p1]
    norm_num
  rw [← hq]
  refine ⟨⟨trivial, fun X _ => ?_⟩, hF, t0, t1, ?_, by linarith⟩
  · rw [hF]
    change _ ≤ objTV _ _ _ _ _ _ _
    rw [doc80]
    have a1 := le_abs_self (X () () p0)
    have a2 := le_abs_self (X () () p1)
    have a3 := le_abs_self (X () () p0 - X () () p1)
    nlinarith [sq_nonneg (X () () p0 - 5), sq_nonneg (X () () p1 - 1)]
  · have e : 25 - 4 * q = 1 / 2 * ((7 - q - 8) ^ 2 + (q - 1) ^ 2) + (|7 - q| + |q - 1|) +
        2 * |(7 - q) - (q - 1)| := by
      rw [abs_of_nonneg (by linarith), abs_of_nonneg (by linarith), abs_of_nonneg (by linarith)]
      nlinarith
    rw [e]
    have := ((((t0.sub_const 8).pow 2).add (t1.pow 2)).const_mul (1 / 2)).add (t0.abs.add t1.abs) |>.add
      (((t0.sub t1).abs).const_mul 2)
    refine this.congr fun n => ?_
    exact (doc80 _).symm

/-! ## The linear solver with different weights -/

/-- Two filters with one sample of value 1. -/
def dB : Dict 0 Bool N1 := fun _ _ _ => 1

/-- The weights 0 and 1. -/
def wB (m : Bool) : ℝ := if m then 1 else 0

/-- Coefficient arrays that are multiples of the signal (1, -1). -/
noncomputable def xB (u v : ℝ) : Unit → Bool → Grid N2 → ℝ := fun _ m p => (if m then v else u) * gS 0 () p

theorem gS_p0 : gS 0 () p0 = 1 := by
  unfold gS
  rw [Tv.Dec.pad_gradG 0 le_rfl]
  exact if_pos rfl

theorem gS_p1 : gS 0 () p1 = -1 := by
  unfold gS
  rw [Tv.Dec.pad_gradG 0 le_rfl]
  refine (if_neg p1_ne).trans (if_pos ?_)
  funext k
  fin_cases k
  rfl

theorem aug_xB (u v : ℝ) : augTV dB (0 : Signal 0 Unit N2) wB 1 0 0 (xB 1 0) 0 (xB u v) =
    (u + v) ^ 2 + 5 * v ^ 2 + (u - 1) ^ 2 := by
  unfold augTV dataTerm recon sumSq xB wB
  simp only [sum_chn, Fintype.sum_unique, sum_grid2, Fintype.sum_bool]
  have e : (default : Fin 1) = 0 := rfl
  have e1 : ∀ (m : Bool) (x : Grid N2 → ℝ) (p : Grid N2), filt (dB 0 m) x p = x p :=
    fun m x p => filt_one _ _ (fun _ => rfl) p
  have e2 : ∀ p, (0 : Signal 0 Unit N2) 0 default p = 0 := fun _ => rfl
  simp only [e, e1, e2, diff_p0, diff_p1, gS_p0, gS_p1]
  simp
  ring

/-- **The X update is wrong for a single-channel dictionary if `TVWeight` differs between filters.** `solvedbi_sm`, which
is for a scaled identity, is given the array `rho * GHGf + rho`. Two filters with one sample of value 1, weights 0
and 1, the signal (0, 0), `rho = 1`: the array computed is not a minimiser of the augmented Lagrangian, with or
without `HighMemSolve`. -/
theorem C40_convtv_xstep_refuted (q : COpts) (X0 : Coef Unit Bool N2) (Xf : Spec Unit Bool N2 0) :
    let Y : YT Unit Bool N2 := WithLp.toLp 2 (0, join (xB 1 0))
    let x := part (xstep wB 1 X0 Y 0 (setdict q (0 : Signal 0 Unit N2) wB 1 dB Xf)).1
    let F := augTV dB (0 : Signal 0 Unit N2) wB 1 (part Y.fst) 0 (part Y.snd) 0
    x = xB (2 / 3) (-1 / 15) ∧ F (xB (6 / 11) (-1 / 11)) < F x := by
  intro Y x F
  have hx : x = xB (2 / 3) (-1 / 15) := by
    have hdf : ∀ (i : Fin (0 + 1)) (n : Bool) (ξ : Half N2 0), dictF (N := N2) 0 dB i n ξ = 1 :=
      fun i n ξ => rf_gD i () ξ.1
    have hz : ∀ ξ : Grid N2, rf (fun _ => (0 : ℝ)) ξ = 0 := fun ξ => by
      have := rf_smul (N := N2) 0 (fun _ => (0 : ℝ)) ξ
      simpa using this
    have hds : ∀ (n : Bool) (ξ : Half N2 0), dsF (dictF 0 dB) (0 : Signal 0 Unit N2) () n ξ = 0 := by
      intro n ξ
      unfold dsF
      refine sum_eq_zero fun i _ => ?_
      have : sigF 0 (0 : Signal 0 Unit N2) i () ξ = 0 := hz ξ.1
      rw [this, mul_zero]
    have hy : ∀ (n : Bool) (ξ : Half N2 0), rfft N2 0 (part (Y - 0).snd () n) ξ =
        (if n then 0 else 1) * rf (gS 0 ()) ξ.1 := by
      intro n ξ
      have : part (Y - 0).snd () n = fun p => (if n then 0 else 1) * gS 0 () p := by
        funext p
        change xB 1 0 () n p - 0 = _
        rw [sub_zero]; rfl
      rw [this]
      change rf _ ξ.1 = _
      rw [rf_smul]
      cases n <;> simp
    have hy0 : ∀ (i : Fin 1) (n : Bool) (ξ : Half N2 0), rfft N2 0 (part (Y - 0).fst i ((), n)) ξ = 0 := by
      intro i n ξ
      have : part (Y - 0).fst i ((), n) = fun _ => 0 := by
        funext p
        change (0 : ℝ) - 0 = 0
        simp
      rw [this]
      exact hz ξ.1
    have hxf : ∀ m, (xstep wB 1 X0 Y 0 (setdict q (0 : Signal 0 Unit N2) wB 1 dB Xf)).2.Xf () m =
        rfft N2 0 (xB (2 / 3) (-1 / 15) () m) := by
      intro m
      funext ξ
      change _ = rf (fun p => (if m then -1 / 15 else 2 / 3) * gS 0 () p) ξ.1
      rw [rf_smul]
      have hs : (xstep wB 1 X0 Y 0 (setdict q (0 : Signal 0 Unit N2) wB 1 dB Xf)).2.Xf () m ξ =
          smE (fun _ => 1) (fun n => ((diagT 0 wB 1 n ξ : ℝ) : ℂ))
            (fun n => (if n then 0 else 1) * rf (gS 0 ()) ξ.1) none m := by
        have : (xstep wB 1 X0 Y 0 (setdict q (0 : Signal 0 Unit N2) wB 1 dB Xf)).2.Xf () m ξ =
          freqSolveT (fun i n => dictF (N := N2) 0 dB i n ξ) (fun n => ((diagT 0 wB 1 n ξ : ℝ) : ℂ))
            (fun n => dsF (dictF 0 dB) (0 : Signal 0 Unit N2) () n ξ +
              (1 : ℝ) * (rfft N2 0 (part (Y - 0).snd () n) ξ +
                wB n * ∑ i : Fin 1, conj (rfft N2 0 (pad N2 (Tv.Dec.gradG i)) ξ) *
                  rfft N2 0 (part (Y - 0).fst i ((), n)) ξ)) none m := by
          unfold xstep setdict
          by_cases hq : q.caches 0
          · simp only [if_pos hq]; rfl
          · simp only [if_neg hq]; rfl
        rw [this]
        simp only [hdf, hds, hy, hy0, mul_zero, sum_const_zero, add_zero, zero_add, Complex.ofReal_one, one_mul]
        rfl
      rw [hs]
      simp only [diagT_eq]
      unfold diagN
      rcases gS_or ξ.1 with h | h
      · rw [h]
        unfold smE
        simp [Linalg.inner]
      · rw [h]
        unfold smE smcE Linalg.inner wB
        simp only [Option.getD_none, Fintype.sum_bool]
        cases m
        · simp; ring
        · simp; ring
    funext u m
    change irfft N2 0 ((xstep wB 1 X0 Y 0 (setdict q (0 : Signal 0 Unit N2) wB 1 dB Xf)).2.Xf () m) = _
    rw [hxf, irfft_rfft]
  refine ⟨hx, ?_⟩
  have e : F = augTV dB (0 : Signal 0 Unit N2) wB 1 0 0 (xB 1 0) 0 := rfl
  rw [hx, e, aug_xB, aug_xB]
  norm_num

/-- **`NonNegCoef` is accepted and ignored.** With the option set, the auxiliary variable update of both classes
can give negative coefficients (any filters, signals and weights of 1; `lmbda = rho = 1` and `AX + U = -5`). -/
theorem C22_convtv_refuted {d c : ℕ} {N Nd : Fin d → ℕ} [∀ k, NeZero (N k)] {a : Fin d} {K M : Type*} [Fintype K]
    [Fintype M] [DecidableEq K] [DecidableEq M] (hm nb : Bool) (S : Signal c K N) (mu : ℝ) (wt : M → ℝ)
    (fe ge : Bool) (X : Coef K M N) (Y : YT K M N) (h : Attr c K M Nd N a) (k : K) (m : M) (p : Grid N) :
    let q : COpts := ⟨hm, true, nb⟩
    let AX : YT K M N := WithLp.toLp 2 (0, join fun _ _ _ => -5)
    part ((clsScalar q S 1 mu (.scalar 1) wt fe ge : Cls _ _ _ (Attr c K M Nd N a)).ystep 1 AX X Y 0 h).1.snd k m p =
      -4 ∧
    part ((clsVector q S 1 mu (.scalar 1) wt fe ge : Cls _ _ _ (Attr c K M Nd N a)).ystep 1 AX X Y 0 h).1.snd k m p =
      -4 := by
  intro q AX
  have e : ∀ i : K × M × Grid N, proxL1Arr (AX + 0).snd.ofLp (fun i => 1 / 1 * (L1W.scalar 1 : L1W M).arr i) i = -4 := by
    intro i
    have h5 : (AX + 0).snd.ofLp i = -5 := by
      change (-5 : ℝ) + 0 = -5
      ring
    unfold proxL1Arr
    simp only [h5, L1W.arr]
    unfold proxL1
    norm_num [npSign]
  exact ⟨e _, e _⟩

/-- The hypotheses of the theorems on shapes, weights and options are met by these examples. -/
example : (∀ n, N1 n ≤ N2 n) ∧ (∀ k, 2 ≤ N2 k) ∧ (∀ i : Unit × Bool × Grid N2, 0 < (L1W.filter fun m => if m then 2 else 1 : L1W Bool).arr i) :=
  ⟨fun _ => by simp, fun _ => le_rfl, fun i => by rcases i with ⟨_, m, _⟩; cases m <;> norm_num [L1W.arr]⟩

end Sporco.Conv.TVC
