import Verif.Pgm.Stops
import Mathlib.Topology.Order.IntermediateValue
import Mathlib.Topology.Instances.Real.Lemmas

/-!
# C68: where the residual does not certify the iterate
-/

set_option autoImplicit false

namespace Sporco.Pgm

open scoped RealInnerProductSpace

variable {E : Type*} [NormedAddCommGroup E] [InnerProductSpace ℝ E]

/-! ## Linear momentum and `Monotone` -/

/-- **C68 does not hold with `Monotone`.** With `MomentumLinear` the residual recorded in the second
iteration is zero for every convex problem, so that every `solve()` with a positive `RelStopTol`
stops after at most two proximal gradient steps, whatever the objective then is. -/
theorem C68_monotone_linear_refuted (C : Cls E) (Dg : Set E) (Lf : ℝ) (hC : Convex C Dg Lf) (o : Opts)
    (hf : o.fastSolve = false) (hm : o.monotone = true) (hb : o.backtrack = .none) (hp : o.policy = .none)
    (b : ℝ) (hb2 : 0 < b) (hmom : o.momentum = .linear b) (hauto : o.autoStop = false)
    (htol : 0 < o.relStopTol) (hmax : 2 ≤ o.maxMainIter)
    (s : St (Vars E)) (hs : Fresh s) (hL : 0 < s.v.L) (hLf : Lf ≤ s.v.L) (hX0 : s.v.X ∈ Dg) :
    rsdlAt C o .none s 1 = 0 ∧ (solve (ops C o) o .none s).k ≤ 2 := by
  have hcb : CallbackReads (V := Vars E) .none := fun _ _ h => by cases h
  have hst := fun j => plain_step C o hb hp (traj (ops C o) o .none s j).k (traj (ops C o) o .none s j).v
  have hv : ∀ n, (traj (ops C o) o .none s (n + 1)).v =
      mainStep C o (traj (ops C o) o .none s n).k (onStart C o (traj (ops C o) o .none s n).k (traj (ops C o) o .none s n).v) :=
    fun n => traj_v_reads _ _ _ hcb _ _
  have hLn := traj_L C o hb hp .none hcb s
  have ht := traj_t C o hb hp .none hcb s hs.k hs.t
  have hk := traj_k0 C o .none s hs.k
  have t0 : (traj (ops C o) o .none s 0).v.t = 1 := ht 0
  have t1 : (traj (ops C o) o .none s 1).v.t = 1 := by
    rw [ht, hmom]; simp [momSeq, Momentum.next, linearUpdate, hb2.ne']
  -- first iteration
  obtain ⟨x1, o1, y1⟩ := (hst 0).2.2.2.1 hm (hk 0)
  rw [← hv] at x1 o1 y1
  rw [t0, sub_self, zero_div, zero_smul, add_zero] at y1
  have ex0 : (traj (ops C o) o .none s 0).v.X = s.v.X := rfl
  have ey0 : (traj (ops C o) o .none s 0).v.Y = s.v.X := hs.Y
  -- second iteration: accepted
  obtain ⟨h2, y2⟩ := (hst 1).2.2.2.2 hm (by rw [hk]; omega)
  rw [← hv] at h2 y2
  rw [t1, sub_self, zero_div, zero_smul, add_zero] at y2
  have hacc : (traj (ops C o) o .none s 2).v.X =
      proxPoint C (traj (ops C o) o .none s 1).v.L (traj (ops C o) o .none s 1).v.Y := by
    rcases h2 with ⟨h, -, -⟩ | ⟨-, h, -⟩
    · exfalso
      rw [o1] at h
      have d1 := descent hC hL hLf s.v.X
      have d2 := descent hC hL hLf (proxPoint C s.v.L s.v.X)
      have e1 : (traj (ops C o) o .none s 1).v.Y = proxPoint C s.v.L s.v.X := by
        rw [y1, x1, hLn, ey0]
      rw [hLn, e1, ex0] at h
      have a1 := d1.2 s.v.X hX0
      have a2 := d2.2 _ d1.1
      simp only [sub_self, norm_zero] at a1 a2
      have n1 := mul_nonneg hL.le (sq_nonneg ‖s.v.X - proxPoint C s.v.L s.v.X‖)
      have n2 := mul_nonneg hL.le (sq_nonneg ‖proxPoint C s.v.L s.v.X -
        proxPoint C s.v.L (proxPoint C s.v.L s.v.X)‖)
      have hobj : (C.objfn s.v.X).1 = C.F s.v.X := rfl
      rw [hobj] at h
      nlinarith
    · exact h
  have hr : rsdlAt C o .none s 1 = 0 := by
    rw [rsdlAt_mono C o hf hm hb hp .none hcb s hs.k, if_neg one_ne_zero, norm_eq_zero, sub_eq_zero]
    change (traj (ops C o) o .none s 2).v.X = (traj (ops C o) o .none s 2).v.Y
    rw [y2, ← hacc, sub_self, smul_zero, add_zero]
  refine ⟨hr, ?_⟩
  obtain ⟨n, n1, n2, h3, h4, h5, -⟩ := C50_solve_partial (ops C o) o .none s (by omega)
  rw [h4, hs.k, zero_add]
  by_contra hlt
  apply h5 1 (by omega)
  rw [C50_stop_condition]
  right
  refine ⟨hf, ?_⟩
  rw [hauto]
  simp only [Bool.false_eq_true, if_false]
  have : (ops C o).rsdl (traj (ops C o) o .none s 1).k (after (ops C o) (traj (ops C o) o .none s 1)) = 0 := hr
  rw [this]
  exact htol

/-! ## A quadratic in one dimension -/

/-- The problem of minimising `a x²/2`. -/
noncomputable def exA (a : ℝ) : Cls ℝ :=
  ⟨fun x => a * x, fun _ x => x, fun x => a * x, fun x => a / 2 * x ^ 2, fun _ => 0⟩

theorem exA_convex (a : ℝ) (ha : 0 ≤ a) : Convex (exA a) Set.univ a where
  smooth := by
    constructor
    · intro x y
      simp only [exA, RCLike.inner_apply, conj_trivial]
      nlinarith [mul_nonneg ha (sq_nonneg (x - y))]
    · intro x y
      simp only [exA, RCLike.inner_apply, conj_trivial, Real.norm_eq_abs, sq_abs]
      nlinarith
  prox := by
    refine ⟨convexOn_const _ convex_univ, fun _ _ _ => Set.mem_univ _, fun L v hL z _ => ?_⟩
    simp only [exA, sub_self, norm_zero]
    have := sq_nonneg ‖z - v‖
    nlinarith

theorem exA_prox (a y : ℝ) : proxPoint (exA a) 1 y = (1 - a) * y := by
  simp only [proxPoint, exA, smul_eq_mul]; ring

theorem exA_F (a x : ℝ) : (exA a).F x = a / 2 * x ^ 2 := by simp [Cls.F, exA]

/-- `C68_monotone_linear_refuted` applied: minimising `a x²/2`, here from 1 with L = 2, X after two
steps is 1/4. -/
example (o : Opts) (hf : o.fastSolve = false) (hm : o.monotone = true) (hb : o.backtrack = .none)
    (hp : o.policy = .none) (hmom : o.momentum = .linear 2) (hauto : o.autoStop = false)
    (htol : 0 < o.relStopTol) (hmax : 2 ≤ o.maxMainIter) :
    (solve (ops (exA 1) o) o .none (exAt 2 1)).k ≤ 2 :=
  (C68_monotone_linear_refuted (exA 1) Set.univ 1 (exA_convex 1 zero_le_one) o hf hm hb hp 2 two_pos hmom hauto
    htol hmax (exAt 2 1) (exAt_fresh 2 1) two_pos one_le_two trivial).2

/-- **C68 does not hold with `Monotone`, for the default momentum.** For a suitable `a` in (0, 1),
minimising `a x²/2` from 1 with `L = 1`, the residual recorded in the fourth iteration is zero but
the iterate is not the minimiser 0. -/
theorem C68_monotone_refuted :
    ∃ a : ℝ, 0 < a ∧ a < 1 ∧ Convex (exA a) Set.univ a ∧ Fresh (exAt 1 1) ∧ (exAt 1 1).v.L = 1 ∧
      rsdlAt (exA a) (exMono .nesterov) .none (exAt 1 1) 3 = 0 ∧
      (exA a).F 0 < (exA a).F (iterX (exA a) (exMono .nesterov) .none (exAt 1 1) 4) := by
  obtain ⟨t, ht⟩ : ∃ t, t = momSeq .nesterov := ⟨_, rfl⟩
  have hn := fun k => C48_nesterov k
  rw [← ht] at hn
  have ht0 : t 0 = 1 := by rw [ht]; rfl
  have g1 := (hn 1).1; have g2 := (hn 2).1; have g3 := (hn 3).1; have g4 := (hn 4).1
  have q1 := (hn 0).2.2; have q2 := (hn 1).2.2; have q3 := (hn 2).2.2
  norm_num at g1 g2 g3 g4 q1 q2 q3
  obtain ⟨b, hb⟩ : ∃ b, b = (t 1 - 1) / t 2 := ⟨_, rfl⟩
  obtain ⟨c, hc⟩ : ∃ c, c = (t 2 - 1) / t 3 := ⟨_, rfl⟩
  have m12 : t 1 ≤ t 2 := by nlinarith
  have m23 : t 2 ≤ t 3 := by nlinarith
  have b0 : 0 < b := by rw [hb]; apply div_pos <;> linarith
  have c0 : 0 < c := by rw [hc]; apply div_pos <;> linarith
  have b1 : b < 1 := by rw [hb, div_lt_one (by linarith)]; linarith
  have c1 : c < 1 := by rw [hc, div_lt_one (by linarith)]; linarith
  obtain ⟨r, hr⟩ : ∃ r, r = b / ((1 + b) * (1 + c)) := ⟨_, rfl⟩
  have hrr : r * ((1 + b) * (1 + c)) = b := by rw [hr]; field_simp
  have r0 : 0 < r := by rw [hr]; positivity
  have r1 : r < 1 := by
    rw [hr, div_lt_one (by positivity)]; nlinarith
  obtain ⟨w, hw⟩ : ∃ w, w = r + b * (r - 1) := ⟨_, rfl⟩
  have hw2 : w = -(c * (1 + b)) * r := by rw [hw]; linear_combination hrr
  have hw3 : w + c * (w - 1) = -(c * (1 + b)) := by
    rw [hw]; linear_combination hrr
  have w0 : w < 0 := by rw [hw2]; nlinarith [mul_pos (mul_pos c0 (by linarith : 0 < 1 + b)) r0]
  have w1 : -1 < w := by
    rw [hw]; nlinarith
  have ha : 0 < 1 - r := by linarith
  refine ⟨1 - r, ha, by linarith, exA_convex _ ha.le, exAt_fresh 1 1, rfl, ?_⟩
  obtain ⟨o, ho⟩ : ∃ o, o = exMono .nesterov := ⟨_, rfl⟩
  obtain ⟨C, hCd⟩ : ∃ C, C = exA (1 - r) := ⟨_, rfl⟩
  have hbt : o.backtrack = .none := by rw [ho]; rfl
  have hp : o.policy = .none := by rw [ho]; rfl
  have hm : o.monotone = true := by rw [ho]; rfl
  have hf : o.fastSolve = false := by rw [ho]; rfl
  have hmom : o.momentum = .nesterov := by rw [ho]; rfl
  rw [← ho, ← hCd]
  have hs := exAt_fresh 1 1
  have hcb : CallbackReads (V := Vars ℝ) .none := fun _ _ h => by cases h
  have hst := fun j => plain_step C o hbt hp (traj (ops C o) o .none (exAt 1 1) j).k (traj (ops C o) o .none (exAt 1 1) j).v
  have hv : ∀ n, (traj (ops C o) o .none (exAt 1 1) (n + 1)).v =
      mainStep C o (traj (ops C o) o .none (exAt 1 1) n).k (onStart C o (traj (ops C o) o .none (exAt 1 1) n).k
        (traj (ops C o) o .none (exAt 1 1) n).v) := fun n => traj_v_reads _ _ _ hcb _ _
  have hLn : ∀ n, (traj (ops C o) o .none (exAt 1 1) n).v.L = 1 := traj_L C o hbt hp .none hcb (exAt 1 1)
  have htt := traj_t C o hbt hp .none hcb (exAt 1 1) hs.k hs.t
  rw [hmom, ← ht] at htt
  have hk := traj_k0 C o .none (exAt 1 1) hs.k
  have hP : ∀ y, proxPoint C 1 y = r * y := by intro y; rw [hCd, exA_prox]; ring
  have hF : ∀ x, C.F x = (1 - r) / 2 * x ^ 2 := by intro x; rw [hCd, exA_F]
  obtain ⟨u, hu⟩ : ∃ u : ℕ → Vars ℝ, u = fun n => (traj (ops C o) o .none (exAt 1 1) n).v := ⟨_, rfl⟩
  have hun : ∀ n, (traj (ops C o) o .none (exAt 1 1) n).v = u n := fun n => by rw [hu]
  simp only [← hv] at hst
  simp only [hun] at hst
  simp only [hun] at hLn htt
  have hst0 : ∀ n, 0 < n → ((u n).objfn.1 < C.F (r * (u n).Y) ∧ (u (n + 1)).X = (u n).X ∧
        (u (n + 1)).objfn = (u n).objfn ∨
      C.F (r * (u n).Y) ≤ (u n).objfn.1 ∧ (u (n + 1)).X = r * (u n).Y ∧
        (u (n + 1)).objfn = C.objfn (r * (u n).Y)) ∧
      (u (n + 1)).Y = (u (n + 1)).X + (t n / t (n + 1)) * (r * (u n).Y - (u (n + 1)).X) +
        ((t n - 1) / t (n + 1)) * ((u (n + 1)).X - (u n).X) := by
    intro n hn0
    have := (hst n).2.2.2.2 hm (by rw [hk]; exact hn0)
    rw [hLn, hP, htt, htt] at this
    simpa only [smul_eq_mul] using this
  -- an accepted step
  have acc : ∀ n, 0 < n → C.F (r * (u n).Y) ≤ (u n).objfn.1 →
      (u (n + 1)).X = r * (u n).Y ∧ (u (n + 1)).objfn.1 = C.F (r * (u n).Y) ∧
      (u (n + 1)).Y = (u (n + 1)).X + ((t n - 1) / t (n + 1)) * ((u (n + 1)).X - (u n).X) := by
    intro n hn0 hle
    obtain ⟨h, hy⟩ := hst0 n hn0
    rcases h with ⟨h, -⟩ | ⟨-, h2, h3⟩
    · exact absurd hle (not_le.2 h)
    · refine ⟨h2, by rw [h3]; rfl, ?_⟩
      rw [hy, h2]; ring
  have u0X : (u 0).X = 1 := by rw [hu]; rfl
  have u0Y : (u 0).Y = 1 := by rw [hu]; rfl
  obtain ⟨x1, o1, y1⟩ := (hst 0).2.2.2.1 hm (by rw [hk])
  rw [hLn, hP, u0Y, mul_one, zero_add] at x1
  rw [htt, ht0, sub_self, zero_div, zero_smul, add_zero, zero_add, x1] at y1
  rw [zero_add, u0X] at o1
  have o1' : (u 1).objfn.1 = C.F 1 := by rw [o1]; rfl
  obtain ⟨x2, o2, y2⟩ := acc 1 one_pos (by 
    rw [y1, o1', hF, hF]
    have h1 : (r * r) ^ 2 ≤ 1 ^ 2 := pow_le_pow_left₀ (by positivity) (by nlinarith) 2
    exact mul_le_mul_of_nonneg_left h1 (by linarith))
  rw [y1] at x2 o2
  rw [x2, x1, ← hb, show r * r + b * (r * r - r) = r * w by rw [hw]; ring] at y2
  obtain ⟨x3, o3, y3⟩ := acc 2 two_pos (by
    rw [y2, o2, hF, hF]
    have h1 : (r * (r * w)) ^ 2 ≤ (r * r) ^ 2 := by
      have : w ^ 2 ≤ 1 := by nlinarith
      calc (r * (r * w)) ^ 2 = (r * r) ^ 2 * w ^ 2 := by ring
        _ ≤ (r * r) ^ 2 * 1 := by gcongr
        _ = _ := by ring
    exact mul_le_mul_of_nonneg_left h1 (by linarith))
  rw [y2] at x3 o3
  rw [x3, x2, ← hc, show r * (r * w) + c * (r * (r * w) - r * r) = r * r * (w + c * (w - 1)) by ring, hw3,
    show r * r * -(c * (1 + b)) = r * w by rw [hw2]; ring] at y3
  obtain ⟨x4, o4, y4⟩ := acc 3 three_pos (by rw [y3, o3])
  rw [y3] at x4
  rw [x4, x3, sub_self, mul_zero, add_zero] at y4
  have hX4 : iterX C o .none (exAt 1 1) 4 = r * (r * w) := by
    unfold iterX; rw [hun]; exact x4
  constructor
  · rw [rsdlAt_mono C o hf hm hbt hp .none hcb (exAt 1 1) hs.k, if_neg (by norm_num), hX4, hun, y4]
    simp
  · rw [hX4, hF, hF]
    have : 0 < (r * (r * w)) ^ 2 := by
      have : r * (r * w) ≠ 0 := mul_ne_zero r0.ne' (mul_ne_zero r0.ne' w0.ne)
      positivity
    rw [zero_pow two_ne_zero, mul_zero]
    exact mul_pos (by linarith) this

/-! ## The robust line search -/

/-- Options with the robust line search. -/
noncomputable def exRob : Opts := ⟨false, 100, 0, false, 0, false, .nesterov, .none, .robust 1 2 10⟩

/-- One iteration with the robust line search for `a x²/2`, `a <= 1`, at step parameter 1. -/
theorem rob_one (a : ℝ) (ha1 : a ≤ 1) (k : ℕ) (v : Vars ℝ) (hL : v.L = 1) :
    let v' := mainStep (exA a) exRob k (onStart (exA a) exRob k v)
    v'.L = 1 ∧ v'.Tk = v.Tk + robustT 1 v.Tk ∧ v'.X = (1 - a) * v'.Y ∧
      v'.Y = 1 / (v.Tk + robustT 1 v.Tk) * (v.Tk * v.X + robustT 1 v.Tk * v.Zrb.getD v.X) ∧
      v'.Zrb = some (v.Zrb.getD v.X + robustT 1 v.Tk * (v'.X - v'.Y)) ∧ v'.Yprv = v.Y := by
  have hup : ∀ x y : ℝ, (exA a).obfnF x ≤ (exA a).obfnF y + ⟪(exA a).gradF y, x - y⟫ + a / 2 * ‖x - y‖ ^ 2 := by
    intro x y
    simp only [exA, RCLike.inner_apply, conj_trivial, Real.norm_eq_abs, sq_abs]
    nlinarith
  obtain ⟨s1, s2, s3, s4, s5, s6, s7⟩ := onStart_fields (exA a) exRob k v
  have hLw : (onStart (exA a) exRob k v).L = 1 := by rw [s3, hL]
  have h1 := C46_robust_smooth (exA a) exRob 1 2 10 rfl one_pos le_rfl one_le_two k (onStart (exA a) exRob k v)
    (by rw [hLw]; exact one_pos) a hup 0 (by rw [hLw]; simpa using ha1) (by norm_num)
  obtain ⟨hmaj, -, j, hj, -, hL'⟩ := h1
  obtain rfl : j = 0 := by omega
  rw [hLw, one_mul, pow_zero, mul_one] at hL'
  have hr := rb_step (exA a) exRob 1 2 10 rfl rfl (by norm_num) one_pos le_rfl one_le_two k v
    (by rw [hL]; exact one_pos) a hup (by
      intro f Q hf hQ
      obtain ⟨j', -, f', Q', -, b2, b3, b4, b5, b6, -⟩ := C46_robust (exA a) exRob 1 2 10 rfl (by norm_num) k
        (onStart (exA a) exRob k v)
      rw [b2] at hf; rw [b3] at hQ
      simp only [Option.some.injEq] at hf hQ
      subst hf hQ
      rcases b6 with b6 | ⟨b6, b7, b8⟩
      · exact b6.1
      · rw [hL', hLw] at b8; norm_num at b8)
  simp only at hr ⊢
  obtain ⟨-, -, r3, r4, -, r6, r7⟩ := hr
  rw [hL'] at r3 r4 r6 r7
  refine ⟨hL', r3, by rw [r4, exA_prox], ?_, ?_, ?_⟩
  · rw [r6]; rfl
  · rw [r7]; simp only [mul_one, smul_eq_mul]
  · have hp : exRob.stepPolicy = .none := rfl
    have hY : (onStart (exA a) exRob k v).Yprv = v.Y := by unfold onStart; simp [exRob]
    have h := (rbLoop_end (exA a) exRob hp k 2 ((onStart (exA a) exRob k v).Zrb.getD (onStart (exA a) exRob k v).X)
      10 0 0 { onStart (exA a) exRob k v with L := (onStart (exA a) exRob k v).L * 1 } (by norm_num)).2.2.2.2.2.2.1
    simp only at h
    rw [hY] at h
    exact h

theorem robustT_one {T : ℝ} (hT : 0 ≤ T) : robustT 1 T ^ 2 = T + robustT 1 T ∧ 1 ≤ robustT 1 T := by
  have h := Real.sq_sqrt (show (0 : ℝ) ≤ 1 + 4 * T by positivity)
  have h2 : 1 ≤ Real.sqrt (1 + 4 * T) := Real.one_le_sqrt.2 (by linarith)
  unfold robustT
  simp only [mul_one]
  constructor <;> nlinarith

/-- **C68 does not hold with the robust line search.** The residual is measured from the Y of the
iteration before: for a suitable `a` in (0, 1), minimising `a x²/2` from 1 with `L = 1` (no trial
step is rejected), the residual recorded in the fourth iteration is zero but the iterate is not the
minimiser 0. -/
theorem C68_robust_refuted :
    ∃ a : ℝ, 0 < a ∧ a < 1 ∧ Convex (exA a) Set.univ a ∧ Fresh (exAt 1 1) ∧ (exAt 1 1).v.L = 1 ∧
      rsdlAt (exA a) exRob .none (exAt 1 1) 3 = 0 ∧
      (exA a).F 0 < (exA a).F (iterX (exA a) exRob .none (exAt 1 1) 4) := by
  have hT0 : robustT 1 0 = 1 := by norm_num [robustT]
  obtain ⟨t1, ht1⟩ : ∃ t, t = robustT 1 1 := ⟨_, rfl⟩
  obtain ⟨t2, ht2⟩ : ∃ t, t = robustT 1 (1 + t1) := ⟨_, rfl⟩
  obtain ⟨t3, ht3⟩ : ∃ t, t = robustT 1 (1 + t1 + t2) := ⟨_, rfl⟩
  obtain ⟨p1, q1⟩ := robustT_one (T := 1) zero_le_one
  rw [← ht1] at p1 q1
  obtain ⟨p2, q2⟩ := robustT_one (T := 1 + t1) (by linarith)
  rw [← ht2] at p2 q2
  obtain ⟨p3, q3⟩ := robustT_one (T := 1 + t1 + t2) (by linarith)
  rw [← ht3] at p3 q3
  have g1 : 1 < t1 := by nlinarith
  -- the iterates divided by r
  obtain ⟨z2, hz2⟩ : ∃ z : ℝ → ℝ, z = fun r => 1 - t1 * (1 - r) := ⟨_, rfl⟩
  obtain ⟨y2, hy2⟩ : ∃ y : ℝ → ℝ, y = fun r => 1 / (1 + t1 + t2) * ((1 + t1) * r + t2 * z2 r) := ⟨_, rfl⟩
  obtain ⟨z3, hz3⟩ : ∃ z : ℝ → ℝ, z = fun r => z2 r + t2 * (r * y2 r - y2 r) := ⟨_, rfl⟩
  obtain ⟨y3, hy3⟩ : ∃ y : ℝ → ℝ, y = fun r => 1 / (1 + t1 + t2 + t3) * ((1 + t1 + t2) * (r * y2 r) + t3 * z3 r) :=
    ⟨_, rfl⟩
  have cz2 : Continuous z2 := by rw [hz2]; fun_prop
  have cy2 : Continuous y2 := by rw [hy2]; fun_prop
  have cz3 : Continuous z3 := by rw [hz3]; fun_prop
  have cy3 : Continuous y3 := by rw [hy3]; fun_prop
  obtain ⟨r0, hr0⟩ : ∃ r0, r0 = t2 * (t1 - 1) / (1 + t1 + t2 * t1) := ⟨_, rfl⟩
  have hden : 0 < 1 + t1 + t2 * t1 := by nlinarith
  have hr0e : r0 * (1 + t1 + t2 * t1) = t2 * (t1 - 1) := by rw [hr0]; field_simp
  have hr0p : 0 < r0 := by rw [hr0]; apply div_pos (mul_pos (by linarith) (by linarith)) hden
  have hr01 : r0 < 1 := by rw [hr0, div_lt_one hden]; nlinarith
  have hy2e : ∀ r, (1 + t1 + t2) * y2 r = (1 + t1 + t2 * t1) * (r - r0) := by
    intro r
    rw [hy2, hz2]
    have : (1 + t1 + t2) ≠ 0 := by linarith
    field_simp
    linear_combination hr0e
  have y20 : y2 0 < 0 := by
    have := hy2e 0
    by_contra hc
    nlinarith [mul_pos hden hr0p]
  have y2r : y2 r0 = 0 := by
    have := hy2e r0
    rw [sub_self, mul_zero] at this
    rcases mul_eq_zero.1 this with h | h
    · linarith
    · exact h
  have z2r : z2 r0 < 0 := by
    have h : (1 + t1) * r0 + t2 * z2 r0 = 0 := by
      rw [hz2]; linear_combination hr0e
    by_contra hc
    nlinarith [mul_nonneg (by linarith : 0 ≤ t2) (not_lt.1 hc)]
  have hI := intermediate_value_Icc' hr0p.le
    ((continuous_id.mul cy3).sub cy2).continuousOn (f := fun r => r * y3 r - y2 r)
  have hmem : (0 : ℝ) ∈ Set.Icc (r0 * y3 r0 - y2 r0) (0 * y3 0 - y2 0) := by
    constructor
    · rw [y2r, sub_zero]
      have e : y3 r0 = 1 / (1 + t1 + t2 + t3) * (t3 * z2 r0) := by
        rw [hy3, hz3]; simp only [y2r]; ring
      rw [e]
      have : 0 < 1 / (1 + t1 + t2 + t3) := by apply div_pos one_pos; linarith
      have h2 : t3 * z2 r0 < 0 := mul_neg_of_pos_of_neg (by linarith) z2r
      exact (mul_neg_of_pos_of_neg hr0p (mul_neg_of_pos_of_neg this h2)).le
    · rw [zero_mul, zero_sub]; linarith
  obtain ⟨r, ⟨hr1, hr2⟩, hroot⟩ := hI hmem
  simp only at hroot
  have hr_lt : r < r0 := by
    rcases hr2.lt_or_eq with h | h
    · exact h
    · exfalso
      rw [h, y2r, sub_zero] at hroot
      have e : y3 r0 = 1 / (1 + t1 + t2 + t3) * (t3 * z2 r0) := by
        rw [hy3, hz3]; simp only [y2r]; ring
      rw [e] at hroot
      have : 0 < 1 / (1 + t1 + t2 + t3) := by apply div_pos one_pos; linarith
      have h2 : t3 * z2 r0 < 0 := mul_neg_of_pos_of_neg (by linarith) z2r
      have := mul_neg_of_pos_of_neg hr0p (mul_neg_of_pos_of_neg this h2)
      linarith
  have y2neg : y2 r < 0 := by
    have := hy2e r
    by_contra hc
    nlinarith [mul_pos hden (sub_pos.2 hr_lt), mul_nonneg (by linarith : 0 ≤ 1 + t1 + t2) (not_lt.1 hc)]
  have r_pos : 0 < r := by
    rcases hr1.lt_or_eq with h | h
    · exact h
    · exfalso
      rw [← h, zero_mul, zero_sub] at hroot
      linarith
  have ha : 0 < 1 - r := by linarith
  refine ⟨1 - r, ha, by linarith, exA_convex _ ha.le, exAt_fresh 1 1, rfl, ?_⟩
  obtain ⟨C, hCd⟩ : ∃ C, C = exA (1 - r) := ⟨_, rfl⟩
  rw [← hCd]
  have hcb : CallbackReads (V := Vars ℝ) .none := fun _ _ h => by cases h
  have hv : ∀ n, (traj (ops C exRob) exRob .none (exAt 1 1) (n + 1)).v =
      mainStep C exRob (traj (ops C exRob) exRob .none (exAt 1 1) n).k (onStart C exRob
        (traj (ops C exRob) exRob .none (exAt 1 1) n).k (traj (ops C exRob) exRob .none (exAt 1 1) n).v) :=
    fun n => traj_v_reads _ _ _ hcb _ _
  obtain ⟨u, hu⟩ : ∃ u : ℕ → Vars ℝ, u = fun n => (traj (ops C exRob) exRob .none (exAt 1 1) n).v := ⟨_, rfl⟩
  have hun : ∀ n, (traj (ops C exRob) exRob .none (exAt 1 1) n).v = u n := fun n => by rw [hu]
  have step : ∀ n, (u n).L = 1 → (u (n + 1)).L = 1 ∧ (u (n + 1)).Tk = (u n).Tk + robustT 1 (u n).Tk ∧
      (u (n + 1)).X = r * (u (n + 1)).Y ∧
      (u (n + 1)).Y = 1 / ((u n).Tk + robustT 1 (u n).Tk) *
        ((u n).Tk * (u n).X + robustT 1 (u n).Tk * (u n).Zrb.getD (u n).X) ∧
      (u (n + 1)).Zrb = some ((u n).Zrb.getD (u n).X + robustT 1 (u n).Tk * ((u (n + 1)).X - (u (n + 1)).Y)) ∧
      (u (n + 1)).Yprv = (u n).Y := by
    intro n hL
    have := rob_one (1 - r) (by linarith) (traj (ops C exRob) exRob .none (exAt 1 1) n).k (u n) hL
    rw [← hCd] at this
    have e := hv n
    rw [hun, hun] at e
    rw [← e] at this
    simpa only [sub_sub_cancel] using this
  have u0 : (u 0).X = 1 ∧ (u 0).Tk = 0 ∧ (u 0).Zrb = .none ∧ (u 0).L = 1 := by rw [hu]; exact ⟨rfl, rfl, rfl, rfl⟩
  obtain ⟨l1, T1, x1, y1, zz1, -⟩ := step 0 u0.2.2.2
  rw [zero_add] at l1 T1 x1 y1 zz1
  rw [u0.2.1, hT0, zero_add] at T1
  rw [u0.1, u0.2.1, u0.2.2.1, hT0] at y1
  norm_num at y1
  rw [y1, mul_one] at x1
  rw [u0.2.2.1, u0.1, u0.2.1, hT0, x1, y1, Option.getD_none] at zz1
  rw [show (1 : ℝ) + 1 * (r - 1) = r by ring] at zz1
  obtain ⟨l2, T2, x2, y2', zz2, -⟩ := step 1 l1
  norm_num only at l2 T2 x2 y2' zz2
  rw [T1, ← ht1] at T2
  rw [T1, x1, zz1, ← ht1, Option.getD_some] at y2'
  have y2'' : (u 2).Y = r := by
    rw [y2']
    have : (1 : ℝ) + t1 ≠ 0 := by linarith
    field_simp
  rw [y2''] at x2
  rw [zz1, T1, ← ht1, x2, y2'', Option.getD_some,
    show r + t1 * (r * r - r) = r * z2 r by rw [hz2]; ring] at zz2
  obtain ⟨l3, T3, x3, y3', zz3, -⟩ := step 2 l2
  norm_num only at l3 T3 x3 y3' zz3
  rw [T2, ← ht2] at T3
  rw [T2, x2, zz2, ← ht2, Option.getD_some] at y3'
  have y3'' : (u 3).Y = r * y2 r := by
    rw [y3', hy2]; ring
  rw [y3''] at x3
  rw [zz2, T2, ← ht2, x3, y3'', Option.getD_some,
    show r * z2 r + t2 * (r * (r * y2 r) - r * y2 r) = r * z3 r by rw [hz3]; ring] at zz3
  obtain ⟨l4, T4, x4, y4', zz4, yp4⟩ := step 3 l3
  norm_num only at l4 T4 x4 y4' zz4 yp4
  rw [T3, x3, zz3, ← ht3, Option.getD_some] at y4'
  have y4'' : (u 4).Y = r * y3 r := by
    rw [y4', hy3]; ring
  have hX : (u 4).X = r * y2 r := by
    rw [x4, y4'']; linear_combination r * hroot
  have hX4 : iterX C exRob .none (exAt 1 1) 4 = r * y2 r := by
    unfold iterX; rw [hun]; exact hX
  constructor
  · change rsdl exRob (traj (ops C exRob) exRob .none (exAt 1 1) 3).k (after (ops C exRob) (traj (ops C exRob) exRob .none (exAt 1 1) 3)) = 0
    rw [← traj_v_reads _ _ _ hcb, hun]
    change ‖(u 4).X - (u 4).Yprv‖ = 0
    rw [hX, yp4, y3'', sub_self, norm_zero]
  · rw [hX4, hCd, exA_F, exA_F]
    have : 0 < (r * y2 r) ^ 2 := by
      have : r * y2 r ≠ 0 := mul_ne_zero r_pos.ne' y2neg.ne
      positivity
    rw [zero_pow two_ne_zero, mul_zero]
    exact mul_pos (by linarith) this

end Sporco.Pgm
