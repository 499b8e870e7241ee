import Verif.Pgm.BtRate
import Verif.Pgm.Bpdn

/-!
# C68: what the residual of a proximal gradient solver says about the iterate
-/

set_option autoImplicit false

namespace Sporco.Pgm

open scoped RealInnerProductSpace

variable {E : Type*} [NormedAddCommGroup E] [InnerProductSpace ℝ E]

/-- Suboptimality of a proximal gradient step in terms of its length, for any positive step
parameter. -/
theorem step_bound {f g : E → ℝ} {gf : E → E} {Dg : Set E} {prox : ℝ → E → E} {Lf L : ℝ}
    (hf : Smooth f gf Lf) (hp : ProxOf g Dg prox) (hL : 0 < L) (y z : E)
    (hz : z = prox L (y - (1 / L) • gf y)) {u : E} (hu : u ∈ Dg) :
    f z + g z ≤ f u + g u + L * ‖z - y‖ * ‖u - z‖ + Lf / 2 * ‖z - y‖ ^ 2 := by
  have h1 := Admm.subgrad_of_min hp.convex LinearMap.id (-(y - (1 / L) • gf y)) L
    (x := prox L (y - (1 / L) • gf y)) (hp.mem L _ hL)
    (fun w hw => by
      simp only [LinearMap.id_coe, id_eq, ← sub_eq_add_neg]
      exact hp.min L _ hL w hw) hu
  simp only [LinearMap.id_coe, id_eq, ← hz] at h1
  have e1 : ⟪z + -(y - (1 / L) • gf y), u - z⟫ = ⟪z - y, u - z⟫ + (1 / L) * ⟪gf y, u - z⟫ := by
    rw [← real_inner_smul_left, ← inner_add_left]; congr 1; abel
  have h2 := hf.lower u y
  have h3 := hf.upper z y
  have e2 : ⟪gf y, u - y⟫ = ⟪gf y, u - z⟫ + ⟪gf y, z - y⟫ := by
    rw [← inner_add_right]; congr 1; abel
  have h4 : ⟪z - y, u - z⟫ ≤ ‖z - y‖ * ‖u - z‖ := real_inner_le_norm _ _
  have h5 := mul_le_mul_of_nonneg_left h4 hL.le
  rw [e1, mul_add, ← mul_assoc, mul_one_div_cancel hL.ne', one_mul] at h1
  rw [e2] at h2
  linarith

/-- The options under which the residual is that of the step just taken. -/
def PlainSearch (o : Opts) : Prop :=
  o.backtrack = .none ∨ ∃ gu n, o.backtrack = .standard gu n ∧ 1 ≤ n ∧ 1 ≤ gu

omit [NormedAddCommGroup E] [InnerProductSpace ℝ E] in
theorem storeBB_fields (o : Opts) (v : Vars E) (g : E) :
    (storeBB o v g).Y = v.Y ∧ (storeBB o v g).L = v.L ∧ (storeBB o v g).Yprv = v.Yprv := by
  unfold storeBB; split <;> simp

theorem xstepG_policy (C : Cls E) (o : Opts) (hm : o.monotone = false) (k : ℕ) (grad : E) (v : Vars E) :
    let r := xstepG C o k grad v
    r.Y = v.Y ∧ r.Yprv = v.Yprv ∧ r.X = C.proxG r.L (v.Y - (1 / r.L) • grad) := by
  obtain ⟨h1, h2, h3⟩ := storeBB_fields o { v with L := stepL C o k v grad } grad
  simp only [xstepG, safeguard, hm, Bool.false_eq_true, false_and, if_false]
  simp only at h1 h2 h3
  exact ⟨h1, h3, by rw [h1]⟩

theorem ystep_yprv (o : Opts) (k : ℕ) (v : Vars E) : (ystep o k v).Yprv = v.Yprv := by
  unfold ystep; simp only; split_ifs <;> rfl

/-- What an iteration with a plain search does: a proximal gradient step from the point the
residual is measured from, with a parameter not above the recorded one. -/
theorem plain_iter (C : Cls E) (o : Opts) (hf : o.fastSolve = false) (hm : o.monotone = false)
    (hb : PlainSearch o) (k : ℕ) (v : Vars E) :
    let v' := mainStep C o k (onStart C o k v)
    v'.Yprv = v.Y ∧ ∃ L, v'.X = proxPoint C L v.Y ∧ (0 < v'.L → 0 < L ∧ L ≤ v'.L) := by
  simp only
  have hY : (onStart C o k v).Yprv = v.Y ∧ (onStart C o k v).Y = v.Y := by
    unfold onStart; simp [hf, hm]
  set w := onStart C o k v
  rcases hb with hb | ⟨gu, n, hb, hn, hgu⟩
  · unfold mainStep
    rw [hb]
    simp only
    obtain ⟨h1, h2, h3⟩ := xstepG_policy C o hm k (C.gradF w.Y) w
    obtain ⟨y1, y2, -⟩ := ystep_fields o k (xstep C o k w)
    refine ⟨(ystep_yprv o k _).trans (h2.trans hY.1), (xstep C o k w).L, ?_, ?_⟩
    · rw [y1]
      unfold xstep proxPoint
      rw [h3, hY.2]
    · rw [y2]; exact fun h => ⟨h, le_rfl⟩
  · obtain ⟨j, hj, f, Q, -, -, -, -, -, b6, b7⟩ := C46_standard C o gu n hb hn k w
    refine ⟨?_, w.L * gu ^ j, ?_, ?_⟩
    · have hp : o.stepPolicy = .none := by unfold Opts.stepPolicy; rw [hb]
      unfold mainStep
      rw [hb]
      simp only [btStandard]
      have := (btLoop_end C o hp k gu n 0 w hn).2.2.2.2.2.1
      rw [ystep_yprv, this, hY.1]
    · rw [b7 hm, hY.2]; rfl
    · intro hpos
      have hgu0 : 0 < gu := by linarith
      rcases b6 with ⟨-, e⟩ | ⟨-, hjn, e⟩
      · rw [e] at hpos ⊢; exact ⟨hpos, le_rfl⟩
      · rw [e] at hpos ⊢
        have h0 : 0 < w.L := by
          by_contra hc
          have := mul_nonpos_of_nonpos_of_nonneg (not_lt.1 hc) (pow_pos hgu0 n).le
          linarith
        exact ⟨by positivity, by
          have : gu ^ j ≤ gu ^ n := pow_le_pow_right₀ hgu hj.le
          exact mul_le_mul_of_nonneg_left this h0.le⟩

/-! ## C68 -/

/-- **C68.** For every convex problem, every momentum, step size policy, number of passes of the
standard line search, stopping options and callback (which may change the solver), from every
starting state: at each iteration the objective at the new X, which is the one recorded, exceeds
the objective at any other feasible `z` by at most `L Rsdl ‖z - X‖ + Lf/2 Rsdl²`, where `L` and
`Rsdl` are the step parameter and the residual in the statistics of that iteration, if `L` is
positive. Hence X is a minimiser if the residual is zero.

Not with `Monotone` or the robust line search (`C68_monotone_refuted`, `C68_robust_refuted`), and
without `FastSolve`, which records nothing. -/
theorem C68_partial (C : Cls E) (Dg : Set E) (Lf : ℝ) (hC : Convex C Dg Lf) (o : Opts)
    (hf : o.fastSolve = false) (hm : o.monotone = false) (hb : PlainSearch o)
    (cb : Option (St (Vars E) → Bool × Vars E)) (s : St (Vars E)) (n : ℕ) :
    let seen := atCallback (ops C o) o (traj (ops C o) o cb s n)
    ∃ e, seen.itstat.getLast? = some e ∧ e.iter = s.k + n ∧
      (traj (ops C o) o cb s (n + 1)).itstat = seen.itstat ∧
      (0 < e.L → seen.v.X ∈ Dg ∧ e.obj.1 = C.F seen.v.X ∧
        (∀ z ∈ Dg, C.F seen.v.X ≤ C.F z + e.L * e.rsdl * ‖z - seen.v.X‖ + Lf / 2 * e.rsdl ^ 2) ∧
        (e.rsdl = 0 → ∀ z ∈ Dg, C.F seen.v.X ≤ C.F z)) := by
  intro seen
  have hs : seen = _ := C50_callback_view (ops C o) o (traj (ops C o) o cb s n) hf
  have hv : seen.v = after (ops C o) (traj (ops C o) o cb s n) := by rw [hs]
  refine ⟨entryOf (ops C o) (traj (ops C o) o cb s n), by rw [hs]; simp, ?_, ?_, fun hL => ?_⟩
  · exact traj_k _ _ _ _ _
  · rw [hs, traj_itstat, traj_itstat]
    simp [hf, List.range_succ]
  obtain ⟨h1, L, h2, h3⟩ := plain_iter C o hf hm hb (traj (ops C o) o cb s n).k (traj (ops C o) o cb s n).v
  obtain ⟨p1, p2⟩ := h3 hL
  set y := (traj (ops C o) o cb s n).v.Y
  set e := entryOf (ops C o) (traj (ops C o) o cb s n) with he
  have hX : seen.v.X = proxPoint C L y := by rw [hv]; exact h2
  have hr : e.rsdl = ‖seen.v.X - y‖ := by
    change rsdl o _ _ = _
    unfold rsdl
    rw [hv, hm]
    simp only [Bool.false_eq_true, false_and, if_false]
    exact congrArg (fun t => ‖_ - t‖) h1
  have hB : ∀ z ∈ Dg, C.F seen.v.X ≤ C.F z + e.L * e.rsdl * ‖z - seen.v.X‖ + Lf / 2 * e.rsdl ^ 2 := by
    intro z hz
    have h := step_bound hC.smooth hC.prox p1 y seen.v.X hX hz
    rw [← hr] at h
    have hr0 : 0 ≤ e.rsdl := by rw [hr]; positivity
    have : L * e.rsdl * ‖z - seen.v.X‖ ≤ e.L * e.rsdl * ‖z - seen.v.X‖ :=
      mul_le_mul_of_nonneg_right (mul_le_mul_of_nonneg_right p2 hr0) (norm_nonneg _)
    unfold Cls.F
    linarith
  refine ⟨by rw [hX]; exact hC.prox.mem L _ p1, ?_, hB, fun h0 z hz => ?_⟩
  · rw [hv]
    change (statOf C o _ _ _).obj.1 = _
    unfold statOf
    rw [hm]
    rfl
  · have := hB z hz
    rw [h0] at this
    simpa using this

/-- **C68, what `solve()` returns.** With a callback that only reads: the X that `solve()` returns
is within `L Rsdl ‖z - X‖ + Lf/2 Rsdl²` of the objective at any feasible `z`, for the values in the
last entry of the statistics; and if `solve()` returns before `MaxMainIter` iterations, without a
request of the callback, then `Rsdl` is below the tolerance. -/
theorem C68_solve_partial (C : Cls E) (Dg : Set E) (Lf : ℝ) (hC : Convex C Dg Lf) (o : Opts)
    (hf : o.fastSolve = false) (hm : o.monotone = false) (hb : PlainSearch o) (hauto : o.autoStop = false)
    (hmax : 1 ≤ o.maxMainIter)
    (cb : Option (St (Vars E) → Bool × Vars E)) (hcb : CallbackReads cb) (s : St (Vars E)) :
    let r := solve (ops C o) o cb s
    ∃ e, r.itstat.getLast? = some e ∧ e.iter + 1 = r.k ∧
      (0 < e.L → r.v.X ∈ Dg ∧ e.obj.1 = C.F r.v.X ∧
        (∀ z ∈ Dg, C.F r.v.X ≤ C.F z + e.L * e.rsdl * ‖z - r.v.X‖ + Lf / 2 * e.rsdl ^ 2)) ∧
      (r.k < s.k + o.maxMainIter → (∀ f t, cb = some f → (f t).1 = false) → e.rsdl < o.relStopTol) := by
  intro r
  obtain ⟨n, n1, n2, h3, h4, -, h6⟩ := C50_solve_partial (ops C o) o cb s hmax
  obtain ⟨m, rfl⟩ : ∃ m, n = m + 1 := ⟨n - 1, by omega⟩
  obtain ⟨e, e1, e2, e3, e4⟩ := C68_partial C Dg Lf hC o hf hm hb cb s m
  have hr : r = _ := h3
  have hrk : r.k = _ := h4
  have hseen : (atCallback (ops C o) o (traj (ops C o) o cb s m)).v = r.v := by
    rw [hr, traj_v_reads _ _ _ hcb, C50_callback_view _ _ _ hf]
  refine ⟨e, by rw [hr, e3, e1], by rw [e2, hrk]; ring, fun hL => ?_, fun hlt hno => ?_⟩
  · obtain ⟨a, b, c, -⟩ := e4 hL
    rw [hseen] at a b c
    exact ⟨a, b, c⟩
  · have hst := (C50_stop_condition (ops C o) o cb _).1 (h6 (by omega))
    rcases hst with ⟨f, hf1, hf2⟩ | ⟨-, h⟩
    · rw [hno f _ hf1] at hf2; cases hf2
    · rw [hauto] at h
      rw [C50_callback_view _ _ _ hf] at e1
      simp only [List.getLast?_append, List.getLast?_singleton, Option.some_or, Option.some.injEq] at e1
      rw [← e1]
      exact h

end Sporco.Pgm
