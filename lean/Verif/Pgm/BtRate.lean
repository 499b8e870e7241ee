import Verif.Pgm.Backtrack

/-!
# Convergence rate with backtracking (C45)
-/

set_option autoImplicit false
set_option linter.unusedSectionVars false

namespace Sporco.Pgm

open scoped RealInnerProductSpace

variable {E : Type*} [NormedAddCommGroup E] [InnerProductSpace ℝ E]

theorem onStart_fields (C : Cls E) (o : Opts) (k : ℕ) (v : Vars E) :
    let r := onStart C o k v
    r.X = v.X ∧ r.Y = v.Y ∧ r.L = v.L ∧ r.t = v.t ∧ r.Xprv = v.X ∧ r.Tk = v.Tk ∧ r.Zrb = v.Zrb := by
  simp only
  unfold onStart
  simp only
  split_ifs <;> simp

section Standard
variable (C : Cls E) (o : Opts) (gu : ℝ) (m : ℕ) (hb : o.backtrack = .standard gu m)
  (hm : o.monotone = false) (cb : Option (St (Vars E) → Bool × Vars E)) (hcb : CallbackReads cb)
  (s : St (Vars E))

include hb hm in
/-- One iteration with standard backtracking and an accepted step. -/
theorem bt_step (hgu : 1 ≤ gu) (k : ℕ) (v : Vars E) (hL : 0 < v.L) (Lf : ℝ)
    (hf : ∀ x y, C.obfnF x ≤ C.obfnF y + ⟪C.gradF y, x - y⟫ + Lf / 2 * ‖x - y‖ ^ 2)
    (hlim : Lf ≤ v.L * gu ^ (m - 1)) (hm1 : 1 ≤ m) :
    let v' := mainStep C o k (onStart C o k v)
    v.L ≤ v'.L ∧ v'.L ≤ max v.L (gu * Lf) ∧ v'.t = o.momentum.next k v.t ∧
      v'.X = proxPoint C v'.L v.Y ∧ Majorised C v'.L v'.X v.Y ∧
      v'.Y = v'.X + ((v.t - 1) / v'.t) • (v'.X - v.X) := by
  obtain ⟨s1, s2, s3, s4, s5, -⟩ := onStart_fields C o k v
  simp only
  set w := onStart C o k v
  have a0 := C46_standard_mono C o gu m hb hm1 hgu k w (by rw [s3]; exact hL.le)
  obtain ⟨a1, a2, j, hj, a3, a4⟩ := C46_standard_smooth C o gu m hb hgu k w (by rw [s3]; exact hL) Lf hf
    (m - 1) (by rw [s3]; exact hlim) (by omega)
  obtain ⟨j', hj', f, Q, b1, b2, b3, b4, b5, b6, b7⟩ := C46_standard C o gu m hb hm1 k w
  have hjj : j' = j := by rw [b1] at a3; simpa using a3
  subst hjj
  rw [s3] at a0 a2 a4
  rw [s2] at a1
  refine ⟨a0, a2, ?_, ?_, a1, ?_⟩
  · have hp : o.stepPolicy = .none := by unfold Opts.stepPolicy; rw [hb]
    unfold mainStep
    rw [hb]
    simp only [btStandard]
    obtain ⟨-, c⟩ := btLoop_end C o hp k gu m 0 w hm1
    rw [(ystep_fields o k _).2.2.2.2.2.1, c.1, s4]
  · rw [b7 hm, s3, ← a4, s2]; rfl
  · have hp : o.stepPolicy = .none := by unfold Opts.stepPolicy; rw [hb]
    unfold mainStep
    rw [hb]
    simp only [btStandard]
    obtain ⟨-, c⟩ := btLoop_end C o hp k gu m 0 w hm1
    rw [(ystep_fields o k _).2.2.2.2.2.2 hm, (ystep_fields o k _).1, c.1, c.2.1, s4, s5]

include hb hm hcb in
/-- The step parameters of a run with standard backtracking. -/
theorem bt_run (hgu : 1 ≤ gu) (hL : 0 < s.v.L) (Lf : ℝ)
    (hf : ∀ x y, C.obfnF x ≤ C.obfnF y + ⟪C.gradF y, x - y⟫ + Lf / 2 * ‖x - y‖ ^ 2)
    (hlim : Lf ≤ s.v.L * gu ^ (m - 1)) (hm1 : 1 ≤ m) (n : ℕ) :
    let v := (traj (ops C o) o cb s n).v
    s.v.L ≤ v.L ∧ v.L ≤ max s.v.L (gu * Lf) := by
  induction n with
  | zero => exact ⟨le_rfl, le_max_left _ _⟩
  | succ n ih =>
    simp only
    rw [traj_v_reads _ _ _ hcb]
    obtain ⟨i1, i2⟩ := ih
    have hpow : 0 ≤ gu ^ (m - 1) := by positivity
    obtain ⟨h1, h2, -⟩ := bt_step C o gu m hb hm hgu (traj (ops C o) o cb s n).k
      (traj (ops C o) o cb s n).v (hL.trans_le i1) Lf hf (hlim.trans (mul_le_mul_of_nonneg_right i1 hpow)) hm1
    exact ⟨i1.trans h1, h2.trans (max_le i2 (le_max_right _ _))⟩

include hb hm hcb in
/-- The run with standard backtracking is an accelerated scheme. -/
theorem bt_scheme (Dg : Set E) (Lf : ℝ) (hC : Convex C Dg Lf) (hgu : 1 ≤ gu)
    (hadm : Admissible o.momentum) (hs : Fresh s) (hL : 0 < s.v.L)
    (hm1 : 1 ≤ m) (hlim : Lf ≤ s.v.L * gu ^ (m - 1))
    (xs : E) (hxs : xs ∈ Dg) (hmin : ∀ u ∈ Dg, C.F xs ≤ C.F u) :
    Scheme C.F Dg xs (iterX C o cb s) (fun n => (traj (ops C o) o cb s n).v.Y)
      (fun n => iterX C o cb s (n + 1)) (momSeq o.momentum) (fun n => (traj (ops C o) o cb s (n + 1)).v.L) := by
  have hrun := bt_run C o gu m hb hm cb hcb s hgu hL Lf hC.smooth.upper hlim hm1
  have hv : ∀ n, (traj (ops C o) o cb s (n + 1)).v =
      mainStep C o (traj (ops C o) o cb s n).k (onStart C o (traj (ops C o) o cb s n).k (traj (ops C o) o cb s n).v) :=
    fun n => traj_v_reads _ _ _ hcb _ _
  have hpow : 0 ≤ gu ^ (m - 1) := by positivity
  have hst := fun n => bt_step C o gu m hb hm hgu (traj (ops C o) o cb s n).k
      (traj (ops C o) o cb s n).v (hL.trans_le (hrun n).1) Lf hC.smooth.upper
      (hlim.trans (mul_le_mul_of_nonneg_right (hrun n).1 hpow)) hm1
  simp only [← hv] at hst
  have hLp : ∀ n, 0 < (traj (ops C o) o cb s n).v.L := fun n => hL.trans_le (hrun n).1
  have ht : ∀ n, (traj (ops C o) o cb s n).v.t = momSeq o.momentum n := by
    intro n
    induction n with
    | zero => exact hs.t
    | succ n ih => rw [(hst n).2.2.1, ih, traj_k0 C o cb s hs.k]; rfl
  have hx : ∀ n, iterX C o cb s (n + 1) =
      proxPoint C (traj (ops C o) o cb s (n + 1)).v.L (traj (ops C o) o cb s n).v.Y := fun n => (hst n).2.2.2.1
  refine ⟨⟨hxs, hmin⟩, fun n => ?_, fun n => hLp _, fun n => (hst (n + 1)).1, fun k => (hadm k).1,
    fun k => (hadm k).2, fun n u hu => ?_, fun n => le_rfl, fun n => ?_⟩
  · rw [hx]; exact hC.prox.mem _ _ (hLp _)
  · exact three_point hC.smooth.lower hC.prox (hLp (n + 1)) _ (hx n) (hst n).2.2.2.2.1 hu
  · have e := (hst n).2.2.2.2.2
    rw [ht, ht] at e
    have h1 := (hadm (n + 1)).1
    exact next_of_plain (by positivity) e

/-- **C45 with standard backtracking**: the same rate from any positive initial step
parameter, with `max(L₀, gamma_u Lf)` in place of the step parameter, provided the
iteration limit of the line search allows reaching `Lf`. -/
theorem C45_rate_backtrack (Dg : Set E) (Lf : ℝ) (hC : Convex C Dg Lf) (hgu : 1 ≤ gu)
    (hb : o.backtrack = .standard gu m) (hm : o.monotone = false) (hmom : o.momentum = .nesterov)
    (hcb : CallbackReads cb) (hs : Fresh s) (hL : 0 < s.v.L)
    (hm1 : 1 ≤ m) (hlim : Lf ≤ s.v.L * gu ^ (m - 1))
    (xs : E) (hxs : xs ∈ Dg) (hmin : ∀ u ∈ Dg, C.F xs ≤ C.F u) (k : ℕ) (hk : 1 ≤ k) :
    iterX C o cb s k ∈ Dg ∧
      C.F (iterX C o cb s k) - C.F xs ≤
        2 * max s.v.L (gu * Lf) * ‖s.v.X - xs‖ ^ 2 / (k + 1) ^ 2 := by
  have hrun := bt_run C o gu m hb hm cb hcb s hgu hL Lf hC.smooth.upper hlim hm1
  have hLp : ∀ n, 0 < (traj (ops C o) o cb s n).v.L := fun n => hL.trans_le (hrun n).1
  have hsch := bt_scheme C o gu m hb hm cb hcb s Dg Lf hC hgu (by rw [hmom]; exact admissible_nesterov) hs hL hm1
    hlim xs hxs hmin
  obtain ⟨n, rfl⟩ : ∃ n, k = n + 1 := ⟨k - 1, by omega⟩
  refine ⟨hsch.mem n, (hsch.rate rfl hs.Y n).trans ?_⟩
  rw [hmom]
  have h := (C48_nesterov n).1
  have hn : (0 : ℝ) ≤ n := Nat.cast_nonneg n
  have h2 : ((n : ℝ) + 2) ^ 2 ≤ 4 * momSeq .nesterov n ^ 2 := by nlinarith
  have hX : iterX C o cb s 0 = s.v.X := rfl
  rw [hX]
  push_cast
  rw [show (n : ℝ) + 1 + 1 = n + 2 by ring, div_le_div_iff₀ (by nlinarith) (by positivity)]
  have h3 := mul_le_mul_of_nonneg_right (hrun (n + 1)).2 (sq_nonneg ‖s.v.X - xs‖)
  have h4 := mul_le_mul_of_nonneg_left h2 (mul_nonneg (hLp (n + 1)).le (sq_nonneg ‖s.v.X - xs‖))
  have h5 := mul_le_mul_of_nonneg_right h3 (by positivity : 0 ≤ 4 * momSeq .nesterov n ^ 2)
  linarith

end Standard

/-! ## Robust backtracking -/

theorem robustT_spec {L T : ℝ} (hL : 0 < L) (hT : 0 ≤ T) :
    0 < robustT L T ∧ L * robustT L T ^ 2 = T + robustT L T ∧
      Real.sqrt T + 1 / (2 * Real.sqrt L) ≤ Real.sqrt (T + robustT L T) := by
  have h0 : 0 ≤ 1 + 4 * L * T := by positivity
  have hs := Real.sq_sqrt h0
  have hp : 0 < robustT L T := by unfold robustT; positivity
  have heq : L * robustT L T ^ 2 = T + robustT L T := by
    unfold robustT
    generalize Real.sqrt (1 + 4 * L * T) = r at hs
    field_simp
    nlinarith
  refine ⟨hp, heq, ?_⟩
  have hsL : 0 < Real.sqrt L := Real.sqrt_pos.2 hL
  have e : Real.sqrt (T + robustT L T) = Real.sqrt L * robustT L T := by
    rw [← heq, Real.sqrt_mul hL.le, Real.sqrt_sq hp.le]
  rw [e]
  have h1 : 2 * Real.sqrt L * Real.sqrt T ≤ Real.sqrt (1 + 4 * L * T) := by
    apply Real.le_sqrt_of_sq_le
    have := Real.sq_sqrt hL.le
    have := Real.sq_sqrt hT
    have e : (2 * Real.sqrt L * Real.sqrt T) ^ 2 = 4 * (Real.sqrt L ^ 2) * (Real.sqrt T ^ 2) := by ring
    rw [e, Real.sq_sqrt hL.le, Real.sq_sqrt hT]; linarith
  have e2 : Real.sqrt L * robustT L T = (1 + Real.sqrt (1 + 4 * L * T)) / (2 * Real.sqrt L) := by
    unfold robustT
    rw [mul_div_assoc', div_eq_div_iff (by positivity) (by positivity)]
    have h2 := Real.sq_sqrt hL.le
    calc _ = (1 + Real.sqrt (1 + 4 * L * T)) * (2 * Real.sqrt L ^ 2) := by ring
      _ = _ := by rw [h2]
  rw [e2, le_div_iff₀ (by positivity), add_mul, div_mul_cancel₀ _ (by positivity)]
  nlinarith

section Robust
variable (C : Cls E) (o : Opts) (gd gu : ℝ) (m : ℕ) (hb : o.backtrack = .robust gd gu m)
  (hm : o.monotone = false) (cb : Option (St (Vars E) → Bool × Vars E)) (hcb : CallbackReads cb)
  (s : St (Vars E))

/-- The line search of every iteration succeeded: the recorded `F` is at most the
recorded `Q` (`F_Btrack`, `Q_Btrack` of the iteration statistics). -/
def SearchesSucceed (C : Cls E) (o : Opts) (cb : Option (St (Vars E) → Bool × Vars E))
    (s : St (Vars E)) : Prop :=
  ∀ n f Q, (traj (ops C o) o cb s (n + 1)).v.F = some f → (traj (ops C o) o cb s (n + 1)).v.Q = some Q → f ≤ Q

include hb hm in
/-- One iteration with robust backtracking and an accepted step. -/
theorem rb_step (hm1 : 1 ≤ m) (hgd : 0 < gd) (hgd1 : gd ≤ 1) (hgu : 1 ≤ gu) (k : ℕ) (v : Vars E)
    (hL : 0 < v.L) (Lf : ℝ)
    (hf : ∀ x y, C.obfnF x ≤ C.obfnF y + ⟪C.gradF y, x - y⟫ + Lf / 2 * ‖x - y‖ ^ 2)
    (hacc : ∀ f Q, (mainStep C o k (onStart C o k v)).F = some f →
      (mainStep C o k (onStart C o k v)).Q = some Q → f ≤ Q) :
    let v' := mainStep C o k (onStart C o k v)
    0 < v'.L ∧ v'.L ≤ max v.L (gu * Lf) ∧ v'.Tk = v.Tk + robustT v'.L v.Tk ∧
      v'.X = proxPoint C v'.L v'.Y ∧ Majorised C v'.L v'.X v'.Y ∧
      v'.Y = robustY v'.L v.Tk v.X (v.Zrb.getD v.X) ∧
      v'.Zrb = some (v.Zrb.getD v.X + (robustT v'.L v.Tk * v'.L) • (v'.X - v'.Y)) := by
  have hp : o.stepPolicy = .none := by unfold Opts.stepPolicy; rw [hb]
  obtain ⟨s1, s2, s3, s4, s5, s6, s7⟩ := onStart_fields C o k v
  simp only
  set w := onStart C o k v
  unfold mainStep at *
  rw [hb] at *
  simp only [btRobust] at *
  obtain ⟨⟨j, f, Q, a1, a2, a3, a4, a5, a6, a7, a8, a9, a10⟩, c1, c2⟩ :=
    rbLoop_end C o hp k gu (w.Zrb.getD w.X) m 0 0 { w with L := w.L * gd } hm1
  simp only at a6 a7 a8 a9 a10 c2
  have hle := hacc f Q a3 a4
  set r := rbLoop C o k gu (w.Zrb.getD w.X) m 0 (0, { w with L := w.L * gd })
  obtain ⟨-, c3, c4, c5, -⟩ := c2
  have hgu0 : 0 < gu := by linarith
  have hr1 : r.1 = robustT r.2.L w.Tk := c1 f Q a3 a4 hle
  have hrL : r.2.L = w.L * gd * gu ^ j := by
    rcases a10 with h | h
    · exact h.2
    · exact absurd hle (not_le.2 h.1)
  rw [← hrL] at a6 a7 a8
  rw [hr1, c4, s6, s7, s1]
  rw [s1, s6, s5, s7] at a6
  refine ⟨?_, ?_, rfl, a8 hm, ?_, a6, rfl⟩
  · rw [hrL, s3]; positivity
  · rw [hrL, s3]
    cases j with
    | zero =>
      rw [pow_zero, mul_one]
      exact le_trans (mul_le_of_le_one_right hL.le hgd1) (le_max_left _ _)
    | succ j =>
      have hrej : w.L * gd * gu ^ j < Lf := by
        by_contra hc
        obtain ⟨x, -, hx⟩ := a9 j (by omega)
        exact absurd (not_rejected hf (not_lt.1 hc) x _) (not_le.2 hx)
      refine le_trans ?_ (le_max_right _ _)
      have := mul_le_mul_of_nonneg_left hrej.le hgu0.le
      rw [s3] at this
      rw [pow_succ]; linarith
  · unfold Majorised
    rw [← a5]
    rw [a7] at hle
    exact hle

include hb hm hcb in
/-- **C45 with robust backtracking**: from any positive initial step parameter, as long as
the line searches succeed, the excess after `k` iterations is at most
`2 max(L₀, gamma_u Lf) ‖x₀ - x*‖² / k²`. -/
theorem C45_rate_robust (Dg : Set E) (Lf : ℝ) (hC : Convex C Dg Lf) (hm1 : 1 ≤ m) (hgd : 0 < gd)
    (hgd1 : gd ≤ 1) (hgu : 1 ≤ gu) (hs : Fresh s) (hL : 0 < s.v.L) (hacc : SearchesSucceed C o cb s)
    (xs : E) (hxs : xs ∈ Dg) (hmin : ∀ u ∈ Dg, C.F xs ≤ C.F u) (k : ℕ) (hk : 1 ≤ k) :
    iterX C o cb s k ∈ Dg ∧
      C.F (iterX C o cb s k) - C.F xs ≤ 2 * max s.v.L (gu * Lf) * ‖s.v.X - xs‖ ^ 2 / k ^ 2 := by
  have hv : ∀ n, (traj (ops C o) o cb s (n + 1)).v =
      mainStep C o (traj (ops C o) o cb s n).k (onStart C o (traj (ops C o) o cb s n).k (traj (ops C o) o cb s n).v) :=
    fun n => traj_v_reads _ _ _ hcb _ _
  have hstep := fun n hLn => rb_step C o gd gu m hb hm hm1 hgd hgd1 hgu (traj (ops C o) o cb s n).k
    (traj (ops C o) o cb s n).v hLn Lf hC.smooth.upper (by rw [← hv]; exact hacc n)
  simp only [← hv] at hstep
  set M := max s.v.L (gu * Lf) with hM
  have hM0 : 0 < M := lt_of_lt_of_le hL (le_max_left _ _)
  have hsM : 0 < Real.sqrt M := Real.sqrt_pos.2 hM0
  -- the invariant
  have inv : ∀ n, let v := (traj (ops C o) o cb s n).v
      0 < v.L ∧ v.L ≤ M ∧ 0 ≤ v.Tk ∧ (n : ℝ) / (2 * Real.sqrt M) ≤ Real.sqrt v.Tk ∧
      (v.Tk = 0 ∨ v.X ∈ Dg) ∧ (1 ≤ n → v.X ∈ Dg) ∧
      2 * v.Tk * (C.F v.X - C.F xs) + ‖v.Zrb.getD v.X - xs‖ ^ 2 ≤ ‖s.v.X - xs‖ ^ 2 := by
    intro n
    induction n with
    | zero =>
      refine ⟨hL, le_max_left _ _, hs.Tk.ge, ?_, Or.inl hs.Tk, by omega, ?_⟩
      · simp [traj, hs.Tk]
      · simp [traj, hs.Tk, hs.Zrb]
    | succ n ih =>
      obtain ⟨i1, i2, i3, i4, i5, -, i6⟩ := ih
      obtain ⟨b1, b2, b3, b4, b5, b6, b7⟩ := hstep n i1
      simp only
      set v := (traj (ops C o) o cb s n).v
      set v' := (traj (ops C o) o cb s (n + 1)).v
      have hLM : v'.L ≤ M := b2.trans (max_le i2 (le_max_right _ _))
      obtain ⟨t1, t2, t3⟩ := robustT_spec b1 i3
      have hT : 0 < v.Tk + robustT v'.L v.Tk := by linarith
      have hmem : v'.X ∈ Dg := by rw [b4]; exact hC.prox.mem _ _ b1
      refine ⟨b1, hLM, by rw [b3]; exact hT.le, ?_, Or.inr hmem, fun _ => hmem, ?_⟩
      · rw [b3]
        refine le_trans ?_ t3
        have h1 : 1 / (2 * Real.sqrt M) ≤ 1 / (2 * Real.sqrt v'.L) := by
          have : 0 < Real.sqrt v'.L := Real.sqrt_pos.2 b1
          have := Real.sqrt_le_sqrt hLM
          gcongr
        push_cast
        rw [add_div]
        linarith
      · refine le_trans ?_ i6
        rw [b7, b3]
        simp only [Option.getD_some]
        have hy : (v.Tk + robustT v'.L v.Tk) • v'.Y = v.Tk • v.X + robustT v'.L v.Tk • v.Zrb.getD v.X := by
          rw [b6]
          unfold robustY
          rw [smul_smul, mul_one_div_cancel hT.ne', one_smul]
        exact robust_step b1 t1 i3 hxs i5 t2 hy
          (fun u hu => three_point hC.smooth.lower hC.prox b1 _ b4 b5 hu)
  obtain ⟨i1, i2, i3, i4, i5, i6, i7⟩ := inv k
  refine ⟨i6 hk, ?_⟩
  have hk0 : (0 : ℝ) < k := by exact_mod_cast hk
  have hge : 0 ≤ C.F (iterX C o cb s k) - C.F xs := sub_nonneg.2 (hmin _ (i6 hk))
  have h1 : (k : ℝ) ^ 2 / (4 * M) ≤ (traj (ops C o) o cb s k).v.Tk := by
    have h2 := pow_le_pow_left₀ (by positivity) i4 2
    rw [Real.sq_sqrt i3, div_pow, mul_pow, Real.sq_sqrt hM0.le] at h2
    norm_num at h2 ⊢
    exact h2
  have h3 := mul_le_mul_of_nonneg_right h1 hge
  have h4 : 2 * ((k : ℝ) ^ 2 / (4 * M) * (C.F (iterX C o cb s k) - C.F xs)) ≤ ‖s.v.X - xs‖ ^ 2 := by
    have := sq_nonneg ‖(traj (ops C o) o cb s k).v.Zrb.getD (traj (ops C o) o cb s k).v.X - xs‖
    have i8 : 2 * (traj (ops C o) o cb s k).v.Tk * (C.F (iterX C o cb s k) - C.F xs) +
      ‖(traj (ops C o) o cb s k).v.Zrb.getD (traj (ops C o) o cb s k).v.X - xs‖ ^ 2 ≤ ‖s.v.X - xs‖ ^ 2 := i7
    linarith
  rw [le_div_iff₀ (by positivity)]
  have h5 := mul_le_mul_of_nonneg_left h4 (by positivity : 0 ≤ 2 * M)
  have e : 2 * M * (2 * ((k : ℝ) ^ 2 / (4 * M) * (C.F (iterX C o cb s k) - C.F xs))) =
      (C.F (iterX C o cb s k) - C.F xs) * k ^ 2 := by
    field_simp
    ring
  linarith

end Robust
end Sporco.Pgm
