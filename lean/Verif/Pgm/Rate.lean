import Verif.Pgm.Loop
import Verif.Pgm.Accel
import Mathlib.Tactic.Ring
import Mathlib.Tactic.FieldSimp

/-!
# Momentum (C48) and convergence rate (C45) of `PGM`
-/

set_option autoImplicit false
set_option linter.unusedSectionVars false

namespace Sporco.Pgm

open scoped RealInnerProductSpace

/-! ## C48: momentum numbers -/

/-- The momentum numbers a solver object goes through: 1 at construction, then one update
per iteration with the iteration number counted from 0. -/
noncomputable def momSeq (m : Momentum) : ℕ → ℝ
  | 0 => 1
  | k + 1 => m.next k (momSeq m k)

/-- **C48, Nesterov.** -/
theorem C48_nesterov (k : ℕ) :
    (k + 2 : ℝ) / 2 ≤ momSeq .nesterov k ∧ 1 ≤ momSeq .nesterov k ∧
      momSeq .nesterov (k + 1) ^ 2 - momSeq .nesterov (k + 1) = momSeq .nesterov k ^ 2 := by
  have hs : ∀ t : ℝ, 0 ≤ t → nesterovUpdate t ^ 2 - nesterovUpdate t = t ^ 2 ∧ t + 1 / 2 ≤ nesterovUpdate t := by
    intro t ht
    have h := Real.sq_sqrt (show (0 : ℝ) ≤ 1 + 4 * t ^ 2 by positivity)
    have h2 : 2 * t ≤ Real.sqrt (1 + 4 * t ^ 2) := Real.le_sqrt_of_sq_le (by nlinarith)
    unfold nesterovUpdate
    constructor
    · nlinarith
    · linarith
  have h1 : (k + 2 : ℝ) / 2 ≤ momSeq .nesterov k := by
    induction k with
    | zero => simp [momSeq]
    | succ k ih =>
      have h0 : (0 : ℝ) ≤ momSeq .nesterov k := le_trans (by positivity) ih
      have := (hs _ h0).2
      change _ ≤ nesterovUpdate (momSeq .nesterov k)
      push_cast
      linarith
  have h0 : (0 : ℝ) ≤ (k : ℝ) := Nat.cast_nonneg k
  exact ⟨h1, by linarith, (hs _ (by linarith)).1⟩

theorem lin_cond (b c : ℝ) (hb : 2 ≤ b) (hc : 0 ≤ c) :
    ((c + 1) / b) ^ 2 - (c + 1) / b ≤ (c / b) ^ 2 := by
  have hb0 : 0 < b := by linarith
  rw [div_pow, div_pow, sub_le_iff_le_add, div_le_iff₀ (by positivity)]
  have : (c ^ 2 / b ^ 2 + (c + 1) / b) * b ^ 2 = c ^ 2 + (c + 1) * b := by field_simp
  rw [this]
  nlinarith

/-- **C48, linear** with `b >= 2`. -/
theorem C48_linear (b : ℝ) (hb : 2 ≤ b) (k : ℕ) :
    (k + b - 1) / b ≤ momSeq (.linear b) k ∧ 1 ≤ momSeq (.linear b) k ∧
      momSeq (.linear b) (k + 1) ^ 2 - momSeq (.linear b) (k + 1) ≤ momSeq (.linear b) k ^ 2 := by
  have hb0 : 0 < b := by linarith
  have hk : (0 : ℝ) ≤ (k : ℝ) := Nat.cast_nonneg k
  have e : ∀ j : ℕ, momSeq (.linear b) (j + 1) = (j + b) / b := fun _ => rfl
  cases k with
  | zero =>
    refine ⟨?_, le_rfl, ?_⟩
    · change _ ≤ (1 : ℝ)
      rw [div_le_one hb0]; push_cast; linarith
    · rw [e]
      change _ ≤ (1 : ℝ) ^ 2
      simp [hb0.ne']
  | succ j =>
    have hj : (0 : ℝ) ≤ (j : ℝ) := Nat.cast_nonneg j
    refine ⟨?_, ?_, ?_⟩
    · rw [e]
      apply le_of_eq; push_cast; ring
    · rw [e, le_div_iff₀ hb0]; linarith
    · rw [e, e]
      have := lin_cond b (j + b) hb (by linarith)
      push_cast
      rw [show (j : ℝ) + 1 + b = j + b + 1 by ring]
      exact this

/-- **C48, generalised linear** with `a >= b >= 2`: the condition holds from the second
number on. -/
theorem C48_genLinear_partial (a b : ℝ) (hb : 2 ≤ b) (hab : b ≤ a) (k : ℕ) :
    1 ≤ momSeq (.genLinear a b) k ∧ (1 ≤ k →
      momSeq (.genLinear a b) (k + 1) ^ 2 - momSeq (.genLinear a b) (k + 1) ≤
        momSeq (.genLinear a b) k ^ 2) := by
  have hb0 : 0 < b := by linarith
  have e : ∀ j : ℕ, momSeq (.genLinear a b) (j + 1) = (j + a) / b := fun _ => rfl
  cases k with
  | zero => exact ⟨le_rfl, by omega⟩
  | succ j =>
    have hj : (0 : ℝ) ≤ (j : ℝ) := Nat.cast_nonneg j
    refine ⟨?_, fun _ => ?_⟩
    · rw [e, le_div_iff₀ hb0]; linarith
    · rw [e, e]
      have := lin_cond b (j + a) hb (by linarith)
      push_cast
      rw [show (j : ℝ) + 1 + a = j + a + 1 by ring]
      exact this

/-- **C48 fails for the first step of `MomentumGenLinear` with its default parameters**
`a = 50`, `b = 2`: the numbers go from 1 to 25. -/
theorem C48_genLinear_refuted :
    ¬ (momSeq (.genLinear 50 2) 1 ^ 2 - momSeq (.genLinear 50 2) 1 ≤ momSeq (.genLinear 50 2) 0 ^ 2) := by
  norm_num [momSeq, Momentum.next, genLinearUpdate]

/-! ## Trajectories -/

variable {V E : Type*} [NormedAddCommGroup E] [InnerProductSpace ℝ E]

/-- A callback that looks but does not touch. -/
def CallbackReads (cb : Option (St V → Bool × V)) : Prop := ∀ f s, cb = some f → (f s).2 = s.v

theorem traj_v_reads (C : Ops V) (o : Opts) (cb) (hcb : CallbackReads cb) (s : St V) (n : ℕ) :
    (traj C o cb s (n + 1)).v = after C (traj C o cb s n) := by
  rw [traj_succ, ← body_v C o]
  cases cb with
  | none => rfl
  | some f =>
    change (f _).2 = _
    rw [hcb f _ rfl]
    unfold body
    simp

/-- The proximal point computed by one X update. -/
noncomputable def proxPoint (C : Cls E) (L : ℝ) (Y : E) : E := C.proxG L (Y - (1 / L) • C.gradF Y)

/-- The objective of the problem a solver object addresses. -/
def Cls.F (C : Cls E) (x : E) : ℝ := C.obfnF x + C.obfnG x

/-- A problem class given by a convex smooth term and a convex term with exact proximal map. -/
structure Convex (C : Cls E) (Dg : Set E) (Lf : ℝ) : Prop where
  smooth : Smooth C.obfnF C.gradF Lf
  prox : ProxOf C.obfnG Dg C.proxG

/-- What one iteration does, without backtracking and step-size policy. -/
theorem plain_step (C : Cls E) (o : Opts) (hb : o.backtrack = .none) (hp : o.policy = .none) (k : ℕ)
    (v : Vars E) :
    let v' := mainStep C o k (onStart C o k v)
    let z := proxPoint C v.L v.Y
    v'.L = v.L ∧ v'.t = o.momentum.next k v.t ∧
    (o.monotone = false → v'.X = z ∧ v'.Y = v'.X + ((v.t - 1) / v'.t) • (v'.X - v.X)) ∧
    (o.monotone = true → k = 0 → v'.X = z ∧ v'.objfn = C.objfn v.X ∧
      v'.Y = v'.X + ((v.t - 1) / v'.t) • (v'.X - v.X)) ∧
    (o.monotone = true → 0 < k →
      ((v.objfn.1 < C.F z ∧ v'.X = v.X ∧ v'.objfn = v.objfn) ∨
       (C.F z ≤ v.objfn.1 ∧ v'.X = z ∧ v'.objfn = C.objfn z)) ∧
      v'.Y = v'.X + (v.t / v'.t) • (z - v'.X) + ((v.t - 1) / v'.t) • (v'.X - v.X)) := by
  have hpol : o.stepPolicy = .none := by unfold Opts.stepPolicy; rw [hb]; exact hp
  simp only
  unfold mainStep
  rw [hb]
  simp only
  cases hm : o.monotone with
  | false =>
    cases hc : (!o.fastSolve || o.isRobust) <;>
      simp [ystep, xstep, xstepG, onStart, safeguard, stepL, storeBB, hpol, hm, proxPoint, hc]
  | true =>
    rcases Nat.eq_zero_or_pos k with h0 | h0
    · subst h0
      cases hc : (!o.fastSolve || o.isRobust) <;>
        simp [ystep, xstep, xstepG, onStart, safeguard, stepL, storeBB, hpol, hm, proxPoint, hc]
    · have hk : k ≠ 0 := by omega
      by_cases hlt : v.objfn.1 < C.obfnF (C.proxG v.L (v.Y - v.L⁻¹ • C.gradF v.Y)) +
          C.obfnG (C.proxG v.L (v.Y - v.L⁻¹ • C.gradF v.Y)) <;>
        cases hc : (!o.fastSolve || o.isRobust) <;>
        simp [ystep, xstep, xstepG, onStart, safeguard, stepL, storeBB, hpol, hm, proxPoint, hc, h0, hk,
          Cls.objfn, Cls.F, hlt, not_lt.1]
      all_goals exact not_lt.1 hlt

/-- The descent property of a plain proximal gradient step from a feasible point. -/
theorem descent {C : Cls E} {Dg : Set E} {Lf : ℝ} (hC : Convex C Dg Lf) {L : ℝ} (hL : 0 < L) (hLf : Lf ≤ L)
    (y : E) : proxPoint C L y ∈ Dg ∧ (∀ u ∈ Dg, C.F (proxPoint C L y) ≤
      C.F u + L / 2 * (‖u - y‖ ^ 2 - ‖u - proxPoint C L y‖ ^ 2)) := by
  refine ⟨hC.prox.mem L _ hL, fun u hu => three_point hC.smooth.lower hC.prox hL y rfl ?_ hu⟩
  have h := hC.smooth.upper (proxPoint C L y) y
  rw [real_inner_comm] at h
  have := mul_le_mul_of_nonneg_right hLf (sq_nonneg ‖proxPoint C L y - y‖)
  unfold proxPoint at *
  linarith

/-- The rule for the next Y in the form the analysis needs (both with and without the
monotonicity safeguard). -/
theorem next_of_mono {x z x0 y : E} {t t' : ℝ} (ht : t' ≠ 0)
    (hy : y = x + (t / t') • (z - x) + ((t - 1) / t') • (x - x0)) :
    t' • y - (t' - 1) • x = t • z - (t - 1) • x0 := by
  have h1 : t' • y = t' • x + t • (z - x) + (t - 1) • (x - x0) := by
    rw [hy, smul_add, smul_add, smul_smul, smul_smul, mul_div_cancel₀ _ ht, mul_div_cancel₀ _ ht]
  rw [h1]; module

theorem next_of_plain {z x0 y : E} {t t' : ℝ} (ht : t' ≠ 0)
    (hy : y = z + ((t - 1) / t') • (z - x0)) :
    t' • y - (t' - 1) • z = t • z - (t - 1) • x0 := by
  apply next_of_mono ht
  rw [hy, sub_self, smul_zero, add_zero]

section Plain
variable (C : Cls E) (o : Opts) (hb : o.backtrack = .none) (hp : o.policy = .none)
  (cb : Option (St (Vars E) → Bool × Vars E)) (hcb : CallbackReads cb) (s : St (Vars E))

theorem traj_k0 (hk : s.k = 0) (n : ℕ) : (traj (ops C o) o cb s n).k = n := by
  rw [traj_k, hk, zero_add]

include hb hp hcb in
theorem traj_L (n : ℕ) : (traj (ops C o) o cb s n).v.L = s.v.L := by
  induction n with
  | zero => rfl
  | succ n ih =>
    rw [traj_v_reads _ _ _ hcb, ← ih]
    exact (plain_step C o hb hp _ _).1

include hb hp hcb in
theorem traj_t (hk : s.k = 0) (ht : s.v.t = 1) (n : ℕ) :
    (traj (ops C o) o cb s n).v.t = momSeq o.momentum n := by
  induction n with
  | zero => exact ht
  | succ n ih =>
    rw [traj_v_reads _ _ _ hcb]
    have := (plain_step C o hb hp (traj (ops C o) o cb s n).k (traj (ops C o) o cb s n).v).2.1
    rw [ih, traj_k0 C o cb s hk] at this
    unfold after
    rw [traj_k0 C o cb s hk]
    exact this

end Plain

/-- What the solver returns after `n` iterations. -/
noncomputable def iterX (C : Cls E) (o : Opts) (cb : Option (St (Vars E) → Bool × Vars E)) (s : St (Vars E)) (n : ℕ) : E :=
  (traj (ops C o) o cb s n).v.X

/-- A momentum policy for which the accelerated analysis applies. -/
def Admissible (m : Momentum) : Prop :=
  ∀ k, 1 ≤ momSeq m k ∧ momSeq m (k + 1) ^ 2 - momSeq m (k + 1) ≤ momSeq m k ^ 2

theorem admissible_nesterov : Admissible .nesterov := fun k =>
  ⟨(C48_nesterov k).2.1, (C48_nesterov k).2.2.le⟩

theorem admissible_linear (b : ℝ) (hb : 2 ≤ b) : Admissible (.linear b) := fun k =>
  ⟨(C48_linear b hb k).2.1, (C48_linear b hb k).2.2⟩

/-- Facts about the run with `Monotone`: the recorded objective is never below that of the
current iterate. -/
theorem mono_inv (C : Cls E) (Dg : Set E) (Lf : ℝ) (hC : Convex C Dg Lf) (o : Opts)
    (hm : o.monotone = true)
    (hb : o.backtrack = .none) (hp : o.policy = .none) (cb) (hcb : CallbackReads cb) (s : St (Vars E))
    (hs : Fresh s) (hL : 0 < s.v.L) (hLf : Lf ≤ s.v.L) (hX0 : s.v.X ∈ Dg) (n : ℕ) :
    iterX C o cb s (n + 1) ∈ Dg ∧ C.F (iterX C o cb s (n + 1)) ≤ (traj (ops C o) o cb s (n + 1)).v.objfn.1 := by
  have hst := fun j => plain_step C o hb hp (traj (ops C o) o cb s j).k (traj (ops C o) o cb s j).v
  induction n with
  | zero =>
    have h := (hst 0).2.2.2.1 hm hs.k
    have hd := descent hC hL hLf s.v.Y
    unfold iterX
    rw [traj_v_reads _ _ _ hcb]
    unfold after
    change (mainStep C o _ (onStart C o _ _)).X ∈ _ ∧ C.F (mainStep C o _ (onStart C o _ _)).X ≤ (mainStep C o _ (onStart C o _ _)).objfn.1
    rw [h.1, h.2.1]
    refine ⟨hd.1, ?_⟩
    have := hd.2 s.v.X hX0
    rw [hs.Y] at this
    simp only [sub_self, norm_zero] at this
    have h2 : C.F (proxPoint C s.v.L s.v.Y) ≤ C.F s.v.X := by
      rw [hs.Y]
      have := sq_nonneg ‖s.v.X - proxPoint C s.v.L s.v.X‖
      nlinarith
    exact h2
  | succ n ih =>
    have hk : 0 < (traj (ops C o) o cb s (n + 1)).k := by rw [traj_k0 C o cb s hs.k]; omega
    have hLn := traj_L C o hb hp cb hcb s (n + 1)
    have h := ((hst (n + 1)).2.2.2.2 hm hk).1
    unfold iterX at *
    rw [traj_v_reads (ops C o) o cb hcb s (n + 1)]
    unfold after
    rcases h with ⟨_, h2, h3⟩ | ⟨_, h2, h3⟩
    · change (mainStep C o _ (onStart C o _ _)).X ∈ _ ∧ C.F (mainStep C o _ (onStart C o _ _)).X ≤ (mainStep C o _ (onStart C o _ _)).objfn.1
      rw [h2, h3]; exact ih
    · change (mainStep C o _ (onStart C o _ _)).X ∈ _ ∧ C.F (mainStep C o _ (onStart C o _ _)).X ≤ (mainStep C o _ (onStart C o _ _)).objfn.1
      rw [h2, h3, hLn]
      exact ⟨(descent hC hL hLf _).1, le_rfl⟩

/-- What the run of the solver satisfies in every iteration. -/
theorem plain_facts (C : Cls E) (Dg : Set E) (Lf : ℝ) (hC : Convex C Dg Lf) (o : Opts)
    (hb : o.backtrack = .none) (hp : o.policy = .none)
    (cb) (hcb : CallbackReads cb) (s : St (Vars E)) (hs : Fresh s) (hL : 0 < s.v.L) (hLf : Lf ≤ s.v.L)
    (hX0 : o.monotone = true → s.v.X ∈ Dg) (n : ℕ) :
    let x := iterX C o cb s
    let y := fun n => (traj (ops C o) o cb s n).v.Y
    let z := fun n => proxPoint C s.v.L (y n)
    let t := momSeq o.momentum
    x (n + 1) ∈ Dg ∧ (∀ u ∈ Dg, C.F (z n) ≤ C.F u + s.v.L / 2 * (‖u - y n‖ ^ 2 - ‖u - z n‖ ^ 2)) ∧
    C.F (x (n + 1)) ≤ C.F (z n) ∧ (n = 0 → x 1 = z 0) ∧
    (t (n + 1) ≠ 0 → t (n + 1) • y (n + 1) - (t (n + 1) - 1) • x (n + 1) = t n • z n - (t n - 1) • x n) := by
  have hst := fun j => plain_step C o hb hp (traj (ops C o) o cb s j).k (traj (ops C o) o cb s j).v
  have ht := traj_t C o hb hp cb hcb s hs.k hs.t
  have hLn := traj_L C o hb hp cb hcb s
  have hk := traj_k0 C o cb s hs.k
  have hv : ∀ n, (traj (ops C o) o cb s (n + 1)).v =
      mainStep C o (traj (ops C o) o cb s n).k (onStart C o (traj (ops C o) o cb s n).k (traj (ops C o) o cb s n).v) :=
    fun n => traj_v_reads _ _ _ hcb _ _
  have hd := fun n => descent hC hL hLf (traj (ops C o) o cb s n).v.Y
  simp only
  cases hm : o.monotone with
  | false =>
    have h := fun n => (hst n).2.2.1 hm
    have hx : ∀ n, iterX C o cb s (n + 1) = proxPoint C s.v.L (traj (ops C o) o cb s n).v.Y := by
      intro n; unfold iterX; rw [hv, (h n).1, hLn]
    refine ⟨?_, (hd n).2, ?_, fun _ => hx 0, fun ht0 => ?_⟩
    · rw [hx]; exact (hd n).1
    · rw [hx]
    · rw [hx]
      have e := (h n).2
      rw [← hv, ht, ht] at e
      have e2 : (traj (ops C o) o cb s (n + 1)).v.X = _ := hx n
      rw [e2] at e
      exact next_of_plain ht0 e
  | true =>
    have hinv := mono_inv C Dg Lf hC o hm hb hp cb hcb s hs hL hLf (hX0 hm)
    have hx1 : iterX C o cb s 1 = proxPoint C s.v.L (traj (ops C o) o cb s 0).v.Y := by
      unfold iterX; rw [hv, ((hst 0).2.2.2.1 hm hs.k).1, hLn]
    refine ⟨(hinv n).1, (hd n).2, ?_, fun _ => hx1, fun ht0 => ?_⟩
    · unfold iterX
      rw [hv]
      cases n with
      | zero =>
        rw [((hst 0).2.2.2.1 hm hs.k).1]; exact le_rfl
      | succ n =>
        have hk' : 0 < (traj (ops C o) o cb s (n + 1)).k := by rw [hk]; omega
        rcases ((hst (n + 1)).2.2.2.2 hm hk').1 with ⟨h1, h2, -⟩ | ⟨-, h2, -⟩
        · rw [h2]
          rw [hLn] at h1
          exact (hinv n).2.trans h1.le
        · rw [h2, hLn]
    · cases n with
      | zero =>
        have h := (hst 0).2.2.2.1 hm hs.k
        have e := h.2.2
        rw [← hv, ht, ht] at e
        have e2 : (traj (ops C o) o cb s (0 + 1)).v.X = _ := hx1
        rw [e2] at e
        have e3 : iterX C o cb s (0 + 1) = _ := hx1
        rw [e3]
        exact next_of_plain ht0 e
      | succ n =>
        have hk' : 0 < (traj (ops C o) o cb s (n + 1)).k := by rw [hk]; omega
        have e := ((hst (n + 1)).2.2.2.2 hm hk').2
        rw [← hv, ht, ht, hLn] at e
        exact next_of_mono ht0 e

/-- The run of the solver from iteration `j` on is an accelerated scheme. -/
theorem plain_scheme (C : Cls E) (Dg : Set E) (Lf : ℝ) (hC : Convex C Dg Lf) (o : Opts)
    (hb : o.backtrack = .none) (hp : o.policy = .none) (j : ℕ)
    (hmom : ∀ k, j ≤ k → 1 ≤ momSeq o.momentum k ∧
      momSeq o.momentum (k + 1) ^ 2 - momSeq o.momentum (k + 1) ≤ momSeq o.momentum k ^ 2)
    (cb) (hcb : CallbackReads cb) (s : St (Vars E)) (hs : Fresh s) (hL : 0 < s.v.L) (hLf : Lf ≤ s.v.L)
    (hX0 : o.monotone = true → s.v.X ∈ Dg) (xs : E) (hxs : xs ∈ Dg) (hmin : ∀ u ∈ Dg, C.F xs ≤ C.F u) :
    Scheme C.F Dg xs (fun n => iterX C o cb s (j + n)) (fun n => (traj (ops C o) o cb s (j + n)).v.Y)
      (fun n => proxPoint C s.v.L (traj (ops C o) o cb s (j + n)).v.Y) (fun n => momSeq o.momentum (j + n))
      (fun _ => s.v.L) := by
  have h := fun n => plain_facts C Dg Lf hC o hb hp cb hcb s hs hL hLf hX0 (j + n)
  exact ⟨⟨hxs, hmin⟩, fun n => (h n).1, fun _ => hL, fun _ => le_rfl, fun k => (hmom _ (by omega)).1,
    fun k => (hmom (j + k) (by omega)).2, fun n => (h n).2.1, fun n => (h n).2.2.1,
    fun n => (h n).2.2.2.2 (by have := (hmom (j + n + 1) (by omega)).1; positivity)⟩

/-! ## C45 -/

/-- **C45.** For a convex problem with a step parameter at least the Lipschitz constant and
Nesterov momentum (the default), the objective of the iterate after `k` iterations exceeds
the optimum by at most `2 L ‖x₀ - x*‖² / (k+1)²`.  With or without `Monotone` (which needs
a feasible starting point); any stopping options; the callback may look but not change
the solver. -/
theorem C45_rate (C : Cls E) (Dg : Set E) (Lf : ℝ) (hC : Convex C Dg Lf) (o : Opts)
    (hb : o.backtrack = .none) (hp : o.policy = .none) (hmom : o.momentum = .nesterov)
    (cb) (hcb : CallbackReads cb) (s : St (Vars E)) (hs : Fresh s) (hL : 0 < s.v.L) (hLf : Lf ≤ s.v.L)
    (hX0 : o.monotone = true → s.v.X ∈ Dg) (xs : E) (hxs : xs ∈ Dg) (hmin : ∀ u ∈ Dg, C.F xs ≤ C.F u)
    (k : ℕ) (hk : 1 ≤ k) :
    iterX C o cb s k ∈ Dg ∧
      C.F (iterX C o cb s k) - C.F xs ≤ 2 * s.v.L * ‖s.v.X - xs‖ ^ 2 / (k + 1) ^ 2 := by
  have hsch := plain_scheme C Dg Lf hC o hb hp 0 (by rw [hmom]; exact fun k _ => admissible_nesterov k) cb hcb s hs hL hLf
    hX0 xs hxs hmin
  obtain ⟨n, rfl⟩ : ∃ n, k = n + 1 := ⟨k - 1, by omega⟩
  have hmem := hsch.mem n
  have hrate := hsch.rate rfl hs.Y n
  simp only [zero_add] at hmem hrate
  refine ⟨hmem, hrate.trans ?_⟩
  rw [hmom]
  have h := (C48_nesterov n).1
  have hn : (0 : ℝ) ≤ n := Nat.cast_nonneg n
  have h2 : ((n : ℝ) + 2) ^ 2 ≤ 4 * momSeq .nesterov n ^ 2 := by nlinarith
  have hX : iterX C o cb s 0 = s.v.X := rfl
  rw [hX]
  push_cast
  rw [show (n : ℝ) + 1 + 1 = n + 2 by ring, div_le_div_iff₀ (by nlinarith) (by positivity)]
  have := mul_le_mul_of_nonneg_left h2 (mul_nonneg hL.le (sq_nonneg ‖s.v.X - xs‖))
  linarith

/-- **C45 for linear momentum** with `b >= 2`. -/
theorem C45_rate_linear (C : Cls E) (Dg : Set E) (Lf : ℝ) (hC : Convex C Dg Lf) (o : Opts) (b : ℝ)
    (hb2 : 2 ≤ b) (hb : o.backtrack = .none) (hp : o.policy = .none) (hmom : o.momentum = .linear b)
    (cb) (hcb : CallbackReads cb) (s : St (Vars E)) (hs : Fresh s) (hL : 0 < s.v.L) (hLf : Lf ≤ s.v.L)
    (hX0 : o.monotone = true → s.v.X ∈ Dg) (xs : E) (hxs : xs ∈ Dg) (hmin : ∀ u ∈ Dg, C.F xs ≤ C.F u)
    (k : ℕ) (hk : 1 ≤ k) :
    iterX C o cb s k ∈ Dg ∧
      C.F (iterX C o cb s k) - C.F xs ≤ b ^ 2 * s.v.L * ‖s.v.X - xs‖ ^ 2 / (2 * (k + b - 2) ^ 2) := by
  have hsch := plain_scheme C Dg Lf hC o hb hp 0 (by rw [hmom]; exact fun k _ => admissible_linear b hb2 k) cb hcb s hs hL hLf
    hX0 xs hxs hmin
  obtain ⟨n, rfl⟩ : ∃ n, k = n + 1 := ⟨k - 1, by omega⟩
  have hmem := hsch.mem n
  have hrate := hsch.rate rfl hs.Y n
  simp only [zero_add] at hmem hrate
  refine ⟨hmem, hrate.trans ?_⟩
  rw [hmom]
  have h := (C48_linear b hb2 n).1
  have h1 := (C48_linear b hb2 n).2.1
  have hn : (0 : ℝ) ≤ n := Nat.cast_nonneg n
  have hb0 : 0 < b := by linarith
  rw [div_le_iff₀ hb0] at h
  have h3 : 0 < (n : ℝ) + b - 1 := by linarith
  have h2 : ((n : ℝ) + b - 1) ^ 2 ≤ b ^ 2 * momSeq (.linear b) n ^ 2 := by
    rw [← mul_pow]
    apply pow_le_pow_left₀ h3.le
    linarith
  have hX : iterX C o cb s 0 = s.v.X := rfl
  rw [hX]
  push_cast
  rw [show (n : ℝ) + 1 + b - 2 = n + b - 1 by ring, div_le_div_iff₀ (by positivity) (by positivity)]
  have := mul_le_mul_of_nonneg_left h2 (mul_nonneg hL.le (sq_nonneg ‖s.v.X - xs‖))
  linarith

/-- **C45 for generalised linear momentum** with `a >= b >= 2` (the first step violates the
condition of C48, so the bound is in terms of the first iterate `x₁`). -/
theorem C45_rate_genLinear (C : Cls E) (Dg : Set E) (Lf : ℝ) (hC : Convex C Dg Lf) (o : Opts) (a b : ℝ)
    (hb2 : 2 ≤ b) (hab : b ≤ a) (hb : o.backtrack = .none) (hp : o.policy = .none)
    (hmom : o.momentum = .genLinear a b)
    (cb) (hcb : CallbackReads cb) (s : St (Vars E)) (hs : Fresh s) (hL : 0 < s.v.L) (hLf : Lf ≤ s.v.L)
    (hX0 : o.monotone = true → s.v.X ∈ Dg) (xs : E) (hxs : xs ∈ Dg) (hmin : ∀ u ∈ Dg, C.F xs ≤ C.F u)
    (k : ℕ) (hk : 2 ≤ k) :
    iterX C o cb s k ∈ Dg ∧
      C.F (iterX C o cb s k) - C.F xs ≤
        b ^ 2 * s.v.L / (2 * (k - 2 + a) ^ 2) * (2 / s.v.L * ((a / b) ^ 2 - a / b) *
          (C.F (iterX C o cb s 1) - C.F xs) + ‖iterX C o cb s 1 - xs‖ ^ 2) := by
  have hsch := plain_scheme C Dg Lf hC o hb hp 1 (by
    rw [hmom]
    exact fun k hk => ⟨(C48_genLinear_partial a b hb2 hab k).1, (C48_genLinear_partial a b hb2 hab k).2 hk⟩)
    cb hcb s hs hL hLf hX0 xs hxs hmin
  obtain ⟨n, rfl⟩ : ∃ n, k = 1 + n + 1 := ⟨k - 2, by omega⟩
  have hf := plain_facts C Dg Lf hC o hb hp cb hcb s hs hL hLf hX0 0
  have hpot := hsch.potential (Or.inr hf.1) n
  have hmem := hsch.mem n
  refine ⟨hmem, ?_⟩
  have ht1 : momSeq o.momentum 1 = a / b := by
    rw [hmom]; change ((0 : ℕ) + a) / b = _; rw [Nat.cast_zero, zero_add]
  have ht : momSeq o.momentum (1 + n) = (n + a) / b := by rw [hmom, Nat.add_comm]; rfl
  have hb0 : 0 < b := by linarith
  have hy1 : (traj (ops C o) o cb s (1 + 0)).v.Y = iterX C o cb s (1 + 0) := by
    have ha0 : 0 < a := by linarith
    have h0 := hf.2.2.2.2 (by rw [zero_add, ht1]; positivity)
    simp only at h0
    have h00 : momSeq o.momentum 0 = 1 := rfl
    have hz : proxPoint C s.v.L (traj (ops C o) o cb s 0).v.Y = iterX C o cb s 1 := (hf.2.2.2.1 rfl).symm
    rw [hz] at h0
    simp only [zero_add, h00, one_smul, sub_self, zero_smul, sub_zero] at h0
    have h1 : momSeq o.momentum 1 • ((traj (ops C o) o cb s 1).v.Y - iterX C o cb s 1) = 0 := by
      have e : momSeq o.momentum 1 • ((traj (ops C o) o cb s 1).v.Y - iterX C o cb s 1) =
        (momSeq o.momentum 1 • (traj (ops C o) o cb s 1).v.Y -
          (momSeq o.momentum 1 - 1) • iterX C o cb s 1) - iterX C o cb s 1 := by module
      rw [e, h0, sub_self]
    rcases smul_eq_zero.1 h1 with h | h
    · rw [ht1] at h
      exact absurd h (by positivity)
    · exact sub_eq_zero.1 h
  rw [hy1, ht] at hpot
  simp only [Nat.add_zero, ht1] at hpot
  have e : (a / b) • iterX C o cb s 1 - (a / b - 1) • iterX C o cb s 1 - xs = iterX C o cb s 1 - xs := by module
  rw [e] at hpot
  have hn : (0 : ℝ) ≤ n := Nat.cast_nonneg n
  have h1 := le_trans (le_add_of_nonneg_right (sq_nonneg _)) hpot
  have e2 : 2 / s.v.L * ((n + a) / b) ^ 2 * (C.F (iterX C o cb s (1 + n + 1)) - C.F xs) =
      (2 * (n + a) ^ 2 / (b ^ 2 * s.v.L)) * (C.F (iterX C o cb s (1 + n + 1)) - C.F xs) := by
    field_simp
  have hna : 0 < (n : ℝ) + a := by linarith
  have h2 : (2 * (n + a) ^ 2 / (b ^ 2 * s.v.L)) * (C.F (iterX C o cb s (1 + n + 1)) - C.F xs) ≤ _ := e2 ▸ h1
  push_cast
  rw [show (1 : ℝ) + n + 1 - 2 + a = n + a by ring]
  have h3 := mul_le_mul_of_nonneg_left h2 (by positivity : 0 ≤ b ^ 2 * s.v.L / (2 * (n + a) ^ 2))
  have e3 : ∀ w, b ^ 2 * s.v.L / (2 * (n + a) ^ 2) * (2 * (n + a) ^ 2 / (b ^ 2 * s.v.L) * w) = w := by
    intro w; field_simp
  rw [e3] at h3
  exact h3

/-- With the documented but smaller `a >= b - 1`, the first momentum number can be below 1. -/
theorem C48_genLinear_small_refuted : ¬ (1 ≤ momSeq (.genLinear 1 2) 1) := by
  norm_num [momSeq, Momentum.next, genLinearUpdate]

end Sporco.Pgm
