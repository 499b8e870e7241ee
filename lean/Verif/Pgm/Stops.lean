import Verif.Pgm.Cert

/-!
# C69: a proximal gradient solver stops by itself
-/

set_option autoImplicit false

namespace Sporco.Pgm

open scoped RealInnerProductSpace

variable {E : Type*} [NormedAddCommGroup E] [InnerProductSpace ℝ E]

namespace Scheme
variable {F : E → ℝ} {D : Set E} {xs : E} {x y z : ℕ → E} {t L : ℕ → ℝ}

theorem pot (h : Scheme F D xs x y z t L) (ht0 : t 0 = 1) (hy0 : y 0 = x 0) (n : ℕ) :
    ‖t n • z n - (t n - 1) • x n - xs‖ ≤ ‖x 0 - xs‖ := by
  have hp := h.potential (Or.inl ht0) n
  rw [ht0, hy0] at hp
  simp only [one_pow, sub_self, mul_zero, zero_mul, zero_add, one_smul, zero_smul, sub_zero] at hp
  have hv : 0 ≤ F (x (n + 1)) - F xs := sub_nonneg.2 (h.sol.2 _ (h.mem n))
  have h0 : 0 ≤ 2 / L n * t n ^ 2 * (F (x (n + 1)) - F xs) := by
    have := h.Lpos n
    positivity
  exact (sq_le_sq₀ (norm_nonneg _) (norm_nonneg _)).1 (by linarith)

theorem pot' (h : Scheme F D xs x y z t L) (ht0 : t 0 = 1) (hy0 : y 0 = x 0) (n : ℕ) :
    ‖t n • y n - (t n - 1) • x n - xs‖ ≤ ‖x 0 - xs‖ := by
  cases n with
  | zero => rw [ht0, hy0]; simp
  | succ n => rw [h.next n]; exact h.pot ht0 hy0 n

/-- The proximal step gets short. -/
theorem length (h : Scheme F D xs x y z t L) (ht0 : t 0 = 1) (hy0 : y 0 = x 0) (n : ℕ) :
    ‖z n - y n‖ ≤ 2 * ‖x 0 - xs‖ / t n := by
  have ht := h.t1 n
  rw [le_div_iff₀ (by linarith), mul_comm]
  have e : t n • (z n - y n) = (t n • z n - (t n - 1) • x n - xs) - (t n • y n - (t n - 1) • x n - xs) := by
    module
  have h1 := norm_sub_le (t n • z n - (t n - 1) • x n - xs) (t n • y n - (t n - 1) • x n - xs)
  rw [← e, norm_smul, Real.norm_of_nonneg (by linarith)] at h1
  have := h.pot ht0 hy0 n
  have := h.pot' ht0 hy0 n
  linarith

/-- The iterates stay as close to the solution as the starting point. -/
theorem bounded (h : Scheme F D xs x y z t L) (ht0 : t 0 = 1) (hy0 : y 0 = x 0)
    (hxz : ∀ n, x (n + 1) = x n ∨ x (n + 1) = z n) (n : ℕ) : ‖x n - xs‖ ≤ ‖x 0 - xs‖ := by
  induction n with
  | zero => exact le_rfl
  | succ n ih =>
    rcases hxz n with e | e
    · rw [e]; exact ih
    · rw [e]
      have ht := h.t1 n
      have h1 : t n • (z n - xs) = (t n • z n - (t n - 1) • x n - xs) + (t n - 1) • (x n - xs) := by module
      have h2 := norm_add_le (t n • z n - (t n - 1) • x n - xs) ((t n - 1) • (x n - xs))
      rw [← h1, norm_smul, norm_smul, Real.norm_of_nonneg (by linarith), Real.norm_of_nonneg (by linarith)] at h2
      have h3 := h.pot ht0 hy0 n
      have h4 := mul_le_mul_of_nonneg_left ih (by linarith : 0 ≤ t n - 1)
      have h5 : t n * ‖z n - xs‖ ≤ t n * ‖x 0 - xs‖ := by linarith
      exact le_of_mul_le_mul_left h5 (by linarith)

/-- The extrapolation gets short. -/
theorem gap (h : Scheme F D xs x y z t L) (ht0 : t 0 = 1) (hy0 : y 0 = x 0)
    (hxz : ∀ n, x (n + 1) = x n ∨ x (n + 1) = z n) (n : ℕ) :
    ‖x n - y n‖ ≤ 2 * ‖x 0 - xs‖ / t n := by
  have ht := h.t1 n
  rw [le_div_iff₀ (by linarith), mul_comm]
  have e : t n • (x n - y n) = (x n - xs) - (t n • y n - (t n - 1) • x n - xs) := by module
  have h1 := norm_sub_le (x n - xs) (t n • y n - (t n - 1) • x n - xs)
  rw [← e, norm_smul, Real.norm_of_nonneg (by linarith)] at h1
  have := h.bounded ht0 hy0 hxz n
  have := h.pot' ht0 hy0 n
  linarith

end Scheme

/-- The residual the iteration starting in `s` computes. -/
noncomputable def rsdlAt (C : Cls E) (o : Opts) (cb : Option (St (Vars E) → Bool × Vars E)) (s : St (Vars E))
    (n : ℕ) : ℝ := (entryOf (ops C o) (traj (ops C o) o cb s n)).rsdl

/-- The residual without `Monotone`. -/
theorem rsdlAt_plain (C : Cls E) (o : Opts) (hf : o.fastSolve = false) (hm : o.monotone = false)
    (hb : PlainSearch o) (cb) (hcb : CallbackReads cb) (s : St (Vars E)) (n : ℕ) :
    rsdlAt C o cb s n = ‖iterX C o cb s (n + 1) - (traj (ops C o) o cb s n).v.Y‖ := by
  have h1 := (plain_iter C o hf hm hb (traj (ops C o) o cb s n).k (traj (ops C o) o cb s n).v).1
  change rsdl o _ _ = _
  unfold rsdl iterX
  rw [traj_v_reads _ _ _ hcb, hm]
  simp only [Bool.false_eq_true, false_and, if_false]
  exact congrArg (fun t => ‖_ - t‖) h1

/-- The residual with `Monotone` and without line search. -/
theorem rsdlAt_mono (C : Cls E) (o : Opts) (hf : o.fastSolve = false) (hm : o.monotone = true)
    (hb : o.backtrack = .none) (hp : o.policy = .none) (cb) (hcb : CallbackReads cb) (s : St (Vars E)) (hk : s.k = 0)
    (n : ℕ) :
    rsdlAt C o cb s n = if n = 0 then ‖iterX C o cb s 1 - s.v.Y‖ else
      ‖iterX C o cb s (n + 1) - (traj (ops C o) o cb s (n + 1)).v.Y‖ := by
  change rsdl o (traj (ops C o) o cb s n).k _ = _
  rw [traj_k0 C o cb s hk]
  unfold iterX
  cases n with
  | zero =>
    rw [traj_v_reads _ _ _ hcb]
    unfold rsdl
    simp only [lt_irrefl, and_false, if_false, if_true]
    have h1 : (after (ops C o) (traj (ops C o) o cb s 0)).Yprv = s.v.Y := by
      have hpol : o.stepPolicy = .none := by unfold Opts.stepPolicy; rw [hb]; exact hp
      change (mainStep C o s.k (onStart C o s.k s.v)).Yprv = _
      rw [hk]
      unfold mainStep
      rw [hb]
      simp [ystep, xstep, xstepG, onStart, safeguard, stepL, storeBB, hpol, hm, hf]
    rw [h1]
  | succ n =>
    rw [traj_v_reads _ _ _ hcb (n := n + 1)]
    unfold rsdl
    simp [hm]

/-- The problem settings for which the solver is known to converge: a fixed step parameter not
below the Lipschitz constant, with `Monotone` from a feasible point or without it, or the standard
line search with a limit that allows reaching the Lipschitz constant. -/
def Converges (o : Opts) (Dg : Set E) (Lf : ℝ) (s : St (Vars E)) : Prop :=
  (o.backtrack = .none ∧ o.policy = .none ∧ Lf ≤ s.v.L ∧ (o.monotone = true → s.v.X ∈ Dg)) ∨
  (∃ gu m, o.backtrack = .standard gu m ∧ 1 ≤ gu ∧ 1 ≤ m ∧ Lf ≤ s.v.L * gu ^ (m - 1) ∧ o.monotone = false)

/-- Bound on the residual by the momentum numbers. -/
theorem rsdlAt_le (C : Cls E) (Dg : Set E) (Lf : ℝ) (hC : Convex C Dg Lf) (o : Opts)
    (hf : o.fastSolve = false) (hadm : Admissible o.momentum) (cb) (hcb : CallbackReads cb)
    (s : St (Vars E)) (hs : Fresh s) (hL : 0 < s.v.L) (hset : Converges o Dg Lf s)
    (xs : E) (hxs : xs ∈ Dg) (hmin : ∀ u ∈ Dg, C.F xs ≤ C.F u) (n : ℕ) :
    rsdlAt C o cb s n ≤ 2 * ‖s.v.X - xs‖ / momSeq o.momentum n ∨
      rsdlAt C o cb s n ≤ 2 * ‖s.v.X - xs‖ / momSeq o.momentum (n + 1) := by
  rcases hset with ⟨hb, hp, hLf, hX0⟩ | ⟨gu, m, hb, hgu, hm1, hlim, hm⟩
  · have hsch := plain_scheme C Dg Lf hC o hb hp 0 (fun k _ => hadm k) cb hcb s hs hL hLf hX0 xs hxs hmin
    have hst := fun j => plain_step C o hb hp (traj (ops C o) o cb s j).k (traj (ops C o) o cb s j).v
    have hv : ∀ n, (traj (ops C o) o cb s (n + 1)).v =
        mainStep C o (traj (ops C o) o cb s n).k (onStart C o (traj (ops C o) o cb s n).k (traj (ops C o) o cb s n).v) :=
      fun n => traj_v_reads _ _ _ hcb _ _
    have hLn := traj_L C o hb hp cb hcb s
    simp only [zero_add] at hsch
    cases hm : o.monotone with
    | false =>
      left
      rw [rsdlAt_plain C o hf hm (Or.inl hb) cb hcb]
      have h1 : iterX C o cb s (n + 1) = proxPoint C s.v.L (traj (ops C o) o cb s n).v.Y := by
        unfold iterX; rw [hv, ((hst n).2.2.1 hm).1, hLn]
      rw [h1]
      exact hsch.length rfl hs.Y n
    | true =>
      have hx1 : iterX C o cb s 1 = proxPoint C s.v.L (traj (ops C o) o cb s 0).v.Y := by
        unfold iterX; rw [hv, ((hst 0).2.2.2.1 hm hs.k).1, hLn]
      rw [rsdlAt_mono C o hf hm hb hp cb hcb s hs.k]
      cases n with
      | zero =>
        left
        rw [if_pos rfl, hx1]
        exact hsch.length rfl hs.Y 0
      | succ n =>
        right
        rw [if_neg (by omega)]
        refine hsch.gap rfl hs.Y (fun j => ?_) (n + 2)
        cases j with
        | zero => right; exact hx1
        | succ j =>
          have hk' : 0 < (traj (ops C o) o cb s (j + 1)).k := by rw [traj_k0 C o cb s hs.k]; omega
          rcases ((hst (j + 1)).2.2.2.2 hm hk').1 with ⟨-, h2, -⟩ | ⟨-, h2, -⟩
          · left; unfold iterX; rw [hv, h2]
          · right; unfold iterX; rw [hv, h2, hLn]
  · left
    have hsch := bt_scheme C o gu m hb hm cb hcb s Dg Lf hC hgu hadm hs hL hm1 hlim xs hxs hmin
    rw [rsdlAt_plain C o hf hm (Or.inr ⟨gu, m, hb, hm1, hgu⟩) cb hcb]
    exact hsch.length rfl hs.Y n

/-! ## C69 -/

/-- **C69, the residual goes to zero.** For every convex problem with a minimiser `xs` and any of
the settings above, with the default momentum: the residual recorded in iteration `n` (counted
from 0) is at most `4 ‖X₀ - xs‖ / (n + 2)`. -/
theorem C69_residual_partial (C : Cls E) (Dg : Set E) (Lf : ℝ) (hC : Convex C Dg Lf) (o : Opts)
    (hf : o.fastSolve = false) (hmom : o.momentum = .nesterov) (cb) (hcb : CallbackReads cb)
    (s : St (Vars E)) (hs : Fresh s) (hL : 0 < s.v.L) (hset : Converges o Dg Lf s)
    (xs : E) (hxs : xs ∈ Dg) (hmin : ∀ u ∈ Dg, C.F xs ≤ C.F u) (n : ℕ) :
    ∃ e, (traj (ops C o) o cb s (n + 1)).itstat.getLast? = some e ∧ e.iter = n ∧
      e.rsdl ≤ 4 * ‖s.v.X - xs‖ / (n + 2) := by
  refine ⟨entryOf (ops C o) (traj (ops C o) o cb s n), ?_, traj_k0 C o cb s hs.k n, ?_⟩
  · rw [traj_itstat]; simp [hf, List.range_succ]
  have h := rsdlAt_le C Dg Lf hC o hf (by rw [hmom]; exact admissible_nesterov) cb hcb s hs hL hset xs hxs hmin n
  rw [hmom] at h
  have hn : (0 : ℝ) ≤ n := Nat.cast_nonneg n
  have hR := norm_nonneg (s.v.X - xs)
  have key : ∀ t : ℝ, ((n : ℝ) + 2) / 2 ≤ t → 2 * ‖s.v.X - xs‖ / t ≤ 4 * ‖s.v.X - xs‖ / (n + 2) := by
    intro t ht
    rw [div_le_div_iff₀ (by linarith) (by linarith)]
    nlinarith
  rcases h with h | h
  · exact h.trans (key _ (C48_nesterov n).1)
  · refine h.trans (key _ ?_)
    have := (C48_nesterov (n + 1)).1
    push_cast at this
    linarith

/-- **C69.** In the same settings, with a positive `RelStopTol` and without `AutoStop`: `solve()`
returns after at most `N` iterations, whatever `MaxMainIter` is, once
`4 ‖X₀ - xs‖ < RelStopTol (N + 1)`; and if `MaxMainIter` is larger than `N` the last residual is
below the tolerance. -/
theorem C69_partial (C : Cls E) (Dg : Set E) (Lf : ℝ) (hC : Convex C Dg Lf) (o : Opts)
    (hf : o.fastSolve = false) (hmom : o.momentum = .nesterov) (hauto : o.autoStop = false)
    (hmax : 1 ≤ o.maxMainIter)
    (s : St (Vars E)) (hs : Fresh s) (hL : 0 < s.v.L) (hset : Converges o Dg Lf s)
    (xs : E) (hxs : xs ∈ Dg) (hmin : ∀ u ∈ Dg, C.F xs ≤ C.F u) (N : ℕ) (hN1 : 1 ≤ N)
    (hN : 4 * ‖s.v.X - xs‖ < o.relStopTol * (N + 1)) :
    (solve (ops C o) o .none s).k ≤ N ∧
    (N < o.maxMainIter → ∃ e, (solve (ops C o) o .none s).itstat.getLast? = some e ∧ e.rsdl < o.relStopTol) := by
  obtain ⟨n, n1, n2, h3, h4, h5, h6⟩ := C50_solve_partial (ops C o) o .none s hmax
  have hcb : CallbackReads (V := Vars E) .none := fun _ _ h => by cases h
  have hnN : n ≤ N := by
    by_contra hlt
    apply h5 (N - 1) (by omega)
    rw [C50_stop_condition]
    right
    refine ⟨hf, ?_⟩
    rw [hauto]
    simp only [Bool.false_eq_true, if_false]
    obtain ⟨e, e1, -, e3⟩ := C69_residual_partial C Dg Lf hC o hf hmom .none hcb s hs hL hset xs hxs hmin (N - 1)
    have e4 : e.rsdl = (ops C o).rsdl (traj (ops C o) o .none s (N - 1)).k
        (after (ops C o) (traj (ops C o) o .none s (N - 1))) := by
      rw [traj_itstat] at e1
      simp only [hf, Bool.false_eq_true, if_false, List.range_succ, List.map_append, List.map_cons, List.map_nil,
        ← List.append_assoc, List.getLast?_append, List.getLast?_singleton, Option.some_or,
        Option.some.injEq] at e1
      rw [← e1]; rfl
    rw [← e4]
    refine e3.trans_lt ?_
    have hc : ((N - 1 : ℕ) : ℝ) + 2 = N + 1 := by rw [Nat.cast_sub hN1]; push_cast; ring
    have hpos : (0 : ℝ) < N + 1 := by positivity
    rw [hc, div_lt_iff₀ hpos]
    exact hN
  refine ⟨by rw [h4, hs.k, zero_add]; exact hnN, fun hlt => ?_⟩
  have hst := (C50_stop_condition (ops C o) o .none _).1 (h6 (by omega))
  rcases hst with ⟨f, hf1, -⟩ | ⟨-, h⟩
  · cases hf1
  obtain ⟨m, rfl⟩ : ∃ m, n = m + 1 := ⟨n - 1, by omega⟩
  refine ⟨entryOf (ops C o) (traj (ops C o) o .none s m), ?_, ?_⟩
  · rw [h3, traj_itstat]; simp [hf, List.range_succ]
  · rw [hauto] at h
    exact h

end Sporco.Pgm
