import Verif.Pgm.Stops

/-!
# C69 for the other momentum sequences
-/

set_option autoImplicit false

namespace Sporco.Pgm

open scoped RealInnerProductSpace

variable {E : Type*} [NormedAddCommGroup E] [InnerProductSpace ℝ E]

namespace Scheme
variable {F : E → ℝ} {D : Set E} {xs : E} {x y z : ℕ → E} {t L : ℕ → ℝ} {R : ℝ}

/-- A bound for the quantities at the start of a scheme. -/
structure Start (F : E → ℝ) (D : Set E) (xs : E) (x y : ℕ → E) (t L : ℕ → ℝ) (R : ℝ) : Prop where
  pos : 0 ≤ R
  mem : x 0 ∈ D
  yx : y 0 = x 0
  pot : 2 / L 0 * (t 0 ^ 2 - t 0) * (F (x 0) - F xs) + ‖x 0 - xs‖ ^ 2 ≤ R ^ 2

theorem Start.dist (h : Scheme F D xs x y z t L) (s : Start F D xs x y t L R) : ‖x 0 - xs‖ ≤ R := by
  have h0 : 0 ≤ 2 / L 0 * (t 0 ^ 2 - t 0) * (F (x 0) - F xs) := by
    have a := h.Lpos 0
    have b := h.t1 0
    have c := sub_nonneg.2 (h.sol.2 _ s.mem)
    have d : 0 ≤ t 0 ^ 2 - t 0 := by nlinarith
    positivity
  exact (sq_le_sq₀ (norm_nonneg _) s.pos).1 (by have := s.pot; linarith)

theorem potR (h : Scheme F D xs x y z t L) (s : Start F D xs x y t L R) (n : ℕ) :
    ‖t n • z n - (t n - 1) • x n - xs‖ ≤ R := by
  have hp := h.potential (Or.inr s.mem) n
  rw [s.yx, show t 0 • x 0 - (t 0 - 1) • x 0 - xs = x 0 - xs by module] at hp
  have hv : 0 ≤ F (x (n + 1)) - F xs := sub_nonneg.2 (h.sol.2 _ (h.mem n))
  have h0 : 0 ≤ 2 / L n * t n ^ 2 * (F (x (n + 1)) - F xs) := by
    have := h.Lpos n
    positivity
  exact (sq_le_sq₀ (norm_nonneg _) s.pos).1 (by have := s.pot; linarith)

theorem potR' (h : Scheme F D xs x y z t L) (s : Start F D xs x y t L R) (n : ℕ) :
    ‖t n • y n - (t n - 1) • x n - xs‖ ≤ R := by
  cases n with
  | zero =>
    rw [s.yx, show t 0 • x 0 - (t 0 - 1) • x 0 - xs = x 0 - xs by module]
    exact s.dist h
  | succ n => rw [h.next n]; exact h.potR s n

theorem lengthR (h : Scheme F D xs x y z t L) (s : Start F D xs x y t L R) (n : ℕ) :
    ‖z n - y n‖ ≤ 2 * R / t n := by
  have ht := h.t1 n
  rw [le_div_iff₀ (by linarith), mul_comm]
  have e : t n • (z n - y n) = (t n • z n - (t n - 1) • x n - xs) - (t n • y n - (t n - 1) • x n - xs) := by
    module
  have h1 := norm_sub_le (t n • z n - (t n - 1) • x n - xs) (t n • y n - (t n - 1) • x n - xs)
  rw [← e, norm_smul, Real.norm_of_nonneg (by linarith)] at h1
  have := h.potR s n
  have := h.potR' s n
  linarith

theorem boundedR (h : Scheme F D xs x y z t L) (s : Start F D xs x y t L R)
    (hxz : ∀ n, x (n + 1) = x n ∨ x (n + 1) = z n) (n : ℕ) : ‖x n - xs‖ ≤ R := by
  induction n with
  | zero => exact s.dist h
  | succ n ih =>
    rcases hxz n with e | e
    · rw [e]; exact ih
    · rw [e]
      have ht := h.t1 n
      have h1 : t n • (z n - xs) = (t n • z n - (t n - 1) • x n - xs) + (t n - 1) • (x n - xs) := by module
      have h2 := norm_add_le (t n • z n - (t n - 1) • x n - xs) ((t n - 1) • (x n - xs))
      rw [← h1, norm_smul, norm_smul, Real.norm_of_nonneg (by linarith), Real.norm_of_nonneg (by linarith)] at h2
      have h3 := h.potR s n
      have h4 := mul_le_mul_of_nonneg_left ih (by linarith : 0 ≤ t n - 1)
      have h5 : t n * ‖z n - xs‖ ≤ t n * R := by linarith
      exact le_of_mul_le_mul_left h5 (by linarith)

theorem gapR (h : Scheme F D xs x y z t L) (s : Start F D xs x y t L R)
    (hxz : ∀ n, x (n + 1) = x n ∨ x (n + 1) = z n) (n : ℕ) :
    ‖x n - y n‖ ≤ 2 * R / t n := by
  have ht := h.t1 n
  rw [le_div_iff₀ (by linarith), mul_comm]
  have e : t n • (x n - y n) = (x n - xs) - (t n • y n - (t n - 1) • x n - xs) := by module
  have h1 := norm_sub_le (x n - xs) (t n • y n - (t n - 1) • x n - xs)
  rw [← e, norm_smul, Real.norm_of_nonneg (by linarith)] at h1
  have := h.boundedR s hxz n
  have := h.potR' s n
  linarith

end Scheme

/-- If the residual of iteration `N - 1` is below the tolerance, the solver stops by then. -/
theorem stops_at (C : Cls E) (o : Opts) (hf : o.fastSolve = false) (hauto : o.autoStop = false)
    (hmax : 1 ≤ o.maxMainIter) (s : St (Vars E)) (hk : s.k = 0) (N : ℕ) (hN1 : 1 ≤ N)
    (hN : rsdlAt C o .none s (N - 1) < o.relStopTol) :
    (solve (ops C o) o .none s).k ≤ N ∧
    (N < o.maxMainIter → ∃ e, (solve (ops C o) o .none s).itstat.getLast? = some e ∧ e.rsdl < o.relStopTol) := by
  obtain ⟨n, n1, n2, h3, h4, h5, h6⟩ := C50_solve_partial (ops C o) o .none s hmax
  have hnN : n ≤ N := by
    by_contra hlt
    apply h5 (N - 1) (by omega)
    rw [C50_stop_condition]
    right
    refine ⟨hf, ?_⟩
    rw [hauto]
    simp only [Bool.false_eq_true, if_false]
    exact hN
  refine ⟨by rw [h4, hk, zero_add]; exact hnN, fun hlt => ?_⟩
  have hst := (C50_stop_condition (ops C o) o .none _).1 (h6 (by omega))
  rcases hst with ⟨f, hf1, -⟩ | ⟨-, h⟩
  · cases hf1
  obtain ⟨m, rfl⟩ : ∃ m, n = m + 1 := ⟨n - 1, by omega⟩
  refine ⟨entryOf (ops C o) (traj (ops C o) o .none s m), ?_, ?_⟩
  · rw [h3, traj_itstat]; simp [hf, List.range_succ]
  · rw [hauto] at h
    exact h

/-- The entry recorded in iteration `n`. -/
theorem entry_at (C : Cls E) (o : Opts) (hf : o.fastSolve = false) (cb) (s : St (Vars E)) (hk : s.k = 0) (n : ℕ) :
    ∃ e, (traj (ops C o) o cb s (n + 1)).itstat.getLast? = some e ∧ e.iter = n ∧ e.rsdl = rsdlAt C o cb s n := by
  refine ⟨entryOf (ops C o) (traj (ops C o) o cb s n), ?_, traj_k0 C o cb s hk n, rfl⟩
  rw [traj_itstat]; simp [hf, List.range_succ]

theorem linear_bound {b t R : ℝ} {n : ℕ} (hb : 2 ≤ b) (hR : 0 ≤ R) (ht : ((n : ℝ) + b - 1) / b ≤ t) :
    2 * R / t ≤ 2 * b * R / (n + b - 1) := by
  have hn : (0 : ℝ) ≤ n := Nat.cast_nonneg n
  have h0 : 0 < (n : ℝ) + b - 1 := by linarith
  have hb0 : 0 < b := by linarith
  have ht0 : 0 < t := lt_of_lt_of_le (by positivity) ht
  rw [div_le_div_iff₀ ht0 h0]
  rw [div_le_iff₀ hb0] at ht
  nlinarith

/-- **C69 with linear momentum** (`MomentumLinear(b)` with `b >= 2`), in the settings of
`C69_residual_partial`: the residual recorded in iteration `n` is at most
`2 b ‖X₀ - xs‖ / (n + b - 1)`, and with a positive `RelStopTol` and without `AutoStop` `solve()`
returns after at most `N` iterations once that bound for `N - 1` is below the tolerance. -/
theorem C69_linear_partial (C : Cls E) (Dg : Set E) (Lf : ℝ) (hC : Convex C Dg Lf) (o : Opts) (b : ℝ) (hb2 : 2 ≤ b)
    (hf : o.fastSolve = false) (hmom : o.momentum = .linear b)
    (s : St (Vars E)) (hs : Fresh s) (hL : 0 < s.v.L) (hset : Converges o Dg Lf s)
    (xs : E) (hxs : xs ∈ Dg) (hmin : ∀ u ∈ Dg, C.F xs ≤ C.F u) :
    (∀ cb, CallbackReads cb → ∀ n : ℕ, ∃ e, (traj (ops C o) o cb s (n + 1)).itstat.getLast? = some e ∧ e.iter = n ∧
      e.rsdl ≤ 2 * b * ‖s.v.X - xs‖ / (n + b - 1)) ∧
    (o.autoStop = false → 1 ≤ o.maxMainIter → ∀ N : ℕ, 1 ≤ N →
      2 * b * ‖s.v.X - xs‖ < o.relStopTol * (N + b - 2) →
      (solve (ops C o) o .none s).k ≤ N ∧ (N < o.maxMainIter →
        ∃ e, (solve (ops C o) o .none s).itstat.getLast? = some e ∧ e.rsdl < o.relStopTol)) := by
  have key : ∀ cb, CallbackReads cb → ∀ n : ℕ, rsdlAt C o cb s n ≤ 2 * b * ‖s.v.X - xs‖ / (n + b - 1) := by
    intro cb hcb n
    have h := rsdlAt_le C Dg Lf hC o hf (by rw [hmom]; exact admissible_linear b hb2) cb hcb s hs hL hset xs hxs hmin n
    rw [hmom] at h
    rcases h with h | h
    · exact h.trans (linear_bound hb2 (norm_nonneg _) (C48_linear b hb2 n).1)
    · refine h.trans (linear_bound hb2 (norm_nonneg _) (le_trans ?_ (C48_linear b hb2 (n + 1)).1))
      push_cast
      have : 0 < b := by linarith
      gcongr
      linarith
  refine ⟨fun cb hcb n => ?_, fun hauto hmax N hN1 hN => ?_⟩
  · obtain ⟨e, e1, e2, e3⟩ := entry_at C o hf cb s hs.k n
    exact ⟨e, e1, e2, e3.trans_le (key cb hcb n)⟩
  · refine stops_at C o hf hauto hmax s hs.k N hN1 ((key .none (fun _ _ h => by cases h) (N - 1)).trans_lt ?_)
    have h1 : (1 : ℝ) ≤ N := by exact_mod_cast hN1
    rw [Nat.cast_sub hN1, Nat.cast_one, div_lt_iff₀ (by linarith)]
    calc _ < _ := hN
      _ = _ := by ring

/-- **C69 with generalised linear momentum** (`MomentumGenLinear(a, b)` with `a >= b >= 2`, as in the
default) and a fixed step parameter: the residual recorded in iteration `n + 1` is at most
`2 b M ‖X₀ - xs‖ / (n + a)`, where `M² = max(1, (a/b)² - a/b)`; the solver stops by itself. -/
theorem C69_genLinear_partial (C : Cls E) (Dg : Set E) (Lf : ℝ) (hC : Convex C Dg Lf) (o : Opts) (a b M : ℝ)
    (hb2 : 2 ≤ b) (hab : b ≤ a) (hM0 : 0 ≤ M) (hM : M ^ 2 = max 1 ((a / b) ^ 2 - a / b))
    (hf : o.fastSolve = false) (hmom : o.momentum = .genLinear a b)
    (s : St (Vars E)) (hs : Fresh s) (hL : 0 < s.v.L)
    (hb : o.backtrack = .none) (hp : o.policy = .none) (hLf : Lf ≤ s.v.L) (hX0 : o.monotone = true → s.v.X ∈ Dg)
    (xs : E) (hxs : xs ∈ Dg) (hmin : ∀ u ∈ Dg, C.F xs ≤ C.F u) :
    (∀ cb, CallbackReads cb → ∀ n : ℕ, ∃ e, (traj (ops C o) o cb s (n + 2)).itstat.getLast? = some e ∧ e.iter = n + 1 ∧
      e.rsdl ≤ 2 * b * M * ‖s.v.X - xs‖ / (n + a)) ∧
    (o.autoStop = false → 1 ≤ o.maxMainIter → ∀ N : ℕ, 2 ≤ N →
      2 * b * M * ‖s.v.X - xs‖ < o.relStopTol * (N + a - 2) →
      (solve (ops C o) o .none s).k ≤ N ∧ (N < o.maxMainIter →
        ∃ e, (solve (ops C o) o .none s).itstat.getLast? = some e ∧ e.rsdl < o.relStopTol)) := by
  have hb0 : 0 < b := by linarith
  have ha0 : 0 < a := by linarith
  have key : ∀ cb, CallbackReads cb → ∀ n : ℕ, rsdlAt C o cb s (n + 1) ≤ 2 * b * M * ‖s.v.X - xs‖ / (n + a) := by
    intro cb hcb n
    have hsch := plain_scheme C Dg Lf hC o hb hp 1 (by
      rw [hmom]
      exact fun k hk => ⟨(C48_genLinear_partial a b hb2 hab k).1, (C48_genLinear_partial a b hb2 hab k).2 hk⟩)
      cb hcb s hs hL hLf hX0 xs hxs hmin
    have hff := plain_facts C Dg Lf hC o hb hp cb hcb s hs hL hLf hX0 0
    have ht1 : momSeq o.momentum 1 = a / b := by
      rw [hmom]; change ((0 : ℕ) + a) / b = _; rw [Nat.cast_zero, zero_add]
    have hz : proxPoint C s.v.L (traj (ops C o) o cb s 0).v.Y = iterX C o cb s 1 := (hff.2.2.2.1 rfl).symm
    have hy1 : (traj (ops C o) o cb s (1 + 0)).v.Y = iterX C o cb s (1 + 0) := by
      have h0 := hff.2.2.2.2 (by rw [zero_add, ht1]; positivity)
      simp only at h0
      have h00 : momSeq o.momentum 0 = 1 := rfl
      rw [hz] at h0
      simp only [zero_add, h00, one_smul, sub_self, zero_smul, sub_zero] at h0
      have h1 : momSeq o.momentum 1 • ((traj (ops C o) o cb s 1).v.Y - iterX C o cb s 1) = 0 := by
        have e : momSeq o.momentum 1 • ((traj (ops C o) o cb s 1).v.Y - iterX C o cb s 1) =
          (momSeq o.momentum 1 • (traj (ops C o) o cb s 1).v.Y -
            (momSeq o.momentum 1 - 1) • iterX C o cb s 1) - iterX C o cb s 1 := by module
        rw [e, h0, sub_self]
      rcases smul_eq_zero.1 h1 with h | h
      · rw [ht1] at h
        exact absurd h (by positivity)
      · exact sub_eq_zero.1 h
    have hstart : Scheme.Start C.F Dg xs (fun n => iterX C o cb s (1 + n))
        (fun n => (traj (ops C o) o cb s (1 + n)).v.Y) (fun n => momSeq o.momentum (1 + n)) (fun _ => s.v.L)
        (M * ‖s.v.X - xs‖) := by
      refine ⟨by positivity, hff.1, hy1, ?_⟩
      have h3 := hff.2.1 xs hxs
      simp only at h3
      rw [hz] at h3
      have hY0 : (traj (ops C o) o cb s 0).v.Y = s.v.X := hs.Y
      rw [hY0] at h3
      simp only [Nat.add_zero, ht1]
      rw [mul_pow, hM, norm_sub_rev _ xs, norm_sub_rev s.v.X xs]
      have hF := sub_nonneg.2 (hmin _ hff.1)
      have h4 : 2 / s.v.L * (C.F (iterX C o cb s 1) - C.F xs) ≤
          ‖xs - s.v.X‖ ^ 2 - ‖xs - iterX C o cb s 1‖ ^ 2 := by
        have := mul_le_mul_of_nonneg_left (sub_le_iff_le_add'.2 h3) (by positivity : 0 ≤ 2 / s.v.L)
        refine this.trans (le_of_eq ?_)
        field_simp
      have h5 : 0 ≤ 2 / s.v.L * (C.F (iterX C o cb s 1) - C.F xs) := mul_nonneg (by positivity) hF
      have e6 : 2 / s.v.L * ((a / b) ^ 2 - a / b) * (C.F (iterX C o cb s 1) - C.F xs) =
          ((a / b) ^ 2 - a / b) * (2 / s.v.L * (C.F (iterX C o cb s 1) - C.F xs)) := by ring
      rw [e6]
      generalize 2 / s.v.L * (C.F (iterX C o cb s 1) - C.F xs) = w at h4 h5
      have m1 : (1 : ℝ) ≤ max 1 ((a / b) ^ 2 - a / b) := le_max_left _ _
      have m2 : (a / b) ^ 2 - a / b ≤ max 1 ((a / b) ^ 2 - a / b) := le_max_right _ _
      generalize max 1 ((a / b) ^ 2 - a / b) = mm at m1 m2
      have h6 := mul_le_mul_of_nonneg_right m2 h5
      nlinarith [sq_nonneg ‖xs - iterX C o cb s 1‖]
    have hst := fun j => plain_step C o hb hp (traj (ops C o) o cb s j).k (traj (ops C o) o cb s j).v
    have hv : ∀ n, (traj (ops C o) o cb s (n + 1)).v =
        mainStep C o (traj (ops C o) o cb s n).k (onStart C o (traj (ops C o) o cb s n).k (traj (ops C o) o cb s n).v) :=
      fun n => traj_v_reads _ _ _ hcb _ _
    have hLn := traj_L C o hb hp cb hcb s
    have hn : (0 : ℝ) ≤ n := Nat.cast_nonneg n
    have ht' : ∀ n : ℕ, momSeq o.momentum (n + 1) = (n + a) / b := by intro n; rw [hmom]; rfl
    cases hm : o.monotone with
    | false =>
      rw [rsdlAt_plain C o hf hm (Or.inl hb) cb hcb]
      have h1 : iterX C o cb s (n + 1 + 1) = proxPoint C s.v.L (traj (ops C o) o cb s (n + 1)).v.Y := by
        unfold iterX; rw [hv, ((hst (n + 1)).2.2.1 hm).1, hLn]
      rw [h1]
      have h2 := hsch.lengthR hstart n
      simp only [Nat.add_comm 1 n, ht'] at h2
      refine h2.trans (le_of_eq ?_)
      rw [div_div_eq_mul_div]
      ring
    | true =>
      rw [rsdlAt_mono C o hf hm hb hp cb hcb s hs.k, if_neg (by omega)]
      have h2 := hsch.gapR hstart (fun j => by
        have hk' : 0 < (traj (ops C o) o cb s (j + 1)).k := by rw [traj_k0 C o cb s hs.k]; omega
        simp only [Nat.add_comm 1]
        rcases ((hst (j + 1)).2.2.2.2 hm hk').1 with ⟨-, h2, -⟩ | ⟨-, h2, -⟩
        · left; unfold iterX; rw [hv, h2]
        · right; unfold iterX; rw [hv, h2, hLn]) (n + 1)
      simp only [Nat.add_comm 1 (n + 1), ht'] at h2
      refine h2.trans ?_
      push_cast
      rw [div_div_eq_mul_div, show 2 * (M * ‖s.v.X - xs‖) * b = 2 * b * M * ‖s.v.X - xs‖ by ring]
      gcongr
      linarith
  refine ⟨fun cb hcb n => ?_, fun hauto hmax N hN1 hN => ?_⟩
  · obtain ⟨e, e1, e2, e3⟩ := entry_at C o hf cb s hs.k (n + 1)
    exact ⟨e, e1, e2, e3.trans_le (key cb hcb n)⟩
  · refine stops_at C o hf hauto hmax s hs.k N (by omega) ?_
    obtain ⟨n, rfl⟩ : ∃ n, N = n + 2 := ⟨N - 2, by omega⟩
    refine (key .none (fun _ _ h => by cases h) n).trans_lt ?_
    rw [div_lt_iff₀ (by positivity)]
    push_cast at hN
    calc _ < _ := hN
      _ = _ := by ring

/-- The default parameters `a = 50`, `b = 2` of `MomentumGenLinear` with `M = √600`. The other
hypotheses are those of `C69_partial`, met by the BPDN problem at the end of `BpdnCert`. -/
example : (2 : ℝ) ≤ 2 ∧ (2 : ℝ) ≤ 50 ∧ 0 ≤ √(600 : ℝ) ∧ √(600 : ℝ) ^ 2 = max 1 (((50 : ℝ) / 2) ^ 2 - 50 / 2) := by
  refine ⟨le_rfl, by norm_num, Real.sqrt_nonneg _, ?_⟩
  rw [Real.sq_sqrt (by norm_num)]
  norm_num

end Sporco.Pgm
