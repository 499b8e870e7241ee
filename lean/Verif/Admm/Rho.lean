import Verif.Admm.Loop
import Mathlib.Tactic.FieldSimp
import Mathlib.Tactic.Linarith
import Mathlib.Tactic.Positivity

/-!
# Automatic rho adaptation (C36)
-/

set_option linter.unusedSectionVars false

namespace Sporco.Admm

variable {E F G H : Type*} [AddCommGroup G] [Module ℝ G]

/-- The documented ranges of the parameters: `Scaling >= 1`, `RsdlRatio > 0`,
`RsdlTarget > 0`. -/
structure Opts.RhoOk (o : Opts) : Prop where
  tau : 1 ≤ o.tau
  mu : 0 < o.mu
  xi : 0 < o.xi

theorem rhomlt_bounds {o : Opts} (ho : o.RhoOk) {r s : ℝ} (hr : 0 ≤ r) (hs : 0 ≤ s) :
    1 ≤ rhomlt o r s ∧ rhomlt o r s ≤ o.tau := by
  have h1 := ho.tau
  have hxi := ho.xi
  unfold rhomlt
  split_ifs with ha h0
  · exact ⟨h1, le_rfl⟩
  · push Not at h0
    have hr' : 0 < r := lt_of_le_of_ne hr (Ne.symm h0.2)
    have hs' : 0 < s := lt_of_le_of_ne hs (Ne.symm h0.1)
    have hsx : 0 < s * o.xi := mul_pos hs' hxi
    have hm : 1 ≤ Real.sqrt (rsdlRatio o r s) := by
      rw [Real.one_le_sqrt]
      unfold rsdlRatio
      split_ifs with hc
      · rw [le_div_iff₀ hsx]; linarith
      · rw [le_div_iff₀ hr']; push Not at hc; linarith
    change 1 ≤ (if Real.sqrt (rsdlRatio o r s) > o.tau then o.tau else Real.sqrt (rsdlRatio o r s)) ∧
      (if Real.sqrt (rsdlRatio o r s) > o.tau then o.tau else Real.sqrt (rsdlRatio o r s)) ≤ o.tau
    split_ifs with hc
    · exact ⟨h1, le_rfl⟩
    · exact ⟨hm, by push Not at hc; exact hc⟩
  · exact ⟨h1, le_rfl⟩

theorem rsf_bounds {o : Opts} (ho : o.RhoOk) {r s : ℝ} (hr : 0 ≤ r) (hs : 0 ≤ s) :
    1 / o.tau ≤ rsf o r s ∧ rsf o r s ≤ o.tau ∧ 0 < rsf o r s := by
  obtain ⟨h1, h2⟩ := rhomlt_bounds ho hr hs
  have ht := ho.tau
  have h3 : 1 / o.tau ≤ 1 := by rw [div_le_one (by linarith)]; exact ht
  unfold rsf
  split_ifs
  · exact ⟨h3.trans h1, h2, by linarith⟩
  · refine ⟨one_div_le_one_div_of_le (by linarith) h2, ?_, by positivity⟩
    have : 1 / rhomlt o r s ≤ 1 := by rw [div_le_one (by linarith)]; exact h1
    linarith
  · exact ⟨h3, ht, one_pos⟩

theorem updateRho_rho (C : Cls E F G H) (o : Opts) (k : ℕ) (r s : ℝ) (st : St E F G H) :
    (updateRho C o k r s st).rho =
      st.rho * (if o.autoRho = true ∧ k ≠ 0 ∧ npMod (k + 1) o.period = 0 then rsf o r s else 1) := by
  unfold updateRho
  split_ifs
  · simp only; split_ifs <;> rfl
  · rw [mul_one]

/-- **C36.** The unscaled dual variable `rho * U` is the same before and after the
automatic update. -/
theorem C36_unscaled_dual (C : Cls E F G H) (o : Opts) (ho : o.RhoOk) (k : ℕ) (r s : ℝ)
    (hr : 0 ≤ r) (hs : 0 ≤ s) (st : St E F G H) :
    (updateRho C o k r s st).rho • (updateRho C o k r s st).U = st.rho • st.U := by
  obtain ⟨-, -, h⟩ := rsf_bounds ho hr hs
  have key : (st.rho * rsf o r s) • ((rsf o r s)⁻¹ • st.U) = st.rho • st.U := by
    rw [smul_smul, mul_assoc, mul_inv_cancel₀ h.ne', mul_one]
  unfold updateRho
  split_ifs
  · simp only; split_ifs <;> exact key
  · rfl

/-- **C36.** X, Y and the statistics are not touched by the update, and the hook
`rhochange` runs exactly if rho changed (for non-zero rho). -/
theorem C36_frame (C : Cls E F G H) (o : Opts) (k : ℕ) (r s : ℝ) (st : St E F G H)
    (h0 : st.rho ≠ 0) :
    let st' := updateRho C o k r s st
    st'.X = st.X ∧ st'.Y = st.Y ∧ st'.itstat = st.itstat ∧ st'.k = st.k ∧
    (st'.rho ≠ st.rho → st'.extra = C.rhochange st'.rho st.extra) ∧
    (st'.rho = st.rho → st'.extra = st.extra ∧ st'.U = st.U) := by
  simp only
  unfold updateRho
  split_ifs
  · by_cases hf : rsf o r s = 1
    · simp [hf]
    · simp only [ne_eq, hf, not_false_eq_true, if_true, true_and]
      refine ⟨fun _ => trivial, fun h => absurd ?_ hf⟩
      exact mul_left_cancel₀ h0 (by rw [h, mul_one])
  · exact ⟨rfl, rfl, rfl, rfl, fun h => absurd rfl h, fun _ => ⟨rfl, rfl⟩⟩

/-- **C36.** Rho stays positive and changes by a factor between `1/Scaling` and
`Scaling`. -/
theorem C36_factor (C : Cls E F G H) (o : Opts) (ho : o.RhoOk) (k : ℕ) (r s : ℝ)
    (hr : 0 ≤ r) (hs : 0 ≤ s) (st : St E F G H) (hp : 0 < st.rho) :
    0 < (updateRho C o k r s st).rho ∧
    st.rho / o.tau ≤ (updateRho C o k r s st).rho ∧
    (updateRho C o k r s st).rho ≤ st.rho * o.tau := by
  obtain ⟨h1, h2, h3⟩ := rsf_bounds ho hr hs
  have ht := ho.tau
  rw [updateRho_rho]
  have h4 : 1 / o.tau ≤ 1 := by rw [div_le_one (by linarith)]; exact ht
  rw [div_eq_mul_one_div]
  split_ifs
  · exact ⟨mul_pos hp h3, mul_le_mul_of_nonneg_left h1 hp.le, mul_le_mul_of_nonneg_left h2 hp.le⟩
  · exact ⟨by linarith, mul_le_mul_of_nonneg_left h4 hp.le, mul_le_mul_of_nonneg_left ht hp.le⟩

/-- **C36.** Rho can change only if the mechanism is enabled and `k + 1` is a positive
multiple of `Period` (and it is not the first iteration). -/
theorem C36_period (C : Cls E F G H) (o : Opts) (k : ℕ) (r s : ℝ) (st : St E F G H)
    (hper : 1 ≤ o.period) (h : (updateRho C o k r s st).rho ≠ st.rho) :
    o.autoRho = true ∧ 0 < k ∧ o.period ∣ k + 1 := by
  rw [updateRho_rho] at h
  split_ifs at h with hc
  · obtain ⟨a, b, c⟩ := hc
    refine ⟨a, Nat.pos_of_ne_zero b, Nat.dvd_of_mod_eq_zero ?_⟩
    unfold npMod at c
    rwa [if_neg (by omega)] at c
  · simp at h

/-- **C36.** Direction of the change. With `RsdlRatio >= 1` and `Scaling > 1`, at an
iteration where the test is applied rho goes up exactly if the primal residual exceeds
`xi * mu` times the dual one, and down exactly if the dual residual exceeds `mu / xi`
times the primal one; otherwise it stays. -/
theorem C36_direction (C : Cls E F G H) (o : Opts) (ho : o.RhoOk) (hmu : 1 ≤ o.mu) (ht : 1 < o.tau)
    (k : ℕ) (r s : ℝ) (hr : 0 ≤ r) (hs : 0 ≤ s) (st : St E F G H) (hp : 0 < st.rho)
    (ha : o.autoRho = true) (hk : 0 < k) (hper : 1 ≤ o.period) (hd : o.period ∣ k + 1) :
    (st.rho < (updateRho C o k r s st).rho ↔ r > o.xi * o.mu * s) ∧
    ((updateRho C o k r s st).rho < st.rho ↔ s > o.mu / o.xi * r) := by
  have hxi := ho.xi
  have hmod : npMod (k + 1) o.period = 0 := by
    unfold npMod; rw [if_neg (by omega)]; exact Nat.mod_eq_zero_of_dvd hd
  rw [updateRho_rho, if_pos ⟨ha, by omega, hmod⟩]
  have hexcl : r > o.xi * o.mu * s → ¬ s > o.mu / o.xi * r := by
    intro h1 h2
    rw [gt_iff_lt, div_mul_eq_mul_div, div_lt_iff₀ hxi] at h2
    have h3 : o.mu * (o.xi * o.mu * s) ≤ o.mu * r := mul_le_mul_of_nonneg_left h1.le ho.mu.le
    have h4 : s * o.xi ≤ o.mu * (o.xi * o.mu * s) := by
      have : 1 ≤ o.mu * o.mu := one_le_mul_of_one_le_of_one_le hmu hmu
      have h5 : 0 ≤ s * o.xi := mul_nonneg hs hxi.le
      nlinarith
    linarith
  -- strict lower bound of the multiplier in both firing cases
  have hgt : (r > o.xi * o.mu * s ∨ s > o.mu / o.xi * r) → 1 < rhomlt o r s := by
    intro h
    unfold rhomlt
    split_ifs with hauto h0
    · exact ht
    · push Not at h0
      have hr' : 0 < r := lt_of_le_of_ne hr (Ne.symm h0.2)
      have hs' : 0 < s := lt_of_le_of_ne hs (Ne.symm h0.1)
      have hsx : 0 < s * o.xi := mul_pos hs' hxi
      have hm : 1 < Real.sqrt (rsdlRatio o r s) := by
        rw [Real.lt_sqrt (by norm_num), one_pow]
        unfold rsdlRatio
        split_ifs with hc
        · rw [lt_div_iff₀ hsx]; linarith
        · rw [lt_div_iff₀ hr']
          rcases h with h | h
          · exfalso; apply hc
            have : s * o.xi ≤ o.xi * o.mu * s := by nlinarith
            linarith
          · rw [gt_iff_lt, div_mul_eq_mul_div, div_lt_iff₀ hxi] at h
            nlinarith
      change 1 < (if Real.sqrt (rsdlRatio o r s) > o.tau then o.tau else Real.sqrt (rsdlRatio o r s))
      split_ifs <;> first | exact ht | exact hm
    · exact ht
  have up : ∀ m, 1 < m → st.rho < st.rho * m := fun m hm => by nlinarith
  unfold rsf
  by_cases h1 : r > o.xi * o.mu * s
  · rw [if_pos h1]
    have := up _ (hgt (Or.inl h1))
    exact ⟨⟨fun _ => h1, fun _ => this⟩, ⟨fun h => by linarith, fun h => absurd h (hexcl h1)⟩⟩
  · rw [if_neg h1]
    by_cases h2 : s > o.mu / o.xi * r
    · rw [if_pos h2]
      have hm := hgt (Or.inr h2)
      have : st.rho * (1 / rhomlt o r s) < st.rho := by
        rw [mul_one_div, div_lt_iff₀ (by linarith)]; exact up _ hm
      exact ⟨⟨fun h => by linarith, fun h => absurd h h1⟩, ⟨fun _ => h2, fun _ => this⟩⟩
    · rw [if_neg h2, mul_one]
      exact ⟨⟨fun h => absurd h (lt_irrefl _), fun h => absurd h h1⟩,
        ⟨fun h => absurd h (lt_irrefl _), fun h => absurd h h2⟩⟩

/-! ## Over whole runs -/

/-- The norms a class computes are non-negative. -/
structure Cls.Sane (C : Cls E F G H) : Prop where
  nrmR : ∀ AX Y, 0 ≤ C.nrmR AX Y
  nrmS : ∀ rho Yp Y U, 0 ≤ C.nrmS rho Yp Y U
  rn : ∀ AX Y, 0 ≤ C.rsdlRn AX Y
  sn : ∀ rho U, 0 ≤ rho → 0 ≤ C.rsdlSn rho U

theorem residuals_nonneg {C : Cls E F G H} (hC : C.Sane) (o : Opts) (s : St E F G H)
    (hp : 0 ≤ s.rho) : 0 ≤ (computeResiduals C o s).r ∧ 0 ≤ (computeResiduals C o s).s := by
  have h1 := hC.rn s.AXnr s.Y
  have h2 := hC.sn s.rho s.U hp
  unfold computeResiduals
  split_ifs
  · exact ⟨hC.nrmR _ _, hC.nrmS _ _ _ _⟩
  · simp only
    constructor
    · refine div_nonneg (hC.nrmR _ _) ?_
      split_ifs <;> linarith
    · refine div_nonneg (hC.nrmS _ _ _ _) ?_
      split_ifs <;> linarith

theorem oneIter_rho (C : Cls E F G H) (o : Opts) (cb) (s : St E F G H) :
    (oneIter C o cb s).rho = s.rho * (if o.autoRho = true ∧ s.k ≠ 0 ∧ npMod (s.k + 1) o.period = 0
      then rsf o (statOf C o s.k s).rsdl.r (statOf C o s.k s).rsdl.s else 1) := by
  have e : (steps C o { s with k := s.k }).rho = s.rho := rfl
  unfold oneIter body
  simp only
  by_cases hw : o.withRsdl = true
  · simp only [hw, if_true]
    rw [updateRho_rho]
    have : ∀ t : St E F G H, (if o.fastSolve = true then t else
      { t with itstat := t.itstat ++ [⟨s.k, C.objfn t.X t.Y t.extra, computeResiduals C o t, t.rho⟩] }).rho
      = t.rho := by intro t; split_ifs <;> rfl
    rw [this]
    rfl
  · have ha : o.autoRho = false := by
      unfold Opts.withRsdl at hw
      cases h : o.autoRho
      · rfl
      · simp [h] at hw
    simp only [hw, ha]
    simp only [Bool.false_eq_true, if_false, false_and, mul_one]
    split_ifs <;> rfl

/-- **C36, whole runs.** After `n` iterations from count `k`, rho is positive and within
the factor `Scaling ^ m` of its start value in both directions, where `m` is the number of
multiples of `Period` among the iteration numbers passed. -/
theorem C36_history (C : Cls E F G H) (hC : C.Sane) (o : Opts) (ho : o.RhoOk) (hper : 1 ≤ o.period)
    (cb) (s : St E F G H) (hp : 0 < s.rho) (n : ℕ) :
    0 < (traj C o cb s n).rho ∧
    s.rho / o.tau ^ ((List.range n).countP fun j => o.period ∣ s.k + j + 1) ≤ (traj C o cb s n).rho ∧
    (traj C o cb s n).rho ≤ s.rho * o.tau ^ ((List.range n).countP fun j => o.period ∣ s.k + j + 1) := by
  have ht : 0 < o.tau := by have := ho.tau; linarith
  induction n with
  | zero => simp [traj_zero, hp]
  | succ n ih =>
    obtain ⟨h1, h2, h3⟩ := ih
    set t := traj C o cb s n with htd
    have hk : t.k = s.k + n := traj_k C o cb s n
    rw [traj_succ, ← htd, oneIter_rho]
    have hrs := residuals_nonneg hC o (steps C o { t with k := t.k }) h1.le
    obtain ⟨b1, b2, b3⟩ := rsf_bounds ho hrs.1 hrs.2
    rw [List.range_succ, List.countP_append]
    have hst : (statOf C o t.k t).rsdl = computeResiduals C o (steps C o { t with k := t.k }) := rfl
    rw [hst]
    set q := rsf o (computeResiduals C o (steps C o { t with k := t.k })).r
      (computeResiduals C o (steps C o { t with k := t.k })).s with hq
    set m := (List.range n).countP fun j => o.period ∣ s.k + j + 1 with hm
    have hpow : 0 < o.tau ^ m := pow_pos ht m
    by_cases hd : o.period ∣ s.k + n + 1
    · have e : List.countP (fun j => decide (o.period ∣ s.k + j + 1)) [n] = 1 := by simp [hd]
      rw [e, pow_succ]
      have one : 1 / o.tau ≤ 1 ∧ 1 ≤ o.tau := ⟨by rw [div_le_one ht]; exact ho.tau, ho.tau⟩
      have main : ∀ z : ℝ, 1 / o.tau ≤ z → z ≤ o.tau → 0 < z →
          0 < t.rho * z ∧ s.rho / (o.tau ^ m * o.tau) ≤ t.rho * z ∧
            t.rho * z ≤ s.rho * (o.tau ^ m * o.tau) := by
        intro z z1 z2 z3
        refine ⟨mul_pos h1 z3, ?_, ?_⟩
        · calc s.rho / (o.tau ^ m * o.tau) = s.rho / o.tau ^ m * (1 / o.tau) := by
                field_simp
            _ ≤ t.rho * z := mul_le_mul h2 z1 (by positivity) h1.le
        · rw [← mul_assoc]
          exact mul_le_mul h3 z2 z3.le (by positivity)
      split_ifs
      · exact main q b1 b2 b3
      · exact main 1 one.1 one.2 one_pos
    · have e : List.countP (fun j => decide (o.period ∣ s.k + j + 1)) [n] = 0 := by simp [hd]
      have hno : ¬ (o.autoRho = true ∧ t.k ≠ 0 ∧ npMod (t.k + 1) o.period = 0) := by
        rintro ⟨-, -, h⟩
        apply hd
        unfold npMod at h
        rw [if_neg (by omega), hk] at h
        exact Nat.dvd_of_mod_eq_zero h
      rw [e, if_neg hno, Nat.add_zero, mul_one]
      exact ⟨h1, h2, h3⟩

/-- **C36 and the documentation of `Period`.** "If set to 1, the rho update test is
applied at every iteration" fails for the first iteration (`k = 0`), whatever the
residuals. -/
theorem C36_first_iteration_exempt (C : Cls E F G H) (o : Opts) (r s : ℝ) (st : St E F G H) :
    updateRho C o 0 r s st = st := by
  unfold updateRho
  rw [if_neg (fun h => h.2.1 rfl)]

/-- The classes with inherited norms are sane. -/
theorem equal_sane {E : Type*} [NormedAddCommGroup E] [NormedSpace ℝ E]
    (xs : ℝ → E → E → E → H → E × H) (ys rc ob) : (Cls.equal (H := H) xs ys rc ob).Sane :=
  ⟨fun _ _ => norm_nonneg _, fun _ _ _ _ => norm_nonneg _,
    fun _ _ => le_max_of_le_left (norm_nonneg _), fun _ _ h => mul_nonneg h (norm_nonneg _)⟩

theorem generic_sane {E F G : Type*} [NormedAddCommGroup G] [NormedSpace ℝ G] [NormedAddCommGroup E]
    [NormedSpace ℝ E] [AddCommGroup F] (A : E → G) (AT : G → E) (B : F → G) (c : G)
    (xs : ℝ → E → F → G → H → E × H) (ys rc ob) :
    (Cls.generic (H := H) A AT B c xs ys rc ob).Sane :=
  ⟨fun _ _ => norm_nonneg _, fun _ _ _ _ => norm_nonneg _,
    fun _ _ => le_max_of_le_right (norm_nonneg _), fun _ _ h => mul_nonneg h (norm_nonneg _)⟩

/-- Concrete options meeting the hypotheses, and an actual change of rho. -/
example : let o : Opts := ⟨false, 5, 0, 0, true, 2, false, true, 1, 1, 2, 10, 1, 1⟩
    o.RhoOk ∧ 1 ≤ o.mu ∧ 1 < o.tau ∧ exCls.Sane ∧
    (updateRho exCls o 1 100 1 ⟨0, 1, 1, 4, 0, 0, 3, 1, [], ()⟩).rho = 6 ∧
    (updateRho exCls o 1 100 1 ⟨0, 1, 1, 4, 0, 0, 3, 1, [], ()⟩).U = 2 := by
  refine ⟨⟨by norm_num, by norm_num, by norm_num⟩, by norm_num, by norm_num, equal_sane _ _ _ _, ?_, ?_⟩
  · rw [updateRho_rho]; simp [npMod, rsf, rhomlt]; norm_num
  · simp [updateRho, npMod, rsf, rhomlt]; norm_num

end Sporco.Admm
