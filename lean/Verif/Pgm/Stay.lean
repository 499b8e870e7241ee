import Verif.Pgm.WBpdnCert
import Verif.Pgm.Batch

/-!
# Proximal gradient solvers started at a solution (C93)
-/

set_option autoImplicit false
set_option linter.unusedSectionVars false

namespace Sporco.Pgm

open scoped RealInnerProductSpace

variable {E : Type*} [NormedAddCommGroup E] [InnerProductSpace ℝ E]

/-- A minimiser is a fixed point of the proximal gradient map, for every positive `L`. -/
theorem min_fixed {C : Cls E} {Dg : Set E} {Lf : ℝ} (hC : Convex C Dg Lf) {x : E} (hx : x ∈ Dg)
    (hmin : ∀ z ∈ Dg, C.F x ≤ C.F z) {L : ℝ} (hL : 0 < L) : C.proxG L (x - (1 / L) • C.gradF x) = x := by
  set p := C.proxG L (x - (1 / L) • C.gradF x) with hp
  have hpD : p ∈ Dg := hC.prox.mem L _ hL
  have h1 := hC.prox.min L (x - (1 / L) • C.gradF x) hL x hx
  rw [← hp] at h1
  have e1 : ‖p - (x - (1 / L) • C.gradF x)‖ ^ 2 =
      ‖p - x‖ ^ 2 + 2 * (1 / L * ⟪C.gradF x, p - x⟫) + ‖(1 / L) • C.gradF x‖ ^ 2 := by
    rw [show p - (x - (1 / L) • C.gradF x) = (p - x) + (1 / L) • C.gradF x by abel, norm_add_sq_real,
      real_inner_smul_right, real_inner_comm]
  have e2 : ‖x - (x - (1 / L) • C.gradF x)‖ ^ 2 = ‖(1 / L) • C.gradF x‖ ^ 2 := by
    rw [sub_sub_cancel]
  rw [e1, e2] at h1
  have h2 : C.obfnG p + ⟪C.gradF x, p - x⟫ + L / 2 * ‖p - x‖ ^ 2 ≤ C.obfnG x := by
    have e3 : L / 2 * (2 * (1 / L * ⟪C.gradF x, p - x⟫)) = ⟪C.gradF x, p - x⟫ := by field_simp
    nlinarith [h1, e3]
  have h3 : ∀ s : ℝ, 0 < s → s ≤ 1 →
      0 ≤ ⟪C.gradF x, p - x⟫ + (C.obfnG p - C.obfnG x) + s * (|Lf| / 2 * ‖p - x‖ ^ 2) := by
    intro s hs hs1
    have hz : (1 - s) • x + s • p ∈ Dg := hC.prox.convex.1 hx hpD (by linarith) hs.le (by ring)
    have hg : C.obfnG ((1 - s) • x + s • p) ≤ (1 - s) * C.obfnG x + s * C.obfnG p :=
      hC.prox.convex.2 hx hpD (by linarith) hs.le (by ring)
    have hf := hC.smooth.upper ((1 - s) • x + s • p) x
    have e4 : (1 - s) • x + s • p - x = s • (p - x) := by
      rw [sub_smul, one_smul, smul_sub]; abel
    rw [e4, real_inner_smul_right, norm_smul, Real.norm_of_nonneg hs.le, mul_pow] at hf
    have hm := hmin _ hz
    unfold Cls.F at hm
    have h5 : Lf / 2 * (s ^ 2 * ‖p - x‖ ^ 2) ≤ |Lf| / 2 * (s ^ 2 * ‖p - x‖ ^ 2) :=
      mul_le_mul_of_nonneg_right (by linarith [le_abs_self Lf]) (by positivity)
    have h6 : 0 ≤ s * (⟪C.gradF x, p - x⟫ + (C.obfnG p - C.obfnG x) + s * (|Lf| / 2 * ‖p - x‖ ^ 2)) := by
      nlinarith [hm, hf, hg, h5]
    exact nonneg_of_mul_nonneg_right h6 hs
  have h4 : 0 ≤ ⟪C.gradF x, p - x⟫ + (C.obfnG p - C.obfnG x) := by
    by_contra hneg
    push Not at hneg
    set A := ⟪C.gradF x, p - x⟫ + (C.obfnG p - C.obfnG x)
    set B := |Lf| / 2 * ‖p - x‖ ^ 2
    have hB : 0 ≤ B := by positivity
    have hs := h3 (min 1 (-A / (2 * (B + 1)))) (lt_min one_pos (div_pos (by linarith) (by linarith))) (min_le_left _ _)
    have h7 : min 1 (-A / (2 * (B + 1))) * B ≤ -A / (2 * (B + 1)) * B := mul_le_mul_of_nonneg_right (min_le_right _ _) hB
    have h8 : -A / (2 * (B + 1)) * B ≤ -A / 2 := by
      rw [div_mul_eq_mul_div, div_le_div_iff₀ (by linarith) (by norm_num)]
      nlinarith
    linarith
  have h5 : L / 2 * ‖p - x‖ ^ 2 ≤ 0 := by linarith
  have h6 : ‖p - x‖ ^ 2 ≤ 0 := by
    by_contra h
    push Not at h
    have : 0 < L / 2 * ‖p - x‖ ^ 2 := mul_pos (by linarith) h
    linarith
  have h7 : ‖p - x‖ = 0 := by nlinarith [norm_nonneg (p - x)]
  exact sub_eq_zero.1 (norm_eq_zero.1 h7)

/-- The solver is at `x`. -/
structure At (x : E) (v : Vars E) : Prop where
  X : v.X = x
  Y : v.Y = x
  L : 0 < v.L
  Tk : 0 ≤ v.Tk
  Zrb : v.Zrb.getD x = x

/-- The iteration, started at `x`, has not left it. -/
structure In (o : Opts) (x : E) (v : Vars E) : Prop extends At x v where
  Xprv : v.Xprv = x
  Yprv : o.fastSolve = false → v.Yprv = x

/-- Line searches that do what they are documented for. -/
def SearchOk (o : Opts) : Prop :=
  (∀ gu m, o.backtrack = .standard gu m → 1 ≤ m) ∧ (∀ gd gu m, o.backtrack = .robust gd gu m → 1 ≤ m ∧ 0 < gd)

variable {C : Cls E} {o : Opts} {x : E}

theorem in_onStart (k : ℕ) {v : Vars E} (h : At x v) : In o x (onStart C o k v) ∧
    (o.monotone = true → k = 0 → (onStart C o k v).objfn = C.objfn x) := by
  unfold onStart
  simp only
  refine ⟨?_, ?_⟩
  · by_cases h1 : (!o.fastSolve || o.isRobust) = true
    · by_cases h2 : o.monotone = true <;> by_cases h3 : k = 0 <;> simp only [h1, h2, h3, if_true, if_false, Bool.false_eq_true] <;>
        exact ⟨⟨h.X, h.Y, h.L, h.Tk, h.Zrb⟩, h.X, fun _ => h.Y⟩
    · have h4 : o.fastSolve = false → False := by
        intro h5; simp [h5] at h1
      by_cases h2 : o.monotone = true <;> by_cases h3 : k = 0 <;> simp only [h1, h2, h3, if_true, if_false, Bool.false_eq_true] <;>
        exact ⟨⟨h.X, h.Y, h.L, h.Tk, h.Zrb⟩, h.X, fun h5 => (h4 h5).elim⟩
  · intro hm hk
    by_cases h1 : (!o.fastSolve || o.isRobust) = true <;> simp only [h1, hm, hk, if_true, if_false, Bool.false_eq_true, h.X]

theorem in_xstepG (hfix : ∀ L, 0 < L → C.proxG L (x - (1 / L) • C.gradF x) = x) {k : ℕ} (hk : k ≤ 1 ∨ o.stepPolicy = .none)
    {v : Vars E} (h : In o x v) : In o x (xstepG C o k (C.gradF x) v) ∧
      (o.monotone = true ∧ k > 0 → (xstepG C o k (C.gradF x) v).ZZ = x) ∧
      (k = 0 → (xstepG C o k (C.gradF x) v).objfn = v.objfn) := by
  have eL : stepL C o k v (C.gradF x) = v.L := by
    unfold stepL
    rcases hk with hk | hk
    · cases o.stepPolicy <;> simp only [show ¬ k > 1 by omega, if_false]
    · rw [hk]
  unfold xstepG
  simp only [eL]
  have e : ∃ u : Vars E, storeBB o ({ v with L := v.L }) (C.gradF x) = u ∧ In o x u ∧ u.objfn = v.objfn := by
    refine ⟨_, rfl, ?_⟩
    unfold storeBB
    cases o.stepPolicy <;> exact ⟨⟨⟨h.X, h.Y, h.L, h.Tk, h.Zrb⟩, h.Xprv, h.Yprv⟩, rfl⟩
  obtain ⟨u, hu, h', ho⟩ := e
  rw [hu, h'.Y, hfix _ h'.L]
  unfold safeguard
  by_cases h1 : o.monotone = true ∧ k > 0
  · simp only [if_pos h1]
    split_ifs
    · exact ⟨⟨⟨h'.Xprv, rfl, h'.L, h'.Tk, h'.Zrb⟩, h'.Xprv, h'.Yprv⟩, fun _ => rfl, fun h0 => by omega⟩
    · exact ⟨⟨⟨rfl, rfl, h'.L, h'.Tk, h'.Zrb⟩, h'.Xprv, h'.Yprv⟩, fun _ => rfl, fun h0 => by omega⟩
  · simp only [if_neg h1]
    exact ⟨⟨⟨rfl, rfl, h'.L, h'.Tk, h'.Zrb⟩, h'.Xprv, h'.Yprv⟩, fun h0 => (h1 h0).elim, fun _ => ho⟩

theorem in_ystep (k : ℕ) {v : Vars E} (h : In o x v) (hz : o.monotone = true ∧ k > 0 → v.ZZ = x) :
    In o x (ystep o k v) ∧ (ystep o k v).objfn = v.objfn := by
  unfold ystep
  simp only
  by_cases h1 : o.monotone = true ∧ k > 0
  · simp only [if_pos h1]
    refine ⟨⟨⟨h.X, ?_, h.L, h.Tk, h.Zrb⟩, h.Xprv, h.Yprv⟩, trivial⟩
    simp only [h.X, hz h1, h.Xprv, sub_self, smul_zero, add_zero]
  · simp only [if_neg h1]
    refine ⟨⟨⟨h.X, ?_, h.L, h.Tk, h.Zrb⟩, h.Xprv, h.Yprv⟩, trivial⟩
    simp only [h.X, h.Xprv, sub_self, smul_zero, add_zero]

theorem quadQ_self (L : ℝ) (g : E) : quadQ C L x x g = C.obfnF x := by
  unfold quadQ
  simp

theorem in_mainStep (hfix : ∀ L, 0 < L → C.proxG L (x - (1 / L) • C.gradF x) = x) {k : ℕ} (hk : k ≤ 1 ∨ o.stepPolicy = .none)
    (hs : SearchOk o) {v : Vars E} (h : In o x v) : In o x (mainStep C o k v) ∧
      (k = 0 → (mainStep C o k v).objfn = v.objfn) := by
  unfold mainStep
  cases hb : o.backtrack with
  | none =>
    simp only
    unfold xstep
    rw [h.Y]
    obtain ⟨a, b, c⟩ := in_xstepG hfix hk h
    obtain ⟨d, e⟩ := in_ystep k a b
    exact ⟨d, fun h0 => e.trans (c h0)⟩
  | standard gu m =>
    simp only
    unfold btStandard
    simp only
    rw [h.Y]
    obtain ⟨m, rfl⟩ : ∃ n, m = n + 1 := ⟨m - 1, by have := hs.1 gu m hb; omega⟩
    unfold btLoop
    simp only
    obtain ⟨a, b, c⟩ := in_xstepG hfix hk h
    rw [if_pos (by rw [a.X, a.Y, quadQ_self])]
    obtain ⟨d, e⟩ := in_ystep (o := o) (x := x) k (v := { xstepG C o k (C.gradF x) v with
        F := some (C.obfnF (xstepG C o k (C.gradF x) v).X),
        Q := some (quadQ C (xstepG C o k (C.gradF x) v).L (xstepG C o k (C.gradF x) v).X (xstepG C o k (C.gradF x) v).Y (C.gradF x)),
        iterBT := some (0 + 1) }) ⟨⟨a.X, a.Y, a.L, a.Tk, a.Zrb⟩, a.Xprv, a.Yprv⟩ b
    exact ⟨d, fun h0 => e.trans (c h0)⟩
  | robust gd gu m =>
    simp only
    unfold btRobust
    simp only
    obtain ⟨hm, hgd⟩ := hs.2 gd gu m hb
    obtain ⟨m, rfl⟩ : ∃ n, m = n + 1 := ⟨m - 1, by omega⟩
    have hZ : v.Zrb.getD v.X = x := by rw [h.X, h.Zrb]
    rw [hZ]
    have hL : 0 < v.L * gd := mul_pos h.L hgd
    have ht : 0 < robustT (v.L * gd) v.Tk := by
      unfold robustT
      exact div_pos (by positivity) (by linarith)
    have hT : v.Tk + robustT (v.L * gd) v.Tk ≠ 0 := by linarith [h.Tk]
    have hY : (1 / (v.Tk + robustT (v.L * gd) v.Tk)) • (v.Tk • v.Xprv + robustT (v.L * gd) v.Tk • x) = x := by
      rw [h.Xprv, ← add_smul, smul_smul, one_div, inv_mul_cancel₀ hT, one_smul]
    unfold rbLoop
    simp only [hY]
    obtain ⟨a, b, c⟩ := in_xstepG (o := o) hfix hk (v := { v with L := v.L * gd, Y := x })
      ⟨⟨h.X, rfl, hL, h.Tk, h.Zrb⟩, h.Xprv, h.Yprv⟩
    have hTk : (xstepG C o k (C.gradF x) { v with L := v.L * gd, Y := x }).Tk = v.Tk := by
      unfold xstepG safeguard storeBB
      cases o.stepPolicy <;> simp only <;> split_ifs <;> rfl
    have hq : quadQ C (xstepG C o k (C.gradF x) { v with L := v.L * gd, Y := x }).L
        (xstepG C o k (C.gradF x) { v with L := v.L * gd, Y := x }).X
        (xstepG C o k (C.gradF x) { v with L := v.L * gd, Y := x }).Y (C.gradF x) =
        C.obfnF (xstepG C o k (C.gradF x) { v with L := v.L * gd, Y := x }).X := by rw [a.X, a.Y, quadQ_self]
    rw [if_pos hq.ge]
    refine ⟨⟨⟨a.X, a.Y, a.L, ?_, ?_⟩, a.Xprv, a.Yprv⟩, c⟩
    · simp only [hTk]; linarith [h.Tk]
    · simp only [Option.getD_some, a.X, a.Y, sub_self, smul_zero, add_zero]

/-- **C93**, general form of the first part. -/
theorem stops_at_solution (hfix : ∀ L, 0 < L → C.proxG L (x - (1 / L) • C.gradF x) = x) (hs : SearchOk o) (hf : o.fastSolve = false)
    (hmax : 1 ≤ o.maxMainIter) (htol : 0 < tolOf o 0) (s : St (Vars E)) (hs0 : Fresh s) (hX : s.v.X = x) (hL : 0 < s.v.L) :
    let r := solve (ops C o) o none s
    r.v.X = x ∧ r.k = 1 ∧ ∃ e, r.itstat = [e] ∧ e.obj = C.objfn x ∧ e.rsdl = 0 := by
  have hat : At x s.v := ⟨hX, by rw [hs0.Y, hX], hL, hs0.Tk.ge, by rw [hs0.Zrb]; rfl⟩
  obtain ⟨h1, h2⟩ := in_onStart (C := C) (o := o) 0 hat
  obtain ⟨h3, h4⟩ := in_mainStep hfix (k := 0) (Or.inl (by omega)) hs h1
  have hr : rsdl o 0 (mainStep C o 0 (onStart C o 0 s.v)) = 0 := by
    unfold rsdl
    rw [if_neg (by simp), h3.X, h3.Yprv hf, sub_self, norm_zero]
  obtain ⟨n, hn⟩ : ∃ n, o.maxMainIter = n + 1 := ⟨o.maxMainIter - 1, by omega⟩
  have hb : body (ops C o) o none 0 s = (⟨0, [statOf C o 0 (mainStep C o 0 (onStart C o 0 s.v)) 0],
      mainStep C o 0 (onStart C o 0 s.v)⟩, true) := by
    unfold body
    simp only [ops, hr, hf, hs0.itstat, Bool.false_eq_true, if_false, List.nil_append, htol, decide_true, Bool.not_false,
      Bool.and_self, Bool.or_true]
  intro r
  have hrr : r = ⟨1, [statOf C o 0 (mainStep C o 0 (onStart C o 0 s.v)) 0], mainStep C o 0 (onStart C o 0 s.v)⟩ := by
    change solve (ops C o) o none s = _
    unfold solve
    simp only [hs0.k, hn, List.range'_succ]
    unfold loop
    simp only [hb, if_true]
  rw [hrr]
  refine ⟨h3.X, rfl, _, rfl, ?_, rfl⟩
  unfold statOf
  simp only
  by_cases hm : o.monotone = true
  · rw [if_pos hm, h4 rfl, h2 hm rfl]
  · rw [if_neg hm, h3.X]

/-- **C93**, general form of the second part. -/
theorem stays_at_solution (hfix : ∀ L, 0 < L → C.proxG L (x - (1 / L) • C.gradF x) = x) (hs : SearchOk o) (hp : o.stepPolicy = .none)
    (s : St (Vars E)) (hs0 : Fresh s) (hX : s.v.X = x) (hL : 0 < s.v.L) :
    (solve (ops C o) o none s).v.X = x := by
  have key : ∀ (ks : List ℕ) (u : St (Vars E)), At x u.v → At x (loop (ops C o) o none ks u).v := by
    intro ks
    induction ks with
    | nil => intro u hu; exact hu
    | cons k ks ih =>
      intro u hu
      have hb : At x (body (ops C o) o none k u).1.v := by
        have h := (in_mainStep hfix (k := k) (Or.inr hp) hs (in_onStart (C := C) (o := o) k hu).1).1.toAt
        unfold body
        simp only [ops]
        split_ifs <;> exact h
      unfold loop
      simp only
      split_ifs
      · exact hb
      · exact ih _ hb
  exact (key _ s ⟨hX, by rw [hs0.Y, hX], hL, hs0.Tk.ge, by rw [hs0.Zrb]; rfl⟩).X

theorem bb_stored (hp : o.stepPolicy = .bb) (k : ℕ) (g : E) (v : Vars E) :
    (xstepG C o k g v).bbX = v.X ∧ (xstepG C o k g v).bbG = g := by
  unfold xstepG storeBB safeguard
  simp only [hp]
  split_ifs <;> exact ⟨rfl, rfl⟩

theorem bb_kept (k : ℕ) (v : Vars E) : (ystep o k v).bbX = v.bbX ∧ (ystep o k v).bbG = v.bbG := by
  unfold ystep
  simp only
  split_ifs <;> exact ⟨rfl, rfl⟩

/-- Two iterations at a fixed point with `StepSizePolicyBB`: the next update divides by zero. -/
theorem bb_at_solution (hfix : ∀ L, 0 < L → C.proxG L (x - (1 / L) • C.gradF x) = x) (hb : o.backtrack = .none)
    (hp : o.policy = .bb) (hf : o.fastSolve = true) (hmax : o.maxMainIter = 2) (s : St (Vars E)) (hs0 : Fresh s)
    (hX : s.v.X = x) (hL : 0 < s.v.L) :
    let r := solve (ops C o) o none s
    r.k = 2 ∧ bbUpdate r.v.L r.v.X r.v.bbX (C.gradF r.v.Y) r.v.bbG = none := by
  have hpol : o.stepPolicy = .bb := by unfold Opts.stepPolicy; rw [hb, hp]
  have hsr : SearchOk o := ⟨fun _ _ h => by simp [hb] at h, fun _ _ _ h => by simp [hb] at h⟩
  have hat : At x s.v := ⟨hX, by rw [hs0.Y, hX], hL, hs0.Tk.ge, by rw [hs0.Zrb]; rfl⟩
  have hstep : ∀ k v, k ≤ 1 → At x v → At x (mainStep C o k (onStart C o k v)) ∧
      (mainStep C o k (onStart C o k v)).bbX = x ∧ (mainStep C o k (onStart C o k v)).bbG = C.gradF x := by
    intro k v hk hv
    have h1 := (in_onStart (C := C) (o := o) k hv).1
    refine ⟨(in_mainStep hfix (Or.inl hk) hsr h1).1.toAt, ?_⟩
    unfold mainStep
    simp only [hb]
    rw [(bb_kept _ _).1, (bb_kept _ _).2]
    unfold xstep
    rw [(bb_stored hpol _ _ _).1, (bb_stored hpol _ _ _).2, h1.X, h1.Y]
    exact ⟨rfl, rfl⟩
  have hbody : ∀ k (u : St (Vars E)), body (ops C o) o none k u = (⟨k, u.itstat, mainStep C o k (onStart C o k u.v)⟩, false) := by
    intro k u
    unfold body
    simp [ops, hf]
  intro r
  have hr : r = ⟨2, s.itstat, mainStep C o 1 (onStart C o 1 (mainStep C o 0 (onStart C o 0 s.v)))⟩ := by
    change solve (ops C o) o none s = _
    unfold solve
    simp only [hs0.k, hmax, List.range'_succ, List.range'_zero, loop, hbody, Bool.false_eq_true, if_false]
  obtain ⟨h1, h2, h3⟩ := hstep 1 _ le_rfl (hstep 0 s.v (by omega) hat).1
  rw [hr]
  refine ⟨rfl, ?_⟩
  simp only [h1.X, h1.Y, h2, h3, bbUpdate, sub_self, inner_zero_left, npDiv, if_true, Option.map_none]

/-! ## `BPDN` and `WeightedBPDN` -/

section Bpdn
open Matrix Sporco.Admm.Bpdn Sporco.Prox Sporco.Admm

variable {N M K : ℕ}

theorem dmul_bound (D : Matrix (Fin N) (Fin M) ℝ) (x : Arr M K) :
    fro2 (D * mat x) ≤ ‖(dmul D : Arr M K →L[ℝ] Arr N K)‖ ^ 2 * fro2 (mat x) := by
  rw [← norm_arr, ← norm_mat, ← dmul_apply, ← mul_pow]
  exact pow_le_pow_left₀ (norm_nonneg _) ((dmul D).le_opNorm x) 2

theorem bpdn_fixed (D : Matrix (Fin N) (Fin M) ℝ) (S : Matrix (Fin N) (Fin K) ℝ) (lmbda : ℝ) (hl : 0 ≤ lmbda)
    (wl1 : Fin M × Fin K → ℝ) (hw : ∀ i, 0 ≤ wl1 i) (nonNeg : Bool) (Xs : Matrix (Fin M) (Fin K) ℝ)
    (hmin : IsMin (objBPDN D S lmbda wl1) (allowed nonNeg) Xs) {L : ℝ} (hL : 0 < L) :
    (clsBPDN D S lmbda wl1 nonNeg).proxG L (arr Xs - (1 / L) • (clsBPDN D S lmbda wl1 nonNeg).gradF (arr Xs)) = arr Xs :=
  min_fixed (bpdn_convex D S lmbda hl wl1 hw nonNeg _ (dmul_bound D)) ((coefs_allowed _ (arr Xs)).2 hmin.1) (fun z hz => by
    rw [F_matrix D S lmbda wl1 hw, F_matrix D S lmbda wl1 hw]
    exact hmin.2 _ ((coefs_allowed _ _).1 hz)) hL

theorem wSq_bound (D : Matrix (Fin N) (Fin M) ℝ) (W : Matrix (Fin N) (Fin K) ℝ) (hW : ∀ i j, 0 ≤ W i j) :
    ∃ Lf : ℝ, ∀ X : Matrix (Fin M) (Fin K) ℝ, wSq D W X ≤ Lf * fro2 X := by
  refine ⟨(∑ i, ∑ j, W i j) * ‖(dmul D : Arr M K →L[ℝ] Arr N K)‖ ^ 2, fun X => ?_⟩
  have h1 : ∀ i j, W i j ≤ ∑ i, ∑ j, W i j := fun i j =>
    (Finset.single_le_sum (f := fun j => W i j) (fun j _ => hW i j) (Finset.mem_univ j)).trans
      (Finset.single_le_sum (f := fun i => ∑ j, W i j) (fun i _ => Finset.sum_nonneg fun j _ => hW i j) (Finset.mem_univ i))
  have h2 : wSq D W X ≤ (∑ i, ∑ j, W i j) * fro2 (D * X) := by
    unfold wSq fro2
    rw [Finset.mul_sum]
    refine Finset.sum_le_sum fun i _ => ?_
    rw [Finset.mul_sum]
    exact Finset.sum_le_sum fun j _ => mul_le_mul_of_nonneg_right (h1 i j) (sq_nonneg _)
  have h3 := dmul_bound (K := K) D (arr X)
  rw [mat_arr] at h3
  refine h2.trans ?_
  rw [mul_assoc]
  exact mul_le_mul_of_nonneg_left h3 (Finset.sum_nonneg fun i _ => Finset.sum_nonneg fun j _ => hW i j)

/-- **C93** (`pgm.bpdn.BPDN`).  Started at a minimiser of the documented functional, a solver with a positive stopping
tolerance returns that array after one iteration, with residual zero and the minimum as recorded objective, for every
momentum, step size policy, line search, restart option and positive `L`. -/
theorem C93_bpdn_stops (D : Matrix (Fin N) (Fin M) ℝ) (S : Matrix (Fin N) (Fin K) ℝ) (lmbda : ℝ) (hl : 0 ≤ lmbda)
    (wl1 : Fin M × Fin K → ℝ) (hw : ∀ i, 0 ≤ wl1 i) (nonNeg : Bool) (o : Opts) (ho : SearchOk o)
    (hf : o.fastSolve = false) (hmax : 1 ≤ o.maxMainIter) (htol : 0 < if o.autoStop then o.tau0 else o.relStopTol)
    (s : St (Vars (Arr M K))) (hs : Fresh s) (hL : 0 < s.v.L)
    (hmin : IsMin (objBPDN D S lmbda wl1) (allowed nonNeg) (mat s.v.X)) :
    let r := solve (ops (clsBPDN D S lmbda wl1 nonNeg) o) o none s
    r.v.X = s.v.X ∧ r.k = 1 ∧ ∃ e, r.itstat = [e] ∧ e.obj.1 = objBPDN D S lmbda wl1 (mat s.v.X) ∧ e.rsdl = 0 := by
  have ht : 0 < tolOf o 0 := by
    unfold tolOf
    split_ifs at htol ⊢
    · simpa using htol
    · exact htol
  obtain ⟨h1, h2, e, h3, h4, h5⟩ := stops_at_solution (x := s.v.X) (o := o) (fun L hL => by
    have := bpdn_fixed D S lmbda hl wl1 hw nonNeg _ hmin hL
    rwa [arr_mat] at this) ho hf hmax ht s hs rfl hL
  refine ⟨h1, h2, e, h3, ?_, h5⟩
  rw [h4, ← F_matrix D S lmbda wl1 hw nonNeg]
  rfl

/-- **C93** (`pgm.bpdn.BPDN`).  With a fixed `L` or a line search, a solver started at a minimiser stays there whatever the
stopping rule, with or without `FastSolve`. -/
theorem C93_bpdn_stays (D : Matrix (Fin N) (Fin M) ℝ) (S : Matrix (Fin N) (Fin K) ℝ) (lmbda : ℝ) (hl : 0 ≤ lmbda)
    (wl1 : Fin M × Fin K → ℝ) (hw : ∀ i, 0 ≤ wl1 i) (nonNeg : Bool) (o : Opts) (ho : SearchOk o)
    (hp : o.policy = .none ∨ o.backtrack ≠ .none) (s : St (Vars (Arr M K))) (hs : Fresh s) (hL : 0 < s.v.L)
    (hmin : IsMin (objBPDN D S lmbda wl1) (allowed nonNeg) (mat s.v.X)) :
    (solve (ops (clsBPDN D S lmbda wl1 nonNeg) o) o none s).v.X = s.v.X := by
  refine stays_at_solution (x := s.v.X) (o := o) (fun L hL => by
    have := bpdn_fixed D S lmbda hl wl1 hw nonNeg _ hmin hL
    rwa [arr_mat] at this) ho ?_ s hs rfl hL
  unfold Opts.stepPolicy
  cases hb : o.backtrack
  · exact hp.resolve_right (by simp [hb])
  · rfl
  · rfl

/-- **Negation of C93 for `StepSizePolicyBB` without a stopping test**: for every problem, a solver with `FastSolve` started
at a minimiser divides zero by zero for the step parameter of the third iteration. -/
theorem C93_bpdn_bb_refuted (D : Matrix (Fin N) (Fin M) ℝ) (S : Matrix (Fin N) (Fin K) ℝ) (lmbda : ℝ) (hl : 0 ≤ lmbda)
    (wl1 : Fin M × Fin K → ℝ) (hw : ∀ i, 0 ≤ wl1 i) (nonNeg : Bool) (o : Opts) (hb : o.backtrack = .none)
    (hp : o.policy = .bb) (hf : o.fastSolve = true) (hmax : o.maxMainIter = 2) (s : St (Vars (Arr M K))) (hs : Fresh s)
    (hL : 0 < s.v.L) (hmin : IsMin (objBPDN D S lmbda wl1) (allowed nonNeg) (mat s.v.X)) :
    let C := clsBPDN D S lmbda wl1 nonNeg
    let r := solve (ops C o) o none s
    r.k = 2 ∧ bbUpdate r.v.L r.v.X r.v.bbX (C.gradF r.v.Y) r.v.bbG = none :=
  bb_at_solution (x := s.v.X) (fun L hL => by
    have := bpdn_fixed D S lmbda hl wl1 hw nonNeg _ hmin hL
    rwa [arr_mat] at this) hb hp hf hmax s hs rfl hL

/-- **C93** (`pgm.bpdn.WeightedBPDN`). -/
theorem C93_weightedbpdn_stops (D : Matrix (Fin N) (Fin M) ℝ) (S W : Matrix (Fin N) (Fin K) ℝ) (hW : ∀ i j, 0 ≤ W i j)
    (lmbda : ℝ) (hl : 0 ≤ lmbda) (wl1 : Fin M × Fin K → ℝ) (hw : ∀ i, 0 ≤ wl1 i) (nonNeg : Bool) (o : Opts)
    (ho : SearchOk o) (hf : o.fastSolve = false) (hmax : 1 ≤ o.maxMainIter)
    (htol : 0 < if o.autoStop then o.tau0 else o.relStopTol) (s : St (Vars (Arr M K))) (hs : Fresh s) (hL : 0 < s.v.L)
    (hmin : IsMin (objWBPDN D S W lmbda wl1) (allowed nonNeg) (mat s.v.X)) :
    let r := solve (ops (clsWBPDN D S lmbda wl1 nonNeg W) o) o none s
    r.v.X = s.v.X ∧ r.k = 1 ∧ ∃ e, r.itstat = [e] ∧ e.obj.1 = objWBPDN D S W lmbda wl1 (mat s.v.X) ∧ e.rsdl = 0 := by
  have ht : 0 < tolOf o 0 := by
    unfold tolOf
    split_ifs at htol ⊢
    · simpa using htol
    · exact htol
  obtain ⟨Lf, hLf⟩ := wSq_bound D W hW
  obtain ⟨h1, h2, e, h3, h4, h5⟩ := stops_at_solution (x := s.v.X) (o := o) (fun L hL =>
    min_fixed (convex_wbpdn D S W hW lmbda hl wl1 hw nonNeg Lf hLf) ((coefs_allowed _ _).2 hmin.1) (fun z hz => by
      rw [F_wbpdn D S W hW lmbda wl1 hw, F_wbpdn D S W hW lmbda wl1 hw]
      exact hmin.2 _ ((coefs_allowed _ _).1 hz)) hL) ho hf hmax ht s hs rfl hL
  refine ⟨h1, h2, e, h3, ?_, h5⟩
  rw [h4, ← F_wbpdn D S W hW lmbda wl1 hw nonNeg]
  rfl

/-- The correlations of the atoms with the signals do not exceed the thresholds. -/
def AboveCritical (D : Matrix (Fin N) (Fin M) ℝ) (S : Matrix (Fin N) (Fin K) ℝ) (lmbda : ℝ) (wl1 : Fin M × Fin K → ℝ)
    (nonNeg : Bool) : Prop :=
  ∀ m k, (∑ i, D i m * S i k) ≤ lmbda * wl1 (m, k) ∧ (nonNeg = false → -(lmbda * wl1 (m, k)) ≤ ∑ i, D i m * S i k)

theorem fro2_expand (R S : Matrix (Fin N) (Fin K) ℝ) : fro2 (R - S) = fro2 R - 2 * ∑ i, ∑ j, R i j * S i j + fro2 S := by
  unfold fro2
  simp only [Matrix.sub_apply, Finset.mul_sum, ← Finset.sum_sub_distrib, ← Finset.sum_add_distrib]
  exact Finset.sum_congr rfl fun i _ => Finset.sum_congr rfl fun j _ => by ring

theorem sum_corr (D : Matrix (Fin N) (Fin M) ℝ) (S : Matrix (Fin N) (Fin K) ℝ) (X : Matrix (Fin M) (Fin K) ℝ) :
    ∑ i, ∑ k, (D * X) i k * S i k = ∑ m, ∑ k, X m k * ∑ i, D i m * S i k := by
  simp only [Matrix.mul_apply, Finset.sum_mul, Finset.mul_sum]
  rw [Finset.sum_comm]
  have e : ∀ k, ∑ i, ∑ m, D i m * X m k * S i k = ∑ m, ∑ i, X m k * (D i m * S i k) := by
    intro k
    rw [Finset.sum_comm]
    exact Finset.sum_congr rfl fun m _ => Finset.sum_congr rfl fun i _ => by ring
  simp only [e]
  exact Finset.sum_comm

/-- **C93**.  The zero array is a minimiser of the BPDN functional exactly when no correlation of an atom with a signal
exceeds its threshold. -/
theorem C93_bpdn_critical (D : Matrix (Fin N) (Fin M) ℝ) (S : Matrix (Fin N) (Fin K) ℝ) (lmbda : ℝ) (hl : 0 ≤ lmbda)
    (wl1 : Fin M × Fin K → ℝ) (hw : ∀ i, 0 ≤ wl1 i) (nonNeg : Bool) :
    IsMin (objBPDN D S lmbda wl1) (allowed nonNeg) 0 ↔ AboveCritical D S lmbda wl1 nonNeg := by
  constructor
  · intro h m k
    have h1 := bpdn_fixed D S lmbda hl wl1 hw nonNeg 0 h one_pos
    have h2 := congrFun (congrArg WithLp.ofLp h1) (m, k)
    have hg : (arr (0 : Matrix (Fin M) (Fin K) ℝ) - (1 / (1 : ℝ)) • (clsBPDN D S lmbda wl1 nonNeg).gradF (arr 0)) (m, k) =
        ∑ i, D i m * S i k := by
      have e : (clsBPDN D S lmbda wl1 nonNeg).gradF (arr 0) = arr (-(Dᵀ * S)) := by
        simp only [clsBPDN, mat_arr, Matrix.mul_zero, zero_sub, Matrix.mul_neg]
      rw [e]
      change (0 : ℝ) - 1 / 1 * -((Dᵀ * S) m k) = _
      rw [Matrix.mul_apply]
      simp [Matrix.transpose_apply]
    have h0 : 0 ≤ lmbda * wl1 (m, k) := mul_nonneg hl (hw _)
    have h3 : gystep nonNeg (proxL1Arr (arr (0 : Matrix (Fin M) (Fin K) ℝ) -
        (1 / (1 : ℝ)) • (clsBPDN D S lmbda wl1 nonNeg).gradF (arr 0)).ofLp fun i => lmbda / 1 * wl1 i) (m, k) = 0 := h2
    have h4 : proxL1Arr (arr (0 : Matrix (Fin M) (Fin K) ℝ) -
        (1 / (1 : ℝ)) • (clsBPDN D S lmbda wl1 nonNeg).gradF (arr 0)).ofLp (fun i => lmbda / 1 * wl1 i) (m, k) =
        proxL1 (∑ i, D i m * S i k) (lmbda * wl1 (m, k)) := by
      rw [← hg]
      change proxL1 _ (lmbda / 1 * wl1 (m, k)) = _
      rw [div_one lmbda]
    set z := ∑ i, D i m * S i k with hz
    have h5 : proxL1 z (lmbda * wl1 (m, k)) ≤ 0 → z ≤ lmbda * wl1 (m, k) := by
      intro h6
      by_contra h7
      push Not at h7
      have hz0 : 0 < z := lt_of_le_of_lt h0 h7
      unfold proxL1 at h6
      rw [abs_of_pos hz0, max_eq_left (by linarith), npSign, if_pos hz0, one_mul] at h6
      linarith
    have h6 : 0 ≤ proxL1 z (lmbda * wl1 (m, k)) → -(lmbda * wl1 (m, k)) ≤ z := by
      intro h6
      by_contra h7
      push Not at h7
      have hz0 : z < 0 := by linarith
      unfold proxL1 at h6
      rw [abs_of_neg hz0, max_eq_left (by linarith), npSign, if_neg hz0.not_gt, if_pos hz0] at h6
      linarith
    unfold gystep at h3
    cases nonNeg
    · simp only [Bool.false_eq_true, if_false] at h3
      rw [h4] at h3
      exact ⟨h5 h3.le, fun _ => h6 h3.ge⟩
    · simp only [if_true, clip] at h3
      rw [h4] at h3
      refine ⟨h5 ?_, fun h => by simp at h⟩
      split_ifs at h3 with h8
      · exact h8.le
      · exact h3.le
  · intro h
    refine ⟨fun _ i j => le_rfl, fun X hX => ?_⟩
    unfold objBPDN
    rw [Matrix.mul_zero, fro2_expand (D * X) S, sum_corr]
    have e0 : fro2 (0 - S) = fro2 S := by unfold fro2; simp
    have e1 : l1wMat wl1 0 = 0 := by unfold l1wMat; simp
    rw [e0, e1]
    have h1 : 0 ≤ fro2 (D * X) := by unfold fro2; positivity
    have h2 : ∑ m, ∑ k, X m k * ∑ i, D i m * S i k ≤ lmbda * l1wMat wl1 X := by
      unfold l1wMat
      rw [Finset.mul_sum]
      refine Finset.sum_le_sum fun m _ => ?_
      rw [Finset.mul_sum]
      refine Finset.sum_le_sum fun k _ => ?_
      obtain ⟨h3, h4⟩ := h m k
      have h5 : 0 ≤ lmbda * wl1 (m, k) := mul_nonneg hl (hw _)
      rw [← mul_assoc]
      cases nonNeg
      · have h6 := abs_le.2 ⟨h4 rfl, h3⟩
        calc X m k * ∑ i, D i m * S i k ≤ |X m k * ∑ i, D i m * S i k| := le_abs_self _
          _ = |∑ i, D i m * S i k| * |X m k| := by rw [abs_mul, mul_comm]
          _ ≤ _ := mul_le_mul_of_nonneg_right h6 (abs_nonneg _)
      · have h6 := hX rfl m k
        rw [abs_of_nonneg h6, mul_comm]
        exact mul_le_mul_of_nonneg_right h3 h6
    linarith

/-- **C93** (`pgm.bpdn.BPDN`).  With `lmbda` at or above the critical value, a solver with the default initial array (zero)
returns exactly zero after one iteration. -/
theorem C93_bpdn_zero (D : Matrix (Fin N) (Fin M) ℝ) (S : Matrix (Fin N) (Fin K) ℝ) (lmbda : ℝ) (hl : 0 ≤ lmbda)
    (wl1 : Fin M × Fin K → ℝ) (hw : ∀ i, 0 ≤ wl1 i) (nonNeg : Bool) (o : Opts) (ho : SearchOk o)
    (hf : o.fastSolve = false) (hmax : 1 ≤ o.maxMainIter) (htol : 0 < if o.autoStop then o.tau0 else o.relStopTol)
    (s : St (Vars (Arr M K))) (hs : Fresh s) (hL : 0 < s.v.L) (hX : s.v.X = 0)
    (hc : AboveCritical D S lmbda wl1 nonNeg) :
    let r := solve (ops (clsBPDN D S lmbda wl1 nonNeg) o) o none s
    r.v.X = 0 ∧ r.k = 1 := by
  have hm : IsMin (objBPDN D S lmbda wl1) (allowed nonNeg) (mat s.v.X) := by
    rw [hX]
    exact (C93_bpdn_critical D S lmbda hl wl1 hw nonNeg).2 hc
  have h := C93_bpdn_stops D S lmbda hl wl1 hw nonNeg o ho hf hmax htol s hs hL hm
  exact ⟨h.1.trans hX, h.2.1⟩

/-- The hypotheses are met by the atom 2, signal 6 and `lmbda = 12`, where zero is a solution; with `lmbda = 4` it is not,
and the solution is 2. -/
example : AboveCritical (one1 2) (one1 6) 12 (fun _ => 1) false ∧ ¬ AboveCritical (one1 2) (one1 6) 4 (fun _ => 1) true ∧
    IsMin (objBPDN (one1 2) (one1 6) 4 (fun _ => 1)) (allowed false) (one1 2) ∧ SearchOk batOpts := by
  refine ⟨fun m k => ?_, fun h => ?_, ⟨by simp [allowed], fun X _ => ?_⟩, ⟨?_, ?_⟩⟩
  · simp [one1]; norm_num
  · have := (h 0 0).1
    simp [one1] at this
    norm_num at this
  · simp [objBPDN, fro2, l1wMat, one1, Matrix.mul_apply]
    cases abs_cases (X 0 0) <;> nlinarith [sq_nonneg (X 0 0 - 2)]
  · intro gu m h; cases h
  · intro gd gu m h; cases h

end Bpdn

end Sporco.Pgm
