import Verif.Pgm.ConvStep
import Verif.Pgm.Stops

/-!
# The residual of the convolutional PGM classes (C68, C69), and C45 for `ConvBPDNMask`
-/

set_option autoImplicit false
set_option linter.unusedSectionVars false

namespace Sporco.PgmConv

open Finset ComplexConjugate Sporco.Prox
open Sporco.Conv
open Sporco.Pgm (ClsF Cls VarsF Vars St CallbackReads traj iterX smooth_ls PlainSearch proxPoint)
open scoped RealInnerProductSpace

variable {d c : ℕ} {N Nd : Fin d → ℕ} [∀ k, NeZero (N k)] {A B K M : Type*} [Fintype A] [Fintype B]
  [Fintype K] [Fintype M] {a : Fin d}

section Dual
variable {E Ef : Type*} [NormedAddCommGroup E] [InnerProductSpace ℝ E] [NormedAddCommGroup Ef]
  [InnerProductSpace ℝ Ef]

/-- A state whose spectra are those of real arrays. -/
def Real' (CF : ClsF E Ef) (v : VarsF E Ef) : Prop :=
  v.Xf = CF.rfftn v.X ∧ ∃ y, v.Yf = CF.rfftn y

theorem xstepG_keepF (CF : ClsF E Ef) (o : Pgm.Opts) (hm : o.monotone = false) (k : ℕ) (g : Ef) (v : VarsF E Ef) :
    let r := Pgm.DFT.xstepG CF o k g v
    r.Xfprv = v.Xfprv ∧ r.Yfprv = v.Yfprv ∧ r.Yf = v.Yf ∧ r.Xf = CF.rfftn r.X ∧
      r.X = CF.proxG r.L (CF.irfftn (v.Yf - (1 / r.L) • g)) := by
  have hb : ∀ v : VarsF E Ef, (Pgm.DFT.storeBB o v g).Xfprv = v.Xfprv ∧ (Pgm.DFT.storeBB o v g).Yfprv = v.Yfprv ∧
      (Pgm.DFT.storeBB o v g).Yf = v.Yf ∧ (Pgm.DFT.storeBB o v g).L = v.L := by
    intro v; unfold Pgm.DFT.storeBB; split <;> simp
  obtain ⟨h1, h2, h3, h4⟩ := hb { v with L := Pgm.DFT.stepL CF o k v g }
  simp only [Pgm.DFT.xstepG, Pgm.DFT.safeguard, hm, Bool.false_eq_true, false_and, if_false]
  exact ⟨h1, h2, h3, trivial, by rw [h3]⟩

theorem btLoop_keepF (CF : ClsF E Ef) (o : Pgm.Opts) (hm : o.monotone = false) (k : ℕ) (gu : ℝ) (g : Ef) :
    ∀ (n it : ℕ) (v : VarsF E Ef),
      (Pgm.DFT.btLoop CF o k gu g n it v).Xfprv = v.Xfprv ∧ (Pgm.DFT.btLoop CF o k gu g n it v).Yfprv = v.Yfprv := by
  intro n
  induction n with
  | zero => intro it v; exact ⟨rfl, rfl⟩
  | succ n ih =>
    intro it v
    obtain ⟨h1, h2, -⟩ := xstepG_keepF CF o hm k g v
    unfold Pgm.DFT.btLoop
    simp only
    split_ifs with h
    · exact ⟨h1, h2⟩
    · obtain ⟨i1, i2⟩ := ih (it + 1) { Pgm.DFT.xstepG CF o k g v with
        F := some (CF.obfnF (Pgm.DFT.xstepG CF o k g v).Xf)
        Q := some (Pgm.DFT.quadQ CF (Pgm.DFT.xstepG CF o k g v).L (Pgm.DFT.xstepG CF o k g v).Xf
          (Pgm.DFT.xstepG CF o k g v).Yf g)
        iterBT := some (it + 1)
        L := (Pgm.DFT.xstepG CF o k g v).L * gu }
      exact ⟨i1.trans h1, i2.trans h2⟩

theorem ystepF_plain (o : Pgm.Opts) (hm : o.monotone = false) (k : ℕ) (v : VarsF E Ef) :
    let r := Pgm.DFT.ystep o k v
    r.Yfprv = v.Yfprv ∧ ∃ c : ℝ, r.Yf = v.Xf + c • (v.Xf - v.Xfprv) := by
  unfold Pgm.DFT.ystep
  simp only [hm, Bool.false_eq_true, false_and, if_false]
  exact ⟨trivial, _, rfl⟩

/-- What an iteration with a plain search does. -/
theorem plain_iterF {CF : ClsF E Ef} {C : Cls E} (h : Dual CF C) (o : Pgm.Opts) (hf : o.fastSolve = false)
    (hm : o.monotone = false) (hb : PlainSearch o) (k : ℕ) (v : VarsF E Ef) (hv : Real' CF v) :
    let v' := Pgm.DFT.mainStep CF o k (Pgm.DFT.onStart CF o k v)
    Real' CF v' ∧ ∃ y L, v'.Yfprv = CF.rfftn y ∧ v'.X = proxPoint C L y ∧ (0 < v'.L → 0 < L ∧ L ≤ v'.L) := by
  simp only
  obtain ⟨hX, y, hy⟩ := hv
  have hw : (Pgm.DFT.onStart CF o k v).Xfprv = v.Xf ∧ (Pgm.DFT.onStart CF o k v).Yfprv = v.Yf ∧
      (Pgm.DFT.onStart CF o k v).Yf = v.Yf := by
    unfold Pgm.DFT.onStart; simp [hf, hm]
  set w := Pgm.DFT.onStart CF o k v
  obtain ⟨w1, w2, w3⟩ := hw
  -- a step from the spectrum of a real array
  have hstep : ∀ L, CF.proxG L (CF.irfftn (w.Yf - (1 / L) • CF.gradF w.Yf)) = proxPoint C L y := by
    intro L
    rw [w3, hy, h.grad, ← h.smul, ← h.sub, h.inv, h.prox]
    rfl
  have fin : ∀ u : VarsF E Ef, u.Xf = CF.rfftn u.X → u.Xfprv = w.Xfprv →
      Real' CF (Pgm.DFT.ystep o k u) := by
    intro u hu1 hu2
    obtain ⟨y1, y2, -⟩ := ystep_fieldsF o k u
    obtain ⟨-, c, hc⟩ := ystepF_plain o hm k u
    refine ⟨by rw [y2, y1, hu1], u.X + c • (u.X - v.X), ?_⟩
    rw [hc, hu2, w1, hX, hu1, h.add, h.smul, h.sub]
  rcases hb with hb | ⟨gu, n, hb, hn, hgu⟩
  · unfold Pgm.DFT.mainStep
    rw [hb]
    simp only
    obtain ⟨x1, x2, x3, x4, x5⟩ := xstepG_keepF CF o hm k (CF.gradF w.Yf) w
    obtain ⟨y1, y2, y3, -⟩ := ystep_fieldsF o k (Pgm.DFT.xstep CF o k w)
    refine ⟨fin _ x4 x1, y, (Pgm.DFT.xstep CF o k w).L, ?_, ?_, ?_⟩
    · rw [(ystepF_plain o hm k _).1]
      exact x2.trans (w2.trans hy)
    · rw [y1, ← hstep]
      exact x5
    · rw [y3]; exact fun h => ⟨h, le_rfl⟩
  · have hp : o.stepPolicy = .none := by unfold Pgm.Opts.stepPolicy; rw [hb]
    unfold Pgm.DFT.mainStep
    rw [hb]
    simp only
    obtain ⟨j, f, Q, a1, a2, a3, a4, a5, a6, a7, a8, a9, a10⟩ := btLoop_endF CF o hp k gu n 0 w hn
    obtain ⟨y1, y2, y3, -⟩ := ystep_fieldsF o k (Pgm.DFT.btLoop CF o k gu (CF.gradF w.Yf) n 0 w)
    obtain ⟨k1, k2⟩ := btLoop_keepF CF o hm k gu (CF.gradF w.Yf) n 0 w
    obtain ⟨b1, b2⟩ := a8 hm
    refine ⟨fin _ b2 k1, y, w.L * gu ^ j, ?_, ?_, ?_⟩
    · rw [(ystepF_plain o hm k _).1, k2, w2, hy]
    · rw [y1, b1, hstep]
    · intro hpos
      rw [y3] at hpos ⊢
      have hgu0 : 0 < gu := by linarith
      rcases a10 with ⟨-, e⟩ | ⟨-, hjn, e⟩
      · rw [e] at hpos ⊢; exact ⟨hpos, le_rfl⟩
      · rw [e] at hpos ⊢
        have h0 : 0 < w.L := by
          by_contra hc
          have := mul_nonpos_of_nonpos_of_nonneg (not_lt.1 hc) (pow_pos hgu0 n).le
          linarith
        exact ⟨by positivity, by
          have : gu ^ j ≤ gu ^ n := pow_le_pow_right₀ hgu a1.le
          exact mul_le_mul_of_nonneg_left this h0.le⟩

theorem real_traj {CF : ClsF E Ef} {C : Cls E} (h : Dual CF C) (o : Pgm.Opts) (hf : o.fastSolve = false)
    (hm : o.monotone = false) (hb : PlainSearch o) (cb) (hcb : CallbackReads cb)
    (s : St (VarsF E Ef)) (hs : Fresh CF s) (n : ℕ) : Real' CF (traj (Pgm.DFT.ops CF o) o cb s n).v := by
  induction n with
  | zero => exact ⟨hs.Xf, s.v.X, hs.Yf.trans hs.Xf⟩
  | succ n ih =>
    rw [Pgm.traj_v_reads _ _ _ hcb]
    exact (plain_iterF h o hf hm hb _ _ ih).1

/-- The bound on the objective by the residual, in the DFT domain. -/
theorem cert_dft {CF : ClsF E Ef} {C : Cls E} (h : Dual CF C)
    (hrs : ∀ x y, CF.rsdl (CF.rfftn x) (CF.rfftn y) = ‖x - y‖ ^ 2)
    (hobj : ∀ x, (CF.evalObj x (CF.rfftn x)).1 = C.F x)
    (Dg : Set E) (Lf : ℝ) (hC : Pgm.Convex C Dg Lf) (o : Pgm.Opts)
    (hf : o.fastSolve = false) (hm : o.monotone = false) (hb : PlainSearch o) (cb) (hcb : CallbackReads cb)
    (s : St (VarsF E Ef)) (hs : Fresh CF s) (n : ℕ) :
    let v := (traj (Pgm.DFT.ops CF o) o cb s (n + 1)).v
    ∃ e, (traj (Pgm.DFT.ops CF o) o cb s (n + 1)).itstat.getLast? = some e ∧ e.iter = n ∧ 0 ≤ e.rsdl ∧
      e.obj.1 = C.F v.X ∧
      (0 < e.L → v.X ∈ Dg ∧
        ∀ z ∈ Dg, C.F v.X ≤ C.F z + e.L * √e.rsdl * ‖z - v.X‖ + Lf / 2 * e.rsdl) := by
  intro v
  have hv : v = Pgm.after (Pgm.DFT.ops CF o) (traj (Pgm.DFT.ops CF o) o cb s n) := Pgm.traj_v_reads _ _ _ hcb _ _
  obtain ⟨h1, y, L, h2, h3, h4⟩ := plain_iterF h o hf hm hb (traj (Pgm.DFT.ops CF o) o cb s n).k _
    (real_traj h o hf hm hb cb hcb s hs n)
  change Real' CF (Pgm.after (Pgm.DFT.ops CF o) (traj (Pgm.DFT.ops CF o) o cb s n)) at h1
  change (Pgm.after (Pgm.DFT.ops CF o) (traj (Pgm.DFT.ops CF o) o cb s n)).Yfprv = _ at h2
  change (Pgm.after (Pgm.DFT.ops CF o) (traj (Pgm.DFT.ops CF o) o cb s n)).X = _ at h3
  change 0 < (Pgm.after (Pgm.DFT.ops CF o) (traj (Pgm.DFT.ops CF o) o cb s n)).L →
    0 < L ∧ L ≤ (Pgm.after (Pgm.DFT.ops CF o) (traj (Pgm.DFT.ops CF o) o cb s n)).L at h4
  rw [← hv] at h1 h2 h3 h4
  obtain ⟨e, he⟩ : ∃ e, e = Pgm.entryOf (Pgm.DFT.ops CF o) (traj (Pgm.DFT.ops CF o) o cb s n) := ⟨_, rfl⟩
  have er : e.rsdl = ‖v.X - y‖ ^ 2 := by
    rw [he]
    change CF.rsdl (Pgm.after (Pgm.DFT.ops CF o) (traj (Pgm.DFT.ops CF o) o cb s n)).Xf
      (Pgm.after (Pgm.DFT.ops CF o) (traj (Pgm.DFT.ops CF o) o cb s n)).Yfprv = _
    rw [← hv, h1.1, h2, hrs]
  have eo : e.obj.1 = C.F v.X := by
    rw [he]
    change (Pgm.DFT.statOf CF o _ (Pgm.after (Pgm.DFT.ops CF o) (traj (Pgm.DFT.ops CF o) o cb s n)) _).obj.1 = _
    rw [← hv]
    unfold Pgm.DFT.statOf
    rw [hm]
    simp only [Bool.false_eq_true, if_false]
    rw [h1.1, hobj]
  have eL : e.L = v.L := by
    rw [he, hv]; rfl
  refine ⟨e, ?_, ?_, by rw [er]; positivity, eo, ?_⟩
  · rw [Pgm.traj_itstat, he]; simp [hf, List.range_succ]
  · rw [he]
    change (traj (Pgm.DFT.ops CF o) o cb s n).k = n
    rw [Pgm.traj_k, hs.k, zero_add]
  rw [eL]
  intro hL
  obtain ⟨p1, p2⟩ := h4 hL
  refine ⟨by rw [h3]; exact hC.prox.mem L _ p1, fun z hz => ?_⟩
  have hb := Pgm.step_bound hC.smooth hC.prox p1 y v.X h3 hz
  rw [er, Real.sqrt_sq (norm_nonneg _)]
  have : L * ‖v.X - y‖ * ‖z - v.X‖ ≤ v.L * ‖v.X - y‖ * ‖z - v.X‖ :=
    mul_le_mul_of_nonneg_right (mul_le_mul_of_nonneg_right p2 (norm_nonneg _)) (norm_nonneg _)
  unfold Cls.F
  linarith

/-- The residual in the DFT domain gets small. -/
theorem stops_dft {CF : ClsF E Ef} {C : Cls E} (h : Dual CF C)
    (hrs : ∀ x y, CF.rsdl (CF.rfftn x) (CF.rfftn y) = ‖x - y‖ ^ 2)
    (Dg : Set E) (Lf : ℝ) (hC : Pgm.Convex C Dg Lf) (o : Pgm.Opts)
    (hf : o.fastSolve = false) (hm : o.monotone = false) (hb : o.backtrack = .none) (hp : o.policy = .none)
    (hmom : o.momentum = .nesterov) (cb) (hcb : CallbackReads cb)
    (s : St (VarsF E Ef)) (hs : Fresh CF s) (hL : 0 < s.v.L) (hLf : Lf ≤ s.v.L)
    (xs : E) (hxs : xs ∈ Dg) (hmin : ∀ u ∈ Dg, C.F xs ≤ C.F u) (n : ℕ) :
    (Pgm.entryOf (Pgm.DFT.ops CF o) (traj (Pgm.DFT.ops CF o) o cb s n)).rsdl ≤
      16 * ‖s.v.X - xs‖ ^ 2 / (n + 2) ^ 2 := by
  have hcn : CallbackReads (V := Vars E) .none := fun _ _ h => by cases h
  have hag := agree_traj h o hb hp hm cb hcb s (spatial s.v) hs.k (spatial_agree hs)
  obtain ⟨h1, y, L, h2, h3, -⟩ := plain_iterF h o hf hm (Or.inl hb) (traj (Pgm.DFT.ops CF o) o cb s n).k _
    (real_traj h o hf hm (Or.inl hb) cb hcb s hs n)
  have hr := Pgm.rsdlAt_plain C o hf hm (Or.inl hb) .none hcn (spatial s.v) n
  obtain ⟨e, e1, -, e3⟩ := Pgm.C69_residual_partial C Dg Lf hC o hf hmom .none hcn (spatial s.v) (spatial_fresh s.v) hL
    (Or.inl ⟨hb, hp, hLf, by rw [hm]; simp⟩) xs hxs hmin n
  have e4 : e.rsdl = Pgm.rsdlAt C o .none (spatial s.v) n := by
    rw [Pgm.traj_itstat] at e1
    simp only [hf, Bool.false_eq_true, if_false, List.range_succ, List.map_append, List.map_cons, List.map_nil,
      ← List.append_assoc, List.getLast?_append, List.getLast?_singleton, Option.some_or,
      Option.some.injEq] at e1
    rw [← e1]; rfl
  rw [e4, hr] at e3
  have hX : (Pgm.after (Pgm.DFT.ops CF o) (traj (Pgm.DFT.ops CF o) o cb s n)).Xf =
      CF.rfftn (iterX C o .none (spatial s.v) (n + 1)) := by
    have := (hag (n + 1)).Xf
    rw [Pgm.traj_v_reads _ _ _ hcb] at this
    exact this
  have hY : (Pgm.after (Pgm.DFT.ops CF o) (traj (Pgm.DFT.ops CF o) o cb s n)).Yfprv =
      CF.rfftn (traj (Pgm.ops C o) o .none (spatial s.v) n).v.Y := by
    have h5 := (hag n).Yf
    have hk := xstepG_keepF CF o hm (traj (Pgm.DFT.ops CF o) o cb s n).k
      (CF.gradF (Pgm.DFT.onStart CF o (traj (Pgm.DFT.ops CF o) o cb s n).k (traj (Pgm.DFT.ops CF o) o cb s n).v).Yf)
      (Pgm.DFT.onStart CF o (traj (Pgm.DFT.ops CF o) o cb s n).k (traj (Pgm.DFT.ops CF o) o cb s n).v)
    change (Pgm.DFT.mainStep CF o _ (Pgm.DFT.onStart CF o _ _)).Yfprv = _
    unfold Pgm.DFT.mainStep
    rw [hb]
    simp only
    rw [(ystepF_plain o hm _ _).1]
    refine hk.2.1.trans ?_
    rw [← h5]
    unfold Pgm.DFT.onStart
    simp [hf, hm]
  change CF.rsdl (Pgm.after (Pgm.DFT.ops CF o) (traj (Pgm.DFT.ops CF o) o cb s n)).Xf
    (Pgm.after (Pgm.DFT.ops CF o) (traj (Pgm.DFT.ops CF o) o cb s n)).Yfprv ≤ _
  rw [hX, hY, hrs]
  have e5 : 16 * ‖s.v.X - xs‖ ^ 2 / ((n : ℝ) + 2) ^ 2 = (4 * ‖s.v.X - xs‖ / (n + 2)) ^ 2 := by
    rw [div_pow]; ring
  rw [e5]
  exact pow_le_pow_left₀ (norm_nonneg _) e3 2

/-- Stopping in the DFT domain. -/
theorem solve_dft {CF : ClsF E Ef} (o : Pgm.Opts) (hf : o.fastSolve = false) (hauto : o.autoStop = false)
    (hmax : 1 ≤ o.maxMainIter) (s : St (VarsF E Ef)) (hs : Fresh CF s) (R : ℝ)
    (hR : ∀ n : ℕ, (Pgm.entryOf (Pgm.DFT.ops CF o) (traj (Pgm.DFT.ops CF o) o .none s n)).rsdl ≤
      16 * R / (n + 2) ^ 2) (m : ℕ) (hm1 : 1 ≤ m) (hm : 16 * R < o.relStopTol * (m + 1) ^ 2) :
    (Pgm.solve (Pgm.DFT.ops CF o) o .none s).k ≤ m := by
  obtain ⟨n, n1, n2, h3, h4, h5, h6⟩ := Pgm.C50_solve_partial (Pgm.DFT.ops CF o) o .none s hmax
  rw [h4, hs.k, zero_add]
  by_contra hlt
  apply h5 (m - 1) (by omega)
  rw [Pgm.C50_stop_condition]
  right
  refine ⟨hf, ?_⟩
  rw [hauto]
  simp only [Bool.false_eq_true, if_false]
  refine (hR (m - 1)).trans_lt ?_
  have hc : ((m - 1 : ℕ) : ℝ) + 2 = m + 1 := by rw [Nat.cast_sub hm1]; push_cast; ring
  have hpos : (0 : ℝ) < (m + 1) ^ 2 := by positivity
  rw [hc, div_lt_iff₀ hpos]
  exact hm

end Dual

/-! ## `ConvBPDN` -/

theorem F_bpdn (hN : ∀ n, Nd n ≤ N n) (q : COpts) (D : Dict c M Nd) (S : Signal c K N) (lmbda : ℝ)
    (w : K × M × Grid N → ℝ) (x : Coef K M N) : (spBPDN q D S lmbda w).F x = objConv D S lmbda w (part x) := by
  unfold Pgm.Cls.F objConv
  rw [dataTerm_eq hN, ← l1w_part]
  rfl

theorem obj_bpdn (hN : ∀ n, Nd n ≤ N n) (q : COpts) (D : Dict c M Nd) (S : Signal c K N) (lmbda : ℝ)
    (w : K × M × Grid N → ℝ) (hw : ∀ i, 0 ≤ w i) (x : Coef K M N) :
    ((clsBPDN a q D S lmbda w).evalObj x ((clsBPDN a q D S lmbda w).rfftn x)).1 = (spBPDN q D S lmbda w).F x := by
  rw [F_bpdn hN]
  have e2 : ((clsBPDN a q D S lmbda w).evalObj x (fwd a x)).1 =
    ((clsBPDN a q D S lmbda w).evalObj x (fwd a x)).2.1 + regL1 lmbda w x := rfl
  change ((clsBPDN a q D S lmbda w).evalObj x (fwd a x)).1 = _
  rw [e2, dfd_fwd hN, regL1_eq lmbda w hw]
  rfl

theorem rsdl_fwd (x y : Coef K M N) : hnorm2 (fwd a x - fwd a y) = ‖x - y‖ ^ 2 := by
  rw [← fwd_sub, hnorm2_fwd]

/-- **C68 for `ConvBPDN`.** For every dictionary, signal, nonnegative `lmbda` and weights, with or
without `NonNegCoef` and `NoBndryCross`, for every momentum and step size policy, with no line
search or the standard one, and a callback that only reads: the objective in the statistics of
iteration `n` is the objective at the coefficient maps `X` it ends with, and if the `L` in the
statistics is positive, those maps satisfy the constraints and their objective exceeds that of any
other maps `Z` satisfying the constraints by at most `L √Rsdl ‖Z - X‖ + Lf/2 Rsdl` (here `Rsdl` is
the *squared* length of the step; in the classes derived from `PGM`, `C68_partial`, it is the length
itself). `Lf` is any bound on the squared singular values of the convolution operator. -/
theorem C68_convbpdn_partial (hN : ∀ n, Nd n ≤ N n) (q : COpts) (h2 : q.noBndry = true → ∀ n, 2 ≤ Nd n)
    (D : Dict c M Nd) (S : Signal c K N) (lmbda : ℝ) (hl : 0 ≤ lmbda) (w : K × M × Grid N → ℝ)
    (hw : ∀ i, 0 ≤ w i) (o : Pgm.Opts) (hf : o.fastSolve = false) (hm : o.monotone = false) (hb : PlainSearch o)
    (cb) (hcb : CallbackReads cb) (s : St (VarsF (Coef K M N) (HS K M N a)))
    (hs : Fresh (clsBPDN a q D S lmbda w) s)
    (Lf : ℝ) (hLf : ∀ X : K → M → Grid N → ℝ, reconSq D X ≤ Lf * sumSq X) (n : ℕ) :
    let r := traj (Pgm.DFT.ops (clsBPDN a q D S lmbda w) o) o cb s (n + 1)
    ∃ e, r.itstat.getLast? = some e ∧ e.iter = n ∧ 0 ≤ e.rsdl ∧ e.obj.1 = objConv D S lmbda w (part r.v.X) ∧
      (0 < e.L → part r.v.X ∈ allowedConv q.nonNeg q.noBndry Nd ∧
        (∀ Z ∈ allowedConv q.nonNeg q.noBndry Nd, objConv D S lmbda w (part r.v.X) ≤ objConv D S lmbda w Z +
          e.L * √e.rsdl * √(sumSq fun k m p => Z k m p - part r.v.X k m p) + Lf / 2 * e.rsdl) ∧
        (e.rsdl = 0 → IsMin (objConv D S lmbda w) (allowedConv q.nonNeg q.noBndry Nd) (part r.v.X))) := by
  intro r
  have hnorm : ∀ x : Coef K M N, ‖convOp (padD N D) x‖ ^ 2 ≤ Lf * ‖x‖ ^ 2 := by
    intro x
    rw [reconSq_eq hN, norm_part]
    exact hLf (part x)
  obtain ⟨e, e1, e2, e3, e4, e5⟩ := cert_dft (dual_bpdn (a := a) q D S lmbda w) (fun x y => rsdl_fwd x y)
    (obj_bpdn hN q D S lmbda w hw) _ _ (convex_bpdn hN q h2 D S lmbda hl w hw Lf hnorm a) o hf hm hb cb hcb s hs n
  have key : 0 < e.L → part r.v.X ∈ allowedConv q.nonNeg q.noBndry Nd ∧
        (∀ Z ∈ allowedConv q.nonNeg q.noBndry Nd, objConv D S lmbda w (part r.v.X) ≤ objConv D S lmbda w Z +
          e.L * √e.rsdl * √(sumSq fun k m p => Z k m p - part r.v.X k m p) + Lf / 2 * e.rsdl) := by
    intro hL
    obtain ⟨f1, f2⟩ := e5 hL
    refine ⟨f1, fun Z hZ => ?_⟩
    have := f2 (join Z) hZ
    rw [F_bpdn hN, F_bpdn hN] at this
    have e6 : ‖join Z - r.v.X‖ = √(sumSq fun k m p => Z k m p - part r.v.X k m p) := by
      rw [← Real.sqrt_sq (norm_nonneg (join Z - r.v.X)), norm_part]
      rfl
    rw [← e6]
    exact this
  refine ⟨e, e1, e2, e3, by rw [e4, F_bpdn hN], fun hL => ⟨(key hL).1, (key hL).2, fun h0 => ⟨(key hL).1, fun Z hZ => ?_⟩⟩⟩
  have := (key hL).2 Z hZ
  rw [h0] at this
  simpa using this

/-- **C69 for `ConvBPDN`.** With the default momentum, a fixed `L` at least the largest squared
singular value of the convolution operator, a positive `RelStopTol` and no `AutoStop`: from every
starting point, with `Xs` a minimiser, the residual recorded in iteration `n` is at most
`16 ‖X₀ - Xs‖² / (n + 2)²`, so that `solve()` returns after at most `m` iterations, whatever
`MaxMainIter`, once `16 ‖X₀ - Xs‖² < RelStopTol (m + 1)²`. -/
theorem C69_convbpdn_partial (hN : ∀ n, Nd n ≤ N n) (q : COpts) (h2 : q.noBndry = true → ∀ n, 2 ≤ Nd n)
    (D : Dict c M Nd) (S : Signal c K N) (lmbda : ℝ) (hl : 0 ≤ lmbda) (w : K × M × Grid N → ℝ)
    (hw : ∀ i, 0 ≤ w i) (o : Pgm.Opts) (hf : o.fastSolve = false) (hm : o.monotone = false)
    (hb : o.backtrack = .none) (hp : o.policy = .none) (hmom : o.momentum = .nesterov)
    (s : St (VarsF (Coef K M N) (HS K M N a))) (hs : Fresh (clsBPDN a q D S lmbda w) s)
    (hL : 0 < s.v.L) (hLD : ∀ X : K → M → Grid N → ℝ, reconSq D X ≤ s.v.L * sumSq X)
    (Xs : K → M → Grid N → ℝ)
    (hXs : IsMin (objConv D S lmbda w) (allowedConv q.nonNeg q.noBndry Nd) Xs) :
    (∀ (cb) (_ : CallbackReads cb) (n : ℕ),
      ∃ e, (traj (Pgm.DFT.ops (clsBPDN a q D S lmbda w) o) o cb s (n + 1)).itstat.getLast? = some e ∧
        e.iter = n ∧ e.rsdl ≤ 16 * sumSq (fun k m p => part s.v.X k m p - Xs k m p) / (n + 2) ^ 2) ∧
    (o.autoStop = false → 1 ≤ o.maxMainIter → ∀ m : ℕ, 1 ≤ m →
      16 * sumSq (fun k m p => part s.v.X k m p - Xs k m p) < o.relStopTol * (m + 1) ^ 2 →
      (Pgm.solve (Pgm.DFT.ops (clsBPDN a q D S lmbda w) o) o .none s).k ≤ m) := by
  have hnorm : ∀ x : Coef K M N, ‖convOp (padD N D) x‖ ^ 2 ≤ s.v.L * ‖x‖ ^ 2 := by
    intro x
    rw [reconSq_eq hN, norm_part]
    exact hLD (part x)
  have e6 : ‖s.v.X - join Xs‖ ^ 2 = sumSq (fun k m p => part s.v.X k m p - Xs k m p) := by
    rw [norm_part]; rfl
  have main : ∀ (cb) (_ : CallbackReads cb) (n : ℕ),
      (Pgm.entryOf (Pgm.DFT.ops (clsBPDN a q D S lmbda w) o)
        (traj (Pgm.DFT.ops (clsBPDN a q D S lmbda w) o) o cb s n)).rsdl ≤
        16 * sumSq (fun k m p => part s.v.X k m p - Xs k m p) / (n + 2) ^ 2 := by
    intro cb hcb n
    have := stops_dft (dual_bpdn (a := a) q D S lmbda w) (fun x y => rsdl_fwd x y) _ _
      (convex_bpdn hN q h2 D S lmbda hl w hw s.v.L hnorm a) o hf hm hb hp hmom cb hcb s hs hL le_rfl (join Xs) hXs.1
      (fun u hu => by rw [F_bpdn hN, F_bpdn hN]; exact hXs.2 _ hu) n
    rw [e6] at this
    exact this
  refine ⟨fun cb hcb n => ⟨_, ?_, ?_, main cb hcb n⟩, fun hauto hmax m hm1 hmt => ?_⟩
  · rw [Pgm.traj_itstat]; simp [hf, List.range_succ]
  · change (traj (Pgm.DFT.ops (clsBPDN a q D S lmbda w) o) o cb s n).k = n
    rw [Pgm.traj_k, hs.k, zero_add]
  · exact solve_dft o hf hauto hmax s hs _ (main .none fun _ _ h => by cases h) m hm1 hmt

/-! ## `ConvBPDNMask` -/

/-- The objective of `ConvBPDNMask`. -/
noncomputable def objMask (D : Dict c M Nd) (S W : Signal c K N) (lmbda : ℝ) (w : K × M × Grid N → ℝ)
    (X : K → M → Grid N → ℝ) : ℝ := maskTerm D S W X + lmbda * ∑ k, ∑ m, ∑ p, w (k, m, p) * |X k m p|

/-- The problem of `ConvBPDNMask` in the spatial domain. -/
noncomputable def spMask (q : COpts) (D : Dict c M Nd) (S : Signal c K N) (lmbda : ℝ)
    (w : K × M × Grid N → ℝ) (W : Signal c K N) : Cls (Coef K M N) where
  gradF x := convOpT (padD N D) (mulL W (mulL W (convOp (padD N D) x - join S)))
  proxG := proxG q Nd lmbda w
  hessF x := convOpT (padD N D) (convOp (padD N D) x)
  obfnF x := 1 / 2 * ‖mulL W (convOp (padD N D) x - join S)‖ ^ 2
  obfnG x := lmbda * l1w w x.ofLp

theorem dual_mask (q : COpts) (D : Dict c M Nd) (S : Signal c K N) (lmbda : ℝ)
    (w : K × M × Grid N → ℝ) (W : Signal c K N) :
    Dual (clsBPDNMask a q D S lmbda w W) (spMask q D S lmbda w W) :=
  ⟨fwd_add, fwd_smul, bwd_fwd, gradF_mask_fwd q D S lmbda w W, fun _ _ => rfl⟩

theorem convex_mask (hN : ∀ n, Nd n ≤ N n) (q : COpts) (h2 : q.noBndry = true → ∀ n, 2 ≤ Nd n)
    (D : Dict c M Nd) (S : Signal c K N) (lmbda : ℝ) (hl : 0 ≤ lmbda) (w : K × M × Grid N → ℝ)
    (hw : ∀ i, 0 ≤ w i) (W : Signal c K N) (Lf : ℝ)
    (hL : ∀ x : Coef K M N, ‖mulL W (convOp (padD N D) x)‖ ^ 2 ≤ Lf * ‖x‖ ^ 2)
    (a : Fin d) : Pgm.Convex (spMask q D S lmbda w W) (cset q Nd) Lf := by
  have hb := (convex_bpdn hN q h2 D S lmbda hl w hw _ (fun x => (by
    have h := (convOp (K := K) (padD N D)).le_opNorm x
    have h3 := pow_le_pow_left₀ (norm_nonneg _) h 2
    rw [mul_pow] at h3
    exact h3)) a).prox
  refine ⟨?_, hb⟩
  have h := smooth_ls ((mulL W).comp (convOp (K := K) (padD N D))) (mulL W (join S))
    (fun y => convOpT (padD N D) (mulL W y)) (fun x y => by
      rw [ContinuousLinearMap.comp_apply, mulL_adj, convOp_adj]) Lf hL
  simp only [ContinuousLinearMap.comp_apply, ← map_sub (mulL W)] at h
  exact h

theorem F_mask (hN : ∀ n, Nd n ≤ N n) (q : COpts) (D : Dict c M Nd) (S : Signal c K N) (lmbda : ℝ)
    (w : K × M × Grid N → ℝ) (W : Signal c K N) (x : Coef K M N) :
    (spMask q D S lmbda w W).F x = objMask D S W lmbda w (part x) := by
  unfold Pgm.Cls.F objMask
  rw [maskTerm_eq hN, ← l1w_part]
  rfl

theorem obj_mask (hN : ∀ n, Nd n ≤ N n) (q : COpts) (D : Dict c M Nd) (S : Signal c K N) (lmbda : ℝ)
    (w : K × M × Grid N → ℝ) (hw : ∀ i, 0 ≤ w i) (W : Signal c K N) (x : Coef K M N) :
    ((clsBPDNMask a q D S lmbda w W).evalObj x ((clsBPDNMask a q D S lmbda w W).rfftn x)).1 =
      (spMask q D S lmbda w W).F x := by
  rw [F_mask hN]
  have e2 : ((clsBPDNMask a q D S lmbda w W).evalObj x (fwd a x)).1 =
    ((clsBPDNMask a q D S lmbda w W).evalObj x (fwd a x)).2.1 + regL1 lmbda w x := rfl
  change ((clsBPDNMask a q D S lmbda w W).evalObj x (fwd a x)).1 = _
  have e3 := (C51_convbpdnmask_spatial_partial (a := a) hN q D S lmbda w W x).1
  rw [e2, regL1_eq lmbda w hw]
  unfold objMask
  exact congrArg (· + _) e3

/-- Sum of squares of the masked reconstruction. -/
noncomputable def maskSq (D : Dict c M Nd) (W : Signal c K N) (X : K → M → Grid N → ℝ) : ℝ :=
  ∑ i, ∑ k, ∑ p, (W i k p * recon D X i k p) ^ 2

theorem maskSq_eq (hN : ∀ n, Nd n ≤ N n) (D : Dict c M Nd) (W : Signal c K N) (x : Coef K M N) :
    ‖mulL W (convOp (padD N D) x)‖ ^ 2 = maskSq D W (part x) := by
  rw [norm_part]
  unfold maskSq recon
  simp only [← rconv_pad hN]
  rfl

/-- **C45, C68 and C69 for `ConvBPDNMask`.** For every dictionary, signal, mask, nonnegative `lmbda`
and weights, with or without `NonNegCoef` and `NoBndryCross`, with the default momentum and a fixed
`L` at least the largest squared singular value of the masked convolution operator: after each
iteration the maps satisfy the constraints, the objective exceeds that of any minimiser by at most
`2 L ‖X₀ - Xs‖² / (k + 1)²`, the recorded objective is the objective at the maps, the recorded
residual bounds the distance of the objective from the optimum and is at most
`16 ‖X₀ - Xs‖² / (k + 1)²`. -/
theorem C45_C68_C69_convbpdnmask_partial (hN : ∀ n, Nd n ≤ N n) (q : COpts) (h2 : q.noBndry = true → ∀ n, 2 ≤ Nd n)
    (D : Dict c M Nd) (S : Signal c K N) (lmbda : ℝ) (hl : 0 ≤ lmbda) (w : K × M × Grid N → ℝ)
    (hw : ∀ i, 0 ≤ w i) (W : Signal c K N) (o : Pgm.Opts) (hf : o.fastSolve = false) (hm : o.monotone = false)
    (hb : o.backtrack = .none) (hp : o.policy = .none) (hmom : o.momentum = .nesterov) (cb) (hcb : CallbackReads cb)
    (s : St (VarsF (Coef K M N) (HS K M N a))) (hs : Fresh (clsBPDNMask a q D S lmbda w W) s)
    (hL : 0 < s.v.L) (hLD : ∀ X : K → M → Grid N → ℝ, maskSq D W X ≤ s.v.L * sumSq X)
    (Xs : K → M → Grid N → ℝ)
    (hXs : IsMin (objMask D S W lmbda w) (allowedConv q.nonNeg q.noBndry Nd) Xs) (k : ℕ) (hk : 1 ≤ k) :
    let r := traj (Pgm.DFT.ops (clsBPDNMask a q D S lmbda w W) o) o cb s k
    part r.v.X ∈ allowedConv q.nonNeg q.noBndry Nd ∧
    objMask D S W lmbda w (part r.v.X) - objMask D S W lmbda w Xs ≤
      2 * s.v.L * sumSq (fun k m p => part s.v.X k m p - Xs k m p) / (k + 1) ^ 2 ∧
    ∃ e, r.itstat.getLast? = some e ∧ e.iter + 1 = k ∧ e.obj.1 = objMask D S W lmbda w (part r.v.X) ∧
      e.L = s.v.L ∧
      (∀ Z ∈ allowedConv q.nonNeg q.noBndry Nd, objMask D S W lmbda w (part r.v.X) ≤ objMask D S W lmbda w Z +
        e.L * √e.rsdl * √(sumSq fun k m p => Z k m p - part r.v.X k m p) + e.L / 2 * e.rsdl) ∧
      e.rsdl ≤ 16 * sumSq (fun k m p => part s.v.X k m p - Xs k m p) / (k + 1) ^ 2 := by
  intro r
  have hnorm : ∀ x : Coef K M N, ‖mulL W (convOp (padD N D) x)‖ ^ 2 ≤ s.v.L * ‖x‖ ^ 2 := by
    intro x
    rw [maskSq_eq hN, norm_part]
    exact hLD (part x)
  have hcv := convex_mask hN q h2 D S lmbda hl w hw W s.v.L hnorm a
  have hd := dual_mask (a := a) q D S lmbda w W
  have hrun := run_eq hd o hb hp hm cb hcb s hs k
  have hmin : ∀ u ∈ cset q Nd, (spMask q D S lmbda w W).F (join Xs) ≤ (spMask q D S lmbda w W).F u :=
    fun u hu => by rw [F_mask hN, F_mask hN]; exact hXs.2 _ hu
  have h := Pgm.C45_rate _ _ _ hcv o hb hp hmom .none
    (fun _ _ h => by cases h) (spatial s.v) (spatial_fresh s.v) hL le_rfl (by rw [hm]; simp) (join Xs) hXs.1
    hmin k hk
  rw [← hrun.1] at h
  have e6 : ‖s.v.X - join Xs‖ ^ 2 = sumSq (fun k m p => part s.v.X k m p - Xs k m p) := by
    rw [norm_part]; rfl
  refine ⟨h.1, ?_, ?_⟩
  · have h3 := h.2
    rw [F_mask hN, F_mask hN, norm_part] at h3
    exact h3
  obtain ⟨n, rfl⟩ : ∃ n, k = n + 1 := ⟨k - 1, by omega⟩
  obtain ⟨e, e1, e2, e3, e4, e5⟩ := cert_dft hd (fun x y => rsdl_fwd x y)
    (obj_mask hN q D S lmbda w hw W) _ _ hcv o hf hm (Or.inl hb) cb hcb s hs n
  have e7 : e = Pgm.entryOf (Pgm.DFT.ops (clsBPDNMask a q D S lmbda w W) o)
      (traj (Pgm.DFT.ops (clsBPDNMask a q D S lmbda w W) o) o cb s n) := by
    rw [Pgm.traj_itstat] at e1
    simp only [hf, Bool.false_eq_true, if_false, List.range_succ, List.map_append, List.map_cons, List.map_nil,
      ← List.append_assoc, List.getLast?_append, List.getLast?_singleton, Option.some_or,
      Option.some.injEq] at e1
    exact e1.symm
  have eL : e.L = s.v.L := by
    have h1 := (agree_traj hd o hb hp hm cb hcb s (spatial s.v) hs.k (spatial_agree hs) (n + 1)).L
    have h3 := Pgm.traj_L (spMask q D S lmbda w W) o hb hp .none (fun _ _ h => by cases h) (spatial s.v) (n + 1)
    rw [h3, Pgm.traj_v_reads _ _ _ hcb] at h1
    rw [e7]
    exact h1
  obtain ⟨-, f2⟩ := e5 (by rw [eL]; exact hL)
  refine ⟨e, e1, by rw [e2], by rw [e4, F_mask hN], eL, fun Z hZ => ?_, ?_⟩
  · have := f2 (join Z) hZ
    rw [F_mask hN, F_mask hN] at this
    have e8 : ‖join Z - r.v.X‖ = √(sumSq fun k m p => Z k m p - part r.v.X k m p) := by
      rw [← Real.sqrt_sq (norm_nonneg (join Z - r.v.X)), norm_part]
      rfl
    rw [← e8, eL]
    rw [eL] at this
    exact this
  · have := stops_dft hd (fun x y => rsdl_fwd x y) _ _ hcv o hf hm hb hp hmom cb hcb s hs hL le_rfl (join Xs) hXs.1
      hmin n
    rw [e7]
    rw [e6] at this
    refine this.trans (le_of_eq ?_)
    congr 2
    push_cast
    ring

end Sporco.PgmConv
