import Verif.Pgm.ConvRefute
import Verif.Pgm.BtRate

/-!
# The runs of the convolutional PGM classes (C45, C46, C49)
-/

set_option autoImplicit false
set_option linter.unusedSectionVars false

namespace Sporco.PgmConv

open Finset ComplexConjugate Sporco.Prox
open Sporco.Conv
open Sporco.Pgm (ClsF Cls VarsF Vars St CallbackReads traj iterX smooth_ls)
open scoped RealInnerProductSpace

variable {d c : ℕ} {N Nd : Fin d → ℕ} [∀ k, NeZero (N k)] {A B K M : Type*} [Fintype A] [Fintype B]
  [Fintype K] [Fintype M] {a : Fin d}

/-! ## Spatial and DFT domain runs -/

section Dual
variable {E Ef : Type*} [NormedAddCommGroup E] [InnerProductSpace ℝ E] [NormedAddCommGroup Ef]
  [InnerProductSpace ℝ Ef]

/-- A class working in the DFT domain and one working in the spatial domain that describe the same
problem. -/
structure Dual (CF : ClsF E Ef) (C : Cls E) : Prop where
  add : ∀ x y, CF.rfftn (x + y) = CF.rfftn x + CF.rfftn y
  smul : ∀ (r : ℝ) x, CF.rfftn (r • x) = r • CF.rfftn x
  inv : ∀ x, CF.irfftn (CF.rfftn x) = x
  grad : ∀ x, CF.gradF (CF.rfftn x) = CF.rfftn (C.gradF x)
  prox : ∀ L x, CF.proxG L x = C.proxG L x

theorem Dual.sub {CF : ClsF E Ef} {C : Cls E} (h : Dual CF C) (x y : E) :
    CF.rfftn (x - y) = CF.rfftn x - CF.rfftn y := by
  rw [sub_eq_add_neg, ← neg_one_smul ℝ y, h.add, h.smul, neg_one_smul, sub_eq_add_neg]

/-- The two states agree. -/
structure Agree (CF : ClsF E Ef) (vf : VarsF E Ef) (v : Vars E) : Prop where
  X : vf.X = v.X
  Xf : vf.Xf = CF.rfftn v.X
  Yf : vf.Yf = CF.rfftn v.Y
  L : vf.L = v.L
  t : vf.t = v.t

theorem agree_step {CF : ClsF E Ef} {C : Cls E} (h : Dual CF C) (o : Pgm.Opts) (hb : o.backtrack = .none)
    (hp : o.policy = .none) (hm : o.monotone = false) (k : ℕ) {vf : VarsF E Ef} {v : Vars E}
    (ha : Agree CF vf v) :
    Agree CF (Pgm.DFT.mainStep CF o k (Pgm.DFT.onStart CF o k vf))
      (Pgm.mainStep C o k (Pgm.onStart C o k v)) := by
  have hp' : o.stepPolicy = .none := by unfold Pgm.Opts.stepPolicy; rw [hb, hp]
  obtain ⟨uf, huf⟩ : ∃ uf, uf = Pgm.DFT.onStart CF o k vf := ⟨_, rfl⟩
  obtain ⟨u, hu⟩ : ∃ u, u = Pgm.onStart C o k v := ⟨_, rfl⟩
  have hu1 : u.X = v.X ∧ u.Xprv = v.X ∧ u.Y = v.Y ∧ u.L = v.L ∧ u.t = v.t := by
    rw [hu]; unfold Pgm.onStart; simp only [hm]; split_ifs <;> simp_all
  have huf1 : uf.X = vf.X ∧ uf.Xfprv = vf.Xf ∧ uf.Yf = vf.Yf ∧ uf.L = vf.L ∧ uf.t = vf.t := by
    rw [huf]; unfold Pgm.DFT.onStart; simp only [hm]; split_ifs <;> simp_all
  obtain ⟨a1, a2, a3, a4, a5⟩ := hu1
  obtain ⟨b1, b2, b3, b4, b5⟩ := huf1
  rw [← huf, ← hu]
  have hX : CF.proxG uf.L (CF.irfftn (uf.Yf - (1 / uf.L) • CF.gradF uf.Yf)) =
      C.proxG u.L (u.Y - (1 / u.L) • C.gradF u.Y) := by
    rw [b3, b4, a3, a4, ha.Yf, ha.L, h.grad, ← h.smul, ← h.sub, h.inv, h.prox]
  have e1 : Pgm.mainStep C o k u = Pgm.ystep o k { u with X := C.proxG u.L (u.Y - (1 / u.L) • C.gradF u.Y) } := by
    unfold Pgm.mainStep
    rw [hb]
    simp only [Pgm.xstep, Pgm.xstepG, Pgm.stepL, Pgm.storeBB, hp', Pgm.safeguard, hm]
    rfl
  have e2 : Pgm.DFT.mainStep CF o k uf = Pgm.DFT.ystep o k { uf with
      X := C.proxG u.L (u.Y - (1 / u.L) • C.gradF u.Y),
      Xf := CF.rfftn (C.proxG u.L (u.Y - (1 / u.L) • C.gradF u.Y)) } := by
    unfold Pgm.DFT.mainStep
    rw [hb]
    simp only [Pgm.DFT.xstep, Pgm.DFT.xstepG, Pgm.DFT.stepL, Pgm.DFT.storeBB, hp', Pgm.DFT.safeguard, hm, hX]
    rfl
  rw [e1, e2]
  unfold Pgm.DFT.ystep Pgm.ystep
  rw [hm]
  simp only [Bool.false_eq_true, false_and, if_false]
  refine ⟨rfl, rfl, ?_, ?_, ?_⟩
  · simp only
    rw [h.add, h.smul, h.sub, b2, ha.Xf, b5, a5, ha.t, a2]
  · simp only
    rw [b4, a4, ha.L]
  · simp only
    rw [b5, a5, ha.t]

/-- The run of a class in the DFT domain is the transform of the run in the spatial domain. -/
theorem agree_traj {CF : ClsF E Ef} {C : Cls E} (h : Dual CF C) (o : Pgm.Opts) (hb : o.backtrack = .none)
    (hp : o.policy = .none) (hm : o.monotone = false) (cb) (hcb : CallbackReads cb)
    (sf : St (VarsF E Ef)) (s : St (Vars E)) (hk : sf.k = s.k) (ha : Agree CF sf.v s.v) (n : ℕ) :
    Agree CF (traj (Pgm.DFT.ops CF o) o cb sf n).v (traj (Pgm.ops C o) o .none s n).v := by
  induction n with
  | zero => exact ha
  | succ n ih =>
    rw [Pgm.traj_v_reads _ _ _ hcb, Pgm.traj_v_reads _ _ _ (fun _ _ h => by cases h)]
    unfold Pgm.after
    rw [Pgm.traj_k, Pgm.traj_k, hk]
    exact agree_step h o hb hp hm _ ih

/-- The spatial state a DFT domain state stands for. -/
noncomputable def spatial (v : VarsF E Ef) : St (Vars E) :=
  ⟨0, [], ⟨v.X, v.X, v.X, v.X, v.X, v.L, 1, v.objfn, v.objfnPrev, v.F, v.Q, v.iterBT, v.X, v.X, 0, .none⟩⟩

theorem spatial_fresh (v : VarsF E Ef) : Pgm.Fresh (spatial v) := ⟨rfl, rfl, rfl, rfl, rfl, rfl⟩

theorem spatial_agree {CF : ClsF E Ef} {s : St (VarsF E Ef)} (hs : Fresh CF s) : Agree CF s.v (spatial s.v).v :=
  ⟨rfl, hs.Xf, hs.Yf.trans hs.Xf, rfl, hs.t⟩

theorem run_eq {CF : ClsF E Ef} {C : Cls E} (h : Dual CF C) (o : Pgm.Opts) (hb : o.backtrack = .none)
    (hp : o.policy = .none) (hm : o.monotone = false) (cb) (hcb : CallbackReads cb)
    (s : St (VarsF E Ef)) (hs : Fresh CF s) (n : ℕ) :
    (traj (Pgm.DFT.ops CF o) o cb s n).v.X = iterX C o .none (spatial s.v) n ∧
    (traj (Pgm.DFT.ops CF o) o cb s n).v.Xf = CF.rfftn (iterX C o .none (spatial s.v) n) := by
  have := agree_traj h o hb hp hm cb hcb s (spatial s.v) hs.k (spatial_agree hs) n
  exact ⟨this.X, this.Xf⟩

end Dual

/-! ## `ConvBPDN` in the spatial domain -/

/-- The problem of `ConvBPDN` in the spatial domain. -/
noncomputable def spBPDN (q : COpts) (D : Dict c M Nd) (S : Signal c K N) (lmbda : ℝ)
    (w : K × M × Grid N → ℝ) : Cls (Coef K M N) where
  gradF x := convOpT (padD N D) (convOp (padD N D) x - join S)
  proxG := proxG q Nd lmbda w
  hessF x := convOpT (padD N D) (convOp (padD N D) x)
  obfnF x := 1 / 2 * ‖convOp (padD N D) x - join S‖ ^ 2
  obfnG x := lmbda * l1w w x.ofLp

theorem dual_bpdn (q : COpts) (D : Dict c M Nd) (S : Signal c K N) (lmbda : ℝ)
    (w : K × M × Grid N → ℝ) : Dual (clsBPDN a q D S lmbda w) (spBPDN q D S lmbda w) :=
  ⟨fwd_add, fwd_smul, bwd_fwd, gradF_fwd q D S lmbda w, fun _ _ => rfl⟩

theorem convex_bpdn (hN : ∀ n, Nd n ≤ N n) (q : COpts) (h2 : q.noBndry = true → ∀ n, 2 ≤ Nd n)
    (D : Dict c M Nd) (S : Signal c K N) (lmbda : ℝ) (hl : 0 ≤ lmbda) (w : K × M × Grid N → ℝ)
    (hw : ∀ i, 0 ≤ w i) (Lf : ℝ) (hL : ∀ x : Coef K M N, ‖convOp (padD N D) x‖ ^ 2 ≤ Lf * ‖x‖ ^ 2)
    (a : Fin d) : Pgm.Convex (spBPDN q D S lmbda w) (cset q Nd) Lf := by
  refine ⟨smooth_ls (convOp (K := K) (padD N D)) (join S) (fun y => convOpT (padD N D) y)
    (fun x y => convOp_adj (padD N D) x y) Lf hL, ?_, ?_, ?_⟩
  · exact Admm.Bpdn.convex_l1w w hw _ (convex_cset (K := K) (M := M) (N := N) q Nd) lmbda hl
  · intro L v hL0
    have := (ystep_conv_min q h2 hN lmbda hl w hw L hL0 v 0 0 0 (setdict (a := a) q S L D 0)).1
    simpa [Conv.ystep, spBPDN, proxG] using this
  · intro L v hL0 z hz
    have := (ystep_conv_min q h2 hN lmbda hl w hw L hL0 v 0 0 0 (setdict (a := a) q S L D 0)).2 z hz
    simp only [Conv.ystep, add_zero] at this
    rw [norm_sub_rev v, norm_sub_rev v] at this
    exact this

/-- Sum of squares of the reconstruction. -/
noncomputable def reconSq (D : Dict c M Nd) (X : K → M → Grid N → ℝ) : ℝ :=
  ∑ i, ∑ k, ∑ p, recon D X i k p ^ 2

theorem reconSq_eq (hN : ∀ n, Nd n ≤ N n) (D : Dict c M Nd) (x : Coef K M N) :
    ‖convOp (padD N D) x‖ ^ 2 = reconSq D (part x) := by
  rw [norm_part]
  unfold reconSq recon
  simp only [← rconv_pad hN]
  rfl

/-- **C45 for `ConvBPDN`.** For every dictionary (single or multi-channel), signal, nonnegative
`lmbda` and weights, with or without `NonNegCoef` and `NoBndryCross`, from any starting point, with
the default momentum and L at least the largest squared singular value of the convolution operator:
after `k` iterations the coefficient maps satisfy the constraints and the objective exceeds that of
any minimiser `Xs` by at most `2 L ‖X₀ - Xs‖² / (k + 1)²`; and the recorded objective is the
objective at those maps. -/
theorem C45_convbpdn (hN : ∀ n, Nd n ≤ N n) (q : COpts) (h2 : q.noBndry = true → ∀ n, 2 ≤ Nd n)
    (D : Dict c M Nd) (S : Signal c K N) (lmbda : ℝ) (hl : 0 ≤ lmbda) (w : K × M × Grid N → ℝ)
    (hw : ∀ i, 0 ≤ w i) (o : Pgm.Opts) (hb : o.backtrack = .none) (hp : o.policy = .none)
    (hmom : o.momentum = .nesterov) (hm : o.monotone = false) (cb) (hcb : CallbackReads cb)
    (s : St (VarsF (Coef K M N) (HS K M N a))) (hs : Fresh (clsBPDN a q D S lmbda w) s)
    (hL : 0 < s.v.L) (hLD : ∀ X : K → M → Grid N → ℝ, reconSq D X ≤ s.v.L * sumSq X)
    (Xs : K → M → Grid N → ℝ)
    (hXs : IsMin (objConv D S lmbda w) (allowedConv q.nonNeg q.noBndry Nd) Xs) (k : ℕ) (hk : 1 ≤ k) :
    let v := (traj (Pgm.DFT.ops (clsBPDN a q D S lmbda w) o) o cb s k).v
    part v.X ∈ allowedConv q.nonNeg q.noBndry Nd ∧
    objConv D S lmbda w (part v.X) - objConv D S lmbda w Xs ≤
      2 * s.v.L * sumSq (fun k m p => part s.v.X k m p - Xs k m p) / (k + 1) ^ 2 ∧
    ((clsBPDN a q D S lmbda w).evalObj v.X v.Xf).1 = objConv D S lmbda w (part v.X) := by
  intro v
  have eF : ∀ x : Coef K M N, (spBPDN q D S lmbda w).F x = objConv D S lmbda w (part x) := by
    intro x
    unfold Pgm.Cls.F objConv
    rw [dataTerm_eq hN, ← l1w_part]
    rfl
  have hnorm : ∀ x : Coef K M N, ‖convOp (padD N D) x‖ ^ 2 ≤ s.v.L * ‖x‖ ^ 2 := by
    intro x
    rw [reconSq_eq hN, norm_part]
    exact hLD (part x)
  have hrun := run_eq (dual_bpdn (a := a) q D S lmbda w) o hb hp hm cb hcb s hs k
  have h := Pgm.C45_rate _ _ _ (convex_bpdn hN q h2 D S lmbda hl w hw s.v.L hnorm a) o hb hp hmom .none
    (fun _ _ h => by cases h) (spatial s.v) (spatial_fresh s.v) hL le_rfl (by rw [hm]; simp) (join Xs) hXs.1
    (fun u hu => by rw [eF, eF]; exact hXs.2 _ hu) k hk
  rw [← hrun.1] at h
  refine ⟨h.1, ?_, ?_⟩
  · have h3 := h.2
    rw [eF, eF, norm_part] at h3
    exact h3
  · change ((clsBPDN a q D S lmbda w).evalObj v.X v.Xf).1 = _
    have e1 : v.Xf = fwd a v.X := by
      have := hrun.2
      rw [← hrun.1] at this
      exact this
    have e2 : ((clsBPDN a q D S lmbda w).evalObj v.X v.Xf).1 =
      ((clsBPDN a q D S lmbda w).evalObj v.X v.Xf).2.1 + regL1 lmbda w v.X := rfl
    rw [e2, e1, dfd_fwd hN, regL1_eq lmbda w hw]
    rfl

end Sporco.PgmConv
