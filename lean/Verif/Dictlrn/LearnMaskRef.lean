import Verif.Dictlrn.LearnMask
import Verif.Dictlrn.LearnConvRef

/-!
# `ConvBPDNMaskDictLearn`: examples and wrong records (C70, C71)
-/

set_option autoImplicit false

namespace Sporco.Dictlrn.Mask

open Finset Sporco.Conv Sporco.Cnvrep
open Sporco.Prox (proxL1 proxL1Arr)
open ConvEx (G1 Z0 cst Pcn_zero padG_zero dictOf_zero padD_zero convOp_zero convOpT_zero soft_cst part_cst)

namespace Ex

/-- One signal with one sample that is 0, mask 1, one filter, one iteration of each solver, no backtracking. -/
noncomputable def prm (lmbda w : ℝ) (retX : Bool) : PrmM 1 0 0 1 G1 0 where
  S := fun _ _ _ => 0
  W := fun _ _ _ => 1
  lmbda := lmbda
  w := fun _ => w
  q := ⟨false, false, false⟩
  avX := false
  retX := retX
  oX := ⟨false, 1, 0, 0, false, 1, false, true, 1, 1, 2, 10, 1, 1⟩
  pX := ⟨false, 1, 0, false, 0, false, .nesterov, .none, .none⟩
  dsz := .single [1, 1, 1]
  dimC := 0
  zm := false
  avD := false
  oD := ⟨false, 1, 0, 0, false, 1, false, true, 1, 1, 2, 10, 1, 1⟩
  pD := ⟨false, 1, 0, false, 0, false, .nesterov, .none, .none⟩
  cg := fun _ _ X _ _ h => (X, h)
  acc := true

section
variable (lmbda w : ℝ) (retX : Bool)

/-- An ADMM sparse coding object with block 1 of `Y0` equal to 1. -/
noncomputable def xA : XSt (prm lmbda w retX) .admm :=
  (Admm.St.mk 0 (Admm.TwoBlock.cat 0 (cst 0 1)) 0 0 0 0 1 0 []
    (TB.setdict ⟨false, false, false⟩ (fun _ _ _ => 0 : Dict 0 (Fin 1) (prm lmbda w retX).ext) fun _ _ _ => 0),
    fun _ _ _ => 0)

/-- A PGM sparse coding object with `X0` equal to 1 and `L` equal to 1. -/
noncomputable def xP : XSt (prm lmbda w retX) .pgm :=
  (⟨0, [], ⟨cst 0 1, PgmConv.fwd 0 (cst 0 1), PgmConv.fwd 0 (cst 0 1), 0, 0, 0, 1, 1, (0, 0, 0), (0, 0, 0), none, none, none,
    0, 0, 0, none⟩⟩, fun _ _ _ => 0)

/-- A PGM dictionary update object with the zero dictionary and `L` equal to 1. -/
noncomputable def dP : DSt 0 0 1 G1 0 .pgm :=
  (⟨0, [], ⟨0, PgmConv.fwd 0 0, PgmConv.fwd 0 0, 0, 0, 0, 1, 1, (0, 0, 0), (0, 0, 0), none, none, none, 0, 0, 0, none⟩⟩, 0)

variable {lmbda w retX}

theorem constructed (x : XM) (x0 : XSt (prm lmbda w retX) x)
    (hx : ∀ D : Cnvrep.Arr (1 + 2 + 1), (∀ p, D.get p = 0) → XInit (prm lmbda w retX) D x x0) :
    ∃ D, Constructed (prm lmbda w retX) (Z0 0) D x .pgm x0 dP := by
  have hw : (Dsz.single [1, 1, 1]).WF (1 + 2) 1 := ⟨by decide, by decide⟩
  have hp : ∃ D, Pcn (Z0 0) (.single [1, 1, 1]) [] 1 0 true false = some D := ⟨_, rfl⟩
  obtain ⟨D, hp⟩ := hp
  have h0 := Pcn_zero [1, 1, 1] hw 0 false hp
  have h1 : ∀ k : Fin 1, (Dsz.single [1, 1, 1]).extent k.val ≤ 1 := fun k => by
    rw [Subsingleton.elim k 0]; exact le_rfl
  exact ⟨D, hw, h1, ⟨G1, rfl, h1⟩, hp, hx D h0, ⟨rfl, rfl, rfl, rfl, rfl⟩, (padG_zero h0).symm⟩

theorem xP_init (D : Cnvrep.Arr (1 + 2 + 1)) (h : ∀ p, D.get p = 0) :
    XInit (prm lmbda w retX) D .pgm (xP lmbda w retX) :=
  ⟨⟨rfl, rfl, rfl, rfl, rfl⟩, (dictOf_zero h _).symm⟩

theorem xA_init (D : Cnvrep.Arr (1 + 2 + 1)) (h : ∀ p, D.get p = 0) :
    XInit (prm lmbda w retX) D .admm (xA lmbda w retX) := by
  have e := dictOf_zero (c := 0) h (prm lmbda w retX).dsz
  exact ⟨rfl, rfl, ⟨fun _ _ _ => 0, by rw [e]; rfl⟩, e.symm⟩

/-- The variables after sparse coding with ADMM with the zero dictionary. -/
theorem xA_solve : Admm.St.X ((xC (prm lmbda w retX) .admm).solve (xA lmbda w retX)).1 = cst 0 1 ∧
    Admm.TwoBlock.sep1 (Admm.St.Y ((xC (prm lmbda w retX) .admm).solve (xA lmbda w retX)).1) =
      cst 0 (proxL1 1 (lmbda * w)) := by
  set P := prm lmbda w retX with hP
  have h1 := Admm.solve_iter1 (TB.clsMask 0 P.q (fun _ _ _ => 0 : Dict 0 (Fin 1) P.ext) P.S P.W P.lmbda P.w P.avX) P.oX rfl
    (xA lmbda w retX).1
  have hx : (TB.xstep (fun _ _ _ => 0 : Dict 0 (Fin 1) P.ext) P.S 1 0 (Admm.TwoBlock.cat 0 (cst 0 1)) 0
      (xA lmbda w retX).1.extra).1 = cst 0 1 := by
    have hc : TB.CohTB ⟨false, false, false⟩ (fun _ _ _ => 0 : Dict 0 (Fin 1) P.ext) (xA lmbda w retX).1.extra := ⟨_, rfl⟩
    rw [TB.xstep_xOf hc]
    have := xOf_normal (a := 0) (fun _ _ _ => 0 : Dict 0 (Fin 1) P.ext)
      (TB.target P.S (Admm.TwoBlock.cat 0 (cst 0 1)) 0) 1 1 one_pos (cst 0 1) 0
    rw [padD_zero] at this
    erw [convOp_zero, convOpT_zero, convOpT_zero] at this
    simp only [zero_add, one_smul, sub_zero] at this
    exact this
  refine ⟨h1.1.trans hx, (congrArg Admm.TwoBlock.sep1 h1.2).trans ?_⟩
  have hA : ∀ X Y, (Admm.TwoBlock.relaxAX (TB.cnstA0 0 (fun _ _ _ => 0 : Dict 0 (Fin 1) P.ext)) (fun x => x) (join P.S) 0
      P.oX.rlx X Y).1.snd = X := by
    intro X Y
    have hr : (P.oX).rlx = 1 := rfl
    unfold Admm.TwoBlock.relaxAX
    rw [if_pos hr]
    rfl
  change WithLp.toLp 2 (gystep ⟨false, false, false⟩ P.ext (proxL1Arr ((Admm.TwoBlock.relaxAX
    (TB.cnstA0 0 (fun _ _ _ => 0 : Dict 0 (Fin 1) P.ext)) (fun x => x) (join P.S) 0 P.oX.rlx
    (TB.xstep (fun _ _ _ => 0 : Dict 0 (Fin 1) P.ext) P.S 1 0 (Admm.TwoBlock.cat 0 (cst 0 1)) 0 (xA lmbda w retX).1.extra).1
      (Admm.TwoBlock.cat 0 (cst 0 1))).1.snd + 0).ofLp fun _ => lmbda / 1 * w)) = _
  rw [hA, hx, add_zero, div_one]
  exact soft_cst _ 1 (lmbda * w)

/-- The variable after sparse coding with PGM with the zero dictionary. -/
theorem xP_solve : ((xC (prm lmbda w retX) .pgm).solve (xP lmbda w retX)).1.v.X = cst 0 (proxL1 1 (lmbda * w)) := by
  set P := prm lmbda w retX with hP
  have h1 := Pgm.DFT.solve_iter1 (PgmConv.clsBPDNMask 0 P.q (fun _ _ _ => 0 : Dict 0 (Fin 1) P.ext) P.S P.lmbda P.w P.W)
    P.pX rfl rfl rfl rfl (xP lmbda w retX).1
  refine h1.trans ?_
  change PgmConv.proxG P.q P.ext P.lmbda P.w 1 (PgmConv.bwd 0 (PgmConv.fwd 0 (cst 0 1) - (1 / (1 : ℝ)) •
    (PgmConv.clsBPDNMask 0 P.q (fun _ _ _ => 0 : Dict 0 (Fin 1) P.ext) P.S P.lmbda P.w P.W).gradF
      (PgmConv.fwd 0 (cst 0 1)))) = _
  rw [PgmConv.gradF_mask_fwd, padD_zero]
  erw [convOpT_zero]
  rw [← PgmConv.fwd_smul, ← PgmConv.fwd_sub, PgmConv.bwd_fwd, smul_zero, sub_zero]
  unfold PgmConv.proxG
  change WithLp.toLp 2 (gystep ⟨false, false, false⟩ P.ext (proxL1Arr (cst 0 1).ofLp fun _ => lmbda / 1 * w)) = _
  rw [div_one]
  exact soft_cst _ 1 (lmbda * w)

end

end Ex

open Ex

/-- **`ReturnVar`.** With `AccurateDFid` and the sparse coding option `ReturnVar` equal to `'X'`, the recorded l1 term is that
of block 1 of Y although `getcoef` returns X, for which the recorded data fidelity is computed: the l1 term is recorded as 0
for a coefficient 1. -/
theorem C70_maskdl_returnvar_refuted : ∃ (P : PrmM 1 0 0 1 G1 0) (D0 D : Cnvrep.Arr (1 + 2 + 1)) (x0 : XSt P .admm)
    (d0 : DSt 0 0 1 G1 0 .pgm), Constructed P D0 D .admm .pgm x0 d0 ∧ P.acc = true ∧ P.retX = true ∧ P.zm = false ∧
    ∀ clock, ∃ s xs ds, dlRun (envC P .admm .pgm clock) [(1, fun _ => false)] ⟨x0, d0, 0, []⟩ = some s ∧
      Alternates (envC P .admm .pgm clock) x0 d0 xs ds ∧ ∃ hk : 0 < s.itstat.length,
      ("RegL1", Val.val 0) ∈ s.itstat[0] ∧ ∑ k, ∑ f, ∑ p, |part ((xC P .admm).getcoef (xs 0)) k f p| = 1 := by
  obtain ⟨D, hc⟩ := constructed (lmbda := 1) (w := 1) (retX := true) .admm _ xA_init
  refine ⟨_, _, D, _, _, hc, rfl, rfl, rfl, fun clock => ?_⟩
  obtain ⟨s, xs, ds, h1, h2, h3, h4⟩ := accurate_var _ (.inl rfl) rfl .admm .pgm clock _ D _ _ hc [(1, fun _ => false)]
  have hl : s.itstat.length = 1 := run_length h1
  have e := xA_solve (lmbda := 1) (w := 1) (retX := true)
  refine ⟨s, xs, ds, h1, h2, by omega, ?_, ?_⟩
  · have h5 := (h4 0 (by omega)).2.2.1
    rw [h2.x_first] at h5
    change ("RegL1", Val.val (∑ k, ∑ f, ∑ p, |part (Admm.TwoBlock.sep1 (Admm.St.Y
      ((xC (prm 1 1 true) .admm).solve (xA 1 1 true)).1)) k f p|)) ∈ _ at h5
    rw [e.2, part_cst] at h5
    convert h5 using 3
    simp [Prox.proxL1]
  · rw [h2.x_first]
    change ∑ k, ∑ f, ∑ p, |part (Admm.St.X ((xC (prm 1 1 true) .admm).solve (xA 1 1 true)).1) k f p| = 1
    rw [e.1, part_cst, abs_one]

/-- **`L1Weight`.** With `AccurateDFid` the recorded functional ignores the sparse coding option `L1Weight`: for weight 2 and
coefficient 1/2 (which is returned) the recorded l1 term is 1/2, not the weighted 1. -/
theorem C70_maskdl_weight_refuted : ∃ (P : PrmM 1 0 0 1 G1 0) (D0 D : Cnvrep.Arr (1 + 2 + 1)) (x0 : XSt P .pgm)
    (d0 : DSt 0 0 1 G1 0 .pgm), Constructed P D0 D .pgm .pgm x0 d0 ∧ P.acc = true ∧ P.zm = false ∧ P.lmbda = 1 / 4 ∧
    P.w = (fun _ => 2) ∧ ∀ clock, ∃ s xs ds, dlRun (envC P .pgm .pgm clock) [(1, fun _ => false)] ⟨x0, d0, 0, []⟩ = some s ∧
      Alternates (envC P .pgm .pgm clock) x0 d0 xs ds ∧ ∃ hk : 0 < s.itstat.length,
      ("RegL1", Val.val (1 / 2)) ∈ s.itstat[0] ∧
      ∑ k, ∑ f, ∑ p, P.w (k, f, p) * |part ((xC P .pgm).getcoef (xs 0)) k f p| = 1 := by
  obtain ⟨D, hc⟩ := constructed (lmbda := 1 / 4) (w := 2) (retX := false) .pgm _ xP_init
  refine ⟨_, _, D, _, _, hc, rfl, rfl, rfl, rfl, fun clock => ?_⟩
  obtain ⟨s, xs, ds, h1, h2, h3, h4⟩ := accurate_var _ (.inl rfl) rfl .pgm .pgm clock _ D _ _ hc [(1, fun _ => false)]
  have hl : s.itstat.length = 1 := run_length h1
  have e := xP_solve (lmbda := 1 / 4) (w := 2) (retX := false)
  have ep : Prox.proxL1 1 (1 / 4 * 2) = 1 / 2 := by
    have : Prox.npSign (1 : ℝ) = 1 := by simp [Prox.npSign]
    simp only [Prox.proxL1, this, abs_one]
    norm_num
  rw [ep] at e
  refine ⟨s, xs, ds, h1, h2, by omega, ?_, ?_⟩
  · have h5 := (h4 0 (by omega)).2.2.1
    rw [h2.x_first] at h5
    change ("RegL1", Val.val (∑ k, ∑ f, ∑ p, |part ((xC _ .pgm).solve (xP _ _ _)).1.v.X k f p|)) ∈ _ at h5
    rw [e, part_cst] at h5
    convert h5 using 3
    norm_num
  · rw [h2.x_first]
    change ∑ k, ∑ f, ∑ p, 2 * |part ((xC _ .pgm).solve (xP _ _ _)).1.v.X k f p| = 1
    rw [e]
    simp [cst, part_join]

/-! ## Examples -/

namespace Ex
open ConvEx (G4)

/-- Two images with two channels, a mask that hides some samples, five zero-mean filters: two of size 2 by 2 and three of
size 3 by 3; default options with ten inner iterations. -/
noncomputable def prm4 (acc : Bool) : PrmM 2 1 1 5 G4 0 where
  S := fun i k p => (i : ℝ) + 2 * k + 3 * (p 0).val - (p 1).val
  W := fun i k p => if (p 0).val = (i : ℕ) + k then 0 else 1
  lmbda := 1 / 10
  w := fun _ => 1
  q := ⟨true, false, false⟩
  avX := false
  retX := false
  oX := ⟨false, 10, 0, 1 / 1000, true, 1, true, true, 10, 10, 2, 10, 1, 18 / 10⟩
  pX := ⟨false, 10, 1 / 1000, false, 0, false, .nesterov, .none, .standard 2 20⟩
  dsz := .multi [.whole [2, 2, 2, 2], .whole [3, 3, 2, 3]]
  dimC := 1
  zm := true
  avD := false
  oD := ⟨false, 10, 0, 1 / 1000, true, 1, true, true, 10, 10, 2, 10, 1, 18 / 10⟩
  pD := ⟨false, 10, 1 / 1000, false, 0, false, .nesterov, .none, .standard 2 20⟩
  cg := fun _ _ X _ _ h => (X, h)
  acc := acc

theorem prm4_extent (acc : Bool) (k : Fin 2) : (prm4 acc).dsz.extent k.val = 3 := by
  fin_cases k <;> rfl

/-- The hypotheses of the theorems are met, for every method. -/
example (acc : Bool) (x : XM) (δ : DM) : ∃ D0 D s t, Constructed (prm4 acc) D0 D x δ s t := by
  refine ⟨⟨idx (fun _ => 3) 2 1 5, fun p => p 0 + 2 * p 1 * p 4⟩, ?_⟩
  exact constructed_exists (prm4 acc) (ConvEx.prm4_wf acc) (fun k => by rw [prm4_extent]; exact Nat.le_succ 3) _
    ⟨fun _ => 3, rfl, fun k => (prm4_extent acc k).le⟩ x δ

example (acc : Bool) (x : XM) : OkX (prm4 acc) x := by
  cases x <;> exact ⟨rfl, Nat.le_add_left 1 9, rfl⟩

end Ex

end Sporco.Dictlrn.Mask
