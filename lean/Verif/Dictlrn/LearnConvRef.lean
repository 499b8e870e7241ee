import Verif.Dictlrn.LearnConv

/-!
# `ConvBPDNDictLearn`: examples and wrong records (C70, C71)
-/

set_option autoImplicit false

namespace Sporco.Pgm

/-- One iteration. -/
theorem solve_iter1 {V : Type*} (C : Ops V) (o : Opts) (h : o.maxMainIter = 1) (s : St V) :
    (solve C o none s).v = C.step s.k (C.start s.k s.v) := by
  have hl : loop C o none [s.k] s = (body C o none s.k s).1 := by
    simp only [loop, ite_self]
  change (loop C o none (List.range' s.k o.maxMainIter) s).v = _
  rw [h]
  change (loop C o none [s.k] s).v = _
  rw [hl]
  unfold body
  dsimp only
  split_ifs <;> rfl

/-- One iteration of a `PGMDFT` class with default options. -/
theorem DFT.solve_iter1 {E Ef : Type*} [NormedAddCommGroup Ef] [InnerProductSpace ℝ Ef] (C : ClsF E Ef) (o : Opts)
    (h : o.maxMainIter = 1) (hm : o.monotone = false) (hp : o.stepPolicy = .none) (hb : o.backtrack = .none)
    (s : St (VarsF E Ef)) : (solve (ops C o) o none s).v.X =
      C.proxG s.v.L (C.irfftn (s.v.Yf - (1 / s.v.L) • C.gradF s.v.Yf)) := by
  rw [Pgm.solve_iter1 _ _ h]
  change (mainStep C o s.k (onStart C o s.k s.v)).X = _
  have e : (onStart C o s.k s.v).Yf = s.v.Yf ∧ (onStart C o s.k s.v).L = s.v.L := by
    unfold onStart
    dsimp only
    rw [hm]
    split_ifs <;> exact ⟨rfl, rfl⟩
  generalize onStart C o s.k s.v = v at e
  unfold mainStep
  rw [hb]
  dsimp only
  rw [(ystep_X _ _ _).1]
  unfold xstep xstepG safeguard stepL storeBB
  rw [hm, hp]
  simp only [Bool.false_eq_true, false_and, if_false]
  rw [e.1, e.2]

end Sporco.Pgm

namespace Sporco.Admm
variable {E F G H : Type*} [NormedAddCommGroup E] [NormedAddCommGroup F] [NormedAddCommGroup G] [NormedSpace ℝ G]

omit [NormedAddCommGroup E] [NormedAddCommGroup F] in
/-- One iteration. -/
theorem solve_iter1 (C : Cls E F G H) (o : Opts) (h : o.maxMainIter = 1) (s : St E F G H) :
    (solve C o none s).X = (steps C o s).X ∧ (solve C o none s).Y = (steps C o s).Y := by
  have hl : loop C o none [s.k] s = (body C o none s.k s).1 := by
    simp only [loop, ite_self]
  have hb := body_eq C o s.k s
  change (loop C o none (List.range' s.k o.maxMainIter) s).X = _ ∧ (loop C o none (List.range' s.k o.maxMainIter) s).Y = _
  rw [h]
  change (loop C o none [s.k] s).X = _ ∧ (loop C o none [s.k] s).Y = _
  rw [hl]
  exact ⟨hb.1, hb.2.1⟩

end Sporco.Admm

namespace Sporco.Dictlrn.ConvEx

open Finset Sporco.Conv Sporco.Cnvrep
open Sporco.Prox (proxL1 proxL1Arr npSign npSign_mul_abs)

/-- One axis of length 1. -/
abbrev G1 : Fin 1 → ℕ := fun _ => 1

instance : ∀ k, NeZero (G1 k) := fun _ => inferInstanceAs (NeZero 1)

instance : Subsingleton (Grid G1) := ⟨fun p q => funext fun k => (inferInstance : Subsingleton (Fin 1)).elim (p k) (q k)⟩

variable {c κ : ℕ}

/-- The zero dictionary with one filter. -/
def Z0 (c : ℕ) : Cnvrep.Arr (1 + 2 + 1) := ⟨idx G1 (c + 1) 1 1, fun _ => 0⟩

theorem Pcn_zero (l : List ℕ) (hw : (Dsz.single l).WF (1 + 2) 1) (dimC : ℕ) (zm : Bool) {D : Cnvrep.Arr (1 + 2 + 1)}
    (h : Pcn (Z0 c) (.single l) [] 1 dimC true zm = some D) (p : Fin (1 + 2 + 1) → ℕ) : D.get p = 0 := by
  have h' : normalise (if zm then zeromean (bcrop (Z0 c) (.single l) 1) (.single l) 1 else bcrop (Z0 c) (.single l) 1)
      (1 + dimC) = D := Option.some.inj h
  rw [← h', normalise_get]
  have h0 : ∀ p, (bcrop (Z0 c) (.single l) 1).get p = 0 := fun _ => rfl
  cases zm
  · simp [h0]
  · classical
    simp only [if_true]
    rw [zeromean_covers _ _ hw]
    simp [h0]

/-- An array of coefficient maps with one filter. -/
def cst (κ : ℕ) (r : ℝ) : Coef (Fin (κ + 1)) (Fin 1) G1 := join fun _ _ _ => r

/-- One signal with one sample and `c + 1` channels, one filter, one iteration of each solver, no backtracking. -/
noncomputable def prm (S : Fin (c + 1) → ℝ) (lmbda w : ℝ) (retX : Bool) (l : List ℕ) (dimC : ℕ) (zm acc : Bool) :
    PrmC 1 c 0 1 G1 0 where
  S := fun i _ _ => S i
  lmbda := lmbda
  w := fun _ => w
  q := ⟨false, false, false⟩
  fX := false
  gX := true
  retX := retX
  rhoX := some 1
  oX := ⟨false, 1, 0, 0, false, 1, false, true, 1, 1, 2, 10, 1, 1⟩
  pX := ⟨false, 1, 0, false, 0, false, .nesterov, .none, .none⟩
  dsz := .single l
  dimC := dimC
  zm := zm
  fD := false
  gD := true
  oD := ⟨false, 1, 0, 0, false, 1, false, true, 1, 1, 2, 10, 1, 1⟩
  pD := ⟨false, 1, 0, false, 0, false, .nesterov, .none, .none⟩
  cg := fun _ X _ _ h => (X, h)
  acc := acc

section
variable (S : Fin (c + 1) → ℝ) (lmbda w : ℝ) (retX : Bool) (l : List ℕ) (dimC : ℕ) (zm acc : Bool)

/-- An ADMM sparse coding object with `Y0` equal to `y`. -/
noncomputable def xA (y : ℝ) : XSt (prm S lmbda w retX l dimC zm acc) .admm :=
  Admm.St.mk 0 (cst 0 y) 0 0 0 0 1 0 [] (Conv.setdict ⟨false, false, false⟩ (prm S lmbda w retX l dimC zm acc).S 1
    (fun _ _ _ => 0) fun _ _ _ => 0)

/-- A PGM sparse coding object with `X0` equal to `y` and `L` equal to 1. -/
noncomputable def xP (y : ℝ) : XSt (prm S lmbda w retX l dimC zm acc) .pgm :=
  (⟨0, [], ⟨cst 0 y, PgmConv.fwd 0 (cst 0 y), PgmConv.fwd 0 (cst 0 y), 0, 0, 0, 1, 1, (0, 0, 0), (0, 0, 0), none, none, none,
    0, 0, 0, none⟩⟩, fun _ _ _ => 0)

/-- A PGM dictionary update object with the zero dictionary and `L` equal to 1. -/
noncomputable def dP (c : ℕ) : DSt c 0 1 G1 0 .pgm :=
  (⟨0, [], ⟨0, PgmConv.fwd 0 0, PgmConv.fwd 0 0, 0, 0, 0, 1, 1, (0, 0, 0), (0, 0, 0), none, none, none, 0, 0, 0, none⟩⟩, 0)

variable {S lmbda w retX l dimC zm acc}

theorem padG_zero {D : Cnvrep.Arr (1 + 2 + 1)} (h : ∀ p, D.get p = 0) :
    (coefOf D : Coef (Fin (c + 1)) (Fin 1) G1) = 0 := by
  ext ⟨i, f, p⟩
  change padG D G1 i f p = 0
  unfold padG
  rw [h, ite_self]

theorem dictOf_zero {D : Cnvrep.Arr (1 + 2 + 1)} (h : ∀ p, D.get p = 0) (dsz : Dsz) :
    (dictOf dsz D : Dict c (Fin 1) fun k : Fin 1 => dsz.extent k.val) = fun _ _ _ => 0 := by
  funext i f p
  exact h _

theorem constructed (hw : (Dsz.single l).WF (1 + 2) 1) (hl : (Dsz.single l).extent 0 ≤ 1) (x : XM)
    (x0 : XSt (prm S lmbda w retX l dimC zm acc) x)
    (hx : ∀ D : Cnvrep.Arr (1 + 2 + 1), (∀ p, D.get p = 0) → XInit (prm S lmbda w retX l dimC zm acc) D x x0) :
    ∃ D, Constructed (prm S lmbda w retX l dimC zm acc) (Z0 c) D x .pgm x0 (dP c) := by
  have hp : ∃ D, Pcn (Z0 c) (.single l) [] 1 dimC true zm = some D := ⟨_, rfl⟩
  obtain ⟨D, hp⟩ := hp
  have h0 := Pcn_zero l hw dimC zm hp
  have h1 : ∀ k : Fin 1, (Dsz.single l).extent k.val ≤ 1 := fun k => by
    rw [Subsingleton.elim k 0]; exact hl
  exact ⟨D, hw, h1, ⟨G1, rfl, h1⟩, hp, hx D h0, ⟨rfl, rfl, rfl, rfl, rfl⟩, (padG_zero h0).symm⟩

theorem xP_init (y : ℝ) (D : Cnvrep.Arr (1 + 2 + 1)) (h : ∀ p, D.get p = 0) :
    XInit (prm S lmbda w retX l dimC zm acc) D .pgm (xP S lmbda w retX l dimC zm acc y) :=
  ⟨⟨rfl, rfl, rfl, rfl, rfl⟩, (dictOf_zero h _).symm⟩

theorem xA_init (y : ℝ) (D : Cnvrep.Arr (1 + 2 + 1)) (h : ∀ p, D.get p = 0) :
    XInit (prm S lmbda w retX l dimC zm acc) D .admm (xA S lmbda w retX l dimC zm acc y) := by
  refine ⟨rfl, rfl, fun _ _ _ => 0, ?_⟩
  have e := dictOf_zero (c := c) h (prm S lmbda w retX l dimC zm acc).dsz
  unfold initConvBPDN
  rw [e]
  rfl

theorem padD_zero {e : Fin 1 → ℕ} : padD G1 (fun _ _ _ => 0 : Dict c (Fin 1) e) = fun _ _ _ => 0 := by
  funext i f p
  simp [padD, pad]

theorem convOp_zero (x : Coef (Fin 1) (Fin 1) G1) :
    convOp (fun _ _ _ => 0 : Fin (c + 1) → Fin 1 → Grid G1 → ℝ) x = 0 := by
  ext ⟨i, f, p⟩
  change ∑ m, rconv (fun _ => 0) (part x f m) p = 0
  simp [rconv]

theorem convOpT_zero (x : Sig (Fin (c + 1)) (Fin 1) G1) :
    convOpT (fun _ _ _ => 0 : Fin (c + 1) → Fin 1 → Grid G1 → ℝ) x = 0 := by
  ext ⟨i, f, p⟩
  change ∑ m, rcorr (fun _ => 0) (part x m i) p = 0
  simp [rcorr]

theorem soft_cst (e : Fin 1 → ℕ) (y t : ℝ) :
    (WithLp.toLp 2 (gystep ⟨false, false, false⟩ e (proxL1Arr (cst 0 y).ofLp fun _ => t)) : Coef (Fin 1) (Fin 1) G1) =
      cst 0 (proxL1 y t) := by
  ext i
  simp only [gystep, Bool.false_eq_true, if_false]
  rfl

/-- The variables after sparse coding with ADMM with the zero dictionary. -/
theorem xA_solve (y : ℝ) : Admm.St.X ((xC (prm S lmbda w retX l dimC zm acc) .admm).solve (xA S lmbda w retX l dimC zm acc y)) =
      cst 0 y ∧
    Admm.St.Y ((xC (prm S lmbda w retX l dimC zm acc) .admm).solve (xA S lmbda w retX l dimC zm acc y)) =
      cst 0 (proxL1 y (lmbda * w)) := by
  set P := prm S lmbda w retX l dimC zm acc with hP
  have h1 := Admm.solve_iter1 (clsXA P) P.oX rfl (xA S lmbda w retX l dimC zm acc y)
  have hx : (xstep 1 0 (cst 0 y) 0 (Admm.St.extra (xA S lmbda w retX l dimC zm acc y))).1 = cst 0 y := by
    have hc : Coh ⟨false, false, false⟩ (fun _ _ _ => 0 : Dict c (Fin 1) P.ext) P.S 1
        (Admm.St.extra (xA S lmbda w retX l dimC zm acc y)) := ⟨_, rfl⟩
    rw [xstep_coh hc]
    have := xOf_normal (a := 0) (fun _ _ _ => 0 : Dict c (Fin 1) P.ext) P.S 1 1 one_pos (cst 0 y) 0
    rw [padD_zero] at this
    erw [convOp_zero, convOpT_zero, convOpT_zero] at this
    simpa only [zero_add, one_smul, sub_zero] using this
  have hX : (Admm.steps (clsXA P) P.oX (xA S lmbda w retX l dimC zm acc y)).X = cst 0 y := hx
  refine ⟨h1.1.trans hX, h1.2.trans ?_⟩
  have hA : (Admm.Equal.relaxAX (P.oX).rlx (xstep 1 0 (cst 0 y) 0 (Admm.St.extra (xA S lmbda w retX l dimC zm acc y))).1
      (cst 0 y)).1 = cst 0 y := by
    have hr : (P.oX).rlx = 1 := rfl
    unfold Admm.Equal.relaxAX
    rw [if_pos hr]
    exact hx
  change WithLp.toLp 2 (gystep ⟨false, false, false⟩ P.ext (proxL1Arr ((Admm.Equal.relaxAX (P.oX).rlx
    (xstep 1 0 (cst 0 y) 0 (Admm.St.extra (xA S lmbda w retX l dimC zm acc y))).1 (cst 0 y)).1 + 0).ofLp
      fun _ => lmbda / 1 * w)) = _
  rw [hA, add_zero, div_one]
  exact soft_cst _ y (lmbda * w)

/-- The variable after sparse coding with PGM with the zero dictionary. -/
theorem xP_solve (y : ℝ) : ((xC (prm S lmbda w retX l dimC zm acc) .pgm).solve (xP S lmbda w retX l dimC zm acc y)).1.v.X =
      cst 0 (proxL1 y (lmbda * w)) := by
  set P := prm S lmbda w retX l dimC zm acc with hP
  have h1 := Pgm.DFT.solve_iter1 (PgmConv.clsBPDN 0 P.q (fun _ _ _ => 0 : Dict c (Fin 1) P.ext) P.S P.lmbda P.w) P.pX rfl rfl
    rfl rfl (xP S lmbda w retX l dimC zm acc y).1
  refine h1.trans ?_
  change PgmConv.proxG P.q P.ext P.lmbda P.w 1 (PgmConv.bwd 0 (PgmConv.fwd 0 (cst 0 y) - (1 / (1 : ℝ)) •
    (PgmConv.clsBPDN 0 P.q (fun _ _ _ => 0 : Dict c (Fin 1) P.ext) P.S P.lmbda P.w).gradF (PgmConv.fwd 0 (cst 0 y)))) = _
  rw [PgmConv.gradF_fwd, padD_zero]
  erw [convOpT_zero]
  rw [← PgmConv.fwd_smul, ← PgmConv.fwd_sub, PgmConv.bwd_fwd, smul_zero, sub_zero]
  unfold PgmConv.proxG
  change WithLp.toLp 2 (gystep ⟨false, false, false⟩ P.ext (proxL1Arr (cst 0 y).ofLp fun _ => lmbda / 1 * w)) = _
  rw [div_one]
  exact soft_cst _ y (lmbda * w)

end

theorem part_cst (r : ℝ) : ∑ k, ∑ f, ∑ p, |part (cst 0 r) k f p| = |r| := by
  simp [part_join, cst]

/-- The projection of the dictionary update on arrays with one sample and two channels. -/
theorem getPcn_two (x g : Cnvrep.Arr (1 + 2 + 1)) (hs : x.sh = ![1, 2, 1, 1]) (h0 : x.get 0 = 1) (h1 : x.get ![0, 1, 0, 0] = 0)
    (hg : getPcn (.single [1, 2, 1]) [1] 1 1 false true x = some g) : g.get 0 ≠ 0 := by
  classical
  have hprep : ∃ y, zpad (bcrop x (.single [1, 2, 1]) 1) [1] = some y ∧ y.sh = ![1, 2, 1, 1] ∧
      (∀ p : Fin (1 + 2 + 1) → ℕ, (∀ i, p i < ![1, 2, 1, 1] i) → y.get p = x.get p) := by
    have hsh : (bcrop x (.single [1, 2, 1]) 1).sh = ![1, 2, 1, 1] := by
      funext i
      fin_cases i <;> simp [bcrop, hs]
    unfold zpad
    rw [if_pos]
    · refine ⟨_, rfl, ?_, ?_⟩
      · simp only [hsh]
        funext i
        fin_cases i <;> simp
      · intro p hp
        have : (bcrop x (.single [1, 2, 1]) 1).In p := fun i => by rw [hsh]; exact hp i
        simp only [if_pos this]
        rfl
    · intro i h
      have h0 : i = 0 := Fin.ext (by simp at h; simpa using h)
      subst h0
      simp [hsh]
  obtain ⟨y, hy, hsh, hv⟩ := hprep
  have hy0 : y.get 0 = 1 := by rw [hv _ (by decide), h0]
  have hy1 : y.get ![0, 1, 0, 0] = 0 := by rw [hv _ (by decide), h1]
  have hG : getPcn (.single [1, 2, 1]) [1] 1 1 false true x = some (normalise (zeromean y (.single [1, 2, 1]) 2) 2) := by
    simp only [getPcn, hy]; rfl
  obtain rfl := Option.some.inj (hG.symm.trans hg)
  have hfib2 : fib ![1, 2, 1, 1] 2 (0 : Fin (1 + 2 + 1) → ℕ) = {0, ![0, 1, 0, 0]} := by decide
  have hw2 : (Dsz.single [1, 2, 1]).WF (1 + 2) 2 := ⟨by decide, by decide⟩
  have hs2 : ∀ p : Fin (1 + 2 + 1) → ℕ, p 0 = 0 → p 1 < 2 → Support 2 (.single [1, 2, 1]) p := by
    intro p hp hp1
    refine ⟨[1, 2], rfl, ?_⟩
    intro i hi
    have hi : i.val < 2 := by simpa using hi
    rcases (by omega : i.val = 0 ∨ i.val = 1) with h | h
    · have h0 : i = 0 := Fin.ext h
      subst h0; simp [hp]
    · have h0 : i = 1 := Fin.ext h
      subst h0; simpa using hp1
  have hz : (zeromean y (.single [1, 2, 1]) 2).get 0 = 1 / 2 := by
    rw [zeromean_covers y _ hw2, if_pos (hs2 _ rfl (by simp)), hsh, hfib2, Finset.filter_true_of_mem]
    · rw [Finset.sum_pair (by decide), Finset.card_pair (by decide), hy0, hy1]; norm_num
    · intro r hr
      rcases Finset.mem_insert.1 hr with rfl | hr
      · exact hs2 _ rfl (by simp)
      · rw [Finset.mem_singleton.1 hr]; exact hs2 _ rfl (by simp)
  rw [normalise_get, hz]
  split_ifs with h
  · norm_num
  · exact div_ne_zero (by norm_num) h

/-- The dictionary update from the zero dictionary and a coefficient 1: the samples of the signal, projected. -/
theorem dP_solve (S : Fin (c + 1) → ℝ) (lmbda w : ℝ) (retX : Bool) (l : List ℕ) (dimC : ℕ) (zm acc : Bool) :
    dvar .pgm ((dC (prm S lmbda w retX l dimC zm acc) .pgm).solve
      ((dC (prm S lmbda w retX l dimC zm acc) .pgm).setcoef (cst 0 1) (dP c))) =
      pcnC (.single l) dimC zm (join fun i _ _ => S i) := by
  set P := prm S lmbda w retX l dimC zm acc with hP
  have h1 := Pgm.DFT.solve_iter1 (PgmConv.clsMOD 0 (pcnC (N := G1) (c := c) (m := 1) P.dsz P.dimC P.zm) (part (cst 0 1)) P.S)
    P.pD rfl rfl rfl rfl (dP c).1
  refine h1.trans ?_
  change pcnC (.single l) dimC zm (PgmConv.bwd 0 (PgmConv.fwd 0 0 - (1 / (1 : ℝ)) •
    PgmConv.conjZf (part (cst 0 1)) (PgmConv.evalRfD (part (cst 0 1)) P.S (PgmConv.fwd 0 0)))) = _
  rw [PgmConv.evalRfD_fwd, PgmConv.conjZf_fwd, ← PgmConv.fwd_smul, ← PgmConv.fwd_sub, PgmConv.bwd_fwd, map_zero, zero_sub,
    zero_sub, map_neg, smul_neg, neg_neg, div_one, one_smul]
  congr 1
  ext ⟨i, f, p⟩
  change ∑ k, rcorr (part (cst 0 1) k f) (part (join P.S) i k) p = S i
  simp [rcorr, cst, part_join, hP, prm]

end Sporco.Dictlrn.ConvEx

namespace Sporco.Dictlrn

open Finset Sporco.Conv Sporco.Cnvrep
open ConvEx

/-- **`ReturnX`.** With `AccurateDFid` and the sparse coding option `ReturnX`, the recorded l1 term is that of the variable Y
although `getcoef` returns X: it is recorded as 0 for a coefficient 1. -/
theorem C70_convdl_returnx_refuted : ∃ (P : PrmC 1 0 0 1 G1 0) (D0 D : Cnvrep.Arr (1 + 2 + 1)) (x0 : XSt P .admm)
    (d0 : DSt 0 0 1 G1 0 .pgm), Constructed P D0 D .admm .pgm x0 d0 ∧ P.acc = true ∧ P.retX = true ∧ P.zm = false ∧
    ∀ clock, ∃ s xs ds, dlRun (envC P .admm .pgm clock) [(1, fun _ => false)] ⟨x0, d0, 0, []⟩ = some s ∧
      Alternates (envC P .admm .pgm clock) x0 d0 xs ds ∧ ∃ hk : 0 < s.itstat.length,
      ("RegL1", Val.val 0) ∈ s.itstat[0] ∧ ∑ k, ∑ f, ∑ p, |part ((xC P .admm).getcoef (xs 0)) k f p| = 1 := by
  obtain ⟨D, hc⟩ := constructed (c := 0) (S := fun _ => 0) (lmbda := 1) (w := 1) (retX := true) (l := [1, 1, 1]) (dimC := 0)
    (zm := false) (acc := true) ⟨by decide, by decide⟩ (by decide) .admm _ (xA_init 1)
  refine ⟨_, _, D, _, _, hc, rfl, rfl, rfl, fun clock => ?_⟩
  obtain ⟨s, xs, ds, h1, h2, h3, h4⟩ := accurate_var _ (.inl rfl) rfl .admm .pgm clock _ D _ _ hc [(1, fun _ => false)]
  have hl : s.itstat.length = 1 := run_length h1
  refine ⟨s, xs, ds, h1, h2, by omega, ?_, ?_⟩
  · have h5 := (h4 0 (by omega)).2.2.1
    rw [h2.x_first] at h5
    have e := (xA_solve (c := 0) (S := fun _ => 0) (lmbda := 1) (w := 1) (retX := true) (l := [1, 1, 1]) (dimC := 0)
      (zm := false) (acc := true) 1).2
    change ("RegL1", Val.val (∑ k, ∑ f, ∑ p, |part (Admm.St.Y ((xC _ .admm).solve (xA _ _ _ _ _ _ _ _ 1))) k f p|)) ∈ _ at h5
    rw [e, part_cst] at h5
    convert h5 using 3
    simp [Prox.proxL1]
  · rw [h2.x_first]
    have e := (xA_solve (c := 0) (S := fun _ => 0) (lmbda := 1) (w := 1) (retX := true) (l := [1, 1, 1]) (dimC := 0)
      (zm := false) (acc := true) 1).1
    change ∑ k, ∑ f, ∑ p, |part (Admm.St.X ((xC _ .admm).solve (xA _ _ _ _ _ _ _ _ 1))) k f p| = 1
    rw [e, part_cst, abs_one]

/-- **`L1Weight`.** With `AccurateDFid` the recorded functional ignores the sparse coding option `L1Weight`: for weight 2 and
coefficient 1/2 (which is returned) the recorded l1 term is 1/2, not the weighted 1. -/
theorem C70_convdl_weight_refuted : ∃ (P : PrmC 1 0 0 1 G1 0) (D0 D : Cnvrep.Arr (1 + 2 + 1)) (x0 : XSt P .pgm)
    (d0 : DSt 0 0 1 G1 0 .pgm), Constructed P D0 D .pgm .pgm x0 d0 ∧ P.acc = true ∧ P.zm = false ∧ P.lmbda = 1 / 4 ∧
    P.w = (fun _ => 2) ∧ ∀ clock, ∃ s xs ds, dlRun (envC P .pgm .pgm clock) [(1, fun _ => false)] ⟨x0, d0, 0, []⟩ = some s ∧
      Alternates (envC P .pgm .pgm clock) x0 d0 xs ds ∧ ∃ hk : 0 < s.itstat.length,
      ("RegL1", Val.val (1 / 2)) ∈ s.itstat[0] ∧
      ∑ k, ∑ f, ∑ p, P.w (k, f, p) * |part ((xC P .pgm).getcoef (xs 0)) k f p| = 1 := by
  obtain ⟨D, hc⟩ := constructed (c := 0) (S := fun _ => 0) (lmbda := 1 / 4) (w := 2) (retX := false) (l := [1, 1, 1])
    (dimC := 0) (zm := false) (acc := true) ⟨by decide, by decide⟩ (by decide) .pgm _ (xP_init 1)
  refine ⟨_, _, D, _, _, hc, rfl, rfl, rfl, rfl, fun clock => ?_⟩
  obtain ⟨s, xs, ds, h1, h2, h3, h4⟩ := accurate_var _ (.inl rfl) rfl .pgm .pgm clock _ D _ _ hc [(1, fun _ => false)]
  have hl : s.itstat.length = 1 := run_length h1
  have e := xP_solve (c := 0) (S := fun _ => 0) (lmbda := 1 / 4) (w := 2) (retX := false) (l := [1, 1, 1]) (dimC := 0)
      (zm := false) (acc := true) 1
  have ep : Prox.proxL1 1 (1 / 4 * 2) = 1 / 2 := by
    have : Prox.npSign (1 : ℝ) = 1 := by simp [Prox.npSign]
    simp only [Prox.proxL1, this, abs_one]
    norm_num
  rw [ep] at e
  refine ⟨s, xs, ds, h1, h2, by omega, ?_, ?_⟩
  · have h5 := (h4 0 (by omega)).2.2.1
    rw [h2.x_first] at h5
    change ("RegL1", Val.val (∑ k, ∑ f, ∑ p, |part ((xC _ .pgm).solve (xP _ _ _ _ _ _ _ _ 1)).1.v.X k f p|)) ∈ _ at h5
    rw [e, part_cst] at h5
    convert h5 using 3
    norm_num
  · rw [h2.x_first]
    change ∑ k, ∑ f, ∑ p, 2 * |part ((xC _ .pgm).solve (xP _ _ _ _ _ _ _ _ 1)).1.v.X k f p| = 1
    rw [e]
    simp [cst, part_join]

/-- **`ZeroMean` with one spatial axis.** The learned dictionary does not have zero-mean filters. -/
theorem C71_convdl_zeromean_refuted : ∃ (P : PrmC 1 1 0 1 G1 0) (D0 D : Cnvrep.Arr (1 + 2 + 1)) (x0 : XSt P .pgm)
    (d0 : DSt 1 0 1 G1 0 .pgm), Constructed P D0 D .pgm .pgm x0 d0 ∧ P.zm = true ∧
    ∀ clock, ∃ s, dlRun (envC P .pgm .pgm clock) [(1, fun _ => false)] ⟨x0, d0, 0, []⟩ = some s ∧
      ¬ Feasible 1 (1 + P.dimC) P.dsz P.zm ((dC P .pgm).getdict s.d) := by
  obtain ⟨D, hc⟩ := constructed (c := 1) (S := fun i => if i = 0 then 1 else 0) (lmbda := 0) (w := 1) (retX := false)
    (l := [1, 2, 1]) (dimC := 1) (zm := true) (acc := false) ⟨by decide, by decide⟩ (by decide) .pgm _ (xP_init 1)
  refine ⟨_, _, D, _, _, hc, rfl, fun clock => ?_⟩
  set P := prm (c := 1) (fun i => if i = 0 then 1 else 0) 0 1 false [1, 2, 1] 1 true false with hP
  obtain ⟨s, hs⟩ := run_total (rowsOk_C P .pgm .pgm clock) [(1, fun _ => false)]
    ⟨xP _ _ _ _ _ _ _ _ 1, dP 1, 0, []⟩
  obtain ⟨xs, ds, n, h1, h2, -, rfl, num, -, h4⟩ := C55_alternation hs
  have hl : s.itstat.length = 1 := run_length hs
  rw [hl] at h2
  refine ⟨s, hs, ?_⟩
  rw [h2.2, h1.d_first, h1.x_first]
  have e := xP_solve (c := 1) (S := fun i => if i = 0 then 1 else 0) (lmbda := 0) (w := 1) (retX := false) (l := [1, 2, 1])
    (dimC := 1) (zm := true) (acc := false) 1
  have ep : Prox.proxL1 1 (0 * 1) = 1 := by
    have : Prox.npSign (1 : ℝ) = 1 := by simp [Prox.npSign]
    simp only [Prox.proxL1, this, abs_one]
    norm_num
  rw [ep] at e
  have ed := dP_solve (c := 1) (fun i => if i = 0 then 1 else 0) 0 1 false [1, 2, 1] 1 true false
  change ¬ Feasible 1 2 (.single [1, 2, 1]) true (cropC (.single [1, 2, 1]) (dvar .pgm ((dC P .pgm).solve ((dC P .pgm).setcoef
    ((xC P .pgm).solve (xP _ _ _ _ _ _ _ _ 1)).1.v.X (dP 1)))))
  rw [e, ed]
  obtain ⟨g, g1, g2, g3⟩ := pcnC_some (N := G1) (c := 1) (m := 1) (dsz := .single [1, 2, 1]) (dimC := 1) (zm := true)
    ⟨by decide, by decide⟩ (by decide) (join fun i _ _ => if i = 0 then 1 else 0)
  rw [g2]
  have hne : g.get 0 ≠ 0 := by
    refine getPcn_two _ g ?_ ?_ ?_ g1
    · funext i; fin_cases i <;> rfl
    · exact (full_get (join fun i _ _ => if i = 0 then (1 : ℝ) else 0 : Coef (Fin (1 + 1)) (Fin 1) G1) 0 0 0)
    · exact (full_get (join fun i _ _ => if i = 0 then (1 : ℝ) else 0 : Coef (Fin (1 + 1)) (Fin 1) G1) 1 0 0)
  intro hf
  have hsh : (cropC (.single [1, 2, 1]) (coefOf g : Coef (Fin (1 + 1)) (Fin 1) G1)).sh = ![1, 2, 1, 1] := by
    funext i; fin_cases i <;> rfl
  have h5 := hf.mean rfl 0 fun i => by rw [hsh]; fin_cases i <;> decide
  have hfib1 : fib ![1, 2, 1, 1] 1 (0 : Fin (1 + 2 + 1) → ℕ) = {0} := by decide
  rw [hsh, hfib1, Finset.sum_singleton] at h5
  refine hne ?_
  rw [(full_coefOf (N := G1) g3 fun _ => le_rfl).2.1 0 (fun i => by rw [g3]; fin_cases i <;> decide)]
  exact h5

/-! ## Examples -/

namespace ConvEx

/-- Images of four by four samples. -/
abbrev G4 : Fin 2 → ℕ := fun _ => 4

instance : ∀ k, NeZero (G4 k) := fun _ => inferInstanceAs (NeZero 4)

/-- Two images with two channels, five zero-mean filters: two of size 2 by 2 and three of size 3 by 3; default options with
ten inner iterations. -/
noncomputable def prm4 (acc : Bool) : PrmC 2 1 1 5 G4 0 where
  S := fun i k p => (i : ℝ) + 2 * k + 3 * (p 0).val - (p 1).val
  lmbda := 1 / 10
  w := fun _ => 1
  q := ⟨true, false, false⟩
  fX := true
  gX := true
  retX := false
  rhoX := some 6
  oX := ⟨false, 10, 0, 1 / 1000, true, 1, true, true, 10, 10, 2, 10, 1, 18 / 10⟩
  pX := ⟨false, 10, 1 / 1000, false, 0, false, .nesterov, .none, .standard 2 20⟩
  dsz := .multi [.whole [2, 2, 2, 2], .whole [3, 3, 2, 3]]
  dimC := 1
  zm := true
  fD := false
  gD := true
  oD := ⟨false, 10, 0, 1 / 1000, true, 1, true, true, 10, 10, 2, 10, 1, 18 / 10⟩
  pD := ⟨false, 10, 1 / 1000, false, 0, false, .nesterov, .none, .standard 2 20⟩
  cg := fun _ X _ _ h => (X, h)
  acc := acc

theorem prm4_wf (acc : Bool) : (prm4 acc).dsz.WF (2 + 2) 2 := by
  refine ⟨by decide, fun b hb => ?_⟩
  simp only [List.mem_cons, List.not_mem_nil, or_false] at hb
  rcases hb with rfl | rfl <;> exact .inr ⟨rfl, by decide⟩

theorem prm4_extent (acc : Bool) (k : Fin 2) : (prm4 acc).dsz.extent k.val = 3 := by
  fin_cases k <;> rfl

/-- The hypotheses of the theorems are met, for every method. -/
example (acc : Bool) (x : XM) (δ : DM) : ∃ D0 D s t, Constructed (prm4 acc) D0 D x δ s t := by
  refine ⟨⟨idx (fun _ => 3) 2 1 5, fun p => p 0 + 2 * p 1 * p 4⟩, ?_⟩
  exact constructed_exists (prm4 acc) (prm4_wf acc) (fun k => by rw [prm4_extent]; exact Nat.le_succ 3) _
    ⟨fun _ => 3, rfl, fun k => (prm4_extent acc k).le⟩ x δ

example (acc : Bool) (x : XM) : OkX (prm4 acc) x := by
  cases x
  · exact ⟨rfl, Nat.le_add_left 1 9, fun _ => ⟨by norm_num [prm4], fun _ => ⟨by norm_num [prm4], by norm_num [prm4], by norm_num [prm4]⟩, .inl rfl⟩⟩
  · exact ⟨rfl, Nat.le_add_left 1 9, rfl⟩

end ConvEx

end Sporco.Dictlrn
