import Verif.Par.CnsMask
import Verif.Par.Learn
import Verif.Dictlrn.LearnMaskRef
import Verif.Conv.CcmodMC

/-!
# `ConvBPDNMaskDcplDictLearn_Consensus` of `dictlrn/prlcnscdl.py` (C62, C76)

The shared arrays of `CnsMask` with the transforms, linear solvers, proximal maps and constraint set projection that the
code uses.  Real data.
-/

set_option autoImplicit false

namespace Sporco.Par.CnsMask

open Finset ComplexConjugate Sporco.Conv Sporco.Cnvrep Sporco.Dictlrn Sporco.Dictlrn.Mask
open Sporco.Par.Cns (run run_rows iter_eq Maps eq_of_part)
open Sporco.PgmConv (maskTerm)

/-! ## Model -/

section Model
variable {d c κ m : ℕ} {N : Fin d → ℕ} [∀ k, NeZero (N k)] {a : Fin d}

/-- Signals with all their channels. -/
abbrev Chan (c : ℕ) {d : ℕ} (N : Fin d → ℕ) : Type := Fin (c + 1) → Grid N → ℝ

/-- The functions on the slices, for dictionaries with `c + 1` channels (a single-channel dictionary for a multi-channel
signal is refused, `prlcnscdl.py` 973-975): `fftn`, `ifftn` (real data); `cbpdnmd_setdict` (675); `cbpdnmd_xstep` (687-696);
`cbpdnmd_ystep` (723-724); `ccmodmd_setcoef` (747); `ccmodmd_xstep` (759-763); `ccmodmd_ystep` (787); `mp_dprox` (1021, the
attribute `Pcn` of the dictionary update). -/
noncomputable def opsL (P : PrmM d c κ m N a) :
    Ops (Maps m N) (Fin m → Half N a → ℂ) (Chan c N) (Fin (c + 1) → Half N a → ℂ) (Coef (Fin (c + 1)) (Fin m) N)
      (Spec (Fin (c + 1)) (Fin m) N a) (Chan c N) where
  fftZ z f := rfft N a (z f)
  ifftZ z f := irfft N a (z f)
  fftS s i := rfft N a (s i)
  ifftS s i := irfft N a (s i)
  fftD V i f := rfft N a (part V i f)
  ifftD V := join fun i f => irfft N a (V i f)
  dts Df S f ξ := ∑ i, conj (Df i f ξ) * S i ξ
  solveZ Df b f ξ := freqSolve (fun i n => Df i n ξ) 1 (fun n => b n ξ) none f
  inner Df Xf i ξ := Linalg.inner (fun f => Df i f ξ) (fun f => Xf f ξ)
  wprox w r v i p := r * v i p / (w i p ^ 2 + r)
  proxL1 z t f := Prox.proxL1Arr (z f) fun _ => t
  zts Zf S i f ξ := conj (Zf f ξ) * S i ξ
  solveD Zf b i f ξ := Linalg.solvedbiSm (fun n => Zf n ξ) 1 (fun n => b i n ξ) none f
  pcn := pcnC P.dsz P.dimC P.zm

/-- The object of class `ConvBPDNMaskDcpl` that the parent constructor makes, with its dictionary. -/
abbrev XObj (P : PrmM d c κ m N a) : Type :=
  Admm.St (Coef (Fin (κ + 1)) (Fin m) N) (TB.YY c (Fin (κ + 1)) (Fin m) N) (TB.YY c (Fin (κ + 1)) (Fin m) N)
      (TB.AttrTB (Fin (κ + 1)) (Fin m) N a) × Dict c (Fin m) P.ext

variable (c κ m N a) in
/-- The object of class `ConvCnstrMODMaskDcpl_Consensus` that the parent constructor makes, with its coefficient maps. -/
abbrev DObj : Type := StMC (Fin (c + 1)) (κ + 1) (Fin m) N a × (Fin (κ + 1) → Fin m → Grid N → ℝ)

/-- The globals set by the constructor (`prlcnscdl.py` 1007-1027) from the attributes of these objects. -/
noncomputable def cfgL (P : PrmM d c κ m N a) (x : XObj P) (t : DObj c κ m N a) : Cfg (κ + 1) (Chan c N) (Chan c N) where
  lmbda := P.lmbda
  xrho := x.1.rho
  drho := t.1.rho
  xrlx := P.oX.rlx
  drlx := P.oD.rlx
  S k i := P.S i k
  W k i := P.W i k

/-- The shared arrays of this class. -/
abbrev MemL (c κ m : ℕ) {d : ℕ} (N : Fin d → ℕ) [∀ k, NeZero (N k)] (a : Fin d) : Type :=
  Mem (κ + 1) (Maps m N) (Fin m → Half N a → ℂ) (Chan c N) (Coef (Fin (c + 1)) (Fin m) N) (Spec (Fin (c + 1)) (Fin m) N a)

/-- The shared arrays set by the constructor (`prlcnscdl.py` 1024-1057): `Df` and the two blocks of `Y` and of `U` of the
sparse coding object, `Y`, `Y1`, `U`, `U1` of the dictionary update; the others are not initialised from anything, and contain
zeros. -/
noncomputable def memL (P : PrmM d c κ m N a) (x : XObj P) (t : DObj c κ m N a) : MemL c κ m N a where
  Df := dictF a x.2
  D_Y0 := t.1.Y.fst
  DX := 0
  Z_X := 0
  Z_Y0 k i := part (Admm.TwoBlock.sep0 x.1.Y) i k
  Z_Y1 := part (Admm.TwoBlock.sep1 x.1.Y)
  Z_U0 k i := part (Admm.TwoBlock.sep0 x.1.U) i k
  Z_U1 := part (Admm.TwoBlock.sep1 x.1.U)
  Zf := 0
  D_X := 0
  D_Y1 k i := part t.1.Y.snd i k
  D_U0 k := t.1.U.fst k
  D_U1 k i := part t.1.U.snd i k

/-- `getdict` with its default argument (`prlcnscdl.py` 1168-1177). -/
noncomputable def getdict (P : PrmM d c κ m N a) (M : MemL c κ m N a) : Arr (d + 2 + 1) := cropC P.dsz M.D_Y0

/-- `getcoef` (`prlcnscdl.py` 1181-1185). -/
def getcoef (M : MemL c κ m N a) : Coef (Fin (κ + 1)) (Fin m) N := join M.Z_Y1

/-- `reconstruct` with its default arguments, inherited (`cbpdndlmd.py` 509-521); the dictionary is not cropped. -/
noncomputable def reconstruct (M : MemL c κ m N a) : Signal c (Fin (κ + 1)) N := fun i k =>
  irfft N a fun ξ => Linalg.inner (fun f => rfft N a (part M.D_Y0 i f) ξ) fun f => rfft N a (part (getcoef M) k f) ξ

/-- `evaluate` (`prlcnscdl.py` 1189-1209): functional, data fidelity, l1 norm. -/
noncomputable def evaluate (P : PrmM d c κ m N a) (M : MemL c κ m N a) : ℝ × ℝ × ℝ :=
  let DX : Signal c (Fin (κ + 1)) N :=
    if P.acc then reconstruct M
    else fun i k => irfft N a fun ξ => Linalg.inner (fun f => M.Df i f ξ) fun f => M.Zf k f ξ
  let dfd := ‖(join fun i k p => P.W i k p * (DX i k p - P.S i k p) : Sig (Fin (c + 1)) (Fin (κ + 1)) N)‖ ^ 2 / 2
  let rl1 := ∑ k, ∑ f, ∑ p, |part (getcoef M) k f p|
  (dfd + P.lmbda * rl1, dfd, rl1)

/-- `solve` with a process pool (`prlcnscdl.py` 1082-1164), called repeatedly: iteration number, arrays, statistics. -/
noncomputable def runL (P : PrmM d c κ m N a) (x : XObj P) (t : DObj c κ m N a)
    (sched : ℕ → List (Fin (κ + 1) × (MemL c κ m N a → MemL c κ m N a)))
    (cs : List (ℕ × Option (ℕ → MemL c κ m N a → Bool))) : ℕ × MemL c κ m N a × List (ℕ × ℝ × ℝ × ℝ) :=
  run (fun j => stepPar (opsL P) (cfgL P x t) (sched j)) (evaluate P) cs (0, memL P x t, [])

end Model

/-! ## Proofs -/

section Proofs
variable {d c κ m : ℕ} {N : Fin d → ℕ} [∀ k, NeZero (N k)] {a : Fin d}

/-- One step, for every schedule. -/
noncomputable def stepL (P : PrmM d c κ m N a) (x : XObj P) (t : DObj c κ m N a) : MemL c κ m N a → MemL c κ m N a :=
  serialStep (opsL P) (cfgL P x t)
    fun v => (opsL P).proxL1 v ((cfgL P x t).lmbda / (cfgL P x t).xrho)

theorem fftS_add (P : PrmM d c κ m N a) (s t : Chan c N) : (opsL P).fftS (s + t) = (opsL P).fftS s + (opsL P).fftS t := by
  funext i ξ
  exact rf_add (s i) (t i) ξ.1

theorem stepPar_eq (P : PrmM d c κ m N a) (x : XObj P) (t : DObj c κ m N a)
    (l : List (Fin (κ + 1) × (MemL c κ m N a → MemL c κ m N a)))
    (h : Interleaving (stepGroup (opsL P) (cfgL P x t)) l) :
    stepPar (opsL P) (cfgL P x t) l = stepL P x t :=
  funext fun M => C62_mask_serial_partial _ _ _ (fun _ => rfl) (fftS_add P) l h M

/-- The value of `evaluate` when the transforms are those of the arrays. -/
theorem evaluate_eq (P : PrmM d c κ m N a) (hw : P.dsz.WF (d + 2) d) (hN : ∀ k : Fin d, P.dsz.extent k.val ≤ N k)
    (M : MemL c κ m N a) (hD : DFeas P M.D_Y0) (h1 : M.Df = fun i f => rfft N a (part M.D_Y0 i f))
    (h2 : M.Zf = fun k f => rfft N a (M.Z_Y1 k f)) :
    let dfd := maskTerm (dictOf P.dsz (getdict P M) : Dict c (Fin m) P.ext) P.S P.W (part (getcoef M))
    let rl1 := ∑ k, ∑ f, ∑ p, |part (getcoef M) k f p|
    evaluate P M = (dfd + P.lmbda * rl1, dfd, rl1) := by
  intro dfd rl1
  have hr : reconstruct M = recon (dictOf P.dsz (getdict P M) : Dict c (Fin m) P.ext) (part (getcoef M)) := by
    obtain ⟨-, -, h3⟩ := cropC_spec hw hN hD
    have h3' : ∀ i f, pad N ((dictOf P.dsz (getdict P M) : Dict c (Fin m) P.ext) i f) = part M.D_Y0 i f := h3
    rw [← C40_reconstruct (a := a) hN P.q (dictOf P.dsz (getdict P M) : Dict c (Fin m) P.ext) P.S 0
      (fun _ _ _ => 0) (getcoef M)]
    funext i k
    unfold reconstruct Conv.reconstruct Conv.setdict dictF
    simp only [h3']
    rfl
  have hi : (if P.acc then reconstruct M
    else fun i k => irfft N a fun ξ => Linalg.inner (fun f => M.Df i f ξ) fun f => M.Zf k f ξ) = reconstruct M := by
    cases P.acc with
    | true => rfl
    | false =>
      rw [h1, h2]
      rfl
  unfold evaluate
  rw [hi, hr]
  have e : ‖(join fun i k p => P.W i k p * (recon (dictOf P.dsz (getdict P M) : Dict c (Fin m) P.ext) (part (getcoef M)) i k p -
      P.S i k p) : Sig (Fin (c + 1)) (Fin (κ + 1)) N)‖ ^ 2 / 2 = dfd := by
    rw [norm_part]
    change _ = 1 / 2 * _
    rw [div_eq_mul_one_div, mul_comm]
    rfl
  simp only [e]
  rfl

theorem stepL_feas (P : PrmM d c κ m N a) (hw : P.dsz.WF (d + 2) d) (hN : ∀ k : Fin d, P.dsz.extent k.val ≤ N k)
    (hz : P.zm = false ∨ d = 2) (x : XObj P) (t : DObj c κ m N a) (M : MemL c κ m N a) : DFeas P (stepL P x t M).D_Y0 :=
  pcnC_feasible hw hN hz _

theorem iter_feas {P : PrmM d c κ m N a} (hz : P.zm = false ∨ d = 2) {D0 D : Arr (d + 2 + 1)} {x : XObj P}
    {t : DObj c κ m N a} (hc : Constructed P D0 D .admm .cns x t) (k : ℕ) :
    DFeas P ((stepL P x t)^[k] (memL P x t)).D_Y0 := by
  cases k with
  | zero => exact hc.dfeas.1
  | succ k => rw [Function.iterate_succ_apply']; exact stepL_feas P hc.wf hc.fit hz x t _

theorem runL_eq (P : PrmM d c κ m N a) (x : XObj P) (t : DObj c κ m N a)
    (sched : ℕ → List (Fin (κ + 1) × (MemL c κ m N a → MemL c κ m N a)))
    (h : ∀ j, Interleaving (stepGroup (opsL P) (cfgL P x t)) (sched j))
    (cs : List (ℕ × Option (ℕ → MemL c κ m N a → Bool))) :
    runL P x t sched cs = run (fun _ => stepL P x t) (evaluate P) cs (0, memL P x t, []) := by
  unfold runL
  rw [show (fun j => stepPar (opsL P) (cfgL P x t) (sched j)) = fun _ => stepL P x t from
    funext fun j => stepPar_eq P x t (sched j) (h j)]

theorem stepSeq_eq (P : PrmM d c κ m N a) (x : XObj P) (t : DObj c κ m N a) :
    stepSeq (opsL P) (cfgL P x t) = stepL P x t := by
  have hl := interleaving_sequential (stepGroup (opsL P) (cfgL P x t)) (List.finRange (κ + 1))
    (List.nodup_finRange _) List.mem_finRange
  funext M
  rw [← C52_mask_step _ _ _ hl, stepPar_eq P x t _ hl]

/-- **C76, with a mask.** For every training set, mask, initial dictionary, option value (`AccurateDFid` or not), number of
processes, schedule of the worker processes, sequence of `solve` calls and callbacks: each call appends one row for every step
it makes; the values in a row are the functional `(1/2) Σ ‖W (Σ d*x - s)‖² + λ Σ |x|`, its first term, and the l1 norm, at the
dictionary that `getdict` and the coefficient maps that `getcoef` return right after that step; the steps are those of the loop
that `nproc = 0` selects; and the rows are numbered consecutively if `MaxMainIter` is positive. -/
theorem C76_mask_recorded_partial (P : PrmM d c κ m N a) (hz : P.zm = false ∨ d = 2) (D0 D : Arr (d + 2 + 1)) (x0 : XObj P)
    (d0 : DObj c κ m N a) (hc : Constructed P D0 D .admm .cns x0 d0)
    (sched : ℕ → List (Fin (κ + 1) × (MemL c κ m N a → MemL c κ m N a)))
    (h : ∀ j, Interleaving (stepGroup (opsL P) (cfgL P x0 d0)) (sched j))
    (cs : List (ℕ × Option (ℕ → MemL c κ m N a → Bool))) (mem : ℕ → MemL c κ m N a) (h0 : mem 0 = memL P x0 d0)
    (hs : ∀ k, mem (k + 1) = stepSeq (opsL P) (cfgL P x0 d0) (mem k)) :
    let r := runL P x0 d0 sched cs
    r.2.1 = mem r.2.2.length ∧ r.2.2.length ≤ (cs.map Prod.fst).sum ∧
    (∀ k, Feasible d (d + P.dimC) P.dsz P.zm (getdict P (mem k)) ∧
      (getdict P (mem k)).sh = idx (fun k : Fin d => P.dsz.extent k.val) (c + 1) 1 m) ∧
    ∀ k (hk : k < r.2.2.length),
      let D : Dict c (Fin m) P.ext := dictOf P.dsz (getdict P (mem (k + 1)))
      let X := part (getcoef (mem (k + 1)))
      r.2.2[k].2 = (maskTerm D P.S P.W X + P.lmbda * ∑ k, ∑ f, ∑ p, |X k f p|, maskTerm D P.S P.W X,
        ∑ k, ∑ f, ∑ p, |X k f p|) ∧
      ((∀ c ∈ cs, 0 < c.1) → r.2.2[k].1 = k ∧ r.1 = r.2.2.length) := by
  intro r
  have hm : ∀ k, mem k = (stepL P x0 d0)^[k] (memL P x0 d0) := by
    intro k
    rw [← h0]
    exact iter_eq _ mem (fun k => by rw [hs, stepSeq_eq]) k
  obtain ⟨n, g1, g2, num, g3, g4⟩ := run_rows (stepL P x0 d0) (evaluate P) cs 0 (memL P x0 d0) []
  rw [← runL_eq P x0 d0 sched h cs] at g2 g3 g4
  rw [List.nil_append] at g4
  have hlen : r.2.2.length = n := by rw [show r.2.2 = _ from g4]; simp
  refine ⟨by rw [hlen, hm]; exact g2, by rw [hlen]; exact g1, fun k => ?_, fun k hk => ?_⟩
  · have := cropC_spec hc.wf hc.fit (iter_feas hz hc k)
    rw [← hm k] at this
    exact ⟨this.1, this.2.1⟩
  · intro D X
    have hr : r.2.2[k] = (num k, evaluate P ((stepL P x0 d0)^[k + 1] (memL P x0 d0))) := by
      have e : r.2.2[k]? = some (num k, evaluate P ((stepL P x0 d0)^[k + 1] (memL P x0 d0))) := by
        rw [show r.2.2 = _ from g4, List.getElem?_map, List.getElem?_range (by rw [← hlen]; exact hk)]
        rfl
      rw [List.getElem?_eq_getElem hk] at e
      exact Option.some.inj e
    rw [hr]
    refine ⟨?_, fun hp => ⟨?_, ?_⟩⟩
    · have hf := iter_feas hz hc (k + 1)
      have := evaluate_eq P hc.wf hc.fit ((stepL P x0 d0)^[k + 1] (memL P x0 d0)) hf
        (by rw [Function.iterate_succ_apply']; rfl) (by rw [Function.iterate_succ_apply']; rfl)
      rw [← hm (k + 1)] at this ⊢
      exact this
    · have := (g3 hp).2 k
      rw [this]; simp
    · have := (g3 hp).1
      rw [hlen]
      exact this.trans (zero_add n)

/-! ## The same objects in the sequential class -/

/-- One iteration of the dictionary update without automatic penalty parameter. -/
theorem solveMC_once (Pcn : Coef (Fin (c + 1)) (Fin m) N → Coef (Fin (c + 1)) (Fin m) N) (Z : Fin (κ + 1) → Fin m → Grid N → ℝ)
    (S W : Fin (c + 1) → Fin (κ + 1) → Grid N → ℝ) (o : Admm.Opts) (h : o.maxMainIter = 1) (ha : o.autoRho = false)
    (s : StMC (Fin (c + 1)) (κ + 1) (Fin m) N a) :
    (solveMC Pcn Z S W o s).Y = (Admm.steps (Mod.clsMC a Pcn Z S W) o s).Y ∧
    (solveMC Pcn Z S W o s).U = (Admm.steps (Mod.clsMC a Pcn Z S W) o s).U ∧
    (solveMC Pcn Z S W o s).rho = s.rho := by
  have hl : loopMC Pcn Z S W o [s.k] s = (bodyMC Pcn Z S W o s.k s).1 := by
    simp only [loopMC, ite_self]
  have hb : (bodyMC Pcn Z S W o s.k s).1.Y = (Admm.steps (Mod.clsMC a Pcn Z S W) o s).Y ∧
      (bodyMC Pcn Z S W o s.k s).1.U = (Admm.steps (Mod.clsMC a Pcn Z S W) o s).U ∧
      (bodyMC Pcn Z S W o s.k s).1.rho = s.rho := by
    unfold bodyMC Mod.updateRhoMC
    rw [ha]
    simp only [Bool.false_eq_true, false_and, if_false, ite_self]
    by_cases hf : o.fastSolve = true
    · rw [if_pos hf]; exact ⟨rfl, rfl, rfl⟩
    · rw [if_neg hf]; exact ⟨rfl, rfl, rfl⟩
  have e : loopMC Pcn Z S W o (List.range' s.k o.maxMainIter) s = (bodyMC Pcn Z S W o s.k s).1 := by
    rw [h]; exact hl
  change (loopMC Pcn Z S W o (List.range' s.k o.maxMainIter) s).Y = _ ∧
    (loopMC Pcn Z S W o (List.range' s.k o.maxMainIter) s).U = _ ∧
    (loopMC Pcn Z S W o (List.range' s.k o.maxMainIter) s).rho = _
  rw [e]
  exact hb

/-- The arrays are those of the two objects of the sequential class. -/
structure Same (P : PrmM d c κ m N a) (x0 : XObj P) (d0 : DObj c κ m N a) (M : MemL c κ m N a) (x : XObj P)
    (t : DObj c κ m N a) : Prop where
  Df : M.Df = dictF a x.2
  coh : ∃ Xf, x.1.extra = TB.setdict P.q x.2 Xf
  ZY0 : ∀ k i, M.Z_Y0 k i = part (Admm.TwoBlock.sep0 x.1.Y) i k
  ZY1 : M.Z_Y1 = part (Admm.TwoBlock.sep1 x.1.Y)
  ZU0 : ∀ k i, M.Z_U0 k i = part (Admm.TwoBlock.sep0 x.1.U) i k
  ZU1 : M.Z_U1 = part (Admm.TwoBlock.sep1 x.1.U)
  DY0 : M.D_Y0 = t.1.Y.fst
  DY1 : ∀ k i, M.D_Y1 k i = part t.1.Y.snd i k
  DU0 : ∀ k, M.D_U0 k = t.1.U.fst k
  DU1 : ∀ k i, M.D_U1 k i = part t.1.U.snd i k
  rx : x.1.rho = x0.1.rho
  rd : t.1.rho = d0.1.rho

/-- The options with which the sequential class makes one iteration of each solver with fixed penalty parameters, and does
not use options that the parallel class ignores. -/
structure Plain (P : PrmM d c κ m N a) : Prop where
  itX : P.oX.maxMainIter = 1
  itD : P.oD.maxMainIter = 1
  arX : P.oX.autoRho = false
  arD : P.oD.autoRho = false
  wgt : ∀ i, P.w i = 1
  nn : P.q.nonNeg = false
  nb : P.q.noBndry = false
  hm : P.q.caches c = false
  ret : P.retX = false

theorem relaxTB {E F₀ F₁ : Type*} [NormedAddCommGroup F₀] [NormedAddCommGroup F₁] [NormedAddCommGroup E]
    [InnerProductSpace ℝ F₀] [InnerProductSpace ℝ F₁] [InnerProductSpace ℝ E] (A0 : E → F₀) (A1 : E → F₁) (c0 : F₀) (c1 : F₁)
    (r : ℝ) (X : E) (Y : WithLp 2 (F₀ × F₁)) :
    Admm.TwoBlock.sep0 (Admm.TwoBlock.relaxAX A0 A1 c0 c1 r X Y).1 = r • A0 X + (1 - r) • (Admm.TwoBlock.sep0 Y + c0) ∧
    Admm.TwoBlock.sep1 (Admm.TwoBlock.relaxAX A0 A1 c0 c1 r X Y).1 = r • A1 X + (1 - r) • (Admm.TwoBlock.sep1 Y + c1) := by
  unfold Admm.TwoBlock.relaxAX
  by_cases h : r = 1
  · simp only [h]
    constructor
    · change A0 X = _; simp
    · change A1 X = _; simp
  · simp only [if_neg h]
    exact ⟨rfl, rfl⟩

/-- The transform of the coefficient maps of signal `k` that the X update of a task computes. -/
noncomputable def taskXf (P : PrmM d c κ m N a) (M : MemL c κ m N a) (k : Fin (κ + 1)) : Fin m → Half N a → ℂ :=
  (opsL P).solveZ M.Df ((opsL P).dts M.Df ((opsL P).fftS (M.Z_Y0 k - M.Z_U0 k + fun i => P.S i k)) +
    (opsL P).fftZ (M.Z_Y1 k - M.Z_U1 k))

theorem xstep_task {P : PrmM d c κ m N a} (hp : Plain P) {x0 : XObj P} {d0 : DObj c κ m N a}
    {M : MemL c κ m N a} {x : XObj P} {t : DObj c κ m N a} (h : Same P x0 d0 M x t) (k : Fin (κ + 1)) :
    let xn := TB.xstep x.2 P.S x.1.rho x.1.X x.1.Y x.1.U x.1.extra
    part xn.1 k = (opsL P).ifftZ (taskXf P M k) ∧ ∀ f, rfft N a (part xn.1 k f) = taskXf P M k f := by
  intro xn
  obtain ⟨Xf, hx⟩ := h.coh
  have hcc : x.1.extra.cc = none := by
    rw [hx]
    change (if P.q.caches c then some _ else none) = none
    rw [hp.hm]; rfl
  have e0 : ∀ i, (M.Z_Y0 k - M.Z_U0 k + fun i => P.S i k) i =
      part (Admm.TwoBlock.sep0 (x.1.Y - x.1.U) + join P.S) i k := by
    intro i
    change M.Z_Y0 k i - M.Z_U0 k i + P.S i k = _
    rw [h.ZY0, h.ZU0]
    rfl
  have eX : xn.2.Xf k = taskXf P M k := by
    unfold taskXf
    rw [h.Df, h.ZY1, h.ZU1]
    change (fun f ξ => freqSolve (fun i n => dictF a x.2 i n ξ) 1 _ (x.1.extra.cc.map fun f n => f n ξ) f) = fun f ξ =>
      freqSolve (fun i n => dictF a x.2 i n ξ) 1 (fun n => (∑ i, conj (dictF a x.2 i n ξ) *
        rfft N a ((M.Z_Y0 k - M.Z_U0 k + fun i => P.S i k) i) ξ) + _) none f
    rw [hcc]
    simp only [e0]
    rfl
  have e2 := TB.xstep_Xf (q := P.q) ⟨Xf, hx⟩ P.S x.1.rho x.1.X x.1.Y x.1.U k
  refine ⟨?_, fun f => ?_⟩
  · rw [← eX]; rfl
  · rw [← eX]; exact (e2 f).symm

/-- The sparse coding object after one iteration. -/
theorem x_once {P : PrmM d c κ m N a} (hp : Plain P) {x0 : XObj P} {d0 : DObj c κ m N a}
    {M : MemL c κ m N a} {x : XObj P} {t : DObj c κ m N a} (h : Same P x0 d0 M x t) :
    let s := Admm.solve (TB.clsMask a P.q x.2 P.S P.W P.lmbda P.w P.avX) P.oX none x.1
    (∀ k i, (stepL P x0 d0 M).Z_Y0 k i = part (Admm.TwoBlock.sep0 s.Y) i k) ∧
    (stepL P x0 d0 M).Z_Y1 = part (Admm.TwoBlock.sep1 s.Y) ∧
    (∀ k i, (stepL P x0 d0 M).Z_U0 k i = part (Admm.TwoBlock.sep0 s.U) i k) ∧
    (stepL P x0 d0 M).Z_U1 = part (Admm.TwoBlock.sep1 s.U) ∧ s.rho = x0.1.rho := by
  intro s
  obtain ⟨-, hY, hU, hr, -⟩ := Admm.solve_once (TB.clsMask a P.q x.2 P.S P.W P.lmbda P.w P.avX) P.oX hp.itX hp.arX x.1
  have eX := fun k => (xstep_task hp h k).1
  have eXf := fun k => (xstep_task hp h k).2
  rw [show s.Y = _ from hY, show s.U = _ from hU, Admm.steps_U, Admm.steps_Y]
  change ∀ k, part ((TB.clsMask a P.q x.2 P.S P.W P.lmbda P.w P.avX).xstep x.1.rho x.1.X x.1.Y x.1.U x.1.extra).1 k = _ at eX
  change ∀ k f, rfft N a (part ((TB.clsMask a P.q x.2 P.S P.W P.lmbda P.w P.avX).xstep x.1.rho x.1.X x.1.Y x.1.U x.1.extra).1 k f) = _
    at eXf
  generalize (TB.clsMask a P.q x.2 P.S P.W P.lmbda P.w P.avX).xstep x.1.rho x.1.X x.1.Y x.1.U x.1.extra = xn at eX eXf ⊢
  have hrel := relaxTB (TB.cnstA0 a x.2) (fun x => x) (join P.S) 0 P.oX.rlx xn.1 x.1.Y
  change Admm.TwoBlock.sep0 ((TB.clsMask a P.q x.2 P.S P.W P.lmbda P.w P.avX).relax P.oX.rlx xn.1 x.1.Y).1 = _ ∧
    Admm.TwoBlock.sep1 ((TB.clsMask a P.q x.2 P.S P.W P.lmbda P.w P.avX).relax P.oX.rlx xn.1 x.1.Y).1 = _ at hrel
  generalize ((TB.clsMask a P.q x.2 P.S P.W P.lmbda P.w P.avX).relax P.oX.rlx xn.1 x.1.Y).1 = ax at hrel ⊢
  -- the values of the task
  have eA1 : ∀ k, part (Admm.TwoBlock.sep1 ax) k = (stepL P x0 d0 M).Z_X k := by
    intro k
    rw [hrel.2]
    change P.oX.rlx • part xn.1 k + (1 - P.oX.rlx) • part (Admm.TwoBlock.sep1 x.1.Y + 0) k = _
    rw [eX k, add_zero, ← h.ZY1]
    rfl
  let A0 : Fin (κ + 1) → Chan c N := fun k =>
    P.oX.rlx • (opsL P).ifftS ((opsL P).inner M.Df (taskXf P M k)) + (1 - P.oX.rlx) • (M.Z_Y0 k + fun i => P.S i k)
  have eA0 : ∀ k i, part (Admm.TwoBlock.sep0 ax) i k = A0 k i := by
    intro k i
    rw [hrel.1]
    change P.oX.rlx • irfft N a (fun ξ => Linalg.inner (fun f => dictF a x.2 i f ξ) fun f => rfft N a (part xn.1 k f) ξ) +
      (1 - P.oX.rlx) • (part (Admm.TwoBlock.sep0 x.1.Y) i k + P.S i k) =
      P.oX.rlx • irfft N a (fun ξ => Linalg.inner (fun f => M.Df i f ξ) fun f => taskXf P M k f ξ) +
      (1 - P.oX.rlx) • (M.Z_Y0 k i + P.S i k)
    rw [h.Df, h.ZY0]
    simp only [eXf]
  have eY0 : ∀ k i, part (Admm.TwoBlock.sep0 ((TB.clsMask a P.q x.2 P.S P.W P.lmbda P.w P.avX).ystep x.1.rho ax xn.1 x.1.Y x.1.U
      xn.2).1) i k = (stepL P x0 d0 M).Z_Y0 k i := by
    intro k i
    funext p
    change x.1.rho * (part (Admm.TwoBlock.sep0 ax) i k p + part (Admm.TwoBlock.sep0 x.1.U) i k p - P.S i k p) /
      (P.W i k p ^ 2 + x.1.rho) = x0.1.rho * (A0 k i p + M.Z_U0 k i p - P.S i k p) / (P.W i k p ^ 2 + x0.1.rho)
    rw [eA0, h.ZU0, h.rx]
  have eY1 : ∀ k, part (Admm.TwoBlock.sep1 ((TB.clsMask a P.q x.2 P.S P.W P.lmbda P.w P.avX).ystep x.1.rho ax xn.1 x.1.Y x.1.U
      xn.2).1) k = (stepL P x0 d0 M).Z_Y1 k := by
    intro k
    funext f p
    change gystep P.q _ (Prox.proxL1Arr (Admm.TwoBlock.sep1 (ax + x.1.U)).ofLp fun i => P.lmbda / x.1.rho * P.w i) (k, f, p) = _
    unfold gystep
    rw [hp.nn, hp.nb]
    simp only [Bool.false_eq_true, if_false, Prox.proxL1Arr, hp.wgt, mul_one]
    have e1 : (Admm.TwoBlock.sep1 (ax + x.1.U)).ofLp (k, f, p) = ((stepL P x0 d0 M).Z_X k + M.Z_U1 k) f p := by
      rw [← eA1 k, h.ZU1]; rfl
    rw [e1, h.rx]
    rfl
  refine ⟨fun k i => (eY0 k i).symm, funext fun k => (eY1 k).symm, fun k i => ?_, funext fun k => ?_, hr.trans h.rx⟩
  · change M.Z_U0 k i + (A0 k i - (stepL P x0 d0 M).Z_Y0 k i - P.S i k) = part (Admm.TwoBlock.sep0 x.1.U) i k +
      (part (Admm.TwoBlock.sep0 ax) i k - (part (Admm.TwoBlock.sep0 ((TB.clsMask a P.q x.2 P.S P.W P.lmbda P.w
      P.avX).ystep x.1.rho ax xn.1 x.1.Y x.1.U xn.2).1) i k + P.S i k))
    rw [eY0, eA0, h.ZU0, sub_sub]
  · change M.Z_U1 k + ((stepL P x0 d0 M).Z_X k - (stepL P x0 d0 M).Z_Y1 k) = part (Admm.TwoBlock.sep1 x.1.U) k +
      (part (Admm.TwoBlock.sep1 ax) k - part (Admm.TwoBlock.sep1 ((TB.clsMask a P.q x.2 P.S P.W P.lmbda P.w
      P.avX).ystep x.1.rho ax xn.1 x.1.Y x.1.U xn.2).1 + 0) k)
    rw [add_zero, eY1, eA1, h.ZU1]

/-- The transform of the dictionary that the X update of task `k` computes, from the transform of its coefficient maps. -/
noncomputable def taskDf (P : PrmM d c κ m N a) (M : MemL c κ m N a) (Zf : Fin m → Half N a → ℂ) (k : Fin (κ + 1)) :
    Spec (Fin (c + 1)) (Fin m) N a :=
  (opsL P).solveD Zf ((opsL P).zts Zf ((opsL P).fftS (fun i => P.S i k) + (opsL P).fftS (M.D_Y1 k - M.D_U1 k)) +
    (opsL P).fftD (M.D_Y0 - M.D_U0 k))

theorem dxstep_task {P : PrmM d c κ m N a} {x0 : XObj P} {d0 : DObj c κ m N a}
    {M : MemL c κ m N a} {x : XObj P} {t : DObj c κ m N a} (h : Same P x0 d0 M x t) (Z : Fin (κ + 1) → Maps m N)
    (k : Fin (κ + 1)) :
    let xn := Mod.xstepMC Z P.S t.1.rho t.1.X t.1.Y t.1.U t.1.extra
    let Df := taskDf P M ((opsL P).fftZ (Z k)) k
    xn.1 k = (opsL P).ifftD Df ∧ ∀ i f, rfft N a (part (xn.1 k) i f) = Df i f := by
  intro xn Df
  have e0 : ∀ i, (M.D_Y1 k - M.D_U1 k) i = part (t.1.Y.snd - t.1.U.snd) i k := by
    intro i
    change M.D_Y1 k i - M.D_U1 k i = _
    rw [h.DY1, h.DU1]
    rfl
  have eX : xn.2 k = Df := by
    change _ = taskDf P M ((opsL P).fftZ (Z k)) k
    unfold taskDf
    rw [h.DY0, h.DU0]
    change (fun i f ξ => Linalg.solvedbiSm (fun n => rfft N a (Z k n) ξ) ((1 : ℝ) : ℂ)
      (fun n => conj (rfft N a (Z k n) ξ) * (rfft N a (P.S i k) ξ + rfft N a (part (t.1.Y.snd - t.1.U.snd) i k) ξ) +
        ((1 : ℝ) : ℂ) * rfft N a (part (t.1.Y.fst - t.1.U.fst k) i n) ξ) none f) = fun i f ξ =>
      Linalg.solvedbiSm (fun n => rfft N a (Z k n) ξ) 1
      (fun n => conj (rfft N a (Z k n) ξ) * (rfft N a (P.S i k) ξ + rfft N a ((M.D_Y1 k - M.D_U1 k) i) ξ) +
        rfft N a (part (t.1.Y.fst - t.1.U.fst k) i n) ξ) none f
    simp only [e0, Complex.ofReal_one, one_mul]
  refine ⟨?_, fun i f => ?_⟩
  · rw [← eX]; rfl
  · rw [← eX]; exact (Mod.xstepMC_Xf Z P.S t.1.rho t.1.X t.1.Y t.1.U t.1.extra k i f).symm

/-- The dictionary update object after one iteration with the new coefficient maps. -/
theorem d_once {P : PrmM d c κ m N a} (hp : Plain P) {x0 : XObj P} {d0 : DObj c κ m N a}
    {M : MemL c κ m N a} {x : XObj P} {t : DObj c κ m N a} (h : Same P x0 d0 M x t) (Z : Fin (κ + 1) → Maps m N)
    (hZ : (stepL P x0 d0 M).Z_Y1 = Z) :
    let s := solveMC (pcnC P.dsz P.dimC P.zm) Z P.S P.W P.oD t.1
    (stepL P x0 d0 M).D_Y0 = s.Y.fst ∧ (∀ k i, (stepL P x0 d0 M).D_Y1 k i = part s.Y.snd i k) ∧
    (∀ k, (stepL P x0 d0 M).D_U0 k = s.U.fst k) ∧ (∀ k i, (stepL P x0 d0 M).D_U1 k i = part s.U.snd i k) ∧
    s.rho = d0.1.rho := by
  intro s
  obtain ⟨hY, hU, hr⟩ := solveMC_once (pcnC P.dsz P.dimC P.zm) Z P.S P.W P.oD hp.itD hp.arD t.1
  have eX := fun k => (dxstep_task h Z k).1
  have eXf := fun k => (dxstep_task h Z k).2
  rw [show s.Y = _ from hY, show s.U = _ from hU, Admm.steps_U, Admm.steps_Y]
  change ∀ k, ((Mod.clsMC a (pcnC P.dsz P.dimC P.zm) Z P.S P.W).xstep t.1.rho t.1.X t.1.Y t.1.U t.1.extra).1 k = _ at eX
  change ∀ k i f, rfft N a (part (((Mod.clsMC a (pcnC P.dsz P.dimC P.zm) Z P.S P.W).xstep t.1.rho t.1.X t.1.Y t.1.U
    t.1.extra).1 k) i f) = _ at eXf
  generalize (Mod.clsMC a (pcnC P.dsz P.dimC P.zm) Z P.S P.W).xstep t.1.rho t.1.X t.1.Y t.1.U t.1.extra = xn at eX eXf ⊢
  have hr1 : ∀ k, ((Mod.clsMC a (pcnC P.dsz P.dimC P.zm) Z P.S P.W).relax P.oD.rlx xn.1 t.1.Y).1.fst k =
      P.oD.rlx • xn.1 k + (1 - P.oD.rlx) • t.1.Y.fst := fun k => Cns.relaxC_eq _ _ _ k
  have hr2 : ((Mod.clsMC a (pcnC P.dsz P.dimC P.zm) Z P.S P.W).relax P.oD.rlx xn.1 t.1.Y).1.snd =
      P.oD.rlx • Mod.ax1 a Z xn.1 + (1 - P.oD.rlx) • (t.1.Y.snd + join P.S) := by
    change (if P.oD.rlx = 1 then _ else _) = _
    by_cases hx : P.oD.rlx = 1
    · rw [if_pos hx, hx]; simp
    · rw [if_neg hx]
  generalize ((Mod.clsMC a (pcnC P.dsz P.dimC P.zm) Z P.S P.W).relax P.oD.rlx xn.1 t.1.Y).1 = ax at hr1 hr2 ⊢
  have eA0 : ∀ k, ax.fst k = (stepL P x0 d0 M).D_X k := by
    intro k
    rw [hr1, eX, ← h.DY0, ← hZ]
    rfl
  have eA1 : ∀ k i, part ax.snd i k = (stepL P x0 d0 M).DX k i := by
    intro k i
    rw [hr2]
    change P.oD.rlx • irfft N a (fun ξ => Linalg.inner (fun f => rfft N a (Z k f) ξ) fun f => rfft N a (part (xn.1 k) i f) ξ) +
      (1 - P.oD.rlx) • (part t.1.Y.snd i k + P.S i k) =
      P.oD.rlx • irfft N a (fun ξ => Linalg.inner
        (fun f => taskDf P M ((opsL P).fftZ ((stepL P x0 d0 M).Z_Y1 k)) k i f ξ)
        fun f => rfft N a ((stepL P x0 d0 M).Z_Y1 k f) ξ) + (1 - P.oD.rlx) • (M.D_Y1 k i + P.S i k)
    rw [h.DY1, hZ]
    simp only [eXf, Linalg.inner]
    simp only [mul_comm]
  have eY0 : ((Mod.clsMC a (pcnC P.dsz P.dimC P.zm) Z P.S P.W).ystep t.1.rho ax xn.1 t.1.Y t.1.U xn.2).1.fst =
      (stepL P x0 d0 M).D_Y0 := by
    change pcnC P.dsz P.dimC P.zm (((κ + 1 : ℕ) : ℝ)⁻¹ • ∑ k, (ax.fst k + t.1.U.fst k)) = _
    simp only [eA0, ← h.DU0]
    rfl
  have eY1 : ∀ k i, part ((Mod.clsMC a (pcnC P.dsz P.dimC P.zm) Z P.S P.W).ystep t.1.rho ax xn.1 t.1.Y t.1.U xn.2).1.snd i k =
      (stepL P x0 d0 M).D_Y1 k i := by
    intro k i
    funext p
    change t.1.rho * (part ax.snd i k p + part t.1.U.snd i k p - P.S i k p) / (P.W i k p ^ 2 + t.1.rho) =
      d0.1.rho * ((stepL P x0 d0 M).DX k i p + M.D_U1 k i p - P.S i k p) / (P.W i k p ^ 2 + d0.1.rho)
    rw [eA1, h.DU1, h.rd]
  refine ⟨eY0.symm, fun k i => (eY1 k i).symm, fun k => ?_, fun k i => ?_, hr.trans h.rd⟩
  · change M.D_U0 k + ((stepL P x0 d0 M).D_X k - (stepL P x0 d0 M).D_Y0) = t.1.U.fst k + (ax.fst k -
      ((Mod.clsMC a (pcnC P.dsz P.dimC P.zm) Z P.S P.W).ystep t.1.rho ax xn.1 t.1.Y t.1.U xn.2).1.fst)
    rw [eY0, eA0, h.DU0]
  · change M.D_U1 k i + ((stepL P x0 d0 M).DX k i - (stepL P x0 d0 M).D_Y1 k i - P.S i k) = part t.1.U.snd i k +
      (part ax.snd i k - part ((Mod.clsMC a (pcnC P.dsz P.dimC P.zm) Z P.S P.W).ystep t.1.rho ax xn.1 t.1.Y t.1.U
        xn.2).1.snd i k - P.S i k)
    rw [eY1, eA1, h.DU1]

theorem same_step {P : PrmM d c κ m N a} (hp : Plain P) (hw : P.dsz.WF (d + 2) d)
    (hN : ∀ k : Fin d, P.dsz.extent k.val ≤ N k) (hz : P.zm = false ∨ d = 2) {x0 : XObj P} {d0 : DObj c κ m N a}
    {M : MemL c κ m N a} {x : XObj P} {t : DObj c κ m N a} (h : Same P x0 d0 M x t) :
    Same P x0 d0 (stepL P x0 d0 M) ((xC P .admm).setdict ((dC P .cns).getdict ((dC P .cns).solve ((dC P .cns).setcoef
      ((xC P .admm).getcoef ((xC P .admm).solve x)) t))) ((xC P .admm).solve x))
      ((dC P .cns).solve ((dC P .cns).setcoef ((xC P .admm).getcoef ((xC P .admm).solve x)) t)) := by
  obtain ⟨a1, a2, a3, a4, a5⟩ := x_once hp h
  have hg : (xC P .admm).getcoef ((xC P .admm).solve x) = Admm.TwoBlock.sep1
      (Admm.solve (TB.clsMask a P.q x.2 P.S P.W P.lmbda P.w P.avX) P.oX none x.1).Y := by
    change (if P.retX then _ else _) = _
    rw [hp.ret]; rfl
  rw [hg]
  obtain ⟨b1, b2, b3, b4, b5⟩ := d_once hp h _ a2
  have hfe : DFeas P (dvar .cns ((dC P .cns).solve ((dC P .cns).setcoef (Admm.TwoBlock.sep1
      (Admm.solve (TB.clsMask a P.q x.2 P.S P.W P.lmbda P.w P.avX) P.oX none x.1).Y) t))) := by
    have := stepL_feas P hw hN hz x0 d0 M
    rw [b1] at this
    exact this
  obtain ⟨-, -, h3⟩ := cropC_spec hw hN hfe
  have hDf : (stepL P x0 d0 M).Df = dictF a (dictOf P.dsz ((dC P .cns).getdict ((dC P .cns).solve ((dC P .cns).setcoef
      (Admm.TwoBlock.sep1 (Admm.solve (TB.clsMask a P.q x.2 P.S P.W P.lmbda P.w P.avX) P.oX none x.1).Y) t))) :
      Dict c (Fin m) P.ext) := by
    funext i f
    change rfft N a (part (stepL P x0 d0 M).D_Y0 i f) = rfft N a (pad N _)
    rw [b1]
    exact congrArg (rfft N a) (h3 i f).symm
  exact ⟨hDf, ⟨_, rfl⟩, a1, a2, a3, a4, b1, b2, b3, b4, a5, b5⟩

/-- **C62 for the objects, with a mask.** With `MaxMainIter` 1 and no automatic penalty parameter in both parts of the
sequential class, unit `L1Weight`, and without `NonNegCoef`, `NoBndryCross`, `HighMemSolve` (of a single-channel dictionary) and
`ReturnX`: for every training set, mask, initial dictionary, relaxation and penalty parameters, number of processes and
schedule, the coefficient maps and the dictionary that the parallel class returns after `n` steps are those that the sequential
class with consensus dictionary update returns after `n` iterations, and the other variables that either class keeps from one
iteration to the next agree too. -/
theorem C62_mask_objects_partial (P : PrmM d c κ m N a) (hp : Plain P) (hz : P.zm = false ∨ d = 2) (clock : ℕ → ℝ)
    (D0 D : Arr (d + 2 + 1)) (x0 : XObj P) (d0 : DObj c κ m N a) (hc : Constructed P D0 D .admm .cns x0 d0)
    (xs : ℕ → XObj P) (ds : ℕ → DObj c κ m N a) (ha : Alternates (envC P .admm .cns clock) x0 d0 xs ds)
    (sched : ℕ → List (Fin (κ + 1) × (MemL c κ m N a → MemL c κ m N a)))
    (h : ∀ j, Interleaving (stepGroup (opsL P) (cfgL P x0 d0)) (sched j)) (mem : ℕ → MemL c κ m N a)
    (h0 : mem 0 = memL P x0 d0) (hs : ∀ k, mem (k + 1) = stepPar (opsL P) (cfgL P x0 d0) (sched k) (mem k)) (k : ℕ) :
    getcoef (mem (k + 1)) = (xC P .admm).getcoef (xs k) ∧ getdict P (mem (k + 1)) = (dC P .cns).getdict (ds k) ∧
      (∀ j i, (mem (k + 1)).Z_Y0 j i = part (Admm.TwoBlock.sep0 (xs k).1.Y) i j) ∧
      (∀ j i, (mem (k + 1)).Z_U0 j i = part (Admm.TwoBlock.sep0 (xs k).1.U) i j) ∧
      (mem (k + 1)).Z_U1 = part (Admm.TwoBlock.sep1 (xs k).1.U) ∧
      (mem (k + 1)).D_Y0 = (ds k).1.Y.fst ∧ (∀ j i, (mem (k + 1)).D_Y1 j i = part (ds k).1.Y.snd i j) ∧
      (∀ j, (mem (k + 1)).D_U0 j = (ds k).1.U.fst j) ∧ (∀ j i, (mem (k + 1)).D_U1 j i = part (ds k).1.U.snd i j) := by
  have hst : ∀ k, mem (k + 1) = stepL P x0 d0 (mem k) := fun k => by rw [hs, stepPar_eq P x0 d0 _ (h k)]
  have hinit : Same P x0 d0 (mem 0) x0 d0 := by
    rw [h0]
    obtain ⟨-, -, hx, e⟩ := hc.xstep
    exact ⟨rfl, by rw [e]; exact hx, fun _ _ => rfl, rfl, fun _ _ => rfl, rfl, rfl, fun _ _ => rfl, fun _ => rfl, fun _ _ => rfl,
      rfl, rfl⟩
  have key : ∀ k, Same P x0 d0 (mem (k + 1)) ((xC P .admm).setdict ((dC P .cns).getdict (ds k)) (xs k)) (ds k) := by
    intro k
    induction k with
    | zero =>
      have e1 : xs 0 = (xC P .admm).solve x0 := ha.x_first
      have e2 : ds 0 = (dC P .cns).solve ((dC P .cns).setcoef ((xC P .admm).getcoef (xs 0)) d0) := ha.d_first
      rw [hst 0, e2, e1]
      exact same_step hp hc.wf hc.fit hz hinit
    | succ k ih =>
      have e1 : xs (k + 1) = (xC P .admm).solve ((xC P .admm).setdict ((dC P .cns).getdict (ds k)) (xs k)) := ha.x_next k
      have e2 : ds (k + 1) = (dC P .cns).solve ((dC P .cns).setcoef ((xC P .admm).getcoef (xs (k + 1))) (ds k)) := ha.d_next k
      rw [hst (k + 1), e2, e1]
      exact same_step hp hc.wf hc.fit hz ih
  have hk := key k
  refine ⟨?_, ?_, hk.ZY0, hk.ZU0, hk.ZU1, hk.DY0, hk.DY1, hk.DU0, hk.DU1⟩
  · have hg : (xC P .admm).getcoef (xs k) = Admm.TwoBlock.sep1 (xs k).1.Y := by
      change (if P.retX then _ else _) = _
      rw [hp.ret]; rfl
    rw [hg]
    unfold getcoef
    rw [hk.ZY1]
    rfl
  · change cropC P.dsz (mem (k + 1)).D_Y0 = cropC P.dsz (ds k).1.Y.fst
    rw [hk.DY0]

end Proofs

/-! ## Examples -/

section Examples
open Sporco.Dictlrn.ConvEx (G4)
open Sporco.Dictlrn.Mask.Ex

/-- Two masked colour images, five zero-mean filters of two sizes, relaxation 1.8, one iteration of each step. -/
noncomputable def prmL (acc : Bool) : PrmM 2 1 1 5 G4 0 :=
  { prm4 acc with
    oX := { (prm4 acc).oX with maxMainIter := 1, autoRho := false }
    oD := { (prm4 acc).oD with maxMainIter := 1, autoRho := false } }

theorem prmL_plain (acc : Bool) : Plain (prmL acc) := ⟨rfl, rfl, rfl, rfl, fun _ => rfl, rfl, rfl, rfl, rfl⟩

/-- The hypotheses of `C76_mask_recorded_partial` and `C62_mask_objects_partial` are met. -/
example (acc : Bool) : Plain (prmL acc) ∧ ((prmL acc).zm = false ∨ (2 : ℕ) = 2) ∧
    ∃ (D0 D : Arr (2 + 2 + 1)) (x0 : XObj (prmL acc)) (d0 : DObj 1 1 5 G4 0)
    (sched : ℕ → List (Fin 2 × (MemL 1 1 5 G4 0 → MemL 1 1 5 G4 0))), Constructed (prmL acc) D0 D .admm .cns x0 d0 ∧
    ∀ j, Interleaving (stepGroup (opsL (prmL acc)) (cfgL (prmL acc) x0 d0)) (sched j) := by
  obtain ⟨D, x0, d0, h⟩ := constructed_exists (prmL acc) (ConvEx.prm4_wf acc) (fun k => by
      change (prm4 acc).dsz.extent k.val ≤ 4
      rw [prm4_extent]; exact Nat.le_succ 3)
    ⟨idx (fun _ => 3) 2 1 5, fun p => p 0 + 2 * p 1 * p 4⟩ ⟨fun _ => 3, rfl, fun k => (prm4_extent acc k).le⟩ .admm .cns
  exact ⟨prmL_plain acc, .inr rfl, _, D, x0, d0, fun _ => sequential _ (List.finRange 2), h, fun _ =>
    interleaving_sequential _ _ (List.nodup_finRange _) List.mem_finRange⟩

end Examples

end Sporco.Par.CnsMask
