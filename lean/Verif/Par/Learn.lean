import Verif.Par.Cns
import Verif.Dictlrn.LearnConvRef

/-!
# `ConvBPDNDictLearn_Consensus` of `dictlrn/prlcnscdl.py` (C62, C76)

The shared arrays of `Cns` with the transforms, linear solvers, proximal map and constraint set projection that the
code uses.  Real data.
-/

set_option autoImplicit false

namespace Sporco.Admm
variable {E F G H : Type*} [AddCommGroup G] [Module ℝ G]

/-- One iteration without automatic penalty parameter. -/
theorem solve_once (C : Cls E F G H) (o : Opts) (h : o.maxMainIter = 1) (ha : o.autoRho = false) (s : St E F G H) :
    (solve C o none s).X = (steps C o s).X ∧ (solve C o none s).Y = (steps C o s).Y ∧
      (solve C o none s).U = (steps C o s).U ∧ (solve C o none s).rho = s.rho ∧
      (solve C o none s).extra = (steps C o s).extra := by
  have hl : loop C o none [s.k] s = (body C o none s.k s).1 := by
    simp only [loop, ite_self]
  have hb : (body C o none s.k s).1.X = (steps C o s).X ∧ (body C o none s.k s).1.Y = (steps C o s).Y ∧
      (body C o none s.k s).1.U = (steps C o s).U ∧ (body C o none s.k s).1.rho = s.rho ∧
      (body C o none s.k s).1.extra = (steps C o s).extra := by
    unfold body updateRho
    rw [ha]
    simp only [Bool.false_eq_true, false_and, if_false, ite_self]
    by_cases hf : o.fastSolve = true
    · rw [if_pos hf]; exact ⟨rfl, rfl, rfl, rfl, rfl⟩
    · rw [if_neg hf]; exact ⟨rfl, rfl, rfl, rfl, rfl⟩
  have e : loop C o none (List.range' s.k o.maxMainIter) s = (body C o none s.k s).1 := by
    rw [h]; exact hl
  change (loop C o none (List.range' s.k o.maxMainIter) s).X = _ ∧ (loop C o none (List.range' s.k o.maxMainIter) s).Y = _ ∧
    (loop C o none (List.range' s.k o.maxMainIter) s).U = _ ∧ (loop C o none (List.range' s.k o.maxMainIter) s).rho = _ ∧
    (loop C o none (List.range' s.k o.maxMainIter) s).extra = _
  rw [e]
  exact hb

omit [AddCommGroup G] [Module ℝ G] in
theorem steps_Y (C : Cls E F G H) (o : Opts) (s : St E F G H) :
    (steps C o s).Y = (C.ystep s.rho (C.relax o.rlx (C.xstep s.rho s.X s.Y s.U s.extra).1 s.Y).1
      (C.xstep s.rho s.X s.Y s.U s.extra).1 s.Y s.U (C.xstep s.rho s.X s.Y s.U s.extra).2).1 := rfl

omit [AddCommGroup G] [Module ℝ G] in
theorem steps_U (C : Cls E F G H) (o : Opts) (s : St E F G H) :
    (steps C o s).U = C.ustep (C.relax o.rlx (C.xstep s.rho s.X s.Y s.U s.extra).1 s.Y).1 (steps C o s).Y s.U := rfl

end Sporco.Admm

namespace Sporco.Par.Cns

open Finset ComplexConjugate Sporco.Conv Sporco.Cnvrep Sporco.Dictlrn

/-! ## The rows that `solve` appends -/

section Rows
variable {M V : Type*}

/-- A sequence of `solve` calls; each has its own `MaxMainIter` and callback (both can be changed between calls). -/
noncomputable def run (step : ℕ → M → M) (ev : M → V) :
    List (ℕ × Option (ℕ → M → Bool)) → ℕ × M × List (ℕ × V) → ℕ × M × List (ℕ × V)
  | [], s => s
  | c :: cs, s => run step ev cs (solve step ev c.2 c.1 s)

theorem solveLoop_rows (f : M → M) (ev : M → V) (cb : Option (ℕ → M → Bool)) (n j : ℕ) (m : M) (i : ℕ)
    (st : List (ℕ × V)) :
    ∃ l, l ≤ n ∧ (0 < n → 0 < l) ∧ solveLoop (fun _ => f) ev cb (List.range' j n) (i, m, st) =
      (if l = 0 then i else j + l - 1, f^[l] m, st ++ (List.range l).map fun t => (j + t, ev (f^[t + 1] m))) := by
  induction n generalizing j m i st with
  | zero => exact ⟨0, le_rfl, fun h => absurd h (lt_irrefl _), by simp [solveLoop]⟩
  | succ n ih =>
    rw [List.range'_succ]
    have one : ∃ l, l ≤ n + 1 ∧ (0 < n + 1 → 0 < l) ∧ ((j, f m, st ++ [(j, ev (f m))]) : ℕ × M × List (ℕ × V)) =
      (if l = 0 then i else j + l - 1, f^[l] m, st ++ (List.range l).map fun t => (j + t, ev (f^[t + 1] m))) :=
      ⟨1, by omega, fun _ => one_pos, by simp⟩
    have more : ∃ l, l ≤ n + 1 ∧ (0 < n + 1 → 0 < l) ∧
        solveLoop (fun _ => f) ev cb (List.range' (j + 1) n) (j, f m, st ++ [(j, ev (f m))]) =
      (if l = 0 then i else j + l - 1, f^[l] m, st ++ (List.range l).map fun t => (j + t, ev (f^[t + 1] m))) := by
      obtain ⟨l, h1, -, h3⟩ := ih (j + 1) (f m) j (st ++ [(j, ev (f m))])
      refine ⟨l + 1, by omega, fun _ => Nat.succ_pos _, ?_⟩
      rw [h3]
      refine Prod.ext ?_ (Prod.ext rfl ?_)
      · simp only [Nat.succ_ne_zero, if_false]
        split_ifs <;> omega
      · simp only [List.append_assoc]
        congr 1
        rw [List.range_succ_eq_map, List.map_cons, List.map_map]
        refine congrArg₂ List.cons rfl (List.map_congr_left fun t _ => ?_)
        simp only [Function.comp]
        rw [show j + 1 + t = j + (t + 1) by omega]
        rfl
    unfold solveLoop
    cases cb with
    | none => exact more
    | some g =>
      simp only
      split_ifs
      · exact one
      · exact more

/-- The rows and the arrays after any sequence of `solve` calls: there is a row for every step, with the value of
`evaluate` right after that step. -/
theorem run_rows (f : M → M) (ev : M → V) (cs : List (ℕ × Option (ℕ → M → Bool))) (j : ℕ) (m : M) (st : List (ℕ × V)) :
    ∃ n, n ≤ (cs.map Prod.fst).sum ∧ (run (fun _ => f) ev cs (j, m, st)).2.1 = f^[n] m ∧
      ∃ num : ℕ → ℕ, ((∀ c ∈ cs, 0 < c.1) → (run (fun _ => f) ev cs (j, m, st)).1 = j + n ∧ ∀ t, num t = j + t) ∧
      (run (fun _ => f) ev cs (j, m, st)).2.2 = st ++ (List.range n).map fun t => (num t, ev (f^[t + 1] m)) := by
  induction cs generalizing j m st with
  | nil => exact ⟨0, le_rfl, rfl, fun t => j + t, fun _ => ⟨rfl, fun _ => rfl⟩, by simp [run]⟩
  | cons c cs ih =>
    obtain ⟨n, cb⟩ := c
    obtain ⟨l, h1, h2, h3⟩ := solveLoop_rows f ev cb n j m j st
    simp only [run, solve]
    rw [h3]
    simp only
    obtain ⟨n', g1, g2, num, g3, g4⟩ := ih ((if l = 0 then j else j + l - 1) + 1) (f^[l] m)
      (st ++ (List.range l).map fun t => (j + t, ev (f^[t + 1] m)))
    refine ⟨l + n', ?_, ?_, fun t => if t < l then j + t else num (t - l), ?_, ?_⟩
    · simp only [List.map_cons, List.sum_cons]; omega
    · rw [g2, ← Function.iterate_add_apply, add_comm]
    · intro hp
      have hn : 0 < n := hp (n, cb) (List.mem_cons_self ..)
      obtain ⟨q1, q2⟩ := g3 fun c hc => hp c (List.mem_cons_of_mem _ hc)
      have hl := h2 hn
      rw [if_neg hl.ne'] at q1 q2
      refine ⟨by rw [if_neg hl.ne', q1]; omega, fun t => ?_⟩
      simp only [q2]
      split_ifs <;> omega
    · rw [g4, List.append_assoc]
      congr 1
      rw [List.range_add, List.map_append, List.map_map]
      congr 1
      · refine List.map_congr_left fun t ht => ?_
        simp only [if_pos (List.mem_range.1 ht)]
      · refine List.map_congr_left fun t _ => ?_
        simp only [Function.comp]
        rw [if_neg (by omega : ¬ l + t < l), show l + t - l = t by omega, ← Function.iterate_add_apply,
          show t + 1 + l = l + t + 1 by omega]

end Rows

/-! ## Model -/

section Model
variable {d c κ m : ℕ} {N : Fin d → ℕ} [∀ k, NeZero (N k)] {a : Fin d}

/-- Coefficient maps of one signal. -/
abbrev Maps (m : ℕ) {d : ℕ} (N : Fin d → ℕ) : Type := Fin m → Grid N → ℝ

/-- The functions on the slices, for dictionaries with `c + 1` channels (a single-channel dictionary for a multi-channel
signal is refused, `prlcnscdl.py` 418-420): `fftn`, `ifftn` (real data); `cbpdn_setdict` (143-148); `cbpdn_xstep` (160-163);
`prox_l1` (185); `ccmod_setcoef` (208); `ccmod_xstep` (220); `mp_dprox` (466, the attribute `Pcn` of the dictionary
update). -/
noncomputable def opsL (P : PrmC d c κ m N a) :
    Ops (Maps m N) (Fin m → Half N a → ℂ) (Fin (c + 1) → Half N a → ℂ) (Coef (Fin (c + 1)) (Fin m) N)
      (Spec (Fin (c + 1)) (Fin m) N a) where
  fftZ z f := rfft N a (z f)
  ifftZ z f := irfft N a (z f)
  fftD V i f := rfft N a (part V i f)
  ifftD V := join fun i f => irfft N a (V i f)
  dts Df S f ξ := ∑ i, conj (Df i f ξ) * S i ξ
  solveZ Df rho b f ξ := freqSolve (fun i n => Df i n ξ) rho (fun n => b n ξ) none f
  proxL1 z t f := Prox.proxL1Arr (z f) fun _ => t
  zts Zf S i f ξ := conj (Zf f ξ) * S i ξ
  solveD Zf rho b i f ξ := Linalg.solvedbiSm (fun n => Zf n ξ) rho (fun n => b i n ξ) none f
  pcn := pcnC P.dsz P.dimC P.zm

/-- The object of class `ConvBPDN` that the parent constructor makes. -/
abbrev XObj (P : PrmC d c κ m N a) : Type :=
  Admm.St (Coef (Fin (κ + 1)) (Fin m) N) (Coef (Fin (κ + 1)) (Fin m) N) (Coef (Fin (κ + 1)) (Fin m) N)
    (Attr c (Fin (κ + 1)) (Fin m) P.ext N a)

variable (c κ m N a) in
/-- The object of class `ConvCnstrMOD_Consensus` that the parent constructor makes. -/
abbrev DObj : Type :=
  Admm.St (Admm.Blocks (Coef (Fin (c + 1)) (Fin m) N) (κ + 1)) (Coef (Fin (c + 1)) (Fin m) N)
    (Admm.Blocks (Coef (Fin (c + 1)) (Fin m) N) (κ + 1)) (Mod.AttrC (Fin (c + 1)) (κ + 1) (Fin m) N a)

/-- The globals set by the constructor (`prlcnscdl.py` 453-468) from the attributes of these objects. -/
noncomputable def cfgL (P : PrmC d c κ m N a) (x : XObj P) (t : DObj c κ m N a) :
    Cfg (κ + 1) (Fin (c + 1) → Half N a → ℂ) where
  lmbda := P.lmbda
  xrho := Admm.St.rho x
  drho := Admm.St.rho t
  xrlx := P.oX.rlx
  drlx := P.oD.rlx
  Sf k i := sigF a P.S i k

/-- The shared arrays set by the constructor (`prlcnscdl.py` 467-491): `Df`, `DSf`, `Y`, `U` of the sparse coding
object and `Y`, `U` of the dictionary update; the others are not initialised from anything, and contain zeros. -/
noncomputable def memL (P : PrmC d c κ m N a) (x : XObj P) (t : DObj c κ m N a) :
    Mem (κ + 1) (Maps m N) (Fin m → Half N a → ℂ) (Coef (Fin (c + 1)) (Fin m) N) (Spec (Fin (c + 1)) (Fin m) N a) where
  Df := (Admm.St.extra x).Df
  D_Y := Admm.St.Y t
  DSf := (Admm.St.extra x).DSf
  Z_X := 0
  Z_Y := part (Admm.St.Y x)
  Z_U := part (Admm.St.U x)
  Zf := 0
  ZSf := 0
  D_X := 0
  D_U := fun k => Admm.St.U t k

/-- The shared arrays of this class. -/
abbrev MemL (c κ m : ℕ) {d : ℕ} (N : Fin d → ℕ) [∀ k, NeZero (N k)] (a : Fin d) : Type :=
  Mem (κ + 1) (Maps m N) (Fin m → Half N a → ℂ) (Coef (Fin (c + 1)) (Fin m) N) (Spec (Fin (c + 1)) (Fin m) N a)

/-- `getdict` with its default argument (`prlcnscdl.py` 602-611). -/
noncomputable def getdict (P : PrmC d c κ m N a) (M : MemL c κ m N a) : Arr (d + 2 + 1) := cropC P.dsz M.D_Y

/-- `getcoef` (`prlcnscdl.py` 615-619). -/
def getcoef (M : MemL c κ m N a) : Coef (Fin (κ + 1)) (Fin m) N := join M.Z_Y

/-- `evaluate` (`prlcnscdl.py` 623-636): functional, data fidelity, l1 norm. -/
noncomputable def evaluate (P : PrmC d c κ m N a) (M : MemL c κ m N a) : ℝ × ℝ × ℝ :=
  let dfd := rfl2norm2 N a (fun p : (Fin (c + 1) × Fin (κ + 1)) × Half N a =>
    Linalg.inner (fun f => M.Df p.1.1 f p.2) (fun f => M.Zf p.1.2 f p.2) - sigF a P.S p.1.1 p.1.2 p.2) / 2
  let rl1 := ∑ k, ∑ f, ∑ p, |M.Z_Y k f p|
  (dfd + P.lmbda * rl1, dfd, rl1)

/-- `solve` with a process pool (`prlcnscdl.py` 516-598), called repeatedly: iteration number, arrays, statistics. -/
noncomputable def runL (P : PrmC d c κ m N a) (x : XObj P) (t : DObj c κ m N a)
    (sched : ℕ → List (Fin (κ + 1) × (MemL c κ m N a → MemL c κ m N a)))
    (cs : List (ℕ × Option (ℕ → MemL c κ m N a → Bool))) : ℕ × MemL c κ m N a × List (ℕ × ℝ × ℝ × ℝ) :=
  run (fun j => stepPar (opsL P) (cfgL P x t) (sched j)) (evaluate P) cs (0, memL P x t, [])

end Model

/-! ## Proofs -/

section Proofs
variable {d c κ m : ℕ} {N : Fin d → ℕ} [∀ k, NeZero (N k)] {a : Fin d}

/-- One step, for every schedule. -/
noncomputable def stepL (P : PrmC d c κ m N a) (x : XObj P) (t : DObj c κ m N a) : MemL c κ m N a → MemL c κ m N a :=
  serialStep (opsL P) (cfgL P x t)
    fun v => (opsL P).proxL1 v ((cfgL P x t).lmbda / (cfgL P x t).xrho)

theorem stepPar_eq (P : PrmC d c κ m N a) (x : XObj P) (t : DObj c κ m N a)
    (l : List (Fin (κ + 1) × (MemL c κ m N a → MemL c κ m N a)))
    (h : Interleaving (stepGroup (opsL P) (cfgL P x t)) l) :
    stepPar (opsL P) (cfgL P x t) l = stepL P x t :=
  funext fun M => C62_serial_partial _ _ _ (fun _ => rfl) l h M

/-- The value of `evaluate` when the transforms are those of the arrays. -/
theorem evaluate_eq (P : PrmC d c κ m N a) (hw : P.dsz.WF (d + 2) d) (hN : ∀ k : Fin d, P.dsz.extent k.val ≤ N k)
    (M : MemL c κ m N a) (hD : DFeas P M.D_Y) (h1 : M.Df = fun i f => rfft N a (part M.D_Y i f))
    (h2 : M.Zf = fun k f => rfft N a (M.Z_Y k f)) :
    let dfd := dataTerm (dictOf P.dsz (getdict P M) : Dict c (Fin m) P.ext) P.S (part (getcoef M))
    let rl1 := ∑ k, ∑ f, ∑ p, |part (getcoef M) k f p|
    evaluate P M = (dfd + P.lmbda * rl1, dfd, rl1) := by
  intro dfd rl1
  obtain ⟨-, -, h3⟩ := cropC_spec hw hN hD
  have e := dfd_eq (a := a) hN (dictOf P.dsz (getdict P M) : Dict c (Fin m) P.ext) P.S (getcoef M)
    (fun k f => rfft N a (part (getcoef M) k f)) fun _ _ => rfl
  unfold dictF at e
  have h3' : ∀ i f, pad N ((dictOf P.dsz (getdict P M) : Dict c (Fin m) P.ext) i f) = part M.D_Y i f := h3
  simp only [h3'] at e
  unfold evaluate
  rw [h1, h2]
  have e' : rfl2norm2 N a (fun p : (Fin (c + 1) × Fin (κ + 1)) × Half N a =>
    Linalg.inner (fun f => rfft N a (part M.D_Y p.1.1 f) p.2) (fun f => rfft N a (M.Z_Y p.1.2 f) p.2) -
      sigF a P.S p.1.1 p.1.2 p.2) / 2 = dfd := e
  simp only [e']
  rfl

/-- The dictionary after any number of steps is in the constraint set. -/
theorem stepL_feas (P : PrmC d c κ m N a) (hw : P.dsz.WF (d + 2) d) (hN : ∀ k : Fin d, P.dsz.extent k.val ≤ N k)
    (hz : P.zm = false ∨ d = 2) (x : XObj P) (t : DObj c κ m N a) (M : MemL c κ m N a) : DFeas P (stepL P x t M).D_Y :=
  pcnC_feasible hw hN hz _

theorem iter_feas {P : PrmC d c κ m N a} (hz : P.zm = false ∨ d = 2) {D0 D : Arr (d + 2 + 1)} {x : XObj P}
    {t : DObj c κ m N a} (hc : Constructed P D0 D .admm .cns x t) (k : ℕ) :
    DFeas P ((stepL P x t)^[k] (memL P x t)).D_Y := by
  cases k with
  | zero => exact hc.dfeas.1
  | succ k => rw [Function.iterate_succ_apply']; exact stepL_feas P hc.wf hc.fit hz x t _

theorem runL_eq (P : PrmC d c κ m N a) (x : XObj P) (t : DObj c κ m N a)
    (sched : ℕ → List (Fin (κ + 1) × (MemL c κ m N a → MemL c κ m N a)))
    (h : ∀ j, Interleaving (stepGroup (opsL P) (cfgL P x t)) (sched j))
    (cs : List (ℕ × Option (ℕ → MemL c κ m N a → Bool))) :
    runL P x t sched cs = run (fun _ => stepL P x t) (evaluate P) cs (0, memL P x t, []) := by
  unfold runL
  rw [show (fun j => stepPar (opsL P) (cfgL P x t) (sched j)) = fun _ => stepL P x t from
    funext fun j => stepPar_eq P x t (sched j) (h j)]

theorem iter_eq {M : Type*} (f : M → M) (mem : ℕ → M) (h : ∀ k, mem (k + 1) = f (mem k)) (k : ℕ) : mem k = f^[k] (mem 0) := by
  induction k with
  | zero => rfl
  | succ k ih => rw [Function.iterate_succ_apply', h, ih]

theorem stepSeq_eq (P : PrmC d c κ m N a) (x : XObj P) (t : DObj c κ m N a) :
    stepSeq (opsL P) (cfgL P x t) = stepL P x t := by
  have hl := interleaving_sequential (stepGroup (opsL P) (cfgL P x t)) (List.finRange (κ + 1))
    (List.nodup_finRange _) List.mem_finRange
  funext M
  rw [← C52_step _ _ _ hl, stepPar_eq P x t _ hl]

/-- **C76.** For every training set, initial dictionary, option value, number of processes, schedule of the worker
processes, sequence of `solve` calls and callbacks: each call appends one row for every step it makes; the values in a row
are the functional `(1/2) Σ ‖Σ d*x - s‖² + λ Σ |x|`, its first term, and the l1 norm, at the dictionary that `getdict`
and the coefficient maps that `getcoef` return right after that step; the steps are those of the loop that `nproc = 0`
selects; and the rows are numbered consecutively if `MaxMainIter` is positive. -/
theorem C76_recorded_partial (P : PrmC d c κ m N a) (hz : P.zm = false ∨ d = 2) (D0 D : Arr (d + 2 + 1)) (x0 : XObj P)
    (d0 : DObj c κ m N a) (hc : Constructed P D0 D .admm .cns x0 d0)
    (sched : ℕ → List (Fin (κ + 1) × (MemL c κ m N a → MemL c κ m N a)))
    (h : ∀ j, Interleaving (stepGroup (opsL P) (cfgL P x0 d0)) (sched j))
    (cs : List (ℕ × Option (ℕ → MemL c κ m N a → Bool))) (mem : ℕ → MemL c κ m N a) (h0 : mem 0 = memL P x0 d0)
    (hs : ∀ k, mem (k + 1) = stepSeq (opsL P) (cfgL P x0 d0) (mem k)) :
    let r := runL P x0 d0 sched cs
    r.2.1 = mem r.2.2.length ∧ r.2.2.length ≤ (cs.map Prod.fst).sum ∧
    (∀ k, Feasible d (d + P.dimC) P.dsz P.zm (getdict P (mem k)) ∧
      (getdict P (mem k)).sh = idx (fun k : Fin d => P.dsz.extent k.val) (c + 1) 1 m) ∧
    ∀ k (hk : k < r.2.2.length),
      let D : Dict c (Fin m) P.ext := dictOf P.dsz (getdict P (mem (k + 1)))
      let X := part (getcoef (mem (k + 1)))
      r.2.2[k].2 = (dataTerm D P.S X + P.lmbda * ∑ k, ∑ f, ∑ p, |X k f p|, dataTerm D P.S X, ∑ k, ∑ f, ∑ p, |X k f p|) ∧
      ((∀ c ∈ cs, 0 < c.1) → r.2.2[k].1 = k ∧ r.1 = r.2.2.length) := by
  intro r
  have hm : ∀ k, mem k = (stepL P x0 d0)^[k] (memL P x0 d0) := by
    intro k
    rw [← h0]
    exact iter_eq _ mem (fun k => by rw [hs, stepSeq_eq]) k
  obtain ⟨n, g1, g2, num, g3, g4⟩ := run_rows (stepL P x0 d0) (evaluate P) cs 0 (memL P x0 d0) []
  rw [← runL_eq P x0 d0 sched h cs] at g2 g3 g4
  rw [List.nil_append] at g4
  have hlen : r.2.2.length = n := by rw [show r.2.2 = _ from g4]; simp
  refine ⟨by rw [hlen, hm]; exact g2, by rw [hlen]; exact g1, fun k => ?_, fun k hk => ?_⟩
  · have := cropC_spec hc.wf hc.fit (iter_feas hz hc k)
    rw [← hm k] at this
    exact ⟨this.1, this.2.1⟩
  · intro D X
    have hr : r.2.2[k] = (num k, evaluate P ((stepL P x0 d0)^[k + 1] (memL P x0 d0))) := by
      have e : r.2.2[k]? = some (num k, evaluate P ((stepL P x0 d0)^[k + 1] (memL P x0 d0))) := by
        rw [show r.2.2 = _ from g4, List.getElem?_map, List.getElem?_range (by rw [← hlen]; exact hk)]
        rfl
      rw [List.getElem?_eq_getElem hk] at e
      exact Option.some.inj e
    rw [hr]
    refine ⟨?_, fun hp => ⟨?_, ?_⟩⟩
    · have hf := iter_feas hz hc (k + 1)
      have := evaluate_eq P hc.wf hc.fit ((stepL P x0 d0)^[k + 1] (memL P x0 d0)) hf
        (by rw [Function.iterate_succ_apply']; rfl) (by rw [Function.iterate_succ_apply']; rfl)
      rw [← hm (k + 1)] at this ⊢
      exact this
    · have := (g3 hp).2 k
      rw [this]; simp
    · have := (g3 hp).1
      rw [hlen]
      exact this.trans (zero_add n)

/-! ## The same objects in the sequential class -/

/-- The arrays are those of the two objects of the sequential class. -/
structure Same (P : PrmC d c κ m N a) (x0 : XObj P) (d0 : DObj c κ m N a) (M : MemL c κ m N a) (x : XObj P)
    (t : DObj c κ m N a) : Prop where
  Df : M.Df = (Admm.St.extra x).Df
  DSf : M.DSf = (Admm.St.extra x).DSf
  cc : (Admm.St.extra x).cc = none
  ZY : M.Z_Y = part (Admm.St.Y x)
  ZU : M.Z_U = part (Admm.St.U x)
  DY : M.D_Y = Admm.St.Y t
  DU : ∀ k, M.D_U k = Admm.St.U t k
  rx : Admm.St.rho x = Admm.St.rho x0
  rd : Admm.St.rho t = Admm.St.rho d0

/-- The options with which the sequential class makes one iteration of each solver with fixed penalty parameters, and does
not use options that the parallel class ignores. -/
structure Plain (P : PrmC d c κ m N a) : Prop where
  itX : P.oX.maxMainIter = 1
  itD : P.oD.maxMainIter = 1
  arX : P.oX.autoRho = false
  arD : P.oD.autoRho = false
  wgt : ∀ i, P.w i = 1
  nn : P.q.nonNeg = false
  nb : P.q.noBndry = false
  hm : P.q.caches c = false
  ret : P.retX = false

theorem relax_eq {E : Type*} [NormedAddCommGroup E] [NormedSpace ℝ E] (r : ℝ) (X Y : E) :
    (Admm.Equal.relaxAX r X Y).1 = r • X + (1 - r) • Y := by
  unfold Admm.Equal.relaxAX
  by_cases h : r = 1
  · rw [if_pos h, h]; simp
  · rw [if_neg h]

theorem relaxC_eq {E : Type*} [NormedAddCommGroup E] [InnerProductSpace ℝ E] {Nb : ℕ} (r : ℝ) (X : Admm.Blocks E Nb) (Y : E)
    (k : Fin Nb) : (Admm.Consensus.relaxAX r X Y).1 k = r • X k + (1 - r) • Y := by
  unfold Admm.Consensus.relaxAX
  by_cases h : r = 1
  · rw [if_pos h, h]; simp
  · rw [if_neg h]; rfl

theorem xstep_part {c' : ℕ} {K M : Type*} [Fintype K] [Fintype M] {Nd : Fin d → ℕ} (rho : ℝ) (X Y U : Coef K M N)
    (h : Attr c' K M Nd N a) (hc : h.cc = none) (k : K) (f : M) :
    part (Conv.xstep rho X Y U h).1 k f = irfft N a fun ξ => freqSolve (fun i n => h.Df i n ξ) rho
      (fun n => h.DSf k n ξ + rho * rfft N a (part Y k n - part U k n) ξ) none f := by
  change irfft N a (fun ξ => freqSolve (fun i n => h.Df i n ξ) rho
      (fun n => h.DSf k n ξ + rho * rfft N a (part (Y - U) k n) ξ) (h.cc.map fun f n => f n ξ) f) = _
  rw [hc]
  rfl

theorem solveZ_eq (P : PrmC d c κ m N a) (Df : Spec (Fin (c + 1)) (Fin m) N a) (rho : ℝ) (b : Fin m → Half N a → ℂ)
    (y u : Maps m N) (f : Fin m) : (opsL P).ifftZ ((opsL P).solveZ Df rho (b + rho • (opsL P).fftZ (y - u))) f =
      irfft N a fun ξ => freqSolve (fun i n => Df i n ξ) rho (fun n => b n ξ + rho * rfft N a (y n - u n) ξ) none f := by
  change irfft N a (fun ξ => freqSolve (fun i n => Df i n ξ) rho (fun n => b n ξ + rho • rfft N a (y n - u n) ξ) none f) = _
  simp only [Complex.real_smul]

theorem solveD_eq (P : PrmC d c κ m N a) (Zf : Fin m → Half N a → ℂ) (rho : ℝ) (b : Spec (Fin (c + 1)) (Fin m) N a)
    (Y U : Coef (Fin (c + 1)) (Fin m) N) (i : Fin (c + 1)) (f : Fin m) :
    part ((opsL P).ifftD ((opsL P).solveD Zf rho (b + rho • (opsL P).fftD (Y - U)))) i f =
      irfft N a fun ξ => Linalg.solvedbiSm (fun n => Zf n ξ) rho (fun n => b i n ξ + rho * rfft N a (part (Y - U) i n) ξ) none f := by
  change irfft N a (fun ξ => Linalg.solvedbiSm (fun n => Zf n ξ) rho (fun n => b i n ξ + rho • rfft N a (part (Y - U) i n) ξ)
    none f) = _
  simp only [Complex.real_smul]

theorem eq_of_part {A B : Type*} [Fintype A] [Fintype B] {x y : EuclideanSpace ℝ (A × B × Grid N)}
    (h : ∀ i j, part x i j = part y i j) : x = y := by
  rw [← join_part x, ← join_part y]
  congr 1
  funext i j
  exact h i j

/-- The sparse coding object after one iteration. -/
theorem x_once {P : PrmC d c κ m N a} (hp : Plain P) {x0 : XObj P} {d0 : DObj c κ m N a}
    {M : MemL c κ m N a} {x : XObj P} {t : DObj c κ m N a} (h : Same P x0 d0 M x t) :
    (stepL P x0 d0 M).Z_Y = part (Admm.solve (clsXA P) P.oX none x).Y ∧
    (stepL P x0 d0 M).Z_U = part (Admm.solve (clsXA P) P.oX none x).U ∧
    (Admm.solve (clsXA P) P.oX none x).rho = x0.rho := by
  obtain ⟨-, hY, hU, hr, -⟩ := Admm.solve_once (clsXA P) P.oX hp.itX hp.arX x
  have eX : ∀ k f, part ((clsXA P).xstep (Admm.St.rho x) (Admm.St.X x) (Admm.St.Y x) (Admm.St.U x) (Admm.St.extra x)).1 k f =
      (opsL P).ifftZ ((opsL P).solveZ M.Df (Admm.St.rho x0) (M.DSf k + (Admm.St.rho x0) •
        (opsL P).fftZ (M.Z_Y k - M.Z_U k))) f := by
    intro k f
    rw [solveZ_eq, h.Df, h.DSf, h.ZY, h.ZU, ← h.rx]
    exact xstep_part _ (Admm.St.X x) _ _ _ h.cc k f
  rw [hY, hU]
  rw [Admm.steps_Y, Admm.steps_U, Admm.steps_Y]
  generalize ((clsXA P).xstep x.rho x.X x.Y x.U x.extra) = xn at eX ⊢
  have eAX : ∀ k, part ((clsXA P).relax P.oX.rlx xn.1 x.Y).1 k = (stepL P x0 d0 M).Z_X k := by
    intro k
    have e1 : ((clsXA P).relax P.oX.rlx xn.1 x.Y).1 = P.oX.rlx • xn.1 + (1 - P.oX.rlx) • x.Y := relax_eq _ _ _
    have e2 : part xn.1 k = _ := funext (eX k)
    have e3 : part x.Y k = M.Z_Y k := by rw [h.ZY]
    rw [e1]
    change P.oX.rlx • part xn.1 k + (1 - P.oX.rlx) • part x.Y k = _
    rw [e2, e3]
    rfl
  generalize ((clsXA P).relax P.oX.rlx xn.1 x.Y).1 = ax at eAX ⊢
  have eY : ∀ k, part ((clsXA P).ystep x.rho ax xn.1 x.Y x.U xn.2).1 k = (stepL P x0 d0 M).Z_Y k := by
    intro k
    funext f p
    change gystep P.q _ (Prox.proxL1Arr (ax + x.U).ofLp fun i => P.lmbda / x.rho * P.w i) (k, f, p) = _
    unfold gystep
    rw [hp.nn, hp.nb]
    simp only [Bool.false_eq_true, if_false, Prox.proxL1Arr, hp.wgt, mul_one]
    have e1 : (ax + x.U).ofLp (k, f, p) = ((stepL P x0 d0 M).Z_X k + M.Z_U k) f p := by
      rw [← eAX k, h.ZU]; rfl
    have e2 : x.rho = Admm.St.rho x0 := h.rx
    rw [e1, e2]
    rfl
  refine ⟨funext fun k => (eY k).symm, funext fun k => ?_, hr.trans h.rx⟩
  have e1 : (clsXA P).ustep ax ((clsXA P).ystep x.rho ax xn.1 x.Y x.U xn.2).1 x.U =
    x.U + (ax - ((clsXA P).ystep x.rho ax xn.1 x.Y x.U xn.2).1) := rfl
  rw [e1]
  change _ = part x.U k + (part ax k - part ((clsXA P).ystep x.rho ax xn.1 x.Y x.U xn.2).1 k)
  rw [eY k, eAX k, show part x.U k = M.Z_U k by rw [h.ZU]]
  rfl

theorem xstepC_part (P : PrmC d c κ m N a) (Z : Fin (κ + 1) → Maps m N) (rho : ℝ)
    (X U : Admm.Blocks (Coef (Fin (c + 1)) (Fin m) N) (κ + 1)) (Y : Coef (Fin (c + 1)) (Fin m) N)
    (Xf : Fin (κ + 1) → Spec (Fin (c + 1)) (Fin m) N a) (k : Fin (κ + 1)) :
    (Mod.xstepC rho X Y U (Mod.setcoefC P.S Z Xf)).1 k = (opsL P).ifftD ((opsL P).solveD ((opsL P).fftZ (Z k)) rho
      ((opsL P).zts ((opsL P).fftZ (Z k)) (fun i => sigF a P.S i k) + rho • (opsL P).fftD (Y - U k))) := by
  refine eq_of_part fun i f => ?_
  rw [solveD_eq]
  rfl

/-- The dictionary update object after one iteration with the new coefficient maps. -/
theorem d_once {P : PrmC d c κ m N a} (hp : Plain P) {x0 : XObj P} {d0 : DObj c κ m N a}
    {M : MemL c κ m N a} {x : XObj P} {t : DObj c κ m N a} (h : Same P x0 d0 M x t) (s : DObj c κ m N a)
    (Z : Coef (Fin (κ + 1)) (Fin m) N) (hZ : (stepL P x0 d0 M).Z_Y = part Z) (e1 : s.Y = t.Y) (e2 : s.U = t.U)
    (e3 : s.rho = t.rho) (e4 : ∃ Xf, s.extra = Mod.setcoefC P.S (part Z) Xf) :
    (stepL P x0 d0 M).D_Y = (Admm.solve (Mod.clsCns (a := a) (pcnC P.dsz P.dimC P.zm) P.S P.fD P.gD) P.oD none s).Y ∧
    (∀ k, (stepL P x0 d0 M).D_U k = (Admm.solve (Mod.clsCns (a := a) (pcnC P.dsz P.dimC P.zm) P.S P.fD P.gD) P.oD none s).U k) ∧
    (Admm.solve (Mod.clsCns (a := a) (pcnC P.dsz P.dimC P.zm) P.S P.fD P.gD) P.oD none s).rho = d0.rho := by
  obtain ⟨-, hY, hU, hr, -⟩ := Admm.solve_once (Mod.clsCns (a := a) (pcnC P.dsz P.dimC P.zm) P.S P.fD P.gD) P.oD hp.itD hp.arD s
  obtain ⟨Xf, e4⟩ := e4
  have hrd : s.rho = d0.rho := e3.trans h.rd
  have eX : ∀ k, ((Mod.clsCns (a := a) (pcnC P.dsz P.dimC P.zm) P.S P.fD P.gD).xstep s.rho s.X s.Y s.U s.extra).1 k =
      (opsL P).ifftD ((opsL P).solveD ((opsL P).fftZ ((stepL P x0 d0 M).Z_Y k)) d0.rho
      ((opsL P).zts ((opsL P).fftZ ((stepL P x0 d0 M).Z_Y k)) (fun i => sigF a P.S i k) +
        d0.rho • (opsL P).fftD (M.D_Y - M.D_U k))) := by
    intro k
    rw [hZ, h.DY, h.DU k, ← e1, ← e2, e4, ← hrd]
    exact xstepC_part P (part Z) _ s.X _ _ _ k
  rw [hY, hU, Admm.steps_U, Admm.steps_Y]
  generalize (Mod.clsCns (a := a) (pcnC P.dsz P.dimC P.zm) P.S P.fD P.gD).xstep s.rho s.X s.Y s.U s.extra = xn at eX ⊢
  have eAX : ∀ k, ((Mod.clsCns (a := a) (pcnC P.dsz P.dimC P.zm) P.S P.fD P.gD).relax P.oD.rlx xn.1 s.Y).1 k =
      (stepL P x0 d0 M).D_X k := by
    intro k
    refine (relaxC_eq _ _ _ k).trans ?_
    rw [eX k, e1, ← h.DY]
    rfl
  generalize ((Mod.clsCns (a := a) (pcnC P.dsz P.dimC P.zm) P.S P.fD P.gD).relax P.oD.rlx xn.1 s.Y).1 = ax at eAX ⊢
  have eY : ((Mod.clsCns (a := a) (pcnC P.dsz P.dimC P.zm) P.S P.fD P.gD).ystep s.rho ax xn.1 s.Y s.U xn.2).1 =
      (stepL P x0 d0 M).D_Y := by
    change pcnC P.dsz P.dimC P.zm (((κ + 1 : ℕ) : ℝ)⁻¹ • ∑ k, (ax k + s.U k)) = _
    simp only [eAX, e2, ← h.DU]
    rfl
  rw [eY]
  refine ⟨rfl, fun k => ?_, hr.trans hrd⟩
  change _ = s.U k + (ax k - (stepL P x0 d0 M).D_Y)
  rw [eAX, e2, ← h.DU]
  rfl

theorem same_step {P : PrmC d c κ m N a} (hp : Plain P) (hw : P.dsz.WF (d + 2) d)
    (hN : ∀ k : Fin d, P.dsz.extent k.val ≤ N k) (hz : P.zm = false ∨ d = 2) {x0 : XObj P} {d0 : DObj c κ m N a}
    {M : MemL c κ m N a} {x : XObj P} {t : DObj c κ m N a} (h : Same P x0 d0 M x t) :
    Same P x0 d0 (stepL P x0 d0 M) ((xC P .admm).setdict ((dC P .cns).getdict ((dC P .cns).solve ((dC P .cns).setcoef
      ((xC P .admm).getcoef ((xC P .admm).solve x)) t))) ((xC P .admm).solve x))
      ((dC P .cns).solve ((dC P .cns).setcoef ((xC P .admm).getcoef ((xC P .admm).solve x)) t)) := by
  obtain ⟨a1, a2, a3⟩ := x_once hp h
  have hg : (xC P .admm).getcoef ((xC P .admm).solve x) = (Admm.solve (clsXA P) P.oX none x).Y := by
    change (if P.retX then _ else _) = _
    rw [hp.ret]; rfl
  rw [hg]
  obtain ⟨b1, b2, b3⟩ := d_once hp h ((dC P .cns).setcoef (Admm.solve (clsXA P) P.oX none x).Y t)
    (Admm.solve (clsXA P) P.oX none x).Y a1 rfl rfl rfl ⟨_, rfl⟩
  have b1' : (stepL P x0 d0 M).D_Y = Admm.St.Y ((dC P .cns).solve ((dC P .cns).setcoef
    (Admm.solve (clsXA P) P.oX none x).Y t)) := b1
  have hfe : DFeas P (Admm.St.Y ((dC P .cns).solve ((dC P .cns).setcoef (Admm.solve (clsXA P) P.oX none x).Y t))) := by
    rw [← b1']; exact stepL_feas P hw hN hz x0 d0 M
  obtain ⟨-, -, h3⟩ := cropC_spec hw hN hfe
  have hDf : (stepL P x0 d0 M).Df = dictF a (dictOf P.dsz ((dC P .cns).getdict ((dC P .cns).solve ((dC P .cns).setcoef
      (Admm.solve (clsXA P) P.oX none x).Y t))) : Dict c (Fin m) P.ext) := by
    funext i f
    change rfft N a (part (stepL P x0 d0 M).D_Y i f) = rfft N a (pad N _)
    rw [b1']
    exact congrArg (rfft N a) (h3 i f).symm
  refine ⟨hDf, ?_, ?_, a1, a2, b1', b2, a3, b3⟩
  · change (fun k => (opsL P).dts (stepL P x0 d0 M).Df (fun i => sigF a P.S i k)) = _
    rw [hDf]
    rfl
  · change (if P.q.caches c then some _ else none) = none
    rw [hp.hm]
    rfl

/-- **C62 for the objects.** With `MaxMainIter` 1 and no automatic penalty parameter in both parts of the sequential class,
unit `L1Weight`, and without `NonNegCoef`, `NoBndryCross`, `HighMemSolve` (of a single-channel dictionary) and `ReturnX`:
for every training set, initial dictionary, relaxation and penalty parameters, number of processes and schedule, the
coefficient maps and the dictionary that the parallel class returns after `n` steps are those that the sequential class with
consensus dictionary update returns after `n` iterations, and the other variables that either class keeps from one iteration to
the next agree too. -/
theorem C62_objects_partial (P : PrmC d c κ m N a) (hp : Plain P) (hz : P.zm = false ∨ d = 2) (clock : ℕ → ℝ)
    (D0 D : Arr (d + 2 + 1)) (x0 : XObj P) (d0 : DObj c κ m N a) (hc : Constructed P D0 D .admm .cns x0 d0)
    (xs : ℕ → XObj P) (ds : ℕ → DObj c κ m N a) (ha : Alternates (envC P .admm .cns clock) x0 d0 xs ds)
    (sched : ℕ → List (Fin (κ + 1) × (MemL c κ m N a → MemL c κ m N a)))
    (h : ∀ j, Interleaving (stepGroup (opsL P) (cfgL P x0 d0)) (sched j)) (mem : ℕ → MemL c κ m N a)
    (h0 : mem 0 = memL P x0 d0) (hs : ∀ k, mem (k + 1) = stepPar (opsL P) (cfgL P x0 d0) (sched k) (mem k)) (k : ℕ) :
    getcoef (mem (k + 1)) = (xC P .admm).getcoef (xs k) ∧ getdict P (mem (k + 1)) = (dC P .cns).getdict (ds k) ∧
      (mem (k + 1)).Z_U = part (xs k).U ∧ (mem (k + 1)).D_Y = (ds k).Y ∧ (∀ i, (mem (k + 1)).D_U i = (ds k).U i) := by
  have hst : ∀ k, mem (k + 1) = stepL P x0 d0 (mem k) := fun k => by rw [hs, stepPar_eq P x0 d0 _ (h k)]
  have hinit : Same P x0 d0 (mem 0) x0 d0 := by
    rw [h0]
    refine ⟨rfl, rfl, ?_, rfl, rfl, rfl, fun _ => rfl, rfl, rfl⟩
    obtain ⟨-, -, Xf, e⟩ := hc.xstep
    have e' : (Admm.St.extra x0).cc = if P.q.caches c then some _ else none := congrArg (fun p => p.2.cc) e
    rw [e', hp.hm]
    rfl
  have key : ∀ k, Same P x0 d0 (mem (k + 1)) ((xC P .admm).setdict ((dC P .cns).getdict (ds k)) (xs k)) (ds k) := by
    intro k
    induction k with
    | zero =>
      have e1 : xs 0 = (xC P .admm).solve x0 := ha.x_first
      have e2 : ds 0 = (dC P .cns).solve ((dC P .cns).setcoef ((xC P .admm).getcoef (xs 0)) d0) := ha.d_first
      rw [hst 0, e2, e1]
      exact same_step hp hc.wf hc.fit hz hinit
    | succ k ih =>
      have e1 : xs (k + 1) = (xC P .admm).solve ((xC P .admm).setdict ((dC P .cns).getdict (ds k)) (xs k)) := ha.x_next k
      have e2 : ds (k + 1) = (dC P .cns).solve ((dC P .cns).setcoef ((xC P .admm).getcoef (xs (k + 1))) (ds k)) := ha.d_next k
      rw [hst (k + 1), e2, e1]
      exact same_step hp hc.wf hc.fit hz ih
  have hk := key k
  refine ⟨?_, ?_, hk.ZU, hk.DY, hk.DU⟩
  · have hg : (xC P .admm).getcoef (xs k) = (xs k).Y := by
      change (if P.retX then _ else _) = _
      rw [hp.ret]; rfl
    rw [hg]
    unfold getcoef
    rw [hk.ZY]
    rfl
  · change cropC P.dsz (mem (k + 1)).D_Y = cropC P.dsz (Admm.St.Y (ds k))
    rw [hk.DY]

end Proofs

/-! ## Examples -/

section Examples
open Sporco.Dictlrn Sporco.Dictlrn.ConvEx

/-- Two colour images, five zero-mean filters of two sizes, relaxation 1.8, one iteration of each step. -/
noncomputable def prmL : PrmC 2 1 1 5 G4 0 :=
  { prm4 true with
    oX := { (prm4 true).oX with maxMainIter := 1, autoRho := false }
    oD := { (prm4 true).oD with maxMainIter := 1, autoRho := false } }

theorem prmL_plain : Plain prmL := ⟨rfl, rfl, rfl, rfl, fun _ => rfl, rfl, rfl, rfl, rfl⟩

/-- The hypotheses of `C76_recorded_partial` and `C62_objects_partial` are met. -/
example : Plain prmL ∧ (prmL.zm = false ∨ (2 : ℕ) = 2) ∧ ∃ (D0 D : Arr (2 + 2 + 1)) (x0 : XObj prmL) (d0 : DObj 1 1 5 G4 0)
    (sched : ℕ → List (Fin 2 × (MemL 1 1 5 G4 0 → MemL 1 1 5 G4 0))), Constructed prmL D0 D .admm .cns x0 d0 ∧
    ∀ j, Interleaving (stepGroup (opsL prmL) (cfgL prmL x0 d0)) (sched j) := by
  obtain ⟨D, x0, d0, h⟩ := constructed_exists prmL (prm4_wf true) (fun k => by
      change (prm4 true).dsz.extent k.val ≤ 4
      rw [prm4_extent]; exact Nat.le_succ 3)
    ⟨idx (fun _ => 3) 2 1 5, fun p => p 0 + 2 * p 1 * p 4⟩ ⟨fun _ => 3, rfl, fun k => (prm4_extent true k).le⟩ .admm .cns
  exact ⟨prmL_plain, .inr rfl, _, D, x0, d0, fun _ => sequential _ (List.finRange 2), h, fun _ =>
    interleaving_sequential _ _ (List.nodup_finRange _) List.mem_finRange⟩

end Examples

end Sporco.Par.Cns
