import Verif.Par.Interleave
import Mathlib.Algebra.Module.Basic
import Mathlib.Algebra.BigOperators.Group.Finset.Basic
import Mathlib.Data.Real.Basic
import Mathlib.Data.Fintype.Pi
import Mathlib.Tactic.FinCases
import Verif.Prox.Props

/-!
# Parallel consensus dictionary learning (C52)

`dictlrn/prlcnscdl.py`: the functions on the shared arrays, `step` and `solve` of
`ConvBPDNDictLearn_Consensus` and `ConvBPDNMaskDcplDictLearn_Consensus`.  The numerical
functions (transforms, linear solvers, proximal maps, the constraint set projection) are
parameters: nothing here depends on what they compute.
-/

set_option autoImplicit false

namespace Sporco.Par

open Function

/-! ## Temporary storage

A statement such as `mp_Z_U[k] += ...` reads arrays, builds temporaries that belong to the
process, and stores the result element by element. -/

/-- Extend a division of the memory by private storage of each task. -/
def Parts.withTemps {ι Mem T : Type*} (P : Parts ι Mem) : Parts ι (Mem × (ι → T)) where
  eqv p m m' := P.eqv p m.1 m'.1 ∧ ∀ k, p = some k → m.2 k = m'.2 k
  equiv p := ⟨fun _ => ⟨(P.equiv p).refl _, fun _ _ => rfl⟩,
    fun h => ⟨(P.equiv p).symm h.1, fun k hk => (h.2 k hk).symm⟩,
    fun h h' => ⟨(P.equiv p).trans h.1 h'.1, fun k hk => (h.2 k hk).trans (h'.2 k hk)⟩⟩
  ext m m' h := Prod.ext (P.ext _ _ fun p => (h p).1) (funext fun k => (h (some k)).2 k rfl)

/-- Any refinement of tasks into operations on their own part and private storage: every
merge has the effect of the loop over the tasks. -/
theorem refined_eq_loop {ι Mem T : Type*} [DecidableEq ι] (P : Parts ι Mem) (task : ι → Mem → Mem)
    (progs : ι → List (Mem × (ι → T) → Mem × (ι → T)))
    (hloc : ∀ k, ∀ op ∈ progs k, P.withTemps.Local k op)
    (heff : ∀ k m t, (exec (progs k) (m, t)).1 = task k m)
    (ks : List ι) (hnd : ks.Nodup) (hall : ∀ k, k ∈ ks)
    (l : List (ι × (Mem × (ι → T) → Mem × (ι → T)))) (h : Interleaving progs l) (m : Mem) (t : ι → T) :
    (execL l (m, t)).1 = ks.foldl (fun m k => task k m) m := by
  rw [P.withTemps.interleaving_eq_loop progs hloc ks hnd hall l h]
  clear h hall hnd
  induction ks generalizing m t with
  | nil => rfl
  | cons a ks ih =>
    rw [List.foldl_cons, List.foldl_cons]
    have e : exec (progs a) (m, t) = (task a m, (exec (progs a) (m, t)).2) := Prod.ext (heff a m t) rfl
    rw [e, ih]

/-! ## Model: `ConvBPDNDictLearn_Consensus` -/

namespace Cns

/-- The numerical functions used on the slices.  `A`, `Af`: coefficient maps of one signal and
their transforms; `Sg`: transform of one signal; `D`, `Fd`: dictionaries and their transforms. -/
structure Ops (A Af Sg D Fd : Type*) where
  /-- `fftn` of coefficient maps -/
  fftZ : A → Af
  /-- `ifftn` of coefficient maps -/
  ifftZ : Af → A
  /-- `fftn` of dictionaries -/
  fftD : D → Fd
  /-- `ifftn` of dictionaries -/
  ifftD : Fd → D
  /-- `conj(Df) * Sf`, summed over channels for multi-channel dictionaries (144-148) -/
  dts : Fd → Sg → Af
  /-- `solvedbi_sm` or `solvemdbi_ism` (160-163) -/
  solveZ : Fd → ℝ → Af → Af
  /-- `prox_l1` -/
  proxL1 : A → ℝ → A
  /-- `conj(Zf) * Sf` (208) -/
  zts : Af → Sg → Fd
  /-- `solvedbi_sm` (220) -/
  solveD : Af → ℝ → Fd → Fd
  /-- `mp_dprox`, the constraint set projection -/
  pcn : D → D

/-- Module globals that do not change during `solve`. -/
structure Cfg (K : ℕ) (Sg : Type*) where
  lmbda : ℝ
  xrho : ℝ
  drho : ℝ
  xrlx : ℝ
  drlx : ℝ
  Sf : Fin K → Sg

/-- The shared arrays (`prlcnscdl.py` 49-59); those with the signal index on axis 0 are functions
of it. -/
@[ext] structure Mem (K : ℕ) (A Af D Fd : Type*) where
  Df : Fd
  D_Y : D
  DSf : Fin K → Af
  Z_X : Fin K → A
  Z_Y : Fin K → A
  Z_U : Fin K → A
  Zf : Fin K → Af
  ZSf : Fin K → Fd
  D_X : Fin K → D
  D_U : Fin K → D

section
variable {K : ℕ} {A Af Sg D Fd : Type*} [AddCommGroup A] [Module ℝ A] [AddCommGroup Af] [Module ℝ Af]
  [AddCommGroup D] [Module ℝ D] [AddCommGroup Fd] [Module ℝ Fd]
variable (O : Ops A Af Sg D Fd) (g : Cfg K Sg)

/-- `cbpdn_xstep` (`prlcnscdl.py` 152-164) -/
def cbpdnXstep (k : Fin K) (m : Mem K A Af D Fd) : Mem K A Af D Fd :=
  { m with Z_X := update m.Z_X k (
        O.ifftZ (O.solveZ m.Df g.xrho (m.DSf k + g.xrho • O.fftZ (m.Z_Y k - m.Z_U k)))) }

/-- `cbpdn_relax` (`prlcnscdl.py` 168-174) -/
def cbpdnRelax (k : Fin K) (m : Mem K A Af D Fd) : Mem K A Af D Fd :=
  { m with Z_X := update m.Z_X k (g.xrlx • m.Z_X k + (1 - g.xrlx) • m.Z_Y k) }

/-- `cbpdn_ystep` (`prlcnscdl.py` 178-185) -/
noncomputable def cbpdnYstep (k : Fin K) (m : Mem K A Af D Fd) : Mem K A Af D Fd :=
  { m with Z_Y := update m.Z_Y k (O.proxL1 (m.Z_X k + m.Z_U k) (g.lmbda / g.xrho)) }

/-- `cbpdn_ustep` (`prlcnscdl.py` 189-195) -/
def cbpdnUstep (k : Fin K) (m : Mem K A Af D Fd) : Mem K A Af D Fd :=
  { m with Z_U := update m.Z_U k (m.Z_U k + (m.Z_X k - m.Z_Y k)) }

/-- `ccmod_setcoef` (`prlcnscdl.py` 207), first statement -/
def ccmodSetcoef1 (k : Fin K) (m : Mem K A Af D Fd) : Mem K A Af D Fd :=
  { m with Zf := update m.Zf k (O.fftZ (m.Z_Y k)) }

/-- `ccmod_setcoef` (`prlcnscdl.py` 208), second statement -/
def ccmodSetcoef2 (k : Fin K) (m : Mem K A Af D Fd) : Mem K A Af D Fd :=
  { m with ZSf := update m.ZSf k (O.zts (m.Zf k) (g.Sf k)) }

/-- `ccmod_xstep` (`prlcnscdl.py` 212-221) -/
def ccmodXstep (k : Fin K) (m : Mem K A Af D Fd) : Mem K A Af D Fd :=
  { m with D_X := update m.D_X k (
        O.ifftD (O.solveD (m.Zf k) g.drho (m.ZSf k + g.drho • O.fftD (m.D_Y - m.D_U k)))) }

/-- `ccmod_relax` (`prlcnscdl.py` 225-231) -/
def ccmodRelax (k : Fin K) (m : Mem K A Af D Fd) : Mem K A Af D Fd :=
  { m with D_X := update m.D_X k (g.drlx • m.D_X k + (1 - g.drlx) • m.D_Y) }

open Classical in
/-- The statements of `step_group(k)` in program order (`prlcnscdl.py` 256-269). -/
noncomputable def stepGroup (k : Fin K) : List (Mem K A Af D Fd → Mem K A Af D Fd) :=
  [cbpdnXstep O g k] ++ (if g.xrlx ≠ 1 then [cbpdnRelax g k] else []) ++
  [cbpdnYstep O g k, cbpdnUstep k, ccmodSetcoef1 O k, ccmodSetcoef2 O g k, ccmodXstep O g k] ++
  (if g.drlx ≠ 1 then [ccmodRelax g k] else [])

/-- `ccmod_ystep` (`prlcnscdl.py` 235-242) -/
noncomputable def ccmodYstep (m : Mem K A Af D Fd) : Mem K A Af D Fd :=
  { m with D_Y := O.pcn ((K : ℝ)⁻¹ • ∑ k, (m.D_X k + m.D_U k)) }

/-- `ccmod_ustep` (`prlcnscdl.py` 246-252) -/
def ccmodUstep (m : Mem K A Af D Fd) : Mem K A Af D Fd :=
  { m with D_U := fun k => m.D_U k + (m.D_X k - m.D_Y) }

/-- `cbpdn_setdict` (`prlcnscdl.py` 134-148) -/
def cbpdnSetdict (m : Mem K A Af D Fd) : Mem K A Af D Fd :=
  let f := O.fftD m.D_Y
  { m with Df := f, DSf := fun k => O.dts f (g.Sf k) }

/-- The part of `step` after the tasks have finished (`prlcnscdl.py` 510-512); `pool.map` returns
when all tasks have finished. -/
noncomputable def barrier (m : Mem K A Af D Fd) : Mem K A Af D Fd :=
  cbpdnSetdict O g (ccmodUstep (ccmodYstep O m))

/-- `step` with `nproc = 0` (`prlcnscdl.py` 504-506, 510-512). -/
noncomputable def stepSeq (m : Mem K A Af D Fd) : Mem K A Af D Fd :=
  barrier O g ((List.finRange K).foldl (fun m k => exec (stepGroup O g k) m) m)

/-- `step` with a process pool (`prlcnscdl.py` 508-512): the operations of the tasks happen in
the order `l`. -/
noncomputable def stepPar (l : List (Fin K × (Mem K A Af D Fd → Mem K A Af D Fd)))
    (m : Mem K A Af D Fd) : Mem K A Af D Fd :=
  barrier O g (execL l m)

/-- The loop of `solve` (`prlcnscdl.py` 558-580) with the steps `step j`; `ev` is `evaluate`, `cb`
the `Callback` option.  The iteration number is held in an attribute of the object, which the loop
leaves at the number of the last iteration. -/
noncomputable def solveLoop {M V : Type*} (step : ℕ → M → M) (ev : M → V) (cb : Option (ℕ → M → Bool)) :
    List ℕ → ℕ × M × List (ℕ × V) → ℕ × M × List (ℕ × V)
  | [], s => s
  | j :: js, (_, m, st) =>
    let m' := step j m
    let s' := (j, m', st ++ [(j, ev m')])
    match cb with
    | none => solveLoop step ev cb js s'
    | some f => if f j m' then s' else solveLoop step ev cb js s'

/-- `solve` (`prlcnscdl.py` 558-588): attribute `j`, arrays and statistics (without the time). -/
noncomputable def solve {M V : Type*} (step : ℕ → M → M) (ev : M → V) (cb : Option (ℕ → M → Bool))
    (maxIter : ℕ) (s : ℕ × M × List (ℕ × V)) : ℕ × M × List (ℕ × V) :=
  let r := solveLoop step ev cb (List.range' s.1 maxIter) s
  (r.1 + 1, r.2)

end

/-! ## Footprints -/

section
variable {K : ℕ} {A Af Sg D Fd : Type*} [AddCommGroup A] [Module ℝ A] [AddCommGroup Af] [Module ℝ Af]
  [AddCommGroup D] [Module ℝ D] [AddCommGroup Fd] [Module ℝ Fd]
variable (O : Ops A Af Sg D Fd) (g : Cfg K Sg)

/-- Slices with index `k` belong to task `k`; the dictionary and its transform are common. -/
def parts (K : ℕ) (A Af D Fd : Type*) : Parts (Fin K) (Mem K A Af D Fd) where
  eqv p m m' := match p with
    | none => m.Df = m'.Df ∧ m.D_Y = m'.D_Y
    | some k => m.DSf k = m'.DSf k ∧ m.Z_X k = m'.Z_X k ∧ m.Z_Y k = m'.Z_Y k ∧ m.Z_U k = m'.Z_U k ∧
        m.Zf k = m'.Zf k ∧ m.ZSf k = m'.ZSf k ∧ m.D_X k = m'.D_X k ∧ m.D_U k = m'.D_U k
  equiv p := by
    cases p with
    | none => exact ⟨fun _ => ⟨rfl, rfl⟩, fun h => ⟨h.1.symm, h.2.symm⟩,
        fun h h' => ⟨h.1.trans h'.1, h.2.trans h'.2⟩⟩
    | some k =>
      refine ⟨fun _ => ⟨rfl, rfl, rfl, rfl, rfl, rfl, rfl, rfl⟩, ?_, ?_⟩
      · rintro x y ⟨a, b, c, d, e, f, g, h⟩
        exact ⟨a.symm, b.symm, c.symm, d.symm, e.symm, f.symm, g.symm, h.symm⟩
      · rintro x y z ⟨a, b, c, d, e, f, g, h⟩ ⟨a', b', c', d', e', f', g', h'⟩
        exact ⟨a.trans a', b.trans b', c.trans c', d.trans d', e.trans e', f.trans f', g.trans g', h.trans h'⟩
  ext m m' h := by
    have h0 := h none
    refine Mem.ext h0.1 h0.2 ?_ ?_ ?_ ?_ ?_ ?_ ?_ ?_ <;> funext k <;> have hk := h (some k)
    exacts [hk.1, hk.2.1, hk.2.2.1, hk.2.2.2.1, hk.2.2.2.2.1, hk.2.2.2.2.2.1, hk.2.2.2.2.2.2.1,
      hk.2.2.2.2.2.2.2]

theorem frame_ne {K : ℕ} {j k : Fin K} (h : (some j : Option (Fin K)) ≠ some k) : j ≠ k :=
  fun h' => h (by rw [h'])

theorem local_stepGroup (k : Fin K) : ∀ op ∈ stepGroup O g k, (parts K A Af D Fd).Local k op := by
  have mk : ∀ op : Mem K A Af D Fd → Mem K A Af D Fd,
      (∀ m, (op m).Df = m.Df ∧ (op m).D_Y = m.D_Y) →
      (∀ m j, j ≠ k → (parts K A Af D Fd).eqv (some j) (op m) m) →
      (∀ m m', (parts K A Af D Fd).eqv none m m' → (parts K A Af D Fd).eqv (some k) m m' →
        (parts K A Af D Fd).eqv (some k) (op m) (op m')) → (parts K A Af D Fd).Local k op := by
    intro op h1 h2 h3
    refine ⟨fun p m hp => ?_, h3⟩
    cases p with
    | none => exact h1 m
    | some j => exact h2 m j (frame_ne hp)
  have all : (∀ op ∈ [cbpdnXstep O g k, cbpdnRelax g k, cbpdnYstep O g k, cbpdnUstep k,
      ccmodSetcoef1 O k, ccmodSetcoef2 O g k, ccmodXstep O g k, ccmodRelax g k],
      (parts K A Af D Fd).Local k op) := by
    intro op hop
    simp only [List.mem_cons, List.not_mem_nil, or_false] at hop
    rcases hop with rfl | rfl | rfl | rfl | rfl | rfl | rfl | rfl <;>
      refine mk _ (fun m => ⟨rfl, rfl⟩) (fun m j hj => ?_) (fun m m' h0 hk => ?_)
    all_goals first
      | (refine ⟨?_, ?_, ?_, ?_, ?_, ?_, ?_, ?_⟩ <;> first | rfl | exact update_of_ne hj _ _)
      | (obtain ⟨p, q⟩ := h0
         obtain ⟨a, b, c, d, e, f, x, y⟩ := hk
         refine ⟨?_, ?_, ?_, ?_, ?_, ?_, ?_, ?_⟩ <;> first
          | assumption
          | simp only [cbpdnXstep, cbpdnRelax, cbpdnYstep, cbpdnUstep, ccmodSetcoef1, ccmodSetcoef2,
              ccmodXstep, ccmodRelax, update_self, p, q, a, b, c, d, e, f, x, y])
  intro op hop
  apply all
  simp only [stepGroup, List.mem_append, List.mem_cons, List.not_mem_nil, or_false] at hop ⊢
  rcases hop with ((h | h) | h) | h
  · tauto
  · split_ifs at h
    all_goals simp only [List.mem_cons, List.not_mem_nil, or_false] at h
    all_goals tauto
  · tauto
  · split_ifs at h
    all_goals simp only [List.mem_cons, List.not_mem_nil, or_false] at h
    all_goals tauto

/-! ## Schedule independence -/

/-- **C52, one step.** In whatever order the worker processes perform the statements of the
per-signal tasks (keeping the order within each task), `step` leaves the same arrays as the
sequential loop that `nproc = 0` selects. -/
theorem C52_step (l : List (Fin K × (Mem K A Af D Fd → Mem K A Af D Fd)))
    (h : Interleaving (stepGroup O g) l) (m : Mem K A Af D Fd) : stepPar O g l m = stepSeq O g m := by
  unfold stepPar stepSeq
  rw [(parts K A Af D Fd).interleaving_eq_loop _ (local_stepGroup O g) _ (List.nodup_finRange K)
    (List.mem_finRange) l h]

/-- **C52, any granularity.** The same when the statements are split further, in any way, into
operations on the slices of the task and storage private to its process. -/
theorem C52_granularity {T : Type*}
    (progs : Fin K → List (Mem K A Af D Fd × (Fin K → T) → Mem K A Af D Fd × (Fin K → T)))
    (hloc : ∀ k, ∀ op ∈ progs k, (parts K A Af D Fd).withTemps.Local k op)
    (heff : ∀ k m t, (exec (progs k) (m, t)).1 = exec (stepGroup O g k) m)
    (l : List (Fin K × (Mem K A Af D Fd × (Fin K → T) → Mem K A Af D Fd × (Fin K → T))))
    (h : Interleaving progs l) (m : Mem K A Af D Fd) (t : Fin K → T) :
    barrier O g (execL l (m, t)).1 = stepSeq O g m := by
  rw [refined_eq_loop (parts K A Af D Fd) (fun k => exec (stepGroup O g k)) progs hloc heff _
    (List.nodup_finRange K) List.mem_finRange l h]
  rfl

/-- **C52, complete runs.** Arrays, iteration count and statistics after `solve()` are the same
for every number of processes and every schedule of every iteration, whatever the callback. -/
theorem C52_solve {V : Type*} (sched : ℕ → List (Fin K × (Mem K A Af D Fd → Mem K A Af D Fd)))
    (h : ∀ j, Interleaving (stepGroup O g) (sched j)) (ev : Mem K A Af D Fd → V)
    (cb : Option (ℕ → Mem K A Af D Fd → Bool)) (maxIter : ℕ) (s : ℕ × Mem K A Af D Fd × List (ℕ × V)) :
    solve (fun j => stepPar O g (sched j)) ev cb maxIter s =
      solve (fun _ => stepSeq O g) ev cb maxIter s := by
  have e : (fun j => stepPar O g (sched j)) = fun _ => stepSeq O g :=
    funext fun j => funext fun m => C52_step O g (sched j) (h j) m
  rw [e]

/-! ## The sequential alternation -/

/-- One iteration of `ConvBPDNDictLearn` with `dmethod='cns'` (`admm/cbpdn.py` 267-311,
`admm/admm.py` 1585-1616, `admm/ccmod.py` 753-845, `dictlrn/dictlrn.py` 287-375), on all signals at
once: one ADMM iteration of `ConvBPDN`, whose `ystep` maps `AX + U` by `yst`, then one of `ConvCnstrMOD_Consensus`
with the new coefficient maps, then the new dictionary is handed to `ConvBPDN`. -/
noncomputable def serialStep (yst : A → A) (m : Mem K A Af D Fd) : Mem K A Af D Fd :=
  let X := fun k => O.ifftZ (O.solveZ m.Df g.xrho (m.DSf k + g.xrho • O.fftZ (m.Z_Y k - m.Z_U k)))
  let AX := fun k => g.xrlx • X k + (1 - g.xrlx) • m.Z_Y k
  let Y := fun k => yst (AX k + m.Z_U k)
  let U := fun k => m.Z_U k + (AX k - Y k)
  let Zf := fun k => O.fftZ (Y k)
  let ZSf := fun k => O.zts (Zf k) (g.Sf k)
  let DX := fun k => O.ifftD (O.solveD (Zf k) g.drho (ZSf k + g.drho • O.fftD (m.D_Y - m.D_U k)))
  let DAX := fun k => g.drlx • DX k + (1 - g.drlx) • m.D_Y
  let DY := O.pcn ((K : ℝ)⁻¹ • ∑ k, (DAX k + m.D_U k))
  let DU := fun k => m.D_U k + (DAX k - DY)
  let Df := O.fftD DY
  ⟨Df, DY, fun k => O.dts Df (g.Sf k), AX, Y, U, Zf, ZSf, DAX, DU⟩

/-- What the statements of one task leave in the slices of that task. -/
theorem exec_stepGroup (k : Fin K) (m : Mem K A Af D Fd) :
    (exec (stepGroup O g k) m).Z_X k = g.xrlx • O.ifftZ (O.solveZ m.Df g.xrho
      (m.DSf k + g.xrho • O.fftZ (m.Z_Y k - m.Z_U k))) + (1 - g.xrlx) • m.Z_Y k ∧
    (exec (stepGroup O g k) m).Z_Y k = O.proxL1 ((exec (stepGroup O g k) m).Z_X k + m.Z_U k) (g.lmbda / g.xrho) ∧
    (exec (stepGroup O g k) m).Z_U k = m.Z_U k + ((exec (stepGroup O g k) m).Z_X k - (exec (stepGroup O g k) m).Z_Y k) ∧
    (exec (stepGroup O g k) m).Zf k = O.fftZ ((exec (stepGroup O g k) m).Z_Y k) ∧
    (exec (stepGroup O g k) m).ZSf k = O.zts ((exec (stepGroup O g k) m).Zf k) (g.Sf k) ∧
    (exec (stepGroup O g k) m).D_X k = g.drlx • O.ifftD (O.solveD ((exec (stepGroup O g k) m).Zf k) g.drho
      ((exec (stepGroup O g k) m).ZSf k + g.drho • O.fftD (m.D_Y - m.D_U k))) + (1 - g.drlx) • m.D_Y ∧
    (exec (stepGroup O g k) m).D_U k = m.D_U k := by
  by_cases hx : g.xrlx = 1 <;> by_cases hd : g.drlx = 1 <;>
    simp [exec, stepGroup, hx, hd, cbpdnXstep, cbpdnRelax, cbpdnYstep, cbpdnUstep, ccmodSetcoef1,
      ccmodSetcoef2, ccmodXstep, ccmodRelax]

/-- **C62.** A step in parallel is one iteration of the sequential alternation of the two solvers,
when `L1Weight` is 1 and neither `NonNegCoef` nor `NoBndryCross` is set. -/
theorem C62_serial_partial (yst : A → A) (hy : ∀ v, yst v = O.proxL1 v (g.lmbda / g.xrho)) (l : List (Fin K × (Mem K A Af D Fd → Mem K A Af D Fd)))
    (h : Interleaving (stepGroup O g) l) (m : Mem K A Af D Fd) : stepPar O g l m =
      serialStep O g yst m := by
  obtain rfl : yst = fun v => O.proxL1 v (g.lmbda / g.xrho) := funext hy
  have hl : ∀ e ∈ l, (parts K A Af D Fd).Local e.1 e.2 := fun e he =>
    local_stepGroup O g _ _ (mem_interleaving h he)
  have hpart : ∀ k, (parts K A Af D Fd).eqv (some k) (execL l m) (exec (stepGroup O g k) m) := by
    intro k
    have := ((parts K A Af D Fd).execL_part l hl k m).2
    rwa [h k] at this
  have hDX : ∀ k, (execL l m).D_X k = (serialStep O g (fun v => O.proxL1 v (g.lmbda / g.xrho)) m).D_X k := by
    intro k
    obtain ⟨h2, h3, h4, h5, h6, h7, h8⟩ := exec_stepGroup O g k m
    rw [(hpart k).2.2.2.2.2.2.1, h7, h6, h5, h3, h2]
    rfl
  have hDU : ∀ k, (execL l m).D_U k = m.D_U k := by
    intro k
    rw [(hpart k).2.2.2.2.2.2.2, (exec_stepGroup O g k m).2.2.2.2.2.2]
  have hDY : O.pcn ((K : ℝ)⁻¹ • ∑ k, ((execL l m).D_X k + (execL l m).D_U k)) = (serialStep O g (fun v => O.proxL1 v (g.lmbda / g.xrho)) m).D_Y := by
    simp only [hDX, hDU]
    rfl
  unfold stepPar barrier cbpdnSetdict ccmodUstep ccmodYstep
  simp only
  rw [hDY]
  refine Mem.ext rfl rfl rfl ?_ ?_ ?_ ?_ ?_ (funext hDX) (funext fun k => ?_)
  · funext k
    obtain ⟨h2, -⟩ := exec_stepGroup O g k m
    exact (hpart k).2.1.trans h2
  · funext k
    obtain ⟨h2, h3, -⟩ := exec_stepGroup O g k m
    rw [h2] at h3
    exact (hpart k).2.2.1.trans h3
  · funext k
    obtain ⟨h2, h3, h4, -⟩ := exec_stepGroup O g k m
    rw [h3, h2] at h4
    exact (hpart k).2.2.2.1.trans h4
  · funext k
    obtain ⟨h2, h3, h4, h5, -⟩ := exec_stepGroup O g k m
    rw [h3, h2] at h5
    exact (hpart k).2.2.2.2.1.trans h5
  · funext k
    obtain ⟨h2, h3, h4, h5, h6, -⟩ := exec_stepGroup O g k m
    rw [h5, h3, h2] at h6
    exact (hpart k).2.2.2.2.2.1.trans h6
  · simp only
    rw [hDU k, hDX k]
    rfl

end

/-- The `ystep` of `ConvBPDN` with unit `L1Weight` and without `NonNegCoef` is the one of the
parallel code. -/
theorem ystepL1_unit {ι : Type*} (lmbda rho : ℝ) (v : ι → ℝ) :
    Prox.ystepL1 false v (fun _ => 1) lmbda rho = Prox.proxL1Arr v fun _ => lmbda / rho := by
  simp [Prox.ystepL1]

/-- Numerical functions for signals of one sample, with a dictionary of one filter of one sample
and all its values in the constraint set. -/
noncomputable def ops1 : Ops (Fin 1 → ℝ) (Fin 1 → ℝ) (Fin 1 → ℝ) (Fin 1 → ℝ) (Fin 1 → ℝ) :=
  ⟨id, id, id, id, fun d s => d * s, fun d r b => fun i => b i / (d i * d i + r),
    fun v a => Prox.proxL1Arr v fun _ => a, fun z s => z * s, fun z r b => fun i => b i / (z i * z i + r), id⟩

/-- One signal of one sample with value `s`. -/
def cfg1 (s : ℝ) : Cfg 1 (Fin 1 → ℝ) := ⟨1, 1, 1, 1, 1, fun _ _ => s⟩

/-- Arrays after construction: dictionary 1, all other variables 0. -/
def mem1 (s : ℝ) : Mem 1 (Fin 1 → ℝ) (Fin 1 → ℝ) (Fin 1 → ℝ) (Fin 1 → ℝ) :=
  ⟨fun _ => 1, fun _ => 1, fun _ _ => s, fun _ _ => 0, fun _ _ => 0, fun _ _ => 0, fun _ _ => 0, fun _ _ => 0,
    fun _ _ => 0, fun _ _ => 0⟩

theorem ystep1 (yst : (Fin 1 → ℝ) → Fin 1 → ℝ) (s : ℝ) :
    (serialStep ops1 (cfg1 s) yst (mem1 s)).Z_Y 0 = yst fun _ => s / 2 := by
  simp only [serialStep, ops1, cfg1, mem1]
  congr 1
  funext i
  simp
  norm_num

/-- **C62 is false for `L1Weight` and `NonNegCoef`.** The documentation of the class says that
the options are those of `ConvBPDNDictLearn` and that `AutoRho` is ignored, but `L1Weight` and
`NonNegCoef` are ignored too: for `L1Weight` 2, and for `NonNegCoef`, the first step differs from
that of the sequential class, whatever the schedule. -/
theorem C62_options_refuted :
    (∀ l, Interleaving (stepGroup ops1 (cfg1 6)) l →
      stepPar ops1 (cfg1 6) l (mem1 6) ≠
        serialStep ops1 (cfg1 6) (fun v => Prox.ystepL1 false v (fun _ => 2) 1 1) (mem1 6)) ∧
    (∀ l, Interleaving (stepGroup ops1 (cfg1 (-6))) l →
      stepPar ops1 (cfg1 (-6)) l (mem1 (-6)) ≠
        serialStep ops1 (cfg1 (-6)) (fun v => Prox.ystepL1 true v (fun _ => 1) 1 1) (mem1 (-6))) := by
  have key : ∀ (s : ℝ) (l), Interleaving (stepGroup ops1 (cfg1 s)) l →
      (stepPar ops1 (cfg1 s) l (mem1 s)).Z_Y 0 0 = Prox.proxL1 (s / 2) 1 := by
    intro s l h
    rw [C62_serial_partial ops1 (cfg1 s) _ (fun _ => rfl) l h, ystep1]
    simp [ops1, cfg1, Prox.proxL1Arr]
  constructor
  · intro l h e
    have h1 := key 6 l h
    rw [e, ystep1] at h1
    simp only [Prox.ystepL1, Prox.proxL1Arr, Prox.proxL1, Prox.npSign] at h1
    norm_num [abs_of_pos, Prox.proxL1Arr, Prox.proxL1, Prox.npSign] at h1
  · intro l h e
    have h1 := key (-6) l h
    rw [e, ystep1] at h1
    simp only [Prox.ystepL1, Prox.proxL1Arr, Prox.proxL1, Prox.npSign, Prox.clip] at h1
    norm_num [abs_of_neg, Prox.proxL1Arr, Prox.proxL1, Prox.npSign, Prox.clip] at h1

section
variable {K : ℕ} {A Af Sg D Fd : Type*} [AddCommGroup A] [Module ℝ A] [AddCommGroup Af] [Module ℝ Af]
  [AddCommGroup D] [Module ℝ D] [AddCommGroup Fd] [Module ℝ Fd]
variable (O : Ops A Af Sg D Fd) (g : Cfg K Sg)

theorem solveLoop_inv {M V : Type*} (Q : M → Prop) (step : ℕ → M → M) (ev : M → V)
    (cb : Option (ℕ → M → Bool)) (hs : ∀ j m, Q (step j m)) (js : List ℕ) (s : ℕ × M × List (ℕ × V))
    (h : js ≠ [] ∨ Q s.2.1) : Q (solveLoop step ev cb js s).2.1 := by
  induction js generalizing s with
  | nil => simpa [solveLoop] using h
  | cons j js ih =>
    obtain ⟨i, m, st⟩ := s
    unfold solveLoop
    cases cb with
    | none => exact ih _ (Or.inr (hs j m))
    | some f =>
      simp only
      split_ifs
      · exact hs j m
      · exact ih _ (Or.inr (hs j m))

/-- **C62, constraints.** If the constraint set projection always returns a member of the set, the
dictionary after `solve()` with at least one iteration is in the set, and the dictionary used for
the reported functional values is the transform of the dictionary that is returned. -/
theorem C62_feasible {V : Type*} (C : Set D) (hC : ∀ d, O.pcn d ∈ C)
    (sched : ℕ → List (Fin K × (Mem K A Af D Fd → Mem K A Af D Fd))) (ev : Mem K A Af D Fd → V)
    (cb : Option (ℕ → Mem K A Af D Fd → Bool)) (maxIter : ℕ) (hm : 0 < maxIter)
    (s : ℕ × Mem K A Af D Fd × List (ℕ × V)) :
    (solve (fun j => stepPar O g (sched j)) ev cb maxIter s).2.1.D_Y ∈ C ∧
    (solve (fun j => stepPar O g (sched j)) ev cb maxIter s).2.1.Df =
      O.fftD (solve (fun j => stepPar O g (sched j)) ev cb maxIter s).2.1.D_Y := by
  refine solveLoop_inv (fun m : Mem K A Af D Fd => m.D_Y ∈ C ∧ m.Df = O.fftD m.D_Y) _ ev cb
    (fun j m => ⟨hC _, rfl⟩) _ s (Or.inl ?_)
  intro h
  have := congrArg List.length h
  simp at this
  omega

end

/-- There are schedules that are not the loop: two tasks, alternating. -/
example : ∃ l : List (Fin 2 × (Mem 2 ℝ ℝ ℝ ℝ → Mem 2 ℝ ℝ ℝ ℝ)),
    Interleaving (stepGroup (⟨id, id, id, id, fun a b => a * b, fun a r b => b / (a * a + r), fun a _ => a,
      fun a b => a * b, fun a r b => b / (a * a + r), id⟩ : Ops ℝ ℝ ℝ ℝ ℝ)
      (⟨1, 1, 1, 1, 1, fun _ => 1⟩ : Cfg 2 ℝ)) l ∧ (l.map Prod.fst) ≠ [0, 0, 0, 0, 0, 0, 1, 1, 1, 1, 1, 1] := by
  set O : Ops ℝ ℝ ℝ ℝ ℝ := ⟨id, id, id, id, fun a b => a * b, fun a r b => b / (a * a + r), fun a _ => a,
      fun a b => a * b, fun a r b => b / (a * a + r), id⟩
  set g : Cfg 2 ℝ := ⟨1, 1, 1, 1, 1, fun _ => 1⟩
  refine ⟨[(0, cbpdnXstep O g 0), (1, cbpdnXstep O g 1), (0, cbpdnYstep O g 0), (1, cbpdnYstep O g 1),
    (0, cbpdnUstep 0), (1, cbpdnUstep 1), (0, ccmodSetcoef1 O 0), (1, ccmodSetcoef1 O 1),
    (0, ccmodSetcoef2 O g 0), (1, ccmodSetcoef2 O g 1), (0, ccmodXstep O g 0), (1, ccmodXstep O g 1)], ?_, ?_⟩
  · intro k
    fin_cases k <;> simp [stepGroup, g, List.filter]
  · decide

end Cns

end Sporco.Par
