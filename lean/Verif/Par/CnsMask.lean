import Verif.Par.Cns

/-!
# Parallel consensus dictionary learning with a mask (C52, C62)

`dictlrn/prlcnscdl.py` 653-815, 1062-1164: the functions on the shared arrays, `step` and `solve` of
`ConvBPDNMaskDcplDictLearn_Consensus`.
-/

set_option autoImplicit false

namespace Sporco.Par.CnsMask

open Function
open Sporco.Par.Cns (solve solveLoop_inv)

/-- The numerical functions used on the slices.  `A`, `Af`: coefficient maps of one signal and
their transforms; `S`, `Sf`: signals and their transforms; `D`, `Fd`: dictionaries and their
transforms; `W`: masks. -/
structure Ops (A Af S Sf D Fd W : Type*) where
  /-- `fftn` of coefficient maps -/
  fftZ : A → Af
  /-- `ifftn` of coefficient maps -/
  ifftZ : Af → A
  /-- `fftn` of signals -/
  fftS : S → Sf
  /-- `ifftn` of signals -/
  ifftS : Sf → S
  /-- `fftn` of dictionaries -/
  fftD : D → Fd
  /-- `ifftn` of dictionaries -/
  ifftD : Fd → D
  /-- `conj(Df) * Sf`, summed over channels for multi-channel dictionaries (687-694) -/
  dts : Fd → Sf → Af
  /-- `solvedbi_sm` or `solvemdbi_ism` with `rho = 1` (690, 694) -/
  solveZ : Fd → Af → Af
  /-- `sl.inner(Df, Xf)` (696, 763) -/
  inner : Fd → Af → Sf
  /-- `rho * v / (W**2 + rho)` (723, 787) -/
  wprox : W → ℝ → S → S
  /-- `prox_l1` -/
  proxL1 : A → ℝ → A
  /-- `conj(Zf) * Sf` (760) -/
  zts : Af → Sf → Fd
  /-- `solvedbi_sm` with `rho = 1` (761) -/
  solveD : Af → Fd → Fd
  /-- `mp_dprox`, the constraint set projection -/
  pcn : D → D

/-- Module globals that do not change during `solve`.  The mask is given for every signal; the code
keeps one copy when it is the same for all signals (717-720). -/
structure Cfg (K : ℕ) (S W : Type*) where
  lmbda : ℝ
  xrho : ℝ
  drho : ℝ
  xrlx : ℝ
  drlx : ℝ
  S : Fin K → S
  W : Fin K → W

/-- The shared arrays (`prlcnscdl.py` 654-664). -/
@[ext] structure Mem (K : ℕ) (A Af S D Fd : Type*) where
  Df : Fd
  D_Y0 : D
  DX : Fin K → S
  Z_X : Fin K → A
  Z_Y0 : Fin K → S
  Z_Y1 : Fin K → A
  Z_U0 : Fin K → S
  Z_U1 : Fin K → A
  Zf : Fin K → Af
  D_X : Fin K → D
  D_Y1 : Fin K → S
  D_U0 : Fin K → D
  D_U1 : Fin K → S

section
variable {K : ℕ} {A Af S Sf D Fd W : Type*} [AddCommGroup A] [Module ℝ A] [AddCommGroup Af]
  [AddCommGroup S] [Module ℝ S] [AddCommGroup Sf] [AddCommGroup D] [Module ℝ D] [AddCommGroup Fd]
variable (O : Ops A Af S Sf D Fd W) (g : Cfg K S W)

/-- The right hand side and solution of `cbpdnmd_xstep` (`prlcnscdl.py` 685-694), a temporary. -/
def xf (k : Fin K) (m : Mem K A Af S D Fd) : Af :=
  O.solveZ m.Df (O.dts m.Df (O.fftS (m.Z_Y0 k + g.S k - m.Z_U0 k)) + O.fftZ (m.Z_Y1 k - m.Z_U1 k))

/-- `cbpdnmd_xstep` (`prlcnscdl.py` 695), first store.  (The temporary of both stores depends on
nothing the first one changes.) -/
def xstep1 (k : Fin K) (m : Mem K A Af S D Fd) : Mem K A Af S D Fd :=
  { m with Z_X := update m.Z_X k (O.ifftZ (xf O g k m)) }

/-- `cbpdnmd_xstep` (`prlcnscdl.py` 696), second store. -/
def xstep2 (k : Fin K) (m : Mem K A Af S D Fd) : Mem K A Af S D Fd :=
  { m with DX := update m.DX k (O.ifftS (O.inner m.Df (xf O g k m))) }

/-- `cbpdnmd_relax` (`prlcnscdl.py` 706) -/
def relax1 (k : Fin K) (m : Mem K A Af S D Fd) : Mem K A Af S D Fd :=
  { m with Z_X := update m.Z_X k (g.xrlx • m.Z_X k + (1 - g.xrlx) • m.Z_Y1 k) }

/-- `cbpdnmd_relax` (`prlcnscdl.py` 707) -/
def relax2 (k : Fin K) (m : Mem K A Af S D Fd) : Mem K A Af S D Fd :=
  { m with DX := update m.DX k (g.xrlx • m.DX k + (1 - g.xrlx) • (m.Z_Y0 k + g.S k)) }

/-- `cbpdnmd_ystep` (`prlcnscdl.py` 721, 723) -/
def ystep1 (k : Fin K) (m : Mem K A Af S D Fd) : Mem K A Af S D Fd :=
  { m with Z_Y0 := update m.Z_Y0 k (O.wprox (g.W k) g.xrho (m.DX k - g.S k + m.Z_U0 k)) }

/-- `cbpdnmd_ystep` (`prlcnscdl.py` 722, 724) -/
noncomputable def ystep2 (k : Fin K) (m : Mem K A Af S D Fd) : Mem K A Af S D Fd :=
  { m with Z_Y1 := update m.Z_Y1 k (O.proxL1 (m.Z_X k + m.Z_U1 k) (g.lmbda / g.xrho)) }

/-- `cbpdnmd_ustep` (`prlcnscdl.py` 734) -/
def ustep1 (k : Fin K) (m : Mem K A Af S D Fd) : Mem K A Af S D Fd :=
  { m with Z_U0 := update m.Z_U0 k (m.Z_U0 k + (m.DX k - m.Z_Y0 k - g.S k)) }

/-- `cbpdnmd_ustep` (`prlcnscdl.py` 735) -/
def ustep2 (k : Fin K) (m : Mem K A Af S D Fd) : Mem K A Af S D Fd :=
  { m with Z_U1 := update m.Z_U1 k (m.Z_U1 k + (m.Z_X k - m.Z_Y1 k)) }

/-- `ccmodmd_setcoef` (`prlcnscdl.py` 739-747) -/
def setcoef (k : Fin K) (m : Mem K A Af S D Fd) : Mem K A Af S D Fd :=
  { m with Zf := update m.Zf k (O.fftZ (m.Z_Y1 k)) }

/-- The solution of `ccmodmd_xstep` (`prlcnscdl.py` 757-761), a temporary. -/
def dxf (k : Fin K) (m : Mem K A Af S D Fd) : Fd :=
  O.solveD (m.Zf k) (O.fftD (m.D_Y0 - m.D_U0 k) +
    O.zts (m.Zf k) (O.fftS (m.D_Y1 k + g.S k - m.D_U1 k)))

/-- `ccmodmd_xstep` (`prlcnscdl.py` 762), first store. -/
def dxstep1 (k : Fin K) (m : Mem K A Af S D Fd) : Mem K A Af S D Fd :=
  { m with D_X := update m.D_X k (O.ifftD (dxf O g k m)) }

/-- `ccmodmd_xstep` (`prlcnscdl.py` 763), second store. -/
def dxstep2 (k : Fin K) (m : Mem K A Af S D Fd) : Mem K A Af S D Fd :=
  { m with DX := update m.DX k (O.ifftS (O.inner (dxf O g k m) (m.Zf k))) }

/-- `ccmodmd_relax` (`prlcnscdl.py` 773) -/
def drelax1 (k : Fin K) (m : Mem K A Af S D Fd) : Mem K A Af S D Fd :=
  { m with D_X := update m.D_X k (g.drlx • m.D_X k + (1 - g.drlx) • m.D_Y0) }

/-- `ccmodmd_relax` (`prlcnscdl.py` 774) -/
def drelax2 (k : Fin K) (m : Mem K A Af S D Fd) : Mem K A Af S D Fd :=
  { m with DX := update m.DX k (g.drlx • m.DX k + (1 - g.drlx) • (m.D_Y1 k + g.S k)) }

open Classical in
/-- The statements of `md_step_group(k)` in program order (`prlcnscdl.py` 802-815). -/
noncomputable def stepGroup (k : Fin K) : List (Mem K A Af S D Fd → Mem K A Af S D Fd) :=
  [xstep1 O g k, xstep2 O g k] ++ (if g.xrlx ≠ 1 then [relax1 g k, relax2 g k] else []) ++
  [ystep1 O g k, ystep2 O g k, ustep1 g k, ustep2 k, setcoef O k, dxstep1 O g k, dxstep2 O g k] ++
  (if g.drlx ≠ 1 then [drelax1 g k, drelax2 g k] else [])

/-- `ccmodmd_ystep` (`prlcnscdl.py` 778-787) -/
noncomputable def dystep (m : Mem K A Af S D Fd) : Mem K A Af S D Fd :=
  { m with D_Y0 := O.pcn ((K : ℝ)⁻¹ • ∑ k, (m.D_X k + m.D_U0 k))
           D_Y1 := fun k => O.wprox (g.W k) g.drho (m.DX k - g.S k + m.D_U1 k) }

/-- `ccmodmd_ustep` (`prlcnscdl.py` 791-798) -/
def dustep (m : Mem K A Af S D Fd) : Mem K A Af S D Fd :=
  { m with D_U0 := fun k => m.D_U0 k + (m.D_X k - m.D_Y0)
           D_U1 := fun k => m.D_U1 k + (m.DX k - m.D_Y1 k - g.S k) }

/-- `cbpdnmd_setdict` (`prlcnscdl.py` 668-675) -/
def setdict (m : Mem K A Af S D Fd) : Mem K A Af S D Fd := { m with Df := O.fftD m.D_Y0 }

/-- The part of `step` after the tasks have finished (`prlcnscdl.py` 1076-1078). -/
noncomputable def barrier (m : Mem K A Af S D Fd) : Mem K A Af S D Fd :=
  setdict O (dustep g (dystep O g m))

/-- `step` with `nproc = 0` (`prlcnscdl.py` 1070-1072, 1076-1078). -/
noncomputable def stepSeq (m : Mem K A Af S D Fd) : Mem K A Af S D Fd :=
  barrier O g ((List.finRange K).foldl (fun m k => exec (stepGroup O g k) m) m)

/-- `step` with a process pool (`prlcnscdl.py` 1074-1078). -/
noncomputable def stepPar (l : List (Fin K × (Mem K A Af S D Fd → Mem K A Af S D Fd)))
    (m : Mem K A Af S D Fd) : Mem K A Af S D Fd :=
  barrier O g (execL l m)

/-! ## Footprints -/

/-- Slices with index `k` belong to task `k`; the dictionary and its transform are common. -/
def parts (K : ℕ) (A Af S D Fd : Type*) : Parts (Fin K) (Mem K A Af S D Fd) where
  eqv p m m' := match p with
    | none => m.Df = m'.Df ∧ m.D_Y0 = m'.D_Y0
    | some k => m.DX k = m'.DX k ∧ m.Z_X k = m'.Z_X k ∧ m.Z_Y0 k = m'.Z_Y0 k ∧ m.Z_Y1 k = m'.Z_Y1 k ∧
        m.Z_U0 k = m'.Z_U0 k ∧ m.Z_U1 k = m'.Z_U1 k ∧ m.Zf k = m'.Zf k ∧ m.D_X k = m'.D_X k ∧
        m.D_Y1 k = m'.D_Y1 k ∧ m.D_U0 k = m'.D_U0 k ∧ m.D_U1 k = m'.D_U1 k
  equiv p := by
    cases p with
    | none => exact ⟨fun _ => ⟨rfl, rfl⟩, fun h => ⟨h.1.symm, h.2.symm⟩,
        fun h h' => ⟨h.1.trans h'.1, h.2.trans h'.2⟩⟩
    | some k =>
      refine ⟨fun _ => ⟨rfl, rfl, rfl, rfl, rfl, rfl, rfl, rfl, rfl, rfl, rfl⟩, ?_, ?_⟩
      · rintro x y ⟨a, b, c, d, e, f, g, h, i, j, k⟩
        exact ⟨a.symm, b.symm, c.symm, d.symm, e.symm, f.symm, g.symm, h.symm, i.symm, j.symm, k.symm⟩
      · rintro x y z ⟨a, b, c, d, e, f, g, h, i, j, k⟩ ⟨a', b', c', d', e', f', g', h', i', j', k'⟩
        exact ⟨a.trans a', b.trans b', c.trans c', d.trans d', e.trans e', f.trans f', g.trans g', h.trans h',
          i.trans i', j.trans j', k.trans k'⟩
  ext m m' h := by
    have h0 := h none
    refine Mem.ext h0.1 h0.2 ?_ ?_ ?_ ?_ ?_ ?_ ?_ ?_ ?_ ?_ ?_ <;> funext k <;> have hk := h (some k)
    exacts [hk.1, hk.2.1, hk.2.2.1, hk.2.2.2.1, hk.2.2.2.2.1, hk.2.2.2.2.2.1, hk.2.2.2.2.2.2.1,
      hk.2.2.2.2.2.2.2.1, hk.2.2.2.2.2.2.2.2.1, hk.2.2.2.2.2.2.2.2.2.1, hk.2.2.2.2.2.2.2.2.2.2]

theorem local_stepGroup (k : Fin K) : ∀ op ∈ stepGroup O g k, (parts K A Af S D Fd).Local k op := by
  have mk : ∀ op : Mem K A Af S D Fd → Mem K A Af S D Fd,
      (∀ m, (op m).Df = m.Df ∧ (op m).D_Y0 = m.D_Y0) →
      (∀ m j, j ≠ k → (parts K A Af S D Fd).eqv (some j) (op m) m) →
      (∀ m m', (parts K A Af S D Fd).eqv none m m' → (parts K A Af S D Fd).eqv (some k) m m' →
        (parts K A Af S D Fd).eqv (some k) (op m) (op m')) → (parts K A Af S D Fd).Local k op := by
    intro op h1 h2 h3
    refine ⟨fun p m hp => ?_, h3⟩
    cases p with
    | none => exact h1 m
    | some j => exact h2 m j (Cns.frame_ne hp)
  have all : (∀ op ∈ [xstep1 O g k, xstep2 O g k, relax1 g k, relax2 g k, ystep1 O g k, ystep2 O g k,
      ustep1 g k, ustep2 k, setcoef O k, dxstep1 O g k, dxstep2 O g k, drelax1 g k, drelax2 g k],
      (parts K A Af S D Fd).Local k op) := by
    intro op hop
    simp only [List.mem_cons, List.not_mem_nil, or_false] at hop
    rcases hop with rfl | rfl | rfl | rfl | rfl | rfl | rfl | rfl | rfl | rfl | rfl | rfl | rfl <;>
      refine mk _ (fun m => ⟨rfl, rfl⟩) (fun m j hj => ?_) (fun m m' h0 hk => ?_)
    all_goals first
      | (refine ⟨?_, ?_, ?_, ?_, ?_, ?_, ?_, ?_, ?_, ?_, ?_⟩ <;> first | rfl | exact update_of_ne hj _ _)
      | (obtain ⟨p, q⟩ := h0
         obtain ⟨a, b, c, d, e, f, x, y, z, u, v⟩ := hk
         refine ⟨?_, ?_, ?_, ?_, ?_, ?_, ?_, ?_, ?_, ?_, ?_⟩ <;> first
          | assumption
          | simp only [xstep1, xstep2, relax1, relax2, ystep1, ystep2, ustep1, ustep2, setcoef, dxstep1,
              dxstep2, drelax1, drelax2, xf, dxf, update_self, p, q, a, b, c, d, e, f, x, y, z, u, v])
  intro op hop
  apply all
  simp only [stepGroup, List.mem_append, List.mem_cons, List.not_mem_nil, or_false] at hop ⊢
  rcases hop with ((h | h) | h) | h
  · tauto
  · split_ifs at h
    all_goals simp only [List.mem_cons, List.not_mem_nil, or_false] at h
    all_goals tauto
  · tauto
  · split_ifs at h
    all_goals simp only [List.mem_cons, List.not_mem_nil, or_false] at h
    all_goals tauto

/-! ## Schedule independence -/

/-- **C52, one step with a mask.** -/
theorem C52_mask_step (l : List (Fin K × (Mem K A Af S D Fd → Mem K A Af S D Fd)))
    (h : Interleaving (stepGroup O g) l) (m : Mem K A Af S D Fd) : stepPar O g l m = stepSeq O g m := by
  unfold stepPar stepSeq
  rw [(parts K A Af S D Fd).interleaving_eq_loop _ (local_stepGroup O g) _ (List.nodup_finRange K)
    (List.mem_finRange) l h]

/-- **C52, any granularity, with a mask.** -/
theorem C52_mask_granularity {T : Type*}
    (progs : Fin K → List (Mem K A Af S D Fd × (Fin K → T) → Mem K A Af S D Fd × (Fin K → T)))
    (hloc : ∀ k, ∀ op ∈ progs k, (parts K A Af S D Fd).withTemps.Local k op)
    (heff : ∀ k m t, (exec (progs k) (m, t)).1 = exec (stepGroup O g k) m)
    (l : List (Fin K × (Mem K A Af S D Fd × (Fin K → T) → Mem K A Af S D Fd × (Fin K → T))))
    (h : Interleaving progs l) (m : Mem K A Af S D Fd) (t : Fin K → T) :
    barrier O g (execL l (m, t)).1 = stepSeq O g m := by
  rw [refined_eq_loop (parts K A Af S D Fd) (fun k => exec (stepGroup O g k)) progs hloc heff _
    (List.nodup_finRange K) List.mem_finRange l h]
  rfl

/-- **C52, complete runs with a mask.** -/
theorem C52_mask_solve {V : Type*} (sched : ℕ → List (Fin K × (Mem K A Af S D Fd → Mem K A Af S D Fd)))
    (h : ∀ j, Interleaving (stepGroup O g) (sched j)) (ev : Mem K A Af S D Fd → V)
    (cb : Option (ℕ → Mem K A Af S D Fd → Bool)) (maxIter : ℕ) (s : ℕ × Mem K A Af S D Fd × List (ℕ × V)) :
    solve (fun j => stepPar O g (sched j)) ev cb maxIter s =
      solve (fun _ => stepSeq O g) ev cb maxIter s := by
  have e : (fun j => stepPar O g (sched j)) = fun _ => stepSeq O g :=
    funext fun j => funext fun m => C52_mask_step O g (sched j) (h j) m
  rw [e]

/-! ## The sequential alternation -/

/-- One iteration of `ConvBPDNMaskDictLearn` with `xmethod='admm'`, `dmethod='cns'`
(`admm/cbpdn.py` 1610-1631, 1664-1677, 2239-2251, `admm/ccmodmd.py` 906-966,
`admm/ccmod.py` 753-845, `dictlrn/dictlrn.py` 287-375), on all signals at once: one ADMM iteration of
`ConvBPDNMaskDcpl`, whose `ystep` maps the second block of `AX + U` by `yst`, then one of
`ConvCnstrMODMaskDcpl_Consensus`, then the new dictionary is handed to the first. -/
noncomputable def serialStep (yst : A → A) (m : Mem K A Af S D Fd) : Mem K A Af S D Fd :=
  -- ConvBPDNMaskDcpl
  let Xf := fun k => O.solveZ m.Df (O.dts m.Df (O.fftS (m.Z_Y0 k - m.Z_U0 k + g.S k)) +
    O.fftZ (m.Z_Y1 k - m.Z_U1 k))
  let AX0 := fun k => g.xrlx • O.ifftS (O.inner m.Df (Xf k)) + (1 - g.xrlx) • (m.Z_Y0 k + g.S k)
  let AX1 := fun k => g.xrlx • O.ifftZ (Xf k) + (1 - g.xrlx) • m.Z_Y1 k
  let Y0 := fun k => O.wprox (g.W k) g.xrho (AX0 k + m.Z_U0 k - g.S k)
  let Y1 := fun k => yst (AX1 k + m.Z_U1 k)
  let U0 := fun k => m.Z_U0 k + (AX0 k - Y0 k - g.S k)
  let U1 := fun k => m.Z_U1 k + (AX1 k - Y1 k)
  -- ConvCnstrMODMaskDcpl_Consensus
  let Zf := fun k => O.fftZ (Y1 k)
  let DXf := fun k => O.solveD (Zf k) (O.zts (Zf k) (O.fftS (g.S k) + O.fftS (m.D_Y1 k - m.D_U1 k)) +
    O.fftD (m.D_Y0 - m.D_U0 k))
  let DAX := fun k => g.drlx • O.ifftD (DXf k) + (1 - g.drlx) • m.D_Y0
  let DAX1 := fun k => g.drlx • O.ifftS (O.inner (DXf k) (Zf k)) + (1 - g.drlx) • (m.D_Y1 k + g.S k)
  let DY0 := O.pcn ((K : ℝ)⁻¹ • ∑ k, (DAX k + m.D_U0 k))
  let DY1 := fun k => O.wprox (g.W k) g.drho (DAX1 k + m.D_U1 k - g.S k)
  let DU0 := fun k => m.D_U0 k + (DAX k - DY0)
  let DU1 := fun k => m.D_U1 k + (DAX1 k - DY1 k - g.S k)
  ⟨O.fftD DY0, DY0, DAX1, AX1, Y0, Y1, U0, U1, Zf, DAX, DY1, DU0, DU1⟩

theorem exec_stepGroup (yst : A → A) (hy : ∀ v, yst v = O.proxL1 v (g.lmbda / g.xrho))
    (hf : ∀ s t, O.fftS (s + t) = O.fftS s + O.fftS t) (k : Fin K) (m : Mem K A Af S D Fd) :
    (exec (stepGroup O g k) m).Z_X k = (serialStep O g yst m).Z_X k ∧
    (exec (stepGroup O g k) m).Z_Y0 k = (serialStep O g yst m).Z_Y0 k ∧
    (exec (stepGroup O g k) m).Z_Y1 k = (serialStep O g yst m).Z_Y1 k ∧
    (exec (stepGroup O g k) m).Z_U0 k = (serialStep O g yst m).Z_U0 k ∧
    (exec (stepGroup O g k) m).Z_U1 k = (serialStep O g yst m).Z_U1 k ∧
    (exec (stepGroup O g k) m).Zf k = (serialStep O g yst m).Zf k ∧
    (exec (stepGroup O g k) m).D_X k = (serialStep O g yst m).D_X k ∧
    (exec (stepGroup O g k) m).DX k = (serialStep O g yst m).DX k ∧
    (exec (stepGroup O g k) m).D_Y1 k = m.D_Y1 k ∧
    (exec (stepGroup O g k) m).D_U0 k = m.D_U0 k ∧ (exec (stepGroup O g k) m).D_U1 k = m.D_U1 k := by
  have e1 : ∀ a b c : S, a - b + c = a + c - b := fun a b c => by abel
  have e2 : ∀ a b c : S, O.fftS a + O.fftS (b - c) = O.fftS (b + a - c) := fun a b c => by
    rw [← hf]; congr 1; abel
  have e3 : ∀ (a b c : S), a + b - c = a - c + b := fun a b c => by abel
  by_cases hx : g.xrlx = 1 <;> by_cases hd : g.drlx = 1 <;>
    simp only [exec, stepGroup, serialStep, hy, hx, hd, e2, xstep1, xstep2, relax1, relax2, ystep1, ystep2, ustep1,
      ustep2, setcoef, dxstep1, dxstep2, drelax1, drelax2, xf, dxf, update_self, List.foldl_cons,
      List.foldl_nil, List.cons_append, List.nil_append, List.append_nil, ne_eq, not_true_eq_false,
      not_false_eq_true, if_true, if_false, one_smul, sub_self, zero_smul, add_zero, e1 (m.Z_Y0 k), e3 _ _ (g.S k)] <;>
    (refine ⟨?_, ?_, ?_, ?_, ?_, ?_, ?_, ?_, ?_, ?_, ?_⟩ <;> first | trivial | (rw [add_comm (O.fftD _)]))

/-- **C62, with a mask.** A step in parallel is one iteration of the sequential alternation of the
two solvers, when `L1Weight` is 1 and neither `NonNegCoef` nor `NoBndryCross` is set. -/
theorem C62_mask_serial_partial (yst : A → A) (hy : ∀ v, yst v = O.proxL1 v (g.lmbda / g.xrho))
    (hf : ∀ s t, O.fftS (s + t) = O.fftS s + O.fftS t)
    (l : List (Fin K × (Mem K A Af S D Fd → Mem K A Af S D Fd)))
    (h : Interleaving (stepGroup O g) l) (m : Mem K A Af S D Fd) : stepPar O g l m = serialStep O g yst m := by
  have hl : ∀ e ∈ l, (parts K A Af S D Fd).Local e.1 e.2 := fun e he =>
    local_stepGroup O g _ _ (mem_interleaving h he)
  have hpart : ∀ k, (parts K A Af S D Fd).eqv (some k) (execL l m) (exec (stepGroup O g k) m) := by
    intro k
    have := ((parts K A Af S D Fd).execL_part l hl k m).2
    rwa [h k] at this
  have ex := exec_stepGroup O g yst hy hf
  have hZX : ∀ k, (execL l m).Z_X k = (serialStep O g yst m).Z_X k := fun k => (hpart k).2.1.trans (ex k m).1
  have hZY0 : ∀ k, (execL l m).Z_Y0 k = (serialStep O g yst m).Z_Y0 k := fun k => (hpart k).2.2.1.trans (ex k m).2.1
  have hZY1 : ∀ k, (execL l m).Z_Y1 k = (serialStep O g yst m).Z_Y1 k := fun k =>
    (hpart k).2.2.2.1.trans (ex k m).2.2.1
  have hZU0 : ∀ k, (execL l m).Z_U0 k = (serialStep O g yst m).Z_U0 k := fun k =>
    (hpart k).2.2.2.2.1.trans (ex k m).2.2.2.1
  have hZU1 : ∀ k, (execL l m).Z_U1 k = (serialStep O g yst m).Z_U1 k := fun k =>
    (hpart k).2.2.2.2.2.1.trans (ex k m).2.2.2.2.1
  have hZf : ∀ k, (execL l m).Zf k = (serialStep O g yst m).Zf k := fun k =>
    (hpart k).2.2.2.2.2.2.1.trans (ex k m).2.2.2.2.2.1
  have hDX : ∀ k, (execL l m).D_X k = (serialStep O g yst m).D_X k := fun k =>
    (hpart k).2.2.2.2.2.2.2.1.trans (ex k m).2.2.2.2.2.2.1
  have hDX1 : ∀ k, (execL l m).DX k = (serialStep O g yst m).DX k := fun k =>
    (hpart k).1.trans (ex k m).2.2.2.2.2.2.2.1
  have hDU0 : ∀ k, (execL l m).D_U0 k = m.D_U0 k := fun k =>
    (hpart k).2.2.2.2.2.2.2.2.2.1.trans (ex k m).2.2.2.2.2.2.2.2.2.1
  have hDU1 : ∀ k, (execL l m).D_U1 k = m.D_U1 k := fun k =>
    (hpart k).2.2.2.2.2.2.2.2.2.2.trans (ex k m).2.2.2.2.2.2.2.2.2.2
  have hDY : O.pcn ((K : ℝ)⁻¹ • ∑ k, ((execL l m).D_X k + (execL l m).D_U0 k)) = (serialStep O g yst m).D_Y0 := by
    simp only [hDX, hDU0]
    rfl
  have hDY1 : ∀ k, O.wprox (g.W k) g.drho ((execL l m).DX k - g.S k + (execL l m).D_U1 k) =
      (serialStep O g yst m).D_Y1 k := by
    intro k
    rw [hDX1, hDU1]
    change _ = O.wprox (g.W k) g.drho ((serialStep O g yst m).DX k + m.D_U1 k - g.S k)
    congr 1
    abel
  unfold stepPar barrier setdict dustep dystep
  simp only
  rw [hDY]
  refine Mem.ext rfl rfl (funext hDX1) (funext hZX) (funext hZY0) (funext hZY1) (funext hZU0) (funext hZU1)
    (funext hZf) (funext hDX) (funext hDY1) (funext fun k => ?_) (funext fun k => ?_)
  · simp only
    rw [hDU0 k, hDX k]
    rfl
  · simp only
    rw [hDY1 k, hDU1 k, hDX1 k]
    rfl

/-- **C62, constraints, with a mask.** -/
theorem C62_mask_feasible {V : Type*} (C : Set D) (hC : ∀ d, O.pcn d ∈ C)
    (sched : ℕ → List (Fin K × (Mem K A Af S D Fd → Mem K A Af S D Fd))) (ev : Mem K A Af S D Fd → V)
    (cb : Option (ℕ → Mem K A Af S D Fd → Bool)) (maxIter : ℕ) (hm : 0 < maxIter)
    (s : ℕ × Mem K A Af S D Fd × List (ℕ × V)) :
    (solve (fun j => stepPar O g (sched j)) ev cb maxIter s).2.1.D_Y0 ∈ C ∧
    (solve (fun j => stepPar O g (sched j)) ev cb maxIter s).2.1.Df =
      O.fftD (solve (fun j => stepPar O g (sched j)) ev cb maxIter s).2.1.D_Y0 := by
  refine solveLoop_inv (fun m : Mem K A Af S D Fd => m.D_Y0 ∈ C ∧ m.Df = O.fftD m.D_Y0) _ ev cb
    (fun j m => ⟨hC _, rfl⟩) _ s (Or.inl ?_)
  intro h
  have := congrArg List.length h
  simp at this
  omega

end

/-- The hypotheses are met: one sample per signal, a mask value per signal. -/
noncomputable example : Ops ℝ ℝ ℝ ℝ ℝ ℝ ℝ :=
  ⟨id, id, id, id, id, id, fun d s => d * s, fun d b => b / (d * d + 1), fun d x => d * x,
    fun w r v => r * v / (w ^ 2 + r), fun v a => Prox.proxL1 v a, fun z s => z * s, fun z b => b / (z * z + 1), id⟩

end Sporco.Par.CnsMask
