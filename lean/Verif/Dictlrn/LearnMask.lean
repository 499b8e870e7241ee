import Verif.Dictlrn.LearnConv
import Verif.Conv.TwoBlock
import Verif.Conv.CcmodModel

/-!
# `ConvBPDNMaskDictLearn` of `dictlrn/cbpdndlmd.py` (C70, C71)

The loop of `DictLearn` with the masked convolutional sparse coding classes (methods `admm` and `pgm`) and the masked
convolutional dictionary updates (methods `ism`, `cg`, `cns` and `pgm`).  Real data; the inner solvers have no callback.
-/

set_option autoImplicit false

namespace Sporco.Dictlrn.Mask

open Finset Sporco.Conv Sporco.Cnvrep
open Sporco.Admm (Blocks)
open Sporco.Prox (normL1)
open Sporco.Pgm (VarsF)
open Sporco.PgmConv (HS mulW maskTerm)

/-! ## Model -/

section SolveMC
variable {d Nb : ℕ} {N : Fin d → ℕ} [∀ k, NeZero (N k)] {a : Fin d} {A M : Type*} [Fintype A] [Fintype M]

/-- The state of an object of class `ConvCnstrMODMaskDcpl_Consensus`. -/
abbrev StMC (A : Type*) (Nb : ℕ) (M : Type*) [Fintype A] [Fintype M] {d : ℕ} (N : Fin d → ℕ) [∀ k, NeZero (N k)]
    (a : Fin d) : Type _ :=
  Admm.St (Blocks (Coef A M N) Nb) (WithLp 2 (Coef A M N × Sig A (Fin Nb) N)) (Mod.UC A Nb M N) (Fin Nb → Spec A M N a)

open Classical in
/-- One pass of the loop of `ADMM.solve` (`admm/admm.py` 331-377) on an object of class
`ConvCnstrMODMaskDcpl_Consensus`, of which `update_rho` changes `U` but not `U1`. -/
noncomputable def bodyMC (Pcn : Coef A M N → Coef A M N) (Z : Fin Nb → M → Grid N → ℝ) (S W : A → Fin Nb → Grid N → ℝ)
    (o : Admm.Opts) (k : ℕ) (s : StMC A Nb M N a) : StMC A Nb M N a × Bool :=
  let C := Mod.clsMC a Pcn Z S W
  let s := Admm.steps C o { s with k := k }
  let q := Admm.computeResiduals C o s
  let s := if o.fastSolve then s else
    { s with itstat := s.itstat ++ [⟨k, C.objfn s.X s.Y s.extra, q, s.rho⟩] }
  let s := if o.withRsdl then Mod.updateRhoMC o k q.r q.s s else s
  (s, o.withRsdl && decide (q.r < q.epri ∧ q.s < q.edua))

/-- The loop. -/
noncomputable def loopMC (Pcn : Coef A M N → Coef A M N) (Z : Fin Nb → M → Grid N → ℝ) (S W : A → Fin Nb → Grid N → ℝ)
    (o : Admm.Opts) : List ℕ → StMC A Nb M N a → StMC A Nb M N a
  | [], s => s
  | k :: ks, s =>
    let b := bodyMC Pcn Z S W o k s
    if b.2 then b.1 else loopMC Pcn Z S W o ks b.1

/-- `ADMM.solve` (`admm/admm.py` 293-389) on such an object. -/
noncomputable def solveMC (Pcn : Coef A M N → Coef A M N) (Z : Fin Nb → M → Grid N → ℝ) (S W : A → Fin Nb → Grid N → ℝ)
    (o : Admm.Opts) (s : StMC A Nb M N a) : StMC A Nb M N a :=
  let s := loopMC Pcn Z S W o (List.range' s.k o.maxMainIter) s
  { s with k := s.k + 1 }

theorem bodyMC_Y (Pcn : Coef A M N → Coef A M N) (Z : Fin Nb → M → Grid N → ℝ) (S W : A → Fin Nb → Grid N → ℝ)
    (o : Admm.Opts) (k : ℕ) (s : StMC A Nb M N a) :
    (bodyMC Pcn Z S W o k s).1.Y = (Admm.steps (Mod.clsMC a Pcn Z S W) o { s with k := k }).Y := by
  unfold bodyMC Mod.updateRhoMC
  dsimp only
  split_ifs <;> rfl

/-- A property that every value of the projection has holds for the dictionary after every `solve`. -/
theorem solveMC_Y (Pcn : Coef A M N → Coef A M N) (Z : Fin Nb → M → Grid N → ℝ) (S W : A → Fin Nb → Grid N → ℝ)
    (o : Admm.Opts) (Q : Coef A M N → Prop) (hp : ∀ v, Q (Pcn v)) (s : StMC A Nb M N a) (h : Q s.Y.fst) :
    Q (solveMC Pcn Z S W o s).Y.fst := by
  have : ∀ (ks : List ℕ) (s : StMC A Nb M N a), Q s.Y.fst → Q (loopMC Pcn Z S W o ks s).Y.fst := by
    intro ks
    induction ks with
    | nil => exact fun s h => h
    | cons k ks ih =>
      intro s h
      have hb : Q (bodyMC Pcn Z S W o k s).1.Y.fst := by
        rw [bodyMC_Y]
        exact hp _
      simp only [loopMC]
      split_ifs
      · exact hb
      · exact ih _ hb
  exact this _ s h

end SolveMC

section Model
variable {d c κ m : ℕ} {N : Fin d → ℕ} [∀ k, NeZero (N k)] {a : Fin d}

/-- The arguments and options of `ConvBPDNMaskDictLearn` (`cbpdndlmd.py` 391-435): `S`, `W` (already broadcast), `lmbda`;
for sparse coding `L1Weight` (already broadcast), `HighMemSolve`, `NonNegCoef`, `NoBndryCross`, `AuxVarObj`, whether
`ReturnVar` is `'X'` (otherwise it is `'Y1'`, the default; with `'Y0'` `getcoef` does not return coefficients) and the ADMM
or PGM options; `dsz` (`DictSize` or the shape of `D0`), the number of channel axes, `ZeroMean`, `AuxVarObj` and the ADMM or
PGM options of the dictionary update; the X update of `ConvCnstrMODMaskDcpl_CG` (`admm/ccmodmd.py` 725-751; the conjugate
gradient solver is not modelled, so this is any function); `AccurateDFid`. -/
structure PrmM (d c κ m : ℕ) (N : Fin d → ℕ) [∀ k, NeZero (N k)] (a : Fin d) where
  S : Signal c (Fin (κ + 1)) N
  W : Signal c (Fin (κ + 1)) N
  lmbda : ℝ
  w : Fin (κ + 1) × Fin m × Grid N → ℝ
  q : COpts
  avX : Bool
  retX : Bool
  oX : Admm.Opts
  pX : Pgm.Opts
  dsz : Dsz
  dimC : ℕ
  zm : Bool
  avD : Bool
  oD : Admm.Opts
  pD : Pgm.Opts
  cg : (Fin (κ + 1) → Fin m → Grid N → ℝ) → ℝ → Coef (Fin (c + 1)) (Fin m) N →
    Mod.YD (Fin (c + 1)) (Fin (κ + 1)) (Fin m) N → Mod.YD (Fin (c + 1)) (Fin (κ + 1)) (Fin m) N →
    Spec (Fin (c + 1)) (Fin m) N a → Coef (Fin (c + 1)) (Fin m) N × Spec (Fin (c + 1)) (Fin m) N a
  acc : Bool

/-- The size of the filters. -/
abbrev PrmM.ext (P : PrmM d c κ m N a) : Fin d → ℕ := fun k => P.dsz.extent k.val

/-- The sparse coding object with its dictionary: of class `admm.cbpdn.ConvBPDNMaskDcpl`, or of class
`pgm.cbpdn.ConvBPDNMask`. -/
def XSt (P : PrmM d c κ m N a) : XM → Type
  | .admm => Admm.St (Coef (Fin (κ + 1)) (Fin m) N) (TB.YY c (Fin (κ + 1)) (Fin m) N) (TB.YY c (Fin (κ + 1)) (Fin m) N)
      (TB.AttrTB (Fin (κ + 1)) (Fin m) N a) × Dict c (Fin m) P.ext
  | .pgm => Pgm.St (VarsF (Coef (Fin (κ + 1)) (Fin m) N) (HS (Fin (κ + 1)) (Fin m) N a)) × Dict c (Fin m) P.ext

/-- The state of an object of class `ConvCnstrMODMaskDcpl_IterSM` or `ConvCnstrMODMaskDcpl_CG`. -/
abbrev StMD (c κ m : ℕ) {d : ℕ} (N : Fin d → ℕ) [∀ k, NeZero (N k)] (a : Fin d) : Type :=
  Admm.St (Coef (Fin (c + 1)) (Fin m) N) (Mod.YD (Fin (c + 1)) (Fin (κ + 1)) (Fin m) N)
    (Mod.YD (Fin (c + 1)) (Fin (κ + 1)) (Fin m) N) (Spec (Fin (c + 1)) (Fin m) N a)

variable (c κ m N a) in
/-- The dictionary update object with its coefficient maps: of one of the classes of `admm/ccmodmd.py`, or of class
`pgm.ccmod.ConvCnstrMODMask`. -/
def DSt : DM → Type
  | .ism => StMD c κ m N a × (Fin (κ + 1) → Fin m → Grid N → ℝ)
  | .cg => StMD c κ m N a × (Fin (κ + 1) → Fin m → Grid N → ℝ)
  | .cns => StMC (Fin (c + 1)) (κ + 1) (Fin m) N a × (Fin (κ + 1) → Fin m → Grid N → ℝ)
  | .pgm => Pgm.St (VarsF (Coef (Fin (c + 1)) (Fin m) N) (HS (Fin (c + 1)) (Fin m) N a)) ×
      (Fin (κ + 1) → Fin m → Grid N → ℝ)

/-- The sparse coding object of `ConvBPDNMaskDictLearn`.  `solve`: `admm/admm.py` 293-389, `pgm/pgm.py` 300-382; `getcoef`:
`admm/cbpdn.py` 1603-1606 with `getmin` (`admm/admm.py` 1113-1124), `pgm/cbpdn.py` 256-259; `setdict`: `admm/cbpdn.py`
1589-1599, `pgm/cbpdn.py` 247-253. -/
noncomputable def xC (P : PrmM d c κ m N a) :
    (x : XM) → XStep (XSt P x) (Coef (Fin (κ + 1)) (Fin m) N) (Arr (d + 2 + 1)) ℝ
  | .admm =>
    { solve := fun s => (Admm.solve (TB.clsMask a P.q s.2 P.S P.W P.lmbda P.w P.avX) P.oX none s.1, s.2)
      getcoef := fun s => if P.retX then Admm.St.X s.1 else Admm.TwoBlock.sep1 (Admm.St.Y s.1)
      setdict := fun D s => (Admm.St.mk s.1.X s.1.Y s.1.Yprev s.1.U s.1.AX s.1.AXnr s.1.rho s.1.k s.1.itstat
        (TB.setdict P.q (dictOf P.dsz D : Dict c (Fin m) P.ext) s.1.extra.Xf), dictOf P.dsz D)
      itstat := fun s => (Admm.St.itstat s.1).map statB
      fields := fldB }
  | .pgm =>
    { solve := fun s =>
        (Pgm.solve (Pgm.DFT.ops (PgmConv.clsBPDNMask a P.q s.2 P.S P.lmbda P.w P.W) P.pX) P.pX none s.1, s.2)
      getcoef := fun s => s.1.v.X
      setdict := fun D s => (s.1, dictOf P.dsz D)
      itstat := fun s => s.1.itstat.map statXP
      fields := fldXP }

/-- The variable of the dictionary update that `getdict` reads: block 1 of Y (`admm/ccmodmd.py` 344-352); Y for the consensus
class (`admm/ccmod.py` 849-857), here the first component; X for PGM (`pgm/ccmod.py` 283-291). -/
def dvar : (δ : DM) → DSt c κ m N a δ → Coef (Fin (c + 1)) (Fin m) N
  | .ism => fun s => Admm.TwoBlock.sep1 (Admm.St.Y s.1)
  | .cg => fun s => Admm.TwoBlock.sep1 (Admm.St.Y s.1)
  | .cns => fun s => (Admm.St.Y s.1).fst
  | .pgm => fun s => s.1.v.X

/-- `solve` of the dictionary update object (`admm/admm.py` 293-389, `pgm/pgm.py` 300-382) for the classes
`ConvCnstrMODMaskDcpl_IterSM`, `ConvCnstrMODMaskDcpl_CG`, `ConvCnstrMODMaskDcpl_Consensus` and `ConvCnstrMODMask` of
`pgm/ccmod.py`. -/
noncomputable def dSolve (P : PrmM d c κ m N a) : (δ : DM) → DSt c κ m N a δ → DSt c κ m N a δ
  | .ism => fun s => (Admm.solve (Mod.clsMD a (pcnC P.dsz P.dimC P.zm) s.2 P.S P.W P.avD) P.oD none s.1, s.2)
  | .cg => fun s => (Admm.solve { Mod.clsMD a (pcnC P.dsz P.dimC P.zm) s.2 P.S P.W P.avD with xstep := P.cg s.2 }
      P.oD none s.1, s.2)
  | .cns => fun s => (solveMC (pcnC P.dsz P.dimC P.zm) s.2 P.S P.W P.oD s.1, s.2)
  | .pgm => fun s =>
      (Pgm.solve (Pgm.DFT.ops (PgmConv.clsMODMask a (pcnC P.dsz P.dimC P.zm) s.2 P.S P.W) P.pD) P.pD none s.1, s.2)

/-- `setcoef` (`admm/ccmodmd.py` 326-340, 878-890, `pgm/ccmod.py` 264-279). -/
noncomputable def dSet (Z : Coef (Fin (κ + 1)) (Fin m) N) : (δ : DM) → DSt c κ m N a δ → DSt c κ m N a δ
  | .ism => fun s => (s.1, part Z)
  | .cg => fun s => (s.1, part Z)
  | .cns => fun s => (s.1, part Z)
  | .pgm => fun s => (s.1, part Z)

/-- The recorded statistics. -/
noncomputable def dStat : (δ : DM) → DSt c κ m N a δ → List (Ntpl ℝ)
  | .ism => fun s => (Admm.St.itstat s.1).map statC
  | .cg => fun s => (Admm.St.itstat s.1).map statC
  | .cns => fun s => (Admm.St.itstat s.1).map statC
  | .pgm => fun s => s.1.itstat.map statDP

/-- The dictionary update object of `ConvBPDNMaskDictLearn`. -/
noncomputable def dC (P : PrmM d c κ m N a) (δ : DM) :
    DStep (DSt c κ m N a δ) (Coef (Fin (κ + 1)) (Fin m) N) (Arr (d + 2 + 1)) ℝ where
  solve := dSolve P δ
  getdict s := cropC P.dsz (dvar δ s)
  setcoef Z := dSet Z δ
  itstat := dStat δ
  fields := if δ.isPgm then fldDP else fldC

/-- The variable whose l1 norm `evaluate` computes (`cbpdndlmd.py` 532-535): block 1 of Y for ADMM, X for PGM. -/
def xvar (P : PrmM d c κ m N a) : (x : XM) → XSt P x → Coef (Fin (κ + 1)) (Fin m) N
  | .admm => fun s => Admm.TwoBlock.sep1 (Admm.St.Y s.1)
  | .pgm => fun s => s.1.v.X

/-- `ConvBPDNMaskDictLearn.reconstruct` with its default arguments (`cbpdndlmd.py` 511-521). -/
noncomputable def reconC (P : PrmM d c κ m N a) (x : XM) (δ : DM) (s : XSt P x) (t : DSt c κ m N a δ) :
    Signal c (Fin (κ + 1)) N := fun i k =>
  irfft N a fun ξ => Linalg.inner (fun f => rfft N a (part (dvar δ t) i f) ξ)
    (fun f => rfft N a (part ((xC P x).getcoef s) k f) ξ)

/-- `ConvBPDNMaskDictLearn.evaluate` (`cbpdndlmd.py` 525-540). -/
noncomputable def evlC (P : PrmM d c κ m N a) (x : XM) (δ : DM) (s : XSt P x) (t : DSt c κ m N a δ) : Option (Ntpl ℝ) :=
  if P.acc then
    let DX := reconC P x δ s t
    let dfd := ‖(join fun i k p => P.W i k p * (DX i k p - P.S i k p) : Sig (Fin (c + 1)) (Fin (κ + 1)) N)‖ ^ 2 / 2
    let rl1 := ∑ i, |(xvar P x s) i|
    some (evlTuple dfd rl1 (dfd + P.lmbda * rl1))
  else none

/-- `ConvBPDNMaskDictLearn` (`cbpdndlmd.py` 480-540) as an instance of `DictLearn`; the configuration of the statistics is
the same as in `ConvBPDNDictLearn`. -/
noncomputable def envC (P : PrmM d c κ m N a) (x : XM) (δ : DM) (clock : ℕ → ℝ) :
    Env (XSt P x) (DSt c κ m N a δ) (Coef (Fin (κ + 1)) (Fin m) N) (Arr (d + 2 + 1)) ℝ :=
  ⟨xC P x, dC P δ, iscConv x.isAdmm δ.isPgm (hasBt P.pX) (hasBt P.pD) P.acc, evlC P x δ, 0, clock⟩

/-- The dictionary that the sparse coding object has. -/
def xdict (P : PrmM d c κ m N a) : (x : XM) → XSt P x → Dict c (Fin m) P.ext
  | .admm => Prod.snd
  | .pgm => Prod.snd

/-- The sparse coding object that the constructor makes from the projected dictionary `D` (`cbpdndlmd.py` 480-482;
`admm/cbpdn.py` 1576-1585, `pgm/cbpdn.py` 229-243); the initial values that the options determine are arbitrary. -/
def XInit (P : PrmM d c κ m N a) (D : Arr (d + 2 + 1)) : (x : XM) → XSt P x → Prop
  | .admm => fun s => Admm.St.k s.1 = 0 ∧ Admm.St.itstat s.1 = [] ∧
      (∃ Xf, Admm.St.extra s.1 = TB.setdict P.q (dictOf P.dsz D : Dict c (Fin m) P.ext) Xf) ∧ s.2 = dictOf P.dsz D
  | .pgm => fun s => PgmConv.Fresh (PgmConv.clsBPDNMask a P.q s.2 P.S P.lmbda P.w P.W) s.1 ∧ s.2 = dictOf P.dsz D

/-- The dictionary update object that the constructor makes (`cbpdndlmd.py` 465-478, 484-486): the dictionary block of `Y0`
(or `X0`) is the projected dictionary extended by zeros, the other block is zero. -/
def DInit (P : PrmM d c κ m N a) (D : Arr (d + 2 + 1)) : (δ : DM) → DSt c κ m N a δ → Prop
  | .ism => fun s => Admm.St.k s.1 = 0 ∧ Admm.St.itstat s.1 = [] ∧ Admm.St.Y s.1 = Admm.TwoBlock.cat 0 (coefOf D)
  | .cg => fun s => Admm.St.k s.1 = 0 ∧ Admm.St.itstat s.1 = [] ∧ Admm.St.Y s.1 = Admm.TwoBlock.cat 0 (coefOf D)
  | .cns => fun s => Admm.St.k s.1 = 0 ∧ Admm.St.itstat s.1 = [] ∧ Admm.St.Y s.1 = Admm.TwoBlock.cat (coefOf D) 0 ∧
      (Admm.St.U s.1).snd = 0
  | .pgm => fun s => PgmConv.Fresh (PgmConv.clsMODMask a (pcnC P.dsz P.dimC P.zm) s.2 P.S P.W) s.1 ∧
      s.1.v.X = coefOf D

/-- What the constructor makes from `D0` (`cbpdndlmd.py` 452-486); as for `ConvBPDNDictLearn`, `D0` is in standard layout
with all its axes, at least as large as the declared size, which is at most that of the signal. -/
structure Constructed (P : PrmM d c κ m N a) (D0 D : Arr (d + 2 + 1)) (x : XM) (δ : DM) (s : XSt P x)
    (t : DSt c κ m N a δ) : Prop where
  wf : P.dsz.WF (d + 2) d
  fit : ∀ k : Fin d, P.dsz.extent k.val ≤ N k
  size : ∃ sh : Fin d → ℕ, D0.sh = idx sh (c + 1) 1 m ∧ ∀ k : Fin d, P.dsz.extent k.val ≤ sh k
  norm : Pcn D0 P.dsz [] d P.dimC true P.zm = some D
  xstep : XInit P D x s
  dstep : DInit P D δ t

end Model

/-! ## Rows -/

section Proofs
variable {d c κ m : ℕ} {N : Fin d → ℕ} [∀ k, NeZero (N k)] {a : Fin d}

theorem xC_fields (P : PrmM d c κ m N a) (x : XM) (s : XSt P x) :
    HasFields (lastStat ((xC P x).itstat s) (xC P x).fields 0) (if x.isAdmm then fldB else fldXP) := by
  cases x
  · exact map_fields statB_fields _
  · exact map_fields statXP_fields _

theorem dC_fields (P : PrmM d c κ m N a) (δ : DM) (s : DSt c κ m N a δ) :
    HasFields (lastStat ((dC P δ).itstat s) (dC P δ).fields 0) (if δ.isPgm then fldDP else fldC) := by
  cases δ
  · exact map_fields statC_fields _
  · exact map_fields statC_fields _
  · exact map_fields statC_fields _
  · exact map_fields statDP_fields _

theorem rowsOk_C (P : PrmM d c κ m N a) (x : XM) (δ : DM) (clock : ℕ → ℝ) : RowsOk (envC P x δ clock) := by
  intro j s t
  refine row_some fun f hf => okSrcF_val (iscC_ok _ _ _ _ P.acc f hf) (xC_fields P x _) (dC_fields P δ _) fun hacc => ?_
  change ∃ g, evlC P x δ _ _ = some g ∧ _
  unfold evlC
  rw [hacc]
  exact ⟨_, rfl, evlTuple_fields _ _ _⟩

/-! ## The dictionary -/

/-- The variable of the dictionary update is in the constraint set. -/
def DFeas (P : PrmM d c κ m N a) (V : Coef (Fin (c + 1)) (Fin m) N) : Prop :=
  Feasible d (d + P.dimC) P.dsz P.zm (full V)

theorem dC_step (P : PrmM d c κ m N a) (hw : P.dsz.WF (d + 2) d) (hN : ∀ k : Fin d, P.dsz.extent k.val ≤ N k)
    (hz : P.zm = false ∨ d = 2) (δ : DM) (z : Coef (Fin (κ + 1)) (Fin m) N) (t : DSt c κ m N a δ) (h : DFeas P (dvar δ t)) :
    DFeas P (dvar δ ((dC P δ).solve ((dC P δ).setcoef z t))) := by
  cases δ with
  | ism =>
    exact Admm.solve_Y (Mod.clsMD a (pcnC P.dsz P.dimC P.zm) (part z) P.S P.W P.avD) P.oD
      (fun Y => DFeas P (Admm.TwoBlock.sep1 Y)) (fun _ _ _ _ _ _ => pcnC_feasible hw hN hz _) t.1 h
  | cg =>
    exact Admm.solve_Y { Mod.clsMD a (pcnC P.dsz P.dimC P.zm) (part z) P.S P.W P.avD with xstep := P.cg (part z) } P.oD
      (fun Y => DFeas P (Admm.TwoBlock.sep1 Y)) (fun _ _ _ _ _ _ => pcnC_feasible hw hN hz _) t.1 h
  | cns =>
    exact solveMC_Y (pcnC P.dsz P.dimC P.zm) (part z) P.S P.W P.oD (DFeas P) (fun _ => pcnC_feasible hw hN hz _) t.1 h
  | pgm =>
    exact Pgm.DFT.solve_X (PgmConv.clsMODMask a (pcnC P.dsz P.dimC P.zm) (part z) P.S P.W) P.pD (DFeas P)
      (fun _ _ => pcnC_feasible hw hN hz _) t.1 h

theorem Constructed.dfeas {P : PrmM d c κ m N a} {D0 D : Arr (d + 2 + 1)} {x : XM} {δ : DM} {s : XSt P x}
    {t : DSt c κ m N a δ} (h : Constructed P D0 D x δ s t) : DFeas P (dvar δ t) ∧ dvar δ t = coefOf D := by
  have e : dvar δ t = coefOf D := by
    have := h.dstep
    cases δ with
    | ism => exact congrArg Admm.TwoBlock.sep1 this.2.2
    | cg => exact congrArg Admm.TwoBlock.sep1 this.2.2
    | cns => exact congrArg (fun y => y.fst) this.2.2.1
    | pgm => exact this.2
  obtain ⟨sh, h1, h2⟩ := h.size
  rw [e]
  exact ⟨coefOf_feasible h.wf h.fit h1 h2 h.norm, rfl⟩

/-- The dictionary that the sparse coding object gets from the constructor is the one that `getdict` returns. -/
theorem Constructed.dict {P : PrmM d c κ m N a} {D0 D : Arr (d + 2 + 1)} {x : XM} {δ : DM} {s : XSt P x}
    {t : DSt c κ m N a δ} (h : Constructed P D0 D x δ s t) :
    (dictOf P.dsz ((dC P δ).getdict t) : Dict c (Fin m) P.ext) = dictOf P.dsz D := by
  obtain ⟨hf, e⟩ := h.dfeas
  obtain ⟨-, -, h3⟩ := cropC_spec h.wf h.fit hf
  obtain ⟨sh, h4, h5⟩ := h.size
  obtain ⟨-, hsh⟩ := Pcn_shape h.wf h4 h5 h.norm
  funext i f
  refine pad_inj h.fit ?_
  rw [← part_coefOf hsh, ← e]
  exact h3 i f

theorem xdict_init {P : PrmM d c κ m N a} {D0 D : Arr (d + 2 + 1)} {x : XM} {δ : DM} {s : XSt P x}
    {t : DSt c κ m N a δ} (h : Constructed P D0 D x δ s t) : xdict P x s = dictOf P.dsz D := by
  have := h.xstep
  cases x with
  | admm => exact this.2.2.2
  | pgm => exact this.2

theorem xdict_set (P : PrmM d c κ m N a) (x : XM) (D : Arr (d + 2 + 1)) (s : XSt P x) :
    xdict P x ((xC P x).setdict D s) = dictOf P.dsz D := by
  cases x <;> rfl

/-- **C71 for `ConvBPDNMaskDictLearn`.** For every input and mask, every method of sparse coding and dictionary update,
every option value, sequence of `solve` calls and callbacks (and zero mean only with two spatial axes): after the
construction, after every iteration and at the end the dictionary that the object returns is in the constraint set: each
filter vanishes outside its declared support, has unit norm (or is zero), and zero mean if that is requested; and the sparse
coding object has that same dictionary. -/
theorem C71_maskdl_partial (P : PrmM d c κ m N a) (hz : P.zm = false ∨ d = 2) (x : XM) (δ : DM) (clock : ℕ → ℝ)
    (D0 D : Arr (d + 2 + 1)) (x0 : XSt P x) (d0 : DSt c κ m N a δ) (hc : Constructed P D0 D x δ x0 d0)
    (cs : List (ℕ × (DL (XSt P x) (DSt c κ m N a δ) ℝ → Bool))) :
    ∃ s xs ds, dlRun (envC P x δ clock) cs ⟨x0, d0, 0, []⟩ = some s ∧
      Alternates (envC P x δ clock) x0 d0 xs ds ∧
      AtEnd (envC P x δ clock) x0 d0 xs ds s.itstat.length s.x s.d ∧
      (∀ t, t = d0 ∨ (∃ k, t = ds k) ∨ t = s.d →
        Feasible d (d + P.dimC) P.dsz P.zm ((dC P δ).getdict t) ∧
        ((dC P δ).getdict t).sh = idx (fun k : Fin d => P.dsz.extent k.val) (c + 1) 1 m) ∧
      xdict P x x0 = dictOf P.dsz ((dC P δ).getdict d0) ∧
      xdict P x s.x = dictOf P.dsz ((dC P δ).getdict s.d) := by
  obtain ⟨s, hs⟩ := run_total (rowsOk_C P x δ clock) cs ⟨x0, d0, 0, []⟩
  obtain ⟨xs, ds, n, h1, h2, -, rfl, -⟩ := C55_alternation hs
  have h0 := hc.dfeas.1
  have hds : ∀ k, DFeas P (dvar δ (ds k)) :=
    alt_inv_d h1 (fun t => DFeas P (dvar δ t)) h0 fun z t ht => dC_step P hc.wf hc.fit hz δ z t ht
  have hx0 : xdict P x x0 = dictOf P.dsz ((dC P δ).getdict d0) := by rw [xdict_init hc, hc.dict]
  have hend : DFeas P (dvar δ s.d) ∧ xdict P x s.x = dictOf P.dsz ((dC P δ).getdict s.d) := by
    generalize s.itstat.length = n at h2
    cases n with
    | zero =>
      obtain ⟨e1, e2⟩ := h2
      rw [e1, e2]
      exact ⟨h0, hx0⟩
    | succ k =>
      obtain ⟨e1, e2⟩ := h2
      rw [e1, e2]
      exact ⟨hds k, xdict_set P x _ _⟩
  refine ⟨s, xs, ds, hs, h1, h2, ?_, hx0, hend.2⟩
  have key : ∀ t, DFeas P (dvar δ t) → Feasible d (d + P.dimC) P.dsz P.zm ((dC P δ).getdict t) ∧
        ((dC P δ).getdict t).sh = idx (fun k : Fin d => P.dsz.extent k.val) (c + 1) 1 m := fun t ht =>
    ⟨(cropC_spec hc.wf hc.fit ht).1, (cropC_spec hc.wf hc.fit ht).2.1⟩
  rintro t (rfl | ⟨k, rfl⟩ | rfl)
  · exact key _ h0
  · exact key _ (hds k)
  · exact key _ hend.1

/-! ## The recorded values -/

/-- `reconstruct` gives the sum of the convolutions. -/
theorem recon_eq (P : PrmM d c κ m N a) (hw : P.dsz.WF (d + 2) d) (hN : ∀ k : Fin d, P.dsz.extent k.val ≤ N k)
    (x : XM) (δ : DM) (s : XSt P x) (t : DSt c κ m N a δ) (h : DFeas P (dvar δ t)) :
    reconC P x δ s t = recon (dictOf P.dsz ((dC P δ).getdict t) : Dict c (Fin m) P.ext) (part ((xC P x).getcoef s)) := by
  obtain ⟨-, -, h3⟩ := cropC_spec hw hN h
  have h3' : ∀ i f, pad N ((dictOf P.dsz ((dC P δ).getdict t) : Dict c (Fin m) P.ext) i f) = part (dvar δ t) i f := h3
  rw [← C40_reconstruct (a := a) hN P.q (dictOf P.dsz ((dC P δ).getdict t) : Dict c (Fin m) P.ext) P.S 0
    (fun _ _ _ => 0) ((xC P x).getcoef s)]
  funext i k
  unfold reconC reconstruct Conv.setdict dictF
  simp only [h3']
  rfl

theorem evlC_eq (P : PrmM d c κ m N a) (hw : P.dsz.WF (d + 2) d) (hN : ∀ k : Fin d, P.dsz.extent k.val ≤ N k)
    (hacc : P.acc = true) (x : XM) (δ : DM) (s : XSt P x) (t : DSt c κ m N a δ) (h : DFeas P (dvar δ t)) :
    let dfd := maskTerm (dictOf P.dsz ((dC P δ).getdict t) : Dict c (Fin m) P.ext) P.S P.W (part ((xC P x).getcoef s))
    let rl1 := ∑ k, ∑ f, ∑ p, |part (xvar P x s) k f p|
    evlC P x δ s t = some (evlTuple dfd rl1 (dfd + P.lmbda * rl1)) := by
  intro dfd rl1
  have e : ‖(join fun i k p => P.W i k p * (reconC P x δ s t i k p - P.S i k p) :
      Sig (Fin (c + 1)) (Fin (κ + 1)) N)‖ ^ 2 / 2 = dfd := by
    rw [norm_part, recon_eq P hw hN x δ s t h]
    change _ = 1 / 2 * _
    rw [div_eq_mul_one_div, mul_comm]
    rfl
  unfold evlC
  simp only [hacc, if_true]
  rw [e, sum_abs_part]

theorem xvar_set (P : PrmM d c κ m N a) (x : XM) (D : Arr (d + 2 + 1)) (s : XSt P x) :
    xvar P x ((xC P x).setdict D s) = xvar P x s ∧
      (xC P x).getcoef ((xC P x).setdict D s) = (xC P x).getcoef s := by
  cases x <;> exact ⟨rfl, rfl⟩

theorem xvar_getcoef (P : PrmM d c κ m N a) (x : XM) (hx : x = .pgm ∨ P.retX = false) (s : XSt P x) :
    xvar P x s = (xC P x).getcoef s := by
  cases x with
  | admm =>
    rcases hx with h | h
    · cases h
    · change Admm.TwoBlock.sep1 (Admm.St.Y s.1) = if P.retX then Admm.St.X s.1 else Admm.TwoBlock.sep1 (Admm.St.Y s.1)
      rw [h]; rfl
  | pgm => rfl

/-- With `AccurateDFid` the values are those at the dictionary and the variables that `evaluate` reads. -/
theorem accurate_var (P : PrmM d c κ m N a) (hz : P.zm = false ∨ d = 2) (hacc : P.acc = true) (x : XM) (δ : DM)
    (clock : ℕ → ℝ) (D0 D : Arr (d + 2 + 1)) (x0 : XSt P x) (d0 : DSt c κ m N a δ) (hc : Constructed P D0 D x δ x0 d0)
    (cs : List (ℕ × (DL (XSt P x) (DSt c κ m N a δ) ℝ → Bool))) :
    ∃ s xs ds, dlRun (envC P x δ clock) cs ⟨x0, d0, 0, []⟩ = some s ∧
      Alternates (envC P x δ clock) x0 d0 xs ds ∧
      AtEnd (envC P x δ clock) x0 d0 xs ds s.itstat.length s.x s.d ∧
      ∀ k (hk : k < s.itstat.length),
        let D : Dict c (Fin m) P.ext := dictOf P.dsz ((dC P δ).getdict (ds k))
        let X := part ((xC P x).getcoef (xs k))
        let V := part (xvar P x (xs k))
        s.itstat[k].map Prod.fst = (envC P x δ clock).isc.isfld ∧
        ("DFid", Val.val (maskTerm D P.S P.W X)) ∈ s.itstat[k] ∧
        ("RegL1", Val.val (∑ k, ∑ f, ∑ p, |V k f p|)) ∈ s.itstat[k] ∧
        ("ObjFun", Val.val (maskTerm D P.S P.W X + P.lmbda * ∑ k, ∑ f, ∑ p, |V k f p|)) ∈ s.itstat[k] := by
  obtain ⟨s, hs⟩ := run_total (rowsOk_C P x δ clock) cs ⟨x0, d0, 0, []⟩
  obtain ⟨xs, ds, n, h1, h2, -, rfl, num, -, h4⟩ := C55_alternation hs
  have hds : ∀ k, DFeas P (dvar δ (ds k)) :=
    alt_inv_d h1 (fun t => DFeas P (dvar δ t)) hc.dfeas.1 fun z t ht => dC_step P hc.wf hc.fit hz δ z t ht
  refine ⟨s, xs, ds, hs, h1, h2, fun k hk => ?_⟩
  have h5 := h4 k hk
  obtain ⟨c1, -, -, -, c2⟩ := conf_src x.isAdmm δ.isPgm (hasBt P.pX) (hasBt P.pD) P.acc
  have he := evlC_eq P hc.wf hc.fit hacc x δ ((xC P x).setdict ((dC P δ).getdict (ds k)) (xs k)) (ds k) (hds k)
  simp only [(xvar_set P x _ _).1, (xvar_set P x _ _).2] at he
  have he' : (envC P x δ clock).evl ((envC P x δ clock).X.setdict ((envC P x δ clock).D.getdict (ds k)) (xs k)) (ds k) =
    _ := he
  refine ⟨(C55_fields h5).1, ?_, ?_, ?_⟩ <;>
  · refine row_val h5 (c1 _ (by decide)) ?_
    rw [show (envC P x δ clock).isc = iscConv x.isAdmm δ.isPgm (hasBt P.pX) (hasBt P.pD) P.acc from rfl, c2 _ (by decide),
      hacc, he']
    rfl

/-- **C70 for `ConvBPDNMaskDictLearn` with `AccurateDFid`.** For every input and mask, every method of sparse coding and
dictionary update, every option value (`ReturnVar` as by default, and zero mean only with two spatial axes), sequence of
`solve` calls and callbacks: no error in the recording of statistics, and the values recorded in each row are the data
fidelity `(1/2) Σ ‖W (Σ d*x - s)‖²`, the l1 norm of the coefficients, and the functional, at the dictionary and the
coefficients that the object returns right after the iteration. -/
theorem C70_maskdl_accurate_partial (P : PrmM d c κ m N a) (hz : P.zm = false ∨ d = 2) (hacc : P.acc = true) (x : XM)
    (hx : x = .pgm ∨ P.retX = false) (δ : DM) (clock : ℕ → ℝ)
    (D0 D : Arr (d + 2 + 1)) (x0 : XSt P x) (d0 : DSt c κ m N a δ) (hc : Constructed P D0 D x δ x0 d0)
    (cs : List (ℕ × (DL (XSt P x) (DSt c κ m N a δ) ℝ → Bool))) :
    ∃ s xs ds, dlRun (envC P x δ clock) cs ⟨x0, d0, 0, []⟩ = some s ∧
      Alternates (envC P x δ clock) x0 d0 xs ds ∧
      AtEnd (envC P x δ clock) x0 d0 xs ds s.itstat.length s.x s.d ∧
      ∀ k (hk : k < s.itstat.length),
        let D : Dict c (Fin m) P.ext := dictOf P.dsz ((dC P δ).getdict (ds k))
        let X := part ((xC P x).getcoef (xs k))
        s.itstat[k].map Prod.fst = (envC P x δ clock).isc.isfld ∧
        ("DFid", Val.val (maskTerm D P.S P.W X)) ∈ s.itstat[k] ∧
        ("RegL1", Val.val (∑ k, ∑ f, ∑ p, |X k f p|)) ∈ s.itstat[k] ∧
        ("ObjFun", Val.val (maskTerm D P.S P.W X + P.lmbda * ∑ k, ∑ f, ∑ p, |X k f p|)) ∈ s.itstat[k] := by
  obtain ⟨s, xs, ds, h1, h2, h3, h4⟩ := accurate_var P hz hacc x δ clock D0 D x0 d0 hc cs
  refine ⟨s, xs, ds, h1, h2, h3, fun k hk => ?_⟩
  have := h4 k hk
  rw [xvar_getcoef P x hx] at this
  exact this

/-- **C40 for `ConvBPDNMaskDictLearn`.** At any time, `reconstruct()` is the sum of the circular convolutions of the filters
that `getdict()` returns with the coefficient maps that `getcoef()` returns. -/
theorem C40_maskdl_reconstruct (P : PrmM d c κ m N a) (hz : P.zm = false ∨ d = 2) (x : XM) (δ : DM) (clock : ℕ → ℝ)
    (D0 D : Arr (d + 2 + 1)) (x0 : XSt P x) (d0 : DSt c κ m N a δ) (hc : Constructed P D0 D x δ x0 d0)
    (cs : List (ℕ × (DL (XSt P x) (DSt c κ m N a δ) ℝ → Bool))) :
    ∃ s, dlRun (envC P x δ clock) cs ⟨x0, d0, 0, []⟩ = some s ∧
      reconC P x δ s.x s.d = recon (dictOf P.dsz ((dC P δ).getdict s.d) : Dict c (Fin m) P.ext)
        (part ((xC P x).getcoef s.x)) := by
  obtain ⟨s, hs⟩ := run_total (rowsOk_C P x δ clock) cs ⟨x0, d0, 0, []⟩
  obtain ⟨xs, ds, n, h1, h2, -⟩ := C55_alternation hs
  have hds : ∀ k, DFeas P (dvar δ (ds k)) :=
    alt_inv_d h1 (fun t => DFeas P (dvar δ t)) hc.dfeas.1 fun z t ht => dC_step P hc.wf hc.fit hz δ z t ht
  have hend : DFeas P (dvar δ s.d) := by
    cases n with
    | zero => obtain ⟨-, e2⟩ := h2; rw [e2]; exact hc.dfeas.1
    | succ k => obtain ⟨-, e2⟩ := h2; rw [e2]; exact hds k
  exact ⟨s, hs, recon_eq P hc.wf hc.fit x δ s.x s.d hend⟩

/-- The variable at which the sparse coding object evaluates its functional with `AuxVarObj` false. -/
def fvarX (P : PrmM d c κ m N a) : (x : XM) → XSt P x → Coef (Fin (κ + 1)) (Fin m) N
  | .admm => fun s => Admm.St.X s.1
  | .pgm => fun s => s.1.v.X

/-- The sparse coding object is in step with its dictionary `D`. -/
def XInv (P : PrmM d c κ m N a) (D : Dict c (Fin m) P.ext) : (x : XM) → XSt P x → Prop
  | .admm => fun s => s.2 = D ∧ TB.CohTB P.q D (Admm.St.extra s.1)
  | .pgm => fun s => s.2 = D ∧ s.1.v.Xf = PgmConv.fwd a s.1.v.X

/-- Its last entry of statistics consists of the terms of the functional for the dictionary `D`. -/
def LastX (P : PrmM d c κ m N a) (D : Dict c (Fin m) P.ext) (x : XM) (s : XSt P x) : Prop :=
  ∃ g, ((xC P x).itstat s).getLast? = some g ∧
    g "DFid" = some (maskTerm D P.S P.W (part (fvarX P x s))) ∧
    g "RegL1" = some (∑ k, ∑ f, ∑ p, P.w (k, f, p) * |part (fvarX P x s) k f p|) ∧
    g "ObjFun" = some (maskTerm D P.S P.W (part (fvarX P x s)) +
      P.lmbda * ∑ k, ∑ f, ∑ p, P.w (k, f, p) * |part (fvarX P x s) k f p|)

/-- The options of the sparse coding part: at least one iteration with statistics; for ADMM not `AuxVarObj`, for PGM not
`Monotone`. -/
def OkX (P : PrmM d c κ m N a) : XM → Prop
  | .admm => P.oX.fastSolve = false ∧ 1 ≤ P.oX.maxMainIter ∧ P.avX = false
  | .pgm => P.pX.fastSolve = false ∧ 1 ≤ P.pX.maxMainIter ∧ P.pX.monotone = false

theorem solveX_admm (P : PrmM d c κ m N a) (hN : ∀ k : Fin d, P.dsz.extent k.val ≤ N k) (hw : ∀ i, 0 ≤ P.w i)
    (ho : OkX P .admm) (D : Dict c (Fin m) P.ext) (s : XSt P .admm) (h : XInv P D .admm s) :
    XInv P D .admm ((xC P .admm).solve s) ∧ LastX P D .admm ((xC P .admm).solve s) := by
  obtain ⟨hf, h1, hav⟩ := ho
  obtain ⟨rfl, i2⟩ := h
  have key := Admm.solve_last (TB.clsMask a P.q s.2 P.S P.W P.lmbda P.w P.avX) P.oX none
    (fun s' => TB.CohTB P.q s.2 (Admm.St.extra s'))
    (fun s' => TB.CohTB P.q s.2 (Admm.St.extra s') ∧ LastX P s.2 .admm (s', s.2))
    (fun _ _ h => h) (fun k s' h => ?_) h1 s.1 i2
  · exact ⟨⟨rfl, key.1⟩, key.2⟩
  generalize s.2 = D at *
  obtain ⟨e1, e2, e3, e4⟩ := Admm.body_eq (TB.clsMask a P.q D P.S P.W P.lmbda P.w P.avX) P.oX k s'
  have hst : TB.CohTB P.q D (Admm.steps (TB.clsMask a P.q D P.S P.W P.lmbda P.w P.avX) P.oX { s' with k := k }).extra :=
    TB.coh_xstep h P.S s'.rho s'.X s'.Y s'.U
  have hinv : TB.CohTB P.q D (Admm.body (TB.clsMask a P.q D P.S P.W P.lmbda P.w P.avX) P.oX none k s').1.extra := by
    rcases e4 with e | ⟨rho, e⟩ <;> rw [e] <;> exact hst
  refine ⟨hinv, hinv, ?_⟩
  rcases e3 with ⟨-, e⟩ | ⟨st, e, eo, -⟩
  · rw [hf] at e; exact absurd e (by simp)
  · have hobj : st.obj = (TB.objMask D P.S P.W P.lmbda P.w (part (Admm.body
        (TB.clsMask a P.q D P.S P.W P.lmbda P.w P.avX) P.oX none k s').1.X),
        maskTerm D P.S P.W (part (Admm.body (TB.clsMask a P.q D P.S P.W P.lmbda P.w P.avX) P.oX none k s').1.X),
        TB.l1Conv P.w (part (Admm.body (TB.clsMask a P.q D P.S P.W P.lmbda P.w P.avX) P.oX none k s').1.X)) := by
      rw [eo, e1]
      obtain ⟨Xf, hXf⟩ := h
      have := TB.C39_convmask_recorded hN P.q D P.S P.W P.lmbda s'.rho P.w hw s'.X s'.Y s'.U
        (Admm.steps (TB.clsMask a P.q D P.S P.W P.lmbda P.w P.avX) P.oX { s' with k := k }).Y Xf
      rw [← hXf] at this
      rw [hav] at this ⊢
      exact this
    refine ⟨statB st, ?_, ?_, ?_, ?_⟩
    · change ((Admm.body (TB.clsMask a P.q D P.S P.W P.lmbda P.w P.avX) P.oX none k s').1.itstat.map statB).getLast? = _
      rw [e]
      simp
    · exact congrArg (fun o : ℝ × ℝ × ℝ => some o.2.1) hobj
    · exact congrArg (fun o : ℝ × ℝ × ℝ => some o.2.2) hobj
    · exact congrArg (fun o : ℝ × ℝ × ℝ => some o.1) hobj

theorem solveX_pgm (P : PrmM d c κ m N a) (hN : ∀ k : Fin d, P.dsz.extent k.val ≤ N k) (hw : ∀ i, 0 ≤ P.w i)
    (ho : OkX P .pgm) (D : Dict c (Fin m) P.ext) (s : XSt P .pgm) (h : XInv P D .pgm s) :
    XInv P D .pgm ((xC P .pgm).solve s) ∧ LastX P D .pgm ((xC P .pgm).solve s) := by
  obtain ⟨hf, h1, hm⟩ := ho
  obtain ⟨rfl, i2⟩ := h
  have e := Pgm.DFT.solve_Xf (PgmConv.clsBPDNMask a P.q s.2 P.S P.lmbda P.w P.W) P.pX hm s.1 i2
  refine ⟨⟨rfl, e⟩, ?_⟩
  obtain ⟨k, r, hl⟩ := Pgm.solve_last (Pgm.DFT.ops (PgmConv.clsBPDNMask a P.q s.2 P.S P.lmbda P.w P.W) P.pX) P.pX hf h1 s.1
  generalize hs' : Pgm.solve (Pgm.DFT.ops (PgmConv.clsBPDNMask a P.q s.2 P.S P.lmbda P.w P.W) P.pX) P.pX none s.1 = s'
    at e hl
  have hx : (xC P .pgm).solve s = (s', s.2) := Prod.ext hs' rfl
  rw [hx]
  have ho : (Pgm.DFT.statOf (PgmConv.clsBPDNMask a P.q s.2 P.S P.lmbda P.w P.W) P.pX k s'.v r).obj =
      (maskTerm s.2 P.S P.W (part s'.v.X) + P.lmbda * ∑ k, ∑ f, ∑ p, P.w (k, f, p) * |part s'.v.X k f p|,
        maskTerm s.2 P.S P.W (part s'.v.X), ∑ k, ∑ f, ∑ p, P.w (k, f, p) * |part s'.v.X k f p|) := by
    have e1 := (PgmConv.C51_convbpdnmask_spatial_partial (a := a) hN P.q s.2 P.S P.lmbda P.w P.W s'.v.X).1
    have e2 := l1_part P.w hw s'.v.X
    unfold Pgm.DFT.statOf
    dsimp only
    rw [if_neg (by rw [hm]; simp), e, ← e1, ← e2]
    rfl
  refine ⟨statXP (Pgm.DFT.statOf (PgmConv.clsBPDNMask a P.q s.2 P.S P.lmbda P.w P.W) P.pX k s'.v r), ?_, ?_, ?_, ?_⟩
  · change (s'.itstat.map statXP).getLast? = _
    rw [List.getLast?_map, hl]
    rfl
  · exact congrArg (fun o : ℝ × ℝ × ℝ => some o.2.1) ho
  · exact congrArg (fun o : ℝ × ℝ × ℝ => some o.2.2) ho
  · exact congrArg (fun o : ℝ × ℝ × ℝ => some o.1) ho

theorem solveX (P : PrmM d c κ m N a) (hN : ∀ k : Fin d, P.dsz.extent k.val ≤ N k) (hw : ∀ i, 0 ≤ P.w i) (x : XM)
    (ho : OkX P x) (D : Dict c (Fin m) P.ext) (s : XSt P x) (h : XInv P D x s) :
    XInv P D x ((xC P x).solve s) ∧ LastX P D x ((xC P x).solve s) := by
  cases x
  · exact solveX_admm P hN hw ho D s h
  · exact solveX_pgm P hN hw ho D s h

theorem setX (P : PrmM d c κ m N a) (x : XM) (D : Dict c (Fin m) P.ext) (D' : Arr (d + 2 + 1)) (s : XSt P x)
    (h : XInv P D x s) : XInv P (dictOf P.dsz D') x ((xC P x).setdict D' s) := by
  cases x with
  | admm => exact ⟨rfl, _, rfl⟩
  | pgm => exact ⟨rfl, h.2⟩

theorem initX (P : PrmM d c κ m N a) (x : XM) (D : Arr (d + 2 + 1)) (s : XSt P x) (h : XInit P D x s) :
    XInv P (dictOf P.dsz D) x s := by
  cases x with
  | admm => exact ⟨h.2.2.2, h.2.2.1⟩
  | pgm => exact ⟨h.2, h.1.Xf⟩

/-- **C70 for `ConvBPDNMaskDictLearn` without `AccurateDFid`**: the recorded values are those of sparse coding, that is for
the dictionary from before the dictionary update, at the variable X, with weighted l1 norm.  (Missing: `AuxVarObj` for
ADMM, `Monotone` for PGM.) -/
theorem C70_maskdl_estimate_partial (P : PrmM d c κ m N a) (hacc : P.acc = false) (hw : ∀ i, 0 ≤ P.w i) (x : XM)
    (ho : OkX P x) (δ : DM) (clock : ℕ → ℝ)
    (D0 D : Arr (d + 2 + 1)) (x0 : XSt P x) (d0 : DSt c κ m N a δ) (hc : Constructed P D0 D x δ x0 d0)
    (cs : List (ℕ × (DL (XSt P x) (DSt c κ m N a δ) ℝ → Bool))) :
    ∃ s xs ds, dlRun (envC P x δ clock) cs ⟨x0, d0, 0, []⟩ = some s ∧
      Alternates (envC P x δ clock) x0 d0 xs ds ∧
      AtEnd (envC P x δ clock) x0 d0 xs ds s.itstat.length s.x s.d ∧
      ∀ k (hk : k < s.itstat.length),
        let D : Dict c (Fin m) P.ext := dictOf P.dsz (usedDict (dC P δ).getdict ((dC P δ).getdict d0) ds k)
        let X := part (fvarX P x (xs k))
        s.itstat[k].map Prod.fst = (envC P x δ clock).isc.isfld ∧
        ("DFid", Val.val (maskTerm D P.S P.W X)) ∈ s.itstat[k] ∧
        ("RegL1", Val.val (∑ k, ∑ f, ∑ p, P.w (k, f, p) * |X k f p|)) ∈ s.itstat[k] ∧
        ("ObjFun", Val.val (maskTerm D P.S P.W X + P.lmbda * ∑ k, ∑ f, ∑ p, P.w (k, f, p) * |X k f p|)) ∈ s.itstat[k] := by
  obtain ⟨s, hs⟩ := run_total (rowsOk_C P x δ clock) cs ⟨x0, d0, 0, []⟩
  obtain ⟨xs, ds, n, h1, h2, -, rfl, num, -, h4⟩ := C55_alternation hs
  have hx : ∀ k, XInv P (dictOf P.dsz (usedDict (dC P δ).getdict ((dC P δ).getdict d0) ds k)) x (xs k) ∧
      LastX P (dictOf P.dsz (usedDict (dC P δ).getdict ((dC P δ).getdict d0) ds k)) x (xs k) := by
    intro k
    induction k with
    | zero =>
      rw [h1.x_first]
      refine solveX P hc.fit hw x ho _ x0 ?_
      change XInv P (dictOf P.dsz ((dC P δ).getdict d0)) x x0
      rw [hc.dict]
      exact initX P x D x0 hc.xstep
    | succ k ih =>
      rw [h1.x_next]
      exact solveX P hc.fit hw x ho _ _ (setX P x _ _ _ ih.1)
  refine ⟨s, xs, ds, hs, h1, h2, fun k hk => ?_⟩
  have h5 := h4 k hk
  obtain ⟨c1, -, -, -, c2⟩ := conf_src x.isAdmm δ.isPgm (hasBt P.pX) (hasBt P.pD) P.acc
  obtain ⟨g, l1, l2, l3, l4⟩ := (hx k).2
  have hst : ∀ D', (xC P x).itstat ((xC P x).setdict D' (xs k)) = (xC P x).itstat (xs k) := by
    intro D'; cases x <;> rfl
  have hg : lastStat ((envC P x δ clock).X.itstat ((envC P x δ clock).X.setdict ((envC P x δ clock).D.getdict (ds k)) (xs k)))
      (envC P x δ clock).X.fields (envC P x δ clock).zero = g := by
    change lastStat ((xC P x).itstat ((xC P x).setdict _ (xs k))) _ _ = _
    unfold lastStat
    rw [hst, l1]
  rw [hg] at h5
  refine ⟨(C55_fields h5).1, ?_, ?_, ?_⟩
  · refine row_val h5 (c1 _ (by decide)) ?_
    rw [show (envC P x δ clock).isc = iscConv x.isAdmm δ.isPgm (hasBt P.pX) (hasBt P.pD) P.acc from rfl, c2 _ (by decide),
      hacc]
    simp [srcVal, l2]
  · refine row_val h5 (c1 _ (by decide)) ?_
    rw [show (envC P x δ clock).isc = iscConv x.isAdmm δ.isPgm (hasBt P.pX) (hasBt P.pD) P.acc from rfl, c2 _ (by decide),
      hacc]
    simp [srcVal, l3]
  · refine row_val h5 (c1 _ (by decide)) ?_
    rw [show (envC P x δ clock).isc = iscConv x.isAdmm δ.isPgm (hasBt P.pX) (hasBt P.pD) P.acc from rfl, c2 _ (by decide),
      hacc]
    simp [srcVal, l4]

/-! ## Examples -/

/-- The constructor accepts every initial dictionary that is large enough. -/
theorem constructed_exists (P : PrmM d c κ m N a) (hw : P.dsz.WF (d + 2) d) (hN : ∀ k : Fin d, P.dsz.extent k.val ≤ N k)
    (D0 : Arr (d + 2 + 1)) (hD : ∃ sh : Fin d → ℕ, D0.sh = idx sh (c + 1) 1 m ∧ ∀ k : Fin d, P.dsz.extent k.val ≤ sh k)
    (x : XM) (δ : DM) : ∃ D s t, Constructed P D0 D x δ s t := by
  have hp : ∃ D, Pcn D0 P.dsz [] d P.dimC true P.zm = some D := ⟨_, rfl⟩
  obtain ⟨D, hp⟩ := hp
  have hx : ∃ s, XInit P D x s := by
    cases x with
    | admm =>
      exact ⟨(Admm.St.mk 0 0 0 0 0 0 1 0 [] (TB.setdict P.q (dictOf P.dsz D : Dict c (Fin m) P.ext) fun _ _ _ => 0),
        dictOf P.dsz D), rfl, rfl, ⟨_, rfl⟩, rfl⟩
    | pgm =>
      exact ⟨(⟨0, [], ⟨0, PgmConv.fwd a 0, PgmConv.fwd a 0, 0, 0, 0, 1, 1, (0, 0, 0), (0, 0, 0), none, none, none, 0, 0, 0, none⟩⟩,
        dictOf P.dsz D), ⟨rfl, rfl, rfl, rfl, rfl⟩, rfl⟩
  have hd : ∃ t, DInit P D δ t := by
    cases δ with
    | ism =>
      exact ⟨(Admm.St.mk 0 (Admm.TwoBlock.cat 0 (coefOf D)) 0 0 0 0 1 0 [] fun _ _ _ => 0, 0), rfl, rfl, rfl⟩
    | cg =>
      exact ⟨(Admm.St.mk 0 (Admm.TwoBlock.cat 0 (coefOf D)) 0 0 0 0 1 0 [] fun _ _ _ => 0, 0), rfl, rfl, rfl⟩
    | cns =>
      exact ⟨(Admm.St.mk 0 (Admm.TwoBlock.cat (coefOf D) 0) 0 0 0 0 1 0 [] fun _ _ _ _ => 0, 0), rfl, rfl, rfl, rfl⟩
    | pgm =>
      exact ⟨(⟨0, [], ⟨coefOf D, PgmConv.fwd a (coefOf D), PgmConv.fwd a (coefOf D), 0, 0, 0, 1, 1, (0, 0, 0), (0, 0, 0),
        none, none, none, 0, 0, 0, none⟩⟩, 0), ⟨rfl, rfl, rfl, rfl, rfl⟩, rfl⟩
  obtain ⟨s, hs⟩ := hx
  obtain ⟨t, ht⟩ := hd
  exact ⟨D, s, t, hw, hN, hD, hp, hs, ht⟩

end Proofs

end Sporco.Dictlrn.Mask
