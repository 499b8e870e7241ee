import Verif.Dictlrn.LearnArr
import Verif.Dictlrn.LearnMat
import Verif.Conv.CbpdnConv
import Verif.Pgm.ConvGrad
import Verif.Admm.Sim

/-!
# `ConvBPDNDictLearn` of `dictlrn/cbpdndl.py` (C70, C71)

The loop of `DictLearn` with the convolutional sparse coding classes (methods `admm` and `pgm`) and the convolutional
dictionary updates (methods `ism`, `cg`, `cns` and `pgm`).  Real data; the inner solvers have no callback.
-/

set_option autoImplicit false

namespace Sporco.Pgm.DFT
variable {E Ef : Type*} [NormedAddCommGroup Ef] [InnerProductSpace ℝ Ef]

theorem xstepG_X (C : ClsF E Ef) (o : Opts) (k : ℕ) (g : Ef) (v : VarsF E Ef) :
    (∃ L u, (xstepG C o k g v).X = C.proxG L u) ∧
      (o.monotone = false → (xstepG C o k g v).Xf = C.rfftn (xstepG C o k g v).X) := by
  unfold xstepG safeguard
  dsimp only
  split_ifs with h1 h2
  · exact ⟨⟨_, _, rfl⟩, fun h => absurd h1.1 (by rw [h]; simp)⟩
  · exact ⟨⟨_, _, rfl⟩, fun _ => rfl⟩
  · exact ⟨⟨_, _, rfl⟩, fun _ => rfl⟩

theorem ystep_X (o : Opts) (k : ℕ) (v : VarsF E Ef) : (ystep o k v).X = v.X ∧ (ystep o k v).Xf = v.Xf := by
  unfold ystep
  dsimp only
  split_ifs <;> exact ⟨rfl, rfl⟩

omit [NormedAddCommGroup Ef] [InnerProductSpace ℝ Ef] in
theorem onStart_X (C : ClsF E Ef) (o : Opts) (k : ℕ) (v : VarsF E Ef) :
    (onStart C o k v).X = v.X ∧ (onStart C o k v).Xf = v.Xf := by
  unfold onStart
  dsimp only
  split_ifs <;> exact ⟨rfl, rfl⟩

/-- A property of `X` and `Xf` that every X update establishes is preserved by the solution step. -/
theorem mainStep_X (C : ClsF E Ef) (o : Opts) (k : ℕ) (R : E → Ef → Prop)
    (hx : ∀ g v, R (xstepG C o k g v).X (xstepG C o k g v).Xf) (v : VarsF E Ef) (h : R v.X v.Xf) :
    R (mainStep C o k v).X (mainStep C o k v).Xf := by
  have hbt : ∀ gu g n it (v : VarsF E Ef), R v.X v.Xf → R (btLoop C o k gu g n it v).X (btLoop C o k gu g n it v).Xf := by
    intro gu g n
    induction n with
    | zero => exact fun it v h => h
    | succ n ih =>
      intro it v h
      simp only [btLoop]
      split_ifs
      · exact hx g v
      · exact ih _ _ (hx g v)
  have hrb : ∀ gu Z n it t (v : VarsF E Ef), R v.X v.Xf →
      R (rbLoop C o k gu Z n it (t, v)).2.X (rbLoop C o k gu Z n it (t, v)).2.Xf := by
    intro gu Z n
    induction n with
    | zero => exact fun it t v h => h
    | succ n ih =>
      intro it t v h
      simp only [rbLoop]
      split_ifs
      · exact hx _ _
      · exact ih _ _ _ (hx _ _)
  unfold mainStep
  split
  · rw [(ystep_X _ _ _).1, (ystep_X _ _ _).2]
    exact hx _ v
  · rw [(ystep_X _ _ _).1, (ystep_X _ _ _).2]
    exact hbt _ _ _ _ _ h
  · exact hrb _ _ _ _ _ _ h

theorem solve_inv (C : ClsF E Ef) (o : Opts) (R : E → Ef → Prop)
    (hx : ∀ k g v, R (xstepG C o k g v).X (xstepG C o k g v).Xf) (s : St (VarsF E Ef)) (h : R s.v.X s.v.Xf) :
    R (solve (ops C o) o none s).v.X (solve (ops C o) o none s).v.Xf := by
  refine Pgm.solve_inv (ops C o) o none (fun v => R v.X v.Xf) (fun f hf => by cases hf) (fun k v hv => ?_) s h
  obtain ⟨e1, e2⟩ := onStart_X C o k v
  refine mainStep_X C o k R (hx k) (onStart C o k v) ?_
  rw [e1, e2]; exact hv

/-- A property of X that every value of the proximal map has holds after every `solve`. -/
theorem solve_X (C : ClsF E Ef) (o : Opts) (Q : E → Prop) (hp : ∀ L v, Q (C.proxG L v)) (s : St (VarsF E Ef))
    (h : Q s.v.X) : Q (solve (ops C o) o none s).v.X :=
  solve_inv C o (fun X _ => Q X) (fun k g v => by obtain ⟨⟨L, u, e⟩, -⟩ := xstepG_X C o k g v; rw [e]; exact hp L u) s h

/-- Without the option `Monotone`, `Xf` is the transform of `X` after every `solve`. -/
theorem solve_Xf (C : ClsF E Ef) (o : Opts) (hm : o.monotone = false) (s : St (VarsF E Ef))
    (h : s.v.Xf = C.rfftn s.v.X) : (solve (ops C o) o none s).v.Xf = C.rfftn (solve (ops C o) o none s).v.X :=
  solve_inv C o (fun X Xf => Xf = C.rfftn X) (fun k g v => (xstepG_X C o k g v).2 hm) s h

end Sporco.Pgm.DFT

namespace Sporco.Dictlrn

open Finset Sporco.Conv Sporco.Cnvrep
open Sporco.Admm (Blocks)
open Sporco.Admm.Bpdn (gvar)
open Sporco.Prox (normL1)
open Sporco.Pgm (VarsF)
open Sporco.PgmConv (HS)

/-! ## Model -/

/-- The values of `xmethod`. -/
inductive XM
  | admm
  | pgm

/-- The values of `dmethod`. -/
inductive DM
  | ism
  | cg
  | cns
  | pgm

section Model
variable {d c κ m : ℕ} {N : Fin d → ℕ} [∀ k, NeZero (N k)] {a : Fin d}

/-- The arguments and options of `ConvBPDNDictLearn` (`cbpdndl.py` 385-422): `S`, `lmbda`; for sparse coding `L1Weight`
(already broadcast), `HighMemSolve`, `NonNegCoef`, `NoBndryCross`, `fEvalX`, `gEvalY`, `ReturnX`, `rho` and the ADMM or
PGM options; `dsz` (`DictSize` or the shape of `D0`), the number of channel axes, `ZeroMean`, `fEvalX`, `gEvalY` and the
ADMM or PGM options of the dictionary update; the X update of `ConvCnstrMOD_CG` (`admm/ccmod.py` 587-600; the conjugate
gradient solver is not modelled, so this is any function); `AccurateDFid`. -/
structure PrmC (d c κ m : ℕ) (N : Fin d → ℕ) [∀ k, NeZero (N k)] (a : Fin d) where
  S : Signal c (Fin (κ + 1)) N
  lmbda : ℝ
  w : Fin (κ + 1) × Fin m × Grid N → ℝ
  q : COpts
  fX : Bool
  gX : Bool
  retX : Bool
  rhoX : Option ℝ
  oX : Admm.Opts
  pX : Pgm.Opts
  dsz : Dsz
  dimC : ℕ
  zm : Bool
  fD : Bool
  gD : Bool
  oD : Admm.Opts
  pD : Pgm.Opts
  cg : ℝ → Coef (Fin (c + 1)) (Fin m) N → Coef (Fin (c + 1)) (Fin m) N → Coef (Fin (c + 1)) (Fin m) N →
    Mod.AttrD (Fin (c + 1)) (Fin (κ + 1)) (Fin m) N a →
    Coef (Fin (c + 1)) (Fin m) N × Mod.AttrD (Fin (c + 1)) (Fin (κ + 1)) (Fin m) N a
  acc : Bool

/-- The size of the filters. -/
abbrev PrmC.ext (P : PrmC d c κ m N a) : Fin d → ℕ := fun k => P.dsz.extent k.val

/-- The sparse coding object: of class `admm.cbpdn.ConvBPDN`, or of class `pgm.cbpdn.ConvBPDN`, with its dictionary. -/
def XSt (P : PrmC d c κ m N a) : XM → Type
  | .admm => Admm.St (Coef (Fin (κ + 1)) (Fin m) N) (Coef (Fin (κ + 1)) (Fin m) N) (Coef (Fin (κ + 1)) (Fin m) N)
      (Attr c (Fin (κ + 1)) (Fin m) P.ext N a)
  | .pgm => Pgm.St (VarsF (Coef (Fin (κ + 1)) (Fin m) N) (HS (Fin (κ + 1)) (Fin m) N a)) × Dict c (Fin m) P.ext

variable (c κ m N a) in
/-- The dictionary update object: of one of the classes of `admm/ccmod.py`, or of class `pgm.ccmod.ConvCnstrMOD`, with its
coefficient maps. -/
def DSt : DM → Type
  | .ism => Admm.St (Coef (Fin (c + 1)) (Fin m) N) (Coef (Fin (c + 1)) (Fin m) N) (Coef (Fin (c + 1)) (Fin m) N)
      (Mod.AttrD (Fin (c + 1)) (Fin (κ + 1)) (Fin m) N a)
  | .cg => Admm.St (Coef (Fin (c + 1)) (Fin m) N) (Coef (Fin (c + 1)) (Fin m) N) (Coef (Fin (c + 1)) (Fin m) N)
      (Mod.AttrD (Fin (c + 1)) (Fin (κ + 1)) (Fin m) N a)
  | .cns => Admm.St (Blocks (Coef (Fin (c + 1)) (Fin m) N) (κ + 1)) (Coef (Fin (c + 1)) (Fin m) N)
      (Blocks (Coef (Fin (c + 1)) (Fin m) N) (κ + 1)) (Mod.AttrC (Fin (c + 1)) (κ + 1) (Fin m) N a)
  | .pgm => Pgm.St (VarsF (Coef (Fin (c + 1)) (Fin m) N) (HS (Fin (c + 1)) (Fin m) N a)) ×
      (Fin (κ + 1) → Fin m → Grid N → ℝ)

/-- `admm.cbpdn.ConvBPDN` with the objective tuple of `eval_objfn` (`admm/cbpdn.py` 325-333, 624-630): the functional, the
data fidelity and the l1 term without its factor. -/
noncomputable def clsXA (P : PrmC d c κ m N a) :
    Admm.Cls (Coef (Fin (κ + 1)) (Fin m) N) (Coef (Fin (κ + 1)) (Fin m) N) (Coef (Fin (κ + 1)) (Fin m) N)
      (Attr c (Fin (κ + 1)) (Fin m) P.ext N a) :=
  Admm.Cls.equal xstep (ystep P.q P.lmbda P.w) (rhochange P.q) fun X Y h =>
    let f := dfd P.S P.fX Y h
    let rl1 := normL1 fun i => P.w i * (gvar P.gX X Y) i
    (f + P.lmbda * rl1, f, rl1)

/-- Fields of the statistics of the PGM sparse coding class that are used (`pgm/pgm.py` 190, `pgm/cbpdn.py` 141). -/
def fldXP : List String := ["Iter", "ObjFun", "DFid", "RegL1", "Rsdl", "F_Btrack", "Q_Btrack", "IterBTrack", "L"]

/-- An entry of these statistics; a value `None` is represented by 0. -/
def statXP (s : Pgm.Stat) : Ntpl ℝ := fun f =>
  [("Iter", (s.iter : ℝ)), ("ObjFun", s.obj.1), ("DFid", s.obj.2.1), ("RegL1", s.obj.2.2), ("Rsdl", s.rsdl),
    ("F_Btrack", s.F.getD 0), ("Q_Btrack", s.Q.getD 0), ("IterBTrack", ((s.iterBT.getD 0 : ℕ) : ℝ)), ("L", s.L)].lookup f

/-- Fields of the statistics of the PGM dictionary update class that are used (`pgm/ccmod.py` 133). -/
def fldDP : List String := ["Iter", "DFid", "Cnstr", "Rsdl", "F_Btrack", "Q_Btrack", "IterBTrack", "L"]

/-- An entry of these statistics; the objective tuple is `(dfd, cns)`; a value `None` is represented by 0. -/
def statDP (s : Pgm.Stat) : Ntpl ℝ := fun f =>
  [("Iter", (s.iter : ℝ)), ("DFid", s.obj.1), ("Cnstr", s.obj.2.1), ("Rsdl", s.rsdl),
    ("F_Btrack", s.F.getD 0), ("Q_Btrack", s.Q.getD 0), ("IterBTrack", ((s.iterBT.getD 0 : ℕ) : ℝ)), ("L", s.L)].lookup f

/-- The sparse coding object of `ConvBPDNDictLearn`.  `solve`: `admm/admm.py` 293-389, `pgm/pgm.py` 300-382; `getcoef`:
`admm/cbpdn.py` 260-263 with `getmin` (`admm/admm.py` 870-873), `pgm/cbpdn.py` 256-259; `setdict`: `admm/cbpdn.py` 242-256, `pgm/cbpdn.py`
247-253. -/
noncomputable def xC (P : PrmC d c κ m N a) :
    (x : XM) → XStep (XSt P x) (Coef (Fin (κ + 1)) (Fin m) N) (Arr (d + 2 + 1)) ℝ
  | .admm =>
    { solve := Admm.solve (clsXA P) P.oX none
      getcoef := fun s => if P.retX then Admm.St.X s else Admm.St.Y s
      setdict := fun D s => Admm.St.mk s.X s.Y s.Yprev s.U s.AX s.AXnr s.rho s.k s.itstat
        (Conv.setdict P.q P.S s.rho (dictOf P.dsz D) s.extra.Xf)
      itstat := fun s => (Admm.St.itstat s).map statB
      fields := fldB }
  | .pgm =>
    { solve := fun s => (Pgm.solve (Pgm.DFT.ops (PgmConv.clsBPDN a P.q s.2 P.S P.lmbda P.w) P.pX) P.pX none s.1, s.2)
      getcoef := fun s => s.1.v.X
      setdict := fun D s => (s.1, dictOf P.dsz D)
      itstat := fun s => s.1.itstat.map statXP
      fields := fldXP }

/-- The variable of the dictionary update that `getdict` reads (`admm/ccmod.py` 331-339, 849-857, `pgm/ccmod.py`
283-291): Y for ADMM, X for PGM. -/
def dvar : (δ : DM) → DSt c κ m N a δ → Coef (Fin (c + 1)) (Fin m) N
  | .ism => Admm.St.Y
  | .cg => Admm.St.Y
  | .cns => Admm.St.Y
  | .pgm => fun s => s.1.v.X

/-- `solve` of the dictionary update object (`admm/admm.py` 293-389, `pgm/pgm.py` 300-382) for the classes
`ConvCnstrMOD_IterSM`, `ConvCnstrMOD_CG`, `ConvCnstrMOD_Consensus` and the one of `pgm/ccmod.py`. -/
noncomputable def dSolve (P : PrmC d c κ m N a) : (δ : DM) → DSt c κ m N a δ → DSt c κ m N a δ
  | .ism => Admm.solve (Mod.clsISM (pcnC P.dsz P.dimC P.zm) P.S P.fD P.gD) P.oD none
  | .cg => Admm.solve { Mod.clsISM (pcnC P.dsz P.dimC P.zm) P.S P.fD P.gD with xstep := P.cg } P.oD none
  | .cns => Admm.solve (Mod.clsCns (pcnC P.dsz P.dimC P.zm) P.S P.fD P.gD) P.oD none
  | .pgm => fun s => (Pgm.solve (Pgm.DFT.ops (PgmConv.clsMOD a (pcnC P.dsz P.dimC P.zm) s.2 P.S) P.pD) P.pD none s.1, s.2)

/-- `setcoef` (`admm/ccmod.py` 311-327, 753-769, `pgm/ccmod.py` 264-279). -/
noncomputable def dSet (P : PrmC d c κ m N a) (Z : Coef (Fin (κ + 1)) (Fin m) N) :
    (δ : DM) → DSt c κ m N a δ → DSt c κ m N a δ
  | .ism => fun s => Admm.St.mk s.X s.Y s.Yprev s.U s.AX s.AXnr s.rho s.k s.itstat (Mod.setcoef P.S (part Z) s.extra.Xf)
  | .cg => fun s => Admm.St.mk s.X s.Y s.Yprev s.U s.AX s.AXnr s.rho s.k s.itstat (Mod.setcoef P.S (part Z) s.extra.Xf)
  | .cns => fun s => Admm.St.mk s.X s.Y s.Yprev s.U s.AX s.AXnr s.rho s.k s.itstat (Mod.setcoefC P.S (part Z) s.extra.Xf)
  | .pgm => fun s => (s.1, part Z)

/-- The recorded statistics. -/
noncomputable def dStat : (δ : DM) → DSt c κ m N a δ → List (Ntpl ℝ)
  | .ism => fun s => (Admm.St.itstat s).map statC
  | .cg => fun s => (Admm.St.itstat s).map statC
  | .cns => fun s => (Admm.St.itstat s).map statC
  | .pgm => fun s => s.1.itstat.map statDP

/-- `dmethod == 'pgm'`. -/
def DM.isPgm : DM → Bool
  | .pgm => true
  | _ => false

/-- `xmethod == 'admm'`. -/
def XM.isAdmm : XM → Bool
  | .admm => true
  | .pgm => false

/-- The dictionary update object of `ConvBPDNDictLearn`. -/
noncomputable def dC (P : PrmC d c κ m N a) (δ : DM) :
    DStep (DSt c κ m N a δ) (Coef (Fin (κ + 1)) (Fin m) N) (Arr (d + 2 + 1)) ℝ where
  solve := dSolve P δ
  getdict s := cropC P.dsz (dvar δ s)
  setcoef Z := dSet P Z δ
  itstat := dStat δ
  fields := if δ.isPgm then fldDP else fldC

/-- The variable of sparse coding that `evaluate` reads (`cbpdndl.py` 510-513): Y for ADMM, X for PGM. -/
def xvar (P : PrmC d c κ m N a) : (x : XM) → XSt P x → Coef (Fin (κ + 1)) (Fin m) N
  | .admm => Admm.St.Y
  | .pgm => fun s => s.1.v.X

/-- `ConvBPDNDictLearn.evaluate` (`cbpdndl.py` 502-524).  The variable of the dictionary update is used without
cropping. -/
noncomputable def evlC (P : PrmC d c κ m N a) (x : XM) (δ : DM) (s : XSt P x) (t : DSt c κ m N a δ) : Option (Ntpl ℝ) :=
  if P.acc then
    let D := dvar δ t
    let X := xvar P x s
    let dfd := rfl2norm2 N a (fun p : (Fin (c + 1) × Fin (κ + 1)) × Half N a =>
      Linalg.inner (fun f => rfft N a (part D p.1.1 f) p.2) (fun f => rfft N a (part X p.1.2 f) p.2) -
        sigF a P.S p.1.1 p.1.2 p.2) / 2
    let rl1 := ∑ i, |X i|
    some (evlTuple dfd rl1 (dfd + P.lmbda * rl1))
  else none

/-- The option `Backtrack` of a PGM class is set (`dictlrn/common.py` 70, 78). -/
def hasBt (o : Pgm.Opts) : Bool :=
  match o.backtrack with
  | .none => false
  | _ => true

/-- `ConvBPDNDictLearn` (`cbpdndl.py` 456-524) as an instance of `DictLearn`. -/
noncomputable def envC (P : PrmC d c κ m N a) (x : XM) (δ : DM) (clock : ℕ → ℝ) :
    Env (XSt P x) (DSt c κ m N a δ) (Coef (Fin (κ + 1)) (Fin m) N) (Arr (d + 2 + 1)) ℝ :=
  ⟨xC P x, dC P δ, iscConv x.isAdmm δ.isPgm (hasBt P.pX) (hasBt P.pD) P.acc, evlC P x δ, 0, clock⟩

/-- `ConvBPDNDictLearn.reconstruct` with its default arguments (`cbpdndl.py` 488-498). -/
noncomputable def reconC (P : PrmC d c κ m N a) (x : XM) (δ : DM) (s : XSt P x) (t : DSt c κ m N a δ) :
    Signal c (Fin (κ + 1)) N := fun i k =>
  irfft N a fun ξ => Linalg.inner (fun f => rfft N a (part (dvar δ t) i f) ξ)
    (fun f => rfft N a (part ((xC P x).getcoef s) k f) ξ)

/-- The dictionary that the sparse coding object has. -/
def xdict (P : PrmC d c κ m N a) : (x : XM) → XSt P x → Dict c (Fin m) P.ext
  | .admm => fun s => (Admm.St.extra s).D
  | .pgm => Prod.snd

/-- The sparse coding object that the constructor makes from the projected dictionary `D` (`cbpdndl.py` 456-458;
`admm/cbpdn.py` 224-238, 584, `pgm/cbpdn.py` 229-243); the initial values that the options determine are arbitrary. -/
def XInit (P : PrmC d c κ m N a) (D : Arr (d + 2 + 1)) : (x : XM) → XSt P x → Prop
  | .admm => fun s => Admm.St.k s = 0 ∧ Admm.St.itstat s = [] ∧
      ∃ Xf, (Admm.St.rho s, Admm.St.extra s) = initConvBPDN P.q P.S P.lmbda P.rhoX (dictOf P.dsz D) Xf
  | .pgm => fun s => PgmConv.Fresh (PgmConv.clsBPDN a P.q s.2 P.S P.lmbda P.w) s.1 ∧ s.2 = dictOf P.dsz D

/-- The dictionary update object that the constructor makes (`cbpdndl.py` 451-454, 460-462): `Y0` (or `X0`) is the
projected dictionary extended by zeros. -/
def DInit (P : PrmC d c κ m N a) (D : Arr (d + 2 + 1)) : (δ : DM) → DSt c κ m N a δ → Prop
  | .ism => fun s => Admm.St.k s = 0 ∧ Admm.St.itstat s = [] ∧ Admm.St.Y s = coefOf D
  | .cg => fun s => Admm.St.k s = 0 ∧ Admm.St.itstat s = [] ∧ Admm.St.Y s = coefOf D
  | .cns => fun s => Admm.St.k s = 0 ∧ Admm.St.itstat s = [] ∧ Admm.St.Y s = coefOf D
  | .pgm => fun s => PgmConv.Fresh (PgmConv.clsMOD a (pcnC P.dsz P.dimC P.zm) s.2 P.S) s.1 ∧ s.1.v.X = coefOf D

/-- What the constructor makes from `D0` (`cbpdndl.py` 447-462): `D0` is in standard layout with all its axes (in the code
`stdformD` inserts missing axes after the projection, which is along the leading axes), at least as large as the
declared size, which is at most that of the signal. -/
structure Constructed (P : PrmC d c κ m N a) (D0 D : Arr (d + 2 + 1)) (x : XM) (δ : DM) (s : XSt P x)
    (t : DSt c κ m N a δ) : Prop where
  wf : P.dsz.WF (d + 2) d
  fit : ∀ k : Fin d, P.dsz.extent k.val ≤ N k
  size : ∃ sh : Fin d → ℕ, D0.sh = idx sh (c + 1) 1 m ∧ ∀ k : Fin d, P.dsz.extent k.val ≤ sh k
  norm : Pcn D0 P.dsz [] d P.dimC true P.zm = some D
  xstep : XInit P D x s
  dstep : DInit P D δ t

end Model

/-! ## Rows -/

section Proofs
variable {d c κ m : ℕ} {N : Fin d → ℕ} [∀ k, NeZero (N k)] {a : Fin d}

theorem statXP_fields (s : Pgm.Stat) : HasFields (statXP s) fldXP := by
  intro f hf
  simp only [fldXP, List.mem_cons, List.not_mem_nil, or_false] at hf
  rcases hf with rfl | rfl | rfl | rfl | rfl | rfl | rfl | rfl | rfl <;> exact ⟨_, rfl⟩

theorem statDP_fields (s : Pgm.Stat) : HasFields (statDP s) fldDP := by
  intro f hf
  simp only [fldDP, List.mem_cons, List.not_mem_nil, or_false] at hf
  rcases hf with rfl | rfl | rfl | rfl | rfl | rfl | rfl | rfl <;> exact ⟨_, rfl⟩

theorem iscC_ok : ∀ xa dp xbt dbt acc, ∀ f ∈ (iscConv xa dp xbt dbt acc).isfld,
    okSrcF (if xa then fldB else fldXP) (if dp then fldDP else fldC) acc f (src (iscConv xa dp xbt dbt acc) f) = true := by
  decide

theorem map_fields {α : Type} {g : α → Ntpl ℝ} {l : List String} (h : ∀ x, HasFields (g x) l) (xs : List α) :
    HasFields (lastStat (xs.map g) l 0) l := by
  refine lastStat_fields 0 fun s hs => ?_
  obtain ⟨st, -, rfl⟩ := List.mem_map.1 hs
  exact h st

theorem xC_fields (P : PrmC d c κ m N a) (x : XM) (s : XSt P x) :
    HasFields (lastStat ((xC P x).itstat s) (xC P x).fields 0) (if x.isAdmm then fldB else fldXP) := by
  cases x
  · exact map_fields statB_fields _
  · exact map_fields statXP_fields _

theorem dC_fields (P : PrmC d c κ m N a) (δ : DM) (s : DSt c κ m N a δ) :
    HasFields (lastStat ((dC P δ).itstat s) (dC P δ).fields 0) (if δ.isPgm then fldDP else fldC) := by
  cases δ
  · exact map_fields statC_fields _
  · exact map_fields statC_fields _
  · exact map_fields statC_fields _
  · exact map_fields statDP_fields _

theorem rowsOk_C (P : PrmC d c κ m N a) (x : XM) (δ : DM) (clock : ℕ → ℝ) : RowsOk (envC P x δ clock) := by
  intro j s t
  refine row_some fun f hf => okSrcF_val (iscC_ok _ _ _ _ P.acc f hf) (xC_fields P x _) (dC_fields P δ _) fun hacc => ?_
  change ∃ g, evlC P x δ _ _ = some g ∧ _
  unfold evlC
  rw [hacc]
  exact ⟨_, rfl, evlTuple_fields _ _ _⟩

/-! ## The dictionary -/

/-- The variable of the dictionary update is in the constraint set. -/
def DFeas (P : PrmC d c κ m N a) (V : Coef (Fin (c + 1)) (Fin m) N) : Prop :=
  Feasible d (d + P.dimC) P.dsz P.zm (full V)

theorem dC_step (P : PrmC d c κ m N a) (hw : P.dsz.WF (d + 2) d) (hN : ∀ k : Fin d, P.dsz.extent k.val ≤ N k)
    (hz : P.zm = false ∨ d = 2) (δ : DM) (z : Coef (Fin (κ + 1)) (Fin m) N) (t : DSt c κ m N a δ) (h : DFeas P (dvar δ t)) :
    DFeas P (dvar δ ((dC P δ).solve ((dC P δ).setcoef z t))) := by
  cases δ with
  | ism =>
    exact Admm.solve_Y (Mod.clsISM (pcnC P.dsz P.dimC P.zm) P.S P.fD P.gD) P.oD (DFeas P)
      (fun _ _ _ _ _ _ => pcnC_feasible hw hN hz _) _ h
  | cg =>
    exact Admm.solve_Y { Mod.clsISM (pcnC P.dsz P.dimC P.zm) P.S P.fD P.gD with xstep := P.cg } P.oD (DFeas P)
      (fun _ _ _ _ _ _ => pcnC_feasible hw hN hz _) _ h
  | cns =>
    exact Admm.solve_Y (Mod.clsCns (pcnC P.dsz P.dimC P.zm) P.S P.fD P.gD) P.oD (DFeas P)
      (fun _ _ _ _ _ _ => pcnC_feasible hw hN hz _) _ h
  | pgm =>
    exact Pgm.DFT.solve_X (PgmConv.clsMOD a (pcnC P.dsz P.dimC P.zm) (part z) P.S) P.pD (DFeas P)
      (fun _ _ => pcnC_feasible hw hN hz _) t.1 h

theorem Constructed.dfeas {P : PrmC d c κ m N a} {D0 D : Arr (d + 2 + 1)} {x : XM} {δ : DM} {s : XSt P x}
    {t : DSt c κ m N a δ} (h : Constructed P D0 D x δ s t) : DFeas P (dvar δ t) ∧ dvar δ t = coefOf D := by
  have e : dvar δ t = coefOf D := by
    have := h.dstep
    cases δ with
    | ism => exact this.2.2
    | cg => exact this.2.2
    | cns => exact this.2.2
    | pgm => exact this.2
  obtain ⟨sh, h1, h2⟩ := h.size
  rw [e]
  exact ⟨coefOf_feasible h.wf h.fit h1 h2 h.norm, rfl⟩

omit [∀ k, NeZero (N k)] in
theorem pad_inj {Nd : Fin d → ℕ} (hN : ∀ k, Nd k ≤ N k) {u v : NArr Nd ℝ} (h : pad N u = pad N v) : u = v := by
  funext p
  have hp : ∀ k, (((p k).val : ℕ) : ZMod (N k)).val = (p k).val := fun k =>
    ZMod.val_natCast_of_lt ((p k).isLt.trans_le (hN k))
  have h1 := congrFun h fun k => (((p k).val : ℕ) : ZMod (N k))
  unfold pad at h1
  simp only [hp] at h1
  rw [dif_pos fun k => (p k).isLt, dif_pos fun k => (p k).isLt] at h1
  exact h1

/-- The dictionary that the sparse coding object gets from the constructor is the one that `getdict` returns. -/
theorem Constructed.dict {P : PrmC d c κ m N a} {D0 D : Arr (d + 2 + 1)} {x : XM} {δ : DM} {s : XSt P x}
    {t : DSt c κ m N a δ} (h : Constructed P D0 D x δ s t) :
    (dictOf P.dsz ((dC P δ).getdict t) : Dict c (Fin m) P.ext) = dictOf P.dsz D := by
  obtain ⟨hf, e⟩ := h.dfeas
  obtain ⟨-, -, h3⟩ := cropC_spec h.wf h.fit hf
  obtain ⟨sh, h4, h5⟩ := h.size
  obtain ⟨-, hsh⟩ := Pcn_shape h.wf h4 h5 h.norm
  funext i f
  refine pad_inj h.fit ?_
  rw [← part_coefOf hsh, ← e]
  exact h3 i f

theorem xdict_init {P : PrmC d c κ m N a} {D0 D : Arr (d + 2 + 1)} {x : XM} {δ : DM} {s : XSt P x}
    {t : DSt c κ m N a δ} (h : Constructed P D0 D x δ s t) : xdict P x s = dictOf P.dsz D := by
  have := h.xstep
  cases x with
  | admm =>
    obtain ⟨-, -, Xf, e⟩ := this
    have := congrArg (fun p => p.2.D) e
    exact this
  | pgm => exact this.2

theorem xdict_set (P : PrmC d c κ m N a) (x : XM) (D : Arr (d + 2 + 1)) (s : XSt P x) :
    xdict P x ((xC P x).setdict D s) = dictOf P.dsz D := by
  cases x <;> rfl

/-- **C71 for `ConvBPDNDictLearn`.** For every input, every method of sparse coding and dictionary update, every option
value, sequence of `solve` calls and callbacks (and zero mean only with two spatial axes): after the construction,
after every iteration and at the end the dictionary that the object returns is in the constraint set: each filter
vanishes outside its declared support, has unit norm (or is zero), and zero mean if that is requested; and the sparse coding
object has that same dictionary. -/
theorem C71_convdl_partial (P : PrmC d c κ m N a) (hz : P.zm = false ∨ d = 2) (x : XM) (δ : DM) (clock : ℕ → ℝ)
    (D0 D : Arr (d + 2 + 1)) (x0 : XSt P x) (d0 : DSt c κ m N a δ) (hc : Constructed P D0 D x δ x0 d0)
    (cs : List (ℕ × (DL (XSt P x) (DSt c κ m N a δ) ℝ → Bool))) :
    ∃ s xs ds, dlRun (envC P x δ clock) cs ⟨x0, d0, 0, []⟩ = some s ∧
      Alternates (envC P x δ clock) x0 d0 xs ds ∧
      AtEnd (envC P x δ clock) x0 d0 xs ds s.itstat.length s.x s.d ∧
      (∀ t, t = d0 ∨ (∃ k, t = ds k) ∨ t = s.d →
        Feasible d (d + P.dimC) P.dsz P.zm ((dC P δ).getdict t) ∧
        ((dC P δ).getdict t).sh = idx (fun k : Fin d => P.dsz.extent k.val) (c + 1) 1 m) ∧
      xdict P x x0 = dictOf P.dsz ((dC P δ).getdict d0) ∧
      xdict P x s.x = dictOf P.dsz ((dC P δ).getdict s.d) := by
  obtain ⟨s, hs⟩ := run_total (rowsOk_C P x δ clock) cs ⟨x0, d0, 0, []⟩
  obtain ⟨xs, ds, n, h1, h2, -, rfl, -⟩ := C55_alternation hs
  have h0 := hc.dfeas.1
  have hds : ∀ k, DFeas P (dvar δ (ds k)) :=
    alt_inv_d h1 (fun t => DFeas P (dvar δ t)) h0 fun z t ht => dC_step P hc.wf hc.fit hz δ z t ht
  have hx0 : xdict P x x0 = dictOf P.dsz ((dC P δ).getdict d0) := by rw [xdict_init hc, hc.dict]
  have hend : DFeas P (dvar δ s.d) ∧ xdict P x s.x = dictOf P.dsz ((dC P δ).getdict s.d) := by
    generalize s.itstat.length = n at h2
    cases n with
    | zero =>
      obtain ⟨e1, e2⟩ := h2
      rw [e1, e2]
      exact ⟨h0, hx0⟩
    | succ k =>
      obtain ⟨e1, e2⟩ := h2
      rw [e1, e2]
      exact ⟨hds k, xdict_set P x _ _⟩
  refine ⟨s, xs, ds, hs, h1, h2, ?_, hx0, hend.2⟩
  have key : ∀ t, DFeas P (dvar δ t) → Feasible d (d + P.dimC) P.dsz P.zm ((dC P δ).getdict t) ∧
        ((dC P δ).getdict t).sh = idx (fun k : Fin d => P.dsz.extent k.val) (c + 1) 1 m := fun t ht =>
    ⟨(cropC_spec hc.wf hc.fit ht).1, (cropC_spec hc.wf hc.fit ht).2.1⟩
  rintro t (rfl | ⟨k, rfl⟩ | rfl)
  · exact key _ h0
  · exact key _ (hds k)
  · exact key _ hend.1

/-! ## The recorded values -/

theorem sum_abs_part (X : Coef (Fin (κ + 1)) (Fin m) N) : ∑ i, |X i| = ∑ k, ∑ f, ∑ p, |part X k f p| := by
  rw [Fintype.sum_prod_type]
  exact Finset.sum_congr rfl fun k _ => Fintype.sum_prod_type _

theorem evlC_eq (P : PrmC d c κ m N a) (hw : P.dsz.WF (d + 2) d) (hN : ∀ k : Fin d, P.dsz.extent k.val ≤ N k)
    (hacc : P.acc = true) (x : XM) (δ : DM) (s : XSt P x) (t : DSt c κ m N a δ) (h : DFeas P (dvar δ t)) :
    let dfd := dataTerm (dictOf P.dsz ((dC P δ).getdict t) : Dict c (Fin m) P.ext) P.S (part (xvar P x s))
    let rl1 := ∑ k, ∑ f, ∑ p, |part (xvar P x s) k f p|
    evlC P x δ s t = some (evlTuple dfd rl1 (dfd + P.lmbda * rl1)) := by
  intro dfd rl1
  obtain ⟨-, -, h3⟩ := cropC_spec hw hN h
  have e := dfd_eq (a := a) hN (dictOf P.dsz ((dC P δ).getdict t) : Dict c (Fin m) P.ext) P.S (xvar P x s)
    (fun k f => rfft N a (part (xvar P x s) k f)) fun _ _ => rfl
  unfold dictF at e
  have h3' : ∀ i f, pad N ((dictOf P.dsz ((dC P δ).getdict t) : Dict c (Fin m) P.ext) i f) = part (dvar δ t) i f := h3
  simp only [h3'] at e
  unfold evlC
  simp only [hacc, if_true]
  rw [e, sum_abs_part]

theorem xvar_set (P : PrmC d c κ m N a) (x : XM) (D : Arr (d + 2 + 1)) (s : XSt P x) :
    xvar P x ((xC P x).setdict D s) = xvar P x s := by
  cases x <;> rfl

theorem xvar_getcoef (P : PrmC d c κ m N a) (x : XM) (hx : x = .pgm ∨ P.retX = false) (s : XSt P x) :
    xvar P x s = (xC P x).getcoef s := by
  cases x with
  | admm =>
    rcases hx with h | h
    · cases h
    · change Admm.St.Y s = if P.retX then Admm.St.X s else Admm.St.Y s
      rw [h]; rfl
  | pgm => rfl

/-- With `AccurateDFid` the values are those at the dictionary and the variable that `evaluate` reads. -/
theorem accurate_var (P : PrmC d c κ m N a) (hz : P.zm = false ∨ d = 2) (hacc : P.acc = true) (x : XM) (δ : DM)
    (clock : ℕ → ℝ) (D0 D : Arr (d + 2 + 1)) (x0 : XSt P x) (d0 : DSt c κ m N a δ) (hc : Constructed P D0 D x δ x0 d0)
    (cs : List (ℕ × (DL (XSt P x) (DSt c κ m N a δ) ℝ → Bool))) :
    ∃ s xs ds, dlRun (envC P x δ clock) cs ⟨x0, d0, 0, []⟩ = some s ∧
      Alternates (envC P x δ clock) x0 d0 xs ds ∧
      AtEnd (envC P x δ clock) x0 d0 xs ds s.itstat.length s.x s.d ∧
      ∀ k (hk : k < s.itstat.length),
        let D : Dict c (Fin m) P.ext := dictOf P.dsz ((dC P δ).getdict (ds k))
        let X := part (xvar P x (xs k))
        s.itstat[k].map Prod.fst = (envC P x δ clock).isc.isfld ∧
        ("DFid", Val.val (dataTerm D P.S X)) ∈ s.itstat[k] ∧
        ("RegL1", Val.val (∑ k, ∑ f, ∑ p, |X k f p|)) ∈ s.itstat[k] ∧
        ("ObjFun", Val.val (dataTerm D P.S X + P.lmbda * ∑ k, ∑ f, ∑ p, |X k f p|)) ∈ s.itstat[k] := by
  obtain ⟨s, hs⟩ := run_total (rowsOk_C P x δ clock) cs ⟨x0, d0, 0, []⟩
  obtain ⟨xs, ds, n, h1, h2, -, rfl, num, -, h4⟩ := C55_alternation hs
  have hds : ∀ k, DFeas P (dvar δ (ds k)) :=
    alt_inv_d h1 (fun t => DFeas P (dvar δ t)) hc.dfeas.1 fun z t ht => dC_step P hc.wf hc.fit hz δ z t ht
  refine ⟨s, xs, ds, hs, h1, h2, fun k hk => ?_⟩
  have h5 := h4 k hk
  obtain ⟨c1, -, -, -, c2⟩ := conf_src x.isAdmm δ.isPgm (hasBt P.pX) (hasBt P.pD) P.acc
  have he := evlC_eq P hc.wf hc.fit hacc x δ ((xC P x).setdict ((dC P δ).getdict (ds k)) (xs k)) (ds k) (hds k)
  simp only [xvar_set] at he
  have he' : (envC P x δ clock).evl ((envC P x δ clock).X.setdict ((envC P x δ clock).D.getdict (ds k)) (xs k)) (ds k) =
    _ := he
  refine ⟨(C55_fields h5).1, ?_, ?_, ?_⟩ <;>
  · refine row_val h5 (c1 _ (by decide)) ?_
    rw [show (envC P x δ clock).isc = iscConv x.isAdmm δ.isPgm (hasBt P.pX) (hasBt P.pD) P.acc from rfl, c2 _ (by decide),
      hacc, he']
    rfl

/-- **C70 for `ConvBPDNDictLearn` with `AccurateDFid`.** For every input, every method of sparse coding and dictionary
update, every option value (`ReturnX` not set, and zero mean only with two spatial axes), sequence of `solve` calls and
callbacks: no error in the recording of statistics, and the values recorded in each row are the data fidelity
`(1/2) Σ ‖Σ d*x - s‖²`, the l1 norm of the coefficients, and the functional, at the dictionary and the coefficients that the
object returns right after the iteration. -/
theorem C70_convdl_accurate_partial (P : PrmC d c κ m N a) (hz : P.zm = false ∨ d = 2) (hacc : P.acc = true) (x : XM)
    (hx : x = .pgm ∨ P.retX = false) (δ : DM) (clock : ℕ → ℝ)
    (D0 D : Arr (d + 2 + 1)) (x0 : XSt P x) (d0 : DSt c κ m N a δ) (hc : Constructed P D0 D x δ x0 d0)
    (cs : List (ℕ × (DL (XSt P x) (DSt c κ m N a δ) ℝ → Bool))) :
    ∃ s xs ds, dlRun (envC P x δ clock) cs ⟨x0, d0, 0, []⟩ = some s ∧
      Alternates (envC P x δ clock) x0 d0 xs ds ∧
      AtEnd (envC P x δ clock) x0 d0 xs ds s.itstat.length s.x s.d ∧
      ∀ k (hk : k < s.itstat.length),
        let D : Dict c (Fin m) P.ext := dictOf P.dsz ((dC P δ).getdict (ds k))
        let X := part ((xC P x).getcoef (xs k))
        s.itstat[k].map Prod.fst = (envC P x δ clock).isc.isfld ∧
        ("DFid", Val.val (dataTerm D P.S X)) ∈ s.itstat[k] ∧
        ("RegL1", Val.val (∑ k, ∑ f, ∑ p, |X k f p|)) ∈ s.itstat[k] ∧
        ("ObjFun", Val.val (dataTerm D P.S X + P.lmbda * ∑ k, ∑ f, ∑ p, |X k f p|)) ∈ s.itstat[k] := by
  obtain ⟨s, xs, ds, h1, h2, h3, h4⟩ := accurate_var P hz hacc x δ clock D0 D x0 d0 hc cs
  refine ⟨s, xs, ds, h1, h2, h3, fun k hk => ?_⟩
  rw [← xvar_getcoef P x hx]
  exact h4 k hk

/-- **C40 for `ConvBPDNDictLearn`.** At any time, `reconstruct()` is the sum of the circular convolutions of the filters that
`getdict()` returns with the coefficient maps that `getcoef()` returns. -/
theorem C40_convdl_reconstruct (P : PrmC d c κ m N a) (hz : P.zm = false ∨ d = 2) (x : XM) (δ : DM) (clock : ℕ → ℝ)
    (D0 D : Arr (d + 2 + 1)) (x0 : XSt P x) (d0 : DSt c κ m N a δ) (hc : Constructed P D0 D x δ x0 d0)
    (cs : List (ℕ × (DL (XSt P x) (DSt c κ m N a δ) ℝ → Bool))) :
    ∃ s, dlRun (envC P x δ clock) cs ⟨x0, d0, 0, []⟩ = some s ∧
      reconC P x δ s.x s.d = recon (dictOf P.dsz ((dC P δ).getdict s.d) : Dict c (Fin m) P.ext)
        (part ((xC P x).getcoef s.x)) := by
  obtain ⟨s, hs⟩ := run_total (rowsOk_C P x δ clock) cs ⟨x0, d0, 0, []⟩
  obtain ⟨xs, ds, n, h1, h2, -⟩ := C55_alternation hs
  have hds : ∀ k, DFeas P (dvar δ (ds k)) :=
    alt_inv_d h1 (fun t => DFeas P (dvar δ t)) hc.dfeas.1 fun z t ht => dC_step P hc.wf hc.fit hz δ z t ht
  have hend : DFeas P (dvar δ s.d) := by
    cases n with
    | zero => obtain ⟨-, e2⟩ := h2; rw [e2]; exact hc.dfeas.1
    | succ k => obtain ⟨-, e2⟩ := h2; rw [e2]; exact hds k
  refine ⟨s, hs, ?_⟩
  obtain ⟨-, -, h3⟩ := cropC_spec hc.wf hc.fit hend
  have h3' : ∀ i f, pad N ((dictOf P.dsz ((dC P δ).getdict s.d) : Dict c (Fin m) P.ext) i f) = part (dvar δ s.d) i f := h3
  rw [← C40_reconstruct (a := a) hc.fit P.q (dictOf P.dsz ((dC P δ).getdict s.d) : Dict c (Fin m) P.ext) P.S 0
    (fun _ _ _ => 0) ((xC P x).getcoef s.x)]
  funext i k
  unfold reconC reconstruct Conv.setdict dictF
  simp only [h3']
  rfl

/-- The variable at which the sparse coding object evaluates the data fidelity (`admm/cbpdn.py` 315-321): for ADMM X or Y
according to `fEvalX`. -/
def fvarX (P : PrmC d c κ m N a) : (x : XM) → XSt P x → Coef (Fin (κ + 1)) (Fin m) N
  | .admm => fun s => if P.fX then Admm.St.X s else Admm.St.Y s
  | .pgm => fun s => s.1.v.X

/-- The variable at which the sparse coding object evaluates the regularisation term. -/
def gvarX (P : PrmC d c κ m N a) : (x : XM) → XSt P x → Coef (Fin (κ + 1)) (Fin m) N
  | .admm => fun s => if P.gX then Admm.St.Y s else Admm.St.X s
  | .pgm => fun s => s.1.v.X

/-- The sparse coding object is in step with its dictionary `D`. -/
def XInv (P : PrmC d c κ m N a) (D : Dict c (Fin m) P.ext) : (x : XM) → XSt P x → Prop
  | .admm => fun s => (Admm.St.extra s).D = D ∧ (Admm.St.extra s).Df = dictF a D ∧
      (P.fX = true → 0 < Admm.St.rho s ∧ Coh P.q D P.S (Admm.St.rho s) (Admm.St.extra s))
  | .pgm => fun s => s.2 = D ∧ s.1.v.Xf = PgmConv.fwd a s.1.v.X

/-- Its last entry of statistics consists of the terms of the functional for the dictionary `D`. -/
def LastX (P : PrmC d c κ m N a) (D : Dict c (Fin m) P.ext) (x : XM) (s : XSt P x) : Prop :=
  ∃ g, ((xC P x).itstat s).getLast? = some g ∧
    g "DFid" = some (dataTerm D P.S (part (fvarX P x s))) ∧
    g "RegL1" = some (∑ k, ∑ f, ∑ p, P.w (k, f, p) * |part (gvarX P x s) k f p|) ∧
    g "ObjFun" = some (dataTerm D P.S (part (fvarX P x s)) +
      P.lmbda * ∑ k, ∑ f, ∑ p, P.w (k, f, p) * |part (gvarX P x s) k f p|)

/-- The options of the sparse coding part: at least one iteration with statistics.  For ADMM with `fEvalX`: a positive
initial `rho`, valid options for its automatic change, and a cache made for this `rho`.  For PGM: not `Monotone`. -/
def OkX (P : PrmC d c κ m N a) : XM → Prop
  | .admm => P.oX.fastSolve = false ∧ 1 ≤ P.oX.maxMainIter ∧
      (P.fX = true → 0 < P.rhoX.getD (50 * P.lmbda + 1) ∧ (P.oX.autoRho = true → P.oX.RhoOk) ∧
        (P.q.caches c = false ∨ P.rhoX ≠ none))
  | .pgm => P.pX.fastSolve = false ∧ 1 ≤ P.pX.maxMainIter ∧ P.pX.monotone = false

theorem l1_part (w : Fin (κ + 1) × Fin m × Grid N → ℝ) (hw : ∀ i, 0 ≤ w i) (y : Coef (Fin (κ + 1)) (Fin m) N) :
    normL1 (fun i => w i * y i) = ∑ k, ∑ f, ∑ p, w (k, f, p) * |part y k f p| := by
  have := regL1_eq 1 w hw y
  unfold regL1 at this
  rwa [one_mul, one_mul] at this

theorem rhochange_D (q : COpts) (rho : ℝ) {K M : Type*} [Fintype K] [Fintype M] {Nd : Fin d → ℕ} (h : Attr c K M Nd N a) :
    (rhochange q rho h).D = h.D ∧ (rhochange q rho h).Df = h.Df := by
  unfold rhochange
  split_ifs <;> exact ⟨rfl, rfl⟩

theorem solveX_admm (P : PrmC d c κ m N a) (hN : ∀ k : Fin d, P.dsz.extent k.val ≤ N k) (hw : ∀ i, 0 ≤ P.w i)
    (ho : OkX P .admm) (D : Dict c (Fin m) P.ext) (s : XSt P .admm) (h : XInv P D .admm s) :
    XInv P D .admm ((xC P .admm).solve s) ∧ LastX P D .admm ((xC P .admm).solve s) := by
  obtain ⟨hf, h1, hfx⟩ := ho
  refine Admm.solve_last (clsXA P) P.oX none (XInv P D .admm) (fun s => XInv P D .admm s ∧ LastX P D .admm s)
    (fun _ _ h => h) (fun k s h => ?_) h1 s h
  obtain ⟨i1, i2, i3⟩ := h
  obtain ⟨e1, e2, e3, e4⟩ := Admm.body_eq (clsXA P) P.oX k s
  have hk : Admm.Keeps (clsXA P) (Coh P.q D P.S) := keeps_conv P.q D P.S _ (fun _ _ _ _ _ _ => rfl) _
  have hinv : XInv P D .admm (Admm.body (clsXA P) P.oX none k s).1 := by
    refine ⟨?_, ?_, fun hx => ?_⟩
    · rcases e4 with e | ⟨rho, e⟩ <;> rw [e]
      · exact i1
      · exact (rhochange_D P.q rho _).1.trans i1
    · rcases e4 with e | ⟨rho, e⟩ <;> rw [e]
      · exact i2
      · exact (rhochange_D P.q rho _).2.trans i2
    · exact Admm.body_keeps hk P.oX (hfx hx).2.1 none (fun _ _ h => by cases h) k s (i3 hx).1 (i3 hx).2
  refine ⟨hinv, hinv, ?_⟩
  rcases e3 with ⟨-, e⟩ | ⟨st, e, eo, -⟩
  · rw [hf] at e; exact absurd e (by simp)
  · have hd : st.obj.2.1 = dataTerm D P.S (part (fvarX P .admm (Admm.body (clsXA P) P.oX none k s).1)) := by
      rw [eo]
      change dfd P.S P.fX (Admm.steps (clsXA P) P.oX { s with k := k }).Y _ = dataTerm D P.S (part (if P.fX then
        (Admm.body (clsXA P) P.oX none k s).1.X else (Admm.body (clsXA P) P.oX none k s).1.Y))
      rw [e1, e2]
      have hDf : (Admm.steps (clsXA P) P.oX { s with k := k }).extra.Df = dictF a D := i2
      unfold dfd
      rw [hDf]
      cases hx : P.fX with
      | false => exact dfd_eq hN D P.S _ _ fun _ _ => rfl
      | true =>
        refine dfd_eq hN D P.S _ _ fun k' f => ?_
        exact xstep_Xf (i3 hx).1 (i3 hx).2 s.X s.Y s.U k' f
    have hl : st.obj.2.2 = ∑ k', ∑ f, ∑ p, P.w (k', f, p) *
        |part (gvarX P .admm (Admm.body (clsXA P) P.oX none k s).1) k' f p| := by
      rw [eo]
      change normL1 (fun i => P.w i * (gvar P.gX (Admm.steps (clsXA P) P.oX { s with k := k }).X
        (Admm.steps (clsXA P) P.oX { s with k := k }).Y) i) = _
      rw [l1_part P.w hw, ← e1, ← e2]
      rfl
    have hobj : st.obj.1 = st.obj.2.1 + P.lmbda * st.obj.2.2 := by rw [eo]; rfl
    refine ⟨statB st, ?_, ?_, ?_, ?_⟩
    · change ((Admm.body (clsXA P) P.oX none k s).1.itstat.map statB).getLast? = _
      rw [e]
      simp
    · rw [← hd]; rfl
    · rw [← hl]; rfl
    · rw [← hd, ← hl, ← hobj]; rfl

theorem solveX_pgm (P : PrmC d c κ m N a) (hN : ∀ k : Fin d, P.dsz.extent k.val ≤ N k) (hw : ∀ i, 0 ≤ P.w i)
    (ho : OkX P .pgm) (D : Dict c (Fin m) P.ext) (s : XSt P .pgm) (h : XInv P D .pgm s) :
    XInv P D .pgm ((xC P .pgm).solve s) ∧ LastX P D .pgm ((xC P .pgm).solve s) := by
  obtain ⟨hf, h1, hm⟩ := ho
  obtain ⟨rfl, i2⟩ := h
  have e := Pgm.DFT.solve_Xf (PgmConv.clsBPDN a P.q s.2 P.S P.lmbda P.w) P.pX hm s.1 i2
  refine ⟨⟨rfl, e⟩, ?_⟩
  obtain ⟨k, r, hl⟩ := Pgm.solve_last (Pgm.DFT.ops (PgmConv.clsBPDN a P.q s.2 P.S P.lmbda P.w) P.pX) P.pX hf h1 s.1
  generalize hs' : Pgm.solve (Pgm.DFT.ops (PgmConv.clsBPDN a P.q s.2 P.S P.lmbda P.w) P.pX) P.pX none s.1 = s' at e hl
  have hx : (xC P .pgm).solve s = (s', s.2) := Prod.ext hs' rfl
  rw [hx]
  have ho : (Pgm.DFT.statOf (PgmConv.clsBPDN a P.q s.2 P.S P.lmbda P.w) P.pX k s'.v r).obj =
      (dataTerm s.2 P.S (part s'.v.X) + P.lmbda * ∑ k, ∑ f, ∑ p, P.w (k, f, p) * |part s'.v.X k f p|,
        dataTerm s.2 P.S (part s'.v.X), ∑ k, ∑ f, ∑ p, P.w (k, f, p) * |part s'.v.X k f p|) := by
    have e1 := PgmConv.dfd_fwd (a := a) hN P.q s.2 P.S P.lmbda P.w s'.v.X
    have e2 := l1_part P.w hw s'.v.X
    unfold Pgm.DFT.statOf
    dsimp only
    rw [if_neg (by rw [hm]; simp), e, ← e1, ← e2]
    rfl
  refine ⟨statXP (Pgm.DFT.statOf (PgmConv.clsBPDN a P.q s.2 P.S P.lmbda P.w) P.pX k s'.v r), ?_, ?_, ?_, ?_⟩
  · change (s'.itstat.map statXP).getLast? = _
    rw [List.getLast?_map, hl]
    rfl
  · exact congrArg (fun o : ℝ × ℝ × ℝ => some o.2.1) ho
  · exact congrArg (fun o : ℝ × ℝ × ℝ => some o.2.2) ho
  · exact congrArg (fun o : ℝ × ℝ × ℝ => some o.1) ho

theorem solveX (P : PrmC d c κ m N a) (hN : ∀ k : Fin d, P.dsz.extent k.val ≤ N k) (hw : ∀ i, 0 ≤ P.w i) (x : XM)
    (ho : OkX P x) (D : Dict c (Fin m) P.ext) (s : XSt P x) (h : XInv P D x s) :
    XInv P D x ((xC P x).solve s) ∧ LastX P D x ((xC P x).solve s) := by
  cases x
  · exact solveX_admm P hN hw ho D s h
  · exact solveX_pgm P hN hw ho D s h

theorem setX (P : PrmC d c κ m N a) (x : XM) (D : Dict c (Fin m) P.ext) (D' : Arr (d + 2 + 1)) (s : XSt P x)
    (h : XInv P D x s) : XInv P (dictOf P.dsz D') x ((xC P x).setdict D' s) := by
  cases x with
  | admm => exact ⟨rfl, rfl, fun hx => ⟨(h.2.2 hx).1, _, rfl⟩⟩
  | pgm => exact ⟨rfl, h.2⟩

theorem initX (P : PrmC d c κ m N a) (x : XM) (ho : OkX P x) (D : Arr (d + 2 + 1)) (s : XSt P x) (h : XInit P D x s) :
    XInv P (dictOf P.dsz D) x s := by
  cases x with
  | admm =>
    obtain ⟨-, -, Xf, e⟩ := h
    have e1 : Admm.St.rho s = P.rhoX.getD (50 * P.lmbda + 1) := congrArg Prod.fst e
    have e2 : Admm.St.extra s = Conv.setdict P.q P.S (P.rhoX.getD 1) (dictOf P.dsz D) Xf := congrArg Prod.snd e
    refine ⟨by rw [e2]; rfl, by rw [e2]; rfl, fun hx => ?_⟩
    obtain ⟨h1, -, h2⟩ := ho.2.2 hx
    refine ⟨by rw [e1]; exact h1, Xf, ?_⟩
    rw [e1, e2]
    rcases h2 with h2 | h2
    · unfold Conv.setdict
      simp only [h2, Bool.false_eq_true, if_false]
    · cases hr : P.rhoX with
      | none => exact absurd hr h2
      | some r => rfl
  | pgm => exact ⟨h.2, h.1.Xf⟩

/-- **C70 for `ConvBPDNDictLearn` without `AccurateDFid`**: the recorded values are those of sparse coding, that is for the
dictionary from before the dictionary update, at the variables that the options choose, with weighted l1 norm. -/
theorem C70_convdl_estimate_partial (P : PrmC d c κ m N a) (hacc : P.acc = false) (hw : ∀ i, 0 ≤ P.w i) (x : XM)
    (ho : OkX P x) (δ : DM) (clock : ℕ → ℝ)
    (D0 D : Arr (d + 2 + 1)) (x0 : XSt P x) (d0 : DSt c κ m N a δ) (hc : Constructed P D0 D x δ x0 d0)
    (cs : List (ℕ × (DL (XSt P x) (DSt c κ m N a δ) ℝ → Bool))) :
    ∃ s xs ds, dlRun (envC P x δ clock) cs ⟨x0, d0, 0, []⟩ = some s ∧
      Alternates (envC P x δ clock) x0 d0 xs ds ∧
      AtEnd (envC P x δ clock) x0 d0 xs ds s.itstat.length s.x s.d ∧
      ∀ k (hk : k < s.itstat.length),
        let D : Dict c (Fin m) P.ext := dictOf P.dsz (usedDict (dC P δ).getdict ((dC P δ).getdict d0) ds k)
        let Xf := part (fvarX P x (xs k))
        let Xg := part (gvarX P x (xs k))
        s.itstat[k].map Prod.fst = (envC P x δ clock).isc.isfld ∧
        ("DFid", Val.val (dataTerm D P.S Xf)) ∈ s.itstat[k] ∧
        ("RegL1", Val.val (∑ k, ∑ f, ∑ p, P.w (k, f, p) * |Xg k f p|)) ∈ s.itstat[k] ∧
        ("ObjFun", Val.val (dataTerm D P.S Xf + P.lmbda * ∑ k, ∑ f, ∑ p, P.w (k, f, p) * |Xg k f p|)) ∈ s.itstat[k] := by
  obtain ⟨s, hs⟩ := run_total (rowsOk_C P x δ clock) cs ⟨x0, d0, 0, []⟩
  obtain ⟨xs, ds, n, h1, h2, -, rfl, num, -, h4⟩ := C55_alternation hs
  have hx : ∀ k, XInv P (dictOf P.dsz (usedDict (dC P δ).getdict ((dC P δ).getdict d0) ds k)) x (xs k) ∧
      LastX P (dictOf P.dsz (usedDict (dC P δ).getdict ((dC P δ).getdict d0) ds k)) x (xs k) := by
    intro k
    induction k with
    | zero =>
      rw [h1.x_first]
      refine solveX P hc.fit hw x ho _ x0 ?_
      change XInv P (dictOf P.dsz ((dC P δ).getdict d0)) x x0
      rw [hc.dict]
      exact initX P x ho D x0 hc.xstep
    | succ k ih =>
      rw [h1.x_next]
      exact solveX P hc.fit hw x ho _ _ (setX P x _ _ _ ih.1)
  refine ⟨s, xs, ds, hs, h1, h2, fun k hk => ?_⟩
  have h5 := h4 k hk
  obtain ⟨c1, -, -, -, c2⟩ := conf_src x.isAdmm δ.isPgm (hasBt P.pX) (hasBt P.pD) P.acc
  obtain ⟨g, l1, l2, l3, l4⟩ := (hx k).2
  have hst : ∀ D', (xC P x).itstat ((xC P x).setdict D' (xs k)) = (xC P x).itstat (xs k) := by
    intro D'; cases x <;> rfl
  have hg : lastStat ((envC P x δ clock).X.itstat ((envC P x δ clock).X.setdict ((envC P x δ clock).D.getdict (ds k)) (xs k)))
      (envC P x δ clock).X.fields (envC P x δ clock).zero = g := by
    change lastStat ((xC P x).itstat ((xC P x).setdict _ (xs k))) _ _ = _
    unfold lastStat
    rw [hst, l1]
  rw [hg] at h5
  refine ⟨(C55_fields h5).1, ?_, ?_, ?_⟩
  · refine row_val h5 (c1 _ (by decide)) ?_
    rw [show (envC P x δ clock).isc = iscConv x.isAdmm δ.isPgm (hasBt P.pX) (hasBt P.pD) P.acc from rfl, c2 _ (by decide),
      hacc]
    simp [srcVal, l2]
  · refine row_val h5 (c1 _ (by decide)) ?_
    rw [show (envC P x δ clock).isc = iscConv x.isAdmm δ.isPgm (hasBt P.pX) (hasBt P.pD) P.acc from rfl, c2 _ (by decide),
      hacc]
    simp [srcVal, l3]
  · refine row_val h5 (c1 _ (by decide)) ?_
    rw [show (envC P x δ clock).isc = iscConv x.isAdmm δ.isPgm (hasBt P.pX) (hasBt P.pD) P.acc from rfl, c2 _ (by decide),
      hacc]
    simp [srcVal, l4]

/-! ## Examples -/

/-- The constructor accepts every initial dictionary that is large enough. -/
theorem constructed_exists (P : PrmC d c κ m N a) (hw : P.dsz.WF (d + 2) d) (hN : ∀ k : Fin d, P.dsz.extent k.val ≤ N k)
    (D0 : Arr (d + 2 + 1)) (hD : ∃ sh : Fin d → ℕ, D0.sh = idx sh (c + 1) 1 m ∧ ∀ k : Fin d, P.dsz.extent k.val ≤ sh k)
    (x : XM) (δ : DM) : ∃ D s t, Constructed P D0 D x δ s t := by
  have hp : ∃ D, Pcn D0 P.dsz [] d P.dimC true P.zm = some D := ⟨_, rfl⟩
  obtain ⟨D, hp⟩ := hp
  have hx : ∃ s, XInit P D x s := by
    cases x with
    | admm =>
      exact ⟨Admm.St.mk 0 0 0 0 0 0 (P.rhoX.getD (50 * P.lmbda + 1)) 0 []
        (Conv.setdict P.q P.S (P.rhoX.getD 1) (dictOf P.dsz D) fun _ _ _ => 0), rfl, rfl, _, rfl⟩
    | pgm =>
      exact ⟨(⟨0, [], ⟨0, PgmConv.fwd a 0, PgmConv.fwd a 0, 0, 0, 0, 1, 1, (0, 0, 0), (0, 0, 0), none, none, none, 0, 0, 0, none⟩⟩,
        dictOf P.dsz D), ⟨rfl, rfl, rfl, rfl, rfl⟩, rfl⟩
  have hd : ∃ t, DInit P D δ t := by
    cases δ with
    | ism => exact ⟨Admm.St.mk 0 (coefOf D) 0 0 0 0 1 0 [] (Mod.setcoef P.S 0 fun _ _ _ => 0), rfl, rfl, rfl⟩
    | cg => exact ⟨Admm.St.mk 0 (coefOf D) 0 0 0 0 1 0 [] (Mod.setcoef P.S 0 fun _ _ _ => 0), rfl, rfl, rfl⟩
    | cns => exact ⟨Admm.St.mk 0 (coefOf D) 0 0 0 0 1 0 [] (Mod.setcoefC P.S 0 fun _ _ _ _ => 0), rfl, rfl, rfl⟩
    | pgm =>
      exact ⟨(⟨0, [], ⟨coefOf D, PgmConv.fwd a (coefOf D), PgmConv.fwd a (coefOf D), 0, 0, 0, 1, 1, (0, 0, 0), (0, 0, 0),
        none, none, none, 0, 0, 0, none⟩⟩, 0), ⟨rfl, rfl, rfl, rfl, rfl⟩, rfl⟩
  obtain ⟨s, hs⟩ := hx
  obtain ⟨t, ht⟩ := hd
  exact ⟨D, s, t, hw, hN, hD, hp, hs, ht⟩

end Proofs

end Sporco.Dictlrn
