import Verif.Pgm.ConvModel
import Verif.Admm.TwoBlock

/-!
# Model of the convolutional dictionary updates of `admm/ccmod.py` and `admm/ccmodmd.py`

Real-valued problems.  `A` indexes the channels of the dictionary, `K` the signals, `M` the filters.
When the dictionary has one channel and the signal several, the code moves the channels of the
signal to the axis of the signals (`ccmod.py` 275-279, 320-322); so `K` then indexes pairs.  The
projection `Pcn` onto the constraint set is a parameter (its model is in `Cnvrep`).  The variants
solving the linear system by conjugate gradient (`ConvCnstrMOD_CG`, `ConvCnstrMODMaskDcpl_CG`) are not
modelled.
-/

set_option autoImplicit false
set_option linter.unusedSectionVars false

namespace Sporco.Conv.Mod

open Finset ComplexConjugate Sporco.Linalg Sporco.Admm Sporco.Conv
open Sporco.PgmConv (coefF)

variable {d : ℕ} {N : Fin d → ℕ} [∀ k, NeZero (N k)] {a : Fin d} {A K M : Type*} [Fintype A] [Fintype K]
  [Fintype M] {κ Nb : ℕ}

/-! ## `ConvCnstrMOD_IterSM` -/

/-- Attributes of `ConvCnstrMODBase` set by `setcoef` and `xstep`. -/
structure AttrD (A K M : Type*) {d : ℕ} (N : Fin d → ℕ) [∀ k, NeZero (N k)] (a : Fin d) where
  Zf : Spec K M N a
  ZSf : Spec A M N a
  Xf : Spec A M N a

/-- `ConvCnstrMODBase.setcoef` (`ccmod.py` 311-327). -/
noncomputable def setcoef (S : A → K → Grid N → ℝ) (Z : K → M → Grid N → ℝ) (Xf : Spec A M N a) :
    AttrD A K M N a :=
  { Zf := coefF a Z
    ZSf := fun i m ξ => inner (fun k => conj (coefF a Z k m ξ)) (fun k => rfft N a (S i k) ξ)
    Xf := Xf }

/-- `sl.solvemdbi_ism(self.Zf, rho, b, self.cri.axisM, self.cri.axisK)`. -/
noncomputable def ism (Zf : Spec (Fin (κ + 1)) M N a) (rho : ℝ) (b : Spec A M N a) : Spec A M N a :=
  fun i m ξ => solvemdbiIsm (fun n => Zf 0 n ξ) (List.ofFn fun k : Fin κ => fun n => Zf k.succ n ξ) rho
    (fun n => b i n ξ) m

/-- `ConvCnstrMOD_IterSM.xstep` (`ccmod.py` 496-505). -/
noncomputable def xstepISM (rho : ℝ) (_X Y U : Coef A M N) (h : AttrD A (Fin (κ + 1)) M N a) :
    Coef A M N × AttrD A (Fin (κ + 1)) M N a :=
  let YU := Y - U
  let b : Spec A M N a := fun i m ξ => h.ZSf i m ξ + rho * rfft N a (part YU i m) ξ
  let Xf := ism h.Zf rho b
  (join fun i m => irfft N a (Xf i m), { h with Xf := Xf })

/-- `ConvCnstrMODBase.ystep` (`ccmod.py` 361-366). -/
def ystepD (Pcn : Coef A M N → Coef A M N) (_rho : ℝ) (AX _X _Y U : Coef A M N) (h : AttrD A K M N a) :
    Coef A M N × AttrD A K M N a := (Pcn (AX + U), h)

/-- `obfn_dfd` with `obfn_fvarf` (`ccmod.py` 370-376, 391-398). -/
noncomputable def dfdD (S : A → K → Grid N → ℝ) (fEvalX : Bool) (Y : Coef A M N) (h : AttrD A K M N a) : ℝ :=
  let V : Spec A M N a := if fEvalX then h.Xf else fun i m ξ => rfft N a (part Y i m) ξ
  rfl2norm2 N a (fun p : (A × K) × Half N a =>
    inner (fun m => h.Zf p.1.2 m p.2) (fun m => V p.1.1 m p.2) - rfft N a (S p.1.1 p.1.2) p.2) / 2

/-- `obfn_cns` (`ccmod.py` 402-407). -/
noncomputable def cnsD (Pcn : Coef A M N → Coef A M N) (gEvalY : Bool) (X Y : Coef A M N) : ℝ :=
  ‖Pcn (Bpdn.gvar gEvalY X Y) - Bpdn.gvar gEvalY X Y‖

/-- The class `ConvCnstrMOD_IterSM` (`ccmod.py` 53-505).  `eval_objfn` (380-387) returns the two values
`DFid` and `Cnstr`; the third entry here is not used. -/
noncomputable def clsISM (Pcn : Coef A M N → Coef A M N) (S : A → Fin (κ + 1) → Grid N → ℝ)
    (fEvalX gEvalY : Bool) : Cls (Coef A M N) (Coef A M N) (Coef A M N) (AttrD A (Fin (κ + 1)) M N a) :=
  Cls.equal xstepISM (ystepD Pcn) (fun _ h => h) fun X Y h => (dfdD S fEvalX Y h, cnsD Pcn gEvalY X Y, 0)

/-- `reconstruct` (`ccmod.py` 418-427, `ccmodmd.py` 544-553) for a given dictionary. -/
noncomputable def reconstructD (Zf : Spec K M N a) (D : Coef A M N) : A → K → Grid N → ℝ :=
  fun i k => irfft N a fun ξ => ∑ m, Zf k m ξ * rfft N a (part D i m) ξ

/-! ## `ConvCnstrMOD_Consensus` -/

/-- Attributes of `ConvCnstrMOD_Consensus`; the block index comes first. -/
structure AttrC (A : Type*) (Nb : ℕ) (M : Type*) {d : ℕ} (N : Fin d → ℕ) [∀ k, NeZero (N k)] (a : Fin d) where
  Zf : Spec (Fin Nb) M N a
  ZSf : Fin Nb → Spec A M N a
  Xf : Fin Nb → Spec A M N a

/-- `ConvCnstrMOD_Consensus.setcoef` (`ccmod.py` 753-769). -/
noncomputable def setcoefC (S : A → Fin Nb → Grid N → ℝ) (Z : Fin Nb → M → Grid N → ℝ)
    (Xf : Fin Nb → Spec A M N a) : AttrC A Nb M N a :=
  { Zf := coefF a Z
    ZSf := fun k i m ξ => conj (coefF a Z k m ξ) * rfft N a (S i k) ξ
    Xf := Xf }

/-- The X update of block `k`: `xistep` (`ccmod.py` 825-838), and the body of the loop in `xstep` for
single-channel dictionaries (800-806), which computes the same. -/
noncomputable def xistep (rho : ℝ) (Y : Coef A M N) (Uk : Coef A M N) (h : AttrC A Nb M N a) (k : Fin Nb) :
    Spec A M N a :=
  let YU := Y - Uk
  fun i m ξ => solvedbiSm (fun n => h.Zf k n ξ) rho
    (fun n => h.ZSf k i n ξ + rho * rfft N a (part YU i n) ξ) none m

/-- `ConvCnstrMOD_Consensus.xstep` (`ccmod.py` 787-821). -/
noncomputable def xstepC (rho : ℝ) (_X : Blocks (Coef A M N) Nb) (Y : Coef A M N)
    (U : Blocks (Coef A M N) Nb) (h : AttrC A Nb M N a) :
    Blocks (Coef A M N) Nb × AttrC A Nb M N a :=
  let Xf := fun k => xistep rho Y (U k) h k
  (WithLp.toLp 2 fun k => join fun i m => irfft N a (Xf k i m), { h with Xf := Xf })

/-- `obfn_dfd` with `obfn_fvarf` and `swapaxes` (`ccmod.py` 773-783, 872-891). -/
noncomputable def dfdC (S : A → Fin Nb → Grid N → ℝ) (fEvalX : Bool) (Y : Coef A M N)
    (h : AttrC A Nb M N a) : ℝ :=
  let V : Fin Nb → Spec A M N a := fun k => if fEvalX then h.Xf k else fun i m ξ => rfft N a (part Y i m) ξ
  rfl2norm2 N a (fun p : (A × Fin Nb) × Half N a =>
    inner (fun m => h.Zf p.1.2 m p.2) (fun m => V p.1.2 p.1.1 m p.2) - rfft N a (S p.1.1 p.1.2) p.2) / 2

/-- The class `ConvCnstrMOD_Consensus` (`ccmod.py` 606-908); `prox_g` 842-845, `obfn_cns` 895-901
with `obfn_gvar` of `ADMMConsensus` (`admm.py` 1641-1646). -/
noncomputable def clsCns (Pcn : Coef A M N → Coef A M N) (S : A → Fin Nb → Grid N → ℝ) (fEvalX gEvalY : Bool) :
    Cls (Blocks (Coef A M N) Nb) (Coef A M N) (Blocks (Coef A M N) Nb) (AttrC A Nb M N a) where
  xstep := xstepC
  ystep rho AX _ _ U h := (Consensus.ystep (fun v _ => Pcn v) rho AX U, h)
  relax := Consensus.relaxAX
  ustep := Consensus.ustep
  nrmR AX Y := ‖Consensus.rsdlR AX Y‖
  nrmS rho Yprev Y _ := ‖Consensus.rsdlS Nb rho Yprev Y‖
  rsdlRn := Consensus.rsdlRn
  rsdlSn := Consensus.rsdlSn
  rhochange _ h := h
  objfn X Y h :=
    let V := if gEvalY then Y else Consensus.mean X
    (dfdC S fEvalX Y h, ‖Pcn V - V‖, 0)

/-! ## `ConvCnstrMODMaskDcpl_IterSM` -/

/-- The two blocks of Y (`ccmodmd.py` 273-280, 400-445): block 0 of the shape of the signal, block 1
of the dictionary.  The code concatenates them along the filter axis after swapping axes. -/
abbrev YD (A K M : Type*) [Fintype A] [Fintype K] [Fintype M] {d : ℕ} (N : Fin d → ℕ) [∀ k, NeZero (N k)] :
    Type _ := WithLp 2 (Sig A K N × Coef A M N)

/-- `ConvCnstrMODMaskDcpl_IterSM.xstep` (`ccmodmd.py` 638-652); the state is `Xf`. -/
noncomputable def xstepMD (Z : Fin (κ + 1) → M → Grid N → ℝ) (S : A → Fin (κ + 1) → Grid N → ℝ)
    (_rho : ℝ) (_X : Coef A M N) (Y U : YD A (Fin (κ + 1)) M N) (_h : Spec A M N a) :
    Coef A M N × Spec A M N a :=
  let YU := Y - U
  let YU0 := TwoBlock.sep0 YU + join S
  let YU1 := TwoBlock.sep1 YU
  let Zf : Spec (Fin (κ + 1)) M N a := coefF a Z
  let b : Spec A M N a := fun i m ξ =>
    inner (fun k => conj (Zf k m ξ)) (fun k => rfft N a (part YU0 i k) ξ) + rfft N a (part YU1 i m) ξ
  let Xf := ism Zf 1 b
  (join fun i m => irfft N a (Xf i m), Xf)

/-- `cnst_A0` (`ccmodmd.py` 469-480).  Where the code passes `self.Xf`, it is the transform of `self.X`
(`xstepMD_Xf`). -/
noncomputable def cnstA0 (a : Fin d) (Z : K → M → Grid N → ℝ) (X : Coef A M N) : Sig A K N :=
  join fun i k => irfft N a fun ξ =>
    inner (fun m => coefF a Z k m ξ) fun m => rfft N a (part X i m) ξ

/-- `cnst_A0T` (`ccmodmd.py` 484-495). -/
noncomputable def cnstA0T (a : Fin d) (Z : K → M → Grid N → ℝ) (Y0 : Sig A K N) : Coef A M N :=
  join fun i m => irfft N a fun ξ =>
    inner (fun k => conj (coefF a Z k m ξ)) fun k => rfft N a (part Y0 i k) ξ

/-- `Y0` in `ConvCnstrMODMaskDcplBase.ystep` (`ccmodmd.py` 380-381). `W` is already broadcast. -/
noncomputable def maskDiv (S W : A → K → Grid N → ℝ) (rho : ℝ) (AXU0 : Sig A K N) : Sig A K N :=
  join fun i k p => rho * (part AXU0 i k p - S i k p) / (W i k p ^ 2 + rho)

/-- `ConvCnstrMODMaskDcplBase.ystep` (`ccmodmd.py` 374-383). -/
noncomputable def ystepMD (Pcn : Coef A M N → Coef A M N) (S W : A → K → Grid N → ℝ) (rho : ℝ)
    (AX : YD A K M N) (_X : Coef A M N) (_Y U : YD A K M N) (h : Spec A M N a) : YD A K M N × Spec A M N a :=
  let AXU := AX + U
  (TwoBlock.cat (maskDiv S W rho (TwoBlock.sep0 AXU)) (Pcn (TwoBlock.sep1 AXU)), h)

/-- `obfn_g0var` (`ccmodmd.py` 458-465); `self.Xf` is used as stored. -/
noncomputable def g0varD (a : Fin d) (Z : K → M → Grid N → ℝ) (S : A → K → Grid N → ℝ) (auxVarObj : Bool)
    (Y : YD A K M N) (h : Spec A M N a) : Sig A K N :=
  if auxVarObj then TwoBlock.sep0 Y
  else (join fun i k => irfft N a fun ξ => inner (fun m => coefF a Z k m ξ) fun m => h i m ξ) - join S

/-- The class `ConvCnstrMODMaskDcpl_IterSM` (`ccmodmd.py` 51-652): `relax_AX` 387-396, `rsdl_s` and
`rsdl_sn` 557-567 (`rsdl_s` returns a number, of which the norm is taken), objective 508-533.  Of `objfn`
the third entry is not used. -/
noncomputable def clsMD (a : Fin d) (Pcn : Coef A M N → Coef A M N) (Z : Fin (κ + 1) → M → Grid N → ℝ)
    (S W : A → Fin (κ + 1) → Grid N → ℝ) (auxVarObj : Bool) :
    Cls (Coef A M N) (YD A (Fin (κ + 1)) M N) (YD A (Fin (κ + 1)) M N) (Spec A M N a) where
  xstep := xstepMD Z S
  ystep := ystepMD Pcn S W
  relax := TwoBlock.relaxAX (cnstA0 a Z) (fun x => x) (join S) 0
  ustep := TwoBlock.ustep (join S) 0
  nrmR AX Y := ‖TwoBlock.rsdlR (join S) 0 AX Y‖
  nrmS rho _ _ U := ‖rho * ‖TwoBlock.cnstAT (cnstA0T a Z) (fun y => y) U‖‖
  rsdlRn := TwoBlock.rsdlRn (join S) 0
  rsdlSn rho U := rho * ‖U‖
  rhochange _ h := h
  objfn X Y h :=
    let Y0 := g0varD a Z S auxVarObj Y h
    let Y1 := if auxVarObj then TwoBlock.sep1 Y else X - 0
    (‖(join fun i k p => W i k p * part Y0 i k p : Sig A (Fin (κ + 1)) N)‖ ^ 2 / 2, ‖Pcn Y1 - Y1‖, 0)

/-! ## `ConvCnstrMODMaskDcpl_Consensus` -/

/-- The pairs (U, U1) and (AX, AX1) of `ConvCnstrMODMaskDcpl_Consensus`: one array for each block and
one of the shape of the signal (`ccmodmd.py` 869-874). -/
abbrev UC (A : Type*) (Nb : ℕ) (M : Type*) [Fintype A] [Fintype M] {d : ℕ} (N : Fin d → ℕ)
    [∀ k, NeZero (N k)] : Type _ := WithLp 2 (Blocks (Coef A M N) Nb × Sig A (Fin Nb) N)

/-- `xstep` (`ccmodmd.py` 927-943): the inherited update with `ZSf` recomputed and `rho` set to 1. -/
noncomputable def xstepMC (Z : Fin Nb → M → Grid N → ℝ) (S : A → Fin Nb → Grid N → ℝ) (_rho : ℝ)
    (X : Blocks (Coef A M N) Nb) (Y : WithLp 2 (Coef A M N × Sig A (Fin Nb) N)) (U : UC A Nb M N)
    (h : Fin Nb → Spec A M N a) : Blocks (Coef A M N) Nb × (Fin Nb → Spec A M N a) :=
  let YU1 := Y.snd - U.snd
  let r := xstepC 1 X Y.fst U.fst
    { Zf := coefF a Z
      ZSf := fun k i m ξ => conj (coefF a Z k m ξ) * (rfft N a (S i k) ξ + rfft N a (part YU1 i k) ξ)
      Xf := h }
  (r.1, r.2.Xf)

/-- `AX1nr` (`ccmodmd.py` 916-918): signal `k` is convolved with block `k`.  The code uses `self.Xf`, the
transform of X (`xstepMC_Xf`). -/
noncomputable def ax1 (a : Fin d) (Z : Fin Nb → M → Grid N → ℝ) (X : Blocks (Coef A M N) Nb) :
    Sig A (Fin Nb) N :=
  join fun i k => irfft N a fun ξ =>
    inner (fun m => coefF a Z k m ξ) fun m => rfft N a (part (X k) i m) ξ

/-- `ATU` in `compute_residuals` (`ccmodmd.py` 998-1000). -/
noncomputable def atu (a : Fin d) (Z : Fin Nb → M → Grid N → ℝ) (U : UC A Nb M N) :
    Blocks (Coef A M N) Nb :=
  WithLp.toLp 2 fun k => U.fst k + join fun i m => irfft N a fun ξ =>
    conj (coefF a Z k m ξ) * rfft N a (part U.snd i k) ξ

open Classical in
/-- `relax_AX` (`ccmodmd.py` 906-923): the new and the unrelaxed values. -/
noncomputable def relaxMC (a : Fin d) (Z : Fin Nb → M → Grid N → ℝ) (S : A → Fin Nb → Grid N → ℝ)
    (rlx : ℝ) (X : Blocks (Coef A M N) Nb) (Y : WithLp 2 (Coef A M N × Sig A (Fin Nb) N)) :
    UC A Nb M N × UC A Nb M N :=
  let r := Consensus.relaxAX rlx X Y.fst
  let AX1nr := ax1 a Z X
  let AX1 := if rlx = 1 then AX1nr else rlx • AX1nr + (1 - rlx) • (Y.snd + join S)
  (TwoBlock.cat r.1 AX1, TwoBlock.cat r.2 AX1nr)

/-- `rn` in `compute_residuals` (`ccmodmd.py` 1005-1009). -/
noncomputable def rnMC (S : A → Fin Nb → Grid N → ℝ) (AX : UC A Nb M N)
    (Y : WithLp 2 (Coef A M N × Sig A (Fin Nb) N)) : ℝ :=
  let nAX := Real.sqrt (‖AX.fst‖ ^ 2 + ‖AX.snd‖ ^ 2)
  let nY := Real.sqrt (‖Y.fst‖ ^ 2 + ‖Y.snd‖ ^ 2)
  max (max nAX nY) ‖(join S : Sig A (Fin Nb) N)‖

/-- The class `ConvCnstrMODMaskDcpl_Consensus` (`ccmodmd.py` 760-1036): `ystep` 947-955, `ustep` 959-966,
`compute_residuals` 982-1036, `obfn_dfd` 970-978 with `fEvalX`.  In the code `Y1`, `U1`, `AX1` are separate
attributes; here they are the second components of Y, U, AX.  `update_rho` is different, see
`updateRhoMC`. -/
noncomputable def clsMC (a : Fin d) (Pcn : Coef A M N → Coef A M N) (Z : Fin Nb → M → Grid N → ℝ)
    (S W : A → Fin Nb → Grid N → ℝ) :
    Cls (Blocks (Coef A M N) Nb) (WithLp 2 (Coef A M N × Sig A (Fin Nb) N)) (UC A Nb M N)
      (Fin Nb → Spec A M N a) where
  xstep := xstepMC Z S
  ystep rho AX _ _ U h :=
    (TwoBlock.cat (Consensus.ystep (fun v _ => Pcn v) rho AX.fst U.fst) (maskDiv S W rho (AX.snd + U.snd)), h)
  relax := relaxMC a Z S
  ustep AX Y U := TwoBlock.cat (Consensus.ustep AX.fst Y.fst U.fst) (U.snd + (AX.snd - Y.snd - join S))
  nrmR AX Y :=
    let r0 := Consensus.rsdlR AX.fst Y.fst
    let r1 := AX.snd - Y.snd - join S
    Real.sqrt (‖r0‖ ^ 2 + ‖r1‖ ^ 2)
  nrmS rho _ _ U := rho * ‖atu a Z U‖
  rsdlRn := rnMC S
  rsdlSn rho U := rho * Real.sqrt (‖U.fst‖ ^ 2 + ‖U.snd‖ ^ 2)
  rhochange _ h := h
  objfn _ Y h :=
    (‖(join fun i k p => W i k p * irfft N a (fun ξ => inner (fun m => coefF a Z k m ξ) (fun m => h k i m ξ) -
        rfft N a (S i k) ξ) p : Sig A (Fin Nb) N)‖ ^ 2 / 2, ‖Pcn Y.fst - Y.fst‖, 0)

/-- `ADMM.update_rho` (`admm.py` 549-575) on an object of this class: `self.U` is divided by the factor;
`self.U1` is another attribute, which the method does not touch. -/
noncomputable def updateRhoMC (o : Opts) (k : ℕ) (r s : ℝ)
    (st : St (Blocks (Coef A M N) Nb) (WithLp 2 (Coef A M N × Sig A (Fin Nb) N)) (UC A Nb M N)
      (Fin Nb → Spec A M N a)) :
    St (Blocks (Coef A M N) Nb) (WithLp 2 (Coef A M N × Sig A (Fin Nb) N)) (UC A Nb M N)
      (Fin Nb → Spec A M N a) :=
  if o.autoRho = true ∧ k ≠ 0 ∧ npMod (k + 1) o.period = 0 then
    let f := rsf o r s
    { st with rho := st.rho * f, U := TwoBlock.cat (f⁻¹ • st.U.fst) st.U.snd }
  else st

end Sporco.Conv.Mod
