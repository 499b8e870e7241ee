import Verif.Dictlrn.Learn
import Verif.Admm.Cmod
import Verif.Pgm.Bpdn

/-!
# `dictlrn/bpdndl.py` and `dictlrn/wbpdndl.py` (C70, C71)

`BPDNDictLearn` and `WeightedBPDNDictLearn`: the loop of `DictLearn` with the sparse coding and dictionary update
classes of `admm/bpdn.py`, `admm/cmod.py`, `pgm/bpdn.py`, `pgm/cmod.py`.  Real data; the inner solvers have no callback.
-/

set_option autoImplicit false

namespace Sporco.Dictlrn

open Matrix
open Sporco.Admm (Arr mat arr fro2 norm_arr mat_arr arr_mat)
open Sporco.Admm.Bpdn (fvar gvar l1wMat objBPDN)
open Sporco.Prox (normL1)

variable {N M K : ℕ}

/-! ## Model: `BPDNDictLearn` -/

/-- The arguments and options of `BPDNDictLearn` (`bpdndl.py` 86-119): `S`, `lmbda`, options `L1Weight`, `NonNegCoef`,
`fEvalX`, `gEvalY` and the ADMM options of the sparse coding part; `ZeroMean`, `fEvalX`, `gEvalY` and the ADMM options of
the dictionary update part; `AccurateDFid`. -/
structure PrmB (N M K : ℕ) where
  S : Matrix (Fin N) (Fin K) ℝ
  lmbda : ℝ
  wl1 : Fin M × Fin K → ℝ
  nonNeg : Bool
  fX : Bool
  gX : Bool
  oX : Admm.Opts
  zm : Bool
  fD : Bool
  gD : Bool
  oD : Admm.Opts
  acc : Bool

/-- Fields of the statistics of `admm.bpdn.BPDN` that are used (`admm/admm.py` 185-186, `admm/bpdn.py` 144-145, 378). -/
def fldB : List String := ["Iter", "ObjFun", "DFid", "RegL1", "PrimalRsdl", "DualRsdl", "EpsPrimal", "EpsDual", "Rho"]

/-- An entry of the statistics of `admm.bpdn.BPDN`; the objective tuple is `(obj, dfd, rl1)`. -/
def statB (s : Admm.Stat) : Ntpl ℝ := fun f =>
  [("Iter", (s.iter : ℝ)), ("ObjFun", s.obj.1), ("DFid", s.obj.2.1), ("RegL1", s.obj.2.2), ("PrimalRsdl", s.rsdl.r),
    ("DualRsdl", s.rsdl.s), ("EpsPrimal", s.rsdl.epri), ("EpsDual", s.rsdl.edua), ("Rho", s.rho)].lookup f

/-- Fields of the statistics of `admm.cmod.CnstrMOD` that are used (`admm/admm.py` 185-186, `admm/cmod.py` 107-108). -/
def fldC : List String := ["Iter", "DFid", "Cnstr", "PrimalRsdl", "DualRsdl", "EpsPrimal", "EpsDual", "Rho"]

/-- An entry of the statistics of `admm.cmod.CnstrMOD`; the objective tuple is `(dfd, cns)`. -/
def statC (s : Admm.Stat) : Ntpl ℝ := fun f =>
  [("Iter", (s.iter : ℝ)), ("DFid", s.obj.1), ("Cnstr", s.obj.2.1), ("PrimalRsdl", s.rsdl.r),
    ("DualRsdl", s.rsdl.s), ("EpsPrimal", s.rsdl.epri), ("EpsDual", s.rsdl.edua), ("Rho", s.rho)].lookup f

/-- `admm.bpdn.BPDN` with the objective tuple of `eval_objfn` (`admm/bpdn.py` 224-232, 236-241, 458-464): the entries
are the functional, the data fidelity and the l1 term without its factor. -/
noncomputable def clsB (P : PrmB N M K) : Admm.Cls (Arr M K) (Arr M K) (Arr M K) (Admm.Bpdn.Attr N M K) :=
  { Admm.Bpdn.clsBPDN P.S P.lmbda P.wl1 P.nonNeg P.fX P.gX with
    objfn := fun X Y h =>
      let f := Admm.Bpdn.dfd h P.S (fvar P.fX X Y)
      let rl1 := normL1 fun i => P.wl1 i * (gvar P.gX X Y) i
      (f + P.lmbda * rl1, f, rl1) }

/-- The object of class `admm.bpdn.BPDN`. -/
abbrev XB (N M K : ℕ) : Type := Admm.St (Arr M K) (Arr M K) (Arr M K) (Admm.Bpdn.Attr N M K)

/-- The object of class `admm.cmod.CnstrMOD`. -/
abbrev DB (N M K : ℕ) : Type := Admm.St (Arr N M) (Arr N M) (Arr N M) (Admm.Cmod.Attr N M K)

/-- The sparse coding object of `BPDNDictLearn`: `solve` (`admm/admm.py` 293-389), `getcoef` (`admm/bpdn.py` 185-188),
`setdict` (`admm/bpdn.py` 174-181). -/
noncomputable def xB (P : PrmB N M K) : XStep (XB N M K) (Matrix (Fin M) (Fin K) ℝ) (Matrix (Fin N) (Fin M) ℝ) ℝ where
  solve := Admm.solve (clsB P) P.oX none
  getcoef s := mat s.Y
  setdict D s := { s with extra := Admm.Bpdn.setdict P.S s.rho D }
  itstat s := s.itstat.map statB
  fields := fldB

/-- The dictionary update object of `BPDNDictLearn`: `solve` (`admm/admm.py` 293-389), `getdict` (`admm/cmod.py`
222-225), `setcoef` (`admm/cmod.py` 211-218). -/
noncomputable def dB (P : PrmB N M K) : DStep (DB N M K) (Matrix (Fin M) (Fin K) ℝ) (Matrix (Fin N) (Fin M) ℝ) ℝ where
  solve := Admm.solve (Admm.Cmod.clsCMOD P.S P.zm P.fD P.gD) P.oD none
  getdict s := mat s.Y
  setcoef Z s := { s with extra := Admm.Cmod.setcoef P.S s.rho Z }
  itstat s := s.itstat.map statC
  fields := fldC

/-- The configuration of the statistics (`bpdndl.py` 166-188). -/
def iscB (acc : Bool) : Isc :=
  ⟨["Iter", "ObjFun", "DFid", "RegL1", "Cnstr", "XPrRsdl", "XDlRsdl", "XRho", "DPrRsdl", "DDlRsdl", "DRho", "Time"],
    (if acc then [] else [("ObjFun", "ObjFun"), ("DFid", "DFid"), ("RegL1", "RegL1")]) ++
      [("XPrRsdl", "PrimalRsdl"), ("XDlRsdl", "DualRsdl"), ("XRho", "Rho")],
    [("Cnstr", "Cnstr"), ("DPrRsdl", "PrimalRsdl"), ("DDlRsdl", "DualRsdl"), ("DRho", "Rho")],
    (if acc then [("ObjFun", "ObjFun"), ("DFid", "DFid"), ("RegL1", "RegL1")] else []),
    ["Itn", "Fnc", "DFid", "ℓ1", "Cnstr", "r_X", "s_X", "ρ_X", "r_D", "s_D", "ρ_D"],
    [("Itn", "Iter"), ("Fnc", "ObjFun"), ("DFid", "DFid"), ("ℓ1", "RegL1"), ("Cnstr", "Cnstr"), ("r_X", "XPrRsdl"),
      ("s_X", "XDlRsdl"), ("ρ_X", "XRho"), ("r_D", "DPrRsdl"), ("s_D", "DDlRsdl"), ("ρ_D", "DRho")]⟩

/-- The dictionary of results of `evaluate`. -/
def evlTuple (dfd rl1 obj : ℝ) : Ntpl ℝ := fun f => [("DFid", dfd), ("RegL1", rl1), ("ObjFun", obj)].lookup f

/-- `BPDNDictLearn.evaluate` (`bpdndl.py` 195-206). -/
noncomputable def evlB (P : PrmB N M K) (x : XB N M K) (d : DB N M K) : Option (Ntpl ℝ) :=
  if P.acc then
    let D := mat d.Y
    let X := mat x.Y
    let dfd := 1 / 2 * ‖arr (D * X - P.S)‖ ^ 2
    let rl1 := ∑ i, ∑ j, |X i j|
    some (evlTuple dfd rl1 (dfd + P.lmbda * rl1))
  else none

/-- `BPDNDictLearn` (`bpdndl.py` 121-206) as an instance of `DictLearn`. -/
noncomputable def envB (P : PrmB N M K) (clock : ℕ → ℝ) :
    Env (XB N M K) (DB N M K) (Matrix (Fin M) (Fin K) ℝ) (Matrix (Fin N) (Fin M) ℝ) ℝ :=
  ⟨xB P, dB P, iscB P.acc, evlB P, 0, clock⟩

/-- The sparse coding object that the constructor makes (`bpdndl.py` 150-153): the dictionary is the projected `D0`;
`x` holds the initial values that the options determine. -/
noncomputable def xB0 (P : PrmB N M K) (D0 : Matrix (Fin N) (Fin M) ℝ) (x : XB N M K) : XB N M K :=
  { x with k := 0, itstat := [], extra := Admm.Bpdn.setdict P.S x.rho (Admm.Cmod.getPcn P.zm D0) }

/-- The dictionary update object that the constructor makes (`bpdndl.py` 141-148, 155-158): `Y0` is the projected `D0`
and `U0` zero; `d` holds the values of X (which does not exist yet), the relaxed variables and rho. -/
noncomputable def dB0 (P : PrmB N M K) (D0 : Matrix (Fin N) (Fin M) ℝ) (x : XB N M K) (d : DB N M K) : DB N M K :=
  { d with k := 0, itstat := [], Y := arr (Admm.Cmod.getPcn P.zm D0), U := 0,
           extra := Admm.Cmod.setcoef P.S d.rho (mat x.Y) }

/-! ## Specification -/

/-- The constraint on dictionaries: every atom has unit norm or is zero, and has zero mean if that is requested. -/
def AtomsOk (zm : Bool) (D : Matrix (Fin N) (Fin M) ℝ) : Prop :=
  (∀ j, ∑ i, D i j ^ 2 = 1 ∨ ∀ i, D i j = 0) ∧ (zm = true → ∀ j, ∑ i, D i j = 0)

/-- The dictionary that sparse coding used in iteration `k`: the initial one in the first, then the one of the
previous dictionary update. -/
def usedDict {τ Dc : Type} (getdict : τ → Dc) (D0 : Dc) (ds : ℕ → τ) : ℕ → Dc
  | 0 => D0
  | k + 1 => getdict (ds k)

/-! ## Proofs -/

theorem statB_fields (s : Admm.Stat) : HasFields (statB s) fldB := by
  intro f hf
  simp only [fldB, List.mem_cons, List.not_mem_nil, or_false] at hf
  rcases hf with rfl | rfl | rfl | rfl | rfl | rfl | rfl | rfl | rfl <;> exact ⟨_, rfl⟩

theorem statC_fields (s : Admm.Stat) : HasFields (statC s) fldC := by
  intro f hf
  simp only [fldC, List.mem_cons, List.not_mem_nil, or_false] at hf
  rcases hf with rfl | rfl | rfl | rfl | rfl | rfl | rfl | rfl <;> exact ⟨_, rfl⟩

/-- The source provides the field. -/
def okSrcF (xf df : List String) (acc : Bool) (f : String) : Src → Bool
  | .x a => a ∈ xf
  | .d a => a ∈ df
  | .e => acc && f ∈ ["ObjFun", "DFid", "RegL1"]
  | .iter => true
  | .time => true
  | .nil => false

theorem okSrcF_val {V : Type} {xf df : List String} {acc : Bool} {f : String} {s : Src} (h : okSrcF xf df acc f s = true) {j : ℕ}
    {t : V} {isx isd : Ntpl V} {evl : Option (Ntpl V)} (hx : HasFields isx xf) (hd : HasFields isd df)
    (he : acc = true → ∃ g, evl = some g ∧ HasFields g ["ObjFun", "DFid", "RegL1"]) :
    ∃ v, srcVal j t isx isd evl f s = some v := by
  cases s with
  | x a =>
    obtain ⟨v, hv⟩ := hx a (by simpa [okSrcF] using h)
    exact ⟨.val v, by simp [srcVal, hv]⟩
  | d a =>
    obtain ⟨v, hv⟩ := hd a (by simpa [okSrcF] using h)
    exact ⟨.val v, by simp [srcVal, hv]⟩
  | e =>
    simp only [okSrcF, Bool.and_eq_true, decide_eq_true_eq] at h
    obtain ⟨g, rfl, hg⟩ := he h.1
    obtain ⟨v, hv⟩ := hg f h.2
    exact ⟨.val v, by simp [srcVal, hv]⟩
  | iter => exact ⟨.iter j, rfl⟩
  | time => exact ⟨.val t, rfl⟩
  | nil => simp [okSrcF] at h

theorem evlTuple_fields (a b c : ℝ) : HasFields (evlTuple a b c) ["ObjFun", "DFid", "RegL1"] := by
  intro f hf
  simp only [List.mem_cons, List.not_mem_nil, or_false] at hf
  rcases hf with rfl | rfl | rfl <;> exact ⟨_, rfl⟩

theorem iscB_ok : ∀ acc, ∀ f ∈ (iscB acc).isfld, okSrcF fldB fldC acc f (src (iscB acc) f) = true := by decide

theorem iscB_src : ∀ acc, (∀ f ∈ ["ObjFun", "DFid", "RegL1", "Cnstr"], f ∈ (iscB acc).isfld) ∧
    ∀ f ∈ ["ObjFun", "DFid", "RegL1"], src (iscB acc) f = if acc then .e else .x f := by decide

theorem rowsOk_B (P : PrmB N M K) (clock : ℕ → ℝ) : RowsOk (envB P clock) := by
  intro j x d
  refine row_some fun f hf => okSrcF_val (iscB_ok P.acc f hf) ?_ ?_ fun hacc => ?_
  · refine lastStat_fields 0 fun s hs => ?_
    obtain ⟨st, -, rfl⟩ := List.mem_map.1 hs
    exact statB_fields st
  · refine lastStat_fields 0 fun s hs => ?_
    obtain ⟨st, -, rfl⟩ := List.mem_map.1 hs
    exact statC_fields st
  · change ∃ g, evlB P x d = some g ∧ _
    unfold evlB
    rw [hacc]
    exact ⟨_, rfl, evlTuple_fields _ _ _⟩

theorem normL1_mat (w : Fin M × Fin K → ℝ) (hw : ∀ i, 0 ≤ w i) (X : Arr M K) :
    (normL1 fun i => w i * X i) = l1wMat w (mat X) := by
  unfold normL1 l1wMat
  rw [Fintype.sum_prod_type]
  refine Finset.sum_congr rfl fun i _ => Finset.sum_congr rfl fun j _ => ?_
  rw [Real.norm_eq_abs, abs_mul, abs_of_nonneg (hw _)]
  rfl

/-- **C70 for `BPDNDictLearn` with `AccurateDFid`.** For every input, option value, sequence of `solve` calls and
callbacks: the calls raise no error in the recording of statistics, and the values recorded in each row are the data
fidelity `(1/2)‖D X - S‖²`, the l1 norm of `X`, and the functional, at the dictionary and the coefficients that the
object returns right after the iteration. -/
theorem C70_bpdndl_accurate (P : PrmB N M K) (hacc : P.acc = true) (clock : ℕ → ℝ) (D0 : Matrix (Fin N) (Fin M) ℝ)
    (x : XB N M K) (d : DB N M K) (cs : List (ℕ × (DL (XB N M K) (DB N M K) ℝ → Bool))) :
    ∃ s xs ds, dlRun (envB P clock) cs ⟨xB0 P D0 x, dB0 P D0 x d, 0, []⟩ = some s ∧
      Alternates (envB P clock) (xB0 P D0 x) (dB0 P D0 x d) xs ds ∧
      AtEnd (envB P clock) (xB0 P D0 x) (dB0 P D0 x d) xs ds s.itstat.length s.x s.d ∧
      ∀ k (hk : k < s.itstat.length),
        let D := (dB P).getdict (ds k)
        let X := (xB P).getcoef (xs k)
        s.itstat[k].map Prod.fst = (iscB P.acc).isfld ∧
        ("DFid", Val.val (1 / 2 * fro2 (D * X - P.S))) ∈ s.itstat[k] ∧
        ("RegL1", Val.val (∑ i, ∑ j, |X i j|)) ∈ s.itstat[k] ∧
        ("ObjFun", Val.val (1 / 2 * fro2 (D * X - P.S) + P.lmbda * ∑ i, ∑ j, |X i j|)) ∈ s.itstat[k] := by
  obtain ⟨s, hs⟩ := run_total (rowsOk_B P clock) cs ⟨xB0 P D0 x, dB0 P D0 x d, 0, []⟩
  obtain ⟨xs, ds, n, h1, h2, -, rfl, num, -, h4⟩ := C55_alternation hs
  refine ⟨s, xs, ds, hs, h1, h2, fun k hk => ?_⟩
  have h5 := h4 k hk
  obtain ⟨c1, c2⟩ := iscB_src P.acc
  have he : (envB P clock).evl ((envB P clock).X.setdict ((envB P clock).D.getdict (ds k)) (xs k)) (ds k) =
      some (evlTuple (1 / 2 * fro2 ((dB P).getdict (ds k) * (xB P).getcoef (xs k) - P.S))
        (∑ i, ∑ j, |(xB P).getcoef (xs k) i j|)
        (1 / 2 * fro2 ((dB P).getdict (ds k) * (xB P).getcoef (xs k) - P.S) +
          P.lmbda * ∑ i, ∑ j, |(xB P).getcoef (xs k) i j|)) := by
    change evlB P _ _ = _
    unfold evlB
    rw [hacc]
    simp only [if_true, norm_arr]
    rfl
  refine ⟨(C55_fields h5).1, ?_, ?_, ?_⟩ <;>
  · refine row_val h5 (c1 _ (by decide)) ?_
    rw [show (envB P clock).isc = iscB P.acc from rfl, c2 _ (by decide), hacc, he]
    rfl

/-- What the sparse coding object records at its last iteration: the terms of the functional for the dictionary it has,
at its current variables. -/
def LastB (P : PrmB N M K) (D : Matrix (Fin N) (Fin M) ℝ) (s : XB N M K) : Prop :=
  s.extra.D = D ∧ ∃ st, s.itstat.getLast? = some st ∧ st.obj.2.1 = 1 / 2 * fro2 (D * mat (fvar P.fX s.X s.Y) - P.S) ∧
    st.obj.2.2 = normL1 (fun i => P.wl1 i * (gvar P.gX s.X s.Y) i) ∧ st.obj.1 = st.obj.2.1 + P.lmbda * st.obj.2.2

theorem solve_lastB (P : PrmB N M K) (hf : P.oX.fastSolve = false) (ho : 1 ≤ P.oX.maxMainIter)
    (D : Matrix (Fin N) (Fin M) ℝ) (s : XB N M K) (h : s.extra.D = D) : LastB P D ((xB P).solve s) := by
  refine Admm.solve_last (clsB P) P.oX none (fun s => s.extra.D = D) (LastB P D) (fun _ _ h => h) (fun k s h => ?_) ho s h
  obtain ⟨e1, e2, e3, e4⟩ := Admm.body_eq (clsB P) P.oX k s
  have hD : (Admm.steps (clsB P) P.oX { s with k := k }).extra.D = D := h
  have hD' : (Admm.body (clsB P) P.oX none k s).1.extra.D = D := by
    rcases e4 with e | ⟨rho, e⟩ <;> rw [e]
    · exact hD
    · exact hD
  refine ⟨hD', hD', ?_⟩
  rcases e3 with ⟨-, e⟩ | ⟨st, e, eo, -⟩
  · rw [hf] at e; exact absurd e (by simp)
  · refine ⟨st, by rw [e]; simp, ?_, ?_, ?_⟩
    · rw [eo, e1, e2]
      change 1 / 2 * ‖arr ((Admm.steps (clsB P) P.oX { s with k := k }).extra.D * _ - P.S)‖ ^ 2 = _
      rw [norm_arr, hD]
    · rw [eo, e1, e2]; rfl
    · rw [eo]; rfl

/-- **C70 for `BPDNDictLearn` without `AccurateDFid`**, inner solvers that make at least one iteration and record
statistics: the recorded values are those of sparse coding, that is for the dictionary from before the dictionary
update, at the variable `X` or `Y` that the options `fEvalX`, `gEvalY` choose, with weighted l1 norm. -/
theorem C70_bpdndl_estimate (P : PrmB N M K) (hacc : P.acc = false) (hw : ∀ i, 0 ≤ P.wl1 i) (hf : P.oX.fastSolve = false)
    (ho : 1 ≤ P.oX.maxMainIter) (clock : ℕ → ℝ) (D0 : Matrix (Fin N) (Fin M) ℝ)
    (x : XB N M K) (d : DB N M K) (cs : List (ℕ × (DL (XB N M K) (DB N M K) ℝ → Bool))) :
    ∃ s xs ds, dlRun (envB P clock) cs ⟨xB0 P D0 x, dB0 P D0 x d, 0, []⟩ = some s ∧
      Alternates (envB P clock) (xB0 P D0 x) (dB0 P D0 x d) xs ds ∧
      AtEnd (envB P clock) (xB0 P D0 x) (dB0 P D0 x d) xs ds s.itstat.length s.x s.d ∧
      ∀ k (hk : k < s.itstat.length),
        let D := usedDict (dB P).getdict (Admm.Cmod.getPcn P.zm D0) ds k
        let Xf := mat (if P.fX then (xs k).X else (xs k).Y)
        let Xg := mat (if P.gX then (xs k).Y else (xs k).X)
        s.itstat[k].map Prod.fst = (iscB P.acc).isfld ∧
        ("DFid", Val.val (1 / 2 * fro2 (D * Xf - P.S))) ∈ s.itstat[k] ∧
        ("RegL1", Val.val (l1wMat P.wl1 Xg)) ∈ s.itstat[k] ∧
        ("ObjFun", Val.val (1 / 2 * fro2 (D * Xf - P.S) + P.lmbda * l1wMat P.wl1 Xg)) ∈ s.itstat[k] := by
  obtain ⟨s, hs⟩ := run_total (rowsOk_B P clock) cs ⟨xB0 P D0 x, dB0 P D0 x d, 0, []⟩
  obtain ⟨xs, ds, n, h1, h2, -, rfl, num, -, h4⟩ := C55_alternation hs
  refine ⟨s, xs, ds, hs, h1, h2, fun k hk => ?_⟩
  have h5 := h4 k hk
  obtain ⟨c1, c2⟩ := iscB_src P.acc
  have hl : LastB P (usedDict (dB P).getdict (Admm.Cmod.getPcn P.zm D0) ds k) (xs k) := by
    cases k with
    | zero => rw [h1.x_first]; exact solve_lastB P hf ho _ _ rfl
    | succ k => rw [h1.x_next]; exact solve_lastB P hf ho _ _ rfl
  obtain ⟨-, st, l1, l2, l3, l4⟩ := hl
  rw [normL1_mat P.wl1 hw] at l3
  rw [l2, l3] at l4
  have hx : lastStat ((envB P clock).X.itstat ((envB P clock).X.setdict ((envB P clock).D.getdict (ds k)) (xs k)))
      (envB P clock).X.fields (envB P clock).zero = statB st := by
    change lastStat ((xs k).itstat.map statB) _ _ = _
    unfold lastStat
    rw [List.getLast?_map, l1]
    rfl
  rw [hx] at h5
  refine ⟨(C55_fields h5).1, ?_, ?_, ?_⟩
  · refine row_val h5 (c1 _ (by decide)) ?_
    rw [show (envB P clock).isc = iscB P.acc from rfl, c2 _ (by decide), hacc]
    exact congrArg (fun v => some (Val.val v)) l2
  · refine row_val h5 (c1 _ (by decide)) ?_
    rw [show (envB P clock).isc = iscB P.acc from rfl, c2 _ (by decide), hacc]
    exact congrArg (fun v => some (Val.val v)) l3
  · refine row_val h5 (c1 _ (by decide)) ?_
    rw [show (envB P clock).isc = iscB P.acc from rfl, c2 _ (by decide), hacc]
    exact congrArg (fun v => some (Val.val v)) l4

theorem getPcn_atoms (zm : Bool) (v : Matrix (Fin N) (Fin M) ℝ) : AtomsOk zm (Admm.Cmod.getPcn zm v) := by
  obtain ⟨h1, h2⟩ := Admm.Cmod.C34_cmod_feasible zm v
  exact ⟨fun j => (h2 j).imp id fun h => h.1, h1⟩

/-- **C71 for `BPDNDictLearn`.** For every input, option value, sequence of `solve` calls and callbacks: after the
construction, after every iteration and at the end, the dictionary that the object returns has atoms of unit norm (or
zero), of zero mean if that is requested; the sparse coding steps use only such dictionaries. -/
theorem C71_bpdndl (P : PrmB N M K) (clock : ℕ → ℝ) (D0 : Matrix (Fin N) (Fin M) ℝ)
    (x : XB N M K) (d : DB N M K) (cs : List (ℕ × (DL (XB N M K) (DB N M K) ℝ → Bool))) :
    ∃ s xs ds, dlRun (envB P clock) cs ⟨xB0 P D0 x, dB0 P D0 x d, 0, []⟩ = some s ∧
      Alternates (envB P clock) (xB0 P D0 x) (dB0 P D0 x d) xs ds ∧
      AtEnd (envB P clock) (xB0 P D0 x) (dB0 P D0 x d) xs ds s.itstat.length s.x s.d ∧
      AtomsOk P.zm ((dB P).getdict (dB0 P D0 x d)) ∧ (∀ k, AtomsOk P.zm ((dB P).getdict (ds k))) ∧
      AtomsOk P.zm ((dB P).getdict s.d) ∧ AtomsOk P.zm s.x.extra.D ∧ s.x.extra.D = (dB P).getdict s.d := by
  obtain ⟨s, hs⟩ := run_total (rowsOk_B P clock) cs ⟨xB0 P D0 x, dB0 P D0 x d, 0, []⟩
  obtain ⟨xs, ds, n, h1, h2, -, rfl, -⟩ := C55_alternation hs
  have h0 : AtomsOk P.zm ((dB P).getdict (dB0 P D0 x d)) := getPcn_atoms P.zm D0
  have hds : ∀ k, AtomsOk P.zm ((dB P).getdict (ds k)) :=
    alt_inv_d h1 (fun d => AtomsOk P.zm ((dB P).getdict d)) h0 fun z d hd =>
      Admm.solve_Y (Admm.Cmod.clsCMOD P.S P.zm P.fD P.gD) P.oD (fun Y => AtomsOk P.zm (mat Y))
        (fun _ _ _ _ _ _ => getPcn_atoms P.zm _) _ hd
  refine ⟨s, xs, ds, hs, h1, h2, h0, hds, ?_⟩
  generalize s.itstat.length = n at h2
  cases n with
  | zero =>
    obtain ⟨e1, e2⟩ := h2
    rw [e1, e2]
    exact ⟨h0, h0, rfl⟩
  | succ k =>
    obtain ⟨e1, e2⟩ := h2
    rw [e1, e2]
    exact ⟨hds k, hds k, rfl⟩

/-! ## Examples -/

/-- One atom, one signal, with `AccurateDFid`: two iterations record two rows, and the last one holds the functional at
the dictionary and coefficients that the object has at the end. -/
example (clock : ℕ → ℝ) (D0 : Matrix (Fin 1) (Fin 1) ℝ) (x : XB 1 1 1) (d : DB 1 1 1) :
    let o : Admm.Opts := ⟨false, 1, 0, 1 / 1000, false, 1, true, true, 1, 1, 2, 10, 1, 1⟩
    let P : PrmB 1 1 1 := ⟨1, 1 / 10, fun _ => 1, false, false, true, o, true, false, true, o, true⟩
    ∃ (s : DL (XB 1 1 1) (DB 1 1 1) ℝ) (h : s.itstat.length = 2),
      dlRun (envB P clock) [(2, fun _ => false)] ⟨xB0 P D0 x, dB0 P D0 x d, 0, []⟩ = some s ∧
      ("DFid", Val.val (1 / 2 * fro2 (mat s.d.Y * mat s.x.Y - 1))) ∈ s.itstat[1] := by
  intro o P
  obtain ⟨s, xs, ds, hs, h1, h2, h3⟩ := C70_bpdndl_accurate P rfl clock D0 x d [(2, fun _ => false)]
  have hl : s.itstat.length = 2 := by
    have := run_length hs
    simpa using this
  obtain ⟨-, h4, -⟩ := h3 1 (by omega)
  refine ⟨s, hl, hs, ?_⟩
  rw [hl] at h2
  obtain ⟨e1, e2⟩ := h2
  rw [e1, e2]
  exact h4

end Sporco.Dictlrn
