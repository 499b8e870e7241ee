import Verif.Dictlrn.LearnMat

/-!
# `dictlrn/wbpdndl.py` (C70, C71)

`WeightedBPDNDictLearn`: the loop of `DictLearn` with `WeightedBPDN` of `pgm/bpdn.py` and `WeightedCnstrMOD` of
`pgm/cmod.py`.  Real data; the weights are already broadcast; the inner solvers have no callback.
-/

set_option autoImplicit false

namespace Sporco.Dictlrn

open Matrix
open Sporco.Admm (Arr mat arr fro2 norm_arr mat_arr arr_mat)
open Sporco.Admm.Bpdn (l1wMat)
open Sporco.Pgm (had)
open Sporco.Prox (normL1)

variable {N M K : ℕ}

/-! ## Model -/

/-- `np.clip(x, 0, None)` -/
def clip0 (v : Matrix (Fin N) (Fin M) ℝ) : Matrix (Fin N) (Fin M) ℝ := Matrix.of fun i j => max (v i j) 0

/-- `getPcn(zm, nnc)` (`pgm/cmod.py` 342-369); `zeromean` and `normalise` (373-407) are those of `admm/cmod.py`.
`none` is the `ValueError`. -/
noncomputable def getPcnNN (zm nnc : Bool) : Option (Matrix (Fin N) (Fin M) ℝ → Matrix (Fin N) (Fin M) ℝ) :=
  if zm then
    if nnc then none else some fun x => Admm.Cmod.normalise (Admm.Cmod.zeromean x)
  else if nnc then some fun x => Admm.Cmod.normalise (clip0 x) else some Admm.Cmod.normalise

/-- The arguments and options of `WeightedBPDNDictLearn` (`wbpdndl.py` 86-145): `S`, `lmbda`, the weights `W`, options
`L1Weight`, `NonNegCoef`, the PGM options and initial `L` of the sparse coding part; `ZeroMean`, `NonNegCoef` and the PGM options
of the dictionary update part; `AccurateDFid`. -/
structure PrmW (N M K : ℕ) where
  S : Matrix (Fin N) (Fin K) ℝ
  lmbda : ℝ
  W : Matrix (Fin N) (Fin K) ℝ
  wl1 : Fin M × Fin K → ℝ
  nonNeg : Bool
  oX : Pgm.Opts
  zm : Bool
  nnc : Bool
  oD : Pgm.Opts
  acc : Bool

/-- The object of class `pgm.bpdn.WeightedBPDN`: the attributes of `PGM` and the dictionary. -/
abbrev XW (N M K : ℕ) : Type := Pgm.St (Pgm.Vars (Arr M K)) × Matrix (Fin N) (Fin M) ℝ

/-- The object of class `pgm.cmod.WeightedCnstrMOD`: the attributes of `PGM` and the coefficients. -/
abbrev DW (N M K : ℕ) : Type := Pgm.St (Pgm.Vars (Arr N M)) × Matrix (Fin M) (Fin K) ℝ

/-- Fields of the statistics of the PGM sparse coding class (`pgm/pgm.py` 190, `pgm/bpdn.py` 110) without the time and the
backtracking fields. -/
def fldWB : List String := ["Iter", "ObjFun", "DFid", "RegL1", "Rsdl", "L"]

/-- An entry of the statistics of `pgm.bpdn.WeightedBPDN`.  The model of PGM keeps the scaled l1 term in the third entry
of the objective tuple, the code the term without the factor `lmbda` (`pgm/bpdn.py` 205-223); simplification: the recorded
value is obtained by division, which is the value of the code if `lmbda` is not zero. -/
noncomputable def statWB (lmbda : ℝ) (s : Pgm.Stat) : Ntpl ℝ := fun f =>
  [("Iter", (s.iter : ℝ)), ("ObjFun", s.obj.1), ("DFid", s.obj.2.1), ("RegL1", s.obj.2.2 / lmbda), ("Rsdl", s.rsdl),
    ("L", s.L)].lookup f

/-- Fields of the statistics of the PGM dictionary update class (`pgm/pgm.py` 190, `pgm/cmod.py` 104). -/
def fldWC : List String := ["Iter", "DFid", "Cnstr", "Rsdl", "L"]

/-- An entry of the statistics of `pgm.cmod.WeightedCnstrMOD`. -/
noncomputable def statWC (s : Pgm.Stat) : Ntpl ℝ := fun f =>
  [("Iter", (s.iter : ℝ)), ("DFid", s.obj.2.1), ("Cnstr", s.obj.2.2), ("Rsdl", s.rsdl), ("L", s.L)].lookup f

/-- `pgm.cmod.WeightedCnstrMOD` with the constraint violation (`pgm/cmod.py` 196-203, 218-223) as last entry of the
objective tuple.  Simplification: the first entry of the tuple, which only the option `Monotone` uses, is the data fidelity plus
the violation here and the data fidelity in the code; the violation is zero at all variables that occur (`solve_cns`). -/
noncomputable def clsWC (P : PrmW N M K) (Pcn : Matrix (Fin N) (Fin M) ℝ → Matrix (Fin N) (Fin M) ℝ)
    (Z : Matrix (Fin M) (Fin K) ℝ) : Pgm.Cls (Arr N M) :=
  { Pgm.clsWCMOD Z P.S (fun v => arr (Pcn (mat v))) P.W with
    obfnG := fun X => ‖arr (Pcn (mat X)) - X‖ }

/-- The sparse coding object of `WeightedBPDNDictLearn`: `solve` (`pgm/pgm.py` 284-382), `getcoef` (`pgm/bpdn.py` 169-172),
`setdict` (`pgm/bpdn.py` 162-165). -/
noncomputable def xW (P : PrmW N M K) : XStep (XW N M K) (Matrix (Fin M) (Fin K) ℝ) (Matrix (Fin N) (Fin M) ℝ) ℝ where
  solve s := (Pgm.solve (Pgm.ops (Pgm.clsWBPDN s.2 P.S P.lmbda P.wl1 P.nonNeg P.W) P.oX) P.oX none s.1, s.2)
  getcoef s := mat s.1.v.X
  setdict D s := (s.1, D)
  itstat s := s.1.itstat.map (statWB P.lmbda)
  fields := fldWB

/-- The dictionary update object of `WeightedBPDNDictLearn`: `solve` (`pgm/pgm.py` 284-382), `getdict` (`pgm/cmod.py`
162-165), `setcoef` (`pgm/cmod.py` 155-158). -/
noncomputable def dW (P : PrmW N M K) (Pcn : Matrix (Fin N) (Fin M) ℝ → Matrix (Fin N) (Fin M) ℝ) :
    DStep (DW N M K) (Matrix (Fin M) (Fin K) ℝ) (Matrix (Fin N) (Fin M) ℝ) ℝ where
  solve s := (Pgm.solve (Pgm.ops (clsWC P Pcn s.2) P.oD) P.oD none s.1, s.2)
  getdict s := mat s.1.v.X
  setcoef Z s := (s.1, Z)
  itstat s := s.1.itstat.map statWC
  fields := fldWC

/-- The configuration of the statistics (`wbpdndl.py` 173-192). -/
def iscW (acc : Bool) : Isc :=
  ⟨["Iter", "ObjFun", "DFid", "RegL1", "Cnstr", "XRsdl", "XL", "DRsdl", "DL", "Time"],
    (if acc then [] else [("ObjFun", "ObjFun"), ("DFid", "DFid"), ("RegL1", "RegL1")]) ++ [("XRsdl", "Rsdl"), ("XL", "L")],
    [("Cnstr", "Cnstr"), ("DRsdl", "Rsdl"), ("DL", "L")],
    (if acc then [("ObjFun", "ObjFun"), ("DFid", "DFid"), ("RegL1", "RegL1")] else []),
    ["Itn", "Fnc", "DFid", "ℓ1", "Cnstr", "X_Rsdl", "X_L", "D_Rsdl", "D_L"],
    [("Itn", "Iter"), ("Fnc", "ObjFun"), ("DFid", "DFid"), ("ℓ1", "RegL1"), ("Cnstr", "Cnstr"), ("X_Rsdl", "XRsdl"),
      ("X_L", "XL"), ("D_Rsdl", "DRsdl"), ("D_L", "DL")]⟩

/-- `WeightedBPDNDictLearn.evaluate` (`wbpdndl.py` 199-210). -/
noncomputable def evlW (P : PrmW N M K) (x : XW N M K) (d : DW N M K) : Option (Ntpl ℝ) :=
  if P.acc then
    let D := mat d.1.v.X
    let X := mat x.1.v.X
    let dfd := 1 / 2 * ‖arr (had (Matrix.of fun i j => Real.sqrt (P.W i j)) (D * X - P.S))‖ ^ 2
    let rl1 := ∑ i, ∑ j, |X i j|
    some (evlTuple dfd rl1 (dfd + P.lmbda * rl1))
  else none

/-- `WeightedBPDNDictLearn` (`wbpdndl.py` 131-210) as an instance of `DictLearn`. -/
noncomputable def envW (P : PrmW N M K) (Pcn : Matrix (Fin N) (Fin M) ℝ → Matrix (Fin N) (Fin M) ℝ) (clock : ℕ → ℝ) :
    Env (XW N M K) (DW N M K) (Matrix (Fin M) (Fin K) ℝ) (Matrix (Fin N) (Fin M) ℝ) ℝ :=
  ⟨xW P, dW P Pcn, iscW P.acc, evlW P, 0, clock⟩

/-- The sparse coding object that the constructor makes (`wbpdndl.py` 159-160, `pgm/bpdn.py` 151-158): Y is a copy of X, and
the dictionary is the projected `D0`; `x` holds the initial values that the options determine. -/
noncomputable def xW0 (Pcn : Matrix (Fin N) (Fin M) ℝ → Matrix (Fin N) (Fin M) ℝ) (D0 : Matrix (Fin N) (Fin M) ℝ)
    (x : Pgm.Vars (Arr M K)) : XW N M K :=
  (⟨0, [], { x with Y := x.X }⟩, Pcn D0)

/-- The dictionary update object that the constructor makes (`wbpdndl.py` 155-165, `pgm/cmod.py` 147-151): X and Y are the
projected `D0`, the coefficients those of the sparse coding object. -/
noncomputable def dW0 (Pcn : Matrix (Fin N) (Fin M) ℝ → Matrix (Fin N) (Fin M) ℝ) (D0 : Matrix (Fin N) (Fin M) ℝ)
    (x : Pgm.Vars (Arr M K)) (d : Pgm.Vars (Arr N M)) : DW N M K :=
  (⟨0, [], { d with X := arr (Pcn D0), Y := arr (Pcn D0) }⟩, mat x.X)

/-! ## Specification -/

/-- The weighted data fidelity `(1/2) Σ w (D X - S)²`. -/
noncomputable def wdfd (W : Matrix (Fin N) (Fin K) ℝ) (D : Matrix (Fin N) (Fin M) ℝ) (S : Matrix (Fin N) (Fin K) ℝ)
    (X : Matrix (Fin M) (Fin K) ℝ) : ℝ := 1 / 2 * ∑ i, ∑ j, W i j * (D * X - S) i j ^ 2

/-! ## Proofs -/

theorem wdfd_eq (W : Matrix (Fin N) (Fin K) ℝ) (hW : ∀ i j, 0 ≤ W i j) (R : Matrix (Fin N) (Fin K) ℝ) :
    ‖arr (had (Matrix.of fun i j => Real.sqrt (W i j)) R)‖ ^ 2 = ∑ i, ∑ j, W i j * R i j ^ 2 := by
  rw [norm_arr]
  unfold fro2 had
  refine Finset.sum_congr rfl fun i _ => Finset.sum_congr rfl fun j _ => ?_
  rw [Matrix.of_apply, Matrix.of_apply, mul_pow, Real.sq_sqrt (hW i j)]

theorem getPcnNN_atoms {zm nnc : Bool} {Pcn : Matrix (Fin N) (Fin M) ℝ → Matrix (Fin N) (Fin M) ℝ}
    (h : getPcnNN zm nnc = some Pcn) (v : Matrix (Fin N) (Fin M) ℝ) :
    AtomsOk zm (Pcn v) ∧ (nnc = true → ∀ i j, 0 ≤ Pcn v i j) := by
  unfold getPcnNN at h
  cases zm <;> cases nnc <;> simp only [if_true, if_false, Bool.false_eq_true, reduceCtorEq, Option.some.injEq] at h
  · subst h
    exact ⟨getPcn_atoms false v, fun h => (Bool.false_ne_true h).elim⟩
  · subst h
    refine ⟨getPcn_atoms false (clip0 v), fun _ i j => ?_⟩
    change 0 ≤ Admm.Cmod.normalise (clip0 v) i j
    rw [Admm.Cmod.normalise_apply]
    refine div_nonneg (le_max_right _ _) ?_
    split_ifs
    · exact zero_le_one
    · exact Real.sqrt_nonneg _
  · subst h
    exact ⟨getPcn_atoms true v, fun h => (Bool.false_ne_true h).elim⟩

theorem statWB_fields (l : ℝ) (s : Pgm.Stat) : HasFields (statWB l s) fldWB := by
  intro f hf
  simp only [fldWB, List.mem_cons, List.not_mem_nil, or_false] at hf
  rcases hf with rfl | rfl | rfl | rfl | rfl | rfl <;> exact ⟨_, rfl⟩

theorem statWC_fields (s : Pgm.Stat) : HasFields (statWC s) fldWC := by
  intro f hf
  simp only [fldWC, List.mem_cons, List.not_mem_nil, or_false] at hf
  rcases hf with rfl | rfl | rfl | rfl | rfl <;> exact ⟨_, rfl⟩

theorem iscW_ok : ∀ acc, ∀ f ∈ (iscW acc).isfld, okSrcF fldWB fldWC acc f (src (iscW acc) f) = true := by decide

theorem iscW_src : ∀ acc, (∀ f ∈ ["ObjFun", "DFid", "RegL1", "Cnstr"], f ∈ (iscW acc).isfld) ∧
    src (iscW acc) "Cnstr" = .d "Cnstr" ∧
    ∀ f ∈ ["ObjFun", "DFid", "RegL1"], src (iscW acc) f = if acc then .e else .x f := by decide

theorem rowsOk_W (P : PrmW N M K) (Pcn : Matrix (Fin N) (Fin M) ℝ → Matrix (Fin N) (Fin M) ℝ) (clock : ℕ → ℝ) :
    RowsOk (envW P Pcn clock) := by
  intro j x d
  refine row_some fun f hf => okSrcF_val (iscW_ok P.acc f hf) ?_ ?_ fun hacc => ?_
  · refine lastStat_fields 0 fun s hs => ?_
    obtain ⟨st, -, rfl⟩ := List.mem_map.1 hs
    exact statWB_fields _ st
  · refine lastStat_fields 0 fun s hs => ?_
    obtain ⟨st, -, rfl⟩ := List.mem_map.1 hs
    exact statWC_fields st
  · change ∃ g, evlW P x d = some g ∧ _
    unfold evlW
    rw [hacc]
    exact ⟨_, rfl, evlTuple_fields _ _ _⟩

/-- **C70 for `WeightedBPDNDictLearn` with `AccurateDFid`.** For every input, option value, sequence of `solve` calls and
callbacks: the calls raise no error in the recording of statistics, and the values recorded in each row are the
weighted data fidelity, the l1 norm of the coefficients, and the functional, at the dictionary and the coefficients that the
object returns right after the iteration. -/
theorem C70_wbpdndl_accurate (P : PrmW N M K) (hW : ∀ i j, 0 ≤ P.W i j) (hacc : P.acc = true) (clock : ℕ → ℝ)
    (Pcn : Matrix (Fin N) (Fin M) ℝ → Matrix (Fin N) (Fin M) ℝ) (D0 : Matrix (Fin N) (Fin M) ℝ)
    (x : Pgm.Vars (Arr M K)) (d : Pgm.Vars (Arr N M)) (cs : List (ℕ × (DL (XW N M K) (DW N M K) ℝ → Bool))) :
    ∃ s xs ds, dlRun (envW P Pcn clock) cs ⟨xW0 Pcn D0 x, dW0 Pcn D0 x d, 0, []⟩ = some s ∧
      Alternates (envW P Pcn clock) (xW0 Pcn D0 x) (dW0 Pcn D0 x d) xs ds ∧
      AtEnd (envW P Pcn clock) (xW0 Pcn D0 x) (dW0 Pcn D0 x d) xs ds s.itstat.length s.x s.d ∧
      ∀ k (hk : k < s.itstat.length),
        let D := (dW P Pcn).getdict (ds k)
        let X := (xW P).getcoef (xs k)
        s.itstat[k].map Prod.fst = (iscW P.acc).isfld ∧
        ("DFid", Val.val (wdfd P.W D P.S X)) ∈ s.itstat[k] ∧
        ("RegL1", Val.val (∑ i, ∑ j, |X i j|)) ∈ s.itstat[k] ∧
        ("ObjFun", Val.val (wdfd P.W D P.S X + P.lmbda * ∑ i, ∑ j, |X i j|)) ∈ s.itstat[k] := by
  obtain ⟨s, hs⟩ := run_total (rowsOk_W P Pcn clock) cs ⟨xW0 Pcn D0 x, dW0 Pcn D0 x d, 0, []⟩
  obtain ⟨xs, ds, n, h1, h2, -, rfl, num, -, h4⟩ := C55_alternation hs
  refine ⟨s, xs, ds, hs, h1, h2, fun k hk => ?_⟩
  have h5 := h4 k hk
  obtain ⟨c1, -, c2⟩ := iscW_src P.acc
  have he : (envW P Pcn clock).evl ((envW P Pcn clock).X.setdict ((envW P Pcn clock).D.getdict (ds k)) (xs k)) (ds k) =
      some (evlTuple (wdfd P.W ((dW P Pcn).getdict (ds k)) P.S ((xW P).getcoef (xs k)))
        (∑ i, ∑ j, |(xW P).getcoef (xs k) i j|)
        (wdfd P.W ((dW P Pcn).getdict (ds k)) P.S ((xW P).getcoef (xs k)) +
          P.lmbda * ∑ i, ∑ j, |(xW P).getcoef (xs k) i j|)) := by
    change evlW P _ _ = _
    unfold evlW wdfd
    rw [hacc]
    simp only [if_true]
    rw [wdfd_eq P.W hW]
    rfl
  refine ⟨(C55_fields h5).1, ?_, ?_, ?_⟩ <;>
  · refine row_val h5 (c1 _ (by decide)) ?_
    rw [show (envW P Pcn clock).isc = iscW P.acc from rfl, c2 _ (by decide), hacc, he]
    rfl

/-- **C70 for `WeightedBPDNDictLearn` without `AccurateDFid`** (partial: without the option `Monotone`, for which see
`C47_C70_learning_refuted`), inner solvers that make at least one iteration and record statistics: the recorded values are
those of sparse coding, that is at the coefficients that the object returns but for the dictionary from before the
dictionary update, with the weighted l1 norm. -/
theorem C70_wbpdndl_estimate_partial (P : PrmW N M K) (hW : ∀ i j, 0 ≤ P.W i j) (hw : ∀ i, 0 ≤ P.wl1 i) (hl : P.lmbda ≠ 0)
    (hacc : P.acc = false) (hm : P.oX.monotone = false) (hf : P.oX.fastSolve = false) (ho : 1 ≤ P.oX.maxMainIter)
    (clock : ℕ → ℝ)
    (Pcn : Matrix (Fin N) (Fin M) ℝ → Matrix (Fin N) (Fin M) ℝ) (D0 : Matrix (Fin N) (Fin M) ℝ)
    (x : Pgm.Vars (Arr M K)) (d : Pgm.Vars (Arr N M)) (cs : List (ℕ × (DL (XW N M K) (DW N M K) ℝ → Bool))) :
    ∃ s xs ds, dlRun (envW P Pcn clock) cs ⟨xW0 Pcn D0 x, dW0 Pcn D0 x d, 0, []⟩ = some s ∧
      Alternates (envW P Pcn clock) (xW0 Pcn D0 x) (dW0 Pcn D0 x d) xs ds ∧
      AtEnd (envW P Pcn clock) (xW0 Pcn D0 x) (dW0 Pcn D0 x d) xs ds s.itstat.length s.x s.d ∧
      ∀ k (hk : k < s.itstat.length),
        let D := usedDict (dW P Pcn).getdict (Pcn D0) ds k
        let X := (xW P).getcoef (xs k)
        s.itstat[k].map Prod.fst = (iscW P.acc).isfld ∧
        ("DFid", Val.val (wdfd P.W D P.S X)) ∈ s.itstat[k] ∧
        ("RegL1", Val.val (l1wMat P.wl1 X)) ∈ s.itstat[k] ∧
        ("ObjFun", Val.val (wdfd P.W D P.S X + P.lmbda * l1wMat P.wl1 X)) ∈ s.itstat[k] := by
  obtain ⟨s, hs⟩ := run_total (rowsOk_W P Pcn clock) cs ⟨xW0 Pcn D0 x, dW0 Pcn D0 x d, 0, []⟩
  obtain ⟨xs, ds, n, h1, h2, -, rfl, num, -, h4⟩ := C55_alternation hs
  refine ⟨s, xs, ds, hs, h1, h2, fun k hk => ?_⟩
  have h5 := h4 k hk
  obtain ⟨c1, -, c2⟩ := iscW_src P.acc
  have key : ∀ y : XW N M K, ∃ st : Pgm.Stat, ((xW P).solve y).1.itstat.getLast? = some st ∧
      st.obj.2.1 = wdfd P.W y.2 P.S ((xW P).getcoef ((xW P).solve y)) ∧
      st.obj.2.2 = P.lmbda * l1wMat P.wl1 ((xW P).getcoef ((xW P).solve y)) ∧ st.obj.1 = st.obj.2.1 + st.obj.2.2 := by
    intro y
    obtain ⟨j, r, hj⟩ := Pgm.solve_last (Pgm.ops (Pgm.clsWBPDN y.2 P.S P.lmbda P.wl1 P.nonNeg P.W) P.oX) P.oX hf ho y.1
    refine ⟨_, hj, ?_⟩
    have hobj : ∀ v, ((Pgm.ops (Pgm.clsWBPDN y.2 P.S P.lmbda P.wl1 P.nonNeg P.W) P.oX).stat j v r).obj =
        (Pgm.clsWBPDN y.2 P.S P.lmbda P.wl1 P.nonNeg P.W).objfn v.X := by
      intro v
      change (if P.oX.monotone = true then _ else _) = _
      rw [hm]
      rfl
    rw [hobj]
    refine ⟨?_, ?_, rfl⟩
    · change 1 / 2 * ‖arr (had (Matrix.of fun i j => Real.sqrt (P.W i j)) _)‖ ^ 2 = _
      rw [wdfd_eq P.W hW]
      rfl
    · change P.lmbda * normL1 (fun i => P.wl1 i * _) = _
      rw [normL1_mat P.wl1 hw]
      rfl
  have hl' : ∃ st : Pgm.Stat, (xs k).1.itstat.getLast? = some st ∧
      st.obj.2.1 = wdfd P.W (usedDict (dW P Pcn).getdict (Pcn D0) ds k) P.S ((xW P).getcoef (xs k)) ∧
      st.obj.2.2 = P.lmbda * l1wMat P.wl1 ((xW P).getcoef (xs k)) ∧ st.obj.1 = st.obj.2.1 + st.obj.2.2 := by
    cases k with
    | zero => rw [h1.x_first]; exact key _
    | succ k => rw [h1.x_next]; exact key _
  obtain ⟨st, l1, l2, l3, l4⟩ := hl'
  rw [l2, l3] at l4
  have hx : lastStat ((envW P Pcn clock).X.itstat ((envW P Pcn clock).X.setdict ((envW P Pcn clock).D.getdict (ds k)) (xs k)))
      (envW P Pcn clock).X.fields (envW P Pcn clock).zero = statWB P.lmbda st := by
    change lastStat ((xs k).1.itstat.map (statWB P.lmbda)) _ _ = _
    unfold lastStat
    rw [List.getLast?_map, l1]
    rfl
  rw [hx] at h5
  refine ⟨(C55_fields h5).1, ?_, ?_, ?_⟩
  · refine row_val h5 (c1 _ (by decide)) ?_
    rw [show (envW P Pcn clock).isc = iscW P.acc from rfl, c2 _ (by decide), hacc]
    exact congrArg (fun v => some (Val.val v)) l2
  · refine row_val h5 (c1 _ (by decide)) ?_
    rw [show (envW P Pcn clock).isc = iscW P.acc from rfl, c2 _ (by decide), hacc]
    refine congrArg (fun v => some (Val.val v)) ?_
    rw [l3, mul_div_cancel_left₀ _ hl]
  · refine row_val h5 (c1 _ (by decide)) ?_
    rw [show (envW P Pcn clock).isc = iscW P.acc from rfl, c2 _ (by decide), hacc]
    exact congrArg (fun v => some (Val.val v)) l4

theorem getPcnNN_idem {zm nnc : Bool} {Pcn : Matrix (Fin N) (Fin M) ℝ → Matrix (Fin N) (Fin M) ℝ}
    (h : getPcnNN zm nnc = some Pcn) (v : Matrix (Fin N) (Fin M) ℝ) : Pcn (Pcn v) = Pcn v := by
  have h2 := (getPcnNN_atoms h v).2
  unfold getPcnNN at h
  cases zm <;> cases nnc <;> simp only [if_true, if_false, Bool.false_eq_true, reduceCtorEq, Option.some.injEq] at h
  · subst h
    exact Admm.Cmod.C34_cmod_idempotent false v
  · subst h
    have h3 : clip0 (Admm.Cmod.normalise (clip0 v)) = Admm.Cmod.normalise (clip0 v) := by
      ext i j
      exact max_eq_left (h2 rfl i j)
    change Admm.Cmod.normalise (clip0 (Admm.Cmod.normalise (clip0 v))) = _
    rw [h3]
    exact Admm.Cmod.C34_cmod_idempotent false (clip0 v)
  · subst h
    exact Admm.Cmod.C34_cmod_idempotent true v

/-- The constraint violation is zero at the variable of the dictionary update object. -/
theorem solve_cns {P : PrmW N M K} {Pcn : Matrix (Fin N) (Fin M) ℝ → Matrix (Fin N) (Fin M) ℝ}
    (hP : getPcnNN P.zm P.nnc = some Pcn) (Z : Matrix (Fin M) (Fin K) ℝ) (s : DW N M K)
    (h : Pcn (mat s.1.v.X) = mat s.1.v.X) :
    Pcn (mat ((dW P Pcn).solve s).1.v.X) = mat ((dW P Pcn).solve s).1.v.X ∧
      (clsWC P Pcn Z).obfnG ((dW P Pcn).solve s).1.v.X = 0 := by
  have h1 : Pcn (mat ((dW P Pcn).solve s).1.v.X) = mat ((dW P Pcn).solve s).1.v.X :=
    Pgm.solve_X (clsWC P Pcn s.2) P.oD (fun X => Pcn (mat X) = mat X)
      (fun _ v => getPcnNN_idem hP (mat v)) _ h
  refine ⟨h1, ?_⟩
  change ‖arr (Pcn _) - _‖ = 0
  rw [h1, arr_mat, sub_self, norm_zero]

/-- **C71 for `WeightedBPDNDictLearn`.** For every input, option value (the constructor raises an error if zero mean
and non-negative atoms are both requested), sequence of `solve` calls and callbacks: after the construction, after
every iteration and at the end, the dictionary that the object returns has atoms of unit norm (or zero), of zero mean if that is
requested, non-negative if that is requested; the sparse coding object has the same dictionary. -/
theorem C71_wbpdndl (P : PrmW N M K) (clock : ℕ → ℝ) (Pcn : Matrix (Fin N) (Fin M) ℝ → Matrix (Fin N) (Fin M) ℝ)
    (hP : getPcnNN P.zm P.nnc = some Pcn) (D0 : Matrix (Fin N) (Fin M) ℝ)
    (x : Pgm.Vars (Arr M K)) (d : Pgm.Vars (Arr N M)) (cs : List (ℕ × (DL (XW N M K) (DW N M K) ℝ → Bool))) :
    ∃ s xs ds, dlRun (envW P Pcn clock) cs ⟨xW0 Pcn D0 x, dW0 Pcn D0 x d, 0, []⟩ = some s ∧
      Alternates (envW P Pcn clock) (xW0 Pcn D0 x) (dW0 Pcn D0 x d) xs ds ∧
      AtEnd (envW P Pcn clock) (xW0 Pcn D0 x) (dW0 Pcn D0 x d) xs ds s.itstat.length s.x s.d ∧
      (∀ D, (D = (dW P Pcn).getdict (dW0 Pcn D0 x d) ∨ (∃ k, D = (dW P Pcn).getdict (ds k)) ∨
          D = (dW P Pcn).getdict s.d) → AtomsOk P.zm D ∧ (P.nnc = true → ∀ i j, 0 ≤ D i j)) ∧
      s.x.2 = (dW P Pcn).getdict s.d := by
  obtain ⟨s, hs⟩ := run_total (rowsOk_W P Pcn clock) cs ⟨xW0 Pcn D0 x, dW0 Pcn D0 x d, 0, []⟩
  obtain ⟨xs, ds, n, h1, h2, -, rfl, -⟩ := C55_alternation hs
  have h0 := getPcnNN_atoms hP D0
  have hds : ∀ k, AtomsOk P.zm ((dW P Pcn).getdict (ds k)) ∧ (P.nnc = true → ∀ i j, 0 ≤ (dW P Pcn).getdict (ds k) i j) :=
    alt_inv_d h1 (fun d => AtomsOk P.zm ((dW P Pcn).getdict d) ∧ (P.nnc = true → ∀ i j, 0 ≤ (dW P Pcn).getdict d i j)) h0
      fun z d hd => Pgm.solve_X (clsWC P Pcn z) P.oD (fun X => AtomsOk P.zm (mat X) ∧ (P.nnc = true → ∀ i j, 0 ≤ mat X i j))
        (fun _ v => getPcnNN_atoms hP (mat v)) _ hd
  have hend : (AtomsOk P.zm ((dW P Pcn).getdict s.d) ∧ (P.nnc = true → ∀ i j, 0 ≤ (dW P Pcn).getdict s.d i j)) ∧
      s.x.2 = (dW P Pcn).getdict s.d := by
    generalize s.itstat.length = n at h2
    cases n with
    | zero =>
      obtain ⟨e1, e2⟩ := h2
      rw [e1, e2]
      exact ⟨h0, rfl⟩
    | succ k =>
      obtain ⟨e1, e2⟩ := h2
      rw [e1, e2]
      exact ⟨hds k, rfl⟩
  refine ⟨s, xs, ds, hs, h1, h2, ?_, hend.2⟩
  rintro D (rfl | ⟨k, rfl⟩ | rfl)
  · exact h0
  · exact hds k
  · exact hend.1

/-! ## Examples -/

/-- The hypotheses of the theorems hold: non-negative atoms without zero mean, and two iterations, which record two
rows. -/
example (clock : ℕ → ℝ) (o : Pgm.Opts) (D0 : Matrix (Fin 2) (Fin 2) ℝ) (x d : Pgm.Vars (Arr 2 2)) :
    let P : PrmW 2 2 2 := ⟨1, 1 / 10, 1, fun _ => 1, false, o, false, true, o, true⟩
    ∃ Pcn, getPcnNN P.zm P.nnc = some Pcn ∧ ∃ s : DL (XW 2 2 2) (DW 2 2 2) ℝ, s.itstat.length = 2 ∧
      dlRun (envW P Pcn clock) [(2, fun _ => false)] ⟨xW0 Pcn D0 x, dW0 Pcn D0 x d, 0, []⟩ = some s ∧
      AtomsOk false s.x.2 ∧ ∀ i j, 0 ≤ s.x.2 i j := by
  intro P
  refine ⟨fun x => Admm.Cmod.normalise (clip0 x), rfl, ?_⟩
  obtain ⟨s, xs, ds, hs, h1, h2, h3, h4⟩ := C71_wbpdndl P clock (fun x => Admm.Cmod.normalise (clip0 x)) rfl D0 x d
    [(2, fun _ => false)]
  have hl : s.itstat.length = 2 := by
    have := run_length hs
    simpa using this
  obtain ⟨h5, h6⟩ := h3 _ (Or.inr (Or.inr rfl))
  refine ⟨s, hl, hs, ?_, ?_⟩
  · rw [h4]; exact h5
  · rw [h4]; exact h6 rfl

end Sporco.Dictlrn
