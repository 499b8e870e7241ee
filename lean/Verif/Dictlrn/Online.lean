import Verif.Conv.Freq
import Verif.Cnvrep.PcnProps
import Mathlib.Analysis.PSeries

/-!
# Model of online dictionary learning (`dictlrn/onlinecdl.py`)

`OnlineConvBPDNDictLearn` and `OnlineConvBPDNMaskDictLearn` without CUDA.  Arrays with a channel and a signal axis
are functions of two numbers, with explicit sizes, and NumPy's rules for shapes; `none` stands for an exception.
The inference of the number of channels and signals of a training array from its shape and `dimK` is modelled in
`Verif.Cnvrep.Shape`; here a training array comes with these numbers.  The sparse coding solver is a parameter: any
function of the dictionary and the sample.  Real data; timing, display and data types are not modelled.
-/

set_option autoImplicit false

namespace Sporco.Dictlrn

open Finset ComplexConjugate Sporco.Conv Sporco.Cnvrep

variable {d : ℕ}

/-- The argument of `solve`: spatial sizes, number of channels and signals, the array, and for the class with a mask
the mask (broadcast to the shape of the signal; `none` for the class without mask). -/
structure Sample (d : ℕ) where
  N : Fin d → ℕ
  pos : ∀ k, NeZero (N k)
  C : ℕ
  K : ℕ
  S : ℕ → ℕ → Grid N → ℝ
  W : Option (ℕ → ℕ → Grid N → ℝ)

instance (s : Sample d) (k : Fin d) : NeZero (s.N k) := s.pos k

/-- Maps indexed by channel, signal and filter. -/
abbrev Maps (s : Sample d) : Type := ℕ → ℕ → ℕ → Grid s.N → ℝ

/-- Parameters of the object: dictionary size specification, channels and filters, number of channel axes in the
specification, options `ZeroMean`, `eta_a`, `eta_b` (`onlinecdl.py` 159-200), and the sparse coding solver with its
options (281-286): coefficient maps for a dictionary and a sample. -/
structure Prm (d : ℕ) where
  dsz : Dsz
  Cd : ℕ
  M : ℕ
  dimC : ℕ
  zm : Bool
  etaA : ℝ
  etaB : ℝ
  code : Arr (d + 2 + 1) → (s : Sample d) → Maps s

/-- What `self.cri` remembers (`onlinecdl.py` 249-250). -/
structure Cri (d : ℕ) where
  N : Fin d → ℕ
  C : ℕ
  K : ℕ

/-- Fields of the iteration statistics (`onlinecdl.py` 397-402) that do not come from the sparse coding. -/
structure Stat where
  iter : ℕ
  cnstr : ℝ
  deltaD : ℝ
  eta : ℝ

/-- Attributes of the object. -/
structure St (d : ℕ) where
  D : Arr (d + 2 + 1)
  j : ℕ
  cri : Option (Cri d)
  itstat : List Stat

/-- An index of a dictionary array: axes `Nv + (C,) + (1,) + (M,)`. -/
def idx (p : Fin d → ℕ) (i u m : ℕ) : Fin (d + 2 + 1) → ℕ := fun t =>
  if h : t.val < d then p ⟨t, h⟩ else if t.val = d then i else if t.val = d + 1 then u else m

/-- Size of a spatial axis. -/
def Arr.sp (D : Arr (d + 2 + 1)) (k : Fin d) : ℕ := D.sh ⟨k, by omega⟩

/-- What `rfftn(self.D, self.cri.Nv, self.cri.axisN)` transforms (`onlinecdl.py` 258, 263): the filters cut or
extended by zeros to the size of the signal. -/
def padG (D : Arr (d + 2 + 1)) (N : Fin d → ℕ) (i m : ℕ) (p : Grid N) : ℝ :=
  if ∀ k, (p k).val < Arr.sp D k then D.get (idx (fun k => (p k).val) i 0 m) else 0

/-- An array of filters of the size of the signal, in internal layout. -/
def gArr (N : Fin d → ℕ) (Cd M : ℕ) (G : ℕ → ℕ → Grid N → ℝ) : Arr (d + 2 + 1) where
  sh := idx N Cd 1 M
  get p := G (p ⟨d, by omega⟩) (p (Fin.last _)) fun k => ((p ⟨k, by omega⟩ : ℕ) : ZMod (N k))

/-- `OnlineConvBPDNDictLearn.__init__` (`onlinecdl.py` 190-204); `D0` is in standard layout. -/
noncomputable def create (P : Prm d) (D0 : Arr (d + 2 + 1)) : Option (St d) :=
  (Pcn D0 P.dsz [] d P.dimC true P.zm).map fun D => ⟨D, 0, none, []⟩

/-- NumPy's rule for the size of a result axis. -/
def bshape (a b : ℕ) : Option ℕ := if a = b then some a else if a = 1 then some b else if b = 1 then some a else none

/-- Index into an axis of size `n` that may be broadcast. -/
def bidx (n i : ℕ) : ℕ := if n = 1 then 0 else i

/-- `init_vars` (`onlinecdl.py` 248-250): the shape information is renewed if the spatial size has changed. -/
def initCri (cri : Option (Cri d)) (s : Sample d) : Cri d :=
  match cri with
  | none => ⟨s.N, s.C, s.K⟩
  | some r => if s.N = r.N then r else ⟨s.N, s.C, s.K⟩

/-- `setcoef` (`onlinecdl.py` 300-306): number of entries on the signal axis of `self.Z`, and the entries.  In the
second case `self.Z` was allocated by `init_vars` with `r.K` signals (261; its channel axis has one entry because
`r.C = Cd`). -/
def setcoef (Cd : ℕ) (r : Cri d) (s : Sample d) (Z : Maps s) : Option (ℕ × (ℕ → ℕ → Grid s.N → ℝ)) :=
  if Cd = 1 ∧ 1 < r.C then
    if s.C * s.K = r.C * r.K then some (r.C * r.K, fun k => Z (k / s.K) (k % s.K)) else none
  else if s.C - Cd + 1 = 1 ∧ (s.K = r.K ∨ s.K = 1) then some (r.K, fun k => Z 0 (bidx s.K k))
  else none

/-- Application of the mask to the residual (`onlinecdl.py` 586-589; nothing in the class without mask). -/
noncomputable def maskF (a : Fin d) (s : Sample d) (R : ℕ → ℕ → Half s.N a → ℂ) : ℕ → ℕ → Half s.N a → ℂ :=
  match s.W with
  | none => R
  | some W => fun i k => rfft s.N a fun p => W (bidx s.C i) (bidx s.K k) p * irfft s.N a (R i k) p

/-- The gradient part of `dstep` (`onlinecdl.py` 316-329; with a mask 580-597): the array `G`.  `Kz`, `Z` are
`self.Z`; the number of channels of the signal and the dictionary agree unless the dictionary has one. -/
noncomputable def gradStep (P : Prm d) (a : Fin d) (D : Arr (d + 2 + 1)) (eta : ℝ) (r : Cri d) (s : Sample d) (Kz : ℕ)
    (Z : ℕ → ℕ → Grid s.N → ℝ) : Option (ℕ → ℕ → Grid s.N → ℝ) :=
  let Zf := fun k m => rfft s.N a (Z k m)
  let Df := fun i m => rfft s.N a (padG D s.N i m)
  let Sf := fun i k => rfft s.N a (s.S i k)
  match bshape P.Cd s.C, bshape Kz s.K with
  | some Cr, some Kr =>
    let Ryf := fun i k ξ => ∑ m ∈ range P.M, Zf (bidx Kz k) m ξ * Df (bidx P.Cd i) m ξ -
      Sf (bidx s.C i) (bidx s.K k) ξ
    let Ryf := maskF a s Ryf
    let gradf := fun i m ξ => ∑ k ∈ range Kr, conj (Zf (bidx Kz k) m ξ) * Ryf i k ξ
    let gradf := if 1 < r.C ∧ P.Cd = 1 then fun _ m ξ => ∑ i ∈ range Cr, gradf i m ξ else gradf
    some fun i m => irfft s.N a fun ξ => Df i m ξ - eta * gradf i m ξ
  | _, _ => none

/-- Euclidean norm of an array. -/
noncomputable def arrNorm {n : ℕ} (sh : Fin n → ℕ) (f : (Fin n → ℕ) → ℝ) : ℝ := Real.sqrt (∑ p ∈ box sh, f p ^ 2)

/-- `eta` in `dstep` (`onlinecdl.py` 325, 593) -/
noncomputable def etaOf (P : Prm d) (j : ℕ) : ℝ := P.etaA / (j + P.etaB)

open Classical in
/-- `solve` (`onlinecdl.py` 223-240, 525-545).  Raised errors: a signal whose channels do not match a
multi-channel dictionary (`cnvrep.py` 430-433), a dictionary with an axis of size one (281, 563: see C80, where this
is an error for single-channel signals; the other cases are not modelled), shapes that cannot be broadcast, a signal smaller than the filters
or a projected dictionary of another shape (here NumPy would broadcast axes of size one; not modelled). -/
noncomputable def solve (P : Prm d) (a : Fin d) (st : St d) (s : Sample d) : Option (St d) :=
  if 1 < P.Cd ∧ s.C ≠ P.Cd then none else
  if (∃ k, Arr.sp st.D k = 1) ∨ P.M = 1 then none else
  let r := initCri st.cri s
  let eta := etaOf P st.j
  (setcoef P.Cd r s (P.code st.D s)).bind fun (Kz, Z) =>
  (gradStep P a st.D eta r s Kz Z).bind fun G =>
  let GA := gArr s.N P.Cd P.M G
  (getPcn P.dsz [] d P.dimC true P.zm GA).bind fun D =>
  if D.sh = st.D.sh ∧ ∀ k, Arr.sp st.D k ≤ s.N k then
    some ⟨D, st.j + 1, some r, st.itstat ++ [⟨st.j,
      arrNorm GA.sh fun p => (if D.In p then D.get p else 0) - GA.get p,
      arrNorm D.sh fun p => D.get p - st.D.get p, eta⟩]⟩
  else none

/-- A sequence of `solve` calls, none of which raises an error. -/
noncomputable def run (P : Prm d) (a : Fin d) : St d → List (Sample d) → Option (St d)
  | st, [] => some st
  | st, s :: l => (solve P a st s).bind fun st' => run P a st' l

/-! ## Feasibility -/

theorem Pcn_crp_Nv {n : ℕ} (x : Arr (n + 1)) (dsz : Dsz) (Nv Nv' : List ℕ) (dimN dimC : ℕ) (zm : Bool) :
    Pcn x dsz Nv dimN dimC true zm = Pcn x dsz Nv' dimN dimC true zm := rfl

theorem Pcn_feasible {n : ℕ} {x w : Arr (n + 1)} {dsz : Dsz} {dimN dimC : ℕ} {zm : Bool} (hw : dsz.WF n dimN)
    (hx : Fits dimN dsz x) (h : Pcn x dsz [] dimN dimC true zm = some w) :
    Feasible dimN (dimN + dimC) dsz zm w := by
  rw [Pcn_crp_Nv x dsz [] (List.replicate dimN 0)] at h
  exact (C34_feasible hw (by simp) hx h).1

theorem Pcn_sh {n : ℕ} {x w : Arr (n + 1)} {dsz : Dsz} {dimN dimC : ℕ} {zm : Bool}
    (h : Pcn x dsz [] dimN dimC true zm = some w) : w.sh = (bcrop x dsz dimN).sh := by
  obtain ⟨y, h1, rfl⟩ := Pcn_some h
  obtain rfl := Option.some.inj h1
  cases zm <;> rfl

/-- A dictionary obtained by the projection of a large enough array is large enough for the declared supports. -/
theorem fits_of_bcrop {n : ℕ} {x w : Arr (n + 1)} {dsz : Dsz} {dimN : ℕ} (hw : dsz.WF n dimN) (hx : Fits dimN dsz x)
    (h : w.sh = (bcrop x dsz dimN).sh) : Fits dimN dsz w := by
  intro p hs hp i
  have := bcrop_in x dsz hw hx p hs (fun i hi => by
    have := hp i hi
    rw [h, bcrop_sh_tail x dsz i hi] at this
    exact this) i
  rw [h]
  exact this

theorem fits_gArr {D : Arr (d + 2 + 1)} {dsz : Dsz} (hD : Fits d dsz D) (N : Fin d → ℕ) (hN : ∀ k, Arr.sp D k ≤ N k)
    (Cd M : ℕ) (ht : ∀ i : Fin (d + 2 + 1), d ≤ i.val → D.sh i = idx N Cd 1 M i) (G : ℕ → ℕ → Grid N → ℝ) :
    Fits d dsz (gArr N Cd M G) := by
  intro p hs hp i
  have h := hD p hs fun i hi => by
    rw [ht i hi]
    exact hp i hi
  by_cases hi : i.val < d
  · have h1 := h i
    have h2 := hN ⟨i, hi⟩
    change p i < idx N Cd 1 M i
    unfold idx
    rw [dif_pos hi]
    exact h1.trans_le h2
  · exact hp i (by omega)

/-- What holds of the object between calls. -/
def Inv (P : Prm d) (st : St d) : Prop :=
  Feasible d (d + P.dimC) P.dsz P.zm st.D ∧ Fits d P.dsz st.D ∧
    (∀ i : Fin (d + 2 + 1), d ≤ i.val → st.D.sh i = idx (fun _ => 0) P.Cd 1 P.M i)

theorem idx_tail (N N' : Fin d → ℕ) (i u m : ℕ) (t : Fin (d + 2 + 1)) (h : d ≤ t.val) : idx N i u m t = idx N' i u m t := by
  unfold idx
  rw [dif_neg (by omega), dif_neg (by omega)]

theorem inv_create {P : Prm d} (hw : P.dsz.WF (d + 2) d) {D0 : Arr (d + 2 + 1)} (hD0 : Fits d P.dsz D0)
    (hsh : ∀ i : Fin (d + 2 + 1), d ≤ i.val → D0.sh i = idx (fun _ => 0) P.Cd 1 P.M i) {st : St d}
    (h : create P D0 = some st) : Inv P st := by
  obtain ⟨D, h1, rfl⟩ := Option.map_eq_some_iff.1 h
  refine ⟨Pcn_feasible hw hD0 h1, fits_of_bcrop hw hD0 (Pcn_sh h1), fun i hi => ?_⟩
  change D.sh i = _
  rw [Pcn_sh h1, bcrop_sh_tail _ _ _ hi, hsh i hi]

open Classical in
/-- The parts of a successful `solve`. -/
theorem solve_some {P : Prm d} {a : Fin d} {st st' : St d} {s : Sample d} (h : solve P a st s = some st') :
    ∃ Kz Z G D, ¬ (1 < P.Cd ∧ s.C ≠ P.Cd) ∧ setcoef P.Cd (initCri st.cri s) s (P.code st.D s) = some (Kz, Z) ∧
      gradStep P a st.D (etaOf P st.j) (initCri st.cri s) s Kz Z = some G ∧
      Pcn (gArr s.N P.Cd P.M G) P.dsz [] d P.dimC true P.zm = some D ∧ D.sh = st.D.sh ∧
      (∀ k, Arr.sp st.D k ≤ s.N k) ∧ st'.D = D ∧ st'.j = st.j + 1 ∧ st'.cri = some (initCri st.cri s) ∧
      ∃ e, e.iter = st.j ∧ e.eta = etaOf P st.j ∧ st'.itstat = st.itstat ++ [e] ∧
        e.deltaD = arrNorm D.sh (fun p => D.get p - st.D.get p) ∧
        e.cnstr = arrNorm (gArr s.N P.Cd P.M G).sh
          (fun p => (if D.In p then D.get p else 0) - (gArr s.N P.Cd P.M G).get p) := by
  unfold solve at h
  split_ifs at h with h0 h00
  obtain ⟨⟨Kz, Z⟩, h1, h⟩ := Option.bind_eq_some_iff.1 h
  obtain ⟨G, h2, h⟩ := Option.bind_eq_some_iff.1 h
  obtain ⟨D, h3, h⟩ := Option.bind_eq_some_iff.1 h
  split_ifs at h with h4
  obtain rfl := Option.some.inj h
  refine ⟨Kz, Z, G, D, h0, h1, h2, ?_, h4.1, h4.2, rfl, rfl, rfl, _, rfl, rfl, rfl, rfl, rfl⟩
  rw [← h3, C34_getPcn_partial (Or.inl rfl)]

theorem inv_solve {P : Prm d} (hw : P.dsz.WF (d + 2) d) {a : Fin d} {st st' : St d} {s : Sample d} (hi : Inv P st)
    (h : solve P a st s = some st') : Inv P st' := by
  obtain ⟨Kz, Z, G, D, -, -, -, h3, h4, h5, h6, -⟩ := solve_some h
  have hf : Fits d P.dsz (gArr s.N P.Cd P.M G) := fits_gArr hi.2.1 s.N h5 P.Cd P.M
    (fun i hi' => by rw [hi.2.2 i hi', idx_tail _ s.N _ _ _ _ hi']) G
  unfold Inv
  rw [h6]
  refine ⟨Pcn_feasible hw hf h3, fits_of_bcrop hw hf (Pcn_sh h3), fun i hi' => ?_⟩
  rw [h4]
  exact hi.2.2 i hi'

theorem inv_run {P : Prm d} (hw : P.dsz.WF (d + 2) d) {a : Fin d} (l : List (Sample d)) {st st' : St d}
    (hi : Inv P st) (h : run P a st l = some st') : Inv P st' := by
  induction l generalizing st with
  | nil => exact Option.some.inj h ▸ hi
  | cons s l ih =>
    obtain ⟨st1, h1, h2⟩ := Option.bind_eq_some_iff.1 h
    exact ih (inv_solve hw hi h1) h2

/-- **C54, feasibility.** For any dictionary size specification, initial dictionary, sparse coding solver, options
and sequence of training samples (of varying sizes, with or without masks): the dictionary is in the constraint
set after construction and after every sequence of `solve` calls. -/
theorem C54_feasible {P : Prm d} (hw : P.dsz.WF (d + 2) d) {a : Fin d} {D0 : Arr (d + 2 + 1)} (hD0 : Fits d P.dsz D0)
    (hsh : ∀ i : Fin (d + 2 + 1), d ≤ i.val → D0.sh i = idx (fun _ => 0) P.Cd 1 P.M i) {st st' : St d}
    (h : create P D0 = some st) (l : List (Sample d)) (hl : run P a st l = some st') :
    Feasible d (d + P.dimC) P.dsz P.zm st'.D :=
  (inv_run hw l (inv_create hw hD0 hsh h) hl).1

/-! ## Step sizes -/

theorem run_itstat {P : Prm d} {a : Fin d} (l : List (Sample d)) {st st' : St d} (h : run P a st l = some st') :
    st'.j = st.j + l.length ∧ ∃ es, st'.itstat = st.itstat ++ es ∧ es.map Stat.iter = List.range' st.j l.length ∧
      es.map Stat.eta = (List.range' st.j l.length).map (etaOf P) := by
  induction l generalizing st with
  | nil =>
    obtain rfl := Option.some.inj h
    exact ⟨rfl, [], by simp, rfl, rfl⟩
  | cons s l ih =>
    obtain ⟨st1, h1, h2⟩ := Option.bind_eq_some_iff.1 h
    obtain ⟨Kz, Z, G, D, -, -, -, -, -, -, -, h3, -, e, e1, e2, e3, -⟩ := solve_some h1
    obtain ⟨i1, es, i2, i3, i4⟩ := ih h2
    rw [h3] at i1 i3 i4
    refine ⟨by rw [i1, List.length_cons]; omega, e :: es, ?_, ?_, ?_⟩
    · rw [i2, e3, List.append_assoc]; rfl
    · rw [List.map_cons, i3, e1, List.length_cons, List.range'_succ]
    · rw [List.map_cons, i4, e2, List.length_cons, List.range'_succ, List.map_cons]

/-- **C54, step sizes.** The steps recorded by any sequence of `solve` calls are numbered consecutively, and step
number `j` has size `eta j`, where for positive options the sequence `eta` is positive, decreasing, has divergent
sum and convergent sum of squares. -/
theorem C54_steps {P : Prm d} {a : Fin d} {D0 : Arr (d + 2 + 1)} {st st' : St d} (h : create P D0 = some st)
    (l : List (Sample d)) (hl : run P a st l = some st') (hA : 0 < P.etaA) (hB : 0 < P.etaB) :
    ∃ eta : ℕ → ℝ, st'.itstat.map Stat.iter = List.range l.length ∧
      st'.itstat.map Stat.eta = (List.range l.length).map eta ∧
      (∀ j, eta j = P.etaA / (j + P.etaB)) ∧ (∀ j, 0 < eta j) ∧ StrictAnti eta ∧ ¬ Summable eta ∧
      Summable fun j => eta j ^ 2 := by
  obtain ⟨D, h1, rfl⟩ := Option.map_eq_some_iff.1 h
  obtain ⟨-, es, i2, i3, i4⟩ := run_itstat l hl
  have hes : st'.itstat = es := by rw [i2]; rfl
  have hpos : ∀ j : ℕ, 0 < (j : ℝ) + P.etaB := fun j => by positivity
  refine ⟨etaOf P, ?_, ?_, fun _ => rfl, fun j => div_pos hA (hpos j), ?_, ?_, ?_⟩
  · rw [hes, i3, List.range_eq_range']
  · rw [hes, i4, List.range_eq_range']
  · refine strictAnti_nat_of_succ_lt fun j => ?_
    unfold etaOf
    refine div_lt_div_of_pos_left hA (hpos j) ?_
    push_cast
    linarith
  · intro hs
    have h1 := (hs.mul_left P.etaA⁻¹)
    have h2 : Summable fun j : ℕ => 1 / |(j : ℝ) + P.etaB| ^ (1 : ℝ) := by
      refine h1.congr fun j => ?_
      rw [Real.rpow_one, abs_of_pos (hpos j)]
      unfold etaOf
      field_simp
    rw [Real.summable_one_div_nat_add_rpow] at h2
    exact lt_irrefl _ h2
  · have h2 : Summable fun j : ℕ => 1 / |(j : ℝ) + P.etaB| ^ (2 : ℝ) :=
      Real.summable_one_div_nat_add_rpow _ _ |>.2 (by norm_num)
    refine (h2.mul_left (P.etaA ^ 2)).congr fun j => ?_
    rw [abs_of_pos (hpos j)]
    unfold etaOf
    rw [Real.rpow_two]
    field_simp

end Sporco.Dictlrn
