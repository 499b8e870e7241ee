import Verif.Util.Display

/-!
# The columns of the status tables of the solver classes (C87)
-/

set_option autoImplicit false

namespace Sporco.Util.Display

/-- Class attributes of a solver class: the fields `itstat_fields_objfn` and `itstat_fields_extra`, the titles
`hdrtxt_objfn` and the dict `hdrval_objfun`, own or inherited. -/
structure Cols where
  name : String
  objfn : List String
  extra : List String
  titles : List String
  vals : List (String × String)

/-- What the base classes `ADMM` and `PGM` add: `itstat_fields_alg` and the titles and the dict of `hdrtxt`, `hdrval`. -/
structure Alg where
  fields : List String
  titles : List String
  vals : List (String × String)
  fmtmap : List (Text × ℕ)

/-- `ADMM` (`admm/admm.py` 185-188, 491-507, 592) -/
def algADMM : Alg where
  fields := ["PrimalRsdl", "DualRsdl", "EpsPrimal", "EpsDual", "Rho"]
  titles := ["r", "s", "ρ"]
  vals := [("r", "PrimalRsdl"), ("s", "DualRsdl"), ("ρ", "Rho")]
  fmtmap := []

/-- `PGM` (`pgm/pgm.py` 190-192, 520-538, 602) -/
def algPGM : Alg where
  fields := ["Rsdl", "F_Btrack", "Q_Btrack", "IterBTrack", "L"]
  titles := ["Rsdl", "F", "Q", "It_Bt", "L"]
  vals := [("Rsdl", "Rsdl"), ("F", "F_Btrack"), ("Q", "Q_Btrack"), ("It_Bt", "IterBTrack"), ("L", "L")]
  fmtmap := [("It_Bt".toList, 5)]

/-- `itstat_fields` (`common.py` 132-139) -/
def fieldsOf (a : Alg) (c : Cols) : List String := "Iter" :: (c.objfn ++ a.fields ++ c.extra ++ ["Time"])

/-- `hdrtxt` (`admm/admm.py` 491-494, `pgm/pgm.py` 520-523) -/
def hdrtxt (a : Alg) (c : Cols) : List String := "Itn" :: (c.titles ++ a.titles)

/-- The lookup in the dict `hdrval` (`admm/admm.py` 498-507, `pgm/pgm.py` 527-538): later entries replace earlier ones. -/
def hdrval (a : Alg) (c : Cols) (col : String) : Option String :=
  (a.vals.lookup col).or ((c.vals.lookup col).or ([("Itn", "Iter")].lookup col))

/-- `getattr(itst, f)` for the namedtuple with the given fields. -/
def getattr (fields : List String) (tpl : List Val) (f : String) : Option Val := (fields.zip tpl).lookup f

/-- The tuple `itdsp` (`admm/admm.py` 611-615, `pgm/pgm.py` 620-624): the last `cut` columns are left out. -/
def itdsp (a : Alg) (c : Cols) (cut : ℕ) (tpl : List Val) : Option (List Val) :=
  ((hdrtxt a c).mapM fun col => (hdrval a c col).bind (getattr (fieldsOf a c) tpl)).map
    fun l => l.take (l.length - cut)

/-- The titles that are displayed (`admm/admm.py` 587-590, `pgm/pgm.py` 595-598). -/
def shownTitles (a : Alg) (c : Cols) (cut : ℕ) : List Text :=
  ((hdrtxt a c).take ((hdrtxt a c).length - cut)).map String.toList

/-- The three values of `display_start` (`admm/admm.py` 592-593, `pgm/pgm.py` 600-602), with `fwiter` and `fpothr`
(`admm/admm.py` 177-180, `pgm/pgm.py` 182-185) and the default of `fwdthdlt`. -/
def dispStrs (a : Alg) (c : Cols) (cut : ℕ) : Option (Text × Text × ℕ) :=
  statusStr (shownTitles a c cut) (a.fmtmap.map fun q => (q.1, fmtD q.2)) 4 6 2

/-- `display_status` (`admm/admm.py` 605-617, `pgm/pgm.py` 614-626) of a record that `IterationStats(*tpl)` makes; `none` is
an exception. -/
noncomputable def dispRow (S : Sci) (a : Alg) (c : Cols) (cut : ℕ) (tpl : List Val) : Option Text :=
  if tpl.length = (fieldsOf a c).length then
    (itdsp a c cut tpl).bind fun vs => (dispStrs a c cut).bind fun q => pyFormat S q.2.1 vs
  else none

/-- What is checked of a class. -/
def Cols.ok (a : Alg) (c : Cols) : Bool :=
  decide (c.titles.mapM (fun t => c.vals.lookup t) = some c.objfn) &&
  c.titles.all (fun t => (a.vals.lookup t).isNone) && decide (fieldsOf a c).Nodup && decide (hdrtxt a c).Nodup &&
  (hdrtxt a c).all (fun t => decide (t.length ≤ 8)) && (c.vals.lookup "Itn").isNone &&
  c.titles.all fun t => (a.fmtmap.lookup t.toList).isNone

/-- All classes derived from `ADMM`, with the attributes they have or inherit (`admm/admm.py` 182-198, 1069-1080;
`admm/bpdn.py` 144-148, 371-374, 527-531, 653-657, 841-843, 1029-1031; `admm/cbpdn.py` 168-172, 512-515, 737-741, 878-882,
1091-1095, 1313-1315, 1528-1531, 1950-1952, 2165-2168, 2598-2602; `admm/cbpdnin.py` 138-142; `admm/cbpdntv.py` 155-160,
864-869; `admm/ccmod.py` 181-184, 562, 659-662; `admm/ccmodmd.py` 203-206, 709; `admm/cmod.py` 141-143;
`admm/parcbpdn.py` 503-506; `admm/pdcsc.py` 229-233, 641-645; `admm/ppp.py` 46-48, 201-203; `admm/rpca.py` 108-111;
`admm/spline.py` 123-126; `admm/tvl1.py` 145-148, 520-523; `admm/tvl2.py` 145-148, 490-493). -/
def classesADMM : List Cols := [
  ⟨"admm.admm.ADMM", ["ObjFun", "FVal", "GVal"], [], ["Fnc", "f", "g"],
    [("Fnc", "ObjFun"), ("f", "FVal"), ("g", "GVal")]⟩,
  ⟨"admm.admm.ADMMConsensus", ["ObjFun", "FVal", "GVal"], [], ["Fnc", "f", "g"],
    [("Fnc", "ObjFun"), ("f", "FVal"), ("g", "GVal")]⟩,
  ⟨"admm.admm.ADMMEqual", ["ObjFun", "FVal", "GVal"], [], ["Fnc", "f", "g"],
    [("Fnc", "ObjFun"), ("f", "FVal"), ("g", "GVal")]⟩,
  ⟨"admm.admm.ADMMTwoBlockCnstrnt", ["ObjFun", "FVal", "G0Val", "G1Val"], [], ["Fnc", "f", "g0", "g1"],
    [("Fnc", "ObjFun"), ("f", "FVal"), ("g0", "G0Val"), ("g1", "G1Val")]⟩,
  ⟨"admm.admm.WeightedADMMConsensus", ["ObjFun", "FVal", "GVal"], [], ["Fnc", "f", "g"],
    [("Fnc", "ObjFun"), ("f", "FVal"), ("g", "GVal")]⟩,
  ⟨"admm.bpdn.BPDN", ["ObjFun", "DFid", "RegL1"], ["XSlvRelRes"], ["Fnc", "DFid", "Regℓ1"],
    [("Fnc", "ObjFun"), ("DFid", "DFid"), ("Regℓ1", "RegL1")]⟩,
  ⟨"admm.bpdn.BPDNJoint", ["ObjFun", "DFid", "RegL1", "RegL21"], ["XSlvRelRes"], ["Fnc", "DFid", "Regℓ1", "Regℓ2,1"],
    [("Fnc", "ObjFun"), ("DFid", "DFid"), ("Regℓ1", "RegL1"), ("Regℓ2,1", "RegL21")]⟩,
  ⟨"admm.bpdn.BPDNProjL1", ["ObjFun", "Cnstr"], ["XSlvRelRes"], ["Fnc", "Cnstr"],
    [("Fnc", "ObjFun"), ("Cnstr", "Cnstr")]⟩,
  ⟨"admm.bpdn.ElasticNet", ["ObjFun", "DFid", "RegL1", "RegL2"], ["XSlvRelRes"], ["Fnc", "DFid", "Regℓ1", "Regℓ2"],
    [("Fnc", "ObjFun"), ("DFid", "DFid"), ("Regℓ1", "RegL1"), ("Regℓ2", "RegL2")]⟩,
  ⟨"admm.bpdn.GenericBPDN", ["ObjFun", "DFid", "Reg"], ["XSlvRelRes"], ["Fnc", "DFid", "Reg"],
    [("Fnc", "ObjFun"), ("DFid", "DFid"), ("Reg", "Reg")]⟩,
  ⟨"admm.bpdn.MinL1InL2Ball", ["ObjFun", "Cnstr"], [], ["Fnc", "Cnstr"],
    [("Fnc", "ObjFun"), ("Cnstr", "Cnstr")]⟩,
  ⟨"admm.cbpdn.ConvBPDN", ["ObjFun", "DFid", "RegL1"], ["XSlvRelRes"], ["Fnc", "DFid", "Regℓ1"],
    [("Fnc", "ObjFun"), ("DFid", "DFid"), ("Regℓ1", "RegL1")]⟩,
  ⟨"admm.cbpdn.ConvBPDNGradReg", ["ObjFun", "DFid", "RegL1", "RegGrad"],
    ["XSlvRelRes"], ["Fnc", "DFid", "Regℓ1", "Regℓ2∇"],
    [("Fnc", "ObjFun"), ("DFid", "DFid"), ("Regℓ1", "RegL1"), ("Regℓ2∇", "RegGrad")]⟩,
  ⟨"admm.cbpdn.ConvBPDNJoint", ["ObjFun", "DFid", "RegL1", "RegL21"],
    ["XSlvRelRes"], ["Fnc", "DFid", "Regℓ1", "Regℓ2,1"],
    [("Fnc", "ObjFun"), ("DFid", "DFid"), ("Regℓ1", "RegL1"), ("Regℓ2,1", "RegL21")]⟩,
  ⟨"admm.cbpdn.ConvBPDNMaskDcpl", ["ObjFun", "DFid", "RegL1"], ["XSlvRelRes"], ["Fnc", "DFid", "Regℓ1"],
    [("Fnc", "ObjFun"), ("DFid", "DFid"), ("Regℓ1", "RegL1")]⟩,
  ⟨"admm.cbpdn.ConvBPDNProjL1", ["ObjFun", "Cnstr"], ["XSlvRelRes"], ["Fnc", "Cnstr"],
    [("Fnc", "ObjFun"), ("Cnstr", "Cnstr")]⟩,
  ⟨"admm.cbpdn.ConvElasticNet", ["ObjFun", "DFid", "RegL1", "RegL2"],
    ["XSlvRelRes"], ["Fnc", "DFid", "Regℓ1", "Regℓ2"],
    [("Fnc", "ObjFun"), ("DFid", "DFid"), ("Regℓ1", "RegL1"), ("Regℓ2", "RegL2")]⟩,
  ⟨"admm.cbpdn.ConvL1L1Grd", ["ObjFun", "DFid", "RegL1", "RegGrad"],
    ["XSlvRelRes"], ["Fnc", "DFid", "Regℓ1", "Regℓ2∇"],
    [("Fnc", "ObjFun"), ("DFid", "DFid"), ("Regℓ1", "RegL1"), ("Regℓ2∇", "RegGrad")]⟩,
  ⟨"admm.cbpdn.ConvMinL1InL2Ball", ["ObjFun", "Cnstr"], ["XSlvRelRes"], ["Fnc", "Cnstr"],
    [("Fnc", "ObjFun"), ("Cnstr", "Cnstr")]⟩,
  ⟨"admm.cbpdn.ConvTwoBlockCnstrnt", ["ObjFun", "G0Val", "G1Val"], ["XSlvRelRes"], ["Fnc", "g0", "g1"],
    [("Fnc", "ObjFun"), ("g0", "G0Val"), ("g1", "G1Val")]⟩,
  ⟨"admm.cbpdn.GenericConvBPDN", ["ObjFun", "DFid", "Reg"], ["XSlvRelRes"], ["Fnc", "DFid", "Reg"],
    [("Fnc", "ObjFun"), ("DFid", "DFid"), ("Reg", "Reg")]⟩,
  ⟨"admm.cbpdnin.ConvBPDNInhib", ["ObjFun", "DFid", "RegL1", "RegLat", "RegSelf"],
    ["XSlvRelRes"], ["Fnc", "DFid", "Regℓ1", "RegLat", "RegSelf"],
    [("Fnc", "ObjFun"), ("DFid", "DFid"), ("Regℓ1", "RegL1"), ("RegLat", "RegLat"), ("RegSelf", "RegSelf")]⟩,
  ⟨"admm.cbpdntv.ConvBPDNRecTV", ["ObjFun", "DFid", "RegL1", "RegTV"],
    ["XSlvRelRes"], ["Fnc", "DFid", "Regℓ1", "RegTV"],
    [("Fnc", "ObjFun"), ("DFid", "DFid"), ("Regℓ1", "RegL1"), ("RegTV", "RegTV")]⟩,
  ⟨"admm.cbpdntv.ConvBPDNScalarTV", ["ObjFun", "DFid", "RegL1", "RegTV"],
    ["XSlvRelRes"], ["Fnc", "DFid", "Regℓ1", "RegTV"],
    [("Fnc", "ObjFun"), ("DFid", "DFid"), ("Regℓ1", "RegL1"), ("RegTV", "RegTV")]⟩,
  ⟨"admm.cbpdntv.ConvBPDNVectorTV", ["ObjFun", "DFid", "RegL1", "RegTV"],
    ["XSlvRelRes"], ["Fnc", "DFid", "Regℓ1", "RegTV"],
    [("Fnc", "ObjFun"), ("DFid", "DFid"), ("Regℓ1", "RegL1"), ("RegTV", "RegTV")]⟩,
  ⟨"admm.ccmod.ConvCnstrMODBase", ["DFid", "Cnstr"], ["XSlvRelRes"], ["DFid", "Cnstr"],
    [("DFid", "DFid"), ("Cnstr", "Cnstr")]⟩,
  ⟨"admm.ccmod.ConvCnstrMOD_CG", ["DFid", "Cnstr"], ["XSlvRelRes", "XSlvCGIt"], ["DFid", "Cnstr"],
    [("DFid", "DFid"), ("Cnstr", "Cnstr")]⟩,
  ⟨"admm.ccmod.ConvCnstrMOD_Consensus", ["DFid", "Cnstr"], ["XSlvRelRes"], ["DFid", "Cnstr"],
    [("DFid", "DFid"), ("Cnstr", "Cnstr")]⟩,
  ⟨"admm.ccmod.ConvCnstrMOD_IterSM", ["DFid", "Cnstr"], ["XSlvRelRes"], ["DFid", "Cnstr"],
    [("DFid", "DFid"), ("Cnstr", "Cnstr")]⟩,
  ⟨"admm.ccmodmd.ConvCnstrMODMaskDcplBase", ["DFid", "Cnstr"], ["XSlvRelRes"], ["DFid", "Cnstr"],
    [("DFid", "DFid"), ("Cnstr", "Cnstr")]⟩,
  ⟨"admm.ccmodmd.ConvCnstrMODMaskDcpl_CG", ["DFid", "Cnstr"], ["XSlvRelRes", "XSlvCGIt"], ["DFid", "Cnstr"],
    [("DFid", "DFid"), ("Cnstr", "Cnstr")]⟩,
  ⟨"admm.ccmodmd.ConvCnstrMODMaskDcpl_Consensus", ["DFid", "Cnstr"], ["XSlvRelRes"], ["DFid", "Cnstr"],
    [("DFid", "DFid"), ("Cnstr", "Cnstr")]⟩,
  ⟨"admm.ccmodmd.ConvCnstrMODMaskDcpl_IterSM", ["DFid", "Cnstr"], ["XSlvRelRes"], ["DFid", "Cnstr"],
    [("DFid", "DFid"), ("Cnstr", "Cnstr")]⟩,
  ⟨"admm.cmod.CnstrMOD", ["DFid", "Cnstr"], [], ["DFid", "Cnstr"],
    [("DFid", "DFid"), ("Cnstr", "Cnstr")]⟩,
  ⟨"admm.parcbpdn.ParConvBPDN", ["ObjFun", "DFid", "RegL1"], ["XSlvRelRes"], ["Fnc", "DFid", "Regl1"],
    [("Fnc", "ObjFun"), ("DFid", "DFid"), ("Regl1", "RegL1")]⟩,
  ⟨"admm.pdcsc.ConvProdDictBPDN", ["ObjFun", "DFid", "RegL1"], ["XSlvRelRes"], ["Fnc", "DFid", "Regℓ1"],
    [("Fnc", "ObjFun"), ("DFid", "DFid"), ("Regℓ1", "RegL1")]⟩,
  ⟨"admm.pdcsc.ConvProdDictBPDNJoint", ["ObjFun", "DFid", "RegL1", "RegL21"],
    ["XSlvRelRes"], ["Fnc", "DFid", "Regℓ1", "Regℓ2,1"],
    [("Fnc", "ObjFun"), ("DFid", "DFid"), ("Regℓ1", "RegL1"), ("Regℓ2,1", "RegL21")]⟩,
  ⟨"admm.pdcsc.ConvProdDictL1L1Grd", ["ObjFun", "DFid", "RegL1", "RegGrad"],
    ["XSlvRelRes"], ["Fnc", "DFid", "Regℓ1", "Regℓ2∇"],
    [("Fnc", "ObjFun"), ("DFid", "DFid"), ("Regℓ1", "RegL1"), ("Regℓ2∇", "RegGrad")]⟩,
  ⟨"admm.pdcsc.ConvProdDictL1L1GrdJoint", ["ObjFun", "DFid", "RegL21", "RegGrad"],
    ["XSlvRelRes"], ["Fnc", "DFid", "Regℓ21", "Regℓ2∇"],
    [("Fnc", "ObjFun"), ("DFid", "DFid"), ("Regℓ21", "RegL21"), ("Regℓ2∇", "RegGrad")]⟩,
  ⟨"admm.ppp.GenericPPP", ["FVal"], [], ["FVal"],
    [("FVal", "FVal")]⟩,
  ⟨"admm.ppp.GenericPPPConsensus", [], [], [],
    []⟩,
  ⟨"admm.ppp.PPP", ["FVal"], [], ["FVal"],
    [("FVal", "FVal")]⟩,
  ⟨"admm.ppp.PPPConsensus", [], [], [],
    []⟩,
  ⟨"admm.rpca.RobustPCA", ["ObjFun", "NrmNuc", "NrmL1", "Cnstr"], [], ["Fnc", "NrmNuc", "Nrmℓ1", "Cnstr"],
    [("Fnc", "ObjFun"), ("NrmNuc", "NrmNuc"), ("Nrmℓ1", "NrmL1"), ("Cnstr", "Cnstr")]⟩,
  ⟨"admm.spline.SplineL1", ["ObjFun", "DFid", "Reg"], ["XSlvRelRes"], ["Fnc", "DFid", "Reg"],
    [("Fnc", "ObjFun"), ("DFid", "DFid"), ("Reg", "Reg")]⟩,
  ⟨"admm.tvl1.TVL1Deconv", ["ObjFun", "DFid", "RegTV"], ["XSlvRelRes"], ["Fnc", "DFid", "RegTV"],
    [("Fnc", "ObjFun"), ("DFid", "DFid"), ("RegTV", "RegTV")]⟩,
  ⟨"admm.tvl1.TVL1Denoise", ["ObjFun", "DFid", "RegTV"], ["GSIter", "GSRelRes"], ["Fnc", "DFid", "RegTV"],
    [("Fnc", "ObjFun"), ("DFid", "DFid"), ("RegTV", "RegTV")]⟩,
  ⟨"admm.tvl2.TVL2Deconv", ["ObjFun", "DFid", "RegTV"], ["XSlvRelRes"], ["Fnc", "DFid", "RegTV"],
    [("Fnc", "ObjFun"), ("DFid", "DFid"), ("RegTV", "RegTV")]⟩,
  ⟨"admm.tvl2.TVL2Denoise", ["ObjFun", "DFid", "RegTV"], ["GSIter", "GSRelRes"], ["Fnc", "DFid", "RegTV"],
    [("Fnc", "ObjFun"), ("DFid", "DFid"), ("RegTV", "RegTV")]⟩]

/-- All classes derived from `PGM`, with the attributes they have or inherit (`pgm/pgm.py` 187-203; `pgm/bpdn.py` 110-113;
`pgm/cbpdn.py` 141-144; `pgm/ccmod.py` 133-135; `pgm/cmod.py` 104-106; `pgm/ppp.py` 50-52). -/
def classesPGM : List Cols := [
  ⟨"pgm.bpdn.BPDN", ["ObjFun", "DFid", "RegL1"], [], ["Fnc", "DFid", "Regℓ1"],
    [("Fnc", "ObjFun"), ("DFid", "DFid"), ("Regℓ1", "RegL1")]⟩,
  ⟨"pgm.bpdn.WeightedBPDN", ["ObjFun", "DFid", "RegL1"], [], ["Fnc", "DFid", "Regℓ1"],
    [("Fnc", "ObjFun"), ("DFid", "DFid"), ("Regℓ1", "RegL1")]⟩,
  ⟨"pgm.cbpdn.ConvBPDN", ["ObjFun", "DFid", "RegL1"], [], ["Fnc", "DFid", "Regℓ1"],
    [("Fnc", "ObjFun"), ("DFid", "DFid"), ("Regℓ1", "RegL1")]⟩,
  ⟨"pgm.cbpdn.ConvBPDNMask", ["ObjFun", "DFid", "RegL1"], [], ["Fnc", "DFid", "Regℓ1"],
    [("Fnc", "ObjFun"), ("DFid", "DFid"), ("Regℓ1", "RegL1")]⟩,
  ⟨"pgm.ccmod.ConvCnstrMOD", ["DFid", "Cnstr"], [], ["DFid", "Cnstr"],
    [("DFid", "DFid"), ("Cnstr", "Cnstr")]⟩,
  ⟨"pgm.ccmod.ConvCnstrMODMask", ["DFid", "Cnstr"], [], ["DFid", "Cnstr"],
    [("DFid", "DFid"), ("Cnstr", "Cnstr")]⟩,
  ⟨"pgm.cmod.CnstrMOD", ["DFid", "Cnstr"], [], ["DFid", "Cnstr"],
    [("DFid", "DFid"), ("Cnstr", "Cnstr")]⟩,
  ⟨"pgm.cmod.WeightedCnstrMOD", ["DFid", "Cnstr"], [], ["DFid", "Cnstr"],
    [("DFid", "DFid"), ("Cnstr", "Cnstr")]⟩,
  ⟨"pgm.pgm.PGM", ["ObjFun", "FVal", "GVal"], [], ["Fnc", "f", "g"],
    [("Fnc", "ObjFun"), ("f", "FVal"), ("g", "GVal")]⟩,
  ⟨"pgm.pgm.PGMDFT", ["ObjFun", "FVal", "GVal"], [], ["Fnc", "f", "g"],
    [("Fnc", "ObjFun"), ("f", "FVal"), ("g", "GVal")]⟩,
  ⟨"pgm.ppp.GenericPPP", ["FVal"], [], ["FVal"],
    [("FVal", "FVal")]⟩,
  ⟨"pgm.ppp.PPP", ["FVal"], [], ["FVal"],
    [("FVal", "FVal")]⟩]

theorem classesADMM_ok : ∀ c ∈ classesADMM, c.ok algADMM = true := by decide

theorem classesPGM_ok : ∀ c ∈ classesPGM, c.ok algPGM = true := by decide

theorem lookup_cons_ne (f g : String) (v : Val) (l : List (String × Val)) (h : f ≠ g) :
    ((g, v) :: l).lookup f = l.lookup f := by
  have : (f == g) = false := beq_eq_false_iff_ne.mpr h
  simp only [List.lookup, this]

theorem mapM_congr_opt {α β : Type*} (l : List α) (p q : α → Option β) (h : ∀ a ∈ l, p a = q a) :
    l.mapM p = l.mapM q := by
  induction l with
  | nil => rfl
  | cons a l ih =>
    rw [List.mapM_cons, List.mapM_cons, h a List.mem_cons_self, ih fun b hb => h b (List.mem_cons_of_mem _ hb)]

theorem lookup_zip_none (l : List String) (v : List Val) (f : String) (h : f ∉ l) : (l.zip v).lookup f = none := by
  rw [List.lookup_eq_none_iff]
  intro q hq
  have := (List.of_mem_zip hq).1
  refine bne_iff_ne.mpr ?_
  rintro rfl
  exact h this

theorem mapM_lookup_zip : ∀ (l : List String) (v : List Val), l.Nodup → v.length = l.length →
    l.mapM (fun f => (l.zip v).lookup f) = some v
  | [], v, _, h => by
    have : v = [] := List.length_eq_zero_iff.mp h
    subst this; rfl
  | f :: l, [], _, h => by simp at h
  | f :: l, x :: v, hn, h => by
    have ih := mapM_lookup_zip l v (List.nodup_cons.mp hn).2 (by simpa using h)
    have e : ∀ g ∈ l, ((f :: l).zip (x :: v)).lookup g = (l.zip v).lookup g := by
      intro g hg
      have hne : g ≠ f := fun he => (List.nodup_cons.mp hn).1 (he ▸ hg)
      rw [List.zip_cons_cons, lookup_cons_ne _ _ _ _ hne]
    have e2 : l.mapM (fun g => ((f :: l).zip (x :: v)).lookup g) = l.mapM (fun g => (l.zip v).lookup g) :=
      mapM_congr_opt _ _ _ e
    rw [List.mapM_cons, e2, ih]
    have e3 : ((f :: l).zip (x :: v)).lookup f = some x := by
      rw [List.zip_cons_cons]; simp only [List.lookup, beq_self_eq_true]
    rw [e3]
    rfl

theorem mapM_comp_opt {α β γ : Type*} (l : List α) (m : List β) (p : α → Option β) (q : β → Option γ)
    (h : l.mapM p = some m) : l.mapM (fun a => (p a).bind q) = m.mapM q := by
  induction l generalizing m with
  | nil => cases h; rfl
  | cons a l ih =>
    rw [List.mapM_cons] at h
    cases hp : p a with
    | none => simp [hp] at h
    | some b =>
      cases hl : l.mapM p with
      | none => simp [hp, hl] at h
      | some m' =>
        simp [hp, hl] at h
        subst h
        rw [List.mapM_cons, List.mapM_cons, ih m' hl, hp]
        rfl

/-- What the columns of the base class show of the values of `itstat_fields_alg`. -/
def shownAlg (a : Alg) (algv : List Val) : Option (List Val) :=
  a.titles.mapM fun t => (a.vals.lookup t).bind fun f => (a.fields.zip algv).lookup f

/-- Titles of the base class are mapped to its fields. -/
def Alg.ok (a : Alg) : Bool :=
  (a.titles.all fun t => (a.vals.lookup t).any fun f => decide (f ∈ a.fields)) && (a.vals.lookup "Itn").isNone

theorem algADMM_ok : algADMM.ok = true := by decide

theorem algPGM_ok : algPGM.ok = true := by decide

/-- The tuple that is displayed. -/
theorem itdsp_eq (a : Alg) (c : Cols) (ha : a.ok = true) (hc : c.ok a = true) (cut : ℕ) (k tk : Val)
    (objv algv ext : List Val) (h1 : objv.length = c.objfn.length) (h2 : algv.length = a.fields.length)
    (h3 : ext.length = c.extra.length) :
    itdsp a c cut (k :: (objv ++ algv ++ ext ++ [tk])) =
      (shownAlg a algv).map fun l => (k :: (objv ++ l)).take ((k :: (objv ++ l)).length - cut) := by
  simp only [Cols.ok, Bool.and_eq_true, decide_eq_true_eq, List.all_eq_true, Option.isNone_iff_eq_none] at hc
  obtain ⟨⟨⟨⟨⟨⟨c1, c2⟩, c3⟩, -⟩, -⟩, c6⟩, -⟩ := hc
  simp only [Alg.ok, Bool.and_eq_true, List.all_eq_true, Option.isNone_iff_eq_none] at ha
  obtain ⟨a1, a2⟩ := ha
  set tpl := k :: (objv ++ algv ++ ext ++ [tk]) with htpl
  have hz : (fieldsOf a c).zip tpl =
      ("Iter", k) :: (c.objfn.zip objv ++ (a.fields.zip algv ++ (c.extra.zip ext ++ [("Time", tk)]))) := by
    rw [htpl, fieldsOf, List.zip_cons_cons, List.append_assoc, List.append_assoc, List.append_assoc, List.append_assoc,
      List.zip_append h1.symm, List.zip_append h2.symm, List.zip_append h3.symm]
    rfl
  have hnd := c3
  unfold fieldsOf at hnd
  rw [List.nodup_cons, List.append_assoc, List.append_assoc, List.nodup_append, List.nodup_append] at hnd
  obtain ⟨n0, n1, ⟨n2, -, n23⟩, n12⟩ := hnd
  have gI : getattr (fieldsOf a c) tpl "Iter" = some k := by
    unfold getattr; rw [hz]; rfl
  have gO : ∀ f ∈ c.objfn, getattr (fieldsOf a c) tpl f = (c.objfn.zip objv).lookup f := by
    intro f hf
    have hne : f ≠ "Iter" := fun he => n0 (he ▸ List.mem_append_left _ hf)
    unfold getattr
    rw [hz, lookup_cons_ne _ _ _ _ hne, List.lookup_append, List.lookup_append]
    rw [lookup_zip_none a.fields algv f (fun hm => n12 f hf f (List.mem_append_left _ hm) rfl)]
    have : (c.extra.zip ext ++ [("Time", tk)]).lookup f = none := by
      have hE : c.extra.zip ext ++ [("Time", tk)] = (c.extra ++ ["Time"]).zip (ext ++ [tk]) := by
        rw [List.zip_append h3.symm]; rfl
      rw [hE]
      exact lookup_zip_none _ _ _ fun hm => n12 f hf f (List.mem_append_right _ hm) rfl
    rw [this]
    simp
  have gA : ∀ f ∈ a.fields, getattr (fieldsOf a c) tpl f = (a.fields.zip algv).lookup f := by
    intro f hf
    have hne : f ≠ "Iter" := fun he => n0 (he ▸ List.mem_append_right _ (List.mem_append_left _ hf))
    unfold getattr
    rw [hz, lookup_cons_ne _ _ _ _ hne, List.lookup_append, List.lookup_append]
    rw [lookup_zip_none c.objfn objv f (fun hm => n12 f hm f (List.mem_append_left _ hf) rfl)]
    have : (c.extra.zip ext ++ [("Time", tk)]).lookup f = none := by
      have hE : c.extra.zip ext ++ [("Time", tk)] = (c.extra ++ ["Time"]).zip (ext ++ [tk]) := by
        rw [List.zip_append h3.symm]; rfl
      rw [hE]
      exact lookup_zip_none _ _ _ fun hm => n23 f hf f hm rfl
    rw [this]
    simp
  have hI : hdrval a c "Itn" = some "Iter" := by
    unfold hdrval; rw [a2, c6]; rfl
  have hO : c.titles.mapM (fun col => (hdrval a c col).bind (getattr (fieldsOf a c) tpl)) = some objv := by
    have e1 : c.titles.mapM (fun t => hdrval a c t) = some c.objfn := by
      have : ∀ t ∈ c.titles, hdrval a c t = c.vals.lookup t := by
        intro t ht
        unfold hdrval
        rw [c2 t ht, Option.none_or]
        have hs : ∃ f, c.vals.lookup t = some f := by
          by_contra hno
          have hnone : c.vals.lookup t = none := by
            cases hl : c.vals.lookup t with
            | none => rfl
            | some f => exact absurd ⟨f, hl⟩ hno
          have : ∀ l : List String, t ∈ l → l.mapM (fun t => c.vals.lookup t) = none := by
            intro l
            induction l with
            | nil => intro h; cases h
            | cons u l ih =>
              intro h
              rw [List.mapM_cons]
              rcases List.mem_cons.mp h with rfl | h
              · rw [hnone]; rfl
              · rw [ih h]; cases c.vals.lookup u <;> rfl
          rw [this _ ht] at c1
          cases c1
        obtain ⟨f, hf⟩ := hs
        rw [hf]
        rfl
      rw [mapM_congr_opt _ _ _ this, c1]
    rw [mapM_comp_opt _ _ _ _ e1, mapM_congr_opt _ _ _ gO, mapM_lookup_zip _ _ n1 h1]
  have hA : a.titles.mapM (fun col => (hdrval a c col).bind (getattr (fieldsOf a c) tpl)) = shownAlg a algv := by
    unfold shownAlg
    apply mapM_congr_opt
    intro t ht
    have := a1 t ht
    cases hl : a.vals.lookup t with
    | none => simp [hl] at this
    | some f =>
      simp [hl] at this
      unfold hdrval
      rw [hl]
      exact gA f this
  unfold itdsp hdrtxt
  rw [List.mapM_cons, hI, List.mapM_append, hO, hA]
  simp only [Option.bind_some, gI]
  cases shownAlg a algv <;> rfl

/-! ## The lines printed by `solve` -/

/-- The lines that the loop of `solve` prints (`admm/admm.py` 329-383 with 357-360, `pgm/pgm.py` 328-374 with 355-358): when
rows are displayed, each pass prints one for the record it has appended. The arguments are the loop body, the list of records
of a state, whether rows are displayed, and the row of a record. -/
noncomputable def loopOut {σ R : Type*} (body : ℕ → σ → σ × Bool) (itst : σ → List R) (rows : Bool)
    (row : R → Option Text) : List ℕ → σ → Option (List Text)
  | [], _ => some []
  | k :: ks, s =>
    let b := body k s
    let out := if rows then ((itst b.1).getLast?.bind row).map ([·]) else some []
    if b.2 then out else out.bind fun l => (loopOut body itst rows row ks b.1).map (l ++ ·)

/-- The loop itself. -/
def loopG {σ : Type*} (body : ℕ → σ → σ × Bool) : List ℕ → σ → σ
  | [], s => s
  | k :: ks, s =>
    let b := body k s
    if b.2 then b.1 else loopG body ks b.1

/-- The options `Verbose` and `StatusHeader`. -/
structure Opt where
  verbose : Bool
  header : Bool

/-- The lines of a whole call of `solve`: `display_start` (`admm/admm.py` 585-601, `pgm/pgm.py` 592-610), the loop and
`display_end` (`admm/admm.py` 621-625, `pgm/pgm.py` 630-634). -/
noncomputable def lines (d : Opt) (strs : Option (Text × Text × ℕ)) (loop : Option (List Text)) : Option (List Text) :=
  if d.verbose then
    strs.bind fun q => loop.map fun l =>
      (if d.header then [q.1, List.replicate q.2.2 '-'] else []) ++ l ++
        (if d.header then [List.replicate q.2.2 '-'] else [])
  else loop

theorem mapM_some_iff {R : Type*} (row : R → Option Text) (l : List R) (h : ∀ q ∈ l, (row q).isSome = true) :
    ∃ ts, l.mapM row = some ts ∧ ts.length = l.length ∧
      ∀ (i : ℕ) (q : R) (t : Text), l[i]? = some q → ts[i]? = some t → row q = some t := by
  induction l with
  | nil => exact ⟨[], rfl, rfl, fun i q t h => by simp at h⟩
  | cons q l ih =>
    obtain ⟨ts, h1, h2, h3⟩ := ih fun q' hq' => h q' (List.mem_cons_of_mem _ hq')
    obtain ⟨t, ht⟩ := Option.isSome_iff_exists.mp (h q List.mem_cons_self)
    refine ⟨t :: ts, ?_, by simp [h2], ?_⟩
    · rw [List.mapM_cons, ht, h1]; rfl
    · intro i q' t' hq ht'
      cases i with
      | zero => simp at hq ht'; subst hq ht'; exact ht
      | succ i => exact h3 i q' t' (by simpa using hq) (by simpa using ht')

theorem loopOut_eq {σ R : Type*} (body : ℕ → σ → σ × Bool) (itst : σ → List R) (rows fast : Bool)
    (row : R → Option Text) (hr : rows = true → fast = false)
    (hb : ∀ k s, ∃ new : List R, itst (body k s).1 = itst s ++ new ∧ (fast = true → new = []) ∧
      (fast = false → ∃ q, new = [q]))
    (ks : List ℕ) (s : σ) :
    ∃ new : List R, itst (loopG body ks s) = itst s ++ new ∧ (fast = true → new = []) ∧
      loopOut body itst rows row ks s = if rows then new.mapM row else some [] := by
  induction ks generalizing s with
  | nil => exact ⟨[], by simp [loopG], fun _ => rfl, by cases rows <;> rfl⟩
  | cons k ks ih =>
    obtain ⟨n1, e1, e2, e3⟩ := hb k s
    obtain ⟨n2, i1, i2, i3⟩ := ih (body k s).1
    have hout : (if rows then ((itst (body k s).1).getLast?.bind row).map ([·]) else some []) =
        if rows then n1.mapM row else some [] := by
      cases hrow : rows with
      | false => rfl
      | true =>
        obtain ⟨q, rfl⟩ := e3 (hr hrow)
        rw [e1]
        simp
        cases row q <;> rfl
    by_cases hs : (body k s).2 = true
    · refine ⟨n1, by simp [loopG, hs, e1], e2, ?_⟩
      rw [loopOut]
      simp only [hs, if_true]
      exact hout
    · have hs' : (body k s).2 = false := by simpa using hs
      refine ⟨n1 ++ n2, by simp [loopG, hs', i1, e1], fun h => by rw [e2 h, i2 h]; rfl, ?_⟩
      rw [loopOut]
      simp only [hs', Bool.false_eq_true, if_false]
      rw [hout, i3]
      cases rows with
      | false => rfl
      | true =>
        simp only [if_true]
        rw [List.mapM_append]
        cases n1.mapM row with
        | none => rfl
        | some l => cases n2.mapM row <;> rfl

end Sporco.Util.Display
