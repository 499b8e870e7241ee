import Verif.Util.Heap
import Mathlib.Tactic.DeriveFintype
import Mathlib.Data.List.Basic

/-!
# Which arrays the solvers change in place (C82, C83)

For each class the assignments to array attributes of its constructor, of one iteration of `solve` and of the other
methods that assign, in order.  Right-hand sides are arbitrary functions of the contents of all arrays, one for each
line of the source; conditions are arbitrary.  `np.asarray` and `reshape` either copy or not.
-/

set_option autoImplicit false

namespace Sporco.Alias

open Sporco.Heap

/-! ## Model -/

/-- Arguments (`arg...`) and attributes; local variables of methods that hold arrays changed in place; the attributes
of the sparse coding solver that online learning creates (`x...`). -/
inductive Attr
  | argD | argS | argZ | argY0 | argU0 | argX0 | argW | argD0
  | D | S | Z | W | X | Y | U | Yprev | AX | AXnr | YU | Xf | Df | Sf | DSf | c | DTS | lu | c0 | Zf | ZSf
  | Xprv | Yprv | grad | bbX | bbG | tmp | ZZ | Zrb | Vf | Yf | Xfprv | Yfprv | ZZf | Ryf | WRy
  | Dprv | Gf | G | xD | xS | xX | xY | xU | xYU | xXf | xSf | loc
  deriving DecidableEq

open Attr

/-- The right-hand side and the condition of each line, in one execution of it. -/
structure Cfg (V : Type*) where
  f : String → View Attr V → V
  c : String → Bool

variable {V : Type*}

abbrev Blk (V : Type*) := List (Stmt Attr V)

/-- `if` without `else`. -/
def when (b : Bool) (p : Blk V) : Blk V := if b then p else []

/-- `a = np.asarray(b, dtype)`, possibly of a reshaped `b`: copies or not. -/
def asarray (g : Cfg V) (l : String) (a b : Attr) : Blk V := if g.c l then [.same a b] else [.new a (g.f l)]

/-- `ADMM.__init__`, the arrays (`admm/admm.py` 261-272; `astype(copy=True)` copies). -/
def admmInit (g : Cfg V) : Blk V :=
  [.new Y (g.f "admm 263/265"), .new Yprev (g.f "admm 266"), .new U (g.f "admm 270/272")]

/-- `ADMMEqual.relax_AX` (`admm/admm.py` 877-885), also of `ADMMConsensus` (1608-1616). -/
def relaxEq (g : Cfg V) : Blk V :=
  [.same AXnr X] ++ if g.c "admm 881" then [.same AX X] else [.new AX (g.f "admm 885")]

/-- `ADMM.ustep` and the scaling in `update_rho` (`admm/admm.py` 437, 573). -/
def dual (g : Cfg V) : Blk V := [.write U (g.f "admm 437")] ++ when (g.c "admm 365") [.write U (g.f "admm 573")]

/-- `GenericBPDN.__init__`, `BPDN` (`admm/bpdn.py` 151-181). -/
def bpdnInit (g : Cfg V) : Blk V :=
  admmInit g ++ asarray g "bpdn 169" S argS ++ asarray g "bpdn 177" D argD ++
    [.new DTS (g.f "bpdn 178"), .new lu (g.f "bpdn 180")]

/-- One iteration of `solve` of `BPDN` (`admm/admm.py` 331-377, `admm/bpdn.py` 192-199, `ystep` with the in-place
projection 219-220). -/
def bpdnIter (g : Cfg V) : Blk V :=
  [.new Yprev (g.f "admm 334"), .new X (g.f "bpdn 197")] ++ relaxEq g ++ [.new Y (g.f "bpdn ystep")] ++
    when (g.c "bpdn 219") [.write Y (g.f "bpdn 220")] ++ dual g

/-- `setdict` (`admm/bpdn.py` 174-181). -/
def bpdnSetdict (g : Cfg V) : Blk V :=
  asarray g "bpdn 177" D argD ++ [.new DTS (g.f "bpdn 178"), .new lu (g.f "bpdn 180")]

/-- `GenericConvBPDN.__init__` (`admm/cbpdn.py` 224-256). -/
def convInit (g : Cfg V) : Blk V :=
  admmInit g ++ asarray g "cbpdn 227" D argD ++ asarray g "cbpdn 228" S argS ++
    [.new Sf (g.f "cbpdn 231"), .new YU (g.f "cbpdn 234"), .new Xf (g.f "cbpdn 235"), .new Df (g.f "cbpdn 247"),
     .new DSf (g.f "cbpdn 249"), .new c (g.f "cbpdn 253")]

/-- One iteration of `solve` of `ConvBPDN` (`admm/cbpdn.py` 267-281, 614-620, 297-311). -/
def convIter (g : Cfg V) : Blk V :=
  [.new Yprev (g.f "admm 334"), .write YU (g.f "cbpdn 271"), .write Xf (g.f "cbpdn 275/278"),
   .new X (g.f "cbpdn 281")] ++ relaxEq g ++ [.new Y (g.f "cbpdn 618")] ++
    when (g.c "cbpdn 306") [.write Y (g.f "cbpdn 307")] ++ when (g.c "cbpdn 308") [.write Y (g.f "cbpdn 310")] ++ dual g

/-- `setdict` (`admm/cbpdn.py` 242-256). -/
def convSetdict (g : Cfg V) : Blk V :=
  asarray g "cbpdn 246" D argD ++ [.new Df (g.f "cbpdn 247"), .new DSf (g.f "cbpdn 249"), .new c (g.f "cbpdn 253")]

/-- `ConvCnstrMODBase.__init__` and `setcoef` (`admm/ccmod.py` 200-327), of `ConvCnstrMOD_IterSM`. -/
def ccmodSetcoef (g : Cfg V) : Blk V :=
  asarray g "ccmod setcoef" Z argZ ++ [.new Zf (g.f "ccmod setcoef Zf"), .new ZSf (g.f "ccmod setcoef ZSf")]

def ccmodInit (g : Cfg V) : Blk V :=
  admmInit g ++ asarray g "ccmod S" S argS ++ [.new Sf (g.f "ccmod Sf"), .new YU (g.f "ccmod YU"),
    .new Xf (g.f "ccmod Xf")] ++ ccmodSetcoef g

/-- One iteration of `solve` of `ConvCnstrMOD_IterSM` (`admm/ccmod.py` 496-505, 361-366). -/
def ccmodIter (g : Cfg V) : Blk V :=
  [.new Yprev (g.f "admm 334"), .write YU (g.f "ccmod 500"), .write Xf (g.f "ccmod 502"), .new X (g.f "ccmod 504")] ++
    relaxEq g ++ [.new Y (g.f "ccmod 366")] ++ dual g

/-- `ConvTwoBlockCnstrnt.__init__` (`admm/cbpdn.py` 1567-1599). -/
def twoInit (g : Cfg V) : Blk V :=
  admmInit g ++ asarray g "cbpdn 1577" D argD ++ asarray g "cbpdn 1578" S argS ++
    [.new YU (g.f "cbpdn 1581"), .new Xf (g.f "cbpdn 1582"), .new Df (g.f "cbpdn 1594"), .new c (g.f "cbpdn 1596")]

/-- One iteration of `solve` of `ConvMinL1InL2Ball` (`admm/cbpdn.py` 1610-1677, 2010-2030); `self.c0 = self.S`
(1672, 1778). -/
def twoIter (g : Cfg V) : Blk V :=
  [.new Yprev (g.f "admm 334"), .write YU (g.f "cbpdn 1615"), .write YU (g.f "cbpdn 1616"),
   .write Xf (g.f "cbpdn 1625"), .new X (g.f "cbpdn 1631"), .new AXnr (g.f "cbpdn 1667")] ++
    (if g.c "cbpdn 1668" then [.same AX AXnr] else when (g.c "cbpdn 1671") [.same c0 S] ++
      [.new AX (g.f "cbpdn 1676")]) ++ [.new Y (g.f "cbpdn 2028")] ++
    when (g.c "cbpdn 1654") [.write Y (g.f "cbpdn 1655")] ++ when (g.c "cbpdn 1656") [.write Y (g.f "cbpdn 1658")] ++
    when (g.c "cbpdn 1652") [.write Y (g.f "cbpdn 1660")] ++ dual g

/-- `ConvCnstrMOD_Consensus.__init__`, `setcoef` (`admm/ccmod.py` 698-735, 753-769). -/
def cnsInit (g : Cfg V) : Blk V :=
  admmInit g ++ asarray g "ccmod 717" S argS ++ [.new Sf (g.f "ccmod 720")] ++ ccmodSetcoef g ++
    [.new X (g.f "ccmod 729"), .new YU (g.f "ccmod 732/734"), .new Xf (g.f "ccmod 735")]

/-- `xistep` (`admm/ccmod.py` 825-838). -/
def cnsXi (g : Cfg V) : Blk V := [.write YU (g.f "ccmod 830"), .write Xf (g.f "ccmod 834"), .write X (g.f "ccmod 837")]

/-- One iteration of `solve` of `ConvCnstrMOD_Consensus` (`admm/ccmod.py` 787-807, `admm/admm.py` 1585-1616): one
`xistep` for each image if the dictionary has several channels, otherwise a single array operation; `self.Y[:] = ...`. -/
def cnsIter (g : Cfg V) (gs : List (Cfg V)) : List (Blk V) :=
  [[.new Yprev (g.f "admm 334")]] ++
    (if g.c "ccmod 796" then gs.map cnsXi
     else [[.write YU (g.f "ccmod 800"), .write Xf (g.f "ccmod 804"), .new X (g.f "ccmod 807")]]) ++
    [relaxEq g ++ [.write Y (g.f "admm 1591")] ++ dual g]

/-- `BPDN.__init__` of `pgm/bpdn.py` 151-165 with `pgm/pgm.py` 257-261. -/
def pgmInit (g : Cfg V) : Blk V :=
  [.new X (g.f "pgm 259/261")] ++ asarray g "pbpdn 153" S argS ++ [.new Y (g.f "pbpdn 155"), .new Yprv (g.f "pbpdn 156")]
    ++ asarray g "pbpdn 165" D argD

/-- `PGM.xstep` (`pgm/pgm.py` 393-422) with `BPDN.prox_g` (`pgm/bpdn.py` 186-193). -/
def pgmXstep (g : Cfg V) : Blk V :=
  [.new grad (g.f "pgm 400")] ++ when (g.c "pgm 405") [.same bbX X, .same bbG grad] ++
    [.new tmp (g.f "pbpdn 189")] ++ when (g.c "pbpdn 191") [.write tmp (g.f "pbpdn 192")] ++ [.same X tmp] ++
    when (g.c "pgm 413") ([.new ZZ (g.f "pgm 414")] ++ when (g.c "pgm 416") [.new X (g.f "pgm 419")])

/-- One iteration of `solve` of `BPDN` of `pgm/bpdn.py` (`pgm/pgm.py` 485-491, 333-343): one `xstep`, or one for each
pass of the line search; with the robust line search (`pgm/backtrack.py` 171-172, 182-187, 204) each preceded by an
assignment to `Y`. -/
def pgmIter (g : Cfg V) (gs : List (Cfg V)) : List (Blk V) :=
  [[.new Xprv (g.f "pgm 488")] ++ when (g.c "pgm 489") [.new Yprv (g.f "pgm 491")] ++
      when (g.c "backtrack 171") [.new Zrb (g.f "backtrack 172")]] ++
    gs.map (fun q => when (g.c "robust") [.new Y (q.f "backtrack 184")] ++ pgmXstep q) ++
    [if g.c "robust" then [.write Zrb (g.f "backtrack 204")] else [.new Y (g.f "pgm 438/441")]]

/-- `setdict` (`pgm/bpdn.py` 162-165). -/
def pgmSetdict (g : Cfg V) : Blk V := asarray g "pbpdn 165" D argD

/-- `ConvBPDNMask.__init__` of `pgm/cbpdn.py` 214-252, 439-450 (`ConvBPDN` without the last three). -/
def dftInit (g : Cfg V) : Blk V :=
  [.new X (g.f "pgm 259/261")] ++ asarray g "pcbpdn 222" D argD ++ asarray g "pcbpdn 223" S argS ++
    [.new Sf (g.f "pcbpdn 226"), .new Y (g.f "pcbpdn 229"), .new X (g.f "pcbpdn 230"), .write X (g.f "pcbpdn 231"),
     .new Vf (g.f "pcbpdn 235"), .new Xf (g.f "pcbpdn 239"), .new Yf (g.f "pcbpdn 240"), .new Yfprv (g.f "pcbpdn 241"),
     .new Df (g.f "pcbpdn 252")] ++ asarray g "pcbpdn 444" W argW ++ [.new WRy (g.f "pcbpdn 448"),
     .new Ryf (g.f "pcbpdn 449")]

/-- `PGMDFT.xstep` (`pgm/pgm.py` 779-811) with `grad_f` of the masked class (`pgm/cbpdn.py` 454-475) or the unmasked
one. -/
def dftXstep (g : Cfg V) : Blk V :=
  when (g.c "masked") [.write Ryf (g.f "pcbpdn 462"), .write WRy (g.f "pcbpdn 467")] ++ [.new grad (g.f "pgm 787")] ++
    when (g.c "pgm 792") [.same bbX Xf, .same bbG grad] ++
    [.write Vf (g.f "pgm 796"), .new tmp (g.f "pcbpdn 291")] ++ when (g.c "pcbpdn 292") [.write tmp (g.f "pcbpdn 293")] ++
    when (g.c "pcbpdn 294") [.write tmp (g.f "pcbpdn 296")] ++ [.write X (g.f "pgm 799"), .new Xf (g.f "pgm 800")] ++
    when (g.c "pgm 802") ([.new ZZf (g.f "pgm 803")] ++ when (g.c "pgm 805") [.new Xf (g.f "pgm 808")])

/-- One iteration of `solve` of `ConvBPDN` or `ConvBPDNMask` of `pgm/cbpdn.py` (`pgm/pgm.py` 835-841, 333-343). -/
def dftIter (g : Cfg V) (gs : List (Cfg V)) : List (Blk V) :=
  [[.new Xfprv (g.f "pgm 838")] ++ when (g.c "pgm 839") [.new Yfprv (g.f "pgm 841")] ++
      when (g.c "backtrack 171") [.new Zrb (g.f "backtrack 172")]] ++
    gs.map (fun q => when (g.c "robust") [.new Yf (q.f "backtrack 184")] ++ dftXstep q) ++
    [if g.c "robust" then [.write Zrb (g.f "backtrack 204")] else [.new Yf (g.f "pgm 828/831")]]

/-- `OnlineConvBPDNDictLearn.__init__` (`dictlrn/onlinecdl.py` 190-196). -/
def onlInit (g : Cfg V) : Blk V := [.new loc (g.f "onl 193"), .new D (g.f "onl 194"), .new Dprv (g.f "onl 196")]

/-- `OnlineConvBPDNDictLearn.solve` (`dictlrn/onlinecdl.py` 244-306, 310-333): arrays for a new signal size, then
sparse coding with a `ConvBPDN` object whose dictionary is `self.D`, then the dictionary step. -/
def onlSolve (g : Cfg V) (gs : List (Cfg V)) : List (Blk V) :=
  [(if g.c "onl 249" then [.new Df (g.f "onl 258"), .new Gf (g.f "onl 260"), .new Z (g.f "onl 261")]
      else [.write Df (g.f "onl 263")]) ++
    [.new xY (g.f "admm 263/265"), .new xU (g.f "admm 270/272")] ++ asarray g "cbpdn 227" xD D ++
    asarray g "cbpdn 228" xS argS ++ [.new xSf (g.f "cbpdn 231"), .new xYU (g.f "cbpdn 234"),
      .new xXf (g.f "cbpdn 235")]] ++
    gs.map (fun q => [.write xYU (q.f "cbpdn 271"), .write xXf (q.f "cbpdn 275/278"), .new xX (q.f "cbpdn 281"),
      .new xY (q.f "cbpdn 618")] ++ when (q.c "cbpdn 306") [.write xY (q.f "cbpdn 307")] ++
      [.write xU (q.f "admm 437")]) ++
    [[.same Sf xSf] ++ when (g.c "onl 303") [.new Z (g.f "onl 304")] ++ [.write Z (g.f "onl 305"), .new Zf (g.f "onl 306"),
      .new loc (g.f "onl 316"), .write Gf (g.f "onl 328"), .new G (g.f "onl 329"), .write Dprv (g.f "onl 332"),
      .write D (g.f "onl 333")]]

/-- The classes. -/
inductive Cls
  | bpdn | convBPDN | ccmodIterSM | twoBlock | consensus | pgmBPDN | pgmConvBPDN | online
  deriving DecidableEq

/-- What a user does with an object of the class, in order: create and pass arrays, construct the object, call `solve`
with any number of iterations, call `getmin`, `getcoef` or `getdict`, or pass a new dictionary or coefficients.
`solve` returns what the class returns (`X` or `Y`, depending on the options, in the first four). -/
inductive Event : Cls → Ev Attr V → Prop
  | give (k : Cls) (a : Attr) (v : V) (h : a ∈ [argD, argS, argZ, argY0, argU0, argX0, argW, argD0]) :
      Event k (.give a v)
  | bpdnNew (g : Cfg V) : Event .bpdn (.call [bpdnInit g] none)
  | bpdnSet (g : Cfg V) : Event .bpdn (.call [bpdnSetdict g] none)
  | bpdnSolve (gs : List (Cfg V)) (r : Attr) (h : r ∈ [X, Y]) : Event .bpdn (.call (gs.map bpdnIter) (some r))
  | convNew (g : Cfg V) : Event .convBPDN (.call [convInit g] none)
  | convSet (g : Cfg V) : Event .convBPDN (.call [convSetdict g] none)
  | convSolve (gs : List (Cfg V)) (r : Attr) (h : r ∈ [X, Y]) : Event .convBPDN (.call (gs.map convIter) (some r))
  | ccmodNew (g : Cfg V) : Event .ccmodIterSM (.call [ccmodInit g] none)
  | ccmodSet (g : Cfg V) : Event .ccmodIterSM (.call [ccmodSetcoef g] none)
  | ccmodSolve (gs : List (Cfg V)) (r : Attr) (h : r ∈ [X, Y]) :
      Event .ccmodIterSM (.call (gs.map ccmodIter) (some r))
  | twoNew (g : Cfg V) : Event .twoBlock (.call [twoInit g] none)
  | twoSolve (gs : List (Cfg V)) (r : Attr) (h : r ∈ [X, Y]) : Event .twoBlock (.call (gs.map twoIter) (some r))
  | cnsNew (g : Cfg V) : Event .consensus (.call [cnsInit g] none)
  | cnsSet (g : Cfg V) : Event .consensus (.call [ccmodSetcoef g] none)
  | cnsSolve (gs : List (Cfg V × List (Cfg V))) :
      Event .consensus (.call (gs.flatMap fun q => cnsIter q.1 q.2) (some Y))
  | pgmNew (g : Cfg V) : Event .pgmBPDN (.call [pgmInit g] none)
  | pgmSet (g : Cfg V) : Event .pgmBPDN (.call [pgmSetdict g] none)
  | pgmSolve (gs : List (Cfg V × List (Cfg V))) :
      Event .pgmBPDN (.call (gs.flatMap fun q => pgmIter q.1 q.2) (some X))
  | dftNew (g : Cfg V) : Event .pgmConvBPDN (.call [dftInit g] none)
  | dftSolve (gs : List (Cfg V × List (Cfg V))) :
      Event .pgmConvBPDN (.call (gs.flatMap fun q => dftIter q.1 q.2) (some X))
  | onlNew (g : Cfg V) : Event .online (.call [onlInit g] none)
  | onlSolve (g : Cfg V) (gs : List (Cfg V)) : Event .online (.call (onlSolve g gs) (some D))

/-! ## The arrays changed in place -/

/-- Attributes whose arrays the methods of the class change in place. -/
def own : Cls → Attr → Prop
  | .bpdn, a => a ∈ [U]
  | .convBPDN, a => a ∈ [U, YU, Xf]
  | .ccmodIterSM, a => a ∈ [U, YU, Xf]
  | .twoBlock, a => a ∈ [U, YU, Xf]
  | .consensus, a => a ∈ [U, YU, Xf, X, AX, AXnr, Y]
  | .pgmBPDN, a => a ∈ [Zrb]
  | .pgmConvBPDN, a => a ∈ [X, Vf, Zrb, Ryf, WRy]
  | .online, a => a ∈ [D, xD, Dprv, Df, Gf, Z, xU, xYU, xXf]

/-- Classes that return arrays they do not change. -/
def Snap (k : Cls) : Prop := k ∈ [Cls.bpdn, .convBPDN, .ccmodIterSM, .twoBlock, .pgmBPDN]

theorem event_ok {k : Cls} {e : Ev Attr V} (h : Event k e) : okEv (own k) e := by
  cases h
  case give a v h =>
    simp only [List.mem_cons, List.not_mem_nil, or_false] at h
    rcases h with rfl | rfl | rfl | rfl | rfl | rfl | rfl | rfl <;> cases k <;> simp [okEv, own]
  case bpdnNew g =>
    simp only [okEv, List.mem_singleton, forall_eq, bpdnInit, admmInit, asarray]
    split_ifs <;> simp [okBlock, okStmt, freshAfter, own]
  case bpdnSet g =>
    simp only [okEv, List.mem_singleton, forall_eq, bpdnSetdict, asarray]
    split_ifs <;> simp [okBlock, okStmt, freshAfter, own]
  case bpdnSolve gs r h =>
    simp only [okEv, List.mem_map, forall_exists_index, and_imp, forall_apply_eq_imp_iff₂]
    intro g _
    simp only [bpdnIter, relaxEq, dual, when]
    split_ifs <;> simp [okBlock, okStmt, freshAfter, own]
  case convNew g =>
    simp only [okEv, List.mem_singleton, forall_eq, convInit, admmInit, asarray]
    split_ifs <;> simp [okBlock, okStmt, freshAfter, own]
  case convSet g =>
    simp only [okEv, List.mem_singleton, forall_eq, convSetdict, asarray]
    split_ifs <;> simp [okBlock, okStmt, freshAfter, own]
  case convSolve gs r h =>
    simp only [okEv, List.mem_map, forall_exists_index, and_imp, forall_apply_eq_imp_iff₂]
    intro g _
    simp only [convIter, relaxEq, dual, when]
    split_ifs <;> simp [okBlock, okStmt, freshAfter, own]
  case ccmodNew g =>
    simp only [okEv, List.mem_singleton, forall_eq, ccmodInit, ccmodSetcoef, admmInit, asarray]
    split_ifs <;> simp [okBlock, okStmt, freshAfter, own]
  case ccmodSet g =>
    simp only [okEv, List.mem_singleton, forall_eq, ccmodSetcoef, asarray]
    split_ifs <;> simp [okBlock, okStmt, freshAfter, own]
  case ccmodSolve gs r h =>
    simp only [okEv, List.mem_map, forall_exists_index, and_imp, forall_apply_eq_imp_iff₂]
    intro g _
    simp only [ccmodIter, relaxEq, dual, when]
    split_ifs <;> simp [okBlock, okStmt, freshAfter, own]
  case twoNew g =>
    simp only [okEv, List.mem_singleton, forall_eq, twoInit, admmInit, asarray]
    split_ifs <;> simp [okBlock, okStmt, freshAfter, own]
  case twoSolve gs r h =>
    simp only [okEv, List.mem_map, forall_exists_index, and_imp, forall_apply_eq_imp_iff₂]
    intro g _
    simp only [twoIter, dual, when]
    split_ifs <;> simp [okBlock, okStmt, freshAfter, own]
  case cnsNew g =>
    simp only [okEv, List.mem_singleton, forall_eq, cnsInit, ccmodSetcoef, admmInit, asarray]
    split_ifs <;> simp [okBlock, okStmt, freshAfter, own]
  case cnsSet g =>
    simp only [okEv, List.mem_singleton, forall_eq, ccmodSetcoef, asarray]
    split_ifs <;> simp [okBlock, okStmt, freshAfter, own]
  case cnsSolve gs =>
    intro b hb
    obtain ⟨⟨g, qs⟩, -, hb⟩ := List.mem_flatMap.1 hb
    simp only [cnsIter, List.mem_append, List.mem_singleton] at hb
    rcases hb with (rfl | hb) | rfl
    · simp [okBlock, okStmt]
    · split_ifs at hb
      · obtain ⟨q, -, rfl⟩ := List.mem_map.1 hb
        simp [cnsXi, okBlock, okStmt, own]
      · rw [List.mem_singleton] at hb
        subst hb
        simp [okBlock, okStmt, freshAfter, own]
    · simp only [relaxEq, dual, when]
      split_ifs <;> simp [okBlock, okStmt, freshAfter, own]
  case pgmNew g =>
    simp only [okEv, List.mem_singleton, forall_eq, pgmInit, asarray]
    split_ifs <;> simp [okBlock, okStmt, freshAfter, own]
  case pgmSet g =>
    simp only [okEv, List.mem_singleton, forall_eq, pgmSetdict, asarray]
    split_ifs <;> simp [okBlock, okStmt, freshAfter, own]
  case pgmSolve gs =>
    intro b hb
    obtain ⟨⟨g, qs⟩, -, hb⟩ := List.mem_flatMap.1 hb
    simp only [pgmIter, List.mem_append, List.mem_singleton] at hb
    rcases hb with (rfl | hb) | rfl
    · simp only [when]
      split_ifs <;> simp [okBlock, okStmt]
    · obtain ⟨q, -, rfl⟩ := List.mem_map.1 hb
      simp only [pgmXstep, when]
      split_ifs <;> simp [okBlock, okStmt, freshAfter, own]
    · split_ifs <;> simp [okBlock, okStmt, freshAfter, own]
  case dftNew g =>
    simp only [okEv, List.mem_singleton, forall_eq, dftInit, asarray]
    split_ifs <;> simp [okBlock, okStmt, freshAfter, own]
  case dftSolve gs =>
    intro b hb
    obtain ⟨⟨g, qs⟩, -, hb⟩ := List.mem_flatMap.1 hb
    simp only [dftIter, List.mem_append, List.mem_singleton] at hb
    rcases hb with (rfl | hb) | rfl
    · simp only [when]
      split_ifs <;> simp [okBlock, okStmt]
    · obtain ⟨q, -, rfl⟩ := List.mem_map.1 hb
      simp only [dftXstep, when]
      split_ifs <;> simp [okBlock, okStmt, freshAfter, own]
    · split_ifs <;> simp [okBlock, okStmt, freshAfter, own]
  case onlNew g =>
    simp [okEv, onlInit, okBlock, okStmt]
  case onlSolve g gs =>
    intro b hb
    simp only [Alias.onlSolve, List.mem_append, List.mem_singleton] at hb
    rcases hb with (rfl | hb) | rfl
    · simp only [asarray]
      split_ifs <;> simp [okBlock, okStmt, freshAfter, own]
    · obtain ⟨q, -, rfl⟩ := List.mem_map.1 hb
      simp only [when]
      split_ifs <;> simp [okBlock, okStmt, freshAfter, own]
    · simp only [when]
      split_ifs <;> simp [okBlock, okStmt, freshAfter, own]

theorem event_ret {k : Cls} (hk : Snap k) {e : Ev Attr V} (h : Event k e) : retEv (own k) e := by
  cases h <;> simp [Snap] at hk <;> try trivial
  case bpdnSolve gs r h => simp at h; rcases h with rfl | rfl <;> simp [retEv, own]
  case convSolve gs r h => simp at h; rcases h with rfl | rfl <;> simp [retEv, own]
  case ccmodSolve gs r h => simp at h; rcases h with rfl | rfl <;> simp [retEv, own]
  case twoSolve gs r h => simp at h; rcases h with rfl | rfl <;> simp [retEv, own]
  case pgmSolve gs => simp [retEv, own]

/-- **C82.**  Whatever a program does with an object of these classes, the arrays it passed to the constructor and to
the methods contain at the end what they contained when it created them. -/
theorem C82_inputs (k : Cls) (v0 : V) (l : List (Ev Attr V)) (h : ∀ e ∈ l, Event k e) :
    ∀ x ∈ (runEv v0 l).given, (runEv v0 l).st.heap x.1 = x.2 :=
  (history v0 l fun e he => event_ok (h e he)).1

/-- **C83** (partial: the classes of `Snap`).  Whatever a program does with the object after `solve`, `getmin`,
`getcoef` or `getdict` has returned an array, the array contains at the end what it contained when it was returned. -/
theorem C83_snapshot_partial (k : Cls) (hk : Snap k) (v0 : V) (l : List (Ev Attr V)) (h : ∀ e ∈ l, Event k e) :
    ∀ x ∈ (runEv v0 l).got, (runEv v0 l).st.heap x.1 = x.2 :=
  (history v0 l fun e he => event_ok (h e he)).2 fun e he => event_ret hk (h e he)

/-! ## Classes that return the array they work on -/

/-- The attribute such a class returns. -/
def Live (k : Cls) (a : Attr) : Prop := (k, a) ∈ [(Cls.consensus, Y), (.pgmConvBPDN, X), (.online, D)]

/-- `solve` calls, and arrays passed, after construction. -/
inductive Later : Cls → Ev Attr V → Prop
  | give (k : Cls) (a : Attr) (v : V) (h : a ∈ [argD, argS, argZ, argY0, argU0, argX0, argW, argD0]) :
      Later k (.give a v)
  | cns (gs : List (Cfg V × List (Cfg V))) :
      Later .consensus (.call (gs.flatMap fun q => cnsIter q.1 q.2) (some Y))
  | cnsSet (g : Cfg V) : Later .consensus (.call [ccmodSetcoef g] none)
  | dft (gs : List (Cfg V × List (Cfg V))) :
      Later .pgmConvBPDN (.call (gs.flatMap fun q => dftIter q.1 q.2) (some X))
  | onl (g : Cfg V) (gs : List (Cfg V)) : Later .online (.call (onlSolve g gs) (some D))

theorem later_keep {k : Cls} {a : Attr} (ha : Live k a) {e : Ev Attr V} (h : Later k e) : keepEv a e := by
  cases h
  case give b v hb =>
    simp only [Live, List.mem_cons, List.not_mem_nil, or_false, Prod.mk.injEq] at ha
    simp only [List.mem_cons, List.not_mem_nil, or_false] at hb
    rcases ha with ⟨-, rfl⟩ | ⟨-, rfl⟩ | ⟨-, rfl⟩ <;>
      rcases hb with rfl | rfl | rfl | rfl | rfl | rfl | rfl | rfl <;> simp [keepEv]
  case cns gs =>
    obtain rfl : a = Y := by simpa [Live] using ha
    refine ⟨?_, Or.inr rfl⟩
    intro b hb
    obtain ⟨⟨g, qs⟩, -, hb⟩ := List.mem_flatMap.1 hb
    simp only [cnsIter, List.mem_append, List.mem_singleton] at hb
    rcases hb with (rfl | hb) | rfl
    · simp [keepStmt]
    · split_ifs at hb
      · obtain ⟨q, -, rfl⟩ := List.mem_map.1 hb
        simp [cnsXi, keepStmt]
      · rw [List.mem_singleton] at hb
        subst hb
        simp [keepStmt]
    · simp only [relaxEq, dual, when]
      split_ifs <;> simp [keepStmt]
  case cnsSet g =>
    obtain rfl : a = Y := by simpa [Live] using ha
    refine ⟨?_, Or.inl rfl⟩
    simp only [List.mem_singleton, forall_eq, ccmodSetcoef, asarray]
    split_ifs <;> simp [keepStmt]
  case dft gs =>
    obtain rfl : a = X := by simpa [Live] using ha
    refine ⟨?_, Or.inr rfl⟩
    intro b hb
    obtain ⟨⟨g, qs⟩, -, hb⟩ := List.mem_flatMap.1 hb
    simp only [dftIter, List.mem_append, List.mem_singleton] at hb
    rcases hb with (rfl | hb) | rfl
    · simp only [when]
      split_ifs <;> simp [keepStmt]
    · obtain ⟨q, -, rfl⟩ := List.mem_map.1 hb
      simp only [dftXstep, when]
      split_ifs <;> simp [keepStmt]
    · split_ifs <;> simp [keepStmt]
  case onl g gs =>
    obtain rfl : a = D := by simpa [Live] using ha
    refine ⟨?_, Or.inr rfl⟩
    intro b hb
    simp only [Alias.onlSolve, List.mem_append, List.mem_singleton] at hb
    rcases hb with (rfl | hb) | rfl
    · simp only [asarray]
      split_ifs <;> simp [keepStmt]
    · obtain ⟨q, -, rfl⟩ := List.mem_map.1 hb
      simp only [when]
      split_ifs <;> simp [keepStmt]
    · simp only [when]
      split_ifs <;> simp [keepStmt]

/-- **C83, the other classes** return the array they work on: for the consensus dictionary update, the convolutional
proximal gradient classes and online learning, every array returned after construction is the array of `Y`, `X` or `D`
itself, so that it always contains the latest iterate. -/
theorem C83_live (k : Cls) (a : Attr) (ha : Live k a) (h : Hist Attr V) (r : ℕ) (hr : h.st.env a = some r)
    (h0 : h.got = []) (l : List (Ev Attr V)) (hl : ∀ e ∈ l, Later k e) :
    (l.foldl execEv h).st.env a = some r ∧
      ∀ x ∈ (l.foldl execEv h).got, some ((l.foldl execEv h).st.heap x.1) = (l.foldl execEv h).st.view a := by
  obtain ⟨h1, h2⟩ := live l (fun e he => later_keep ha (hl e he)) h r hr
  refine ⟨h1, fun x hx => ?_⟩
  rcases h2 x hx with h3 | h3
  · rw [h0] at h3; exact nomatch h3
  · rw [h3, St.view, h1]; rfl

/-- Right-hand sides that increase a number. -/
def inc : Cfg ℕ := ⟨fun _ w => ((w X).getD 0 + (w Y).getD 0 + (w D).getD 0) + 1, fun _ => false⟩

/-- **C83 fails** for these classes: an array returned by the first `solve` is changed by the second. -/
theorem C83_snapshot_refuted (k : Cls) (hk : ¬ Snap k) :
    ∃ l : List (Ev Attr ℕ), (∀ e ∈ l, Event k e) ∧ ∃ x ∈ (runEv 0 l).got, (runEv 0 l).st.heap x.1 ≠ x.2 := by
  cases k <;> simp [Snap] at hk
  · refine ⟨[.give argS 1, .call [cnsInit inc] none, .call ([(inc, [])].flatMap fun q => cnsIter q.1 q.2) (some Y),
      .call ([(inc, [])].flatMap fun q => cnsIter q.1 q.2) (some Y)], ?_, ?_⟩
    · intro e he
      simp only [List.mem_cons, List.not_mem_nil, or_false] at he
      rcases he with rfl | rfl | rfl | rfl
      · exact .give _ _ _ (by simp)
      · exact .cnsNew _
      · exact .cnsSolve _
      · exact .cnsSolve _
    · decide
  · refine ⟨[.give argS 1, .call [dftInit inc] none, .call ([(inc, [inc])].flatMap fun q => dftIter q.1 q.2) (some X),
      .call ([(inc, [inc])].flatMap fun q => dftIter q.1 q.2) (some X)], ?_, ?_⟩
    · intro e he
      simp only [List.mem_cons, List.not_mem_nil, or_false] at he
      rcases he with rfl | rfl | rfl | rfl
      · exact .give _ _ _ (by simp)
      · exact .dftNew _
      · exact .dftSolve _
      · exact .dftSolve _
    · decide
  · refine ⟨[.give argD0 1, .call [onlInit inc] none, .give argS 1, .call (onlSolve inc [inc]) (some D),
      .call (onlSolve inc [inc]) (some D)], ?_, ?_⟩
    · intro e he
      simp only [List.mem_cons, List.not_mem_nil, or_false] at he
      rcases he with rfl | rfl | rfl | rfl | rfl
      · exact .give _ _ _ (by simp)
      · exact .onlNew _
      · exact .give _ _ _ (by simp)
      · exact .onlSolve _ _
      · exact .onlSolve _ _
    · decide

/-- A history of `C82_inputs` and `C83_snapshot_partial` in which two calls return different contents. -/
example : ∃ l : List (Ev Attr ℕ), (∀ e ∈ l, Event .convBPDN e) ∧ (runEv 0 l).given.length = 2 ∧
    ((runEv 0 l).got.map Prod.snd).Nodup ∧ (runEv 0 l).got.length = 2 := by
  refine ⟨[.give argD 1, .give argS 2, .call [convInit inc] none, .call ([inc].map convIter) (some X),
    .call ([inc, inc].map convIter) (some Y)], ?_, ?_⟩
  · intro e he
    simp only [List.mem_cons, List.not_mem_nil, or_false] at he
    rcases he with rfl | rfl | rfl | rfl | rfl
    · exact .give _ _ _ (by simp)
    · exact .give _ _ _ (by simp)
    · exact .convNew _
    · exact .convSolve _ _ (by simp)
    · exact .convSolve _ _ (by simp)
  · decide

end Sporco.Alias
