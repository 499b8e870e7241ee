import Verif.Dictlrn.LearnConv
import Verif.Conv.Ccmod

/-!
# The dictionary update of `ConvBPDNDictLearn` (C55)

Each dictionary update is for the problem with the coefficient maps that sparse coding has just computed: the data
fidelity that the dictionary update object records is that of these maps and of its own variable.
-/

set_option autoImplicit false

namespace Sporco.Admm
variable {E F G H : Type*} [AddCommGroup G] [Module ℝ G]

/-- The value of the first term of the functional in the last entry of the statistics. -/
theorem solve_obj (C : Cls E F G H) (o : Opts) (hf : o.fastSolve = false) (h1 : 1 ≤ o.maxMainIter)
    (Q : St E F G H → Prop) (hk : ∀ s j, Q s → Q { s with k := j }) (hb : ∀ k s, Q s → Q (body C o none k s).1)
    (val : E → F → ℝ)
    (hv : ∀ s, Q s → (C.objfn (steps C o s).X (steps C o s).Y (steps C o s).extra).1 = val (steps C o s).X (steps C o s).Y)
    (s : St E F G H) (h : Q s) :
    Q (solve C o none s) ∧ ∃ st, (solve C o none s).itstat.getLast? = some st ∧
      st.obj.1 = val (solve C o none s).X (solve C o none s).Y := by
  refine solve_last C o none Q (fun s => Q s ∧ ∃ st, s.itstat.getLast? = some st ∧ st.obj.1 = val s.X s.Y)
    (fun s j h => ⟨hk s j h.1, h.2⟩) (fun k s h => ⟨hb k s h, hb k s h, ?_⟩) h1 s h
  obtain ⟨e1, e2, e3, -⟩ := body_eq C o k s
  rcases e3 with ⟨-, e⟩ | ⟨st, e, eo, -⟩
  · rw [hf] at e; exact absurd e (by simp)
  · refine ⟨st, by rw [e]; simp, ?_⟩
    rw [eo, e1, e2]
    exact hv _ (hk s k h)

end Sporco.Admm

namespace Sporco.Dictlrn

open Finset Sporco.Conv Sporco.Cnvrep
open Sporco.Conv.Mod (one oneS)
open Sporco.PgmConv (dictTerm)

section
variable {d c κ m : ℕ} {N : Fin d → ℕ} [∀ k, NeZero (N k)] {a : Fin d}

/-! ## Statement -/

/-- The data fidelity of the dictionary update with coefficient maps `Z`, at the variable chosen by the option `fEvalX`
(`admm/ccmod.py` 370-376, 773-783): X or Y for ADMM, with X divided into the blocks of the signals in the consensus
class; X for PGM. -/
noncomputable def dTerm (P : PrmC d c κ m N a) (Z : Fin (κ + 1) → Fin m → Grid N → ℝ) : (δ : DM) → DSt c κ m N a δ → ℝ
  | .ism => fun s => dictTerm Z P.S (part (if P.fD then Admm.St.X s else Admm.St.Y s))
  | .cg => fun s => dictTerm Z P.S (part (if P.fD then Admm.St.X s else Admm.St.Y s))
  | .cns => fun s => if P.fD then ∑ k, dictTerm (one Z k) (oneS P.S k) (part (Admm.St.X s k))
      else dictTerm Z P.S (part (Admm.St.Y s))
  | .pgm => fun s => dictTerm Z P.S (part s.1.v.X)

/-- The options of the dictionary update: at least one iteration with statistics; for ADMM a positive initial `rho` and
valid options for its automatic change; for PGM not `Monotone`.  The X update of `ConvCnstrMOD_CG` changes the
variable and its transform only (`admm/ccmod.py` 587-600). -/
def OkD (P : PrmC d c κ m N a) : (δ : DM) → DSt c κ m N a δ → Prop
  | .ism => fun s => P.oD.fastSolve = false ∧ 1 ≤ P.oD.maxMainIter ∧ (P.oD.autoRho = true → P.oD.RhoOk) ∧
      0 < Admm.St.rho s
  | .cg => fun s => P.oD.fastSolve = false ∧ 1 ≤ P.oD.maxMainIter ∧ (P.oD.autoRho = true → P.oD.RhoOk) ∧
      0 < Admm.St.rho s ∧ ∀ rho X Y U h, (P.cg rho X Y U h).2 = { h with Xf := fun i f => rfft N a (part (P.cg rho X Y U h).1 i f) }
  | .cns => fun s => P.oD.fastSolve = false ∧ 1 ≤ P.oD.maxMainIter ∧ (P.oD.autoRho = true → P.oD.RhoOk) ∧
      0 < Admm.St.rho s
  | .pgm => fun s => P.pD.fastSolve = false ∧ 1 ≤ P.pD.maxMainIter ∧ P.pD.monotone = false ∧
      s.1.v.Xf = PgmConv.fwd a s.1.v.X

/-! ## Proof -/

/-- The last recorded data fidelity of the dictionary update object. -/
def LastD (P : PrmC d c κ m N a) (Z : Fin (κ + 1) → Fin m → Grid N → ℝ) (δ : DM) (t : DSt c κ m N a δ) : Prop :=
  ∃ g, ((dC P δ).itstat t).getLast? = some g ∧ g "DFid" = some (dTerm P Z δ t)

theorem keeps_cg (P : PrmC d c κ m N a) (Z : Fin (κ + 1) → Fin m → Grid N → ℝ)
    (hcg : ∀ rho X Y U h, (P.cg rho X Y U h).2 = { h with Xf := fun i f => rfft N a (part (P.cg rho X Y U h).1 i f) }) :
    Admm.Keeps { Mod.clsISM (pcnC P.dsz P.dimC P.zm) P.S P.fD P.gD with xstep := P.cg }
      (fun _ (h : Mod.AttrD (Fin (c + 1)) (Fin (κ + 1)) (Fin m) N a) => Mod.CohD P.S Z h) :=
  have hs := (Mod.keeps_ism (a := a) (pcnC P.dsz P.dimC P.zm : Coef (Fin (c + 1)) (Fin m) N → _) P.S Z P.fD P.gD).sane
  ⟨⟨hs.1, hs.2, hs.3, hs.4⟩,
    fun rho X Y U h _ hc => by
      obtain ⟨Xf, rfl⟩ := hc
      exact ⟨_, hcg rho X Y U (Mod.setcoef P.S Z Xf)⟩,
    fun _ _ _ _ _ _ _ hc => hc, fun _ _ _ _ _ hc => hc⟩

theorem last_admm {α : Type*} {l : List α} {g : α → Ntpl ℝ} {x : α} (h : l.getLast? = some x) :
    (l.map g).getLast? = some (g x) := by
  rw [List.getLast?_map, h]; rfl

theorem solveD (P : PrmC d c κ m N a) (Z : Coef (Fin (κ + 1)) (Fin m) N) (δ : DM) (t : DSt c κ m N a δ) (h : OkD P δ t) :
    OkD P δ ((dC P δ).solve ((dC P δ).setcoef Z t)) ∧ LastD P (part Z) δ ((dC P δ).solve ((dC P δ).setcoef Z t)) := by
  cases δ with
  | ism =>
    obtain ⟨hf, h1, ho, hr⟩ := h
    have hk := Mod.keeps_ism (a := a) (pcnC P.dsz P.dimC P.zm : Coef (Fin (c + 1)) (Fin m) N → _) P.S (part Z) P.fD P.gD
    obtain ⟨⟨h2, h3⟩, st, e1, e2⟩ := Admm.solve_obj (Mod.clsISM (pcnC P.dsz P.dimC P.zm) P.S P.fD P.gD) P.oD hf h1
      (fun s => 0 < s.rho ∧ Mod.CohD P.S (part Z) s.extra) (fun _ _ h => h)
      (fun k s h => Admm.body_keeps hk P.oD ho none (fun _ _ h => by cases h) k s h.1 h.2)
      (fun X Y => dictTerm (part Z) P.S (part (if P.fD then X else Y)))
      (fun s h => by
        obtain ⟨hr, Xf, e⟩ := h
        have := Mod.C40_ccmod_ism_recorded (pcnC P.dsz P.dimC P.zm) P.S (part Z) P.fD P.gD s.rho hr s.X s.Y s.U
          (Admm.steps (Mod.clsISM (pcnC P.dsz P.dimC P.zm) P.S P.fD P.gD) P.oD s).Y Xf
        rw [← e] at this
        exact this)
      ((dC P .ism).setcoef Z t) ⟨hr, _, rfl⟩
    exact ⟨⟨hf, h1, ho, h2⟩, statC st, last_admm e1, congrArg some e2⟩
  | cg =>
    obtain ⟨hf, h1, ho, hr, hcg⟩ := h
    have hk := keeps_cg P (part Z) hcg
    obtain ⟨⟨h2, h3⟩, st, e1, e2⟩ := Admm.solve_obj
      { Mod.clsISM (pcnC P.dsz P.dimC P.zm) P.S P.fD P.gD with xstep := P.cg } P.oD hf h1
      (fun s => 0 < s.rho ∧ Mod.CohD P.S (part Z) s.extra) (fun _ _ h => h)
      (fun k s h => Admm.body_keeps hk P.oD ho none (fun _ _ h => by cases h) k s h.1 h.2)
      (fun X Y => dictTerm (part Z) P.S (part (if P.fD then X else Y)))
      (fun s h => by
        obtain ⟨hr, Xf, e⟩ := h
        have hx := hcg s.rho s.X s.Y s.U s.extra
        change Mod.dfdD P.S P.fD _ (P.cg s.rho s.X s.Y s.U s.extra).2 = dictTerm (part Z) P.S
          (part (if P.fD then (P.cg s.rho s.X s.Y s.U s.extra).1 else _))
        rw [hx, e]
        unfold Mod.dfdD
        cases P.fD
        · exact Mod.rfl_dict P.S (part Z) fun _ => part _
        · exact Mod.rfl_dict P.S (part Z) fun _ => part _)
      ((dC P .cg).setcoef Z t) ⟨hr, _, rfl⟩
    exact ⟨⟨hf, h1, ho, h2, hcg⟩, statC st, last_admm e1, congrArg some e2⟩
  | cns =>
    obtain ⟨hf, h1, ho, hr⟩ := h
    have hk := Mod.keeps_cns (a := a) (pcnC P.dsz P.dimC P.zm : Coef (Fin (c + 1)) (Fin m) N → _) P.S (part Z) P.fD P.gD
    obtain ⟨⟨h2, h3⟩, st, e1, e2⟩ := Admm.solve_obj (Mod.clsCns (pcnC P.dsz P.dimC P.zm) P.S P.fD P.gD) P.oD hf h1
      (fun s => 0 < s.rho ∧ Mod.CohC P.S (part Z) s.extra) (fun _ _ h => h)
      (fun k s h => Admm.body_keeps hk P.oD ho none (fun _ _ h => by cases h) k s h.1 h.2)
      (fun X Y => if P.fD then ∑ k, dictTerm (one (part Z) k) (oneS P.S k) (part (X k)) else dictTerm (part Z) P.S (part Y))
      (fun s h => by
        obtain ⟨hr, Xf, e⟩ := h
        have := Mod.C40_ccmod_cns_recorded (pcnC P.dsz P.dimC P.zm) P.S (part Z) P.fD P.gD s.rho hr s.X s.Y s.U
          (Admm.steps (Mod.clsCns (pcnC P.dsz P.dimC P.zm) P.S P.fD P.gD) P.oD s).Y Xf
        rw [← e] at this
        exact this)
      ((dC P .cns).setcoef Z t) ⟨hr, _, rfl⟩
    exact ⟨⟨hf, h1, ho, h2⟩, statC st, last_admm e1, congrArg some e2⟩
  | pgm =>
    obtain ⟨hf, h1, hm, hx⟩ := h
    have e := Pgm.DFT.solve_Xf (PgmConv.clsMOD a (pcnC P.dsz P.dimC P.zm) (part Z) P.S) P.pD hm t.1 hx
    obtain ⟨k, r, hl⟩ := Pgm.solve_last (Pgm.DFT.ops (PgmConv.clsMOD a (pcnC P.dsz P.dimC P.zm) (part Z) P.S) P.pD) P.pD
      hf h1 t.1
    generalize hs' : Pgm.solve (Pgm.DFT.ops (PgmConv.clsMOD a (pcnC P.dsz P.dimC P.zm) (part Z) P.S) P.pD) P.pD none t.1 =
      s' at e hl
    have hx : (dC P .pgm).solve ((dC P .pgm).setcoef Z t) = (s', part Z) := Prod.ext hs' rfl
    rw [hx]
    refine ⟨⟨hf, h1, hm, e⟩, statDP _, last_admm hl, ?_⟩
    have ho : (Pgm.DFT.statOf (PgmConv.clsMOD a (pcnC P.dsz P.dimC P.zm) (part Z) P.S) P.pD k s'.v r).obj.1 =
        dictTerm (part Z) P.S (part s'.v.X) := by
      unfold Pgm.DFT.statOf
      dsimp only
      rw [if_neg (by rw [hm]; simp), e]
      change PgmConv.hnorm2 (PgmConv.evalRfD (part Z) P.S (PgmConv.fwd a s'.v.X)) / 2 = _
      rw [PgmConv.evalRfD_fwd, PgmConv.hnorm2_fwd, PgmConv.dictTerm_eq]
      ring
    exact congrArg some ho

theorem dictTerm_data (P : PrmC d c κ m N a) (hw : P.dsz.WF (d + 2) d) (hN : ∀ k : Fin d, P.dsz.extent k.val ≤ N k)
    (δ : DM) (t : DSt c κ m N a δ) (h : DFeas P (dvar δ t)) (Z : Coef (Fin (κ + 1)) (Fin m) N) :
    dictTerm (part Z) P.S (part (dvar δ t)) =
      dataTerm (dictOf P.dsz ((dC P δ).getdict t) : Dict c (Fin m) P.ext) P.S (part Z) := by
  obtain ⟨-, -, h3⟩ := cropC_spec hw hN h
  have e := dfd_eq (a := a) hN (dictOf P.dsz ((dC P δ).getdict t) : Dict c (Fin m) P.ext) P.S Z
    (fun k f => rfft N a (part Z k f)) fun _ _ => rfl
  have h3' : ∀ i f, pad N ((dictOf P.dsz ((dC P δ).getdict t) : Dict c (Fin m) P.ext) i f) = part (dvar δ t) i f := h3
  unfold dictF at e
  simp only [h3'] at e
  rw [← e]
  refine (Mod.rfl_dict (a := a) P.S (part Z) fun _ => part (dvar δ t)).symm.trans ?_
  have e2 : ∀ p : (Fin (c + 1) × Fin (κ + 1)) × Half N a,
      Linalg.inner (fun f => PgmConv.coefF a (part Z) p.1.2 f p.2) (fun f => rfft N a (part (dvar δ t) p.1.1 f) p.2) =
      Linalg.inner (fun f => rfft N a (part (dvar δ t) p.1.1 f) p.2) (fun f => rfft N a (part Z p.1.2 f) p.2) := fun p =>
    Finset.sum_congr rfl fun f _ => mul_comm _ _
  simp only [e2]
  rfl

/-- **C55 for `ConvBPDNDictLearn`: each dictionary update sees the coefficient maps just computed.**  For every input, every
method of sparse coding and dictionary update, sequence of `solve` calls and callbacks: the data fidelity that the
dictionary update object records last in iteration `k` is that of the coefficient maps that sparse coding returned in
this iteration, at the variable that `fEvalX` chooses; if this is the one that `getdict` reads, it is
`(1/2) Σ ‖Σ d*x - s‖²` for the dictionary and the coefficient maps that the object returns after this iteration. -/
theorem C55_convdl_update (P : PrmC d c κ m N a) (x : XM) (δ : DM) (clock : ℕ → ℝ)
    (D0 D : Arr (d + 2 + 1)) (x0 : XSt P x) (d0 : DSt c κ m N a δ) (hc : Constructed P D0 D x δ x0 d0) (ho : OkD P δ d0)
    (cs : List (ℕ × (DL (XSt P x) (DSt c κ m N a δ) ℝ → Bool))) :
    ∃ s xs ds, dlRun (envC P x δ clock) cs ⟨x0, d0, 0, []⟩ = some s ∧
      Alternates (envC P x δ clock) x0 d0 xs ds ∧
      AtEnd (envC P x δ clock) x0 d0 xs ds s.itstat.length s.x s.d ∧
      ∀ k, ∃ g, ((dC P δ).itstat (ds k)).getLast? = some g ∧
        g "DFid" = some (dTerm P (part ((xC P x).getcoef (xs k))) δ (ds k)) ∧
        ((P.zm = false ∨ d = 2) → (δ = .pgm ∨ P.fD = false) → g "DFid" = some (dataTerm
          (dictOf P.dsz ((dC P δ).getdict (ds k)) : Dict c (Fin m) P.ext) P.S (part ((xC P x).getcoef (xs k))))) := by
  obtain ⟨s, hs⟩ := run_total (rowsOk_C P x δ clock) cs ⟨x0, d0, 0, []⟩
  obtain ⟨xs, ds, n, h1, h2, -, rfl, -⟩ := C55_alternation hs
  refine ⟨s, xs, ds, hs, h1, h2, fun k => ?_⟩
  have hok : ∀ k, OkD P δ (ds k) :=
    alt_inv_d h1 (OkD P δ) ho fun z t ht => (solveD P z δ t ht).1
  have hl : LastD P (part ((xC P x).getcoef (xs k))) δ (ds k) := by
    cases k with
    | zero => rw [h1.d_first]; exact (solveD P _ δ _ ho).2
    | succ k => rw [h1.d_next]; exact (solveD P _ δ _ (hok k)).2
  obtain ⟨g, g1, g2⟩ := hl
  refine ⟨g, g1, g2, fun hz hx => ?_⟩
  have hds : ∀ k, DFeas P (dvar δ (ds k)) :=
    alt_inv_d h1 (fun t => DFeas P (dvar δ t)) hc.dfeas.1 fun z t ht => dC_step P hc.wf hc.fit hz δ z t ht
  rw [g2, ← dictTerm_data P hc.wf hc.fit δ (ds k) (hds k)]
  generalize ds k = t
  refine congrArg some ?_
  rcases hx with rfl | hx
  · rfl
  · cases δ with
    | ism => change dictTerm _ _ (part (if P.fD then _ else _)) = _; rw [hx]; rfl
    | cg => change dictTerm _ _ (part (if P.fD then _ else _)) = _; rw [hx]; rfl
    | cns => change (if P.fD then _ else _) = _; rw [hx]; rfl
    | pgm => rfl

/-- The hypotheses of `C55_convdl_update` can be met, for every method. -/
example (P : PrmC d c κ m N a) (hw : P.dsz.WF (d + 2) d) (hN : ∀ k : Fin d, P.dsz.extent k.val ≤ N k)
    (D0 : Arr (d + 2 + 1)) (hD : ∃ sh : Fin d → ℕ, D0.sh = idx sh (c + 1) 1 m ∧ ∀ k : Fin d, P.dsz.extent k.val ≤ sh k)
    (hf : P.oD.fastSolve = false) (h1 : 1 ≤ P.oD.maxMainIter) (hr : P.oD.autoRho = false)
    (hf' : P.pD.fastSolve = false) (h1' : 1 ≤ P.pD.maxMainIter) (hm : P.pD.monotone = false) (δ : DM) :
    ∃ (cg : _) (D : _) (s : XSt { P with cg := cg } .admm) (t : DSt c κ m N a δ),
      Constructed { P with cg := cg } D0 D .admm δ s t ∧ OkD { P with cg := cg } δ t := by
  have ha : ∀ q : Prop, P.oD.autoRho = true → q := fun q h => by rw [hr] at h; cases h
  let cg : ℝ → Coef (Fin (c + 1)) (Fin m) N → Coef (Fin (c + 1)) (Fin m) N → Coef (Fin (c + 1)) (Fin m) N →
    Mod.AttrD (Fin (c + 1)) (Fin (κ + 1)) (Fin m) N a →
    Coef (Fin (c + 1)) (Fin m) N × Mod.AttrD (Fin (c + 1)) (Fin (κ + 1)) (Fin m) N a := fun _ _ Y U h =>
      (Y - U, { h with Xf := fun i f => rfft N a (part (Y - U) i f) })
  have hX : ∀ D : Arr (d + 2 + 1), XInit { P with cg := cg } D .admm
      (Admm.St.mk 0 0 0 0 0 0 (P.rhoX.getD (50 * P.lmbda + 1)) 0 []
        (Conv.setdict P.q P.S (P.rhoX.getD 1) (dictOf P.dsz D) fun _ _ _ => 0)) := fun D => ⟨rfl, rfl, _, rfl⟩
  have hp : ∃ D, Pcn D0 P.dsz [] d P.dimC true P.zm = some D := ⟨_, rfl⟩
  obtain ⟨D, hp⟩ := hp
  cases δ with
  | ism => exact ⟨cg, D, _, Admm.St.mk 0 (coefOf D) 0 0 0 0 1 0 [] (Mod.setcoef P.S 0 fun _ _ _ => 0),
      ⟨hw, hN, hD, hp, hX D, rfl, rfl, rfl⟩, hf, h1, ha _, one_pos⟩
  | cg => exact ⟨cg, D, _, Admm.St.mk 0 (coefOf D) 0 0 0 0 1 0 [] (Mod.setcoef P.S 0 fun _ _ _ => 0),
      ⟨hw, hN, hD, hp, hX D, rfl, rfl, rfl⟩, hf, h1, ha _, one_pos, fun _ _ _ _ _ => rfl⟩
  | cns => exact ⟨cg, D, _, Admm.St.mk 0 (coefOf D) 0 0 0 0 1 0 [] (Mod.setcoefC P.S 0 fun _ _ _ _ => 0),
      ⟨hw, hN, hD, hp, hX D, rfl, rfl, rfl⟩, hf, h1, ha _, one_pos⟩
  | pgm =>
    exact ⟨cg, D, _, (⟨0, [], ⟨coefOf D, PgmConv.fwd a (coefOf D), PgmConv.fwd a (coefOf D), 0, 0, 0, 1, 1, (0, 0, 0), (0, 0, 0),
      none, none, none, 0, 0, 0, none⟩⟩, 0), ⟨hw, hN, hD, hp, hX D, ⟨rfl, rfl, rfl, rfl, rfl⟩, rfl⟩, hf', h1', hm, rfl⟩

end

end Sporco.Dictlrn
