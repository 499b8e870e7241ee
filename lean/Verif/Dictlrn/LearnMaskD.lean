import Verif.Dictlrn.LearnMask
import Verif.Dictlrn.LearnConvD
import Verif.Conv.CcmodMC

/-!
# The dictionary update of `ConvBPDNMaskDictLearn` (C55)

The masked version of `Verif.Dictlrn.LearnConvD`.
-/

set_option autoImplicit false

namespace Sporco.Dictlrn.Mask

open Finset Sporco.Conv Sporco.Cnvrep
open Sporco.Conv.Mod (one oneS)
open Sporco.PgmConv (dictMaskTerm maskTerm)

section MC
variable {d Nb : ℕ} {N : Fin d → ℕ} [∀ k, NeZero (N k)] {a : Fin d} {A M : Type*} [Fintype A] [Fintype M]

theorem bodyMC_eq (Pcn : Coef A M N → Coef A M N) (Z : Fin Nb → M → Grid N → ℝ) (S W : A → Fin Nb → Grid N → ℝ)
    (o : Admm.Opts) (hf : o.fastSolve = false) (k : ℕ) (s : StMC A Nb M N a) :
    let s1 := Admm.steps (Mod.clsMC a Pcn Z S W) o { s with k := k }
    (bodyMC Pcn Z S W o k s).1.X = s1.X ∧ ∃ st : Admm.Stat, (bodyMC Pcn Z S W o k s).1.itstat = s1.itstat ++ [st] ∧
      st.obj = (Mod.clsMC a Pcn Z S W).objfn s1.X s1.Y s1.extra := by
  unfold bodyMC Mod.updateRhoMC
  have hf' : ¬ o.fastSolve = true := by rw [hf]; simp
  dsimp only
  rw [if_neg hf']
  split_ifs <;> exact ⟨rfl, _, rfl, rfl⟩

theorem solveMC_obj (Pcn : Coef A M N → Coef A M N) (Z : Fin Nb → M → Grid N → ℝ) (S W : A → Fin Nb → Grid N → ℝ)
    (o : Admm.Opts) (hf : o.fastSolve = false) (h1 : 1 ≤ o.maxMainIter) (s : StMC A Nb M N a) :
    ∃ st, (solveMC Pcn Z S W o s).itstat.getLast? = some st ∧
      st.obj.1 = ∑ k, dictMaskTerm (one Z k) (oneS S k) (oneS W k) (part ((solveMC Pcn Z S W o s).X k)) := by
  let R : StMC A Nb M N a → Prop := fun s => ∃ st, s.itstat.getLast? = some st ∧
    st.obj.1 = ∑ k, dictMaskTerm (one Z k) (oneS S k) (oneS W k) (part (s.X k))
  have hb : ∀ k s, R (bodyMC Pcn Z S W o k s).1 := by
    intro k s
    obtain ⟨e1, st, e2, e3⟩ := bodyMC_eq Pcn Z S W o hf k s
    refine ⟨st, by rw [e2]; simp, ?_⟩
    rw [e3, e1]
    exact Mod.C40_ccmodmd_cns_recorded Pcn Z S W s.rho s.X s.Y _ s.U s.extra
  have : ∀ (ks : List ℕ) (s : StMC A Nb M N a), (ks = [] → R s) → R (loopMC Pcn Z S W o ks s) := by
    intro ks
    induction ks with
    | nil => exact fun s h => h rfl
    | cons k ks ih =>
      intro s _
      simp only [loopMC]
      split_ifs
      · exact hb k s
      · exact ih _ fun _ => hb k s
  exact this _ s fun h' => absurd h' (by simp; omega)

end MC

section
variable {d c κ m : ℕ} {N : Fin d → ℕ} [∀ k, NeZero (N k)] {a : Fin d}

/-! ## Statement -/

/-- The masked data fidelity of the dictionary update with coefficient maps `Z`, at the variable X (`AuxVarObj` is not
set), which is divided into the blocks of the signals in the consensus class. -/
noncomputable def dTerm (P : PrmM d c κ m N a) (Z : Fin (κ + 1) → Fin m → Grid N → ℝ) : (δ : DM) → DSt c κ m N a δ → ℝ
  | .ism => fun s => dictMaskTerm Z P.S P.W (part (Admm.St.X s.1))
  | .cg => fun s => dictMaskTerm Z P.S P.W (part (Admm.St.X s.1))
  | .cns => fun s => ∑ k, dictMaskTerm (one Z k) (oneS P.S k) (oneS P.W k) (part (Admm.St.X s.1 k))
  | .pgm => fun s => dictMaskTerm Z P.S P.W (part s.1.v.X)

/-- The options of the dictionary update: at least one iteration with statistics, for ADMM not `AuxVarObj`, for PGM not
`Monotone`.  The X update of `ConvCnstrMODMaskDcpl_CG` returns a variable and its transform. -/
def OkD (P : PrmM d c κ m N a) : (δ : DM) → DSt c κ m N a δ → Prop
  | .ism => fun _ => P.oD.fastSolve = false ∧ 1 ≤ P.oD.maxMainIter ∧ P.avD = false
  | .cg => fun _ => P.oD.fastSolve = false ∧ 1 ≤ P.oD.maxMainIter ∧ P.avD = false ∧
      ∀ Z rho X Y U h, (P.cg Z rho X Y U h).2 = fun i f => rfft N a (part (P.cg Z rho X Y U h).1 i f)
  | .cns => fun _ => P.oD.fastSolve = false ∧ 1 ≤ P.oD.maxMainIter
  | .pgm => fun s => P.pD.fastSolve = false ∧ 1 ≤ P.pD.maxMainIter ∧ P.pD.monotone = false ∧
      s.1.v.Xf = PgmConv.fwd a s.1.v.X

/-! ## Proof -/

/-- The last recorded data fidelity of the dictionary update object. -/
def LastD (P : PrmM d c κ m N a) (Z : Fin (κ + 1) → Fin m → Grid N → ℝ) (δ : DM) (t : DSt c κ m N a δ) : Prop :=
  ∃ g, ((dC P δ).itstat t).getLast? = some g ∧ g "DFid" = some (dTerm P Z δ t)

theorem solveD (P : PrmM d c κ m N a) (Z : Coef (Fin (κ + 1)) (Fin m) N) (δ : DM) (t : DSt c κ m N a δ) (h : OkD P δ t) :
    OkD P δ ((dC P δ).solve ((dC P δ).setcoef Z t)) ∧ LastD P (part Z) δ ((dC P δ).solve ((dC P δ).setcoef Z t)) := by
  cases δ with
  | ism =>
    obtain ⟨hf, h1, ha⟩ := h
    obtain ⟨-, st, e1, e2⟩ := Admm.solve_obj (Mod.clsMD a (pcnC P.dsz P.dimC P.zm) (part Z) P.S P.W P.avD) P.oD hf h1
      (fun _ => True) (fun _ _ h => h) (fun k s h => h)
      (fun X _ => dictMaskTerm (part Z) P.S P.W (part X))
      (fun s _ => by
        rw [ha]
        exact Mod.C40_ccmodmd_ism_recorded (pcnC P.dsz P.dimC P.zm) (part Z) P.S P.W s.rho s.X s.Y s.U _ s.extra)
      t.1 trivial
    exact ⟨⟨hf, h1, ha⟩, statC st, last_admm e1, congrArg some e2⟩
  | cg =>
    obtain ⟨hf, h1, ha, hcg⟩ := h
    obtain ⟨-, st, e1, e2⟩ := Admm.solve_obj
      { Mod.clsMD a (pcnC P.dsz P.dimC P.zm) (part Z) P.S P.W P.avD with xstep := P.cg (part Z) } P.oD hf h1
      (fun _ => True) (fun _ _ h => h) (fun k s h => h)
      (fun X _ => dictMaskTerm (part Z) P.S P.W (part X))
      (fun s _ => by
        have e : ∀ Y, Mod.g0varD a (part Z) P.S false Y (P.cg (part Z) s.rho s.X s.Y s.U s.extra).2 =
            PgmConv.modOp (part Z) (P.cg (part Z) s.rho s.X s.Y s.U s.extra).1 - join P.S := by
          intro Y
          rw [← Mod.cnstA0_eq (a := a), hcg]
          rfl
        rw [ha]
        change ‖(join fun i k p => P.W i k p * part (Mod.g0varD a (part Z) P.S false _
          (P.cg (part Z) s.rho s.X s.Y s.U s.extra).2) i k p : Sig (Fin (c + 1)) (Fin (κ + 1)) N)‖ ^ 2 / 2 =
          dictMaskTerm (part Z) P.S P.W (part (P.cg (part Z) s.rho s.X s.Y s.U s.extra).1)
        rw [e, PgmConv.dictMaskTerm_eq, div_eq_mul_one_div, mul_comm]
        rfl)
      t.1 trivial
    exact ⟨⟨hf, h1, ha, hcg⟩, statC st, last_admm e1, congrArg some e2⟩
  | cns =>
    obtain ⟨hf, h1⟩ := h
    obtain ⟨st, e1, e2⟩ := solveMC_obj (pcnC P.dsz P.dimC P.zm) (part Z) P.S P.W P.oD hf h1 t.1
    exact ⟨⟨hf, h1⟩, statC st, last_admm e1, congrArg some e2⟩
  | pgm =>
    obtain ⟨hf, h1, hm, hx⟩ := h
    have e := Pgm.DFT.solve_Xf (PgmConv.clsMODMask a (pcnC P.dsz P.dimC P.zm) (part Z) P.S P.W) P.pD hm t.1 hx
    obtain ⟨k, r, hl⟩ := Pgm.solve_last
      (Pgm.DFT.ops (PgmConv.clsMODMask a (pcnC P.dsz P.dimC P.zm) (part Z) P.S P.W) P.pD) P.pD hf h1 t.1
    generalize hs' : Pgm.solve (Pgm.DFT.ops (PgmConv.clsMODMask a (pcnC P.dsz P.dimC P.zm) (part Z) P.S P.W) P.pD) P.pD
      none t.1 = s' at e hl
    have hx : (dC P .pgm).solve ((dC P .pgm).setcoef Z t) = (s', part Z) := Prod.ext hs' rfl
    rw [hx]
    refine ⟨⟨hf, h1, hm, e⟩, statDP _, last_admm hl, ?_⟩
    have ho : (Pgm.DFT.statOf (PgmConv.clsMODMask a (pcnC P.dsz P.dimC P.zm) (part Z) P.S P.W) P.pD k s'.v r).obj.1 =
        dictMaskTerm (part Z) P.S P.W (part s'.v.X) := by
      unfold Pgm.DFT.statOf
      dsimp only
      rw [if_neg (by rw [hm]; simp), e]
      exact (PgmConv.C51_convcnstrmodmask_spatial_partial (a := a) (pcnC P.dsz P.dimC P.zm) (part Z) P.S P.W s'.v.X).1
    exact congrArg some ho

/-- **C55 for `ConvBPDNMaskDictLearn`: each dictionary update sees the coefficient maps just computed.**  For every input, every
method of sparse coding and dictionary update, sequence of `solve` calls and callbacks: the masked data fidelity that
the dictionary update object records last in iteration `k` is that of the coefficient maps that sparse coding returned
in this iteration, at its own variable.  (Missing: with `AuxVarObj` the recorded value is that of an auxiliary
variable, which does not show which coefficient maps were used.) -/
theorem C55_maskdl_update_partial (P : PrmM d c κ m N a) (x : XM) (δ : DM) (clock : ℕ → ℝ)
    (x0 : XSt P x) (d0 : DSt c κ m N a δ) (ho : OkD P δ d0)
    (cs : List (ℕ × (DL (XSt P x) (DSt c κ m N a δ) ℝ → Bool))) :
    ∃ s xs ds, dlRun (envC P x δ clock) cs ⟨x0, d0, 0, []⟩ = some s ∧
      Alternates (envC P x δ clock) x0 d0 xs ds ∧
      AtEnd (envC P x δ clock) x0 d0 xs ds s.itstat.length s.x s.d ∧
      ∀ k, ∃ g, ((dC P δ).itstat (ds k)).getLast? = some g ∧
        g "DFid" = some (dTerm P (part ((xC P x).getcoef (xs k))) δ (ds k)) := by
  obtain ⟨s, hs⟩ := run_total (rowsOk_C P x δ clock) cs ⟨x0, d0, 0, []⟩
  obtain ⟨xs, ds, n, h1, h2, -, rfl, -⟩ := C55_alternation hs
  refine ⟨s, xs, ds, hs, h1, h2, fun k => ?_⟩
  have hok : ∀ k, OkD P δ (ds k) :=
    alt_inv_d h1 (OkD P δ) ho fun z t ht => (solveD P z δ t ht).1
  cases k with
  | zero => rw [h1.d_first]; exact (solveD P _ δ _ ho).2
  | succ k => rw [h1.d_next]; exact (solveD P _ δ _ (hok k)).2

/-- The hypotheses of `C55_maskdl_update_partial` can be met, for the PGM method with an arbitrary initial dictionary. -/
example (P : PrmM d c κ m N a) (hf : P.pD.fastSolve = false) (h1 : 1 ≤ P.pD.maxMainIter) (hm : P.pD.monotone = false)
    (D : Arr (d + 2 + 1)) : ∃ t : DSt c κ m N a .pgm, DInit P D .pgm t ∧ OkD P .pgm t :=
  ⟨(⟨0, [], ⟨coefOf D, PgmConv.fwd a (coefOf D), PgmConv.fwd a (coefOf D), 0, 0, 0, 1, 1, (0, 0, 0), (0, 0, 0),
      none, none, none, 0, 0, 0, none⟩⟩, 0), ⟨⟨rfl, rfl, rfl, rfl, rfl⟩, rfl⟩, hf, h1, hm, rfl⟩

end

end Sporco.Dictlrn.Mask
