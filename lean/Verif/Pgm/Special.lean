import Verif.Pgm.Bpdn
import Verif.Pgm.ConvGrad
import Verif.Pgm.ConvSymm

/-!
# Special cases of the proximal gradient classes (C90)
-/

set_option autoImplicit false
set_option linter.unusedSectionVars false

namespace Sporco.Pgm

open Matrix
open Sporco.Admm (Arr mat arr)

/-! ## `WeightedBPDN` and `WeightedCnstrMOD` -/

section Plain
variable {N M K : ℕ}

theorem had_one {m k : ℕ} (R : Matrix (Fin m) (Fin k) ℝ) : had (Matrix.of fun _ _ => 1) R = R := by
  ext i j
  simp [had]

/-- **C90 for `pgm.bpdn.WeightedBPDN`.** With weights one it is `BPDN`: all methods agree, so all runs do, for all
options, with or without a callback. -/
theorem C90_weightedbpdn (D : Matrix (Fin N) (Fin M) ℝ) (S : Matrix (Fin N) (Fin K) ℝ) (lmbda : ℝ)
    (wl1 : Fin M × Fin K → ℝ) (nonNeg : Bool) (o : Opts) (cb : Option (St (Vars (Arr M K)) → Bool × Vars (Arr M K)))
    (s : St (Vars (Arr M K))) :
    solve (ops (clsWBPDN D S lmbda wl1 nonNeg (Matrix.of fun _ _ => 1)) o) o cb s =
      solve (ops (clsBPDN D S lmbda wl1 nonNeg) o) o cb s := by
  have e : clsWBPDN D S lmbda wl1 nonNeg (Matrix.of fun _ _ => 1) = clsBPDN D S lmbda wl1 nonNeg := by
    unfold clsWBPDN clsBPDN
    simp only [Matrix.of_apply, Real.sqrt_one, had_one]
  rw [e]

/-- **C90 for `pgm.cmod.WeightedCnstrMOD`.** With weights one it is `CnstrMOD`. -/
theorem C90_weightedcnstrmod (Z : Matrix (Fin M) (Fin K) ℝ) (S : Matrix (Fin N) (Fin K) ℝ) (Pcn : Arr N M → Arr N M)
    (o : Opts) (cb : Option (St (Vars (Arr N M)) → Bool × Vars (Arr N M))) (s : St (Vars (Arr N M))) :
    solve (ops (clsWCMOD Z S Pcn (Matrix.of fun _ _ => 1)) o) o cb s = solve (ops (clsCMOD Z S Pcn) o) o cb s := by
  have e : clsWCMOD Z S Pcn (Matrix.of fun _ _ => 1) = clsCMOD Z S Pcn := by
    unfold clsWCMOD clsCMOD
    simp only [Matrix.of_apply, Real.sqrt_one, had_one]
  rw [e]

end Plain

/-! ## Classes that agree on a subspace -/

section Sub
variable {E Ef : Type*} [NormedAddCommGroup Ef] [InnerProductSpace ℝ Ef]

/-- The arrays in the DFT domain, other than `Yfprv`, are in the set `V`. -/
structure VarsF.In (V : Set Ef) (v : VarsF E Ef) : Prop where
  Xf : v.Xf ∈ V
  Yf : v.Yf ∈ V
  Xfprv : v.Xfprv ∈ V
  ZZf : v.ZZf ∈ V
  bbX : v.bbX ∈ V
  bbG : v.bbG ∈ V
  Zrb : ∀ z ∈ v.Zrb, z ∈ V

/-- The methods of the two classes agree on `V`, and do not leave it. -/
structure AgreeOn (V : Submodule ℝ Ef) (C C' : ClsF E Ef) : Prop where
  rfftn : ∀ x, C.rfftn x ∈ V ∧ C'.rfftn x = C.rfftn x
  irfftn : ∀ v ∈ V, C'.irfftn v = C.irfftn v
  gradF : ∀ v ∈ V, C.gradF v ∈ V ∧ C'.gradF v = C.gradF v
  proxG : ∀ L x, C'.proxG L x = C.proxG L x
  hessF : ∀ v ∈ V, C.hessF v ∈ V ∧ C'.hessF v = C.hessF v
  obfnF : ∀ v ∈ V, C'.obfnF v = C.obfnF v
  evalObj : ∀ x, ∀ v ∈ V, C'.evalObj x v = C.evalObj x v
  rsdl : ∀ u ∈ V, ∀ v ∈ V, C'.rsdl u v = C.rsdl u v

/-- The class with arrays in `V`. -/
def restr {V : Submodule ℝ Ef} {C C' : ClsF E Ef} (h : AgreeOn V C C') : ClsF E V where
  rfftn x := ⟨C.rfftn x, (h.rfftn x).1⟩
  irfftn v := C.irfftn v
  gradF v := ⟨C.gradF v, (h.gradF v v.2).1⟩
  proxG := C.proxG
  hessF v := ⟨C.hessF v, (h.hessF v v.2).1⟩
  obfnF v := C.obfnF v
  evalObj x v := C.evalObj x v
  rsdl u v := C.rsdl u v

theorem restr_left {V : Submodule ℝ Ef} {C C' : ClsF E Ef} (h : AgreeOn V C C') :
    ClsFSame (restr h) C id V.subtypeₗᵢ :=
  ⟨fun _ => rfl, fun _ => rfl, fun _ => rfl, fun _ _ => rfl, fun _ => rfl, fun _ => rfl, fun _ _ => rfl, fun _ _ => rfl⟩

theorem restr_right {V : Submodule ℝ Ef} {C C' : ClsF E Ef} (h : AgreeOn V C C') :
    ClsFSame (restr h) C' id V.subtypeₗᵢ :=
  ⟨fun x => (h.rfftn x).2, fun v => h.irfftn v v.2, fun v => (h.gradF v v.2).2, fun L x => h.proxG L x,
    fun v => (h.hessF v v.2).2, fun v => h.obfnF v v.2, fun x v => h.evalObj x v v.2, fun u v => h.rsdl u u.2 v v.2⟩

theorem In.lift {V : Submodule ℝ Ef} {v : VarsF E Ef} (h : v.In V) :
    ∃ u : VarsF E V, ∀ f : V → Ef, f 0 = v.Yfprv → v = u.map id V.subtypeₗᵢ f := by
  refine ⟨{ X := v.X, Xf := ⟨v.Xf, h.Xf⟩, Yf := ⟨v.Yf, h.Yf⟩, Xfprv := ⟨v.Xfprv, h.Xfprv⟩, Yfprv := 0,
            ZZf := ⟨v.ZZf, h.ZZf⟩, L := v.L, t := v.t, objfn := v.objfn, objfnPrev := v.objfnPrev, F := v.F, Q := v.Q,
            iterBT := v.iterBT, bbX := ⟨v.bbX, h.bbX⟩, bbG := ⟨v.bbG, h.bbG⟩, Tk := v.Tk,
            Zrb := v.Zrb.attach.map fun z => ⟨z.1, h.Zrb z.1 z.2⟩ }, fun f hf => ?_⟩
  unfold VarsF.map
  simp only [hf]
  have e : Option.map V.subtypeₗᵢ (v.Zrb.attach.map fun z => (⟨z.1, h.Zrb z.1 z.2⟩ : V)) = v.Zrb := by
    rw [Option.map_map]
    exact Option.attach_map_subtype_val _
  rw [e]
  rfl

theorem map_In {V : Submodule ℝ Ef} (u : VarsF E V) (f : V → Ef) : (u.map id V.subtypeₗᵢ f).In V := by
  refine ⟨u.Xf.2, u.Yf.2, u.Xfprv.2, u.ZZf.2, u.bbX.2, u.bbG.2, fun z hz => ?_⟩
  obtain ⟨y, _, rfl⟩ := Option.mem_map.1 hz
  exact y.2

/-- Two classes that agree on `V` go through the same run from a state in `V`. -/
theorem agreeOn_solve {V : Submodule ℝ Ef} {C C' : ClsF E Ef} (h : AgreeOn V C C') (o : Opts) (s s' : St (VarsF E Ef))
    (hs : s.v.In V) (hc : CorrF id id s s') :
    CorrF id id (solve (DFT.ops C o) o none s) (solve (DFT.ops C' o) o none s') ∧
      (solve (DFT.ops C o) o none s).v.In V := by
  obtain ⟨f0, rfl⟩ := hc
  obtain ⟨u, hu⟩ := In.lift hs
  have e1 : s = St.map (VarsF.map id V.subtypeₗᵢ fun _ => s.v.Yfprv) ⟨s.k, s.itstat, u⟩ := by
    unfold St.map
    rw [← hu _ rfl]
  have e2 : s.map (VarsF.map id id f0) = St.map (VarsF.map id V.subtypeₗᵢ fun _ => f0 s.v.Yfprv) ⟨s.k, s.itstat, u⟩ := by
    have := hu (fun _ => s.v.Yfprv) rfl
    unfold St.map
    conv_lhs => rw [this]
    unfold VarsF.map
    simp only [id, Option.map_id]
  obtain ⟨f1, h1⟩ := solve_same (DFT.ops_same (restr_left h) o) (Or.inl ⟨rfl, rfl⟩) (fun _ => s.v.Yfprv)
    ⟨s.k, s.itstat, u⟩ (cb := none) (cb' := none)
  obtain ⟨f2, h2⟩ := solve_same (DFT.ops_same (restr_right h) o) (Or.inl ⟨rfl, rfl⟩) (fun _ => f0 s.v.Yfprv)
    ⟨s.k, s.itstat, u⟩ (cb := none) (cb' := none)
  rw [← e1] at h1
  rw [← e2] at h2
  rw [h1, h2]
  generalize solve (DFT.ops (restr h) o) o none ⟨s.k, s.itstat, u⟩ = r
  refine ⟨⟨fun _ => f2 r.v.Yfprv, ?_⟩, map_In _ _⟩
  unfold St.map VarsF.map
  simp only [id, Option.map_id]

end Sub

end Sporco.Pgm

namespace Sporco.PgmConv

open Finset ComplexConjugate Sporco.Prox
open Sporco.Conv (Grid Half Dict Signal Spec Coef Sig COpts)
open Sporco.Pgm (ClsF)

variable {d c : ℕ} {N Nd : Fin d → ℕ} [∀ k, NeZero (N k)] {A B K M : Type*} [Fintype A] [Fintype B]
  [Fintype K] [Fintype M] {a : Fin d}

/-- The transforms of real arrays. -/
noncomputable def spectra (a : Fin d) (A B : Type*) [Fintype A] [Fintype B] (N : Fin d → ℕ) [∀ k, NeZero (N k)] :
    Submodule ℝ (HS A B N a) :=
  LinearMap.range (⟨⟨fwd a, fwd_add⟩, fun r x => fwd_smul r x⟩ :
    EuclideanSpace ℝ (A × B × Grid N) →ₗ[ℝ] HS A B N a)

theorem mem_spectra {v : HS A B N a} : v ∈ spectra a A B N ↔ ∃ x, fwd a x = v := Iff.rfl

theorem mulW_one (x : EuclideanSpace ℝ (A × B × Grid N)) : mulW (fun _ _ _ => 1) x = x := by
  ext ⟨i, j, p⟩
  exact one_mul _

theorem agree_mask (q : COpts) (D : Dict c M Nd) (S : Signal c K N) (lmbda : ℝ) (w : K × M × Grid N → ℝ) :
    Pgm.AgreeOn (spectra a K M N) (clsBPDN a q D S lmbda w) (clsBPDNMask a q D S lmbda w fun _ _ _ => 1) where
  rfftn x := ⟨⟨x, rfl⟩, rfl⟩
  irfftn _ _ := rfl
  gradF v hv := by
    obtain ⟨x, rfl⟩ := hv
    change conjDf D (evalRf D S (fwd a x)) ∈ _ ∧
      conjDf D (fwd a (mulW (fun _ _ _ => 1 ^ 2) (bwd a (evalRf D S (fwd a x))))) = conjDf D (evalRf D S (fwd a x))
    simp only [one_pow, evalRf_fwd, bwd_fwd, mulW_one, conjDf_fwd, and_true]
    exact ⟨_, rfl⟩
  proxG _ _ := rfl
  hessF v hv := by
    obtain ⟨x, rfl⟩ := hv
    refine ⟨?_, rfl⟩
    change conjDf D (opF D (fwd a x)) ∈ _
    rw [opF_fwd, conjDf_fwd]
    exact ⟨_, rfl⟩
  obfnF v hv := by
    obtain ⟨x, rfl⟩ := hv
    change 1 / 2 * ‖fwd a (mulW (fun _ _ _ => 1) (bwd a (evalRf D S (fwd a x))))‖ ^ 2 = 1 / 2 * ‖evalRf D S (fwd a x)‖ ^ 2
    rw [mulW_one, evalRf_fwd, bwd_fwd]
  evalObj y v hv := by
    obtain ⟨x, rfl⟩ := hv
    change (‖mulW (fun _ _ _ => 1) (bwd a (evalRf D S (fwd a x)))‖ ^ 2 / 2 + lmbda * rl1 w y,
      ‖mulW (fun _ _ _ => 1) (bwd a (evalRf D S (fwd a x)))‖ ^ 2 / 2, rl1 w y) =
      (hnorm2 (evalRf D S (fwd a x)) / 2 + lmbda * rl1 w y, hnorm2 (evalRf D S (fwd a x)) / 2, rl1 w y)
    rw [mulW_one, evalRf_fwd, bwd_fwd, hnorm2_fwd]
  rsdl _ _ _ _ := rfl

theorem agree_modmask (Pcn : Coef A M N → Coef A M N) (Z : K → M → Grid N → ℝ) (S : A → K → Grid N → ℝ) :
    Pgm.AgreeOn (spectra a A M N) (clsMOD a Pcn Z S) (clsMODMask a Pcn Z S fun _ _ _ => 1) where
  rfftn x := ⟨⟨x, rfl⟩, rfl⟩
  irfftn _ _ := rfl
  gradF v hv := by
    obtain ⟨x, rfl⟩ := hv
    change conjZf Z (evalRfD Z S (fwd a x)) ∈ _ ∧
      conjZf Z (fwd a (mulW (fun _ _ _ => 1 ^ 2) (bwd a (evalRfD Z S (fwd a x))))) = conjZf Z (evalRfD Z S (fwd a x))
    simp only [one_pow, evalRfD_fwd, bwd_fwd, mulW_one, conjZf_fwd, and_true]
    exact ⟨_, rfl⟩
  proxG _ _ := rfl
  hessF v hv := by
    obtain ⟨x, rfl⟩ := hv
    refine ⟨?_, rfl⟩
    change conjZf Z (opZ Z (fwd a x)) ∈ _
    rw [opZ_fwd, conjZf_fwd]
    exact ⟨_, rfl⟩
  obfnF v hv := by
    obtain ⟨x, rfl⟩ := hv
    change 1 / 2 * ‖fwd a (mulW (fun _ _ _ => 1) (bwd a (evalRfD Z S (fwd a x))))‖ ^ 2 = 1 / 2 * ‖evalRfD Z S (fwd a x)‖ ^ 2
    rw [mulW_one, evalRfD_fwd, bwd_fwd]
  evalObj y v hv := by
    obtain ⟨x, rfl⟩ := hv
    change (‖mulW (fun _ _ _ => 1) (bwd a (evalRfD Z S (fwd a x)))‖ ^ 2 / 2, ‖Pcn y - y‖, (0 : ℝ)) =
      (hnorm2 (evalRfD Z S (fwd a x)) / 2, ‖Pcn y - y‖, 0)
    rw [mulW_one, evalRfD_fwd, bwd_fwd, hnorm2_fwd]
  rsdl _ _ _ _ := rfl

/-- **C90 for `pgm.cbpdn.ConvBPDNMask`.** With a mask of ones it is `ConvBPDN`, although it transforms the residual back
and forth: for all options, from states that agree (as after construction, see the example below), `solve()` leads to
states that agree, with the same coefficients, iteration count, step size parameter and statistics, and so again for later
calls. -/
theorem C90_pgm_convbpdnmask (q : COpts) (D : Dict c M Nd) (S : Signal c K N) (lmbda : ℝ) (w : K × M × Grid N → ℝ)
    (o : Pgm.Opts) (s s' : Pgm.St (Pgm.VarsF (Coef K M N) (HS K M N a))) (hs : s.v.In (Set.range (fwd a)))
    (h : Pgm.CorrF id id s s') :
    let r := Pgm.solve (Pgm.DFT.ops (clsBPDN a q D S lmbda w) o) o none s
    let r' := Pgm.solve (Pgm.DFT.ops (clsBPDNMask a q D S lmbda w fun _ _ _ => 1) o) o none s'
    r'.v.X = r.v.X ∧ r'.k = r.k ∧ r'.v.L = r.v.L ∧ r'.itstat = r.itstat ∧ Pgm.CorrF id id r r' ∧
      r.v.In (Set.range (fwd a)) := by
  obtain ⟨h1, h2⟩ := Pgm.agreeOn_solve (agree_mask (a := a) q D S lmbda w) o s s' hs h
  intro r r'
  obtain ⟨f, e⟩ := h1
  change r' = _ at e
  exact ⟨by rw [e]; rfl, by rw [e]; rfl, by rw [e]; rfl, by rw [e]; rfl, ⟨f, e⟩, h2⟩

/-- **C90 for `pgm.ccmod.ConvCnstrMODMask`.** With a mask of ones it is `ConvCnstrMOD`. -/
theorem C90_pgm_convcnstrmodmask (Pcn : Coef A M N → Coef A M N) (Z : K → M → Grid N → ℝ) (S : A → K → Grid N → ℝ)
    (o : Pgm.Opts) (s s' : Pgm.St (Pgm.VarsF (Coef A M N) (HS A M N a))) (hs : s.v.In (Set.range (fwd a)))
    (h : Pgm.CorrF id id s s') :
    let r := Pgm.solve (Pgm.DFT.ops (clsMOD a Pcn Z S) o) o none s
    let r' := Pgm.solve (Pgm.DFT.ops (clsMODMask a Pcn Z S fun _ _ _ => 1) o) o none s'
    r'.v.X = r.v.X ∧ r'.k = r.k ∧ r'.v.L = r.v.L ∧ r'.itstat = r.itstat ∧ Pgm.CorrF id id r r' ∧
      r.v.In (Set.range (fwd a)) := by
  obtain ⟨h1, h2⟩ := Pgm.agreeOn_solve (agree_modmask (a := a) Pcn Z S) o s s' hs h
  intro r r'
  obtain ⟨f, e⟩ := h1
  change r' = _ at e
  exact ⟨by rw [e]; rfl, by rw [e]; rfl, by rw [e]; rfl, by rw [e]; rfl, ⟨f, e⟩, h2⟩

/-- The states after the constructors meet the hypotheses. -/
example (X0 : Coef K M N) (L : ℝ) :
    (init a X0 L 0).v.In (Set.range (fwd a)) ∧ Pgm.CorrF id id (init a X0 L 0) (init a X0 L 0) := by
  have h0 : (0 : HS K M N a) ∈ Set.range (fwd a) := (spectra a K M N).zero_mem
  exact ⟨⟨⟨X0, rfl⟩, ⟨X0, rfl⟩, h0, h0, h0, h0, fun z hz => absurd hz (by simp [init])⟩, id, rfl⟩

end Sporco.PgmConv
