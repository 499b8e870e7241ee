import Verif.Conv.Cbpdn
import Verif.Admm.Sim

/-!
# `HighMemSolve` and `NoBndryCross` (C40 along runs, C43, C44)
-/

set_option autoImplicit false
set_option linter.unusedSectionVars false

namespace Sporco.Conv

open Finset ComplexConjugate Sporco.Linalg Sporco.Prox Sporco.Admm
open scoped RealInnerProductSpace

variable {d c : ℕ} {N Nd : Fin d → ℕ} [∀ k, NeZero (N k)] {a : Fin d} {K M L : Type*} [Fintype K]
  [Fintype M] [Fintype L]

/-! ## Every iteration -/

theorem history_conv (hN : ∀ k, Nd k ≤ N k) {q : COpts}
    {C : Cls (Coef K M N) (Coef K M N) (Coef K M N) (Attr c K M Nd N a)}
    {D : Dict c M Nd} {S : Signal c K N} (hk : Keeps C (Coh q D S)) (hx : C.xstep = xstep) (o : Opts)
    (ho : o.autoRho = true → o.RhoOk) (cb) (hcb : Bpdn.CallbackReads cb)
    (s : St (Coef K M N) (Coef K M N) (Coef K M N) (Attr c K M Nd N a)) (hp : 0 < s.rho)
    (Xf : Spec K M N a) (hs : s.extra = setdict q S s.rho D Xf) (n : ℕ) :
    IsUniqueMin (augConv D S (traj C o cb s n).rho (part (traj C o cb s n).Y)
      (part (traj C o cb s n).U)) Set.univ (part (traj C o cb s (n + 1)).X) := by
  obtain ⟨h1, Xf', h2⟩ := traj_keeps hk o ho cb (hcb.keeps _) s hp ⟨Xf, hs⟩ n
  rw [traj_succ, oneIter_X, hx, h2]
  exact C40_convbpdn_xstep hN q D S _ h1 _ _ _ _

/-- **C40.** At every iteration of every `ConvBPDN` run whose initial cache belongs to the initial
rho, including after automatic changes of rho, the new X is the unique minimiser of the augmented
Lagrangian for the current rho, Y and U. -/
theorem C40_convbpdn_history (hN : ∀ k, Nd k ≤ N k) (q : COpts) (D : Dict c M Nd) (S : Signal c K N)
    (lmbda : ℝ) (w : K × M × Grid N → ℝ) (fe ge : Bool) (o : Opts) (ho : o.autoRho = true → o.RhoOk)
    (cb) (hcb : Bpdn.CallbackReads cb)
    (s : St (Coef K M N) (Coef K M N) (Coef K M N) (Attr c K M Nd N a)) (hp : 0 < s.rho)
    (Xf : Spec K M N a) (hs : s.extra = setdict q S s.rho D Xf) (n : ℕ) :
    let T := traj (clsConvBPDN q S lmbda w fe ge) o cb s
    IsUniqueMin (augConv D S (T n).rho (part (T n).Y) (part (T n).U)) Set.univ
      (part (T (n + 1)).X) :=
  history_conv hN (C := clsConvBPDN q S lmbda w fe ge)
    (keeps_conv q D S _ (fun _ _ _ _ _ _ => rfl) _) rfl o ho cb hcb s hp Xf hs n

/-- **C40.** The same for `ConvBPDNJoint`. -/
theorem C40_convjoint_history (hN : ∀ k, Nd k ≤ N k) (q : COpts) (D : Dict c M Nd)
    (S : Signal c (L × K) N) (lmbda mu : ℝ) (w : (L × K) × M × Grid N → ℝ) (wl21 : ℝ) (fe ge : Bool)
    (o : Opts) (ho : o.autoRho = true → o.RhoOk) (cb) (hcb : Bpdn.CallbackReads cb)
    (s : St (Coef (L × K) M N) (Coef (L × K) M N) (Coef (L × K) M N) (Attr c (L × K) M Nd N a))
    (hp : 0 < s.rho) (Xf : Spec (L × K) M N a) (hs : s.extra = setdict q S s.rho D Xf) (n : ℕ) :
    let T := traj (clsConvJnt q S lmbda mu w wl21 fe ge) o cb s
    IsUniqueMin (augConv D S (T n).rho (part (T n).Y) (part (T n).U)) Set.univ
      (part (T (n + 1)).X) :=
  history_conv hN (C := clsConvJnt q S lmbda mu w wl21 fe ge)
    (keeps_conv q D S _ (fun _ _ _ _ _ _ => rfl) _) rfl o ho cb hcb s hp Xf hs n

/-! ## `HighMemSolve` changes nothing -/

/-- The object without its cached component. -/
def dropCache (h : Attr c K M Nd N a) : Attr c K M Nd N a := { h with cc := none }

/-- The coefficient, auxiliary and dual arrays, the penalty parameter, the iteration counter and
the statistics of a solver object, and its dictionary: all but the cache. -/
def visible (s : St (Coef K M N) (Coef K M N) (Coef K M N) (Attr c K M Nd N a)) :
    St (Coef K M N) (Coef K M N) (Coef K M N) (Attr c K M Nd N a) := s.mapExtra dropCache

/-- What a user does with a solver object: run `solve` (with any options and a callback that looks
at everything but the cache), or replace the dictionary. -/
inductive Cmd (c : ℕ) (K M : Type*) {d : ℕ} (Nd N : Fin d → ℕ) [∀ k, NeZero (N k)] (a : Fin d)
    [Fintype K] [Fintype M]
  | solve (o : Opts)
      (cb : Option (St (Coef K M N) (Coef K M N) (Coef K M N) (Attr c K M Nd N a) → Bool))
  | setdict (D : Dict c M Nd)

/-- The callback as the solver loop sees it. -/
def liftCb (cb : Option (St (Coef K M N) (Coef K M N) (Coef K M N) (Attr c K M Nd N a) → Bool)) :
    Option (St (Coef K M N) (Coef K M N) (Coef K M N) (Attr c K M Nd N a) → Bool × Attr c K M Nd N a) :=
  cb.map fun f t => (f (visible t), t.extra)

/-- The effect of one command on an object of class `C` with options `q` and signal `S`. -/
noncomputable def Cmd.run (q : COpts) (S : Signal c K N)
    (C : Cls (Coef K M N) (Coef K M N) (Coef K M N) (Attr c K M Nd N a))
    (s : St (Coef K M N) (Coef K M N) (Coef K M N) (Attr c K M Nd N a)) :
    Cmd c K M Nd N a → St (Coef K M N) (Coef K M N) (Coef K M N) (Attr c K M Nd N a)
  | .solve o cb => Admm.solve C o (liftCb cb) s
  | .setdict D => { s with extra := Conv.setdict q S s.rho D s.extra.Xf }

/-- A history of commands. -/
noncomputable def runAll (q : COpts) (S : Signal c K N)
    (C : Cls (Coef K M N) (Coef K M N) (Coef K M N) (Attr c K M Nd N a))
    (l : List (Cmd c K M Nd N a)) (s : St (Coef K M N) (Coef K M N) (Coef K M N) (Attr c K M Nd N a)) :
    St (Coef K M N) (Coef K M N) (Coef K M N) (Attr c K M Nd N a) :=
  l.foldl (Cmd.run q S C) s

/-- The rho update of the options has a positive threshold and multiplier above one. -/
def Cmd.Ok : Cmd c K M Nd N a → Prop
  | .solve o _ => o.autoRho = true → o.RhoOk
  | .setdict _ => True

/-- The options with `HighMemSolve` set to `b`. -/
def COpts.mem (q : COpts) (b : Bool) : COpts := { q with highMem := b }

theorem coh_drop {q : COpts} {D : Dict c M Nd} {S : Signal c K N} {dg dg' : ℝ}
    {h : Attr c K M Nd N a} (hc : Coh q D S dg h) : Coh (q.mem false) D S dg' (dropCache h) := by
  obtain ⟨Xf, rfl⟩ := hc
  exact ⟨Xf, by simp [dropCache, setdict, COpts.mem, COpts.caches]⟩

theorem rhochange_mem (q : COpts) (rho : ℝ) (h : Attr c K M Nd N a) :
    rhochange (q.mem false) rho h = h := by
  simp [rhochange, COpts.mem, COpts.caches]

/-- Attributes coherent with some dictionary. -/
def CohAny (q : COpts) (S : Signal c K N) (rho : ℝ) (h : Attr c K M Nd N a) : Prop :=
  ∃ D, Coh q D S rho h

theorem keeps_any (q : COpts) (S : Signal c K N)
    (ys : ℝ → Coef K M N → Coef K M N → Coef K M N → Coef K M N → Attr c K M Nd N a →
      Coef K M N × Attr c K M Nd N a)
    (hys : ∀ rho AX X Y U h, (ys rho AX X Y U h).2 = h) (ob) :
    Keeps (Cls.equal xstep ys (rhochange q) ob) (CohAny q S) := by
  refine ⟨equal_sane _ _ _ _, ?_, ?_, ?_⟩
  · rintro rho X Y U h hp ⟨D, hD⟩; exact ⟨D, coh_xstep hD X Y U⟩
  · rintro rho AX X Y U h hp ⟨D, hD⟩
    exact ⟨D, by change Coh q D S rho (ys rho AX X Y U h).2; rw [hys]; exact hD⟩
  · rintro rho rho' h hp hp' ⟨D, hD⟩; exact ⟨D, coh_rhochange hD⟩

theorem sim_conv (q : COpts) (S : Signal c K N)
    (ys ys' : ℝ → Coef K M N → Coef K M N → Coef K M N → Coef K M N → Attr c K M Nd N a →
      Coef K M N × Attr c K M Nd N a)
    (hys : ∀ rho AX X Y U h, ys' rho AX X Y U (dropCache h) =
      ((ys rho AX X Y U h).1, dropCache (ys rho AX X Y U h).2)) (ob)
    (hob : ∀ X Y h, ob X Y (dropCache h) = ob X Y h) :
    ClsSim dropCache (Cls.equal xstep ys (rhochange q) ob)
      (Cls.equal xstep ys' (rhochange (q.mem false)) ob) (CohAny q S) := by
  refine ⟨?_, ?_, ?_, ?_, rfl, rfl, rfl, rfl, rfl, rfl⟩
  · rintro rho X Y U h hp ⟨D, hD⟩
    have h1 : solveF rho rho Y U (dropCache h) = solveF rho rho Y U h := by
      funext k m
      rw [solveF_coh hD, solveF_coh (coh_drop hD)]
    change xstep rho X Y U (dropCache h) = ((xstep rho X Y U h).1, dropCache (xstep rho X Y U h).2)
    unfold xstep
    simp only [h1]
    rfl
  · rintro rho AX X Y U h hp -
    exact hys rho AX X Y U h
  · rintro rho rho' h -
    change rhochange (q.mem false) rho' (dropCache h) = dropCache (rhochange q rho' h)
    rw [rhochange_mem]
    unfold rhochange dropCache
    split_ifs <;> rfl
  · rintro rho X Y h -
    exact hob X Y h

theorem cbSim_lift (cb : Option (St (Coef K M N) (Coef K M N) (Coef K M N) (Attr c K M Nd N a) → Bool)) :
    CbSim dropCache (liftCb cb) (liftCb cb) := by
  cases cb with
  | none => exact Or.inl ⟨rfl, rfl⟩
  | some f => exact Or.inr ⟨_, _, rfl, rfl, fun _ => rfl⟩

theorem liftCb_reads (cb : Option (St (Coef K M N) (Coef K M N) (Coef K M N) (Attr c K M Nd N a) → Bool)) :
    Bpdn.CallbackReads (liftCb cb) := by
  intro f t hf
  cases cb with
  | none => simp [liftCb] at hf
  | some g =>
    simp only [liftCb, Option.map_some, Option.some.injEq] at hf
    rw [← hf]

theorem loop_keeps {E F G H : Type*} [NormedAddCommGroup E] [InnerProductSpace ℝ E]
    [NormedAddCommGroup F] [InnerProductSpace ℝ F] [NormedAddCommGroup G] [InnerProductSpace ℝ G]
    {C : Cls E F G H} {Inv : ℝ → H → Prop} (hk : Keeps C Inv) (o : Opts)
    (ho : o.autoRho = true → o.RhoOk) (cb) (hcb : CallbackKeeps Inv cb) (ks : List ℕ) :
    ∀ s : St E F G H, 0 < s.rho → Inv s.rho s.extra →
      0 < (loop C o cb ks s).rho ∧ Inv (loop C o cb ks s).rho (loop C o cb ks s).extra := by
  induction ks with
  | nil => intro s hp hI; exact ⟨hp, hI⟩
  | cons k ks ih =>
    intro s hp hI
    obtain ⟨h1, h2⟩ := body_keeps hk o ho cb hcb k s hp hI
    unfold loop
    simp only
    split_ifs
    · exact ⟨h1, h2⟩
    · exact ih _ h1 h2

theorem runAll_sim (q : COpts) (S : Signal c K N)
    (C C' : Cls (Coef K M N) (Coef K M N) (Coef K M N) (Attr c K M Nd N a))
    (hk : Keeps C (CohAny q S)) (hs : ClsSim dropCache C C' (CohAny q S))
    (l : List (Cmd c K M Nd N a)) : (∀ x ∈ l, x.Ok) →
    ∀ s, 0 < s.rho → CohAny q S s.rho s.extra →
      runAll (q.mem false) S C' l (visible s) = visible (runAll q S C l s) := by
  induction l with
  | nil => intro _ s _ _; rfl
  | cons x l ih =>
    intro hok s hp hI
    have hx := hok x (List.mem_cons_self ..)
    have hl : ∀ y ∈ l, y.Ok := fun y hy => hok y (List.mem_cons_of_mem _ hy)
    unfold runAll
    rw [List.foldl_cons, List.foldl_cons]
    cases x with
    | solve o cb =>
      have hcb := (liftCb_reads cb).keeps (CohAny q S)
      have h1 := solve_sim hs hk o hx (liftCb cb) (liftCb cb) hcb (cbSim_lift cb) s hp hI
      have h2 := loop_keeps hk o hx (liftCb cb) hcb (List.range' s.k o.maxMainIter) s hp hI
      have e1 : Cmd.run (q.mem false) S C' (visible s) (.solve o cb) =
        visible (Cmd.run q S C s (.solve o cb)) := h1
      rw [e1]
      exact ih hl (Cmd.run q S C s (.solve o cb)) h2.1 h2.2
    | setdict D =>
      have e1 : Cmd.run (q.mem false) S C' (visible s) (.setdict D) =
          visible (Cmd.run q S C s (.setdict D)) := by
        unfold Cmd.run visible St.mapExtra dropCache setdict COpts.mem COpts.caches
        simp
      rw [e1]
      exact ih hl (Cmd.run q S C s (.setdict D)) hp ⟨D, _, rfl⟩

/-- The object after construction, with start arrays `Y`, `U`. -/
noncomputable def startConv (q : COpts) (S : Signal c K N) (lmbda : ℝ) (optRho : Option ℝ)
    (D : Dict c M Nd) (Xf : Spec K M N a) (Y U : Coef K M N) :
    St (Coef K M N) (Coef K M N) (Coef K M N) (Attr c K M Nd N a) :=
  let i := initConvBPDN q S lmbda optRho D Xf
  { X := 0, Y := Y, Yprev := Y, U := U, AX := 0, AXnr := 0, rho := i.1, k := 0, itstat := [], extra := i.2 }

/-- **C43 (part).** `ConvBPDN` constructed with the option `rho` given: after every history of
`solve` calls (with automatic rho changes, relaxation, callbacks) and dictionary replacements, the
object with `HighMemSolve` and the one without hold the same arrays, penalty parameter, counter and
statistics.  Missing: the default `rho` (`C43_default_refuted`) and `ConvElasticNet`
(`C43_elasticnet_refuted`). -/
theorem C43_convbpdn_partial (q : COpts) (S : Signal c K N) (lmbda : ℝ) (w : K × M × Grid N → ℝ)
    (fe ge : Bool) (rho : ℝ) (hr : 0 < rho) (D : Dict c M Nd) (Xf : Spec K M N a) (Y U : Coef K M N)
    (l : List (Cmd c K M Nd N a)) (hl : ∀ x ∈ l, x.Ok) :
    visible (runAll (q.mem true) S (clsConvBPDN (q.mem true) S lmbda w fe ge) l
        (startConv (q.mem true) S lmbda (some rho) D Xf Y U)) =
      visible (runAll (q.mem false) S (clsConvBPDN (q.mem false) S lmbda w fe ge) l
        (startConv (q.mem false) S lmbda (some rho) D Xf Y U)) := by
  have hk : Keeps (clsConvBPDN (q.mem true) S lmbda w fe ge) (CohAny (Nd := Nd) (a := a) (q.mem true) S) :=
    keeps_any _ S _ (fun _ _ _ _ _ _ => rfl) _
  have hs : ClsSim dropCache (clsConvBPDN (q.mem true) S lmbda w fe ge)
      (clsConvBPDN (Nd := Nd) (a := a) (q.mem false) S lmbda w fe ge) (CohAny (q.mem true) S) :=
    sim_conv (q.mem true) S _ _ (fun _ _ _ _ _ _ => rfl) _ (fun _ _ _ => rfl)
  have hk' : Keeps (clsConvBPDN (q.mem false) S lmbda w fe ge) (CohAny (Nd := Nd) (a := a) (q.mem false) S) :=
    keeps_any _ S _ (fun _ _ _ _ _ _ => rfl) _
  have hs' : ClsSim dropCache (clsConvBPDN (q.mem false) S lmbda w fe ge)
      (clsConvBPDN (Nd := Nd) (a := a) (q.mem false) S lmbda w fe ge) (CohAny (q.mem false) S) :=
    sim_conv (q.mem false) S _ _ (fun _ _ _ _ _ _ => rfl) _ (fun _ _ _ => rfl)
  have h1 := runAll_sim _ S _ _ hk hs l hl (startConv (q.mem true) S lmbda (some rho) D Xf Y U) hr
    ⟨D, Xf, rfl⟩
  have h2 := runAll_sim _ S _ _ hk' hs' l hl (startConv (q.mem false) S lmbda (some rho) D Xf Y U) hr
    ⟨D, Xf, rfl⟩
  have h3 : visible (startConv (q.mem true) S lmbda (some rho) D Xf Y U) =
      visible (startConv (q.mem false) S lmbda (some rho) D Xf Y U) := by
    unfold visible startConv initConvBPDN dropCache setdict COpts.mem COpts.caches St.mapExtra
    simp
  have e : (q.mem true).mem false = (q.mem false).mem false := rfl
  rw [e, h3] at h1
  exact h1.symm.trans h2

/-! ## Where it does change something -/

/-- One-sample arrays. -/
abbrev N1 : Fin 1 → ℕ := fun _ => 1

instance : ∀ k, NeZero (N1 k) := fun _ => ⟨one_ne_zero⟩

instance : Unique (Grid N1) := Unique.mk' _

theorem rf_one (x : Grid N1 → ℝ) (ξ : Grid N1) : rf x ξ = x 0 := by
  unfold rf fft
  rw [Fintype.sum_unique, Subsingleton.elim (default : Grid N1) 0, chi_zero]
  simp

theorem irfft_one (F : Half N1 0 → ℂ) (x : Grid N1) : irfft N1 0 F x = (F ⟨0, by simp⟩).re := by
  unfold irfft ifft hext
  rw [Fintype.sum_unique, Fintype.card_unique, Subsingleton.elim x 0, chi_zero,
    Subsingleton.elim (default : Grid N1) 0]
  simp

/-- One filter with one sample of value 1. -/
def exD : Dict 0 Unit N1 := fun _ _ _ => 1

/-- One signal with one sample of value 1. -/
def exS : Signal 0 Unit N1 := fun _ _ _ => 1

theorem dictF_one (i : Fin (0 + 1)) (n : Unit) (ξ : Half N1 0) : dictF 0 exD i n ξ = 1 := by
  have := rf_one (pad N1 (exD i n)) ξ.1
  change rf (pad N1 (exD i n)) ξ.1 = 1
  rw [this]
  simp [pad, exD]

theorem dsF_one (k m : Unit) (ξ : Half N1 0) : dsF (dictF 0 exD) exS k m ξ = 1 := by
  have : ∀ i k, sigF (c := 0) (K := Unit) (N := N1) 0 exS i k ξ = 1 := by
    intro i k
    have := rf_one (exS i k) ξ.1
    change rf (exS i k) ξ.1 = 1
    rw [this]
    simp [exS]
  unfold dsF
  simp [this, dictF_one]

/-- The X update on one sample with a component cached for the diagonal term `r`. -/
theorem solve_one (dg rho r : ℝ) (h : Attr 0 Unit Unit N1 N1 0) (h1 : h.Df = dictF 0 exD)
    (h2 : h.DSf = dsF (dictF 0 exD) exS) (h3 : h.cc = some (cacheOf (dictF 0 exD) r)) :
    irfft N1 0 (solveF dg rho 0 0 h () ()) 0 = (1 - 1 / (1 + r)) / dg := by
  rw [irfft_one]
  have h0 : ∀ n, rfft N1 0 (part (0 - 0 : Coef Unit Unit N1) () n) ⟨0, by simp⟩ = 0 := by
    intro n
    have := rf_one (part (0 - 0 : Coef Unit Unit N1) () n) 0
    change rf (part (0 - 0 : Coef Unit Unit N1) () n) 0 = 0
    rw [this]
    simp [part]
  have : solveF dg rho 0 0 h () () ⟨0, by simp⟩ = (((1 - 1 / (1 + r)) / dg : ℝ) : ℂ) := by
    unfold solveF freqSolve solvedbiSm
    simp only [h1, h2, h3, h0, dsF_one, dictF_one, Option.map_some, Option.getD_some, if_pos, cacheOf,
      solvedbiSmC, Linalg.inner]
    simp
  rw [this, Complex.ofReal_re]

/-- The X update on one sample without cache. -/
theorem solve_one_none (dg rho : ℝ) (h : Attr 0 Unit Unit N1 N1 0) (h1 : h.Df = dictF 0 exD)
    (h2 : h.DSf = dsF (dictF 0 exD) exS) (h3 : h.cc = none) :
    irfft N1 0 (solveF dg rho 0 0 h () ()) 0 = (1 - 1 / (1 + dg)) / dg := by
  have := solve_one dg rho dg { h with cc := some (cacheOf (dictF 0 exD) dg) } h1 h2 rfl
  rw [← this]
  congr 1
  unfold solveF
  simp only [h3, h1, h2]
  rfl

/-- **C43 refuted for the default penalty parameter.** `ConvBPDN` with `rho` not given, one filter
and one signal of one sample of value 1 and `lmbda = 1`: the first X is 1/102 with `HighMemSolve`
and 1/52 without, because the component cached by the base class constructor belongs to rho = 1
while the X update uses rho = 51. -/
theorem C43_default_refuted :
    (∀ b, (initConvBPDN (a := 0) ⟨b, false, false⟩ exS 1 none exD (fun _ _ _ => 0)).1 = 51) ∧
    part (xstep 51 0 0 0 (initConvBPDN (a := 0) ⟨true, false, false⟩ exS 1 none exD (fun _ _ _ => 0)).2).1
      () () 0 = 1 / 102 ∧
    part (xstep 51 0 0 0 (initConvBPDN (a := 0) ⟨false, false, false⟩ exS 1 none exD (fun _ _ _ => 0)).2).1
      () () 0 = 1 / 52 := by
  refine ⟨fun b => ?_, ?_, ?_⟩
  · simp only [initConvBPDN, Option.getD_none]; norm_num
  · refine (solve_one 51 51 1 _ rfl rfl rfl).trans ?_
    norm_num
  · refine (solve_one_none 51 51 _ rfl rfl rfl).trans ?_
    norm_num

/-- **C43 refuted for `ConvElasticNet`.** With `mu = 1` and rho changed from 1 to 2, the next X is
2/9 with `HighMemSolve` and 1/4 without: the inherited `rhochange` caches the component for `rho`,
the X update uses `mu + rho`. -/
theorem C43_elasticnet_refuted :
    part (xstepEN 1 2 0 0 0 (rhochange ⟨true, false, false⟩ 2
      (setdictEN (a := 0) ⟨true, false, false⟩ exS 1 1 exD (fun _ _ _ => 0)))).1 () () 0 = 2 / 9 ∧
    part (xstepEN 1 2 0 0 0 (rhochange ⟨false, false, false⟩ 2
      (setdictEN (a := 0) ⟨false, false, false⟩ exS 1 1 exD (fun _ _ _ => 0)))).1 () () 0 = 1 / 4 := by
  refine ⟨?_, ?_⟩
  · refine (solve_one (1 + 2) 2 2 _ rfl rfl rfl).trans ?_
    norm_num
  · refine (solve_one_none (1 + 2) 2 _ rfl rfl rfl).trans ?_
    norm_num

/-! ## `NoBndryCross` -/

/-- The support of a filter of shape `Nd` placed at `p` reaches past the end of an axis. -/
def crosses (Nd : Fin d → ℕ) (p : Grid N) : Prop := ∃ n, ∃ j < Nd n, N n ≤ (p n).val + j

theorem zeroTail_apply (Nd : Fin d → ℕ) (y : K × M × Grid N → ℝ) (i : K × M × Grid N) :
    zeroTail Nd y i = if ∃ n, sliceStart (1 - (Nd n : ℤ)) (N n) ≤ (i.2.2 n).val then 0 else y i := by
  have h : ∀ (l : List (Fin d)) (y : K × M × Grid N → ℝ),
      l.foldl (fun y n p => if sliceStart (1 - (Nd n : ℤ)) (N n) ≤ (p.2.2 n).val then 0 else y p) y i =
        if ∃ n ∈ l, sliceStart (1 - (Nd n : ℤ)) (N n) ≤ (i.2.2 n).val then 0 else y i := by
    intro l
    induction l with
    | nil => intro y; simp
    | cons n l ih =>
      intro y
      rw [List.foldl_cons, ih]
      simp only [List.mem_cons, exists_eq_or_imp]
      by_cases h1 : ∃ n ∈ l, sliceStart (1 - (Nd n : ℤ)) (N n) ≤ (i.2.2 n).val
      · rw [if_pos h1, if_pos (Or.inr h1)]
      · rw [if_neg h1]
        by_cases h2 : sliceStart (1 - (Nd n : ℤ)) (N n) ≤ (i.2.2 n).val
        · rw [if_pos h2, if_pos (Or.inl h2)]
        · rw [if_neg h2, if_neg (not_or.2 ⟨h2, h1⟩)]
  unfold zeroTail
  rw [h]
  simp

theorem sliceStart_iff (s n : ℕ) (hs : 2 ≤ s) (hn : s ≤ n) (v : ℕ) :
    sliceStart (1 - (s : ℤ)) n ≤ v ↔ ∃ j < s, n ≤ v + j := by
  unfold sliceStart
  rw [if_pos (by omega)]
  constructor
  · intro h; exact ⟨s - 1, by omega, by omega⟩
  · rintro ⟨j, h1, h2⟩; omega

open Classical in
theorem zeroTail_crosses (Nd : Fin d → ℕ) (h2 : ∀ n, 2 ≤ Nd n) (hN : ∀ n, Nd n ≤ N n)
    (y : K × M × Grid N → ℝ) (i : K × M × Grid N) :
    zeroTail Nd y i = if crosses Nd i.2.2 then 0 else y i := by
  rw [zeroTail_apply]
  have : (∃ n, sliceStart (1 - (Nd n : ℤ)) (N n) ≤ (i.2.2 n).val) ↔ crosses Nd i.2.2 := by
    unfold crosses
    simp only [sliceStart_iff _ _ (h2 _) (hN _)]
  by_cases h : crosses Nd i.2.2
  · rw [if_pos h, if_pos (this.2 h)]
  · rw [if_neg h, if_neg fun h' => h (this.1 h')]

/-- **C44 (part).** For filters with at least two samples along every axis, the Y update of
`ConvBPDN` with `NoBndryCross` sets to zero exactly the coefficients at positions where the filter
would reach past the end of an axis, and leaves the others as they are without the option.
Missing: filters with one sample along some axis (`C44_refuted`). -/
theorem C44_ystep_partial (h2 : ∀ n, 2 ≤ Nd n) (hN : ∀ n, Nd n ≤ N n) (q : COpts) (lmbda : ℝ)
    (w : K × M × Grid N → ℝ) (rho : ℝ) (AX X Y U : Coef K M N) (h : Attr c K M Nd N a)
    (k : K) (m : M) (p : Grid N) :
    (crosses Nd p →
      part (ystep { q with noBndry := true } lmbda w rho AX X Y U h).1 k m p = 0) ∧
    (¬ crosses Nd p →
      part (ystep { q with noBndry := true } lmbda w rho AX X Y U h).1 k m p =
        part (ystep { q with noBndry := false } lmbda w rho AX X Y U h).1 k m p) := by
  have e : ∀ y, gystep (K := K) (M := M) (N := N) { q with noBndry := true } Nd y (k, m, p) =
      zeroTail Nd (gystep { q with noBndry := false } Nd y) (k, m, p) := fun _ => rfl
  constructor
  · intro hc
    change gystep { q with noBndry := true } Nd _ (k, m, p) = 0
    rw [e, zeroTail_crosses Nd h2 hN, if_pos hc]
  · intro hc
    change gystep { q with noBndry := true } Nd _ (k, m, p) = _
    rw [e, zeroTail_crosses Nd h2 hN, if_neg hc]
    rfl

/-- **C44 refuted for one-sample filters.** If some axis of the filters has one sample, all
coefficients are set to zero: `slice(1 - 1, None)` is the whole axis. -/
theorem C44_refuted (n : Fin d) (h1 : Nd n = 1) (q : COpts) (lmbda : ℝ)
    (w : K × M × Grid N → ℝ) (rho : ℝ) (AX X Y U : Coef K M N) (h : Attr c K M Nd N a)
    (k : K) (m : M) (p : Grid N) :
    part (ystep { q with noBndry := true } lmbda w rho AX X Y U h).1 k m p = 0 := by
  change zeroTail Nd _ (k, m, p) = 0
  rw [zeroTail_apply, if_pos]
  exact ⟨n, by rw [h1]; simp [sliceStart]⟩

/-- No coefficient of a filter with one sample crosses the boundary. -/
theorem C44_refuted_none (p : Grid N) : ¬ crosses (fun _ : Fin d => 1) p := by
  rintro ⟨n, j, hj, h⟩
  have := ZMod.val_lt (p n)
  simp only at hj
  omega

/-- Filters with 2 samples on an axis with 3: only the last position crosses. -/
example : crosses (N := fun _ : Fin 1 => 3) (fun _ => 2) (fun _ => 2) ∧
    ¬ crosses (N := fun _ : Fin 1 => 3) (fun _ => 2) (fun _ => 1) := by
  constructor
  · exact ⟨0, 1, by norm_num, by decide⟩
  · rintro ⟨n, j, hj, h⟩
    have : ((1 : ZMod 3)).val = 1 := by decide
    simp only [this] at h hj
    omega

/-- The hypotheses of `C43_convbpdn_partial` are met. -/
example : (Cmd.solve ⟨false, 1000, 0, 1, true, 10, true, false, 2, 2, 10, 10, 1, 1.8⟩ none :
    Cmd 0 Unit Unit N1 N1 0).Ok := fun _ => ⟨by norm_num, by norm_num, by norm_num⟩

end Sporco.Conv
