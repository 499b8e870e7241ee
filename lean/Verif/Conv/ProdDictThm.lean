import Verif.Conv.ProdDict

/-!
# `ConvProdDictBPDN`: theorems (C39, C40, C43, C67)
-/

set_option autoImplicit false
set_option linter.unusedSectionVars false

namespace Sporco.Conv.PD

open Finset ComplexConjugate Sporco.Linalg Sporco.Prox Sporco.Admm Sporco.Conv Filter Topology

variable {d c : ℕ} {N Nd : Fin d → ℕ} [∀ k, NeZero (N k)] {a : Fin d} {K L M : Type*} [Fintype K]
  [Fintype L] [Fintype M] [DecidableEq L]

/-- The state of a solver object with arrays indexed as in `pdcsc.py`. -/
abbrev StP (c : ℕ) (K L M : Type*) {d : ℕ} (Nd N : Fin d → ℕ) [∀ k, NeZero (N k)] (a : Fin d) [Fintype K]
    [Fintype L] [Fintype M] : Type _ :=
  St (Coef K (L × M) N) (Coef K (L × M) N) (Coef K (L × M) N) (AttrP c K L M Nd N a)

/-! ## Updates -/

theorem xstep_unique (hN : ∀ k, Nd k ≤ N k) {eigh : Eigh L} (he : EighOk eigh) {q : COpts} {D : Dict 0 M Nd}
    {B : Matrix (Fin (c + 1)) L ℝ} {S : Signal c K N} {rho : ℝ} (hr : 0 < rho) {h : AttrP c K L M Nd N a}
    (hc : Coh eigh q D B S rho h) (X Y U : Coef K (L × M) N) :
    IsUniqueMin (augPD D B S rho (part Y) (part U)) Set.univ (part (xstep rho X Y U h).1) := by
  have h1 := C40_convbpdn_xstep hN (q.mem false) (prodDict B D) S rho hr X Y U h.Xf
  have h2 := xstep_sim he hr hc X Y U
  have h3 : toConv q S h = Conv.setdict (q.mem false) S rho (prodDict B D) h.Xf := by
    obtain ⟨Xf, rfl⟩ := hc
    exact setdict_mem q S 1 rho _ _
  rw [← h3, h2, aug_prod] at h1
  exact h1

/-- **C40.** The X update of `ConvProdDictBPDN` and `ConvProdDictBPDNJoint` on an object just constructed with
the option `rho`, or after `setdict` with a new D, or with a new D and a new B, gives the unique minimiser of
the augmented Lagrangian over all real arrays. -/
theorem C40_proddict_xstep (hN : ∀ k, Nd k ≤ N k) (eigh : Eigh L) (he : EighOk eigh) (q : COpts)
    (D D' : Dict 0 M Nd) (B B' : Matrix (Fin (c + 1)) L ℝ) (S : Signal c K N) (rho : ℝ) (hr : 0 < rho)
    (X Y U : Coef K (L × M) N) (Xf : Spec K (L × M) N a) :
    let h := setdict0 eigh q S rho D B Xf
    IsUniqueMin (augPD D B S rho (part Y) (part U)) Set.univ (part (xstep rho X Y U h).1) ∧
    IsUniqueMin (augPD D' B S rho (part Y) (part U)) Set.univ
      (part (xstep rho X Y U (setdict eigh q S rho (some D') none h)).1) ∧
    IsUniqueMin (augPD D' B' S rho (part Y) (part U)) Set.univ
      (part (xstep rho X Y U (setdict eigh q S rho (some D') (some B') h)).1) :=
  ⟨xstep_unique hN he hr ⟨Xf, rfl⟩ X Y U, xstep_unique hN he hr ⟨Xf, rfl⟩ X Y U,
    xstep_unique hN he hr ⟨Xf, rfl⟩ X Y U⟩

/-- **C40.** `reconstruct(X)` is `D X Bᵀ`. -/
theorem C40_proddict_reconstruct (hN : ∀ k, Nd k ≤ N k) (eigh : Eigh L) (q : COpts) (D : Dict 0 M Nd)
    (B : Matrix (Fin (c + 1)) L ℝ) (S : Signal c K N) (rho : ℝ) (Xf : Spec K (L × M) N a)
    (X : Coef K (L × M) N) :
    reconstruct (setdict0 eigh q S rho D B Xf) X = reconPD D B (part X) := by
  have h := C40_reconstruct hN q (prodDict B D) S rho Xf X
  rw [recon_prod] at h
  rw [← h]
  funext i k
  unfold reconstruct Conv.reconstruct
  congr 1
  funext ξ
  rw [Fintype.sum_prod_type]
  refine Finset.sum_congr rfl fun l _ => ?_
  rw [Finset.mul_sum]
  refine Finset.sum_congr rfl fun m _ => ?_
  change _ = dictF a (prodDict B D) i (l, m) ξ * _
  rw [dictF_prod, mul_assoc]
  rfl

/-! ## Convergence -/

theorem sim_clsPD {eigh : Eigh L} (he : EighOk eigh) (q : COpts) (D : Dict 0 M Nd) (B : Matrix (Fin (c + 1)) L ℝ)
    (S : Signal c K N) (lmbda : ℝ) (w : K × (L × M) × Grid N → ℝ) (fe ge : Bool) :
    ClsSim (toConv q S) (clsPD (Nd := Nd) (a := a) q S lmbda w fe ge)
      (clsConvBPDN (q.mem false) S lmbda w fe ge) (Coh eigh q D B S) :=
  sim_pd he q D B S (fun rho AX _ _ U =>
    WithLp.toLp 2 (gystep q Nd (proxL1Arr (AX + U).ofLp fun i => lmbda / rho * w i))) _ _ fun rho X Y h hc => by
      simp only [dfd_sim hc]

theorem keeps_clsPD (eigh : Eigh L) (q : COpts) (D : Dict 0 M Nd) (B : Matrix (Fin (c + 1)) L ℝ)
    (S : Signal c K N) (lmbda : ℝ) (w : K × (L × M) × Grid N → ℝ) (fe ge : Bool) :
    Keeps (clsPD (Nd := Nd) (a := a) q S lmbda w fe ge) (Coh eigh q D B S) :=
  keeps_pd eigh q D B S _ (fun _ _ _ _ _ _ => rfl) _

/-- The iterations of `ConvProdDictBPDN` are those of `ConvBPDN` with the multi-channel dictionary of all
products of a column of B with a filter: at every iteration, whatever the options, all arrays, the penalty
parameter and the recorded statistics agree. -/
theorem C40_proddict_run (eigh : Eigh L) (he : EighOk eigh) (q : COpts) (D : Dict 0 M Nd)
    (B : Matrix (Fin (c + 1)) L ℝ) (S : Signal c K N) (lmbda : ℝ) (w : K × (L × M) × Grid N → ℝ) (fe ge : Bool)
    (o : Opts) (ho : o.autoRho = true → o.RhoOk) (s : StP c K L M Nd N a) (hp : 0 < s.rho)
    (Xf : Spec K (L × M) N a) (hs : s.extra = setdict0 eigh q S s.rho D B Xf)
    (s' : St (Coef K (L × M) N) (Coef K (L × M) N) (Coef K (L × M) N) (Attr c K (L × M) Nd N a))
    (hs' : s' = { X := s.X, Y := s.Y, Yprev := s.Yprev, U := s.U, AX := s.AX, AXnr := s.AXnr, rho := s.rho,
                  k := s.k, itstat := s.itstat
                  extra := Conv.setdict { q with highMem := false } S s.rho (prodDict B D) Xf }) (n : ℕ) :
    let T := traj (clsPD q S lmbda w fe ge) o none s n
    let T' := traj (clsConvBPDN { q with highMem := false } S lmbda w fe ge) o none s' n
    T.X = T'.X ∧ T.Y = T'.Y ∧ T.U = T'.U ∧ T.rho = T'.rho ∧ T.k = T'.k ∧ T.itstat = T'.itstat := by
  have h := traj_sim (sim_clsPD he q D B S lmbda w fe ge) (keeps_clsPD eigh q D B S lmbda w fe ge) o ho s hp
    ⟨Xf, hs⟩ n
  have e : s' = s.mapExtra (toConv q S) := by
    rw [hs']
    unfold St.mapExtra
    rw [hs]
    rfl
  intro T T'
  have h' : T' = T.mapExtra (toConv q S) := by rw [← h, ← e]; rfl
  rw [h']
  exact ⟨rfl, rfl, rfl, rfl, rfl, rfl⟩

/-- **C39, C67 for `ConvProdDictBPDN`.** For every single channel convolutional dictionary D, every matrix B,
signal, positive `lmbda` and weights, with or without `NonNegCoef`, `NoBndryCross` and `HighMemSolve`, with fixed
rho and relaxation parameter in (0, 2), from any start: the functional of the documentation has a minimiser, and
its value at the array `solve()` would return tends to the minimum. -/
theorem C39_C67_proddict (hN : ∀ n, Nd n ≤ N n) (eigh : Eigh L) (he : EighOk eigh) (q : COpts)
    (h2 : q.noBndry = true → ∀ n, 2 ≤ Nd n) (D : Dict 0 M Nd) (B : Matrix (Fin (c + 1)) L ℝ) (S : Signal c K N)
    (lmbda : ℝ) (hl : 0 < lmbda) (w : K × (L × M) × Grid N → ℝ) (hw : ∀ i, 0 < w i) (fe ge : Bool) (o : Opts)
    (ha : o.autoRho = false) (hrlx : 0 < o.rlx ∧ o.rlx < 2) (cb) (hcb : Bpdn.CallbackReads cb)
    (s : StP c K L M Nd N a) (hp : 0 < s.rho) (Xf : Spec K (L × M) N a)
    (hs : s.extra = setdict0 eigh q S s.rho D B Xf) :
    ∃ Xopt, IsMin (objPD D B S lmbda w) (allowedConv q.nonNeg q.noBndry Nd) Xopt ∧
      Tendsto (fun n => objPD D B S lmbda w (part (traj (clsPD q S lmbda w fe ge) o cb s n).Y)) atTop
        (𝓝 (objPD D B S lmbda w Xopt)) ∧
      ∀ n, part (traj (clsPD q S lmbda w fe ge) o cb s (n + 1)).Y ∈ allowedConv q.nonNeg q.noBndry Nd := by
  have ho : o.autoRho = true → o.RhoOk := fun h => by rw [ha] at h; cases h
  have hC : (none : Option (St (Coef K (L × M) N) (Coef K (L × M) N) (Coef K (L × M) N) (Attr c K (L × M) Nd N a) →
      Bool × Attr c K (L × M) Nd N a)) = none := rfl
  have hr : Bpdn.CallbackReads (none : Option (St (Coef K (L × M) N) (Coef K (L × M) N) (Coef K (L × M) N)
      (Attr c K (L × M) Nd N a) → Bool × Attr c K (L × M) Nd N a)) := by intro f t hf; cases hf
  have h := C39_convbpdn (a := a) hN (q.mem false) h2 (prodDict B D) S lmbda hl w hw fe ge o ha hrlx none hr
    (s.mapExtra (toConv q S)) hp Xf (by
      change toConv q S s.extra = _
      rw [hs]
      exact setdict_mem q S 1 s.rho _ _)
  have ht := fun n => traj_sim (sim_clsPD he q D B S lmbda w fe ge) (keeps_clsPD eigh q D B S lmbda w fe ge) o ho s hp
    ⟨Xf, hs⟩ n
  have hy : ∀ n, (traj (clsConvBPDN (q.mem false) S lmbda w fe ge) o none (s.mapExtra (toConv q S)) n).Y =
      (traj (clsPD q S lmbda w fe ge) o cb s n).Y := by
    intro n
    rw [ht n, traj_reads _ o cb hcb]
    rfl
  simp only [hy, obj_prod] at h
  exact h

/-- **C40.** With `AuxVarObj` the objective recorded is the functional at Y, without it the functional at the X
just computed. -/
theorem C40_proddict_recorded (hN : ∀ n, Nd n ≤ N n) (eigh : Eigh L) (he : EighOk eigh) (q : COpts) (D : Dict 0 M Nd)
    (B : Matrix (Fin (c + 1)) L ℝ) (S : Signal c K N) (lmbda rho : ℝ) (hr : 0 < rho)
    (w : K × (L × M) × Grid N → ℝ) (hw : ∀ i, 0 ≤ w i) (X0 X Y Y0 U : Coef K (L × M) N) (Xf : Spec K (L × M) N a) :
    let x := xstep rho X0 Y0 U (setdict0 eigh q S rho D B Xf)
    ((clsPD q S lmbda w false true).objfn X Y x.2).1 = objPD D B S lmbda w (part Y) ∧
    ((clsPD q S lmbda w false true).objfn X Y x.2).2.1 = dataPD D B S (part Y) ∧
    ((clsPD q S lmbda w true false).objfn x.1 Y x.2).1 = objPD D B S lmbda w (part x.1) ∧
    ((clsPD q S lmbda w true false).objfn x.1 Y x.2).2.1 = dataPD D B S (part x.1) := by
  intro x
  have hc : Coh eigh q D B S rho (setdict0 eigh q S rho D B Xf) := ⟨Xf, rfl⟩
  have hx : x = xstep rho X0 Y0 U (setdict0 eigh q S rho D B Xf) := rfl
  have hxs := xstep_sim he hr hc X0 Y0 U
  rw [← hx] at hxs
  have hc2 : Coh eigh q D B S rho x.2 := coh_xstep hc X0 Y0 U
  have ed : toConv q S (setdict0 eigh q S rho D B Xf) = Conv.setdict (q.mem false) S rho (prodDict B D) Xf :=
    setdict_mem q S 1 rho _ _
  rw [ed] at hxs
  have h1 := C39_convbpdn_recorded (a := a) hN (q.mem false) (prodDict B D) S lmbda rho hr w hw X0 X Y Y0 U Xf
  simp only [hxs] at h1
  have e : ∀ fe ge X Y, (clsConvBPDN (q.mem false) S lmbda w fe ge).objfn X Y (toConv q S x.2) =
      (clsPD (Nd := Nd) (a := a) q S lmbda w fe ge).objfn X Y x.2 := fun fe ge X Y =>
    (sim_clsPD he q D B S lmbda w fe ge).objfn rho X Y x.2 hc2
  rw [e, e, obj_prod] at h1
  have hreg := fun y => regL1_eq lmbda w hw y
  refine ⟨h1.1, ?_, h1.2, ?_⟩
  · have h2 := h1.1
    change dfd S false Y x.2 + regL1 lmbda w Y = _ at h2
    change dfd S false Y x.2 = _
    rw [hreg] at h2
    unfold objPD at h2
    linarith
  · have h2 := h1.2
    change dfd S true Y x.2 + regL1 lmbda w x.1 = _ at h2
    change dfd S true Y x.2 = _
    rw [hreg] at h2
    unfold objPD at h2
    linarith

/-! ## Histories -/

/-- What a user does with a solver object: run `solve` with a callback that looks at the arrays and statistics, or
replace dictionaries. -/
inductive Cmd (c : ℕ) (K L M : Type*) {d : ℕ} (Nd N : Fin d → ℕ) [∀ k, NeZero (N k)] [Fintype K] [Fintype L]
    [Fintype M]
  | solve (o : Opts) (cb : Option (St (Coef K (L × M) N) (Coef K (L × M) N) (Coef K (L × M) N) Unit → Bool))
  | setdict (D : Option (Dict 0 M Nd)) (B : Option (Matrix (Fin (c + 1)) L ℝ))

/-- The callback as the solver loop sees it. -/
def liftCb (cb : Option (St (Coef K (L × M) N) (Coef K (L × M) N) (Coef K (L × M) N) Unit → Bool)) :
    Option (StP c K L M Nd N a → Bool × AttrP c K L M Nd N a) :=
  cb.map fun f t => (f (t.mapExtra fun _ => ()), t.extra)

/-- The effect of one command on an object of class `C`. -/
noncomputable def Cmd.run (eigh : Eigh L) (q : COpts) (S : Signal c K N)
    (C : Cls (Coef K (L × M) N) (Coef K (L × M) N) (Coef K (L × M) N) (AttrP c K L M Nd N a))
    (s : StP c K L M Nd N a) : Cmd c K L M Nd N → StP c K L M Nd N a
  | .solve o cb => Admm.solve C o (liftCb cb) s
  | .setdict D B => { s with extra := PD.setdict eigh q S s.rho D B s.extra }

/-- A history of commands. -/
noncomputable def runAll (eigh : Eigh L) (q : COpts) (S : Signal c K N)
    (C : Cls (Coef K (L × M) N) (Coef K (L × M) N) (Coef K (L × M) N) (AttrP c K L M Nd N a))
    (l : List (Cmd c K L M Nd N)) (s : StP c K L M Nd N a) : StP c K L M Nd N a :=
  l.foldl (Cmd.run eigh q S C) s

/-- The rho update of the options has a positive threshold and multiplier above one. -/
def Cmd.Ok : Cmd c K L M Nd N → Prop
  | .solve o _ => o.autoRho = true → o.RhoOk
  | .setdict _ _ => True

/-- B is not replaced without D. -/
def Cmd.WithD : Cmd c K L M Nd N → Prop
  | .solve _ _ => True
  | .setdict D B => B.isSome → D.isSome

/-- The dictionaries given last. -/
def lastDB (p : Dict 0 M Nd × Matrix (Fin (c + 1)) L ℝ) : Cmd c K L M Nd N → Dict 0 M Nd × Matrix (Fin (c + 1)) L ℝ
  | .solve _ _ => p
  | .setdict D B => (D.getD p.1, B.getD p.2)

/-- The object after construction, with start arrays `Y`, `U`. -/
noncomputable def start (eigh : Eigh L) (q : COpts) (S : Signal c K N) (lmbda : ℝ) (optRho : Option ℝ)
    (D : Dict 0 M Nd) (B : Matrix (Fin (c + 1)) L ℝ) (Xf : Spec K (L × M) N a) (Y U : Coef K (L × M) N) :
    StP c K L M Nd N a :=
  let i := initPD eigh q S lmbda optRho D B Xf
  { X := 0, Y := Y, Yprev := Y, U := U, AX := 0, AXnr := 0, rho := i.1, k := 0, itstat := [], extra := i.2 }

theorem liftCb_reads (cb : Option (St (Coef K (L × M) N) (Coef K (L × M) N) (Coef K (L × M) N) Unit → Bool)) :
    Bpdn.CallbackReads (liftCb (Nd := Nd) (a := a) (c := c) cb) := by
  intro f t hf
  cases cb with
  | none => simp [liftCb] at hf
  | some g =>
    simp only [liftCb, Option.map_some, Option.some.injEq] at hf
    rw [← hf]

theorem runAll_coh (eigh : Eigh L) (q : COpts) (S : Signal c K N)
    (C : Cls (Coef K (L × M) N) (Coef K (L × M) N) (Coef K (L × M) N) (AttrP c K L M Nd N a))
    (hk : ∀ D B, Keeps C (Coh eigh q D B S)) (l : List (Cmd c K L M Nd N)) :
    (∀ x ∈ l, x.Ok ∧ x.WithD) → ∀ (s : StP c K L M Nd N a) (D : Dict 0 M Nd) (B : Matrix (Fin (c + 1)) L ℝ),
      0 < s.rho → Coh eigh q D B S s.rho s.extra →
      0 < (runAll eigh q S C l s).rho ∧ Coh eigh q (l.foldl lastDB (D, B)).1 (l.foldl lastDB (D, B)).2 S
        (runAll eigh q S C l s).rho (runAll eigh q S C l s).extra := by
  induction l with
  | nil => intro _ s D B hp hI; exact ⟨hp, hI⟩
  | cons x l ih =>
    intro hok s D B hp hI
    have hx := hok x (List.mem_cons_self ..)
    have hl : ∀ y ∈ l, y.Ok ∧ y.WithD := fun y hy => hok y (List.mem_cons_of_mem _ hy)
    unfold runAll
    rw [List.foldl_cons, List.foldl_cons]
    cases x with
    | solve o cb =>
      have h2 := loop_keeps (hk D B) o hx.1 (liftCb cb) ((liftCb_reads cb).keeps _) (List.range' s.k o.maxMainIter)
        s hp hI
      exact ih hl (Cmd.run eigh q S C s (.solve o cb)) D B h2.1 h2.2
    | setdict Dn Bn =>
      refine ih hl (Cmd.run eigh q S C s (.setdict Dn Bn)) (Dn.getD D) (Bn.getD B) hp ?_
      obtain ⟨Xf, hh⟩ := hI
      refine ⟨Xf, ?_⟩
      change PD.setdict eigh q S s.rho Dn Bn s.extra = setdict0 eigh q S s.rho (Dn.getD D) (Bn.getD B) Xf
      rw [hh]
      have hd := hx.2
      rcases Dn with _ | D' <;> rcases Bn with _ | B'
      · rfl
      · exact absurd (hd rfl) (by simp)
      · rfl
      · rfl

theorem history_pd (hN : ∀ k, Nd k ≤ N k) (eigh : Eigh L) (he : EighOk eigh) (q : COpts) (S : Signal c K N)
    (C : Cls (Coef K (L × M) N) (Coef K (L × M) N) (Coef K (L × M) N) (AttrP c K L M Nd N a))
    (hx : C.xstep = xstep) (hk : ∀ D B, Keeps C (Coh eigh q D B S)) (l : List (Cmd c K L M Nd N))
    (hl : ∀ x ∈ l, x.Ok ∧ x.WithD) (s : StP c K L M Nd N a) (D : Dict 0 M Nd) (B : Matrix (Fin (c + 1)) L ℝ)
    (hp : 0 < s.rho) (hI : Coh eigh q D B S s.rho s.extra) (o : Opts) (ho : o.autoRho = true → o.RhoOk)
    (cb) (hcb : Bpdn.CallbackReads cb) (n : ℕ) :
    let DB := l.foldl lastDB (D, B)
    let T := traj C o cb (runAll eigh q S C l s)
    IsUniqueMin (augPD DB.1 DB.2 S (T n).rho (part (T n).Y) (part (T n).U)) Set.univ (part (T (n + 1)).X) := by
  intro DB T
  obtain ⟨h1, h2⟩ := runAll_coh eigh q S C hk l hl s D B hp hI
  obtain ⟨h3, h4⟩ := traj_keeps (hk _ _) o ho cb (hcb.keeps _) _ h1 h2 n
  have e : (T (n + 1)).X = (xstep (T n).rho (T n).X (T n).Y (T n).U (T n).extra).1 := by
    change (traj C o cb (runAll eigh q S C l s) (n + 1)).X = _
    rw [traj_succ, oneIter_X, hx]
  rw [e]
  exact xstep_unique hN he h3 h4 _ _ _

/-- **C40 (part).** `ConvProdDictBPDN` constructed with the option `rho` given: after every history of `solve` calls
and dictionary replacements in which B is not replaced without D, at every iteration of the next run, X is the
unique minimiser of the augmented Lagrangian for the dictionaries given last and the current rho, Y and U.
Missing: `setdict(B=...)`, see `C40_proddict_setB_refuted`. -/
theorem C40_proddict_history_partial (hN : ∀ k, Nd k ≤ N k) (eigh : Eigh L) (he : EighOk eigh) (q : COpts)
    (D : Dict 0 M Nd) (B : Matrix (Fin (c + 1)) L ℝ) (S : Signal c K N) (lmbda : ℝ)
    (w : K × (L × M) × Grid N → ℝ) (fe ge : Bool) (rho : ℝ) (hr : 0 < rho) (Xf : Spec K (L × M) N a)
    (Y U : Coef K (L × M) N) (l : List (Cmd c K L M Nd N)) (hl : ∀ x ∈ l, x.Ok ∧ x.WithD) (o : Opts)
    (ho : o.autoRho = true → o.RhoOk) (cb) (hcb : Bpdn.CallbackReads cb) (n : ℕ) :
    let C := clsPD q S lmbda w fe ge
    let DB := l.foldl lastDB (D, B)
    let T := traj C o cb (runAll eigh q S C l (start eigh q S lmbda (some rho) D B Xf Y U))
    IsUniqueMin (augPD DB.1 DB.2 S (T n).rho (part (T n).Y) (part (T n).U)) Set.univ (part (T (n + 1)).X) :=
  history_pd hN eigh he q S _ rfl (fun D B => keeps_clsPD eigh q D B S lmbda w fe ge) l hl
    (start eigh q S lmbda (some rho) D B Xf Y U) D B hr ⟨Xf, rfl⟩ o ho cb hcb n

/-! ## `HighMemSolve` -/

/-- The object without its cached component. -/
def dropCache (h : AttrP c K L M Nd N a) : AttrP c K L M Nd N a := { h with cc := none }

/-- The cached component belongs to the dictionary attributes and to rho. -/
def CacheOk (q : COpts) (rho : ℝ) (h : AttrP c K L M Nd N a) : Prop :=
  h.cc = if q.highMem then some (cacheP h.gDf rho) else none

theorem solveP_drop {q : COpts} {rho : ℝ} {h : AttrP c K L M Nd N a} (hc : CacheOk q rho h)
    (Y U : Coef K (L × M) N) : solveP rho Y U (dropCache h) = solveP rho Y U h := by
  unfold CacheOk at hc
  funext k j ξ
  unfold solveP dropCache
  simp only [hc]
  by_cases hq : q.highMem = true
  · simp only [if_pos hq]
    rfl
  · simp only [if_neg hq]

theorem keeps_cache (q : COpts)
    (ys : ℝ → Coef K (L × M) N → Coef K (L × M) N → Coef K (L × M) N → Coef K (L × M) N → AttrP c K L M Nd N a →
      Coef K (L × M) N × AttrP c K L M Nd N a)
    (hys : ∀ rho AX X Y U h, (ys rho AX X Y U h).2 = h) (ob) :
    Keeps (Cls.equal xstep ys (rhochange q) ob) (CacheOk q) :=
  ⟨equal_sane _ _ _ _, fun _ X Y U _ _ h => h, fun rho AX X Y U h _ hc => by
    change CacheOk q rho (ys rho AX X Y U h).2; rw [hys]; exact hc, fun rho rho' h _ _ hc => by
    change CacheOk q rho' (rhochange q rho' h)
    unfold CacheOk rhochange at *
    by_cases hq : q.highMem = true
    · simp only [if_pos hq]
    · simp only [if_neg hq] at hc ⊢
      exact hc⟩

theorem sim_cache (q : COpts)
    (ys : ℝ → Coef K (L × M) N → Coef K (L × M) N → Coef K (L × M) N → Coef K (L × M) N → Coef K (L × M) N)
    (ob : Coef K (L × M) N → Coef K (L × M) N → AttrP c K L M Nd N a → ℝ × ℝ × ℝ)
    (hob : ∀ X Y h, ob X Y (dropCache h) = ob X Y h) :
    ClsSim dropCache (Cls.equal xstep (fun rho AX X Y U h => (ys rho AX X Y U, h)) (rhochange q) ob)
      (Cls.equal xstep (fun rho AX X Y U h => (ys rho AX X Y U, h)) (rhochange (q.mem false)) ob) (CacheOk q) := by
  refine ⟨?_, ?_, ?_, ?_, rfl, rfl, rfl, rfl, rfl, rfl⟩
  · intro rho X Y U h hp hc
    change xstep rho X Y U (dropCache h) = ((xstep rho X Y U h).1, dropCache (xstep rho X Y U h).2)
    unfold xstep
    simp only [solveP_drop hc]
    rfl
  · intro rho AX X Y U h hp _
    rfl
  · intro rho rho' h _
    change rhochange (q.mem false) rho' (dropCache h) = dropCache (rhochange q rho' h)
    unfold rhochange COpts.mem dropCache
    simp only [Bool.false_eq_true, if_false]
    split_ifs <;> rfl
  · intro rho X Y h _
    exact hob X Y h

theorem runAll_drop (eigh : Eigh L) (q : COpts) (S : Signal c K N)
    (C C' : Cls (Coef K (L × M) N) (Coef K (L × M) N) (Coef K (L × M) N) (AttrP c K L M Nd N a))
    (hk : Keeps C (CacheOk q)) (hs : ClsSim dropCache C C' (CacheOk q)) (l : List (Cmd c K L M Nd N)) :
    (∀ x ∈ l, x.Ok) → ∀ s, 0 < s.rho → CacheOk q s.rho s.extra →
      runAll eigh (q.mem false) S C' l (s.mapExtra dropCache) = (runAll eigh q S C l s).mapExtra dropCache := by
  induction l with
  | nil => intro _ s _ _; rfl
  | cons x l ih =>
    intro hok s hp hI
    have hx := hok x (List.mem_cons_self ..)
    have hl : ∀ y ∈ l, y.Ok := fun y hy => hok y (List.mem_cons_of_mem _ hy)
    unfold runAll
    rw [List.foldl_cons, List.foldl_cons]
    cases x with
    | solve o cb =>
      have hcb := (liftCb_reads (c := c) (Nd := Nd) (a := a) cb).keeps (CacheOk q)
      have hcs : CbSim dropCache (liftCb (c := c) (Nd := Nd) (a := a) cb) (liftCb cb) := by
        cases cb with
        | none => exact Or.inl ⟨rfl, rfl⟩
        | some f => exact Or.inr ⟨_, _, rfl, rfl, fun _ => rfl⟩
      have h1 := solve_sim hs hk o hx (liftCb cb) (liftCb cb) hcb hcs s hp hI
      have h2 := loop_keeps hk o hx (liftCb cb) hcb (List.range' s.k o.maxMainIter) s hp hI
      have e1 : Cmd.run eigh (q.mem false) S C' (s.mapExtra dropCache) (.solve o cb) =
        (Cmd.run eigh q S C s (.solve o cb)).mapExtra dropCache := h1
      rw [e1]
      exact ih hl (Cmd.run eigh q S C s (.solve o cb)) h2.1 h2.2
    | setdict D B =>
      have e1 : Cmd.run eigh (q.mem false) S C' (s.mapExtra dropCache) (.setdict D B) =
          (Cmd.run eigh q S C s (.setdict D B)).mapExtra dropCache := by
        unfold Cmd.run St.mapExtra dropCache PD.setdict fin COpts.mem
        simp
      rw [e1]
      refine ih hl (Cmd.run eigh q S C s (.setdict D B)) hp ?_
      rfl

/-- **C43 (part).** `ConvProdDictBPDN` constructed with the option `rho` given: after every history of `solve` calls
(with automatic rho changes, relaxation, callbacks) and calls of `setdict`, the object with `HighMemSolve` and the one
without hold the same arrays, penalty parameter, counter and statistics.  Missing: the default `rho`, see
`C43_proddict_refuted`. -/
theorem C43_proddict_partial (eigh : Eigh L) (q : COpts) (S : Signal c K N) (lmbda : ℝ)
    (w : K × (L × M) × Grid N → ℝ) (fe ge : Bool) (rho : ℝ) (hr : 0 < rho) (D : Dict 0 M Nd)
    (B : Matrix (Fin (c + 1)) L ℝ) (Xf : Spec K (L × M) N a) (Y U : Coef K (L × M) N)
    (l : List (Cmd c K L M Nd N)) (hl : ∀ x ∈ l, x.Ok) :
    let run := fun b : Bool => (runAll eigh { q with highMem := b } S
      (clsPD { q with highMem := b } S lmbda w fe ge) l
      (start eigh { q with highMem := b } S lmbda (some rho) D B Xf Y U)).mapExtra fun _ => ()
    run true = run false := by
  intro run
  have key : ∀ b, run b = ((runAll eigh (q.mem false) S (clsPD (q.mem false) S lmbda w fe ge) l
      (start eigh (q.mem false) S lmbda (some rho) D B Xf Y U)).mapExtra dropCache).mapExtra fun _ => () := by
    intro b
    have h1 := runAll_drop eigh (q.mem b) S (clsPD (Nd := Nd) (a := a) (q.mem b) S lmbda w fe ge)
      (clsPD (q.mem false) S lmbda w fe ge)
      (keeps_cache (q.mem b) _ (fun _ _ _ _ _ _ => rfl) _)
      (sim_cache (q.mem b) (fun rho AX _ _ U =>
        WithLp.toLp 2 (gystep q Nd (proxL1Arr (AX + U).ofLp fun i => lmbda / rho * w i))) _ (fun _ _ _ => rfl)) l hl
      (start eigh (q.mem b) S lmbda (some rho) D B Xf Y U) hr rfl
    have h2 : (start eigh (q.mem b) S lmbda (some rho) D B Xf Y U).mapExtra dropCache =
        start eigh (q.mem false) S lmbda (some rho) D B Xf Y U := by
      unfold start initPD setdict0 fin dropCache COpts.mem St.mapExtra
      simp
    rw [h2] at h1
    have h3 : run b = ((runAll eigh (q.mem b) S (clsPD (q.mem b) S lmbda w fe ge) l
      (start eigh (q.mem b) S lmbda (some rho) D B Xf Y U)).mapExtra dropCache).mapExtra fun _ => () := rfl
    rw [h3, ← h1]
    rfl
  rw [key true, key false]

end Sporco.Conv.PD
