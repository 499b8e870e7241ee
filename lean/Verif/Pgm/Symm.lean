import Verif.Pgm.Bpdn
import Verif.Admm.BpdnSymm

/-!
# Symmetries of proximal gradient solvers (C84)
-/

set_option autoImplicit false
set_option linter.unusedSectionVars false

namespace Sporco.Pgm

open scoped RealInnerProductSpace

/-! ## Two solvers whose operations correspond -/

section Gen
variable {V V' : Type*}

/-- The operations of the second solver do to `φ p v` what those of the first do to `v`. The parameter `p` stands for
values that are not read; where they are read, after `start` and when residuals are computed, it is `good`. -/
structure OpsSame {P : Type*} (o : Opts) (C : Ops V) (C' : Ops V') (φ : P → V → V') (good : P) : Prop where
  start : ∀ p k v, ∃ p', (o.fastSolve = false → p' = good) ∧ C'.start k (φ p v) = φ p' (C.start k v)
  step : ∀ p k v, C'.step k (φ p v) = φ p (C.step k v)
  rsdl : ∀ k v, C'.rsdl k (φ good v) = C.rsdl k v
  stat : ∀ p k v r, C'.stat k (φ p v) r = C.stat k v r

/-- The state with the variables replaced by their images. -/
def St.map (φ : V → V') (s : St V) : St V' := ⟨s.k, s.itstat, φ s.v⟩

/-- Two callbacks that take the same decisions and correspond in what they change. -/
def CbSame {P : Type*} (φ : P → V → V') (cb : Option (St V → Bool × V)) (cb' : Option (St V' → Bool × V')) : Prop :=
  (cb = none ∧ cb' = none) ∨
    ∃ f f', cb = some f ∧ cb' = some f' ∧ ∀ (p : P) (s : St V), f' (s.map (φ p)) = ((f s).1, φ p (f s).2)

variable {P : Type*} {C : Ops V} {C' : Ops V'} {φ : P → V → V'} {good : P} {o : Opts}

theorem body_same (h : OpsSame o C C' φ good) {cb cb'} (hcb : CbSame φ cb cb') (k : ℕ) (p : P) (s : St V) :
    ∃ p', body C' o cb' k (s.map (φ p)) = ((body C o cb k s).1.map (φ p'), (body C o cb k s).2) := by
  classical
  obtain ⟨p', hp, hs⟩ := h.start p k s.v
  refine ⟨p', ?_⟩
  unfold body
  simp only [St.map, hs, h.step, h.stat]
  cases hf : o.fastSolve
  · obtain rfl := hp hf
    simp only [h.rsdl]
    rcases hcb with ⟨rfl, rfl⟩ | ⟨f, f', rfl, rfl, h3⟩
    · rfl
    · have := h3 p' ⟨k, s.itstat ++ [C.stat k (C.step k (C.start k s.v)) (C.rsdl k (C.step k (C.start k s.v)))],
        C.step k (C.start k s.v)⟩
      unfold St.map at this
      simp only at this
      simp [this]
  · rcases hcb with ⟨rfl, rfl⟩ | ⟨f, f', rfl, rfl, h3⟩
    · rfl
    · have := h3 p' ⟨k, s.itstat, C.step k (C.start k s.v)⟩
      unfold St.map at this
      simp only at this
      simp [this]

theorem loop_same (h : OpsSame o C C' φ good) {cb cb'}
    (hcb : CbSame φ cb cb') (ks : List ℕ) :
    ∀ (p : P) (s : St V), ∃ p', loop C' o cb' ks (s.map (φ p)) = (loop C o cb ks s).map (φ p') := by
  induction ks with
  | nil => intro p s; exact ⟨p, rfl⟩
  | cons k ks ih =>
    intro p s
    obtain ⟨p', hp⟩ := body_same h hcb k p s
    unfold loop
    simp only
    rw [hp]
    split_ifs
    · exact ⟨p', rfl⟩
    · exact ih p' _

theorem solve_same (h : OpsSame o C C' φ good) {cb cb'}
    (hcb : CbSame φ cb cb') (p : P) (s : St V) : ∃ p', solve C' o cb' (s.map (φ p)) = (solve C o cb s).map (φ p') := by
  obtain ⟨p', hp⟩ := loop_same h hcb (List.range' s.k o.maxMainIter) p s
  refine ⟨p', ?_⟩
  unfold solve
  simp only
  rw [show (s.map (φ p)).k = s.k from rfl, hp]
  rfl

end Gen

/-! ## `PGM` -/

section PGM
variable {E E' : Type*} [NormedAddCommGroup E] [InnerProductSpace ℝ E] [NormedAddCommGroup E'] [InnerProductSpace ℝ E']

/-- The attributes with all arrays replaced by their images under `T`, `Yprv` by its image under `f`. -/
def Vars.map (T f : E → E') (v : Vars E) : Vars E' :=
  { X := T v.X, Y := T v.Y, Xprv := T v.Xprv, Yprv := f v.Yprv, ZZ := T v.ZZ, L := v.L, t := v.t, objfn := v.objfn,
    objfnPrev := v.objfnPrev, F := v.F, Q := v.Q, iterBT := v.iterBT, bbX := T v.bbX, bbG := T v.bbG, Tk := v.Tk,
    Zrb := v.Zrb.map T }

/-- The methods of the second class correspond to those of the first. -/
structure ClsSame (C : Cls E) (C' : Cls E') (T : E ≃ₗᵢ[ℝ] E') : Prop where
  gradF : ∀ x, C'.gradF (T x) = T (C.gradF x)
  proxG : ∀ L x, C'.proxG L (T x) = T (C.proxG L x)
  hessF : ∀ x, C'.hessF (T x) = T (C.hessF x)
  obfnF : ∀ x, C'.obfnF (T x) = C.obfnF x
  obfnG : ∀ x, C'.obfnG (T x) = C.obfnG x

variable {C : Cls E} {C' : Cls E'} {T : E ≃ₗᵢ[ℝ] E'} {f : E → E'}

theorem objfn_same (h : ClsSame C C' T) (x : E) : C'.objfn (T x) = C.objfn x := by
  unfold Cls.objfn; rw [h.obfnF, h.obfnG]

theorem stepL_same (h : ClsSame C C' T) (o : Opts) (k : ℕ) (v : Vars E) (g : E) :
    stepL C' o k (v.map T f) (T g) = stepL C o k v g := by
  unfold stepL
  cases o.stepPolicy
  · rfl
  · simp only [cauchyUpdate, h.hessF, T.inner_map_map]
    rfl
  · simp only [bbUpdate, Vars.map, ← map_sub, T.inner_map_map]

theorem safeguard_same (h : ClsSame C C' T) (o : Opts) (k : ℕ) (v : Vars E) :
    safeguard C' o k (v.map T f) = (safeguard C o k v).map T f := by
  unfold safeguard
  simp only [Vars.map, objfn_same h]
  split_ifs <;> rfl

theorem xstepG_same (h : ClsSame C C' T) (o : Opts) (k : ℕ) (g : E) (v : Vars E) :
    xstepG C' o k (T g) (v.map T f) = (xstepG C o k g v).map T f := by
  unfold xstepG
  simp only [stepL_same h]
  rw [← safeguard_same h]
  congr 1
  have e : storeBB o ({ v.map T f with L := stepL C o k v g }) (T g) =
      (storeBB o ({ v with L := stepL C o k v g }) g).map T f := by
    unfold storeBB
    cases o.stepPolicy <;> rfl
  rw [e]
  generalize storeBB o ({ v with L := stepL C o k v g }) g = u
  unfold Vars.map
  simp only [← map_smul, ← map_sub, h.proxG]

theorem ystep_same (o : Opts) (k : ℕ) (v : Vars E) : ystep o k (v.map T f) = (ystep o k v).map T f := by
  unfold ystep
  simp only [Vars.map]
  split_ifs <;> simp only [map_add, map_smul, map_sub]

theorem onStart_same (h : ClsSame C C' T) (o : Opts) (k : ℕ) (v : Vars E) :
    onStart C' o k (v.map T f) = (onStart C o k v).map T (if !o.fastSolve || o.isRobust then T else f) := by
  unfold onStart
  simp only [Vars.map]
  split_ifs <;> simp only [objfn_same h]

theorem quadQ_same (h : ClsSame C C' T) (L : ℝ) (x y g : E) : quadQ C' L (T x) (T y) (T g) = quadQ C L x y g := by
  unfold quadQ
  rw [h.obfnF, ← map_sub, T.inner_map_map, T.norm_map]

theorem btLoop_same (h : ClsSame C C' T) (o : Opts) (k : ℕ) (gu : ℝ) (g : E) (n : ℕ) : ∀ (it : ℕ) (v : Vars E),
    btLoop C' o k gu (T g) n it (v.map T f) = (btLoop C o k gu g n it v).map T f := by
  induction n with
  | zero => intro it v; rfl
  | succ n ih =>
    intro it v
    unfold btLoop
    simp only
    rw [xstepG_same h]
    generalize xstepG C o k g v = u
    have e1 : C'.obfnF (u.map T f).X = C.obfnF u.X := h.obfnF _
    have e2 : quadQ C' (u.map T f).L (u.map T f).X (u.map T f).Y (T g) = quadQ C u.L u.X u.Y g := quadQ_same h _ _ _ _
    rw [e1, e2]
    split_ifs
    · rfl
    · exact ih (it + 1) { u with F := some (C.obfnF u.X), Q := some (quadQ C u.L u.X u.Y g), iterBT := some (it + 1),
                                 L := u.L * gu }

theorem rbLoop_same (h : ClsSame C C' T) (o : Opts) (k : ℕ) (gu : ℝ) (Z : E) (n : ℕ) : ∀ (it : ℕ) (t0 : ℝ) (v : Vars E),
    rbLoop C' o k gu (T Z) n it (t0, v.map T f) =
      ((rbLoop C o k gu Z n it (t0, v)).1, (rbLoop C o k gu Z n it (t0, v)).2.map T f) := by
  induction n with
  | zero => intro it t0 v; rfl
  | succ n ih =>
    intro it t0 v
    unfold rbLoop
    simp only
    have e0 : (1 / ((v.map T f).Tk + robustT (v.map T f).L (v.map T f).Tk)) •
        ((v.map T f).Tk • (v.map T f).Xprv + robustT (v.map T f).L (v.map T f).Tk • T Z) =
        T ((1 / (v.Tk + robustT v.L v.Tk)) • (v.Tk • v.Xprv + robustT v.L v.Tk • Z)) := by
      simp only [Vars.map, map_smul, map_add]
    rw [e0, h.gradF]
    generalize (1 / (v.Tk + robustT v.L v.Tk)) • (v.Tk • v.Xprv + robustT v.L v.Tk • Z) = y
    have e3 : ({ v.map T f with Y := T y } : Vars E') = ({ v with Y := y } : Vars E).map T f := rfl
    rw [e3, xstepG_same h]
    generalize xstepG C o k (C.gradF y) { v with Y := y } = u
    have e1 : C'.obfnF (u.map T f).X = C.obfnF u.X := h.obfnF _
    have e2 : quadQ C' (u.map T f).L (u.map T f).X (u.map T f).Y (T (C.gradF y)) = quadQ C u.L u.X u.Y (C.gradF y) :=
      quadQ_same h _ _ _ _
    rw [e1, e2]
    split_ifs
    · rfl
    · exact ih (it + 1) (robustT v.L v.Tk) { u with F := some (C.obfnF u.X), Q := some (quadQ C u.L u.X u.Y (C.gradF y)),
                                                    iterBT := some (it + 1), L := u.L * gu }

/-- A class whose methods correspond to those of another goes through the same run, for all options. -/
theorem ops_same (h : ClsSame C C' T) (o : Opts) : OpsSame o (ops C o) (ops C' o) (Vars.map T) T where
  start := fun f k v => ⟨_, fun hf => by rw [hf]; rfl, onStart_same h o k v⟩
  step := fun f k v => by
    change mainStep C' o k (v.map T f) = (mainStep C o k v).map T f
    unfold mainStep
    cases o.backtrack with
    | none =>
      simp only
      unfold xstep
      rw [show C'.gradF (v.map T f).Y = T (C.gradF v.Y) from h.gradF _, xstepG_same h, ystep_same]
    | standard gu n =>
      simp only
      unfold btStandard
      simp only
      rw [show C'.gradF (v.map T f).Y = T (C.gradF v.Y) from h.gradF _, btLoop_same h, ystep_same]
    | robust gd gu n =>
      simp only
      unfold btRobust
      simp only
      have e : (v.map T f).Zrb.getD (v.map T f).X = T (v.Zrb.getD v.X) := by
        change (v.Zrb.map T).getD (T v.X) = _
        cases v.Zrb <;> rfl
      have e3 : ({ v.map T f with L := (v.map T f).L * gd } : Vars E') = ({ v with L := v.L * gd } : Vars E).map T f := rfl
      rw [e, e3, rbLoop_same h]
      simp only [Vars.map, Option.map_some, map_add, map_smul, map_sub]
  rsdl := fun k v => by
    change rsdl o k (v.map T T) = rsdl o k v
    unfold rsdl Vars.map
    simp only [← map_sub, T.norm_map]
  stat := fun f k v r => by
    change statOf C' o k (v.map T f) r = statOf C o k v r
    unfold statOf
    simp only [Vars.map, objfn_same h]

/-- Two solvers hold corresponding values: those of the second are the images of those of the first. `Yprv`, which
`solve` sets before it reads it and which the constructors fill with `Y` plus a constant, is excepted. -/
def Corr (T : E → E') (s : St (Vars E)) (s' : St (Vars E')) : Prop := ∃ f, s' = s.map (Vars.map T f)

end PGM

/-! ## `BPDN` and `WeightedBPDN` -/

section Bpdn
open Finset Matrix Sporco.Prox Sporco.Admm Sporco.Admm.Bpdn

variable {N M K : ℕ}

theorem mulT_move (v : Move N M K) {D D' : Matrix (Fin N) (Fin M) ℝ} (hD : v.Dict D D')
    {R R' : Matrix (Fin N) (Fin K) ℝ} (hR : v.Signal R R') : arr (D'ᵀ * R') = v.iso (arr (Dᵀ * R)) := by
  refine (v.coefs_iff _ _).1 fun m k => ?_
  change (D'ᵀ * R') (v.atoms m) (v.sigs k) = v.asign m * v.ssign k * (Dᵀ * R) m k
  have h : Dᵀ * R = (v.rot * D)ᵀ * (v.rot * R) := by
    rw [Matrix.transpose_mul, Matrix.mul_assoc, ← Matrix.mul_assoc v.rotᵀ, v.rot_ok, Matrix.one_mul]
  rw [h, Matrix.mul_apply, Matrix.mul_apply, mul_sum]
  refine sum_congr rfl fun n _ => ?_
  rw [Matrix.transpose_apply, Matrix.transpose_apply, hD, hR]
  ring

theorem signal_sub (v : Move N M K) {R R' S S' : Matrix (Fin N) (Fin K) ℝ} (hR : v.Signal R R') (hS : v.Signal S S') :
    v.Signal (R - S) (R' - S') := by
  intro n k
  rw [Matrix.sub_apply, hR, hS, Matrix.mul_sub, Matrix.sub_apply]
  ring

theorem proxL1_sign {s : ℝ} (hs : s = 1 ∨ s = -1) (x α : ℝ) : proxL1 (s * x) α = s * proxL1 x α := by
  rcases hs with rfl | rfl
  · simp
  · have h : npSign (-x) = -npSign x := by
      unfold npSign
      rcases lt_trichotomy x 0 with h | h | h
      · rw [if_pos (by linarith), if_neg (by linarith), if_pos h]; norm_num
      · subst h; simp
      · rw [if_neg (by linarith), if_pos (by linarith), if_pos h]
    unfold proxL1
    rw [neg_one_mul, h, abs_neg]
    ring

theorem prox_move (v : Move N M K) (nonNeg : Bool) (hv : v.Allowed nonNeg) (lmbda : ℝ) {w w' : Fin M × Fin K → ℝ}
    (hW : v.Weights w w') (L : ℝ) (x : Arr M K) :
    (WithLp.toLp 2 (gystep nonNeg (proxL1Arr (v.iso x).ofLp fun i => lmbda / L * w' i)) : Arr M K) =
      v.iso (WithLp.toLp 2 (gystep nonNeg (proxL1Arr x.ofLp fun i => lmbda / L * w i))) := by
  refine (v.coefs_iff _ _).1 fun m k => ?_
  have h1 : w' (v.atoms m, v.sigs k) = w (m, k) := hW m k
  have h2 : (v.iso x).ofLp (v.atoms m, v.sigs k) = v.asign m * v.ssign k * x.ofLp (m, k) := v.iso_apply x m k
  have h3 : proxL1Arr (v.iso x).ofLp (fun i => lmbda / L * w' i) (v.atoms m, v.sigs k) =
      v.asign m * v.ssign k * proxL1Arr x.ofLp (fun i => lmbda / L * w i) (m, k) := by
    unfold proxL1Arr
    simp only [h1, h2]
    refine proxL1_sign ?_ _ _
    rcases v.ssign_ok k with h | h <;> rcases v.asign_ok m with h' | h' <;> rw [h, h'] <;> simp
  change gystep nonNeg _ (v.atoms m, v.sigs k) = v.asign m * v.ssign k * gystep nonNeg _ (m, k)
  unfold gystep
  cases hn : nonNeg
  · simpa using h3
  · simp only [if_true]
    unfold clip
    rw [h3, (hv hn).1, (hv hn).2]
    simp

/-- The methods of `BPDN` of `pgm/bpdn.py` correspond. -/
theorem cls_bpdn (v : Move N M K) (nonNeg : Bool) (hv : v.Allowed nonNeg) {D D' : Matrix (Fin N) (Fin M) ℝ}
    (hD : v.Dict D D') {S S' : Matrix (Fin N) (Fin K) ℝ} (hS : v.Signal S S') (lmbda : ℝ)
    {w w' : Fin M × Fin K → ℝ} (hW : v.Weights w w') :
    ClsSame (clsBPDN D S lmbda w nonNeg) (clsBPDN D' S' lmbda w' nonNeg) v.iso where
  gradF := fun x => mulT_move v hD (signal_sub v (v.mul_move hD x) hS)
  proxG := fun L x => prox_move v nonNeg hv lmbda hW L x
  hessF := fun x => mulT_move v hD (v.mul_move hD x)
  obfnF := fun x => by
    change 1 / 2 * ‖arr (D' * mat (v.iso x) - S')‖ ^ 2 = 1 / 2 * ‖arr (D * mat x - S)‖ ^ 2
    rw [norm_arr, norm_arr, v.data_move hD hS]
  obfnG := fun x => by
    change lmbda * normL1 (fun i => w' i * v.iso x i) = lmbda * normL1 (fun i => w i * x i)
    rw [v.normL1_move hW]

theorem had_move (v : Move N M K) (hr : v.rot = 1) {W W' R R' : Matrix (Fin N) (Fin K) ℝ}
    (hW : ∀ n k, W' n (v.sigs k) = W n k) (hR : v.Signal R R') : v.Signal (had W R) (had W' R') := by
  intro n k
  have := hR n k
  rw [hr, Matrix.one_mul] at this ⊢
  change W' n (v.sigs k) * R' n (v.sigs k) = v.ssign k * (W n k * R n k)
  rw [hW, this]
  ring

/-- The methods of `WeightedBPDN` correspond, when signals and atoms are not rotated and the weights of the data
fidelity term move with the signals. -/
theorem cls_wbpdn (v : Move N M K) (hr : v.rot = 1) (nonNeg : Bool) (hv : v.Allowed nonNeg)
    {D D' : Matrix (Fin N) (Fin M) ℝ}
    (hD : v.Dict D D') {S S' : Matrix (Fin N) (Fin K) ℝ} (hS : v.Signal S S') (lmbda : ℝ)
    {w w' : Fin M × Fin K → ℝ} (hW : v.Weights w w') {W W' : Matrix (Fin N) (Fin K) ℝ}
    (hWd : ∀ n k, W' n (v.sigs k) = W n k) :
    ClsSame (clsWBPDN D S lmbda w nonNeg W) (clsWBPDN D' S' lmbda w' nonNeg W') v.iso where
  gradF := fun x => mulT_move v hD (had_move v hr hWd (signal_sub v (v.mul_move hD x) hS))
  proxG := (cls_bpdn v nonNeg hv hD hS lmbda hW).proxG
  hessF := (cls_bpdn v nonNeg hv hD hS lmbda hW).hessF
  obfnF := fun x => by
    have h := had_move v hr (W := Matrix.of fun i j => Real.sqrt (W i j)) (W' := Matrix.of fun i j => Real.sqrt (W' i j))
      (fun n k => by simp only [Matrix.of_apply, hWd]) (signal_sub v (v.mul_move hD x) hS)
    change 1 / 2 * ‖arr (had (Matrix.of fun i j => Real.sqrt (W' i j)) (D' * mat (v.iso x) - S'))‖ ^ 2 =
      1 / 2 * ‖arr (had (Matrix.of fun i j => Real.sqrt (W i j)) (D * mat x - S))‖ ^ 2
    rw [norm_arr, norm_arr, ← v.rot_sq (had _ (D * mat x - S))]
    congr 1
    unfold fro2
    refine sum_congr rfl fun n _ => ?_
    rw [← Equiv.sum_comp v.sigs]
    refine sum_congr rfl fun k _ => ?_
    rw [h n k]
    rcases v.ssign_ok k with e | e <;> rw [e] <;> ring
  obfnG := (cls_bpdn v nonNeg hv hD hS lmbda hW).obfnG

/-- **C84 for `pgm.bpdn.BPDN`.** Permute and negate atoms and signals (no negation with `NonNegCoef`) and rotate both,
in the input, the weights and the initial values. Then `solve()` returns, for all options (momentum, step size policy,
backtracking, monotone variant, stopping rule), the coefficients permuted and negated in the same way, after the same
number of iterations, with the same statistics and step size parameter; all arrays held by the two solvers correspond
again, so the same holds for later calls. -/
theorem C84_pgm_bpdn (v : Move N M K) (nonNeg : Bool) (hv : v.Allowed nonNeg) (D D' : Matrix (Fin N) (Fin M) ℝ)
    (hD : v.Dict D D') (S S' : Matrix (Fin N) (Fin K) ℝ) (hS : v.Signal S S') (lmbda : ℝ)
    (w w' : Fin M × Fin K → ℝ) (hW : v.Weights w w') (o : Opts) (s s' : St (Vars (Arr M K)))
    (h : Corr v.iso s s') :
    let r := solve (ops (clsBPDN D S lmbda w nonNeg) o) o none s
    let r' := solve (ops (clsBPDN D' S' lmbda w' nonNeg) o) o none s'
    Corr v.iso r r' ∧ v.Coefs r.v.X r'.v.X ∧ r'.itstat = r.itstat ∧ r'.k = r.k ∧ r'.v.L = r.v.L ∧
      v.Signal (D * mat r.v.X) (D' * mat r'.v.X) := by
  obtain ⟨f, rfl⟩ := h
  obtain ⟨f', e⟩ := solve_same (ops_same (cls_bpdn v nonNeg hv hD hS lmbda hW) o) (Or.inl ⟨rfl, rfl⟩) f s (cb := none) (cb' := none)
  intro r r'
  change r' = r.map _ at e
  refine ⟨⟨f', e⟩, ?_, by rw [e]; rfl, by rw [e]; rfl, by rw [e]; rfl, ?_⟩
  · rw [e]; exact (v.coefs_iff _ _).2 rfl
  · rw [e]; exact v.mul_move hD _

/-- **C84 for `pgm.bpdn.WeightedBPDN`.** As for `BPDN`, without rotation; the data fidelity weights move with the
signals. -/
theorem C84_pgm_wbpdn (v : Move N M K) (hr : v.rot = 1) (nonNeg : Bool) (hv : v.Allowed nonNeg)
    (D D' : Matrix (Fin N) (Fin M) ℝ)
    (hD : v.Dict D D') (S S' : Matrix (Fin N) (Fin K) ℝ) (hS : v.Signal S S') (lmbda : ℝ)
    (w w' : Fin M × Fin K → ℝ) (hW : v.Weights w w') (W W' : Matrix (Fin N) (Fin K) ℝ)
    (hWd : ∀ n k, W' n (v.sigs k) = W n k) (o : Opts) (s s' : St (Vars (Arr M K)))
    (h : Corr v.iso s s') :
    let r := solve (ops (clsWBPDN D S lmbda w nonNeg W) o) o none s
    let r' := solve (ops (clsWBPDN D' S' lmbda w' nonNeg W') o) o none s'
    Corr v.iso r r' ∧ v.Coefs r.v.X r'.v.X ∧ r'.itstat = r.itstat ∧ r'.k = r.k ∧ r'.v.L = r.v.L ∧
      v.Signal (D * mat r.v.X) (D' * mat r'.v.X) := by
  obtain ⟨f, rfl⟩ := h
  obtain ⟨f', e⟩ := solve_same (ops_same (cls_wbpdn v hr nonNeg hv hD hS lmbda hW hWd) o) (Or.inl ⟨rfl, rfl⟩) f s (cb := none) (cb' := none)
  intro r r'
  change r' = r.map _ at e
  refine ⟨⟨f', e⟩, ?_, by rw [e]; rfl, by rw [e]; rfl, by rw [e]; rfl, ?_⟩
  · rw [e]; exact (v.coefs_iff _ _).2 rfl
  · rw [e]; exact v.mul_move hD _

end Bpdn

end Sporco.Pgm
