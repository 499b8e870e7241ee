import Verif.Admm.Cmod
import Verif.Admm.Sim

/-!
# Warm starts (C91)

A solver constructed with the options `Y0`, `U0` and `rho` taken from another solver continues the run of that solver.
-/

set_option autoImplicit false
set_option linter.unusedSectionVars false

namespace Sporco.Admm

/-- An iteration record with the iteration number increased by `n`. -/
def Stat.later (n : ℕ) (q : Stat) : Stat := { q with iter := n + q.iter }

section Gen
variable {E F G H : Type*}

/-- Specification: `r` is the state of a solver that did `n` iterations, with the records `l`, before it did what the
solver with state `r'` did. All variables are the same, and the records of `r` are `l` followed by those of `r'`. -/
structure Continues (n : ℕ) (l : List Stat) (r r' : St E F G H) : Prop where
  X : r'.X = r.X
  Y : r'.Y = r.Y
  Yprev : r'.Yprev = r.Yprev
  U : r'.U = r.U
  AX : r'.AX = r.AX
  AXnr : r'.AXnr = r.AXnr
  rho : r'.rho = r.rho
  extra : r'.extra = r.extra
  k : r.k = n + r'.k
  itstat : r.itstat = l ++ r'.itstat.map (Stat.later n)

/-- The state after construction (`admm/admm.py` 247-275) with the options `Y0 = y`, `U0 = u` and `rho` given; `x` and
`ax` stand for attributes that do not exist yet, `h` is what the constructor of the class computes. -/
def construct (x : E) (ax : G) (rho : ℝ) (y : F) (u : G) (h : H) : St E F G H :=
  { X := x, Y := y, Yprev := y, U := u, AX := ax, AXnr := ax, rho := rho, k := 0, itstat := [], extra := h }

variable [NormedAddCommGroup E] [InnerProductSpace ℝ E] [NormedAddCommGroup F] [InnerProductSpace ℝ F]
  [NormedAddCommGroup G] [InnerProductSpace ℝ G]

/-- The X update does not depend on the previous X, nor on attributes about which `Inv` says nothing. -/
def Forgets (C : Cls E F G H) (Inv : ℝ → H → Prop) : Prop :=
  ∀ rho X X' Y U h h', 0 < rho → Inv rho h → Inv rho h' → C.xstep rho X' Y U h' = C.xstep rho X Y U h

/-- The automatic update of rho is off, or happens at the same iterations of the two solvers. -/
def InPhase (o : Opts) (n : ℕ) : Prop := o.autoRho = false ∨ 2 ≤ o.period ∧ o.period ∣ n

theorem InPhase.iff {o : Opts} {n : ℕ} (h : InPhase o n) (k : ℕ) :
    (o.autoRho = true ∧ n + k ≠ 0 ∧ npMod (n + k + 1) o.period = 0) ↔
      (o.autoRho = true ∧ k ≠ 0 ∧ npMod (k + 1) o.period = 0) := by
  rcases h with h | ⟨h1, j, rfl⟩
  · simp [h]
  · have e : npMod (o.period * j + k + 1) o.period = npMod (k + 1) o.period := by
      unfold npMod
      rw [if_neg (by omega), if_neg (by omega), add_assoc, Nat.mul_add_mod]
    rw [e]
    refine and_congr_right fun _ => ⟨fun ⟨_, h3⟩ => ⟨?_, h3⟩, fun ⟨h2, h3⟩ => ⟨by omega, h3⟩⟩
    rintro rfl
    unfold npMod at h3
    rw [if_neg (by omega), zero_add, Nat.mod_eq_of_lt (by omega)] at h3
    exact one_ne_zero h3

variable {C : Cls E F G H} {Inv : ℝ → H → Prop} {o : Opts}

theorem body_warm (hf : Forgets C Inv) {n : ℕ} (hn : InPhase o n) {l : List Stat} {s s' : St E F G H}
    (hp : 0 < s.rho) (hI : Inv s.rho s.extra) (hI' : Inv s.rho s'.extra) (hr : s'.rho = s.rho) (hy : s'.Y = s.Y)
    (hu : s'.U = s.U) (hl : s.itstat = l ++ s'.itstat.map (Stat.later n)) (k : ℕ) :
    Continues n l (body C o none (n + k) s).1 (body C o none k s').1 ∧
      (body C o none k s').2 = (body C o none (n + k) s).2 := by
  have hx : C.xstep s.rho s'.X s.Y s.U s'.extra = C.xstep s.rho s.X s.Y s.U s.extra :=
    hf _ _ _ _ _ _ _ hp hI hI'
  have h1 : Continues n l (steps C o { s with k := n + k }) (steps C o { s' with k := k }) := by
    unfold steps
    constructor <;> simp only [hr, hy, hu, hx]
    exact hl
  unfold body
  simp only
  generalize steps C o { s with k := n + k } = t at *
  generalize steps C o { s' with k := k } = t' at *
  have h2 : computeResiduals C o t' = computeResiduals C o t := by
    unfold computeResiduals
    simp only [h1.AXnr, h1.Y, h1.Yprev, h1.rho, h1.U]
  rw [h2]
  generalize computeResiduals C o t = q
  have h4 : Continues n l
      (if o.fastSolve then t else { t with itstat := t.itstat ++ [⟨n + k, C.objfn t.X t.Y t.extra, q, t.rho⟩] })
      (if o.fastSolve then t' else { t' with itstat := t'.itstat ++ [⟨k, C.objfn t'.X t'.Y t'.extra, q, t'.rho⟩] }) := by
    split_ifs
    · exact h1
    · refine ⟨h1.X, h1.Y, h1.Yprev, h1.U, h1.AX, h1.AXnr, h1.rho, h1.extra, h1.k, ?_⟩
      simp only [List.map_append, List.map_cons, List.map_nil, h1.itstat, h1.X, h1.Y, h1.extra, h1.rho, Stat.later,
        List.append_assoc]
  generalize (if o.fastSolve then t else
    { t with itstat := t.itstat ++ [⟨n + k, C.objfn t.X t.Y t.extra, q, t.rho⟩] }) = u at *
  generalize (if o.fastSolve then t' else
    { t' with itstat := t'.itstat ++ [⟨k, C.objfn t'.X t'.Y t'.extra, q, t'.rho⟩] }) = u' at *
  have h5 : Continues n l (updateRho C o (n + k) q.r q.s u) (updateRho C o k q.r q.s u') := by
    unfold updateRho
    have hc := hn.iff k
    by_cases h : o.autoRho = true ∧ k ≠ 0 ∧ npMod (k + 1) o.period = 0
    · rw [if_pos h, if_pos (hc.2 h)]
      simp only
      split_ifs
      · exact ⟨h4.X, h4.Y, h4.Yprev, by simp only [h4.U], h4.AX, h4.AXnr, by simp only [h4.rho],
          by simp only [h4.rho, h4.extra], h4.k, h4.itstat⟩
      · exact ⟨h4.X, h4.Y, h4.Yprev, by simp only [h4.U], h4.AX, h4.AXnr, by simp only [h4.rho], h4.extra, h4.k, h4.itstat⟩
    · rw [if_neg h, if_neg (fun h' => h (hc.1 h'))]
      exact h4
  refine ⟨?_, rfl⟩
  split_ifs
  · exact ⟨h5.X, h5.Y, h5.Yprev, h5.U, h5.AX, h5.AXnr, h5.rho, h5.extra, h5.k, h5.itstat⟩
  · exact ⟨h4.X, h4.Y, h4.Yprev, h4.U, h4.AX, h4.AXnr, h4.rho, h4.extra, h4.k, h4.itstat⟩

theorem loop_warm (hk : Keeps C Inv) (hf : Forgets C Inv) (ho : o.autoRho = true → o.RhoOk) {n : ℕ} (hn : InPhase o n)
    {l : List Stat} (ks : List ℕ) : ∀ {s s' : St E F G H}, 0 < s.rho → Inv s.rho s.extra → Continues n l s s' →
      Continues n l (loop C o none (ks.map (n + ·)) s) (loop C o none ks s') := by
  induction ks with
  | nil => intro s s' _ _ h; exact h
  | cons k ks ih =>
    intro s s' hp hI h
    obtain ⟨h1, h2⟩ := body_warm hf hn hp hI (h.extra ▸ hI) h.rho h.Y h.U h.itstat k
    obtain ⟨h3, h4⟩ := body_keeps hk o ho none (by intro f t hf; cases hf) (n + k) s hp hI
    rw [List.map_cons]
    unfold loop
    simp only [h2]
    split_ifs
    · exact h1
    · exact ih h3 h4 h1

/-- A solver that agrees with another in rho, Y and U continues its run. -/
theorem solve_warm (hk : Keeps C Inv) (hf : Forgets C Inv) (ho : o.autoRho = true → o.RhoOk) (hm : 1 ≤ o.maxMainIter)
    {s : St E F G H} (hn : InPhase o s.k) (hp : 0 < s.rho) (hI : Inv s.rho s.extra) (x : E) (ax : G) (h : H)
    (hI' : Inv s.rho h) :
    Continues s.k s.itstat (solve C o none s) (solve C o none (construct x ax s.rho s.Y s.U h)) := by
  obtain ⟨m, hm⟩ : ∃ m, o.maxMainIter = m + 1 := ⟨o.maxMainIter - 1, by omega⟩
  have hc : Continues s.k s.itstat (loop C o none (List.range' s.k o.maxMainIter) s)
      (loop C o none (List.range' 0 o.maxMainIter) (construct x ax s.rho s.Y s.U h)) := by
    have e : List.range' s.k o.maxMainIter = (List.range' 0 o.maxMainIter).map (s.k + ·) := by
      rw [List.map_add_range', add_zero]
    rw [e, hm, List.range'_succ, List.map_cons]
    obtain ⟨h1, h2⟩ := body_warm (o := o) (s := s) (s' := construct x ax s.rho s.Y s.U h) hf hn hp hI hI' rfl rfl rfl
      (l := s.itstat) (by simp [construct]) 0
    obtain ⟨h3, h4⟩ := body_keeps hk o ho none (by intro f t hf; cases hf) (s.k + 0) s hp hI
    unfold loop
    simp only [h2]
    split_ifs
    · exact h1
    · exact loop_warm hk hf ho hn _ h3 h4 h1
  unfold solve
  exact ⟨hc.X, hc.Y, hc.Yprev, hc.U, hc.AX, hc.AXnr, hc.rho, hc.extra, by simp only [hc.k, add_assoc]; rfl, hc.itstat⟩

/-- The attributes remain in step with rho during `solve`. -/
theorem solve_keeps (hk : Keeps C Inv) (ho : o.autoRho = true → o.RhoOk) (s : St E F G H) (hp : 0 < s.rho)
    (hI : Inv s.rho s.extra) : 0 < (solve C o none s).rho ∧ Inv (solve C o none s).rho (solve C o none s).extra := by
  have : ∀ (ks : List ℕ) (s : St E F G H), 0 < s.rho → Inv s.rho s.extra →
      0 < (loop C o none ks s).rho ∧ Inv (loop C o none ks s).rho (loop C o none ks s).extra := by
    intro ks
    induction ks with
    | nil => exact fun s hp hI => ⟨hp, hI⟩
    | cons k ks ih =>
      intro s hp hI
      obtain ⟨h1, h2⟩ := body_keeps hk o ho none (by intro f t hf; cases hf) k s hp hI
      unfold loop
      simp only
      split_ifs
      · exact ⟨h1, h2⟩
      · exact ih _ h1 h2
  exact this _ s hp hI

end Gen

/-! ## Classes with array dictionaries -/

namespace Bpdn

open Matrix

variable {N M K : ℕ}

theorem forgets_bpdn (D : Matrix (Fin N) (Fin M) ℝ) (S : Matrix (Fin N) (Fin K) ℝ) (ys) (ob) :
    Forgets (Cls.equal xstep ys rhochange ob) (Coh D S) := by
  intro rho X X' Y U h h' _ h1 h2
  rw [show h' = h from h2.trans h1.symm]
  rfl

/-- **C91 for `BPDN`.** Let a solver do a number of iterations. A second solver, constructed with the options `Y0`, `U0`
and `rho` set to the values in the first one, continues the run of the first: calling `solve()` on the second gives the
variables that a further call of `solve()` on the first gives, the same number of iterations, the same records but for
the iteration number. Either `AutoRho` is off in the further calls, or the first solver has
stopped at a multiple of its period, which is not 1. -/
theorem C91_bpdn (D : Matrix (Fin N) (Fin M) ℝ) (S : Matrix (Fin N) (Fin K) ℝ) (lmbda : ℝ) (w : Fin M × Fin K → ℝ)
    (nonNeg fe ge : Bool) (o₁ o₂ : Opts) (h₁ : o₁.autoRho = true → o₁.RhoOk) (h₂ : o₂.autoRho = true → o₂.RhoOk)
    (hm : 1 ≤ o₂.maxMainIter) (x x' ax ax' y u : Arr M K) (rho : ℝ) (hp : 0 < rho) :
    let C := clsBPDN S lmbda w nonNeg fe ge
    let s := solve C o₁ none (construct x ax rho y u (setdict S rho D))
    let s' := construct x' ax' s.rho s.Y s.U (setdict S s.rho D)
    InPhase o₂ s.k → Continues s.k s.itstat (solve C o₂ none s) (solve C o₂ none s') := by
  intro C s s' hn
  have hk : Keeps C (Coh D S) := keeps_bpdn D S _ (fun _ _ _ _ _ _ => rfl) _
  obtain ⟨h1, h2⟩ := solve_keeps hk h₁ (construct x ax rho y u (setdict S rho D)) hp rfl
  exact solve_warm hk (forgets_bpdn D S _ _) h₂ hm hn h1 h2 _ _ _ rfl

/-- **C91 for `BPDNJoint`.** -/
theorem C91_bpdnjoint (D : Matrix (Fin N) (Fin M) ℝ) (S : Matrix (Fin N) (Fin K) ℝ) (lmbda mu : ℝ)
    (w : Fin M × Fin K → ℝ) (nonNeg fe ge : Bool) (o₁ o₂ : Opts) (h₁ : o₁.autoRho = true → o₁.RhoOk)
    (h₂ : o₂.autoRho = true → o₂.RhoOk) (hm : 1 ≤ o₂.maxMainIter) (x x' ax ax' y u : Arr M K) (rho : ℝ) (hp : 0 < rho) :
    let C := clsJnt S lmbda mu w nonNeg fe ge
    let s := solve C o₁ none (construct x ax rho y u (setdict S rho D))
    let s' := construct x' ax' s.rho s.Y s.U (setdict S s.rho D)
    InPhase o₂ s.k → Continues s.k s.itstat (solve C o₂ none s) (solve C o₂ none s') := by
  intro C s s' hn
  have hk : Keeps C (Coh D S) := keeps_bpdn D S _ (fun _ _ _ _ _ _ => rfl) _
  obtain ⟨h1, h2⟩ := solve_keeps hk h₁ (construct x ax rho y u (setdict S rho D)) hp rfl
  exact solve_warm hk (forgets_bpdn D S _ _) h₂ hm hn h1 h2 _ _ _ rfl

/-- **C91 for `BPDNProjL1`.** -/
theorem C91_bpdnprojl1 (D : Matrix (Fin N) (Fin M) ℝ) (S : Matrix (Fin N) (Fin K) ℝ) (gamma : ℝ)
    (nonNeg fe ge : Bool) (o₁ o₂ : Opts) (h₁ : o₁.autoRho = true → o₁.RhoOk)
    (h₂ : o₂.autoRho = true → o₂.RhoOk) (hm : 1 ≤ o₂.maxMainIter) (x x' ax ax' y u : Arr M K) (rho : ℝ) (hp : 0 < rho) :
    let C := clsPrj S gamma nonNeg fe ge
    let s := solve C o₁ none (construct x ax rho y u (setdict S rho D))
    let s' := construct x' ax' s.rho s.Y s.U (setdict S s.rho D)
    InPhase o₂ s.k → Continues s.k s.itstat (solve C o₂ none s) (solve C o₂ none s') := by
  intro C s s' hn
  have hk : Keeps C (Coh D S) := keeps_bpdn D S _ (fun _ _ _ _ _ _ => rfl) _
  obtain ⟨h1, h2⟩ := solve_keeps hk h₁ (construct x ax rho y u (setdict S rho D)) hp rfl
  exact solve_warm hk (forgets_bpdn D S _ _) h₂ hm hn h1 h2 _ _ _ rfl

/-- **C91 for `ElasticNet`.** -/
theorem C91_elasticnet (D : Matrix (Fin N) (Fin M) ℝ) (S : Matrix (Fin N) (Fin K) ℝ) (lmbda mu : ℝ)
    (w : Fin M × Fin K → ℝ) (nonNeg fe ge : Bool) (o₁ o₂ : Opts) (h₁ : o₁.autoRho = true → o₁.RhoOk)
    (h₂ : o₂.autoRho = true → o₂.RhoOk) (hm : 1 ≤ o₂.maxMainIter) (x x' ax ax' y u : Arr M K) (rho : ℝ) (hp : 0 < rho) :
    let C := clsEN S lmbda mu w nonNeg fe ge
    let s := solve C o₁ none (construct x ax rho y u (setdictEN S mu rho D))
    let s' := construct x' ax' s.rho s.Y s.U (setdictEN S mu s.rho D)
    InPhase o₂ s.k → Continues s.k s.itstat (solve C o₂ none s) (solve C o₂ none s') := by
  intro C s s' hn
  have hk : Keeps C (CohEN D S mu) := keeps_en D S mu _ (fun _ _ _ _ _ _ => rfl) _
  obtain ⟨h1, h2⟩ := solve_keeps hk h₁ (construct x ax rho y u (setdictEN S mu rho D)) hp rfl
  refine solve_warm hk ?_ h₂ hm hn h1 h2 _ _ _ rfl
  intro rho X X' Y U h h' _ h1 h2
  rw [show h' = h from h2.trans h1.symm]
  rfl

/-- A case to which the theorem applies: `AutoRho` with the default period 10, and a solver that has done 30
iterations. -/
example : ∃ (o : Opts), o.autoRho = true ∧ o.RhoOk ∧ InPhase o 30 :=
  ⟨⟨false, 10, 0, 1, true, 10, false, false, 6, 6, 2, 10, 1, 1⟩, rfl, by constructor <;> norm_num,
    Or.inr ⟨by norm_num, by norm_num⟩⟩

end Bpdn

namespace Cmod

variable {C M K : ℕ}

/-- **C91 for `CnstrMOD`.** -/
theorem C91_cmod (Z : Matrix (Fin M) (Fin K) ℝ) (S : Matrix (Fin C) (Fin K) ℝ) (zm fe ge : Bool) (o₁ o₂ : Opts)
    (h₁ : o₁.autoRho = true → o₁.RhoOk) (h₂ : o₂.autoRho = true → o₂.RhoOk) (hm : 1 ≤ o₂.maxMainIter)
    (x x' ax ax' y u : Arr C M) (rho : ℝ) (hp : 0 < rho) :
    let cls := clsCMOD S zm fe ge
    let s := solve cls o₁ none (construct x ax rho y u (setcoef S rho Z))
    let s' := construct x' ax' s.rho s.Y s.U (setcoef S s.rho Z)
    InPhase o₂ s.k → Continues s.k s.itstat (solve cls o₂ none s) (solve cls o₂ none s') := by
  intro cls s s' hn
  have hk : Keeps cls (Coh Z S) := keeps_cmod Z S zm fe ge
  obtain ⟨h1, h2⟩ := solve_keeps hk h₁ (construct x ax rho y u (setcoef S rho Z)) hp rfl
  refine solve_warm hk ?_ h₂ hm hn h1 h2 _ _ _ rfl
  intro rho X X' Y U h h' _ h1 h2
  rw [show h' = h from Eq.trans h2 (Eq.symm h1)]
  rfl

end Cmod

end Sporco.Admm
