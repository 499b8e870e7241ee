import Verif.Admm.BpdnModel
import Verif.Admm.Rho
import Verif.Prox.Lemmas

/-!
# Special cases of solver classes (C90)

When the parameter that distinguishes a class from a simpler one takes the value for which the problems are the same,
the two classes go through the same run.
-/

set_option autoImplicit false
set_option linter.unusedSectionVars false

namespace Sporco.Admm

variable {E F G H H' : Type*}

/-! ## Specification -/

/-- What records of two classes have in common: the classes record different terms of the objective, but all record
its value first. -/
def Stat.common (q : Stat) : ℕ × ℝ × Rsdl × ℝ := (q.iter, q.obj.1, q.rsdl, q.rho)

/-- Two solver objects are in the same state: all variables, the penalty parameter and the iteration counter are
equal, the attributes of the second are those that `e` makes of the attributes of the first, and the records show the
same objective, residuals and penalty parameters. -/
structure SameState (e : H → H') (s : St E F G H) (s' : St E F G H') : Prop where
  X : s'.X = s.X
  Y : s'.Y = s.Y
  Yprev : s'.Yprev = s.Yprev
  U : s'.U = s.U
  AX : s'.AX = s.AX
  AXnr : s'.AXnr = s.AXnr
  rho : s'.rho = s.rho
  k : s'.k = s.k
  extra : s'.extra = e s.extra
  itstat : s'.itstat.map Stat.common = s.itstat.map Stat.common

/-! ## Classes that agree -/

/-- The methods of the two classes agree for positive penalty parameters, the objective in its value. -/
structure Agrees (e : H → H') (C : Cls E F G H) (C' : Cls E F G H') : Prop where
  xstep : ∀ rho X Y U h, 0 < rho →
    C'.xstep rho X Y U (e h) = ((C.xstep rho X Y U h).1, e (C.xstep rho X Y U h).2)
  ystep : ∀ rho AX X Y U h, 0 < rho →
    C'.ystep rho AX X Y U (e h) = ((C.ystep rho AX X Y U h).1, e (C.ystep rho AX X Y U h).2)
  rhochange : ∀ rho h, 0 < rho → C'.rhochange rho (e h) = e (C.rhochange rho h)
  objfn : ∀ X Y h, (C'.objfn X Y (e h)).1 = (C.objfn X Y h).1
  relax : C'.relax = C.relax
  ustep : C'.ustep = C.ustep
  nrmR : C'.nrmR = C.nrmR
  nrmS : C'.nrmS = C.nrmS
  rsdlRn : C'.rsdlRn = C.rsdlRn
  rsdlSn : C'.rsdlSn = C.rsdlSn

variable [AddCommGroup G] [Module ℝ G] {e : H → H'} {C : Cls E F G H} {C' : Cls E F G H'} {o : Opts}

theorem agrees_steps (h : Agrees e C C') {s : St E F G H} {s' : St E F G H'} (hs : SameState e s s') (hp : 0 < s.rho) :
    SameState e (steps C o s) (steps C' o s') := by
  have hx := h.xstep s.rho s.X s.Y s.U s.extra hp
  have hy := fun AX X hh => h.ystep s.rho AX X s.Y s.U hh hp
  unfold steps
  constructor <;> simp only [hs.X, hs.extra, hs.rho, hs.Y, hs.U, hs.k, hs.itstat, hx, h.relax, h.ustep, hy]

theorem agrees_residuals (h : Agrees e C C') {s : St E F G H} {s' : St E F G H'} (hs : SameState e s s') :
    computeResiduals C' o s' = computeResiduals C o s := by
  unfold computeResiduals
  simp only [h.nrmR, h.nrmS, h.rsdlRn, h.rsdlSn, hs.AXnr, hs.Y, hs.Yprev, hs.rho, hs.U]

theorem agrees_updateRho (h : Agrees e C C') {s : St E F G H} {s' : St E F G H'} (hs : SameState e s s') (k : ℕ) (r q : ℝ)
    (hp : 0 < s.rho) (hf : 0 < rsf o r q) :
    SameState e (updateRho C o k r q s) (updateRho C' o k r q s') ∧ 0 < (updateRho C o k r q s).rho := by
  have hr := h.rhochange (s.rho * rsf o r q) s.extra (mul_pos hp hf)
  unfold updateRho
  by_cases hc : o.autoRho = true ∧ k ≠ 0 ∧ npMod (k + 1) o.period = 0
  · simp only [if_pos hc]
    by_cases h1 : rsf o r q ≠ 1
    · simp only [if_pos h1]
      refine ⟨⟨hs.X, hs.Y, hs.Yprev, ?_, hs.AX, hs.AXnr, ?_, hs.k, ?_, hs.itstat⟩, mul_pos hp hf⟩
      · simp only [hs.U]
      · simp only [hs.rho]
      · simp only [hs.rho, hs.extra, hr]
    · simp only [if_neg h1]
      refine ⟨⟨hs.X, hs.Y, hs.Yprev, ?_, hs.AX, hs.AXnr, ?_, hs.k, hs.extra, hs.itstat⟩, mul_pos hp hf⟩
      · simp only [hs.U]
      · simp only [hs.rho]
  · simp only [if_neg hc]
    exact ⟨hs, hp⟩

theorem agrees_body (h : Agrees e C C') (hn : C.Sane) (ho : o.RhoOk) {s : St E F G H}
    {s' : St E F G H'} (hs : SameState e s s') (hp : 0 < s.rho) (k : ℕ) :
    SameState e (body C o none k s).1 (body C' o none k s').1 ∧ (body C' o none k s').2 = (body C o none k s).2 ∧
      0 < (body C o none k s).1.rho := by
  have h0 : SameState e { s with k := k } { s' with k := k } :=
    ⟨hs.X, hs.Y, hs.Yprev, hs.U, hs.AX, hs.AXnr, hs.rho, rfl, hs.extra, hs.itstat⟩
  have h1 := agrees_steps (o := o) h h0 hp
  have hp1 : 0 < (steps C o { s with k := k }).rho := hp
  have h2 := agrees_residuals (o := o) h h1
  have h3 := residuals_nonneg hn o (steps C o { s with k := k }) hp1.le
  unfold body
  simp only
  rw [h2]
  generalize steps C o { s with k := k } = t at *
  generalize steps C' o { s' with k := k } = t' at *
  generalize computeResiduals C o t = q at *
  have h4 : SameState e (if o.fastSolve then t else { t with itstat := t.itstat ++ [⟨k, C.objfn t.X t.Y t.extra, q, t.rho⟩] })
      (if o.fastSolve then t' else { t' with itstat := t'.itstat ++ [⟨k, C'.objfn t'.X t'.Y t'.extra, q, t'.rho⟩] }) := by
    split_ifs
    · exact h1
    · refine ⟨h1.X, h1.Y, h1.Yprev, h1.U, h1.AX, h1.AXnr, h1.rho, h1.k, h1.extra, ?_⟩
      simp only [List.map_append, List.map_cons, List.map_nil, h1.itstat, Stat.common, h1.X, h1.Y, h1.extra, h.objfn, h1.rho]
  have hp4 : 0 < (if o.fastSolve then t else { t with itstat := t.itstat ++ [⟨k, C.objfn t.X t.Y t.extra, q, t.rho⟩] }).rho := by
    split_ifs <;> exact hp1
  generalize (if o.fastSolve then t else { t with itstat := t.itstat ++ [⟨k, C.objfn t.X t.Y t.extra, q, t.rho⟩] }) = u at *
  generalize (if o.fastSolve then t' else { t' with itstat := t'.itstat ++ [⟨k, C'.objfn t'.X t'.Y t'.extra, q, t'.rho⟩] }) = u' at *
  have h5 := agrees_updateRho h h4 k q.r q.s hp4 (rsf_bounds (o := o) ho h3.1 h3.2).2.2
  refine ⟨?_, by rfl, ?_⟩
  · have h6 : SameState e (if o.withRsdl = true then updateRho C o k q.r q.s u else u)
        (if o.withRsdl = true then updateRho C' o k q.r q.s u' else u') := by
      split_ifs
      · exact h5.1
      · exact h4
    exact ⟨h6.X, h6.Y, h6.Yprev, h6.U, h6.AX, h6.AXnr, h6.rho, h6.k, h6.extra, h6.itstat⟩
  · split_ifs
    · exact h5.2
    · exact hp4

theorem agrees_loop (h : Agrees e C C') (hn : C.Sane) (ho : o.RhoOk) (ks : List ℕ) :
    ∀ {s : St E F G H} {s' : St E F G H'}, SameState e s s' → 0 < s.rho →
      SameState e (loop C o none ks s) (loop C' o none ks s') ∧ 0 < (loop C o none ks s).rho := by
  induction ks with
  | nil => intro s s' hs hp; exact ⟨hs, hp⟩
  | cons k ks ih =>
    intro s s' hs hp
    obtain ⟨h1, h2, h3⟩ := agrees_body h hn ho hs hp k
    unfold loop
    simp only [h2]
    split_ifs
    · exact ⟨h1, h3⟩
    · exact ih h1 h3

/-- Any number of calls of `solve`, with any options. -/
theorem agrees_solve (h : Agrees e C C') (hn : C.Sane) (ho : o.RhoOk) {s : St E F G H}
    {s' : St E F G H'} (hs : SameState e s s') (hp : 0 < s.rho) :
    SameState e (solve C o none s) (solve C' o none s') ∧ 0 < (solve C o none s).rho := by
  obtain ⟨h1, h2⟩ := agrees_loop (o := o) h hn ho (List.range' s.k o.maxMainIter) hs hp
  unfold solve
  simp only
  rw [hs.k]
  exact ⟨⟨h1.X, h1.Y, h1.Yprev, h1.U, h1.AX, h1.AXnr, h1.rho, by simp only [h1.k], h1.extra, h1.itstat⟩, h2⟩

theorem agrees_equal {E H H' : Type*} [NormedAddCommGroup E] [NormedSpace ℝ E] {e : H → H'}
    {xs : ℝ → E → E → E → H → E × H} {ys : ℝ → E → E → E → E → H → E × H} {rc : ℝ → H → H}
    {ob : E → E → H → ℝ × ℝ × ℝ} {xs' : ℝ → E → E → E → H' → E × H'} {ys' : ℝ → E → E → E → E → H' → E × H'}
    {rc' : ℝ → H' → H'} {ob' : E → E → H' → ℝ × ℝ × ℝ}
    (hx : ∀ rho X Y U h, 0 < rho → xs' rho X Y U (e h) = ((xs rho X Y U h).1, e (xs rho X Y U h).2))
    (hy : ∀ rho AX X Y U h, 0 < rho → ys' rho AX X Y U (e h) = ((ys rho AX X Y U h).1, e (ys rho AX X Y U h).2))
    (hr : ∀ rho h, 0 < rho → rc' rho (e h) = e (rc rho h)) (ho : ∀ X Y h, (ob' X Y (e h)).1 = (ob X Y h).1) :
    Agrees e (Cls.equal xs ys rc ob) (Cls.equal xs' ys' rc' ob') :=
  ⟨hx, hy, hr, ho, rfl, rfl, rfl, rfl, rfl, rfl⟩

end Sporco.Admm

namespace Sporco.Prox

variable {ι : Type*} [Fintype ι]

/-- No shrinkage. -/
theorem proxL2_zero (v : ι → ℝ) : proxL2 v 0 = v := by
  funext i
  have h0 : 0 ≤ normL2 v := Real.sqrt_nonneg _
  unfold proxL2
  simp only [sub_zero, max_eq_right h0]
  unfold zdivide
  by_cases hz : normL2 v = 0
  · have h1 : ∑ j, ‖v j‖ ^ 2 = 0 := (Real.sqrt_eq_zero (Finset.sum_nonneg fun _ _ => sq_nonneg _)).1 hz
    have h2 := (Finset.sum_eq_zero_iff_of_nonneg fun _ _ => sq_nonneg _).1 h1 i (Finset.mem_univ i)
    have h3 : v i = 0 := norm_eq_zero.1 (pow_eq_zero_iff two_ne_zero |>.1 h2)
    rw [h3, smul_zero]
  · rw [if_pos hz, div_self hz, one_smul]

theorem proxSl1l2_zero (v α : ι → ℝ) : proxSl1l2 v α 0 = proxL1Arr v α := proxL2_zero _

/-- For a single entry both norms are the absolute value. -/
theorem proxSl1l2_one [Unique ι] (v α : ι → ℝ) (β : ℝ) (hα : ∀ i, 0 ≤ α i) (hβ : 0 ≤ β) (i : ι) :
    proxSl1l2 v α β i = proxL1 (v i) (α i + β) := by
  have hi : i = default := Subsingleton.elim _ _
  have hn : normL2 (proxL1Arr v α) = max (|v i| - α i) 0 := by
    unfold normL2
    rw [Fintype.sum_unique, Real.sqrt_sq_eq_abs, hi]
    simp only [proxL1Arr, Real.norm_eq_abs, abs_abs]
    exact abs_proxL1 _ _ (hα _)
  unfold proxSl1l2 proxL2
  simp only [hn, smul_eq_mul]
  unfold zdivide proxL1Arr proxL1
  by_cases h : max (|v i| - α i) 0 = 0
  · have h1 : |v i| - α i ≤ 0 := h ▸ le_max_left _ _
    rw [max_eq_right h1, max_eq_right (by linarith : |v i| - (α i + β) ≤ 0)]
    simp
  · have h1 : 0 < |v i| - α i := by
      by_contra hc
      exact h (max_eq_right (not_lt.1 hc))
    rw [if_pos h, max_eq_left h1.le]
    rw [show max 0 (|v i| - α i - β) = max (|v i| - (α i + β)) 0 by rw [max_comm]; congr 1; ring]
    field_simp

end Sporco.Prox

namespace Sporco.Admm.Bpdn

open Matrix Sporco.Prox

variable {N M K : ℕ}

/-- The state of two objects of classes derived from `GenericBPDN`. -/
abbrev Same (s s' : St (Arr M K) (Arr M K) (Arr M K) (Attr N M K)) : Prop := SameState id s s'

/-- **C90 for `ElasticNet`.** With `mu = 0` it is `BPDN`: the constructor sets up the same factorisation, and all runs
agree. -/
theorem C90_elasticnet (S : Matrix (Fin N) (Fin K) ℝ) (lmbda : ℝ) (w : Fin M × Fin K → ℝ) (nonNeg fe ge : Bool) (o : Opts)
    (ho : o.RhoOk) :
    (∀ (rho : ℝ) (D : Matrix (Fin N) (Fin M) ℝ), setdictEN S 0 rho D = setdict S rho D) ∧
    ∀ s s', Same s s' → 0 < s.rho → Same (solve (clsBPDN S lmbda w nonNeg fe ge) o none s)
      (solve (clsEN S lmbda 0 w nonNeg fe ge) o none s') := by
  refine ⟨fun rho D => by unfold setdictEN setdict; rw [zero_add], fun s s' hs hp => ?_⟩
  refine (agrees_solve (agrees_equal (fun rho X Y U h _ => ?_) (fun _ _ _ _ _ _ _ => ?_) (fun rho h _ => ?_)
    fun X Y h => ?_) (equal_sane _ _ _ _) ho hs hp).1
  · unfold xstepEN xstep; rw [zero_add]; rfl
  · rfl
  · unfold rhochangeEN rhochange; rw [zero_add]; rfl
  · simp only [regEN, regBPDN, zero_mul, add_zero, id]

/-- **C90 for `BPDNJoint`.** With `mu = 0` it is `BPDN`. -/
theorem C90_bpdnjoint (S : Matrix (Fin N) (Fin K) ℝ) (lmbda : ℝ) (w : Fin M × Fin K → ℝ) (nonNeg fe ge : Bool) (o : Opts)
    (ho : o.RhoOk) :
    ∀ s s', Same s s' → 0 < s.rho → Same (solve (clsBPDN S lmbda w nonNeg fe ge) o none s)
      (solve (clsJnt S lmbda 0 w nonNeg fe ge) o none s') := by
  intro s s' hs hp
  refine (agrees_solve (agrees_equal (fun _ _ _ _ _ _ => ?_) (fun rho AX X Y U h _ => ?_) (fun _ _ _ => ?_)
    fun X Y h => ?_) (equal_sane _ _ _ _) ho hs hp).1
  · rfl
  · unfold ystepJnt ystepBPDN
    rw [zero_div]
    simp only [proxSl1l2_zero]
    rfl
  · rfl
  · simp only [regJnt, regBPDN, zero_mul, add_zero, id]

/-- **C90 for `BPDNJoint` and a single signal.** The l2,1 norm is the l1 norm, so that the class is `BPDN` with the
weights `lmbda w + mu`. -/
theorem C90_bpdnjoint_single (S : Matrix (Fin N) (Fin 1) ℝ) (lmbda mu : ℝ) (w : Fin M × Fin 1 → ℝ) (nonNeg fe ge : Bool)
    (o : Opts) (ho : o.RhoOk) (hl : 0 ≤ lmbda) (hw : ∀ i, 0 ≤ w i) (hmu : 0 ≤ mu) :
    ∀ s s', Same s s' → 0 < s.rho → Same (solve (clsBPDN S 1 (fun i => lmbda * w i + mu) nonNeg fe ge) o none s)
      (solve (clsJnt S lmbda mu w nonNeg fe ge) o none s') := by
  intro s s' hs hp
  refine (agrees_solve (agrees_equal (fun _ _ _ _ _ _ => ?_) (fun rho AX X Y U h hr => ?_) (fun _ _ _ => ?_)
    fun X Y h => ?_) (equal_sane _ _ _ _) ho hs hp).1
  · rfl
  · have e : (fun p : Fin M × Fin 1 => proxSl1l2 (fun j => (AX + U).ofLp (p.1, j)) (fun j => lmbda / rho * w (p.1, j))
        (mu / rho) p.2) = proxL1Arr (AX + U).ofLp fun i => 1 / rho * (lmbda * w i + mu) := by
      funext p
      rw [proxSl1l2_one _ _ _ (fun j => ?_) (div_nonneg hmu hr.le)]
      · unfold proxL1Arr
        congr 1
        change lmbda / rho * w p + mu / rho = _
        ring
      · rw [div_mul_eq_mul_div]
        exact div_nonneg (mul_nonneg hl (hw _)) hr.le
    unfold ystepJnt ystepBPDN
    rw [e]
  · rfl
  · simp only [regJnt, regBPDN, id]
    congr 1
    generalize gvar ge X Y = y
    unfold normL1
    rw [one_mul, Finset.mul_sum, Finset.mul_sum, Fintype.sum_prod_type, Fintype.sum_prod_type, ← Finset.sum_add_distrib]
    refine Finset.sum_congr rfl fun i _ => ?_
    simp only [Fintype.sum_unique, Real.sqrt_sq_eq_abs, Real.norm_eq_abs]
    rw [abs_mul, abs_mul, abs_of_nonneg (add_nonneg (mul_nonneg hl (hw _)) hmu), abs_of_nonneg (hw _)]
    ring

/-- A run to which the theorems apply. -/
example : ∃ (o : Opts) (s : St (Arr 2 3) (Arr 2 3) (Arr 2 3) (Attr 4 2 3)), o.RhoOk ∧ Same s s ∧ 0 < s.rho ∧
    s.extra = setdict (Matrix.of fun i j => (i : ℝ) - j) s.rho (Matrix.of fun i j => (i : ℝ) + j) :=
  ⟨⟨false, 10, 0, 1, true, 5, false, false, 6, 6, 2, 10, 1, 1⟩,
    ⟨0, 0, 0, 0, 0, 0, 1, 0, [], setdict _ 1 _⟩, by constructor <;> norm_num,
    ⟨rfl, rfl, rfl, rfl, rfl, rfl, rfl, rfl, rfl, rfl⟩, one_pos, rfl⟩

end Sporco.Admm.Bpdn
