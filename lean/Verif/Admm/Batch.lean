import Verif.Admm.BpdnModel

/-!
# Signals processed together (C85)

The solver of `Admm/Model.lean` run on a batch of signals and on a part of the batch.
-/

set_option autoImplicit false

namespace Sporco.Admm

section Gen
variable {E F G H E' F' G' H' : Type*}

/-- The attributes that an iteration reads. -/
@[ext]
structure Core (E F G H : Type*) where
  X : E
  Y : F
  U : G
  rho : ℝ
  extra : H

/-- The attributes of a solver that an iteration reads. -/
def St.core (s : St E F G H) : Core E F G H := ⟨s.X, s.Y, s.U, s.rho, s.extra⟩

/-- One iteration. -/
noncomputable def coreStep (C : Cls E F G H) (rlx : ℝ) (c : Core E F G H) : Core E F G H :=
  let xh := C.xstep c.rho c.X c.Y c.U c.extra
  let AX := (C.relax rlx xh.1 c.Y).1
  let yh := C.ystep c.rho AX xh.1 c.Y c.U xh.2
  ⟨xh.1, yh.1, C.ustep AX yh.1 c.U, c.rho, yh.2⟩

variable [AddCommGroup G] [Module ℝ G] [AddCommGroup G'] [Module ℝ G']

theorem body_core (C : Cls E F G H) (o : Opts) (ho : o.autoRho = false) (k : ℕ) (s : St E F G H) :
    (body C o none k s).1.core = coreStep C o.rlx s.core ∧ (body C o none k s).1.k = k := by
  unfold body updateRho steps St.core coreStep
  simp only [ho, Bool.false_eq_true, false_and, if_false]
  cases o.fastSolve <;> simp [Opts.withRsdl, ho]

theorem loop_core (C : Cls E F G H) (o : Opts) (ho : o.autoRho = false) (n : ℕ) : ∀ (k : ℕ) (s : St E F G H),
    ∃ j ≤ n, (0 < n → 0 < j) ∧ (loop C o none (List.range' k n) s).core = (coreStep C o.rlx)^[j] s.core ∧
      (loop C o none (List.range' k n) s).k = if j = 0 then s.k else k + j - 1 := by
  classical
  induction n with
  | zero => intro k s; exact ⟨0, le_rfl, fun h => absurd h (by simp), rfl, rfl⟩
  | succ n ih =>
    intro k s
    obtain ⟨h1, h2⟩ := body_core C o ho k s
    rw [List.range'_succ]
    unfold loop
    simp only
    by_cases hb : (body C o none k s).2 = true
    · rw [if_pos hb]
      exact ⟨1, by omega, fun _ => one_pos, h1, by rw [h2]; simp⟩
    · rw [if_neg hb]
      obtain ⟨j, hj, hp, hc, hk⟩ := ih (k + 1) (body C o none k s).1
      refine ⟨j + 1, by omega, fun _ => Nat.succ_pos _, ?_, ?_⟩
      · rw [hc, h1, Function.iterate_succ_apply]
      · rw [hk, h2]
        by_cases h0 : j = 0
        · simp [h0]
        · rw [if_neg h0, if_neg (by omega)]; omega

/-- Without automatic penalty parameter, `solve` repeats one and the same step; the counter tells how often. -/
theorem solve_core (C : Cls E F G H) (o : Opts) (ho : o.autoRho = false) (hm : 0 < o.maxMainIter) (s : St E F G H) :
    ∃ j, 0 < j ∧ j ≤ o.maxMainIter ∧ (solve C o none s).core = (coreStep C o.rlx)^[j] s.core ∧
      (solve C o none s).k = s.k + j := by
  obtain ⟨j, h1, h2, h3, h4⟩ := loop_core C o ho o.maxMainIter s.k s
  refine ⟨j, h2 hm, h1, h3, ?_⟩
  unfold solve
  simp only
  rw [h4, if_neg (by have := h2 hm; omega)]
  have := h2 hm
  omega

/-- The methods of the second class act on a part of the arrays as those of the first act on the whole. -/
structure Restricts (C : Cls E F G H) (C' : Cls E' F' G' H') (rlx : ℝ) (TE : E → E') (TF : F → F') (TG : G → G')
    (TH : H → H') : Prop where
  xstep : ∀ rho X Y U h, C'.xstep rho (TE X) (TF Y) (TG U) (TH h) =
    (TE (C.xstep rho X Y U h).1, TH (C.xstep rho X Y U h).2)
  relax : ∀ X Y, (C'.relax rlx (TE X) (TF Y)).1 = TG (C.relax rlx X Y).1
  ystep : ∀ rho A X Y U h, C'.ystep rho (TG A) (TE X) (TF Y) (TG U) (TH h) =
    (TF (C.ystep rho A X Y U h).1, TH (C.ystep rho A X Y U h).2)
  ustep : ∀ A Y U, C'.ustep (TG A) (TF Y) (TG U) = TG (C.ustep A Y U)

/-- The part of the attributes. -/
def Core.map (TE : E → E') (TF : F → F') (TG : G → G') (TH : H → H') (c : Core E F G H) : Core E' F' G' H' :=
  ⟨TE c.X, TF c.Y, TG c.U, c.rho, TH c.extra⟩

omit [AddCommGroup G] [Module ℝ G] [AddCommGroup G'] [Module ℝ G'] in
theorem coreStep_map {C : Cls E F G H} {C' : Cls E' F' G' H'} {rlx : ℝ} {TE : E → E'} {TF : F → F'} {TG : G → G'}
    {TH : H → H'} (h : Restricts C C' rlx TE TF TG TH) :
    Function.Semiconj (Core.map TE TF TG TH) (coreStep C rlx) (coreStep C' rlx) := by
  intro c
  unfold coreStep Core.map
  simp only [h.xstep, h.relax, h.ystep, h.ustep]

/-- Two runs with the same number of iterations give corresponding results. -/
theorem solve_restricts {C : Cls E F G H} {C' : Cls E' F' G' H'} {o o' : Opts} {TE : E → E'} {TF : F → F'} {TG : G → G'}
    {TH : H → H'} (h : Restricts C C' o.rlx TE TF TG TH) (ho : o.autoRho = false) (ho' : o'.autoRho = false)
    (hr : o'.rlx = o.rlx) (hm : 0 < o.maxMainIter) (hm' : 0 < o'.maxMainIter) (s : St E F G H) (s' : St E' F' G' H')
    (hs : s'.core = s.core.map TE TF TG TH) (hk : s'.k = s.k) (he : (solve C' o' none s').k = (solve C o none s).k) :
    (solve C' o' none s').core = (solve C o none s).core.map TE TF TG TH := by
  obtain ⟨j, -, -, h1, h2⟩ := solve_core C o ho hm s
  obtain ⟨j', -, -, h1', h2'⟩ := solve_core C' o' ho' hm' s'
  have : j' = j := by omega
  subst this
  rw [h1, h1', hr, hs]
  exact ((coreStep_map h).iterate_right j').eq s.core |>.symm

/-- The stopping criterion is never met: no residuals are computed, or the tolerances are zero. -/
def Opts.Endless (o : Opts) : Prop := o.autoRho = false ∧ (o.fastSolve = true ∨ o.absStopTol = 0 ∧ o.relStopTol = 0)

theorem loop_endless (C : Cls E F G H) (o : Opts) (ho : o.Endless) (hR : ∀ a y, 0 ≤ C.nrmR a y)
    (hn : ∀ a y, 0 ≤ C.rsdlRn a y) (n : ℕ) : ∀ (k : ℕ) (s : St E F G H),
    (loop C o none (List.range' k n) s).k = if n = 0 then s.k else k + n - 1 := by
  classical
  induction n with
  | zero => intro k s; rfl
  | succ n ih =>
    intro k s
    obtain ⟨-, h2⟩ := body_core C o ho.1 k s
    have hb : (body C o none k s).2 = false := by
      unfold body
      simp only [Bool.false_or, Opts.withRsdl, ho.1]
      rcases ho.2 with h | ⟨h, h'⟩
      · simp [h]
      · rw [Bool.and_eq_false_iff]
        right
        rw [decide_eq_false_iff_not]
        rintro ⟨hc, -⟩
        unfold computeResiduals at hc
        simp only [h, h', mul_zero, zero_div, add_zero] at hc
        have h0 : (0 : ℝ) ≤ 1 := zero_le_one
        split_ifs at hc <;> first
          | exact absurd hc (not_lt.2 (hR _ _))
          | exact absurd hc (not_lt.2 (div_nonneg (hR _ _) h0))
          | exact absurd hc (not_lt.2 (div_nonneg (hR _ _) (hn _ _)))
    rw [List.range'_succ]
    unfold loop
    simp only [hb, Bool.false_eq_true, if_false]
    rw [ih, h2]
    by_cases h0 : n = 0
    · simp [h0]
    · rw [if_neg h0, if_neg (by omega)]; omega

/-- With zero tolerances all `MaxMainIter` iterations are made. -/
theorem solve_endless (C : Cls E F G H) (o : Opts) (ho : o.Endless) (hR : ∀ a y, 0 ≤ C.nrmR a y)
    (hn : ∀ a y, 0 ≤ C.rsdlRn a y) (hm : 0 < o.maxMainIter) (s : St E F G H) :
    (solve C o none s).k = s.k + o.maxMainIter := by
  unfold solve
  simp only
  rw [loop_endless C o ho hR hn, if_neg (by omega)]
  omega

end Gen

/-! ## `ADMMEqual` -/

theorem restricts_equal {E E' H H' : Type*} [NormedAddCommGroup E] [NormedSpace ℝ E] [NormedAddCommGroup E']
    [NormedSpace ℝ E'] {xs ys rc ob} {xs' ys' rc' ob'} (rlx : ℝ) (T : E →ₗ[ℝ] E') (TH : H → H')
    (hx : ∀ rho X Y U h, xs' rho (T X) (T Y) (T U) (TH h) = (T (xs rho X Y U h).1, TH (xs rho X Y U h).2))
    (hy : ∀ rho A X Y U h, ys' rho (T A) (T X) (T Y) (T U) (TH h) =
      (T (ys rho A X Y U h).1, TH (ys rho A X Y U h).2)) :
    Restricts (Cls.equal (E := E) (H := H) xs ys rc ob) (Cls.equal (E := E') (H := H') xs' ys' rc' ob') rlx T T T TH where
  xstep := hx
  relax := fun X Y => by
    change (Equal.relaxAX rlx (T X) (T Y)).1 = T (Equal.relaxAX rlx X Y).1
    unfold Equal.relaxAX
    split_ifs
    · rfl
    · simp only [map_add, map_smul]
  ystep := hy
  ustep := fun A Y U => by
    change Equal.ustep (T A) (T Y) (T U) = T (Equal.ustep A Y U)
    unfold Equal.ustep Equal.rsdlR
    rw [map_add, map_sub]

namespace Bpdn

open Matrix Sporco.Linalg Sporco.Prox

variable {N M K K' : ℕ}

/-! ## Specification -/

/-- The arrays of `x'` are those columns of `x` that `f` selects. -/
def Cols (f : Fin K' → Fin K) (x : Arr M K) (x' : Arr M K') : Prop := ∀ m k, x' (m, k) = x (m, f k)

/-- The second solver holds the part of what the first holds that belongs to the selected signals, with the same
dictionary. -/
structure Part (f : Fin K' → Fin K) (s : St (Arr M K) (Arr M K) (Arr M K) (Attr N M K))
    (s' : St (Arr M K') (Arr M K') (Arr M K') (Attr N M K')) : Prop where
  X : Cols f s.X s'.X
  Y : Cols f s.Y s'.Y
  U : Cols f s.U s'.U
  rho : s'.rho = s.rho
  k : s'.k = s.k
  D : s'.extra.D = s.extra.D
  lu : s'.extra.lu = s.extra.lu
  DTS : ∀ m k, s'.extra.DTS m k = s.extra.DTS m (f k)

/-! ## Proofs -/

/-- Selection of columns. -/
noncomputable def colsL (f : Fin K' → Fin K) : Arr M K →ₗ[ℝ] Arr M K' where
  toFun x := WithLp.toLp 2 fun i => x (i.1, f i.2)
  map_add' _ _ := rfl
  map_smul' _ _ := rfl

theorem cols_iff (f : Fin K' → Fin K) (x : Arr M K) (x' : Arr M K') : Cols f x x' ↔ x' = colsL f x := by
  constructor
  · intro h
    ext i
    exact h i.1 i.2
  · rintro rfl m k
    rfl

/-- The attributes for the selected signals. -/
def Attr.cols (f : Fin K' → Fin K) (h : Attr N M K) : Attr N M K' :=
  { D := h.D, DTS := h.DTS.submatrix id f, lu := h.lu }

theorem part_core {f : Fin K' → Fin K} {s : St (Arr M K) (Arr M K) (Arr M K) (Attr N M K)}
    {s' : St (Arr M K') (Arr M K') (Arr M K') (Attr N M K')} (h : Part f s s') :
    s'.core = s.core.map (colsL f) (colsL f) (colsL f) (Attr.cols f) := by
  have e : s'.extra = s.extra.cols f := by
    have h1 := h.D
    have h2 := h.lu
    have h3 : s'.extra.DTS = s.extra.DTS.submatrix id f := by
      ext m k
      exact h.DTS m k
    cases hs : s'.extra
    rw [hs] at h1 h2 h3
    simp only at h1 h2 h3
    rw [h1, h2, h3]
    rfl
  unfold St.core Core.map
  simp only [(cols_iff f _ _).1 h.X, (cols_iff f _ _).1 h.Y, (cols_iff f _ _).1 h.U, h.rho, e]

theorem core_part {f : Fin K' → Fin K} {s : St (Arr M K) (Arr M K) (Arr M K) (Attr N M K)}
    {s' : St (Arr M K') (Arr M K') (Arr M K') (Attr N M K')}
    (h : s'.core = s.core.map (colsL f) (colsL f) (colsL f) (Attr.cols f)) (hk : s'.k = s.k) : Part f s s' := by
  have e := congrArg Core.extra h
  change s'.extra = s.extra.cols f at e
  exact ⟨(cols_iff f _ _).2 (congrArg Core.X h), (cols_iff f _ _).2 (congrArg Core.Y h),
    (cols_iff f _ _).2 (congrArg Core.U h), congrArg Core.rho h, hk, by rw [e]; rfl, by rw [e]; rfl,
    fun m k => by rw [e]; rfl⟩

theorem submatrix_mul' {A : ℕ} (P : Matrix (Fin A) (Fin M) ℝ) (Q : Matrix (Fin M) (Fin K) ℝ) (f : Fin K' → Fin K) :
    P * Q.submatrix id f = (P * Q).submatrix id f := by
  ext i j
  simp [Matrix.mul_apply]

theorem facSolve_cols {A : ℕ} (P : Matrix (Fin A) (Fin A) ℝ) (Q : Matrix (Fin A) (Fin K) ℝ) (f : Fin K' → Fin K) :
    facSolve P (Q.submatrix id f) = (facSolve P Q).submatrix id f := by
  unfold facSolve
  exact submatrix_mul' _ _ _

theorem choSolve_cols (A : Matrix (Fin N) (Fin M) ℝ) (rho : ℝ) (b : Matrix (Fin M) (Fin K) ℝ) (f : Fin K' → Fin K)
    (l : Fac N M) : choSolveWith A rho (b.submatrix id f) l = (choSolveWith A rho b l).submatrix id f := by
  cases l with
  | tall G => exact facSolve_cols _ _ _
  | wide G =>
    unfold choSolveWith
    simp only [submatrix_mul', facSolve_cols]
    rfl

theorem xstep_cols (f : Fin K' → Fin K) (dg rho : ℝ) (Y U : Arr M K) (h : Attr N M K) :
    arr (choSolveWith (h.cols f).D dg ((h.cols f).DTS + rho • (mat (colsL f Y) - mat (colsL f U))) (h.cols f).lu) =
      colsL f (arr (choSolveWith h.D dg (h.DTS + rho • (mat Y - mat U)) h.lu)) := by
  have e : (h.cols f).DTS + rho • (mat (colsL f Y) - mat (colsL f U)) =
      (h.DTS + rho • (mat Y - mat U)).submatrix id f := rfl
  rw [e]
  change arr (choSolveWith h.D dg ((h.DTS + rho • (mat Y - mat U)).submatrix id f) h.lu) = _
  rw [choSolve_cols]
  rfl

theorem ystep_cols (f : Fin K' → Fin K) (nonNeg : Bool) (lmbda rho : ℝ) (w : Fin M × Fin K → ℝ) (V : Arr M K) :
    (WithLp.toLp 2 (gystep nonNeg (proxL1Arr (colsL f V).ofLp fun i => lmbda / rho * w (i.1, f i.2))) : Arr M K') =
      colsL f (WithLp.toLp 2 (gystep nonNeg (proxL1Arr V.ofLp fun i => lmbda / rho * w i))) := by
  ext i
  unfold gystep
  cases nonNeg <;> rfl

/-- What the options of the two runs must have in common. The numbers `Nx`, `Nc` of entries and the tolerances may
differ. -/
structure SameOpts (o o' : Opts) : Prop where
  autoRho : o.autoRho = false
  autoRho' : o'.autoRho = false
  rlx : o'.rlx = o.rlx
  iter : 0 < o.maxMainIter
  iter' : 0 < o'.maxMainIter

/-- **C85 for `BPDN`.** Let a solver hold a batch of signals, and another one any selection `f` of them, with the
weights and initial values of these signals. Without `AutoRho`, if both calls of `solve()` make the same number of
iterations, the second solver then holds the part of what the first holds that belongs to the selected signals. So the
coefficients of a signal do not depend on which other signals it is processed with, and repeated calls keep
corresponding. -/
theorem C85_bpdn (f : Fin K' → Fin K) (S : Matrix (Fin N) (Fin K) ℝ) (lmbda : ℝ) (w : Fin M × Fin K → ℝ)
    (nonNeg fe ge : Bool) (o o' : Opts) (ho : SameOpts o o')
    (s : St (Arr M K) (Arr M K) (Arr M K) (Attr N M K)) (s') (h : Part f s s')
    (hk : (solve (clsBPDN (S.submatrix id f) lmbda (fun i => w (i.1, f i.2)) nonNeg fe ge) o' none s').k =
      (solve (clsBPDN S lmbda w nonNeg fe ge) o none s).k) :
    Part f (solve (clsBPDN S lmbda w nonNeg fe ge) o none s)
      (solve (clsBPDN (S.submatrix id f) lmbda (fun i => w (i.1, f i.2)) nonNeg fe ge) o' none s') := by
  refine core_part (solve_restricts (restricts_equal o.rlx (colsL f) (Attr.cols f) ?_ ?_) ho.autoRho ho.autoRho' ho.rlx
    ho.iter ho.iter' s s' (part_core h) h.k hk) hk
  · intro rho X Y U h
    exact Prod.ext (xstep_cols f rho rho Y U h) rfl
  · intro rho A X Y U h
    exact Prod.ext (ystep_cols f nonNeg lmbda rho w (A + U)) rfl

/-- **C85 for `ElasticNet`.** -/
theorem C85_elasticnet (f : Fin K' → Fin K) (S : Matrix (Fin N) (Fin K) ℝ) (lmbda mu : ℝ) (w : Fin M × Fin K → ℝ)
    (nonNeg fe ge : Bool) (o o' : Opts) (ho : SameOpts o o')
    (s : St (Arr M K) (Arr M K) (Arr M K) (Attr N M K)) (s') (h : Part f s s')
    (hk : (solve (clsEN (S.submatrix id f) lmbda mu (fun i => w (i.1, f i.2)) nonNeg fe ge) o' none s').k =
      (solve (clsEN S lmbda mu w nonNeg fe ge) o none s).k) :
    Part f (solve (clsEN S lmbda mu w nonNeg fe ge) o none s)
      (solve (clsEN (S.submatrix id f) lmbda mu (fun i => w (i.1, f i.2)) nonNeg fe ge) o' none s') := by
  refine core_part (solve_restricts (restricts_equal o.rlx (colsL f) (Attr.cols f) ?_ ?_) ho.autoRho ho.autoRho' ho.rlx
    ho.iter ho.iter' s s' (part_core h) h.k hk) hk
  · intro rho X Y U h
    exact Prod.ext (xstep_cols f (mu + rho) rho Y U h) rfl
  · intro rho A X Y U h
    exact Prod.ext (ystep_cols f nonNeg lmbda rho w (A + U)) rfl

/-- **C85 for `BPDNProjL1`.** -/
theorem C85_bpdnprojl1 (f : Fin K' → Fin K) (S : Matrix (Fin N) (Fin K) ℝ) (gamma : ℝ)
    (nonNeg fe ge : Bool) (o o' : Opts) (ho : SameOpts o o')
    (s : St (Arr M K) (Arr M K) (Arr M K) (Attr N M K)) (s') (h : Part f s s')
    (hk : (solve (clsPrj (S.submatrix id f) gamma nonNeg fe ge) o' none s').k =
      (solve (clsPrj S gamma nonNeg fe ge) o none s).k) :
    Part f (solve (clsPrj S gamma nonNeg fe ge) o none s)
      (solve (clsPrj (S.submatrix id f) gamma nonNeg fe ge) o' none s') := by
  refine core_part (solve_restricts (restricts_equal o.rlx (colsL f) (Attr.cols f) ?_ ?_) ho.autoRho ho.autoRho' ho.rlx
    ho.iter ho.iter' s s' (part_core h) h.k hk) hk
  · intro rho X Y U h
    exact Prod.ext (xstep_cols f rho rho Y U h) rfl
  · intro rho A X Y U h
    refine Prod.ext ?_ rfl
    ext i
    change gystep nonNeg _ i = gystep nonNeg _ (i.1, f i.2)
    unfold gystep
    cases nonNeg <;> rfl

/-- The solvers as constructed, and as `setdict` leaves them, meet the hypothesis on the attributes. -/
theorem setdict_cols (f : Fin K' → Fin K) (S : Matrix (Fin N) (Fin K) ℝ) (rho : ℝ) (D : Matrix (Fin N) (Fin M) ℝ) :
    setdict (S.submatrix id f) rho D = (setdict S rho D).cols f := by
  unfold setdict Attr.cols
  simp only [submatrix_mul']

/-- With zero tolerances both calls make all `MaxMainIter` iterations, as the theorems require. -/
theorem endless_k (f : Fin K' → Fin K) (S : Matrix (Fin N) (Fin K) ℝ) (lmbda : ℝ) (w : Fin M × Fin K → ℝ)
    (nonNeg fe ge : Bool) (o o' : Opts) (ho : o.Endless) (ho' : o'.Endless) (hm : 0 < o.maxMainIter)
    (hn : o'.maxMainIter = o.maxMainIter) (s s') (h : Part f s s') :
    (solve (clsBPDN (S.submatrix id f) lmbda (fun i => w (i.1, f i.2)) nonNeg fe ge) o' none s').k =
      (solve (clsBPDN S lmbda w nonNeg fe ge) o none s).k := by
  rw [solve_endless _ _ ho' (fun _ _ => norm_nonneg _) (fun _ _ => le_max_of_le_left (norm_nonneg _)) (by omega),
    solve_endless _ _ ho (fun _ _ => norm_nonneg _) (fun _ _ => le_max_of_le_left (norm_nonneg _)) hm, h.k, hn]

/-! ## `MinL1InL2Ball` -/

/-- Selection of columns of both blocks. -/
noncomputable def colsL2 (f : Fin K' → Fin K) (y : Y2 N M K) : Y2 N M K' :=
  TwoBlock.cat (colsL f (TwoBlock.sep0 y)) (colsL f (TwoBlock.sep1 y))

/-- The second solver of class `MinL1InL2Ball` holds the selected part of what the first holds. -/
structure PartML1 (f : Fin K' → Fin K) (s : St (Arr M K) (Y2 N M K) (Y2 N M K) (AttrML1 N M))
    (s' : St (Arr M K') (Y2 N M K') (Y2 N M K') (AttrML1 N M)) : Prop where
  X : Cols f s.X s'.X
  Y0 : Cols f (TwoBlock.sep0 s.Y) (TwoBlock.sep0 s'.Y)
  Y1 : Cols f (TwoBlock.sep1 s.Y) (TwoBlock.sep1 s'.Y)
  U0 : Cols f (TwoBlock.sep0 s.U) (TwoBlock.sep0 s'.U)
  U1 : Cols f (TwoBlock.sep1 s.U) (TwoBlock.sep1 s'.U)
  rho : s'.rho = s.rho
  k : s'.k = s.k
  extra : s'.extra = s.extra

theorem cols2 {f : Fin K' → Fin K} {y : Y2 N M K} {y' : Y2 N M K'} (h0 : Cols f (TwoBlock.sep0 y) (TwoBlock.sep0 y'))
    (h1 : Cols f (TwoBlock.sep1 y) (TwoBlock.sep1 y')) : y' = colsL2 f y := by
  have e0 := (cols_iff f _ _).1 h0
  have e1 := (cols_iff f _ _).1 h1
  unfold colsL2
  rw [← e0, ← e1]
  rfl

/-- **C85 for `MinL1InL2Ball`.** -/
theorem C85_minl1 (f : Fin K' → Fin K) (D : Matrix (Fin N) (Fin M) ℝ) (S : Arr N K) (S' : Arr N K') (hS : Cols f S S')
    (epsilon : ℝ) (w : Fin M × Fin K → ℝ)
    (nonNeg ao : Bool) (o o' : Opts) (ho : SameOpts o o') (s s') (h : PartML1 f s s')
    (hk : (solve (clsML1 D S' epsilon nonNeg (fun i => w (i.1, f i.2)) ao) o' none s').k =
      (solve (clsML1 D S epsilon nonNeg w ao) o none s).k) :
    PartML1 f (solve (clsML1 D S epsilon nonNeg w ao) o none s)
      (solve (clsML1 D S' epsilon nonNeg (fun i => w (i.1, f i.2)) ao) o' none s') := by
  obtain rfl := (cols_iff f _ _).1 hS
  have key := solve_restricts (o := o) (o' := o') (TE := colsL f) (TF := colsL2 f) (TG := colsL2 f) (TH := id)
    (C := clsML1 D S epsilon nonNeg w ao) (C' := clsML1 D (colsL f S) epsilon nonNeg (fun i => w (i.1, f i.2)) ao)
    ⟨?_, ?_, ?_, ?_⟩ ho.autoRho ho.autoRho' ho.rlx ho.iter ho.iter' s s' ?_ h.k hk
  · have hX := congrArg Core.X key
    have hY := congrArg Core.Y key
    have hU := congrArg Core.U key
    refine ⟨(cols_iff f _ _).2 hX, fun m k => ?_, fun m k => ?_, fun m k => ?_, fun m k => ?_, congrArg Core.rho key, hk,
      congrArg Core.extra key⟩
    · exact congrArg (fun y : Y2 N M K' => TwoBlock.sep0 y (m, k)) hY
    · exact congrArg (fun y : Y2 N M K' => TwoBlock.sep1 y (m, k)) hY
    · exact congrArg (fun y : Y2 N M K' => TwoBlock.sep0 y (m, k)) hU
    · exact congrArg (fun y : Y2 N M K' => TwoBlock.sep1 y (m, k)) hU
  · intro rho X Y U g
    refine Prod.ext ?_ rfl
    change arr (choSolveWith g.D 1 (mat (colsL f (TwoBlock.sep0 (Y - U))) +
      g.Dᵀ * (mat (TwoBlock.sep1 (Y - U))).submatrix id f) g.lu) = colsL f (arr (choSolveWith g.D 1
        (mat (TwoBlock.sep0 (Y - U)) + g.Dᵀ * mat (TwoBlock.sep1 (Y - U))) g.lu))
    rw [submatrix_mul']
    exact congrArg arr (choSolve_cols g.D 1 (mat (TwoBlock.sep0 (Y - U)) + g.Dᵀ * mat (TwoBlock.sep1 (Y - U))) f g.lu)
  · intro X Y
    have e : cnstA1 D (colsL f X) = colsL f (cnstA1 D X) := congrArg arr (submatrix_mul' D (mat X) f)
    change (TwoBlock.relaxAX cnstA0 (cnstA1 D) 0 0 o.rlx (colsL f X) (colsL2 f Y)).1 =
      colsL2 f (TwoBlock.relaxAX cnstA0 (cnstA1 D) 0 0 o.rlx X Y).1
    unfold TwoBlock.relaxAX TwoBlock.cnstA
    simp only [e]
    split_ifs <;> rfl
  · intro rho A X Y U g
    refine Prod.ext ?_ rfl
    change TwoBlock.cat _ _ = TwoBlock.cat _ _
    cases nonNeg <;> rfl
  · intro A Y U
    rfl
  · unfold St.core Core.map
    simp only [(cols_iff f _ _).1 h.X, cols2 h.Y0 h.Y1, cols2 h.U0 h.U1, h.rho, h.extra, id]

end Bpdn

end Sporco.Admm
