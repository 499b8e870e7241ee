import Verif.Admm.BpdnConv
import Verif.Admm.Loop
import Verif.Admm.Warm
import Verif.Prox.Props

/-!
# Change of units (C92)

Multiplying the signals and the regularisation parameters by a positive number multiplies the iterates by that number.
-/

set_option autoImplicit false
set_option linter.unusedSectionVars false

namespace Sporco.Admm

variable {E F G H H' : Type*}

/-! ## Specification -/

/-- Residuals and thresholds in other units: with the option `StdResiduals` they are multiplied by `c`, otherwise they
are relative and do not change. -/
def Rsdl.scaled (c : ℝ) (std : Bool) (q : Rsdl) : Rsdl :=
  if std then ⟨c * q.r, c * q.s, c * q.epri, c * q.edua⟩ else q

/-- An iteration record in other units; `p` says how the terms of the objective change. -/
def Stat.scaled (c : ℝ) (std : Bool) (p : ℝ × ℝ × ℝ → ℝ × ℝ × ℝ) (q : Stat) : Stat :=
  { iter := q.iter, obj := p q.obj, rsdl := q.rsdl.scaled c std, rho := q.rho }

/-- The options in other units: the absolute stopping tolerance (default 0) is multiplied by `c`. -/
def Opts.scaled (c : ℝ) (o : Opts) : Opts := { o with absStopTol := c * o.absStopTol }

/-- The terms of an objective that is quadratic in the units. -/
def sqr (c : ℝ) (q : ℝ × ℝ × ℝ) : ℝ × ℝ × ℝ := (c ^ 2 * q.1, c ^ 2 * q.2.1, c ^ 2 * q.2.2)

variable [NormedAddCommGroup E] [InnerProductSpace ℝ E] [NormedAddCommGroup F] [InnerProductSpace ℝ F]
  [NormedAddCommGroup G] [InnerProductSpace ℝ G]

/-- A solver object in other units: the variables are multiplied by `c`, the penalty parameter and the iteration counter
are the same. -/
def St.scaled (c : ℝ) (std : Bool) (p : ℝ × ℝ × ℝ → ℝ × ℝ × ℝ) (e : H → H') (s : St E F G H) : St E F G H' :=
  { X := c • s.X, Y := c • s.Y, Yprev := c • s.Yprev, U := c • s.U, AX := c • s.AX, AXnr := c • s.AXnr, rho := s.rho,
    k := s.k, itstat := s.itstat.map (Stat.scaled c std p), extra := e s.extra }

/-- The numbers by which residuals are divided are not zero. -/
def Live (C : Cls E F G H) (s : St E F G H) : Prop := C.rsdlRn s.AXnr s.Y ≠ 0 ∧ C.rsdlSn s.rho s.U ≠ 0

/-- Residuals are not normalised, or never by zero (which the code replaces by 1) in the run that starts with `s`. -/
def Normal (C : Cls E F G H) (o : Opts) (s : St E F G H) : Prop :=
  o.stdResiduals = true ∨ ∀ n, Live C (steps C o (traj C o none s n))

/-! ## Runs of classes that scale -/

/-- The methods of the two classes agree up to the units. -/
structure Scales (c : ℝ) (p : ℝ × ℝ × ℝ → ℝ × ℝ × ℝ) (e : H → H') (C : Cls E F G H) (C' : Cls E F G H') : Prop where
  xstep : ∀ rho X Y U h, C'.xstep rho (c • X) (c • Y) (c • U) (e h) =
    (c • (C.xstep rho X Y U h).1, e (C.xstep rho X Y U h).2)
  ystep : ∀ rho AX X Y U h, C'.ystep rho (c • AX) (c • X) (c • Y) (c • U) (e h) =
    (c • (C.ystep rho AX X Y U h).1, e (C.ystep rho AX X Y U h).2)
  rhochange : ∀ rho h, C'.rhochange rho (e h) = e (C.rhochange rho h)
  objfn : ∀ X Y h, C'.objfn (c • X) (c • Y) (e h) = p (C.objfn X Y h)
  relax : ∀ rlx X Y, C'.relax rlx (c • X) (c • Y) = (c • (C.relax rlx X Y).1, c • (C.relax rlx X Y).2)
  ustep : ∀ AX Y U, C'.ustep (c • AX) (c • Y) (c • U) = c • C.ustep AX Y U
  nrmR : ∀ AX Y, C'.nrmR (c • AX) (c • Y) = c * C.nrmR AX Y
  nrmS : ∀ rho Yp Y U, C'.nrmS rho (c • Yp) (c • Y) (c • U) = c * C.nrmS rho Yp Y U
  rsdlRn : ∀ AX Y, C'.rsdlRn (c • AX) (c • Y) = c * C.rsdlRn AX Y
  rsdlSn : ∀ rho U, C'.rsdlSn rho (c • U) = c * C.rsdlSn rho U

variable {c : ℝ} {p : ℝ × ℝ × ℝ → ℝ × ℝ × ℝ} {e : H → H'} {C : Cls E F G H} {C' : Cls E F G H'} {o : Opts}

theorem scaled_steps (h : Scales c p e C C') (std : Bool) (s : St E F G H) :
    steps C' (o.scaled c) (s.scaled c std p e) = (steps C o s).scaled c std p e := by
  unfold steps St.scaled Opts.scaled
  simp only [h.xstep, h.relax, h.ystep, h.ustep]

theorem scaled_residuals (hc : 0 < c) (h : Scales c p e C C') (s : St E F G H)
    (hl : o.stdResiduals = true ∨ Live C s) :
    computeResiduals C' (o.scaled c) (s.scaled c o.stdResiduals p e) =
      (computeResiduals C o s).scaled c o.stdResiduals := by
  have hc' := hc.ne'
  by_cases hs : o.stdResiduals = true
  · simp only [computeResiduals, Opts.scaled, hs, if_true, St.scaled, Rsdl.scaled, h.nrmR, h.nrmS, h.rsdlRn, h.rsdlSn]
    congr 1 <;> ring
  · obtain ⟨h1, h2⟩ := hl.resolve_left hs
    have h3 : c * C.rsdlRn s.AXnr s.Y ≠ 0 := mul_ne_zero hc' h1
    have h4 : c * C.rsdlSn s.rho s.U ≠ 0 := mul_ne_zero hc' h2
    simp only [computeResiduals, Opts.scaled, hs, St.scaled, Rsdl.scaled, h.nrmR, h.nrmS, h.rsdlRn, h.rsdlSn,
      if_neg h1, if_neg h2, if_neg h3, if_neg h4, Bool.false_eq_true, if_false]
    congr 1
    · rw [mul_div_mul_left _ _ hc']
    · rw [mul_div_mul_left _ _ hc']
    · rw [show √(o.Nc : ℝ) * (c * o.absStopTol) = c * (√(o.Nc : ℝ) * o.absStopTol) by ring, mul_div_mul_left _ _ hc']
    · rw [show √(o.Nx : ℝ) * (c * o.absStopTol) = c * (√(o.Nx : ℝ) * o.absStopTol) by ring, mul_div_mul_left _ _ hc']

theorem rsf_scaled (hc : 0 < c) (r s : ℝ) : rsf (o.scaled c) (c * r) (c * s) = rsf o r s := by
  have hc' := hc.ne'
  have e1 : rsdlRatio (o.scaled c) (c * r) (c * s) = rsdlRatio o r s := by
    unfold rsdlRatio Opts.scaled
    simp only [mul_assoc c s o.xi, mul_div_mul_left _ _ hc', gt_iff_lt, mul_lt_mul_iff_right₀ hc]
  have e2 : rhomlt (o.scaled c) (c * r) (c * s) = rhomlt o r s := by
    unfold rhomlt
    simp only [e1, mul_eq_zero, hc', false_or]
    rfl
  unfold rsf
  rw [e2]
  simp only [Opts.scaled, gt_iff_lt, mul_left_comm _ c, mul_lt_mul_iff_right₀ hc]

theorem rsf_scaled' (hc : 0 < c) (std : Bool) (q : Rsdl) :
    rsf (o.scaled c) (q.scaled c std).r (q.scaled c std).s = rsf o q.r q.s := by
  cases std
  · rfl
  · exact rsf_scaled hc q.r q.s

theorem scaled_updateRho (hc : 0 < c) (h : Scales c p e C C') (std : Bool) (k : ℕ) (q : Rsdl) (s : St E F G H) :
    updateRho C' (o.scaled c) k (q.scaled c std).r (q.scaled c std).s (s.scaled c std p e) =
      (updateRho C o k q.r q.s s).scaled c std p e := by
  unfold updateRho
  rw [rsf_scaled' hc]
  have ha : (o.scaled c).autoRho = o.autoRho := rfl
  have hp : (o.scaled c).period = o.period := rfl
  rw [ha, hp]
  by_cases h1 : o.autoRho = true ∧ k ≠ 0 ∧ npMod (k + 1) o.period = 0
  · by_cases h2 : rsf o q.r q.s ≠ 1
    · simp only [if_pos h1, if_pos h2, St.scaled, h.rhochange, smul_comm c (rsf o q.r q.s)⁻¹]
    · simp only [if_pos h1, if_neg h2, St.scaled, smul_comm c (rsf o q.r q.s)⁻¹]
  · simp only [if_neg h1]

theorem scaled_body (hc : 0 < c) (h : Scales c p e C C') (k : ℕ) (s : St E F G H)
    (hl : o.stdResiduals = true ∨ Live C (steps C o { s with k := k })) :
    body C' (o.scaled c) none k (s.scaled c o.stdResiduals p e) =
      ((body C o none k s).1.scaled c o.stdResiduals p e, (body C o none k s).2) := by
  have h1 : steps C' (o.scaled c) { (s.scaled c o.stdResiduals p e) with k := k } =
      (steps C o { s with k := k }).scaled c o.stdResiduals p e := scaled_steps h _ { s with k := k }
  unfold body
  simp only [h1]
  generalize steps C o { s with k := k } = t at hl
  rw [scaled_residuals hc h t hl]
  generalize computeResiduals C o t = q
  have hf : (o.scaled c).fastSolve = o.fastSolve := rfl
  have hw : (o.scaled c).withRsdl = o.withRsdl := rfl
  rw [hf, hw]
  have h2 : (if o.fastSolve = true then t.scaled c o.stdResiduals p e else
      { (t.scaled c o.stdResiduals p e) with itstat := (t.scaled c o.stdResiduals p e).itstat ++
        [⟨k, C'.objfn (t.scaled c o.stdResiduals p e).X (t.scaled c o.stdResiduals p e).Y
          (t.scaled c o.stdResiduals p e).extra, q.scaled c o.stdResiduals, (t.scaled c o.stdResiduals p e).rho⟩] }) =
      (if o.fastSolve = true then t else
        { t with itstat := t.itstat ++ [⟨k, C.objfn t.X t.Y t.extra, q, t.rho⟩] }).scaled c o.stdResiduals p e := by
    split_ifs
    · rfl
    · simp only [St.scaled, h.objfn, List.map_append, List.map_cons, List.map_nil, Stat.scaled]
  rw [h2]
  generalize (if o.fastSolve = true then t else
        { t with itstat := t.itstat ++ [⟨k, C.objfn t.X t.Y t.extra, q, t.rho⟩] }) = t2
  rw [scaled_updateRho hc h]
  refine Prod.ext ?_ ?_
  · simp only
    split_ifs <;> rfl
  · have e1 : ((q.scaled c o.stdResiduals).r < (q.scaled c o.stdResiduals).epri) = (q.r < q.epri) := by
      unfold Rsdl.scaled; split_ifs
      · simp only [mul_lt_mul_iff_right₀ hc]
      · rfl
    have e2 : ((q.scaled c o.stdResiduals).s < (q.scaled c o.stdResiduals).edua) = (q.s < q.edua) := by
      unfold Rsdl.scaled; split_ifs
      · simp only [mul_lt_mul_iff_right₀ hc]
      · rfl
    simp only [e1, e2]

theorem scaled_loop (hc : 0 < c) (h : Scales c p e C C') (m : ℕ) : ∀ (k : ℕ) (s : St E F G H),
    Normal C o { s with k := k } →
    loop C' (o.scaled c) none (List.range' k m) (s.scaled c o.stdResiduals p e) =
      (loop C o none (List.range' k m) s).scaled c o.stdResiduals p e := by
  induction m with
  | zero => intro k s _; rfl
  | succ m ih =>
    intro k s hl
    rw [List.range'_succ]
    unfold loop
    simp only
    rw [scaled_body hc h k s (hl.imp id fun h => h 0)]
    simp only
    split_ifs
    · rfl
    · refine ih (k + 1) _ (hl.imp id fun h n => ?_)
      have := h (n + 1)
      rw [traj_succ'] at this
      exact this

theorem scaled_solve (hc : 0 < c) (h : Scales c p e C C') (s : St E F G H) (hl : Normal C o s) :
    solve C' (o.scaled c) none (s.scaled c o.stdResiduals p e) =
      (solve C o none s).scaled c o.stdResiduals p e := by
  unfold solve
  simp only
  have := scaled_loop hc h o.maxMainIter s.k s hl
  rw [show (s.scaled c o.stdResiduals p e : St E F G H').k = s.k from rfl,
    show (o.scaled c).maxMainIter = o.maxMainIter from rfl, this]
  rfl

theorem scales_equal (hc : 0 < c) {xs : ℝ → E → E → E → H → E × H} {ys : ℝ → E → E → E → E → H → E × H} {rc : ℝ → H → H}
    {ob : E → E → H → ℝ × ℝ × ℝ} {xs' : ℝ → E → E → E → H' → E × H'} {ys' : ℝ → E → E → E → E → H' → E × H'}
    {rc' : ℝ → H' → H'} {ob' : E → E → H' → ℝ × ℝ × ℝ}
    (hx : ∀ rho X Y U h, xs' rho (c • X) (c • Y) (c • U) (e h) = (c • (xs rho X Y U h).1, e (xs rho X Y U h).2))
    (hy : ∀ rho AX X Y U h, ys' rho (c • AX) (c • X) (c • Y) (c • U) (e h) =
      (c • (ys rho AX X Y U h).1, e (ys rho AX X Y U h).2))
    (hr : ∀ rho h, rc' rho (e h) = e (rc rho h)) (ho : ∀ X Y h, ob' (c • X) (c • Y) (e h) = p (ob X Y h)) :
    Scales c p e (Cls.equal xs ys rc ob) (Cls.equal xs' ys' rc' ob') := by
  have hn : ∀ v : E, ‖c • v‖ = c * ‖v‖ := fun v => by rw [norm_smul, Real.norm_of_nonneg hc.le]
  refine ⟨hx, hy, hr, ho, fun rlx X Y => ?_, fun AX Y U => ?_, fun AX Y => ?_, fun rho Yp Y U => ?_, fun AX Y => ?_,
    fun rho U => ?_⟩
  · change Equal.relaxAX rlx (c • X) (c • Y) = (c • (Equal.relaxAX rlx X Y).1, c • (Equal.relaxAX rlx X Y).2)
    unfold Equal.relaxAX
    split_ifs
    · rfl
    · simp only [smul_add, smul_comm c]
  · change c • U + (c • AX - c • Y) = c • (U + (AX - Y))
    rw [smul_add, smul_sub]
  · change ‖c • AX - c • Y‖ = c * ‖AX - Y‖
    rw [← smul_sub, hn]
  · change ‖rho • (c • Yp - c • Y)‖ = c * ‖rho • (Yp - Y)‖
    rw [← smul_sub, smul_comm, hn]
  · change max ‖c • AX‖ ‖c • Y‖ = c * max ‖AX‖ ‖Y‖
    rw [hn, hn, mul_max_of_nonneg _ _ hc.le]
  · change rho * ‖c • U‖ = c * (rho * ‖U‖)
    rw [hn]; ring

end Sporco.Admm

namespace Sporco.Prox

variable {ι : Type*} [Fintype ι] {c : ℝ}

theorem mul_neg_iff_pos (hc : 0 < c) (v : ℝ) : c * v < 0 ↔ v < 0 :=
  ⟨fun h => by by_contra h'; exact absurd (mul_nonneg hc.le (not_lt.1 h')) (not_le.2 h), fun h => mul_neg_of_pos_of_neg hc h⟩

theorem npSign_smul (hc : 0 < c) (v : ℝ) : npSign (c * v) = npSign v := by
  unfold npSign
  simp only [mul_pos_iff_of_pos_left hc, mul_neg_iff_pos hc]

theorem proxL1_smul (hc : 0 < c) (v α : ℝ) : proxL1 (c * v) (c * α) = c * proxL1 v α := by
  unfold proxL1
  rw [npSign_smul hc, abs_mul, abs_of_pos hc, ← mul_sub, show max (c * (|v| - α)) 0 = c * max (|v| - α) 0 by
    rw [mul_max_of_nonneg _ _ hc.le, mul_zero]]
  ring

theorem clip_smul (hc : 0 < c) (v : ι → ℝ) : clip (fun i => c * v i) = fun i => c * clip v i := by
  funext i
  unfold clip
  simp only [mul_neg_iff_pos hc]
  split_ifs <;> simp

theorem normL1_smul (hc : 0 < c) (v : ι → ℝ) : normL1 (fun i => c * v i) = c * normL1 v := by
  unfold normL1
  simp only [norm_mul, Real.norm_of_nonneg hc.le, Finset.mul_sum]

theorem normL2_smul (hc : 0 < c) (v : ι → ℝ) : normL2 (fun i => c * v i) = c * normL2 v := by
  unfold normL2
  simp only [norm_mul, Real.norm_of_nonneg hc.le, mul_pow, ← Finset.mul_sum]
  rw [Real.sqrt_mul (sq_nonneg c), Real.sqrt_sq hc.le]

theorem proxL2_smul (hc : 0 < c) (v : ι → ℝ) (α : ℝ) :
    proxL2 (fun i => c * v i) (c * α) = fun i => c * proxL2 v α i := by
  funext i
  unfold proxL2 zdivide
  simp only [normL2_smul hc, ← mul_sub, mul_ne_zero_iff, ne_eq, hc.ne', not_false_eq_true, true_and, smul_eq_mul]
  rw [show max 0 (c * (normL2 v - α)) = c * max 0 (normL2 v - α) by rw [mul_max_of_nonneg _ _ hc.le, mul_zero],
    mul_div_mul_left _ _ hc.ne']
  ring

theorem proxSl1l2_smul (hc : 0 < c) (v α : ι → ℝ) (β : ℝ) :
    proxSl1l2 (fun i => c * v i) (fun i => c * α i) (c * β) = fun i => c * proxSl1l2 v α β i := by
  unfold proxSl1l2 proxL1Arr
  simp only [proxL1_smul hc]
  exact proxL2_smul hc _ β

theorem projL1SortAxis_smul {n : ℕ} (hc : 0 < c) (v : Fin n → ℝ) (γ : ℝ) (hγ : 0 ≤ γ) :
    projL1SortAxis (fun i => c * v i) (c * γ) = fun i => c * projL1SortAxis v γ i := by
  have h1 := C18_proj_l1_sort_axis (σ := Unit) (fun _ i => c * v i) (c * γ) (mul_nonneg hc.le hγ)
  have h2 := C18_proj_l1_sort_axis (σ := Unit) (fun _ => v) γ hγ
  set x := projL1SortAxis (fun i => c * v i) (c * γ)
  set y := projL1SortAxis v γ
  have hl : ∀ (t : ℝ) (z : Fin n → ℝ), 0 < t → l1 (fun i => t * z i) = t * l1 z := fun t z ht => normL1_smul ht z
  have hs : ∀ (t : ℝ) (z w : Fin n → ℝ), sq ((fun i => t * z i) - fun i => t * w i) = t ^ 2 * sq (z - w) := by
    intro t z w
    unfold sq
    rw [Finset.mul_sum]
    refine Finset.sum_congr rfl fun i _ => ?_
    simp only [Pi.sub_apply, ← mul_sub, norm_mul, mul_pow, Real.norm_eq_abs, sq_abs]
  have hx : l1 x ≤ c * γ := h1.1 ()
  have hy : l1 y ≤ γ := h2.1 ()
  by_contra hne
  have a1 := h1.2 (fun _ i => c * y i) (fun _ => by
    rw [hl c y hc]; exact mul_le_mul_of_nonneg_left hy hc.le) (fun e => hne (congrFun e ()).symm)
  have hxc : x = fun i => c * (c⁻¹ * x i) := by funext i; rw [mul_inv_cancel_left₀ hc.ne']
  have a2 := h2.2 (fun _ i => c⁻¹ * x i) (fun _ => by
    rw [hl c⁻¹ x (inv_pos.2 hc), inv_mul_le_iff₀ hc]; exact hx) (fun e => hne (by
      have := congrFun e ()
      rw [← this]; exact hxc))
  simp only [Finset.univ_unique, Finset.sum_singleton] at a1 a2
  rw [hs] at a1
  rw [hxc, hs] at a1
  have : (0 : ℝ) < c ^ 2 := by positivity
  nlinarith

end Sporco.Prox

namespace Sporco.Admm.Bpdn

open Sporco.Prox

variable {N M K : ℕ} {c : ℝ}

/-- The attributes of a `BPDN` object in other units. -/
def Attr.scaled (c : ℝ) (h : Attr N M K) : Attr N M K := { h with DTS := c • h.DTS }

/-- The constructor (or `setdict`) makes these attributes from the signal in other units. -/
theorem setdict_scaled (c : ℝ) (S : Matrix (Fin N) (Fin K) ℝ) (rho : ℝ) (D : Matrix (Fin N) (Fin M) ℝ) :
    setdict (c • S) rho D = (setdict S rho D).scaled c := by
  unfold setdict Attr.scaled
  rw [Matrix.mul_smul]

theorem setdictEN_scaled (c : ℝ) (S : Matrix (Fin N) (Fin K) ℝ) (mu rho : ℝ) (D : Matrix (Fin N) (Fin M) ℝ) :
    setdictEN (c • S) mu rho D = (setdictEN S mu rho D).scaled c := by
  unfold setdictEN Attr.scaled
  rw [Matrix.mul_smul]

theorem choSolveWith_smul (c : ℝ) (A : Matrix (Fin N) (Fin M) ℝ) (rho : ℝ) (b : Matrix (Fin M) (Fin K) ℝ) (f : Fac N M) :
    choSolveWith A rho (c • b) f = c • choSolveWith A rho b f := by
  cases f <;> simp only [choSolveWith, Linalg.facSolve, Matrix.mul_smul, ← smul_sub, smul_comm c]

theorem xstep_scaled (rho : ℝ) (X Y U : Arr M K) (h : Attr N M K) :
    xstep rho (c • X) (c • Y) (c • U) (h.scaled c) = (c • (xstep rho X Y U h).1, (xstep rho X Y U h).2.scaled c) := by
  unfold xstep
  simp only [Attr.scaled, mat_smul, ← smul_sub, smul_comm rho c, ← smul_add, choSolveWith_smul, arr_smul]

theorem xstepEN_scaled (mu rho : ℝ) (X Y U : Arr M K) (h : Attr N M K) :
    xstepEN mu rho (c • X) (c • Y) (c • U) (h.scaled c) =
      (c • (xstepEN mu rho X Y U h).1, (xstepEN mu rho X Y U h).2.scaled c) := by
  unfold xstepEN
  simp only [Attr.scaled, mat_smul, ← smul_sub, smul_comm rho c, ← smul_add, choSolveWith_smul, arr_smul]

theorem gystep_scaled (hc : 0 < c) (nn : Bool) (y : Fin M × Fin K → ℝ) :
    gystep nn (fun i => c * y i) = fun i => c * gystep nn y i := by
  unfold gystep
  split_ifs
  · exact clip_smul hc y
  · rfl

theorem ystepBPDN_scaled (hc : 0 < c) (nn : Bool) (lmbda : ℝ) (w : Fin M × Fin K → ℝ) (rho : ℝ) (AX X Y U : Arr M K)
    (h : Attr N M K) : ystepBPDN nn (c * lmbda) w rho (c • AX) (c • X) (c • Y) (c • U) (h.scaled c) =
      (c • (ystepBPDN nn lmbda w rho AX X Y U h).1, (ystepBPDN nn lmbda w rho AX X Y U h).2.scaled c) := by
  have e : proxL1Arr (c • AX + c • U).ofLp (fun i => c * lmbda / rho * w i) =
      fun i => c * proxL1Arr (AX + U).ofLp (fun i => lmbda / rho * w i) i := by
    funext i
    unfold proxL1Arr
    rw [← proxL1_smul hc, ← smul_add]
    congr 1
    ring
  unfold ystepBPDN
  rw [e, gystep_scaled hc]
  rfl

theorem ystepJnt_scaled (hc : 0 < c) (nn : Bool) (lmbda mu : ℝ) (w : Fin M × Fin K → ℝ) (rho : ℝ) (AX X Y U : Arr M K)
    (h : Attr N M K) : ystepJnt nn (c * lmbda) (c * mu) w rho (c • AX) (c • X) (c • Y) (c • U) (h.scaled c) =
      (c • (ystepJnt nn lmbda mu w rho AX X Y U h).1, (ystepJnt nn lmbda mu w rho AX X Y U h).2.scaled c) := by
  have e : (fun p : Fin M × Fin K => proxSl1l2 (fun j => (c • AX + c • U).ofLp (p.1, j))
      (fun j => c * lmbda / rho * w (p.1, j)) (c * mu / rho) p.2) =
      fun p => c * proxSl1l2 (fun j => (AX + U).ofLp (p.1, j)) (fun j => lmbda / rho * w (p.1, j)) (mu / rho) p.2 := by
    funext p
    have := congrFun (proxSl1l2_smul hc (fun j => (AX + U).ofLp (p.1, j)) (fun j => lmbda / rho * w (p.1, j)) (mu / rho)) p.2
    rw [← this, ← smul_add]
    congr 1
    · funext j; ring
    · ring
  unfold ystepJnt
  rw [e, gystep_scaled hc]
  rfl

theorem ystepPrj_scaled (hc : 0 < c) (nn : Bool) (gamma : ℝ) (hg : 0 ≤ gamma) (rho : ℝ) (AX X Y U : Arr M K)
    (h : Attr N M K) : ystepPrj nn (c * gamma) rho (c • AX) (c • X) (c • Y) (c • U) (h.scaled c) =
      (c • (ystepPrj nn gamma rho AX X Y U h).1, (ystepPrj nn gamma rho AX X Y U h).2.scaled c) := by
  have e : (fun p : Fin M × Fin K => projL1SortAxis (fun i => (c • AX + c • U).ofLp (i, p.2)) (c * gamma) p.1) =
      fun p => c * projL1SortAxis (fun i => (AX + U).ofLp (i, p.2)) gamma p.1 := by
    funext p
    have := congrFun (projL1SortAxis_smul hc (fun i => (AX + U).ofLp (i, p.2)) gamma hg) p.1
    rw [← this, ← smul_add]
    rfl
  unfold ystepPrj
  rw [e, gystep_scaled hc]
  rfl

theorem dfd_scaled (h : Attr N M K) (S : Matrix (Fin N) (Fin K) ℝ) (x : Arr M K) :
    dfd (h.scaled c) (c • S) (c • x) = c ^ 2 * dfd h S x := by
  unfold dfd
  simp only [Attr.scaled, mat_smul, Matrix.mul_smul, ← smul_sub, arr_smul, norm_smul, mul_pow, Real.norm_eq_abs, sq_abs]
  ring

theorem fvar_scaled (b : Bool) (X Y : Arr M K) : fvar b (c • X) (c • Y) = c • fvar b X Y := by
  unfold fvar; split_ifs <;> rfl

theorem gvar_scaled {E : Type*} [SMul ℝ E] (b : Bool) (X Y : E) : gvar b (c • X) (c • Y) = c • gvar b X Y := by
  unfold gvar; split_ifs <;> rfl

theorem l1_scaled (hc : 0 < c) (w : Fin M × Fin K → ℝ) (y : Arr M K) :
    normL1 (fun i => w i * (c • y) i) = c * normL1 (fun i => w i * y i) := by
  rw [← normL1_smul hc]
  congr 1
  funext i
  change w i * (c * y i) = _
  ring

/-- **C92 for `BPDN`.** Multiply the signal, `lmbda`, the absolute stopping tolerance and the initial values by `c > 0`,
and keep `rho` and the other options (in particular `AutoRho, RsdlTarget`). Then all iterates are multiplied by `c`,
the number of iterations and the penalty parameters are the same, objective values are multiplied by `c²`, and
residuals are the same or, with `StdResiduals`, multiplied by `c`. -/
theorem C92_bpdn (hc : 0 < c) (D : Matrix (Fin N) (Fin M) ℝ) (S : Matrix (Fin N) (Fin K) ℝ) (lmbda : ℝ)
    (w : Fin M × Fin K → ℝ) (nn fe ge : Bool) (o : Opts) :
    (∀ rho, setdict (c • S) rho D = (setdict S rho D).scaled c) ∧
    ∀ s, Normal (clsBPDN S lmbda w nn fe ge) o s →
      solve (clsBPDN (c • S) (c * lmbda) w nn fe ge) (o.scaled c) none (s.scaled c o.stdResiduals (sqr c) (Attr.scaled c)) =
        (solve (clsBPDN S lmbda w nn fe ge) o none s).scaled c o.stdResiduals (sqr c) (Attr.scaled c) := by
  refine ⟨fun rho => setdict_scaled c S rho D, fun s hs => scaled_solve hc (scales_equal hc (fun _ _ _ _ _ => ?_)
    (fun _ _ _ _ _ _ => ?_) (fun _ _ => ?_) fun X Y h => ?_) s hs⟩
  · exact xstep_scaled _ _ _ _ _
  · exact ystepBPDN_scaled hc _ _ _ _ _ _ _ _ _
  · rfl
  simp only [fvar_scaled, gvar_scaled, dfd_scaled, regBPDN, l1_scaled hc, sqr]
  refine Prod.ext ?_ (Prod.ext rfl ?_) <;> simp only <;> ring

/-- **C92 for `BPDNJoint`.** Both parameters are multiplied by `c`. -/
theorem C92_bpdnjoint (hc : 0 < c) (S : Matrix (Fin N) (Fin K) ℝ) (lmbda mu : ℝ)
    (w : Fin M × Fin K → ℝ) (nn fe ge : Bool) (o : Opts) :
    ∀ s, Normal (clsJnt S lmbda mu w nn fe ge) o s →
      solve (clsJnt (c • S) (c * lmbda) (c * mu) w nn fe ge) (o.scaled c) none
          (s.scaled c o.stdResiduals (sqr c) (Attr.scaled c)) =
        (solve (clsJnt S lmbda mu w nn fe ge) o none s).scaled c o.stdResiduals (sqr c) (Attr.scaled c) := by
  refine fun s hs => scaled_solve hc (scales_equal hc (fun _ _ _ _ _ => ?_) (fun _ _ _ _ _ _ => ?_)
    (fun _ _ => ?_) fun X Y h => ?_) s hs
  · exact xstep_scaled _ _ _ _ _
  · exact ystepJnt_scaled hc _ _ _ _ _ _ _ _ _ _
  · rfl
  have e : ∀ y : Arr M K, ∑ i, √(∑ j, (c • y) (i, j) ^ 2) = c * ∑ i, √(∑ j, y (i, j) ^ 2) := by
    intro y
    rw [Finset.mul_sum]
    refine Finset.sum_congr rfl fun i _ => ?_
    change √(∑ j, (c * y (i, j)) ^ 2) = _
    simp only [mul_pow, ← Finset.mul_sum]
    rw [Real.sqrt_mul (sq_nonneg c), Real.sqrt_sq hc.le]
  simp only [fvar_scaled, gvar_scaled, dfd_scaled, regJnt, l1_scaled hc, sqr, e]
  refine Prod.ext ?_ (Prod.ext rfl ?_) <;> simp only <;> ring

/-- **C92 for `ElasticNet`.** The parameter `mu` of the quadratic term has no units: it stays the same. -/
theorem C92_elasticnet (hc : 0 < c) (D : Matrix (Fin N) (Fin M) ℝ) (S : Matrix (Fin N) (Fin K) ℝ) (lmbda mu : ℝ)
    (w : Fin M × Fin K → ℝ) (nn fe ge : Bool) (o : Opts) :
    (∀ rho, setdictEN (c • S) mu rho D = (setdictEN S mu rho D).scaled c) ∧
    ∀ s, Normal (clsEN S lmbda mu w nn fe ge) o s →
      solve (clsEN (c • S) (c * lmbda) mu w nn fe ge) (o.scaled c) none
          (s.scaled c o.stdResiduals (sqr c) (Attr.scaled c)) =
        (solve (clsEN S lmbda mu w nn fe ge) o none s).scaled c o.stdResiduals (sqr c) (Attr.scaled c) := by
  refine ⟨fun rho => setdictEN_scaled c S mu rho D, fun s hs => scaled_solve hc (scales_equal hc
    (fun _ _ _ _ _ => ?_) (fun _ _ _ _ _ _ => ?_) (fun _ _ => ?_) fun X Y h => ?_) s hs⟩
  · exact xstepEN_scaled _ _ _ _ _ _
  · exact ystepBPDN_scaled hc _ _ _ _ _ _ _ _ _
  · rfl
  simp only [fvar_scaled, gvar_scaled, dfd_scaled, regEN, l1_scaled hc, sqr, norm_smul, mul_pow, Real.norm_eq_abs, sq_abs]
  refine Prod.ext ?_ (Prod.ext rfl ?_) <;> simp only <;> ring

/-- **C92 for `BPDNProjL1`.** The bound `gamma` is multiplied by `c`; the recorded constraint violation too. -/
theorem C92_bpdnprojl1 (hc : 0 < c) (S : Matrix (Fin N) (Fin K) ℝ) (gamma : ℝ) (hg : 0 ≤ gamma)
    (nn fe ge : Bool) (o : Opts) :
    let p : ℝ × ℝ × ℝ → ℝ × ℝ × ℝ := fun q => (c ^ 2 * q.1, c ^ 2 * q.2.1, c * q.2.2)
    ∀ s, Normal (clsPrj (M := M) S gamma nn fe ge) o s →
      solve (clsPrj (c • S) (c * gamma) nn fe ge) (o.scaled c) none (s.scaled c o.stdResiduals p (Attr.scaled c)) =
        (solve (clsPrj S gamma nn fe ge) o none s).scaled c o.stdResiduals p (Attr.scaled c) := by
  refine fun s hs => scaled_solve hc (scales_equal hc (fun _ _ _ _ _ => ?_) (fun _ _ _ _ _ _ => ?_)
    (fun _ _ => ?_) fun X Y h => ?_) s hs
  · exact xstep_scaled _ _ _ _ _
  · exact ystepPrj_scaled hc _ _ hg _ _ _ _ _ _
  · rfl
  have e : ∀ y : Arr M K, (WithLp.toLp 2 (fun p : Fin M × Fin K => projL1SortAxis (fun i => (c • y) (i, p.2)) (c * gamma) p.1) : Arr M K) =
      c • (WithLp.toLp 2 (fun p : Fin M × Fin K => projL1SortAxis (fun i => y (i, p.2)) gamma p.1) : Arr M K) := by
    intro y
    ext p
    exact congrFun (projL1SortAxis_smul hc (fun i => y (i, p.2)) gamma hg) p.1
  simp only [fvar_scaled, gvar_scaled, dfd_scaled, e, ← smul_sub, norm_smul, Real.norm_of_nonneg hc.le]

/-- The hypotheses are met by every run with `StdResiduals`. -/
example (S : Matrix (Fin N) (Fin K) ℝ) (lmbda : ℝ) (w : Fin M × Fin K → ℝ) (o : Opts) (ho : o.stdResiduals = true)
    (s : St (Arr M K) (Arr M K) (Arr M K) (Attr N M K)) : Normal (clsBPDN S lmbda w false true true) o s := Or.inl ho

/-! ## A run without zero normalisation -/

/-- The 1 × 1 array with entry `v`. -/
noncomputable def one (v : ℝ) : Arr 1 1 := WithLp.toLp 2 fun _ => v

theorem one_norm (v : ℝ) : ‖one v‖ = |v| := by
  rw [EuclideanSpace.norm_eq]
  simp [one, Real.sqrt_sq_eq_abs]

/-- The X update for the dictionary 1. -/
theorem xstep_one (sv rho y u : ℝ) (X : Arr 1 1) (hr : 0 < rho) :
    (xstep rho X (one y) (one u) (setdict (mat (one sv)) rho (1 : Matrix (Fin 1) (Fin 1) ℝ))).1 =
      one ((sv + rho * (y - u)) / (1 + rho)) := by
  have hm := choSolve_normal (1 : Matrix (Fin 1) (Fin 1) ℝ) rho hr
    (Matrix.transpose (1 : Matrix (Fin 1) (Fin 1) ℝ) * mat (one sv) + rho • (mat (one y) - mat (one u)))
  unfold xstep setdict
  simp only
  generalize choSolveWith _ _ _ _ = x at hm ⊢
  have h0 := congrFun (congrFun hm 0) 0
  simp only [Matrix.transpose_one, Matrix.one_mul, Matrix.add_apply, Matrix.smul_apply, Matrix.sub_apply, smul_eq_mul] at h0
  ext ⟨i, j⟩
  obtain rfl : i = 0 := Subsingleton.elim _ _
  obtain rfl : j = 0 := Subsingleton.elim _ _
  change x 0 0 = (sv + rho * (y - u)) / (1 + rho)
  change x 0 0 + rho * x 0 0 = sv + rho * (y - u) at h0
  rw [eq_div_iff (by positivity)]
  linarith

/-- A run in which residuals are normalised and never by zero: the dictionary 1, the signal 3, `lmbda = 1`, started at the
fixed point. -/
example (o : Opts) (ha : o.autoRho = false) :
    Normal (clsBPDN (mat (one 3)) 1 (fun _ => 1) false true true) o
      (construct 0 0 1 (one 2) (one 1) (setdict (mat (one 3)) 1 (1 : Matrix (Fin 1) (Fin 1) ℝ))) := by
  set C := clsBPDN (M := 1) (mat (one 3)) 1 (fun _ => 1) false true true with hC
  let P : St (Arr 1 1) (Arr 1 1) (Arr 1 1) (Attr 1 1 1) → Prop := fun s =>
    s.Y = one 2 ∧ s.U = one 1 ∧ s.rho = 1 ∧ s.extra = setdict (mat (one 3)) 1 (1 : Matrix (Fin 1) (Fin 1) ℝ)
  have hP : ∀ s, P s → (steps C o s).X = one 2 ∧ (steps C o s).AXnr = one 2 ∧ P (steps C o s) := by
    rintro s ⟨h1, h2, h3, h4⟩
    have hx : (steps C o s).X = one 2 := by
      change (xstep s.rho s.X s.Y s.U s.extra).1 = _
      rw [h1, h2, h3, h4, xstep_one _ _ _ _ _ one_pos]
      norm_num
    have hr : Equal.relaxAX o.rlx (one 2) (one 2) = (one 2, one 2) := by
      unfold Equal.relaxAX
      split_ifs
      · rfl
      · rw [← add_smul]; simp
    have ha : ((steps C o s).AX, (steps C o s).AXnr) = (one 2, one 2) := by
      change Equal.relaxAX o.rlx (steps C o s).X s.Y = _
      rw [hx, h1, hr]
    have hA : (steps C o s).AX = one 2 := congrArg Prod.fst ha
    have hy : (steps C o s).Y = one 2 := by
      change (ystepBPDN false 1 (fun _ => 1) s.rho (steps C o s).AX (steps C o s).X s.Y s.U s.extra).1 = _
      rw [hA, h2, h3]
      ext i
      change proxL1 (2 + 1) (1 / 1 * 1) = 2
      unfold proxL1 npSign
      norm_num
    refine ⟨hx, congrArg Prod.snd ha, hy, ?_, h3, h4⟩
    change s.U + ((steps C o s).AX - (steps C o s).Y) = _
    rw [hA, hy, sub_self, add_zero, h2]
  have hT : ∀ n, P (traj C o none (construct 0 0 1 (one 2) (one 1)
      (setdict (mat (one 3)) 1 (1 : Matrix (Fin 1) (Fin 1) ℝ))) n) := by
    intro n
    induction n with
    | zero => exact ⟨rfl, rfl, rfl, rfl⟩
    | succ n ih =>
      rw [traj_succ]
      generalize traj C o none _ n = t at ih ⊢
      obtain ⟨h1, h2, h3, h4, -, -⟩ := oneIter_steps C o ha none t
      obtain ⟨-, -, g1, g2, g3, g4⟩ := hP t ih
      refine ⟨h2.trans g1, h3.trans g2, h4.trans ih.2.2.1, ?_⟩
      rw [← g4]
      unfold oneIter body updateRho
      simp only [ha, Bool.false_eq_true, false_and, if_false, ite_self]
      split_ifs <;> rfl
  refine Or.inr fun n => ?_
  obtain ⟨-, g0, g1, g2, g3, -⟩ := hP _ (hT n)
  constructor
  · change max ‖(steps C o _).AXnr‖ ‖(steps C o _).Y‖ ≠ 0
    rw [g0, g1, one_norm]
    norm_num
  · change (steps C o _).rho * ‖(steps C o _).U‖ ≠ 0
    rw [g3, g2, one_norm]
    norm_num

/-! ## The default penalty parameter -/

theorem solve_one_X {E H : Type*} [NormedAddCommGroup E] [InnerProductSpace ℝ E] (C : Cls E E E H) (o : Opts)
    (ho : o.maxMainIter = 1) (s : St E E E H) : (solve C o none s).X = (C.xstep s.rho s.X s.Y s.U s.extra).1 := by
  have hu : ∀ (k : ℕ) (r t : ℝ) (st : St E E E H), (updateRho C o k r t st).X = st.X := by
    intro k r t st
    unfold updateRho
    simp only
    split_ifs <;> rfl
  have hb : (body C o none s.k s).1.X = (C.xstep s.rho s.X s.Y s.U s.extra).1 := by
    unfold body
    simp only
    split_ifs
    all_goals first | rfl | (rw [hu]; rfl)
  unfold solve
  rw [ho]
  change (loop C o none [s.k] s).X = _
  unfold loop loop
  simp only
  split_ifs <;> exact hb

/-- **C92 refuted for the default penalty parameter.** The documentation gives `50 lmbda + 1` as the default of `rho`; the
two terms have different units. For the dictionary 1, the signal 1 and `lmbda = 1` the first X update after multiplying
signal and `lmbda` by 2 is not twice the original one, whatever the other options. -/
theorem C92_default_rho_refuted (o : Opts) (ho : o.maxMainIter = 1) (nn fe ge : Bool) :
    let run : ℝ → ℝ → Arr 1 1 := fun sv lmbda =>
      (solve (clsBPDN (mat (one sv)) lmbda (fun _ => 1) nn fe ge) o none
        (construct 0 0 (50 * lmbda + 1) (one 0) (one 0) (setdict (mat (one sv)) (50 * lmbda + 1) 1))).X
    run (2 * 1) (2 * 1) ≠ (2 : ℝ) • run 1 1 := by
  intro run h
  have hr : ∀ sv lmbda : ℝ, 0 < lmbda → run sv lmbda = one (sv / (1 + (50 * lmbda + 1))) := by
    intro sv lmbda hl
    change (solve _ o none _).X = _
    rw [solve_one_X _ o ho]
    refine (xstep_one sv (50 * lmbda + 1) 0 0 0 (by positivity)).trans ?_
    simp
  rw [hr _ _ (by norm_num), hr _ _ one_pos] at h
  have h1 := congrFun (congrArg WithLp.ofLp h) (0, 0)
  change (2 * 1 : ℝ) / (1 + (50 * (2 * 1) + 1)) = 2 * (1 / (1 + (50 * 1 + 1))) at h1
  norm_num at h1

end Sporco.Admm.Bpdn
