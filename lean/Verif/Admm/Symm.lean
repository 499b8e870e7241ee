import Verif.Admm.Optimal
import Verif.Admm.Quad

/-!
# Runs on isometric problems

Two classes that implement problems which a linear isometry takes into each other go through the same run: every
variable of the second is the image of that of the first, and the statistics are equal.
-/

set_option autoImplicit false
set_option linter.unusedSectionVars false

namespace Sporco.Admm

open scoped RealInnerProductSpace

variable {E F G H E' F' G' H' : Type*} [NormedAddCommGroup E] [InnerProductSpace ℝ E] [NormedAddCommGroup F]
  [InnerProductSpace ℝ F] [NormedAddCommGroup G] [InnerProductSpace ℝ G] [NormedAddCommGroup E']
  [InnerProductSpace ℝ E'] [NormedAddCommGroup F'] [InnerProductSpace ℝ F'] [NormedAddCommGroup G']
  [InnerProductSpace ℝ G']

/-- A minimiser of a convex function plus a quadratic in `A z` has a unique image under `A`. -/
theorem min_unique {Df : Set E} {f : E → ℝ} (hf : ConvexOn ℝ Df f) (A : E →L[ℝ] G) (b : G) {rho : ℝ} (hr : 0 < rho)
    {x y : E} (hx : x ∈ Df) (hy : y ∈ Df)
    (h1 : ∀ z ∈ Df, f x + rho / 2 * ‖A x + b‖ ^ 2 ≤ f z + rho / 2 * ‖A z + b‖ ^ 2)
    (h2 : ∀ z ∈ Df, f y + rho / 2 * ‖A y + b‖ ^ 2 ≤ f z + rho / 2 * ‖A z + b‖ ^ 2) : A x = A y := by
  have e : (1 / 2 : ℝ) + 1 / 2 = 1 := by norm_num
  have hm := hf.1 hx hy (by norm_num : (0 : ℝ) ≤ 1 / 2) (by norm_num : (0 : ℝ) ≤ 1 / 2) e
  have hc := hf.2 hx hy (by norm_num : (0 : ℝ) ≤ 1 / 2) (by norm_num : (0 : ℝ) ≤ 1 / 2) e
  have a1 := h1 _ hm
  have a2 := h2 _ hm
  have p : A ((1 / 2 : ℝ) • x + (1 / 2 : ℝ) • y) + b = (1 / 2 : ℝ) • ((A x + b) + (A y + b)) := by
    rw [map_add, map_smul, map_smul]; module
  have q := parallelogram_law_with_norm ℝ (A x + b) (A y + b)
  rw [p, norm_smul, Real.norm_of_nonneg (by norm_num)] at a1 a2
  simp only [smul_eq_mul] at hc
  have h0 : ‖(A x + b) - (A y + b)‖ ^ 2 ≤ 0 := by
    by_contra hneg
    push Not at hneg
    have := mul_pos hr hneg
    nlinarith
  have := norm_eq_zero.1 (pow_eq_zero_iff two_ne_zero |>.1 (le_antisymm h0 (sq_nonneg _)))
  rw [add_sub_add_right_eq_sub] at this
  exact sub_eq_zero.1 this

/-! ## Specification -/

/-- The isometries take problem `P` to problem `P'`. -/
structure Problem.Iso (P : Problem E F G) (P' : Problem E' F' G') (TE : E ≃ₗᵢ[ℝ] E') (TF : F ≃ₗᵢ[ℝ] F')
    (TG : G ≃ₗᵢ[ℝ] G') : Prop where
  A : ∀ x, P'.A (TE x) = TG (P.A x)
  B : ∀ y, P'.B (TF y) = TG (P.B y)
  c : P'.c = TG P.c
  f : ∀ x, P'.f (TE x) = P.f x
  Df : ∀ x, TE x ∈ P'.Df ↔ x ∈ P.Df
  g : ∀ y, P'.g (TF y) = P.g y
  Dg : ∀ y, TF y ∈ P'.Dg ↔ y ∈ P.Dg

/-- What is assumed of the two classes: they implement the two problems, the constraint operators are injective,
the norms in the residuals and the recorded values correspond. -/
structure Paired (C : Cls E F G H) (P : Problem E F G) (Inv : ℝ → H → Prop) (C' : Cls E' F' G' H')
    (P' : Problem E' F' G') (Inv' : ℝ → H' → Prop) (TE : E ≃ₗᵢ[ℝ] E') (TF : F ≃ₗᵢ[ℝ] F') (TG : G ≃ₗᵢ[ℝ] G')
    (o : Opts) : Prop where
  left : Implements C P Inv
  right : Implements C' P' Inv'
  iso : P.Iso P' TE TF TG
  injA : Function.Injective P.A
  injB : Function.Injective P.B
  nrmS : ∀ rho yp y u, C'.nrmS rho (TF yp) (TF y) (TG u) = C.nrmS rho yp y u
  rn : ∀ ax y, C'.rsdlRn (TG ax) (TF y) = C.rsdlRn ax y
  sn : ∀ rho u, C'.rsdlSn rho (TG u) = C.rsdlSn rho u
  obj : ∀ s s', 0 < s.rho → Inv s.rho s.extra → Inv' s.rho s'.extra → s'.rho = s.rho →
    (steps C' o s').X = TE (steps C o s).X → (steps C' o s').Y = TF (steps C o s).Y →
    C'.objfn (steps C' o s').X (steps C' o s').Y (steps C' o s').extra =
      C.objfn (steps C o s).X (steps C o s).Y (steps C o s).extra

/-- The state of the second solver is the image of that of the first. -/
structure Image (Inv : ℝ → H → Prop) (Inv' : ℝ → H' → Prop) (TE : E ≃ₗᵢ[ℝ] E') (TF : F ≃ₗᵢ[ℝ] F')
    (TG : G ≃ₗᵢ[ℝ] G') (s : St E F G H) (s' : St E' F' G' H') : Prop where
  X : s'.X = TE s.X
  Y : s'.Y = TF s.Y
  U : s'.U = TG s.U
  rho : s'.rho = s.rho
  k : s'.k = s.k
  itstat : s'.itstat = s.itstat
  pos : 0 < s.rho
  inv : Inv s.rho s.extra
  inv' : Inv' s.rho s'.extra

/-- Two callbacks that take the same decisions. -/
def CbImage (Inv : ℝ → H → Prop) (Inv' : ℝ → H' → Prop) (TE : E ≃ₗᵢ[ℝ] E') (TF : F ≃ₗᵢ[ℝ] F')
    (TG : G ≃ₗᵢ[ℝ] G') (cb : Option (St E F G H → Bool × H)) (cb' : Option (St E' F' G' H' → Bool × H')) : Prop :=
  (cb = none ∧ cb' = none) ∨ ∃ f f', cb = some f ∧ cb' = some f' ∧ CallbackKeeps Inv cb ∧ CallbackKeeps Inv' cb' ∧
    ∀ t t', Image Inv Inv' TE TF TG t t' → (f' t').1 = (f t).1

/-- The two callbacks decide whether to stop from the statistics and the iteration counter, in the same way, and
leave the solver alone. -/
def SameCallback (cb cb' : Option (St E F G H → Bool × H)) : Prop :=
  (cb = none ∧ cb' = none) ∨ ∃ (f f' : St E F G H → Bool × H) (g : List Stat → ℕ → Bool), cb = some f ∧ cb' = some f' ∧
    (∀ t, f t = (g t.itstat t.k, t.extra)) ∧ ∀ t, f' t = (g t.itstat t.k, t.extra)

/-! ## Proofs -/

variable {C : Cls E F G H} {P : Problem E F G} {Inv : ℝ → H → Prop} {C' : Cls E' F' G' H'} {P' : Problem E' F' G'}
  {Inv' : ℝ → H' → Prop} {TE : E ≃ₗᵢ[ℝ] E'} {TF : F ≃ₗᵢ[ℝ] F'} {TG : G ≃ₗᵢ[ℝ] G'} {o : Opts}

theorem steps_image (h : Paired C P Inv C' P' Inv' TE TF TG o) {s : St E F G H} {s' : St E' F' G' H'}
    (hi : Image Inv Inv' TE TF TG s s') :
    Image Inv Inv' TE TF TG (steps C o s) (steps C' o s') ∧ (steps C' o s').AXnr = TG (steps C o s).AXnr ∧
      (steps C' o s').Yprev = TF (steps C o s).Yprev := by
  have hI' : Inv' s'.rho s'.extra := by rw [hi.rho]; exact hi.inv'
  have hp' : 0 < s'.rho := by rw [hi.rho]; exact hi.pos
  have kx := steps_inv h.left.keeps o s hi.pos hi.inv
  have kx' := steps_inv h.right.keeps o s' hp' hI'
  -- x
  have hX : (steps C' o s').X = TE (steps C o s).X := by
    obtain ⟨m1, n1⟩ := h.left.xstep s.rho s.X s.Y s.U s.extra hi.pos hi.inv
    obtain ⟨m2, n2⟩ := h.right.xstep s'.rho s'.X s'.Y s'.U s'.extra hp' hI'
    set x := (C.xstep s.rho s.X s.Y s.U s.extra).1 with hx
    set x' := (C'.xstep s'.rho s'.X s'.Y s'.U s'.extra).1 with hx'
    have hsur : ∃ z, TE z = x' := ⟨TE.symm x', by simp⟩
    obtain ⟨z, hz⟩ := hsur
    have m3 : z ∈ P.Df := (h.iso.Df z).1 (hz ▸ m2)
    have key : ∀ w, P'.f (TE w) + s'.rho / 2 * ‖P'.A (TE w) + P'.B s'.Y - P'.c + s'.U‖ ^ 2 =
        P.f w + s.rho / 2 * ‖P.A w + (P.B s.Y - P.c + s.U)‖ ^ 2 := by
      intro w
      rw [h.iso.f, h.iso.A, hi.Y, h.iso.B, h.iso.c, hi.U, hi.rho, ← map_add, ← map_sub, ← map_add, TG.norm_map,
        show P.A w + P.B s.Y - P.c + s.U = P.A w + (P.B s.Y - P.c + s.U) by abel]
    have e : P.A z = P.A x := by
      refine min_unique P.convF P.A (P.B s.Y - P.c + s.U) hi.pos m3 m1 (fun w hw => ?_) (fun w hw => ?_)
      · have := n2 (TE w) ((h.iso.Df w).2 hw)
        rw [← hz, key, key] at this
        exact this
      · have := n1 w hw
        rw [show P.A x + P.B s.Y - P.c + s.U = P.A x + (P.B s.Y - P.c + s.U) by abel,
          show P.A w + P.B s.Y - P.c + s.U = P.A w + (P.B s.Y - P.c + s.U) by abel] at this
        exact this
    change x' = TE x
    rw [← hz, h.injA e]
  -- relaxation
  have hR : (steps C o s).AX = o.rlx • P.A (steps C o s).X - (1 - o.rlx) • (P.B s.Y - P.c) ∧
      (steps C o s).AXnr = P.A (steps C o s).X := by
    have hA : ((steps C o s).AX, (steps C o s).AXnr) = C.relax o.rlx (steps C o s).X s.Y := rfl
    rw [h.left.relax, relaxAX_eq] at hA
    exact ⟨congrArg Prod.fst hA, congrArg Prod.snd hA⟩
  have hR' : (steps C' o s').AX = o.rlx • P'.A (steps C' o s').X - (1 - o.rlx) • (P'.B s'.Y - P'.c) ∧
      (steps C' o s').AXnr = P'.A (steps C' o s').X := by
    have hA : ((steps C' o s').AX, (steps C' o s').AXnr) = C'.relax o.rlx (steps C' o s').X s'.Y := rfl
    rw [h.right.relax, relaxAX_eq] at hA
    exact ⟨congrArg Prod.fst hA, congrArg Prod.snd hA⟩
  have hnr : (steps C' o s').AXnr = TG (steps C o s).AXnr := by rw [hR'.2, hR.2, hX, h.iso.A]
  have hAX : (steps C' o s').AX = TG (steps C o s).AX := by
    rw [hR'.1, hR.1, hX, h.iso.A, hi.Y, h.iso.B, h.iso.c, map_sub, map_smul, map_smul, map_sub]
  -- y
  have hY : (steps C' o s').Y = TF (steps C o s).Y := by
    have j1 := h.left.xinv s.rho s.X s.Y s.U s.extra hi.pos hi.inv
    have j2 := h.right.xinv s'.rho s'.X s'.Y s'.U s'.extra hp' hI'
    obtain ⟨m1, n1⟩ := h.left.ystep s.rho (steps C o s).AX (steps C o s).X s.Y s.U _ hi.pos j1
    obtain ⟨m2, n2⟩ := h.right.ystep s'.rho (steps C' o s').AX (steps C' o s').X s'.Y s'.U _ hp' j2
    set y := (C.ystep s.rho (steps C o s).AX (steps C o s).X s.Y s.U (C.xstep s.rho s.X s.Y s.U s.extra).2).1 with hy
    set y' := (C'.ystep s'.rho (steps C' o s').AX (steps C' o s').X s'.Y s'.U
      (C'.xstep s'.rho s'.X s'.Y s'.U s'.extra).2).1 with hy'
    obtain ⟨z, hz⟩ : ∃ z, TF z = y' := ⟨TF.symm y', by simp⟩
    have m3 : z ∈ P.Dg := (h.iso.Dg z).1 (hz ▸ m2)
    have key : ∀ w, P'.g (TF w) + s'.rho / 2 * ‖(steps C' o s').AX + P'.B (TF w) - P'.c + s'.U‖ ^ 2 =
        P.g w + s.rho / 2 * ‖P.B w + ((steps C o s).AX - P.c + s.U)‖ ^ 2 := by
      intro w
      rw [h.iso.g, h.iso.B, hAX, h.iso.c, hi.U, hi.rho, ← map_add, ← map_sub, ← map_add, TG.norm_map,
        show (steps C o s).AX + P.B w - P.c + s.U = P.B w + ((steps C o s).AX - P.c + s.U) by abel]
    have e : P.B z = P.B y := by
      refine min_unique P.convG P.B ((steps C o s).AX - P.c + s.U) hi.pos m3 m1 (fun w hw => ?_) (fun w hw => ?_)
      · have := n2 (TF w) ((h.iso.Dg w).2 hw)
        rw [← hz, key, key] at this
        exact this
      · have := n1 w hw
        rw [show (steps C o s).AX + P.B y - P.c + s.U = P.B y + ((steps C o s).AX - P.c + s.U) by abel,
          show (steps C o s).AX + P.B w - P.c + s.U = P.B w + ((steps C o s).AX - P.c + s.U) by abel] at this
        exact this
    change y' = TF y
    rw [← hz, h.injB e]
  have hU : (steps C' o s').U = TG (steps C o s).U := by
    have u1 : (steps C o s).U = C.ustep (steps C o s).AX (steps C o s).Y s.U := rfl
    have u2 : (steps C' o s').U = C'.ustep (steps C' o s').AX (steps C' o s').Y s'.U := rfl
    rw [u1, u2, h.left.ustep, h.right.ustep]
    unfold ustep rsdlR
    rw [hAX, hY, h.iso.B, h.iso.c, hi.U, map_add, map_sub, map_add]
  refine ⟨⟨hX, hY, hU, hi.rho, hi.k, hi.itstat, hi.pos, kx, ?_⟩, hnr, hi.Y⟩
  have : Inv' s'.rho (steps C' o s').extra := kx'
  rw [hi.rho] at this
  exact this

theorem residuals_image (h : Paired C P Inv C' P' Inv' TE TF TG o) {s : St E F G H} {s' : St E' F' G' H'}
    (hi : Image Inv Inv' TE TF TG s s') (h1 : s'.AXnr = TG s.AXnr) (h2 : s'.Yprev = TF s.Yprev) :
    computeResiduals C' o s' = computeResiduals C o s := by
  have hR : C'.nrmR s'.AXnr s'.Y = C.nrmR s.AXnr s.Y := by
    rw [h.left.nrmR, h.right.nrmR, h1, hi.Y]
    unfold rsdlR
    rw [h.iso.B, h.iso.c, ← map_add, ← map_sub, TG.norm_map]
  have hS : C'.nrmS s'.rho s'.Yprev s'.Y s'.U = C.nrmS s.rho s.Yprev s.Y s.U := by
    rw [h2, hi.Y, hi.U, hi.rho, h.nrmS]
  have hn : C'.rsdlRn s'.AXnr s'.Y = C.rsdlRn s.AXnr s.Y := by rw [h1, hi.Y, h.rn]
  have hs : C'.rsdlSn s'.rho s'.U = C.rsdlSn s.rho s.U := by rw [hi.rho, hi.U, h.sn]
  unfold computeResiduals
  simp only [hR, hS, hn, hs]

theorem updateRho_image (h : Paired C P Inv C' P' Inv' TE TF TG o) (ho : o.autoRho = true → o.RhoOk) (k : ℕ) (r q : ℝ)
    (hr : 0 ≤ r) (hq : 0 ≤ q) {s : St E F G H} {s' : St E' F' G' H'} (hi : Image Inv Inv' TE TF TG s s') :
    Image Inv Inv' TE TF TG (updateRho C o k r q s) (updateRho C' o k r q s') := by
  unfold updateRho
  by_cases h1 : o.autoRho = true ∧ k ≠ 0 ∧ npMod (k + 1) o.period = 0
  · rw [if_pos h1, if_pos h1]
    simp only
    have hf : 0 < rsf o r q := (rsf_bounds (ho h1.1) hr hq).2.2
    have hU : (rsf o r q)⁻¹ • s'.U = TG ((rsf o r q)⁻¹ • s.U) := by rw [hi.U, map_smul]
    by_cases h2 : rsf o r q ≠ 1
    · rw [if_pos h2, if_pos h2]
      have i1 := h.left.rinv s.rho (s.rho * rsf o r q) s.extra hi.pos (mul_pos hi.pos hf) hi.inv
      have i2 := h.right.rinv s.rho (s.rho * rsf o r q) s'.extra hi.pos (mul_pos hi.pos hf) hi.inv'
      refine ⟨hi.X, hi.Y, hU, by simp only [hi.rho], hi.k, hi.itstat, mul_pos hi.pos hf, i1, ?_⟩
      simp only [hi.rho]
      exact i2
    · rw [if_neg h2, if_neg h2]
      have h3 : rsf o r q = 1 := not_not.1 h2
      refine ⟨hi.X, hi.Y, hU, by simp only [hi.rho], hi.k, hi.itstat, mul_pos hi.pos hf, ?_, ?_⟩
      · simp only [h3, mul_one]; exact hi.inv
      · simp only [h3, mul_one]; exact hi.inv'
  · rw [if_neg h1, if_neg h1]
    exact hi

theorem body_image (h : Paired C P Inv C' P' Inv' TE TF TG o) (ho : o.autoRho = true → o.RhoOk) (cb) (cb')
    (hcb : CbImage Inv Inv' TE TF TG cb cb') (k : ℕ) {s : St E F G H} {s' : St E' F' G' H'}
    (hi : Image Inv Inv' TE TF TG s s') :
    Image Inv Inv' TE TF TG (body C o cb k s).1 (body C' o cb' k s').1 ∧
      (body C' o cb' k s').2 = (body C o cb k s).2 := by
  have hik : Image Inv Inv' TE TF TG { s with k := k } { s' with k := k } :=
    ⟨hi.X, hi.Y, hi.U, hi.rho, rfl, hi.itstat, hi.pos, hi.inv, hi.inv'⟩
  obtain ⟨i1, e1, e2⟩ := steps_image h hik
  have hob := h.obj { s with k := k } { s' with k := k } hi.pos hi.inv hi.inv' hi.rho i1.X i1.Y
  have hq := residuals_image h i1 e1 e2
  have hqn := residuals_nonneg h.left.keeps.sane o (steps C o { s with k := k }) i1.pos.le
  unfold body
  simp only
  rw [hob, hq]
  generalize steps C o { s with k := k } = t at *
  generalize steps C' o { s' with k := k } = t' at *
  generalize computeResiduals C o t = q at *
  have i2 : Image Inv Inv' TE TF TG
      (if o.fastSolve = true then t else
        { t with itstat := t.itstat ++ [⟨k, C.objfn t.X t.Y t.extra, q, t.rho⟩] })
      (if o.fastSolve = true then t' else
        { t' with itstat := t'.itstat ++ [⟨k, C.objfn t.X t.Y t.extra, q, t'.rho⟩] }) := by
    split_ifs
    · exact i1
    · refine ⟨i1.X, i1.Y, i1.U, i1.rho, i1.k, ?_, i1.pos, i1.inv, i1.inv'⟩
      simp only [i1.itstat, i1.rho]
  generalize (if o.fastSolve = true then t else
        { t with itstat := t.itstat ++ [⟨k, C.objfn t.X t.Y t.extra, q, t.rho⟩] }) = t2 at *
  generalize (if o.fastSolve = true then t' else
        { t' with itstat := t'.itstat ++ [⟨k, C.objfn t.X t.Y t.extra, q, t'.rho⟩] }) = t2' at *
  have i3 : Image Inv Inv' TE TF TG (if o.withRsdl = true then updateRho C o k q.r q.s t2 else t2)
      (if o.withRsdl = true then updateRho C' o k q.r q.s t2' else t2') := by
    split_ifs
    · exact updateRho_image h ho k q.r q.s hqn.1 hqn.2 i2
    · exact i2
  generalize (if o.withRsdl = true then updateRho C o k q.r q.s t2 else t2) = t3 at *
  generalize (if o.withRsdl = true then updateRho C' o k q.r q.s t2' else t2') = t3' at *
  rcases hcb with ⟨rfl, rfl⟩ | ⟨f, f', rfl, rfl, c1, c2, c3⟩
  · exact ⟨i3, rfl⟩
  · refine ⟨⟨i3.X, i3.Y, i3.U, i3.rho, i3.k, i3.itstat, i3.pos, c1 f t3 rfl i3.inv, ?_⟩, ?_⟩
    · have := c2 f' t3' rfl (by rw [i3.rho]; exact i3.inv')
      rw [i3.rho] at this
      exact this
    · simp only [c3 t3 t3' i3]

theorem loop_image (h : Paired C P Inv C' P' Inv' TE TF TG o) (ho : o.autoRho = true → o.RhoOk) (cb) (cb')
    (hcb : CbImage Inv Inv' TE TF TG cb cb') (ks : List ℕ) : ∀ {s : St E F G H} {s' : St E' F' G' H'},
    Image Inv Inv' TE TF TG s s' → Image Inv Inv' TE TF TG (loop C o cb ks s) (loop C' o cb' ks s') := by
  induction ks with
  | nil => intro s s' hi; exact hi
  | cons k ks ih =>
    intro s s' hi
    obtain ⟨i1, e1⟩ := body_image h ho cb cb' hcb k hi
    unfold loop
    simp only
    rw [e1]
    split_ifs
    · exact i1
    · exact ih i1

/-- A whole `solve` call. -/
theorem solve_image (h : Paired C P Inv C' P' Inv' TE TF TG o) (ho : o.autoRho = true → o.RhoOk) (cb) (cb')
    (hcb : CbImage Inv Inv' TE TF TG cb cb') {s : St E F G H} {s' : St E' F' G' H'}
    (hi : Image Inv Inv' TE TF TG s s') : Image Inv Inv' TE TF TG (solve C o cb s) (solve C' o cb' s') := by
  have := loop_image h ho cb cb' hcb (List.range' s.k o.maxMainIter) hi
  unfold solve
  simp only
  rw [hi.k]
  exact ⟨this.X, this.Y, this.U, this.rho, by simp only [this.k], this.itstat, this.pos, this.inv, this.inv'⟩

theorem SameCallback.image {cb cb' : Option (St E F G H → Bool × H)} (h : SameCallback cb cb') (Inv Inv' : ℝ → H → Prop)
    (TE : E ≃ₗᵢ[ℝ] E) (TF : F ≃ₗᵢ[ℝ] F) (TG : G ≃ₗᵢ[ℝ] G) : CbImage Inv Inv' TE TF TG cb cb' := by
  rcases h with h | ⟨f, f', g, rfl, rfl, h1, h2⟩
  · exact Or.inl h
  · refine Or.inr ⟨f, f', rfl, rfl, ?_, ?_, fun t t' hi => by rw [h1, h2, hi.itstat, hi.k]⟩
    · intro f0 s e hI
      cases e
      rw [h1]; exact hI
    · intro f0 s e hI
      cases e
      rw [h2]; exact hI

/-! ## Signed permutations -/

/-- Permutation of the entries of an array, with signs. -/
noncomputable def signPerm {ι ι' : Type*} [Fintype ι] [Fintype ι'] (e : ι ≃ ι') (s : ι → ℝ)
    (hs : ∀ i, s i = 1 ∨ s i = -1) : EuclideanSpace ℝ ι ≃ₗᵢ[ℝ] EuclideanSpace ℝ ι' :=
  LinearIsometryEquiv.ofSurjective
    { toFun := fun x => WithLp.toLp 2 fun i => s (e.symm i) * x (e.symm i)
      map_add' := fun x y => by
        ext i
        change s (e.symm i) * (x (e.symm i) + y (e.symm i)) = s (e.symm i) * x (e.symm i) + s (e.symm i) * y (e.symm i)
        ring
      map_smul' := fun c x => by
        ext i
        change s (e.symm i) * (c * x (e.symm i)) = c * (s (e.symm i) * x (e.symm i))
        ring
      norm_map' := fun x => by
        have h2 : ‖(WithLp.toLp 2 fun i => s (e.symm i) * x (e.symm i) : EuclideanSpace ℝ ι')‖ ^ 2 = ‖x‖ ^ 2 := by
          rw [EuclideanSpace.norm_sq_eq, EuclideanSpace.norm_sq_eq, ← Equiv.sum_comp e]
          refine Finset.sum_congr rfl fun i _ => ?_
          simp only [Equiv.symm_apply_apply]
          rcases hs i with h | h <;> rw [h] <;> simp
        exact (sq_eq_sq₀ (norm_nonneg _) (norm_nonneg _)).1 h2 }
    (fun y => ⟨WithLp.toLp 2 fun i => s i * y (e i), by
      ext i
      change s (e.symm i) * (s (e.symm i) * y (e (e.symm i))) = y i
      rw [← mul_assoc, Equiv.apply_symm_apply]
      rcases hs (e.symm i) with h | h <;> rw [h] <;> simp⟩)

theorem signPerm_apply {ι ι' : Type*} [Fintype ι] [Fintype ι'] (e : ι ≃ ι') (s : ι → ℝ)
    (hs : ∀ i, s i = 1 ∨ s i = -1) (x : EuclideanSpace ℝ ι) (i : ι') :
    signPerm e s hs x i = s (e.symm i) * x (e.symm i) := rfl

theorem signPerm_image {ι ι' : Type*} [Fintype ι] [Fintype ι'] (e : ι ≃ ι') (s : ι → ℝ)
    (hs : ∀ i, s i = 1 ∨ s i = -1) (x : EuclideanSpace ℝ ι) (i : ι) : signPerm e s hs x (e i) = s i * x i := by
  rw [signPerm_apply, Equiv.symm_apply_apply]

/-! ## Classes of the form `x = y` with a least-squares data term -/

/-- What remains to be shown for a class with the constraint `x - y = 0`. -/
theorem paired_equal {F₁ F₁' : Type*} [NormedAddCommGroup F₁] [InnerProductSpace ℝ F₁] [NormedAddCommGroup F₁']
    [InnerProductSpace ℝ F₁'] {xs ys rc ob} {xs' ys' rc' ob'} {L : E →L[ℝ] F₁} {b : F₁} {g : E → ℝ}
    {Dg : Set E} {hg : ConvexOn ℝ Dg g} {L' : E' →L[ℝ] F₁'} {b' : F₁'} {g' : E' → ℝ} {Dg' : Set E'}
    {hg' : ConvexOn ℝ Dg' g'} {Inv : ℝ → H → Prop} {Inv' : ℝ → H' → Prop} {o : Opts} (T : E ≃ₗᵢ[ℝ] E')
    (h1 : Implements (Cls.equal xs ys rc ob) (lsProblem L b g Dg hg) Inv)
    (h2 : Implements (Cls.equal xs' ys' rc' ob') (lsProblem L' b' g' Dg' hg') Inv')
    (hf : ∀ x, 1 / 2 * ‖L' (T x) - b'‖ ^ 2 = 1 / 2 * ‖L x - b‖ ^ 2) (hgT : ∀ y, g' (T y) = g y)
    (hD : ∀ y, T y ∈ Dg' ↔ y ∈ Dg)
    (hob : ∀ s s', 0 < s.rho → Inv s.rho s.extra → Inv' s.rho s'.extra → s'.rho = s.rho →
      (steps (Cls.equal xs' ys' rc' ob') o s').X = T (steps (Cls.equal xs ys rc ob) o s).X →
      (steps (Cls.equal xs' ys' rc' ob') o s').Y = T (steps (Cls.equal xs ys rc ob) o s).Y →
      ob' (steps (Cls.equal xs' ys' rc' ob') o s').X (steps (Cls.equal xs' ys' rc' ob') o s').Y
          (steps (Cls.equal xs' ys' rc' ob') o s').extra =
        ob (steps (Cls.equal xs ys rc ob) o s).X (steps (Cls.equal xs ys rc ob) o s).Y
          (steps (Cls.equal xs ys rc ob) o s).extra) :
    Paired (Cls.equal xs ys rc ob) (lsProblem L b g Dg hg) Inv (Cls.equal xs' ys' rc' ob')
      (lsProblem L' b' g' Dg' hg') Inv' T T T o where
  left := h1
  right := h2
  iso := ⟨fun _ => rfl, fun y => (map_neg T y).symm, (map_zero T).symm, hf, fun _ => ⟨fun _ => trivial, fun _ => trivial⟩,
    hgT, hD⟩
  injA := fun _ _ h => h
  injB := fun _ _ h => neg_injective h
  nrmS := fun rho yp y u => by
    change ‖rho • (T yp - T y)‖ = ‖rho • (yp - y)‖
    rw [← map_sub, ← map_smul, T.norm_map]
  rn := fun ax y => by
    change max ‖T ax‖ ‖T y‖ = max ‖ax‖ ‖y‖
    rw [T.norm_map, T.norm_map]
  sn := fun rho u => by
    change rho * ‖T u‖ = rho * ‖u‖
    rw [T.norm_map]
  obj := hob

end Sporco.Admm
