import Verif.Admm.Optimal

/-!
# Two classes whose methods agree give the same run

Used to compare runs with and without an option that only adds cached values to an object.
-/

set_option autoImplicit false
set_option linter.unusedSectionVars false

namespace Sporco.Admm

variable {E F G H H' : Type*} [NormedAddCommGroup E] [InnerProductSpace ℝ E] [NormedAddCommGroup F]
  [InnerProductSpace ℝ F] [NormedAddCommGroup G] [InnerProductSpace ℝ G]

/-- The state of a solver object with its own attributes replaced by `e`. -/
def St.mapExtra (e : H → H') (s : St E F G H) : St E F G H' :=
  { X := s.X, Y := s.Y, Yprev := s.Yprev, U := s.U, AX := s.AX, AXnr := s.AXnr, rho := s.rho,
    k := s.k, itstat := s.itstat, extra := e s.extra }

/-- Two callbacks that do the same. -/
def CbSim (e : H → H') (cb : Option (St E F G H → Bool × H))
    (cb' : Option (St E F G H' → Bool × H')) : Prop :=
  (cb = none ∧ cb' = none) ∨ ∃ f f', cb = some f ∧ cb' = some f' ∧
    ∀ t, f' (t.mapExtra e) = ((f t).1, e (f t).2)

/-- The methods of two classes agree up to `e` on attributes satisfying `Inv`. -/
structure ClsSim (e : H → H') (C : Cls E F G H) (C' : Cls E F G H') (Inv : ℝ → H → Prop) : Prop where
  xstep : ∀ rho X Y U h, 0 < rho → Inv rho h →
    C'.xstep rho X Y U (e h) = ((C.xstep rho X Y U h).1, e (C.xstep rho X Y U h).2)
  ystep : ∀ rho AX X Y U h, 0 < rho → Inv rho h →
    C'.ystep rho AX X Y U (e h) = ((C.ystep rho AX X Y U h).1, e (C.ystep rho AX X Y U h).2)
  rhochange : ∀ rho rho' h, Inv rho h → C'.rhochange rho' (e h) = e (C.rhochange rho' h)
  objfn : ∀ rho X Y h, Inv rho h → C'.objfn X Y (e h) = C.objfn X Y h
  relax : C'.relax = C.relax
  ustep : C'.ustep = C.ustep
  nrmR : C'.nrmR = C.nrmR
  nrmS : C'.nrmS = C.nrmS
  rsdlRn : C'.rsdlRn = C.rsdlRn
  rsdlSn : C'.rsdlSn = C.rsdlSn

variable {e : H → H'} {C : Cls E F G H} {C' : Cls E F G H'} {Inv : ℝ → H → Prop}

theorem steps_sim (hs : ClsSim e C C' Inv) (hk : Keeps C Inv) (o : Opts) (s : St E F G H)
    (hp : 0 < s.rho) (hI : Inv s.rho s.extra) :
    steps C' o (s.mapExtra e) = (steps C o s).mapExtra e := by
  have hx := hs.xstep s.rho s.X s.Y s.U s.extra hp hI
  have hI2 := hk.xinv s.rho s.X s.Y s.U s.extra hp hI
  have hy := fun a => hs.ystep s.rho a (C.xstep s.rho s.X s.Y s.U s.extra).1 s.Y s.U _ hp hI2
  unfold steps St.mapExtra
  simp only [hx, hs.relax, hs.ustep, hy]

theorem residuals_sim (hs : ClsSim e C C' Inv) (o : Opts) (s : St E F G H) :
    computeResiduals C' o (s.mapExtra e) = computeResiduals C o s := by
  unfold computeResiduals St.mapExtra
  simp only [hs.nrmR, hs.nrmS, hs.rsdlRn, hs.rsdlSn]

theorem updateRho_sim (hs : ClsSim e C C' Inv) (o : Opts) (k : ℕ) (r q : ℝ) (s : St E F G H)
    (hI : Inv s.rho s.extra) :
    updateRho C' o k r q (s.mapExtra e) = (updateRho C o k r q s).mapExtra e := by
  unfold updateRho
  by_cases h1 : o.autoRho = true ∧ k ≠ 0 ∧ npMod (k + 1) o.period = 0
  · rw [if_pos h1, if_pos h1]
    simp only
    by_cases h2 : rsf o r q ≠ 1
    · rw [if_pos h2, if_pos h2]
      have := hs.rhochange s.rho (s.rho * rsf o r q) s.extra hI
      unfold St.mapExtra
      simp only [this]
    · rw [if_neg h2, if_neg h2]
      rfl
  · rw [if_neg h1, if_neg h1]

theorem body_keeps (hk : Keeps C Inv) (o : Opts) (ho : o.autoRho = true → o.RhoOk)
    (cb) (hcb : CallbackKeeps Inv cb) (k : ℕ) (s : St E F G H) (hp : 0 < s.rho)
    (hI : Inv s.rho s.extra) :
    0 < (body C o cb k s).1.rho ∧ Inv (body C o cb k s).1.rho (body C o cb k s).1.extra :=
  traj_keeps hk o ho cb hcb { s with k := k } hp hI 1

theorem body_sim (hs : ClsSim e C C' Inv) (hk : Keeps C Inv) (o : Opts)
    (cb) (cb') (hcs : CbSim e cb cb') (k : ℕ)
    (s : St E F G H) (hp : 0 < s.rho) (hI : Inv s.rho s.extra) :
    body C' o cb' k (s.mapExtra e) = ((body C o cb k s).1.mapExtra e, (body C o cb k s).2) := by
  have h1 : steps C' o { (s.mapExtra e) with k := k } = (steps C o { s with k := k }).mapExtra e :=
    steps_sim hs hk o { s with k := k } hp hI
  have hI1 : Inv s.rho (steps C o { s with k := k }).extra := steps_inv hk o { s with k := k } hp hI
  have hr1 : (steps C o { s with k := k }).rho = s.rho := rfl
  unfold body
  simp only [h1]
  generalize steps C o { s with k := k } = t at hI1 hr1
  rw [residuals_sim hs]
  generalize computeResiduals C o t = q
  have ho : C'.objfn (t.mapExtra e).X (t.mapExtra e).Y (t.mapExtra e).extra =
    C.objfn t.X t.Y t.extra := hs.objfn s.rho t.X t.Y t.extra hI1
  have h2 : (if o.fastSolve = true then t.mapExtra e else
      { (t.mapExtra e) with itstat := (t.mapExtra e).itstat ++
        [⟨k, C'.objfn (t.mapExtra e).X (t.mapExtra e).Y (t.mapExtra e).extra, q, (t.mapExtra e).rho⟩] }) =
      (if o.fastSolve = true then t else
        { t with itstat := t.itstat ++ [⟨k, C.objfn t.X t.Y t.extra, q, t.rho⟩] }).mapExtra e := by
    rw [ho]; split_ifs <;> rfl
  rw [h2]
  have hI2 : Inv (if o.fastSolve = true then t else
        { t with itstat := t.itstat ++ [⟨k, C.objfn t.X t.Y t.extra, q, t.rho⟩] }).rho
        (if o.fastSolve = true then t else
        { t with itstat := t.itstat ++ [⟨k, C.objfn t.X t.Y t.extra, q, t.rho⟩] }).extra := by
    rw [← hr1] at hI1
    split_ifs <;> exact hI1
  generalize (if o.fastSolve = true then t else
        { t with itstat := t.itstat ++ [⟨k, C.objfn t.X t.Y t.extra, q, t.rho⟩] }) = t2 at hI2
  have h3 : (if o.withRsdl = true then updateRho C' o k q.r q.s (t2.mapExtra e) else t2.mapExtra e) =
      (if o.withRsdl = true then updateRho C o k q.r q.s t2 else t2).mapExtra e := by
    rw [updateRho_sim hs o k q.r q.s t2 hI2]; split_ifs <;> rfl
  rw [h3]
  generalize (if o.withRsdl = true then updateRho C o k q.r q.s t2 else t2) = t3
  rcases hcs with ⟨rfl, rfl⟩ | ⟨f, f', rfl, rfl, hf⟩
  · rfl
  · simp only [hf]
    rfl

theorem loop_sim (hs : ClsSim e C C' Inv) (hk : Keeps C Inv) (o : Opts)
    (ho : o.autoRho = true → o.RhoOk) (cb) (cb') (hcb : CallbackKeeps Inv cb) (hcs : CbSim e cb cb')
    (ks : List ℕ) : ∀ (s : St E F G H), 0 < s.rho → Inv s.rho s.extra →
    loop C' o cb' ks (s.mapExtra e) = (loop C o cb ks s).mapExtra e := by
  induction ks with
  | nil => intro s _ _; rfl
  | cons k ks ih =>
    intro s hp hI
    unfold loop
    simp only
    rw [body_sim hs hk o cb cb' hcs k s hp hI]
    obtain ⟨h1, h2⟩ := body_keeps hk o ho cb hcb k s hp hI
    simp only
    split_ifs
    · rfl
    · exact ih _ h1 h2

/-- Two objects whose methods agree go through the same run: `solve` leaves them with the same
variables, penalty parameter, counter and statistics. -/
theorem solve_sim (hs : ClsSim e C C' Inv) (hk : Keeps C Inv) (o : Opts)
    (ho : o.autoRho = true → o.RhoOk) (cb) (cb') (hcb : CallbackKeeps Inv cb) (hcs : CbSim e cb cb')
    (s : St E F G H) (hp : 0 < s.rho) (hI : Inv s.rho s.extra) :
    solve C' o cb' (s.mapExtra e) = (solve C o cb s).mapExtra e := by
  unfold solve
  simp only
  rw [show (s.mapExtra e).k = s.k from rfl, loop_sim hs hk o ho cb cb' hcb hcs _ s hp hI]
  rfl

end Sporco.Admm
