import Verif.Dictlrn.DictLearn
import Verif.Admm.Model
import Verif.Pgm.Model

/-!
# General facts used for the dictionary learning classes (C70, C71)

Runs of the alternating loop that cannot fail, the recorded value of a field, and properties that the inner `solve`
calls preserve.
-/

set_option autoImplicit false

namespace Sporco.Dictlrn

section
variable {σ τ Z Dc V : Type}

/-! ## Runs -/

/-- Recording a row never fails. -/
def RowsOk (e : Env σ τ Z Dc V) : Prop := ∀ j x d, ∃ r, rowOf e j (x, d) = some r

theorem loop_total {e : Env σ τ Z Dc V} (h : RowsOk e) (cb : DL σ τ V → Bool) (js : List ℕ) (s : DL σ τ V) :
    ∃ s', loop e cb js s = some s' := by
  induction js generalizing s with
  | nil => exact ⟨s, rfl⟩
  | cons j js ih =>
    obtain ⟨r, hr⟩ := h j (alt e (s.x, s.d)).1 (alt e (s.x, s.d)).2
    have hb : body e j s = some ⟨(alt e (s.x, s.d)).1, (alt e (s.x, s.d)).2, j, s.itstat ++ [r]⟩ := by
      change (rowOf e j ((alt e (s.x, s.d)).1, (alt e (s.x, s.d)).2)).map _ = _
      rw [hr]
      rfl
    simp only [loop, hb, Option.bind_some]
    split_ifs
    · exact ⟨_, rfl⟩
    · exact ih _

theorem run_total {e : Env σ τ Z Dc V} (h : RowsOk e) (cs : List (ℕ × (DL σ τ V → Bool))) (s : DL σ τ V) :
    ∃ s', dlRun e cs s = some s' := by
  induction cs generalizing s with
  | nil => exact ⟨s, rfl⟩
  | cons c cs ih =>
    obtain ⟨s1, h1⟩ := loop_total h c.2 (List.range' s.j c.1) s
    obtain ⟨s2, h2⟩ := ih { s1 with j := s1.j + 1 }
    exact ⟨s2, by simp [dlRun, dlSolve, h1, h2]⟩

theorem loop_length {e : Env σ τ Z Dc V} {js : List ℕ} {s s' : DL σ τ V} (h : loop e (fun _ => false) js s = some s') :
    s'.itstat.length = s.itstat.length + js.length := by
  induction js generalizing s with
  | nil => obtain rfl := Option.some.inj h; rfl
  | cons j js ih =>
    obtain ⟨s1, h1, h2⟩ := Option.bind_eq_some_iff.1 h
    obtain ⟨-, -, r, -, e4⟩ := body_some h1
    rw [if_neg Bool.false_ne_true] at h2
    rw [ih h2, e4]
    simp
    omega

/-- A call without callback makes all its iterations. -/
theorem run_length {e : Env σ τ Z Dc V} {n : ℕ} {s s' : DL σ τ V} (h : dlRun e [(n, fun _ => false)] s = some s') :
    s'.itstat.length = s.itstat.length + n := by
  obtain ⟨s1, h1, h2⟩ := Option.bind_eq_some_iff.1 h
  obtain rfl := Option.some.inj h2
  obtain ⟨s2, h3, rfl⟩ := Option.map_eq_some_iff.1 h1
  have := loop_length h3
  rwa [List.length_range'] at this

/-- If every requested field has a value then a row is recorded, with these values. -/
theorem row_some {isc : Isc} {j : ℕ} {t : V} {isx isd : Ntpl V} {evl : Option (Ntpl V)}
    (h : ∀ f ∈ isc.isfld, ∃ v, srcVal j t isx isd evl f (src isc f) = some v) :
    ∃ r, iterstats isc j t isx isd evl = some r := by
  have : Nonempty (Val V) := ⟨.nil⟩
  choose! g hg using h
  refine ⟨_, mapM_of_some (fun f => (f, g f)) fun f hf => ?_⟩
  rw [field_src, hg f hf]
  rfl

theorem row_val {isc : Isc} {j : ℕ} {t : V} {isx isd : Ntpl V} {evl : Option (Ntpl V)} {r : List (String × Val V)}
    (h : iterstats isc j t isx isd evl = some r) {f : String} (hf : f ∈ isc.isfld) {v : Val V}
    (hv : srcVal j t isx isd evl f (src isc f) = some v) : (f, v) ∈ r := by
  obtain ⟨h1, h2⟩ := mapM_some h
  obtain ⟨k, hk, rfl⟩ := List.getElem_of_mem hf
  have h3 := h2 k hk (by omega)
  rw [field_src, hv] at h3
  have h4 : (isc.isfld[k], v) = r[k]'(by omega) := Option.some.inj h3
  rw [h4]
  exact List.getElem_mem _

theorem lastStat_fields {l : List (Ntpl V)} {flds : List String} (zero : V) (h : ∀ s ∈ l, HasFields s flds) :
    HasFields (lastStat l flds zero) flds := by
  intro f hf
  unfold lastStat
  cases hl : l.getLast? with
  | none => exact ⟨zero, by simp [hf]⟩
  | some s => exact h s (List.mem_of_getLast? hl) f hf

/-- A property of the dictionary object that the update and the new coefficients preserve. -/
theorem alt_inv_d {e : Env σ τ Z Dc V} {x0 : σ} {d0 : τ} {xs : ℕ → σ} {ds : ℕ → τ} (h : Alternates e x0 d0 xs ds)
    (Q : τ → Prop) (h0 : Q d0) (hs : ∀ z d, Q d → Q (e.D.solve (e.D.setcoef z d))) (k : ℕ) : Q (ds k) := by
  induction k with
  | zero => rw [h.d_first]; exact hs _ _ h0
  | succ k ih => rw [h.d_next]; exact hs _ _ ih

end

end Sporco.Dictlrn

/-! ## The inner solvers -/

namespace Sporco.Admm
variable {E F G H : Type*} [AddCommGroup G] [Module ℝ G]

/-- A property of the object that one iteration preserves. -/
theorem solve_inv (C : Cls E F G H) (o : Opts) (cb : Option (St E F G H → Bool × H)) (Q : St E F G H → Prop)
    (hk : ∀ s j, Q s → Q { s with k := j }) (hb : ∀ k s, Q s → Q (body C o cb k s).1) (s : St E F G H) (h : Q s) :
    Q (solve C o cb s) := by
  have : ∀ (ks : List ℕ) (s : St E F G H), Q s → Q (loop C o cb ks s) := by
    intro ks
    induction ks with
    | nil => exact fun s h => h
    | cons k ks ih =>
      intro s h
      simp only [loop]
      split_ifs
      · exact hb k s h
      · exact ih _ (hb k s h)
  exact hk _ _ (this _ s h)

/-- A property that every iteration establishes holds after a call that makes at least one iteration. -/
theorem solve_last (C : Cls E F G H) (o : Opts) (cb : Option (St E F G H → Bool × H)) (Q R : St E F G H → Prop)
    (hk : ∀ s j, R s → R { s with k := j }) (hb : ∀ k s, Q s → Q (body C o cb k s).1 ∧ R (body C o cb k s).1)
    (ho : 1 ≤ o.maxMainIter) (s : St E F G H) (h : Q s) : R (solve C o cb s) := by
  have : ∀ (ks : List ℕ) (s : St E F G H), Q s → (ks = [] → R s) → R (loop C o cb ks s) := by
    intro ks
    induction ks with
    | nil => exact fun s _ h => h rfl
    | cons k ks ih =>
      intro s h _
      simp only [loop]
      split_ifs
      · exact (hb k s h).2
      · exact ih _ (hb k s h).1 fun _ => (hb k s h).2
  exact hk _ _ (this _ s h fun h' => absurd h' (by simp; omega))

theorem updateRho_eq (C : Cls E F G H) (o : Opts) (k : ℕ) (r q : ℝ) (s : St E F G H) :
    (updateRho C o k r q s).X = s.X ∧ (updateRho C o k r q s).Y = s.Y ∧ (updateRho C o k r q s).itstat = s.itstat ∧
      ((updateRho C o k r q s).extra = s.extra ∨ ∃ rho, (updateRho C o k r q s).extra = C.rhochange rho s.extra) := by
  unfold updateRho
  split_ifs
  · dsimp only
    split_ifs
    · exact ⟨rfl, rfl, rfl, Or.inr ⟨_, rfl⟩⟩
    · exact ⟨rfl, rfl, rfl, Or.inl rfl⟩
  · exact ⟨rfl, rfl, rfl, Or.inl rfl⟩

/-- What one iteration without callback leaves in the variables and statistics. -/
theorem body_eq (C : Cls E F G H) (o : Opts) (k : ℕ) (s : St E F G H) :
    let s1 := steps C o { s with k := k }
    let s' := (body C o none k s).1
    s'.X = s1.X ∧ s'.Y = s1.Y ∧
      (s'.itstat = s1.itstat ∧ o.fastSolve = true ∨
        ∃ st : Stat, s'.itstat = s1.itstat ++ [st] ∧ st.obj = C.objfn s1.X s1.Y s1.extra ∧ o.fastSolve = false) ∧
      (s'.extra = s1.extra ∨ ∃ rho, s'.extra = C.rhochange rho s1.extra) := by
  intro s1 s'
  have key : ∀ s2 : St E F G H, s2.X = s1.X → s2.Y = s1.Y → s2.extra = s1.extra →
      ∀ q : Rsdl, (if o.withRsdl = true then updateRho C o k q.r q.s s2 else s2).X = s1.X ∧
        (if o.withRsdl = true then updateRho C o k q.r q.s s2 else s2).Y = s1.Y ∧
        (if o.withRsdl = true then updateRho C o k q.r q.s s2 else s2).itstat = s2.itstat ∧
        ((if o.withRsdl = true then updateRho C o k q.r q.s s2 else s2).extra = s1.extra ∨
          ∃ rho, (if o.withRsdl = true then updateRho C o k q.r q.s s2 else s2).extra = C.rhochange rho s1.extra) := by
    intro s2 h1 h2 h3 q
    obtain ⟨e1, e2, e3, e4⟩ := updateRho_eq C o k q.r q.s s2
    split_ifs
    · rw [h3] at e4
      exact ⟨e1.trans h1, e2.trans h2, e3, e4⟩
    · exact ⟨h1, h2, rfl, Or.inl h3⟩
  have hs' : s' = (body C o none k s).1 := rfl
  unfold body at hs'
  dsimp only at hs'
  cases hf : o.fastSolve with
  | true =>
    rw [hf] at hs'
    obtain ⟨e1, e2, e3, e4⟩ := key s1 rfl rfl rfl (computeResiduals C o s1)
    rw [hs']
    exact ⟨e1, e2, Or.inl ⟨e3, rfl⟩, e4⟩
  | false =>
    rw [hf] at hs'
    obtain ⟨e1, e2, e3, e4⟩ := key { s1 with itstat := s1.itstat ++ [⟨k, C.objfn s1.X s1.Y s1.extra, computeResiduals C o s1,
      s1.rho⟩] } rfl rfl rfl (computeResiduals C o s1)
    rw [hs']
    exact ⟨e1, e2, Or.inr ⟨_, e3, rfl, rfl⟩, e4⟩

/-- A property of Y that every Y update establishes. -/
theorem solve_Y (C : Cls E F G H) (o : Opts) (Q : F → Prop) (hy : ∀ rho AX X Y U h, Q (C.ystep rho AX X Y U h).1)
    (s : St E F G H) (h : Q s.Y) : Q (solve C o none s).Y := by
  refine solve_inv C o none (fun s => Q s.Y) (fun _ _ h => h) (fun k s _ => ?_) s h
  obtain ⟨-, h2, -⟩ := body_eq C o k s
  rw [h2]
  exact hy _ _ _ _ _ _

end Sporco.Admm

namespace Sporco.Pgm

/-- A property of the variables that one iteration preserves. -/
theorem solve_inv {V : Type*} (C : Ops V) (o : Opts) (cb : Option (St V → Bool × V)) (Q : V → Prop)
    (hcb : ∀ f, cb = some f → ∀ s, Q s.v → Q (f s).2) (hb : ∀ k v, Q v → Q (C.step k (C.start k v)))
    (s : St V) (h : Q s.v) : Q (solve C o cb s).v := by
  have hbody : ∀ k (s : St V), Q s.v → Q (body C o cb k s).1.v := by
    intro k s h
    have h1 := hb k s.v h
    unfold body
    cases hc : cb with
    | none =>
      dsimp only
      split_ifs <;> exact h1
    | some f =>
      dsimp only
      split_ifs
      · exact hcb f hc _ h1
      · exact hcb f hc _ h1
  have : ∀ (ks : List ℕ) (s : St V), Q s.v → Q (loop C o cb ks s).v := by
    intro ks
    induction ks with
    | nil => exact fun s h => h
    | cons k ks ih =>
      intro s h
      simp only [loop]
      split_ifs
      · exact hbody k s h
      · exact ih _ (hbody k s h)
  exact this _ s h

/-- The last entry of the statistics after a call that makes at least one iteration and records statistics is that of the
variables the call leaves. -/
theorem solve_last {V : Type*} (C : Ops V) (o : Opts) (hf : o.fastSolve = false) (ho : 1 ≤ o.maxMainIter) (s : St V) :
    ∃ k r, (solve C o none s).itstat.getLast? = some (C.stat k (solve C o none s).v r) := by
  have hbody : ∀ (k : ℕ) (s : St V), ∃ j r, (body C o none k s).1.itstat.getLast? = some (C.stat j (body C o none k s).1.v r) := by
    intro k s
    unfold body
    rw [hf]
    exact ⟨k, _, by simp only [Bool.false_eq_true, if_false, List.getLast?_concat]; rfl⟩
  have : ∀ (ks : List ℕ) (s : St V), (ks = [] → ∃ k r, s.itstat.getLast? = some (C.stat k s.v r)) →
      ∃ k r, (loop C o none ks s).itstat.getLast? = some (C.stat k (loop C o none ks s).v r) := by
    intro ks
    induction ks with
    | nil => exact fun s h => h rfl
    | cons k ks ih =>
      intro s _
      simp only [loop]
      split_ifs
      · exact hbody k s
      · exact ih _ fun _ => hbody k s
  exact this _ s fun h => absurd h (by simp; omega)

section
variable {E : Type*} [NormedAddCommGroup E] [InnerProductSpace ℝ E]

theorem xstepG_X (C : Cls E) (o : Opts) (k : ℕ) (g : E) (Q : E → Prop) (hp : ∀ L v, Q (C.proxG L v)) (v : Vars E)
    (h : Q v.Xprv) : Q (xstepG C o k g v).X ∧ (xstepG C o k g v).Xprv = v.Xprv := by
  have hst : ∀ w : Vars E, (storeBB o w g).Xprv = w.Xprv := by
    intro w
    unfold storeBB
    split <;> rfl
  have hsf : ∀ w : Vars E, Q w.X → Q w.Xprv → Q (safeguard C o k w).X ∧ (safeguard C o k w).Xprv = w.Xprv := by
    intro w h1 h2
    unfold safeguard
    split_ifs with hm
    · dsimp only
      split_ifs
      · exact ⟨h2, rfl⟩
      · exact ⟨h1, rfl⟩
    · exact ⟨h1, rfl⟩
  unfold xstepG
  dsimp only
  refine (fun h' => ⟨h'.1, h'.2.trans (hst _)⟩) (hsf _ (hp _ _) ?_)
  change Q (storeBB o _ g).Xprv
  rw [hst]
  exact h

theorem ystep_X (o : Opts) (k : ℕ) (v : Vars E) : (ystep o k v).X = v.X := by
  unfold ystep
  dsimp only
  split_ifs <;> rfl

omit [NormedAddCommGroup E] [InnerProductSpace ℝ E] in
theorem onStart_X (C : Cls E) (o : Opts) (k : ℕ) (v : Vars E) :
    (onStart C o k v).X = v.X ∧ (onStart C o k v).Xprv = v.X := by
  unfold onStart
  dsimp only
  split_ifs <;> exact ⟨rfl, rfl⟩

/-- A property that every value of the proximal map has is preserved by the solution step. -/
theorem mainStep_X (C : Cls E) (o : Opts) (k : ℕ) (Q : E → Prop) (hp : ∀ L v, Q (C.proxG L v)) (v : Vars E)
    (h : Q v.X) (hprv : Q v.Xprv) : Q (mainStep C o k v).X := by
  have hbt : ∀ gu g n it (v : Vars E), Q v.X → Q v.Xprv → Q (btLoop C o k gu g n it v).X := by
    intro gu g n
    induction n with
    | zero => exact fun it v h _ => h
    | succ n ih =>
      intro it v h h2
      obtain ⟨e1, e2⟩ := xstepG_X C o k g Q hp v h2
      simp only [btLoop]
      split_ifs
      · exact e1
      · exact ih _ _ e1 (by rw [← e2] at h2; exact h2)
  have hrb : ∀ gu Z n it t (v : Vars E), Q v.X → Q v.Xprv → Q (rbLoop C o k gu Z n it (t, v)).2.X := by
    intro gu Z n
    induction n with
    | zero => exact fun it t v h _ => h
    | succ n ih =>
      intro it t v h h2
      obtain ⟨e1, e2⟩ := xstepG_X C o k (C.gradF ((1 / (v.Tk + robustT v.L v.Tk)) • (v.Tk • v.Xprv + robustT v.L v.Tk • Z)))
        Q hp { v with Y := (1 / (v.Tk + robustT v.L v.Tk)) • (v.Tk • v.Xprv + robustT v.L v.Tk • Z) } h2
      simp only [rbLoop]
      split_ifs
      · exact e1
      · exact ih _ _ _ e1 (e2.symm.subst (motive := Q) h2)
  unfold mainStep
  cases o.backtrack with
  | none =>
    dsimp only
    rw [ystep_X]
    exact (xstepG_X C o k _ Q hp v hprv).1
  | standard gu n =>
    dsimp only [btStandard]
    rw [ystep_X]
    exact hbt _ _ _ _ _ h hprv
  | robust gd gu n => exact hrb gu _ n 0 0 _ h hprv

/-- A property of X that every value of the proximal map has holds after every `solve`, for every step-size policy,
backtracking, momentum and restart option. -/
theorem solve_X (C : Cls E) (o : Opts) (Q : E → Prop) (hp : ∀ L v, Q (C.proxG L v)) (s : St (Vars E)) (h : Q s.v.X) :
    Q (solve (ops C o) o none s).v.X := by
  refine solve_inv (ops C o) o none (fun v => Q v.X) (fun f hf => by cases hf) (fun k v hv => ?_) s h
  obtain ⟨e1, e2⟩ := onStart_X C o k v
  exact mainStep_X C o k Q hp _ (by rw [← e1] at hv; exact hv) (by rw [← e2] at hv; exact hv)

end

end Sporco.Pgm
