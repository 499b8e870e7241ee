import Verif.Admm.Batch
import Verif.Conv.CbpdnModel
import Verif.Conv.CbpdnCache

/-!
# Signals processed together: convolutional sparse coding (C85)
-/

set_option autoImplicit false
set_option linter.unusedSectionVars false

namespace Sporco.Conv

open Finset ComplexConjugate Sporco.Prox Sporco.Admm Sporco.Linalg

variable {d c : ℕ} {N Nd : Fin d → ℕ} [∀ k, NeZero (N k)] {a : Fin d} {K K' M : Type*} [Fintype K] [Fintype K']
  [Fintype M]

/-! ## Specification -/

/-- `x'` consists of the coefficient maps of the signals that `f` selects. -/
def Maps (f : K' → K) (x : Coef K M N) (x' : Coef K' M N) : Prop := ∀ k m p, x' (k, m, p) = x (f k, m, p)

/-- The second solver holds the part of what the first holds that belongs to the selected signals, with the same
dictionary. -/
structure Part (f : K' → K) (s : St (Coef K M N) (Coef K M N) (Coef K M N) (Attr c K M Nd N a))
    (s' : St (Coef K' M N) (Coef K' M N) (Coef K' M N) (Attr c K' M Nd N a)) : Prop where
  X : Maps f s.X s'.X
  Y : Maps f s.Y s'.Y
  U : Maps f s.U s'.U
  rho : s'.rho = s.rho
  k : s'.k = s.k
  D : s'.extra.D = s.extra.D
  Df : s'.extra.Df = s.extra.Df
  cc : s'.extra.cc = s.extra.cc
  DSf : ∀ k, s'.extra.DSf k = s.extra.DSf (f k)
  Xf : ∀ k, s'.extra.Xf k = s.extra.Xf (f k)

/-! ## Proofs -/

/-- Selection of signals. -/
noncomputable def mapsL (f : K' → K) : Coef K M N →ₗ[ℝ] Coef K' M N where
  toFun x := WithLp.toLp 2 fun i => x (f i.1, i.2.1, i.2.2)
  map_add' _ _ := rfl
  map_smul' _ _ := rfl

theorem maps_iff (f : K' → K) (x : Coef K M N) (x' : Coef K' M N) : Maps f x x' ↔ x' = mapsL f x := by
  constructor
  · intro h
    ext i
    exact h i.1 i.2.1 i.2.2
  · rintro rfl k m p
    rfl

/-- The attributes for the selected signals. -/
def Attr.sel (f : K' → K) (h : Attr c K M Nd N a) : Attr c K' M Nd N a :=
  { D := h.D, Df := h.Df, DSf := fun k => h.DSf (f k), cc := h.cc, Xf := fun k => h.Xf (f k) }

theorem part_core {f : K' → K} {s : St (Coef K M N) (Coef K M N) (Coef K M N) (Attr c K M Nd N a)}
    {s' : St (Coef K' M N) (Coef K' M N) (Coef K' M N) (Attr c K' M Nd N a)} (h : Part f s s') :
    s'.core = s.core.map (mapsL f) (mapsL f) (mapsL f) (Attr.sel f) := by
  have e : s'.extra = s.extra.sel f := by
    have h1 := h.D
    have h2 := h.Df
    have h3 := h.cc
    have h4 : s'.extra.DSf = fun k => s.extra.DSf (f k) := funext h.DSf
    have h5 : s'.extra.Xf = fun k => s.extra.Xf (f k) := funext h.Xf
    cases hs : s'.extra
    rw [hs] at h1 h2 h3 h4 h5
    simp only at h1 h2 h3 h4 h5
    rw [h1, h2, h3, h4, h5]
    rfl
  unfold St.core Core.map
  simp only [(maps_iff f _ _).1 h.X, (maps_iff f _ _).1 h.Y, (maps_iff f _ _).1 h.U, h.rho, e]

theorem core_part {f : K' → K} {s : St (Coef K M N) (Coef K M N) (Coef K M N) (Attr c K M Nd N a)}
    {s' : St (Coef K' M N) (Coef K' M N) (Coef K' M N) (Attr c K' M Nd N a)}
    (h : s'.core = s.core.map (mapsL f) (mapsL f) (mapsL f) (Attr.sel f)) (hk : s'.k = s.k) : Part f s s' := by
  have e := congrArg Core.extra h
  change s'.extra = s.extra.sel f at e
  exact ⟨(maps_iff f _ _).2 (congrArg Core.X h), (maps_iff f _ _).2 (congrArg Core.Y h),
    (maps_iff f _ _).2 (congrArg Core.U h), congrArg Core.rho h, hk, by rw [e]; rfl, by rw [e]; rfl, by rw [e]; rfl,
    fun k => by rw [e]; rfl, fun k => by rw [e]; rfl⟩

theorem gystep_sel (f : K' → K) (q : COpts) (y : K × M × Grid N → ℝ) :
    gystep q Nd (fun i : K' × M × Grid N => y (f i.1, i.2)) = fun i => gystep q Nd y (f i.1, i.2) := by
  funext i
  unfold gystep
  cases q.nonNeg <;> cases q.noBndry <;> simp only [if_true, if_false, Bool.false_eq_true, zeroTail_apply] <;> rfl

/-- **C85 for `ConvBPDN`.** Let a solver hold a batch of signals, and another one any selection `f` of them, with the
weights and initial values of these signals. Without `AutoRho`, if both calls of `solve()` make the same number of
iterations, the second solver then holds the part of what the first holds that belongs to the selected signals. With a
single-channel dictionary the channels of the signals are part of the index and hence independent as well. -/
theorem C85_convbpdn (f : K' → K) (q : COpts) (S : Signal c K N) (lmbda : ℝ) (w : K × M × Grid N → ℝ)
    (fe ge : Bool) (o o' : Opts) (ho : Bpdn.SameOpts o o')
    (s : St (Coef K M N) (Coef K M N) (Coef K M N) (Attr c K M Nd N a)) (s') (h : Part f s s')
    (hk : (solve (clsConvBPDN q (fun i k => S i (f k)) lmbda (fun i => w (f i.1, i.2)) fe ge) o' none s').k =
      (solve (clsConvBPDN q S lmbda w fe ge) o none s).k) :
    Part f (solve (clsConvBPDN q S lmbda w fe ge) o none s)
      (solve (clsConvBPDN q (fun i k => S i (f k)) lmbda (fun i => w (f i.1, i.2)) fe ge) o' none s') := by
  have hR : Restricts (H := Attr c _ M Nd N a) (H' := Attr c _ M Nd N a) (clsConvBPDN q S lmbda w fe ge)
      (clsConvBPDN q (fun i k => S i (f k)) lmbda (fun i => w (f i.1, i.2)) fe ge) o.rlx (mapsL f) (mapsL f) (mapsL f) (Attr.sel f) := by
    refine restricts_equal (E := Coef K M N) (E' := Coef K' M N) o.rlx (mapsL f) (Attr.sel f) ?_ ?_
    · intro rho X Y U h; rfl
    intro rho A X Y U h
    refine Prod.ext (PiLp.ext fun i => ?_) rfl
    exact congrFun (gystep_sel (Nd := Nd) f q (proxL1Arr (A + U).ofLp fun j => lmbda / rho * w j)) i
  exact core_part (solve_restricts hR ho.autoRho ho.autoRho' ho.rlx ho.iter ho.iter' s s' (part_core h) h.k hk) hk

/-- **C85 for `ConvElasticNet`.** -/
theorem C85_convelasticnet (f : K' → K) (q : COpts) (S : Signal c K N) (lmbda mu : ℝ) (w : K × M × Grid N → ℝ)
    (fe ge : Bool) (o o' : Opts) (ho : Bpdn.SameOpts o o')
    (s : St (Coef K M N) (Coef K M N) (Coef K M N) (Attr c K M Nd N a)) (s') (h : Part f s s')
    (hk : (solve (clsConvEN q (fun i k => S i (f k)) lmbda mu (fun i => w (f i.1, i.2)) fe ge) o' none s').k =
      (solve (clsConvEN q S lmbda mu w fe ge) o none s).k) :
    Part f (solve (clsConvEN q S lmbda mu w fe ge) o none s)
      (solve (clsConvEN q (fun i k => S i (f k)) lmbda mu (fun i => w (f i.1, i.2)) fe ge) o' none s') := by
  have hR : Restricts (H := Attr c _ M Nd N a) (H' := Attr c _ M Nd N a) (clsConvEN q S lmbda mu w fe ge)
      (clsConvEN q (fun i k => S i (f k)) lmbda mu (fun i => w (f i.1, i.2)) fe ge) o.rlx (mapsL f) (mapsL f) (mapsL f) (Attr.sel f) := by
    refine restricts_equal (E := Coef K M N) (E' := Coef K' M N) o.rlx (mapsL f) (Attr.sel f) ?_ ?_
    · intro rho X Y U h; rfl
    intro rho A X Y U h
    refine Prod.ext (PiLp.ext fun i => ?_) rfl
    exact congrFun (gystep_sel (Nd := Nd) f q (proxL1Arr (A + U).ofLp fun j => lmbda / rho * w j)) i
  exact core_part (solve_restricts hR ho.autoRho ho.autoRho' ho.rlx ho.iter ho.iter' s s' (part_core h) h.k hk) hk

/-- **C85 for `ConvBPDNJoint`.** Here the channels `L` of a signal are coupled and are selected together. -/
theorem C85_convbpdnjoint {L : Type*} [Fintype L] (f : K' → K) (q : COpts) (S : Signal c (L × K) N) (lmbda mu : ℝ)
    (w : (L × K) × M × Grid N → ℝ) (wl21 : ℝ) (fe ge : Bool) (o o' : Opts) (ho : Bpdn.SameOpts o o')
    (s : St (Coef (L × K) M N) (Coef (L × K) M N) (Coef (L × K) M N) (Attr c (L × K) M Nd N a)) (s')
    (h : Part (Prod.map id f) s s')
    (hk : (solve (clsConvJnt q (fun i k => S i (k.1, f k.2)) lmbda mu (fun i => w ((i.1.1, f i.1.2), i.2)) wl21 fe ge) o'
      none s').k = (solve (clsConvJnt q S lmbda mu w wl21 fe ge) o none s).k) :
    Part (Prod.map id f) (solve (clsConvJnt q S lmbda mu w wl21 fe ge) o none s)
      (solve (clsConvJnt q (fun i k => S i (k.1, f k.2)) lmbda mu (fun i => w ((i.1.1, f i.1.2), i.2)) wl21 fe ge) o'
        none s') := by
  have hR : Restricts (H := Attr c _ M Nd N a) (H' := Attr c _ M Nd N a) (clsConvJnt q S lmbda mu w wl21 fe ge)
      (clsConvJnt q (fun i k => S i (k.1, f k.2)) lmbda mu (fun i => w ((i.1.1, f i.1.2), i.2)) wl21 fe ge) o.rlx (mapsL (Prod.map id f)) (mapsL (Prod.map id f)) (mapsL (Prod.map id f)) (Attr.sel (Prod.map id f)) := by
    refine restricts_equal (E := Coef (L × K) M N) (E' := Coef (L × K') M N) o.rlx (mapsL (Prod.map id f)) (Attr.sel (Prod.map id f)) ?_ ?_
    · intro rho X Y U h; rfl
    intro rho A X Y U h
    refine Prod.ext (PiLp.ext fun i => ?_) rfl
    exact congrFun (gystep_sel (Nd := Nd) (Prod.map id f) q fun p =>
      proxSl1l2 (fun l => (A + U).ofLp ((l, p.1.2), p.2)) (fun l => lmbda / rho * w ((l, p.1.2), p.2)) (mu / rho * wl21)
        p.1.1) i
  exact core_part (solve_restricts hR ho.autoRho ho.autoRho' ho.rlx ho.iter ho.iter' s s' (part_core h) h.k hk) hk

/-- What `setdict` computes for the selected signals is the selected part of what it computes for the batch. -/
theorem setdict_sel (f : K' → K) (q : COpts) (S : Signal c K N) (rho : ℝ) (D : Dict c M Nd) (Xf : Spec K M N a) :
    setdict q (fun i k => S i (f k)) rho D (fun k => Xf (f k)) = (setdict q S rho D Xf).sel f := rfl

/-- With zero tolerances both calls make all `MaxMainIter` iterations, as the theorems require. -/
theorem endless_k (f : K' → K) (q : COpts) (S : Signal c K N) (lmbda : ℝ) (w : K × M × Grid N → ℝ)
    (fe ge : Bool) (o o' : Opts) (ho : o.Endless) (ho' : o'.Endless) (hm : 0 < o.maxMainIter)
    (hn : o'.maxMainIter = o.maxMainIter) (s : St (Coef K M N) (Coef K M N) (Coef K M N) (Attr c K M Nd N a)) (s')
    (h : Part f s s') :
    (solve (clsConvBPDN q (fun i k => S i (f k)) lmbda (fun i => w (f i.1, i.2)) fe ge) o' none s').k =
      (solve (clsConvBPDN q S lmbda w fe ge) o none s).k := by
  rw [solve_endless _ _ ho' (fun _ _ => norm_nonneg _) (fun _ _ => le_max_of_le_left (norm_nonneg _)) (by omega),
    solve_endless _ _ ho (fun _ _ => norm_nonneg _) (fun _ _ => le_max_of_le_left (norm_nonneg _)) hm, h.k, hn]

end Sporco.Conv
