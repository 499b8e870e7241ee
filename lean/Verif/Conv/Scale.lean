import Verif.Admm.Scale
import Verif.Conv.LinCheck
import Verif.Conv.ProjL1

/-!
# Change of units in convolutional sparse coding (C92)
-/

set_option autoImplicit false
set_option linter.unusedSectionVars false

namespace Sporco.Conv

open Finset ComplexConjugate Sporco.Linalg Sporco.Prox Sporco.Admm

variable {d c : ℕ} {N Nd : Fin d → ℕ} [∀ k, NeZero (N k)] {a : Fin d} {K M L : Type*} [Fintype K] [Fintype M] [Fintype L]
  {t : ℝ}

/-- A signal in other units. -/
def sigScaled (t : ℝ) (S : Signal c K N) : Signal c K N := fun i k x => t * S i k x

/-- The attributes of a `ConvBPDN` object in other units. -/
noncomputable def Attr.scaled (t : ℝ) (h : Attr c K M Nd N a) : Attr c K M Nd N a :=
  { h with DSf := fun k m ξ => t * h.DSf k m ξ, Xf := fun k m ξ => t * h.Xf k m ξ }

/-! ## Linearity -/

theorem rfft_smul (t : ℝ) (x : Grid N → ℝ) (ξ : Half N a) : rfft N a (fun p => t * x p) ξ = t * rfft N a x ξ := by
  unfold rfft fft
  rw [mul_sum]
  exact sum_congr rfl fun p _ => by push_cast; ring

theorem hext_smul (t : ℝ) (F : Half N a → ℂ) (ξ : Grid N) : hext N a (fun η => t * F η) ξ = t * hext N a F ξ := by
  unfold hext
  split_ifs
  · rfl
  · rw [map_mul, Complex.conj_ofReal]

theorem irfft_smul (t : ℝ) (F : Half N a → ℂ) (x : Grid N) : irfft N a (fun η => t * F η) x = t * irfft N a F x := by
  unfold irfft
  rw [← Complex.re_ofReal_mul]
  congr 1
  unfold ifft
  rw [← mul_div_assoc, mul_sum]
  congr 1
  exact sum_congr rfl fun ξ _ => by rw [hext_smul]; ring

theorem inner_smul (z : ℂ) (x y : M → ℂ) : Linalg.inner x (fun m => z * y m) = z * Linalg.inner x y := by
  unfold Linalg.inner
  rw [mul_sum]
  exact sum_congr rfl fun _ _ => by ring

theorem ismLoop_smul (z rho : ℂ) (l : List (M → ℂ)) : ∀ (al be : M → ℂ) (dn : List ((M → ℂ) × (M → ℂ) × ℂ)),
    ismLoop rho al (fun m => z * be m) dn l = fun m => z * ismLoop rho al be dn l m := by
  have hr : ∀ (be : M → ℂ) p, reduceStep (fun m => z * be m) p = fun m => z * reduceStep be p m := by
    intro be p
    funext m
    unfold reduceStep
    rw [inner_smul]
    ring
  induction l with
  | nil => intro al be dn; rfl
  | cons x l ih =>
    intro al be dn
    cases l with
    | nil => exact hr _ _
    | cons y l =>
      unfold ismLoop
      simp only
      rw [hr]
      exact ih _ _ _

theorem freqSolve_smul (z : ℂ) (df : Fin (c + 1) → M → ℂ) (rho : ℝ) (b : M → ℂ) (cc : Option (M → ℂ)) :
    freqSolve df rho (fun m => z * b m) cc = fun m => z * freqSolve df rho b cc m := by
  unfold freqSolve
  split_ifs
  · funext m
    unfold solvedbiSm
    simp only
    rw [inner_smul]
    ring
  · unfold solvemdbiIsm
    rw [show (fun m => z * b m / (rho : ℂ)) = fun m => z * (b m / rho) from funext fun _ => by ring]
    exact ismLoop_smul z rho _ _ _ _

theorem sigF_scaled (t : ℝ) (S : Signal c K N) (i : Fin (c + 1)) (k : K) (ξ : Half N a) :
    sigF a (sigScaled t S) i k ξ = t * sigF a S i k ξ := rfft_smul t _ ξ

/-- The constructor (or `setdict`) makes the scaled attributes from the scaled signal. -/
theorem setdict_scaled (t : ℝ) (q : COpts) (S : Signal c K N) (rho : ℝ) (D : Dict c M Nd) (Xf : Spec K M N a) :
    setdict q (sigScaled t S) rho D (fun k m ξ => t * Xf k m ξ) = (setdict q S rho D Xf).scaled t := by
  unfold setdict Attr.scaled
  simp only
  congr 1
  funext k m ξ
  unfold dsF
  rw [mul_sum]
  exact sum_congr rfl fun i _ => by rw [sigF_scaled]; ring

theorem solveF_scaled (t dg rho : ℝ) (Y U : Coef K M N) (h : Attr c K M Nd N a) (k : K) (m : M) (ξ : Half N a) :
    solveF dg rho (t • Y) (t • U) (h.scaled t) k m ξ = t * solveF dg rho Y U h k m ξ := by
  have e : (fun n => (h.scaled t).DSf k n ξ + rho * rfft N a (part (t • Y - t • U) k n) ξ) =
      fun n => (t : ℂ) * (h.DSf k n ξ + rho * rfft N a (part (Y - U) k n) ξ) := by
    funext n
    have : part (t • Y - t • U) k n = fun p => t * part (Y - U) k n p := by
      rw [← smul_sub]; rfl
    rw [this, rfft_smul]
    change (t : ℂ) * h.DSf k n ξ + _ = _
    ring
  unfold solveF
  rw [e]
  exact congrFun (freqSolve_smul (t : ℂ) _ _ _ _) m

theorem xstep_scaled (t dg rho : ℝ) (Y U : Coef K M N) (h : Attr c K M Nd N a) :
    ((join fun k m => irfft N a (solveF dg rho (t • Y) (t • U) (h.scaled t) k m),
        { h.scaled t with Xf := solveF dg rho (t • Y) (t • U) (h.scaled t) }) : Coef K M N × Attr c K M Nd N a) =
      (t • (join fun k m => irfft N a (solveF dg rho Y U h k m)),
        Attr.scaled t { h with Xf := solveF dg rho Y U h }) := by
  have e : solveF dg rho (t • Y) (t • U) (h.scaled t) = fun k m ξ => t * solveF dg rho Y U h k m ξ := by
    funext k m ξ; exact solveF_scaled t dg rho Y U h k m ξ
  rw [e]
  refine Prod.ext ?_ rfl
  ext i
  exact irfft_smul t _ _

theorem zeroTail_scaled (t : ℝ) (Nd : Fin d → ℕ) (y : K × M × Grid N → ℝ) :
    zeroTail Nd (fun p => t * y p) = fun p => t * zeroTail Nd y p := by
  unfold zeroTail
  generalize List.finRange d = l
  induction l generalizing y with
  | nil => rfl
  | cons n l ih =>
    simp only [List.foldl_cons]
    rw [← ih]
    congr 1
    funext p
    split_ifs <;> simp

theorem gystep_scaled (ht : 0 < t) (q : COpts) (Nd : Fin d → ℕ) (y : K × M × Grid N → ℝ) :
    gystep q Nd (fun p => t * y p) = fun p => t * gystep q Nd y p := by
  unfold gystep
  simp only
  by_cases h1 : q.nonNeg = true <;> by_cases h2 : q.noBndry = true <;>
    simp only [h1, h2, if_true, if_false, Bool.false_eq_true, clip_smul ht, zeroTail_scaled]

theorem ystep_scaled (ht : 0 < t) (q : COpts) (lmbda : ℝ) (w : K × M × Grid N → ℝ) (rho : ℝ) (AX X Y U : Coef K M N)
    (h : Attr c K M Nd N a) : ystep q (t * lmbda) w rho (t • AX) (t • X) (t • Y) (t • U) (h.scaled t) =
      (t • (ystep q lmbda w rho AX X Y U h).1, (ystep q lmbda w rho AX X Y U h).2.scaled t) := by
  have e : proxL1Arr (t • AX + t • U).ofLp (fun i => t * lmbda / rho * w i) =
      fun i => t * proxL1Arr (AX + U).ofLp (fun i => lmbda / rho * w i) i := by
    funext i
    unfold proxL1Arr
    rw [← proxL1_smul ht, ← smul_add]
    congr 1
    ring
  unfold ystep
  rw [e, gystep_scaled ht]
  rfl

theorem ystepJnt_scaled (ht : 0 < t) (q : COpts) (lmbda mu : ℝ) (w : (L × K) × M × Grid N → ℝ) (wl21 rho : ℝ)
    (AX X Y U : Coef (L × K) M N) (h : Attr c (L × K) M Nd N a) :
    ystepJnt q (t * lmbda) (t * mu) w wl21 rho (t • AX) (t • X) (t • Y) (t • U) (h.scaled t) =
      (t • (ystepJnt q lmbda mu w wl21 rho AX X Y U h).1, (ystepJnt q lmbda mu w wl21 rho AX X Y U h).2.scaled t) := by
  have e : (fun p : (L × K) × M × Grid N => proxSl1l2 (fun l => (t • AX + t • U).ofLp ((l, p.1.2), p.2))
      (fun l => t * lmbda / rho * w ((l, p.1.2), p.2)) (t * mu / rho * wl21) p.1.1) =
      fun p => t * proxSl1l2 (fun l => (AX + U).ofLp ((l, p.1.2), p.2))
        (fun l => lmbda / rho * w ((l, p.1.2), p.2)) (mu / rho * wl21) p.1.1 := by
    funext p
    have := congrFun (proxSl1l2_smul ht (fun l => (AX + U).ofLp ((l, p.1.2), p.2))
      (fun l => lmbda / rho * w ((l, p.1.2), p.2)) (mu / rho * wl21)) p.1.1
    rw [← this, ← smul_add]
    congr 1
    · funext j; ring
    · ring
  unfold ystepJnt
  rw [e, gystep_scaled ht]
  rfl

theorem rhochange_scaled (q : COpts) (rho : ℝ) (h : Attr c K M Nd N a) :
    rhochange q rho (h.scaled t) = (rhochange q rho h).scaled t := by
  unfold rhochange
  split_ifs <;> rfl

theorem rfl2norm2_smul {ι : Type*} [Fintype ι] (t : ℝ) (f : ι × Half N a → ℂ) :
    rfl2norm2 N a (fun p => (t : ℂ) * f p) = t ^ 2 * rfl2norm2 N a f := by
  have e : ∀ P : ι × Half N a → Prop, ∀ [DecidablePred P], frob (fun p => if P p then (t : ℂ) * f p else 0) ^ 2 =
      t ^ 2 * frob (fun p => if P p then f p else 0) ^ 2 := by
    intro P _
    unfold frob
    rw [Real.sq_sqrt (by positivity), Real.sq_sqrt (by positivity), mul_sum]
    refine sum_congr rfl fun p _ => ?_
    simp only
    split_ifs
    · rw [norm_mul, mul_pow, Complex.norm_real, Real.norm_eq_abs, sq_abs]
    · simp
  unfold rfl2norm2
  simp only
  rw [e, e]
  split_ifs
  · rw [e]; ring
  · ring

theorem dfd_scaled (t : ℝ) (S : Signal c K N) (fe : Bool) (Y : Coef K M N) (h : Attr c K M Nd N a) :
    dfd (sigScaled t S) fe (t • Y) (h.scaled t) = t ^ 2 * dfd S fe Y h := by
  have hf : fvarf fe (t • Y) (h.scaled t) = fun k m ξ => (t : ℂ) * fvarf fe Y h k m ξ := by
    unfold fvarf
    split_ifs
    · rfl
    · funext k m ξ
      exact rfft_smul t _ ξ
  unfold dfd
  rw [hf]
  simp only [inner_smul, sigF_scaled, ← mul_sub]
  rw [← mul_div_assoc]
  congr 1
  exact rfl2norm2_smul t _

theorem l1_scaled (ht : 0 < t) (w : K × M × Grid N → ℝ) (y : Coef K M N) :
    normL1 (fun i => w i * (t • y) i) = t * normL1 (fun i => w i * y i) := by
  rw [← normL1_smul ht]
  congr 1
  funext i
  change w i * (t * y i) = _
  ring

/-- **C92 for `ConvBPDN`.** -/
theorem C92_convbpdn (ht : 0 < t) (q : COpts) (D : Dict c M Nd) (S : Signal c K N) (lmbda : ℝ) (w : K × M × Grid N → ℝ)
    (fe ge : Bool) (o : Opts) :
    (∀ (rho : ℝ) (Xf : Spec K M N a),
      setdict q (sigScaled t S) rho D (fun k m ξ => t * Xf k m ξ) = (setdict q S rho D Xf).scaled t) ∧
    ∀ s : St (Coef K M N) (Coef K M N) (Coef K M N) (Attr c K M Nd N a), Normal (clsConvBPDN q S lmbda w fe ge) o s →
      solve (clsConvBPDN q (sigScaled t S) (t * lmbda) w fe ge) (o.scaled t) none
          (s.scaled t o.stdResiduals (sqr t) (Attr.scaled t)) =
        (solve (clsConvBPDN q S lmbda w fe ge) o none s).scaled t o.stdResiduals (sqr t) (Attr.scaled t) := by
  refine ⟨fun rho Xf => setdict_scaled t q S rho D Xf, fun s hs => scaled_solve ht (scales_equal ht (fun _ _ _ _ _ => ?_)
    (fun _ _ _ _ _ _ => ?_) (fun _ _ => ?_) fun X Y h => ?_) s hs⟩
  · exact xstep_scaled _ _ _ _ _ _
  · exact ystep_scaled ht _ _ _ _ _ _ _ _ _
  · exact rhochange_scaled _ _ _
  · simp only [Bpdn.gvar_scaled, dfd_scaled, regL1, l1_scaled ht, sqr]
    refine Prod.ext ?_ (Prod.ext rfl ?_) <;> simp only <;> ring

/-- **C92 for `ConvElasticNet`.** The parameter `mu` stays the same. -/
theorem C92_convelasticnet (ht : 0 < t) (q : COpts) (S : Signal c K N) (lmbda mu : ℝ) (w : K × M × Grid N → ℝ)
    (fe ge : Bool) (o : Opts) :
    ∀ s : St (Coef K M N) (Coef K M N) (Coef K M N) (Attr c K M Nd N a), Normal (clsConvEN q S lmbda mu w fe ge) o s →
      solve (clsConvEN q (sigScaled t S) (t * lmbda) mu w fe ge) (o.scaled t) none
          (s.scaled t o.stdResiduals (sqr t) (Attr.scaled t)) =
        (solve (clsConvEN q S lmbda mu w fe ge) o none s).scaled t o.stdResiduals (sqr t) (Attr.scaled t) := by
  refine fun s hs => scaled_solve ht (scales_equal ht (fun _ _ _ _ _ => ?_)
    (fun _ _ _ _ _ _ => ?_) (fun _ _ => ?_) fun X Y h => ?_) s hs
  · exact xstep_scaled _ _ _ _ _ _
  · exact ystep_scaled ht _ _ _ _ _ _ _ _ _
  · exact rhochange_scaled _ _ _
  · simp only [Bpdn.gvar_scaled, dfd_scaled, regL1, l1_scaled ht, sqr, norm_smul, mul_pow, Real.norm_eq_abs, sq_abs]
    refine Prod.ext ?_ (Prod.ext rfl ?_) <;> simp only <;> ring

/-- **C92 for `ConvBPDNJoint`.** -/
theorem C92_convbpdnjoint (ht : 0 < t) (q : COpts) (S : Signal c (L × K) N) (lmbda mu wl21 : ℝ)
    (w : (L × K) × M × Grid N → ℝ) (fe ge : Bool) (o : Opts) :
    ∀ s : St (Coef (L × K) M N) (Coef (L × K) M N) (Coef (L × K) M N) (Attr c (L × K) M Nd N a),
      Normal (clsConvJnt q S lmbda mu w wl21 fe ge) o s →
      solve (clsConvJnt q (sigScaled t S) (t * lmbda) (t * mu) w wl21 fe ge) (o.scaled t) none
          (s.scaled t o.stdResiduals (sqr t) (Attr.scaled t)) =
        (solve (clsConvJnt q S lmbda mu w wl21 fe ge) o none s).scaled t o.stdResiduals (sqr t) (Attr.scaled t) := by
  refine fun s hs => scaled_solve ht (scales_equal ht (fun _ _ _ _ _ => ?_)
    (fun _ _ _ _ _ _ => ?_) (fun _ _ => ?_) fun X Y h => ?_) s hs
  · exact xstep_scaled _ _ _ _ _ _
  · exact ystepJnt_scaled ht _ _ _ _ _ _ _ _ _ _ _
  · exact rhochange_scaled _ _ _
  · have e : ∀ y : Coef (L × K) M N, ∑ p : K × M × Grid N, wl21 * √(∑ l, (t • y) ((l, p.1), p.2) ^ 2) =
        t * ∑ p : K × M × Grid N, wl21 * √(∑ l, y ((l, p.1), p.2) ^ 2) := by
      intro y
      rw [mul_sum]
      refine sum_congr rfl fun p _ => ?_
      change wl21 * √(∑ l, (t * y ((l, p.1), p.2)) ^ 2) = _
      simp only [mul_pow, ← mul_sum]
      rw [Real.sqrt_mul (sq_nonneg t), Real.sqrt_sq ht.le]
      ring
    simp only [Bpdn.gvar_scaled, dfd_scaled, regJnt, l1_scaled ht, sqr, e]
    refine Prod.ext ?_ (Prod.ext rfl ?_) <;> simp only <;> ring

end Sporco.Conv
