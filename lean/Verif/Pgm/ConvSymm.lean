import Verif.Pgm.Symm
import Verif.Pgm.ConvModel
import Verif.Conv.Symm

/-!
# Symmetries of convolutional sparse coding by proximal gradient (C84)
-/

set_option autoImplicit false
set_option linter.unusedSectionVars false

namespace Sporco.Pgm

open scoped RealInnerProductSpace

/-! ## `PGMDFT` -/

section DFT
variable {E E' Ef Ef' : Type*} [NormedAddCommGroup Ef] [InnerProductSpace ℝ Ef] [NormedAddCommGroup Ef']
  [InnerProductSpace ℝ Ef']

/-- The attributes with all arrays replaced by their images, `Yfprv` by its image under `f`. -/
def VarsF.map (T : E → E') (Tf f : Ef → Ef') (v : VarsF E Ef) : VarsF E' Ef' :=
  { X := T v.X, Xf := Tf v.Xf, Yf := Tf v.Yf, Xfprv := Tf v.Xfprv, Yfprv := f v.Yfprv, ZZf := Tf v.ZZf, L := v.L, t := v.t,
    objfn := v.objfn, objfnPrev := v.objfnPrev, F := v.F, Q := v.Q, iterBT := v.iterBT, bbX := Tf v.bbX,
    bbG := Tf v.bbG, Tk := v.Tk, Zrb := v.Zrb.map Tf }

/-- The methods of the second class correspond to those of the first. -/
structure ClsFSame (C : ClsF E Ef) (C' : ClsF E' Ef') (T : E → E') (Tf : Ef →ₗᵢ[ℝ] Ef') : Prop where
  rfftn : ∀ x, C'.rfftn (T x) = Tf (C.rfftn x)
  irfftn : ∀ x, C'.irfftn (Tf x) = T (C.irfftn x)
  gradF : ∀ x, C'.gradF (Tf x) = Tf (C.gradF x)
  proxG : ∀ L x, C'.proxG L (T x) = T (C.proxG L x)
  hessF : ∀ x, C'.hessF (Tf x) = Tf (C.hessF x)
  obfnF : ∀ x, C'.obfnF (Tf x) = C.obfnF x
  evalObj : ∀ x y, C'.evalObj (T x) (Tf y) = C.evalObj x y
  rsdl : ∀ x y, C'.rsdl (Tf x) (Tf y) = C.rsdl x y

namespace DFT

variable {C : ClsF E Ef} {C' : ClsF E' Ef'} {T : E → E'} {Tf : Ef →ₗᵢ[ℝ] Ef'} {f : Ef → Ef'}

theorem stepL_same (h : ClsFSame C C' T Tf) (o : Opts) (k : ℕ) (v : VarsF E Ef) (g : Ef) :
    stepL C' o k (v.map T Tf f) (Tf g) = stepL C o k v g := by
  unfold stepL
  cases o.stepPolicy
  · rfl
  · simp only [cauchyUpdate, h.hessF, Tf.inner_map_map]
    rfl
  · simp only [bbUpdate, VarsF.map, ← map_sub, Tf.inner_map_map]

theorem safeguard_same (h : ClsFSame C C' T Tf) (o : Opts) (k : ℕ) (v : VarsF E Ef) :
    safeguard C' o k (v.map T Tf f) = (safeguard C o k v).map T Tf f := by
  unfold safeguard
  simp only [VarsF.map, h.evalObj]
  split_ifs <;> rfl

theorem xstepG_same (h : ClsFSame C C' T Tf) (o : Opts) (k : ℕ) (g : Ef) (v : VarsF E Ef) :
    xstepG C' o k (Tf g) (v.map T Tf f) = (xstepG C o k g v).map T Tf f := by
  unfold xstepG
  simp only [stepL_same h]
  rw [← safeguard_same h]
  congr 1
  have e : storeBB o ({ v.map T Tf f with L := stepL C o k v g }) (Tf g) =
      (storeBB o ({ v with L := stepL C o k v g }) g).map T Tf f := by
    unfold storeBB
    cases o.stepPolicy <;> rfl
  rw [e]
  generalize storeBB o ({ v with L := stepL C o k v g }) g = u
  unfold VarsF.map
  simp only [← map_smul, ← map_sub, h.irfftn, h.proxG, h.rfftn]

theorem ystep_same (o : Opts) (k : ℕ) (v : VarsF E Ef) : ystep o k (v.map T Tf f) = (ystep o k v).map T Tf f := by
  unfold ystep
  simp only [VarsF.map]
  split_ifs <;> simp only [map_add, map_smul, map_sub]

theorem onStart_same (h : ClsFSame C C' T Tf) (o : Opts) (k : ℕ) (v : VarsF E Ef) :
    onStart C' o k (v.map T Tf f) = (onStart C o k v).map T Tf (if !o.fastSolve || o.isRobust then Tf else f) := by
  unfold onStart
  simp only [VarsF.map]
  split_ifs <;> simp only [h.evalObj]

theorem quadQ_same (h : ClsFSame C C' T Tf) (L : ℝ) (x y g : Ef) :
    quadQ C' L (Tf x) (Tf y) (Tf g) = quadQ C L x y g := by
  unfold quadQ
  rw [h.obfnF, ← map_sub, Tf.inner_map_map, Tf.norm_map]

theorem btLoop_same (h : ClsFSame C C' T Tf) (o : Opts) (k : ℕ) (gu : ℝ) (g : Ef) (n : ℕ) : ∀ (it : ℕ) (v : VarsF E Ef),
    btLoop C' o k gu (Tf g) n it (v.map T Tf f) = (btLoop C o k gu g n it v).map T Tf f := by
  induction n with
  | zero => intro it v; rfl
  | succ n ih =>
    intro it v
    unfold btLoop
    simp only
    rw [xstepG_same h]
    generalize xstepG C o k g v = u
    have e1 : C'.obfnF (u.map T Tf f).Xf = C.obfnF u.Xf := h.obfnF _
    have e2 : quadQ C' (u.map T Tf f).L (u.map T Tf f).Xf (u.map T Tf f).Yf (Tf g) = quadQ C u.L u.Xf u.Yf g :=
      quadQ_same h _ _ _ _
    rw [e1, e2]
    split_ifs
    · rfl
    · exact ih (it + 1) { u with F := some (C.obfnF u.Xf), Q := some (quadQ C u.L u.Xf u.Yf g),
                                 iterBT := some (it + 1), L := u.L * gu }

theorem rbLoop_same (h : ClsFSame C C' T Tf) (o : Opts) (k : ℕ) (gu : ℝ) (Z : Ef) (n : ℕ) :
    ∀ (it : ℕ) (t0 : ℝ) (v : VarsF E Ef),
    rbLoop C' o k gu (Tf Z) n it (t0, v.map T Tf f) =
      ((rbLoop C o k gu Z n it (t0, v)).1, (rbLoop C o k gu Z n it (t0, v)).2.map T Tf f) := by
  induction n with
  | zero => intro it t0 v; rfl
  | succ n ih =>
    intro it t0 v
    unfold rbLoop
    simp only
    have e0 : (1 / ((v.map T Tf f).Tk + robustT (v.map T Tf f).L (v.map T Tf f).Tk)) •
        ((v.map T Tf f).Tk • (v.map T Tf f).Xfprv + robustT (v.map T Tf f).L (v.map T Tf f).Tk • Tf Z) =
        Tf ((1 / (v.Tk + robustT v.L v.Tk)) • (v.Tk • v.Xfprv + robustT v.L v.Tk • Z)) := by
      simp only [VarsF.map, map_smul, map_add]
    rw [e0, h.gradF]
    generalize (1 / (v.Tk + robustT v.L v.Tk)) • (v.Tk • v.Xfprv + robustT v.L v.Tk • Z) = y
    have e3 : ({ v.map T Tf f with Yf := Tf y } : VarsF E' Ef') = ({ v with Yf := y } : VarsF E Ef).map T Tf f := rfl
    rw [e3, xstepG_same h]
    generalize xstepG C o k (C.gradF y) { v with Yf := y } = u
    have e1 : C'.obfnF (u.map T Tf f).Xf = C.obfnF u.Xf := h.obfnF _
    have e2 : quadQ C' (u.map T Tf f).L (u.map T Tf f).Xf (u.map T Tf f).Yf (Tf (C.gradF y)) =
        quadQ C u.L u.Xf u.Yf (C.gradF y) := quadQ_same h _ _ _ _
    rw [e1, e2]
    split_ifs
    · rfl
    · exact ih (it + 1) (robustT v.L v.Tk) { u with F := some (C.obfnF u.Xf),
                                                    Q := some (quadQ C u.L u.Xf u.Yf (C.gradF y)),
                                                    iterBT := some (it + 1), L := u.L * gu }

/-- A class whose methods correspond to those of another goes through the same run, for all options. -/
theorem ops_same (h : ClsFSame C C' T Tf) (o : Opts) : OpsSame o (ops C o) (ops C' o) (VarsF.map T Tf) Tf where
  start := fun f k v => ⟨_, fun hf => by rw [hf]; rfl, onStart_same h o k v⟩
  step := fun f k v => by
    change mainStep C' o k (v.map T Tf f) = (mainStep C o k v).map T Tf f
    unfold mainStep
    cases o.backtrack with
    | none =>
      simp only
      unfold xstep
      rw [show C'.gradF (v.map T Tf f).Yf = Tf (C.gradF v.Yf) from h.gradF _, xstepG_same h, ystep_same]
    | standard gu n =>
      simp only
      rw [show C'.gradF (v.map T Tf f).Yf = Tf (C.gradF v.Yf) from h.gradF _, btLoop_same h, ystep_same]
    | robust gd gu n =>
      simp only
      unfold btRobust
      simp only
      have e : (v.map T Tf f).Zrb.getD (v.map T Tf f).Xf = Tf (v.Zrb.getD v.Xf) := by
        change (v.Zrb.map Tf).getD (Tf v.Xf) = _
        cases v.Zrb <;> rfl
      have e3 : ({ v.map T Tf f with L := (v.map T Tf f).L * gd } : VarsF E' Ef') =
        ({ v with L := v.L * gd } : VarsF E Ef).map T Tf f := rfl
      rw [e, e3, rbLoop_same h]
      simp only [VarsF.map, Option.map_some, map_add, map_smul, map_sub]
  rsdl := fun k v => h.rsdl _ _
  stat := fun f k v r => by
    change statOf C' o k (v.map T Tf f) r = statOf C o k v r
    unfold statOf
    simp only [VarsF.map, h.evalObj]

end DFT

/-- Two solvers hold corresponding values: those of the second are the images of those of the first. `Yfprv`, which
`solve` sets before it reads it and which the constructors fill with `Yf` plus a constant, is excepted. -/
def CorrF (T : E → E') (Tf : Ef → Ef') (s : St (VarsF E Ef)) (s' : St (VarsF E' Ef')) : Prop :=
  ∃ f, s' = s.map (VarsF.map T Tf f)

end DFT

end Sporco.Pgm

namespace Sporco.PgmConv

open Finset ComplexConjugate Sporco.Prox
open Sporco.Conv (Grid Half Dict Signal Spec Coef Sig part join rfft irfft dictF sigF COpts rfl2norm2 Move chi hext fft ifft
  frob pad)
open Sporco.Pgm (ClsF)

variable {d c : ℕ} {N Nd : Fin d → ℕ} [∀ k, NeZero (N k)] {A B K M : Type*} [Fintype A] [Fintype B]
  [Fintype K] [Fintype M] {a : Fin d}

/-! ## Shifts and spectra -/

theorem hext_phase (t : Grid N) (F : Half N a → ℂ) (ξ : Grid N) :
    hext N a (fun η => conj (chi N η.1 t) * F η) ξ = conj (chi N ξ t) * hext N a F ξ := by
  unfold hext
  split_ifs with h
  · rfl
  · rw [map_mul, Conv.chi_neg_left, Complex.conj_conj]

theorem irfft_phase (t : Grid N) (F : Half N a → ℂ) (p : Grid N) :
    irfft N a (fun η => conj (chi N η.1 t) * F η) (p + t) = irfft N a F p := by
  unfold irfft ifft
  congr 2
  refine sum_congr rfl fun ξ _ => ?_
  rw [hext_phase, Conv.chi_add, mul_assoc, ← mul_assoc (chi N ξ t), mul_comm (chi N ξ t), Conv.chi_conj_mul, one_mul]

theorem rfft_shift (s : ℝ) (t : Grid N) (x y : Grid N → ℝ) (h : ∀ p, y (p + t) = s * x p) (η : Half N a) :
    rfft N a y η = s * conj (chi N η.1 t) * rfft N a x η := by
  unfold rfft fft
  rw [← Equiv.sum_comp (Equiv.addRight t), mul_sum]
  refine sum_congr rfl fun p _ => ?_
  simp only [Equiv.coe_addRight, h, Conv.chi_add, map_mul, Complex.ofReal_mul]
  ring

theorem irfft_sign (s : ℝ) (F : Half N a → ℂ) (p : Grid N) :
    irfft N a (fun η => (s : ℂ) * F η) p = s * irfft N a F p := by
  have h : ∀ ξ, hext N a (fun η => (s : ℂ) * F η) ξ = s * hext N a F ξ := by
    intro ξ
    unfold hext
    split_ifs
    · rfl
    · rw [map_mul, Complex.conj_ofReal]
  unfold irfft ifft
  rw [← Complex.re_ofReal_mul]
  congr 1
  rw [mul_div_assoc', mul_sum]
  congr 1
  refine sum_congr rfl fun ξ _ => ?_
  rw [h]
  ring

theorem norm_chi (ξ t : Grid N) : ‖chi N ξ t‖ = 1 := by
  have h := congrArg norm (Conv.chi_conj_mul ξ t)
  rw [norm_mul, RCLike.norm_conj, norm_one] at h
  nlinarith [norm_nonneg (chi N ξ t)]

/-! ## Permutations with phases -/

/-- Permutation of the entries of a complex array, with factors of modulus one. -/
noncomputable def phasePerm {ι ι' : Type*} [Fintype ι] [Fintype ι'] (e : ι ≃ ι') (s : ι → ℂ)
    (hs : ∀ i, ‖s i‖ = 1) : EuclideanSpace ℂ ι ≃ₗᵢ[ℝ] EuclideanSpace ℂ ι' :=
  LinearIsometryEquiv.ofSurjective
    { toFun := fun x => WithLp.toLp 2 fun i => s (e.symm i) * x (e.symm i)
      map_add' := fun x y => by
        ext i
        change s (e.symm i) * (x (e.symm i) + y (e.symm i)) = s (e.symm i) * x (e.symm i) + s (e.symm i) * y (e.symm i)
        ring
      map_smul' := fun c x => by
        ext i
        change s (e.symm i) * (c • x (e.symm i)) = c • (s (e.symm i) * x (e.symm i))
        rw [mul_smul_comm]
      norm_map' := fun x => by
        have h2 : ‖(WithLp.toLp 2 fun i => s (e.symm i) * x (e.symm i) : EuclideanSpace ℂ ι')‖ ^ 2 = ‖x‖ ^ 2 := by
          rw [EuclideanSpace.norm_sq_eq, EuclideanSpace.norm_sq_eq, ← Equiv.sum_comp e]
          refine Finset.sum_congr rfl fun i _ => ?_
          simp only [Equiv.symm_apply_apply, norm_mul, hs, one_mul]
        exact (sq_eq_sq₀ (norm_nonneg _) (norm_nonneg _)).1 h2 }
    (fun y => ⟨WithLp.toLp 2 fun i => (s i)⁻¹ * y (e i), by
      ext i
      change s (e.symm i) * ((s (e.symm i))⁻¹ * y (e (e.symm i))) = y i
      have h0 : s (e.symm i) ≠ 0 := by
        intro h
        have := hs (e.symm i)
        rw [h, norm_zero] at this
        exact zero_ne_one this
      rw [← mul_assoc, Equiv.apply_symm_apply, mul_inv_cancel₀ h0, one_mul]⟩)

theorem phasePerm_image {ι ι' : Type*} [Fintype ι] [Fintype ι'] (e : ι ≃ ι') (s : ι → ℂ)
    (hs : ∀ i, ‖s i‖ = 1) (x : EuclideanSpace ℂ ι) (i : ι) : phasePerm e s hs x (e i) = s i * x i := by
  change s (e.symm (e i)) * x (e.symm (e i)) = _
  rw [Equiv.symm_apply_apply]

theorem norm_sign {s : ℝ} (h : s = 1 ∨ s = -1) : ‖(s : ℂ)‖ = 1 := by
  rcases h with rfl | rfl <;> simp

/-- Where the spectra go. -/
def fidx (v : Move c K M N) : K × M × Half N a ≃ K × M × Half N a :=
  Equiv.prodCongr v.sigs (Equiv.prodCongr v.filts (Equiv.refl _))

/-- The isometry of spectra of coefficient maps. -/
noncomputable def fiso (a : Fin d) (v : Move c K M N) : HS K M N a ≃ₗᵢ[ℝ] HS K M N a :=
  phasePerm (fidx v) (fun i => v.ssign i.1 * v.fsign i.2.1 * conj (chi N i.2.2.1 (v.shift i.1))) fun i => by
    rw [norm_mul, norm_mul, RCLike.norm_conj, norm_chi, norm_sign (v.ssign_ok _), norm_sign (v.fsign_ok _)]; norm_num

theorem fiso_apply (v : Move c K M N) (x : HS K M N a) (k : K) (m : M) (ξ : Half N a) :
    fiso a v x (v.sigs k, v.filts m, ξ) = v.ssign k * v.fsign m * conj (chi N ξ.1 (v.shift k)) * x (k, m, ξ) :=
  phasePerm_image (fidx v) _ _ x (k, m, ξ)

/-- The same for spectra of signals. -/
def sidx (v : Move c K M N) : Fin (c + 1) × K × Half N a ≃ Fin (c + 1) × K × Half N a :=
  Equiv.prodCongr v.chans (Equiv.prodCongr v.sigs (Equiv.refl _))

/-- The isometry of spectra of signals. -/
noncomputable def siso (a : Fin d) (v : Move c K M N) : HS (Fin (c + 1)) K N a ≃ₗᵢ[ℝ] HS (Fin (c + 1)) K N a :=
  phasePerm (sidx v) (fun i => v.ssign i.2.1 * conj (chi N i.2.2.1 (v.shift i.2.1))) fun i => by
    rw [norm_mul, RCLike.norm_conj, norm_chi, norm_sign (v.ssign_ok _)]; norm_num

theorem siso_apply (v : Move c K M N) (x : HS (Fin (c + 1)) K N a) (i : Fin (c + 1)) (k : K) (ξ : Half N a) :
    siso a v x (v.chans i, v.sigs k, ξ) = v.ssign k * conj (chi N ξ.1 (v.shift k)) * x (i, k, ξ) :=
  phasePerm_image (sidx v) _ _ x (i, k, ξ)

theorem fext (v : Move c K M N) {x y : HS K M N a} (h : ∀ k m ξ, x (v.sigs k, v.filts m, ξ) = y (v.sigs k, v.filts m, ξ)) :
    x = y := by
  ext i
  obtain ⟨⟨k, m, ξ⟩, rfl⟩ := (fidx v).surjective i
  exact h k m ξ

theorem sext (v : Move c K M N) {x y : HS (Fin (c + 1)) K N a}
    (h : ∀ i k ξ, x (v.chans i, v.sigs k, ξ) = y (v.chans i, v.sigs k, ξ)) : x = y := by
  ext i
  obtain ⟨⟨k, m, ξ⟩, rfl⟩ := (sidx v).surjective i
  exact h k m ξ

theorem dictF_move (v : Move c K M N) {D D' : Dict c M Nd} (hD : v.Dict D D') (i : Fin (c + 1)) (m : M) (ξ : Half N a) :
    dictF a D' (v.chans i) (v.filts m) ξ = v.fsign m * dictF a D i m ξ := by
  have h := rfft_shift (a := a) (v.fsign m) (0 : Grid N) (pad N (D i m)) (pad N (D' (v.chans i) (v.filts m))) (fun p => by
    rw [add_zero]
    unfold pad
    split_ifs
    · rw [hD]
    · rw [mul_zero]) ξ
  rw [Conv.chi_zero, map_one, mul_one] at h
  exact h

theorem sigF_move (v : Move c K M N) {S S' : Signal c K N} (hS : v.Signal S S') (i : Fin (c + 1)) (k : K) (ξ : Half N a) :
    sigF a S' (v.chans i) (v.sigs k) ξ = v.ssign k * conj (chi N ξ.1 (v.shift k)) * sigF a S i k ξ :=
  rfft_shift (v.ssign k) (v.shift k) _ _ (hS i k) ξ

theorem sq_sign {s : ℝ} (h : s = 1 ∨ s = -1) : (s : ℂ) * s = 1 := by
  rcases h with rfl | rfl <;> simp

theorem inner_move (v : Move c K M N) {D D' : Dict c M Nd} (hD : v.Dict D D') (V : HS K M N a) (i : Fin (c + 1)) (k : K)
    (ξ : Half N a) :
    Linalg.inner (fun m => dictF a D' (v.chans i) m ξ) (fun m => fiso a v V (v.sigs k, m, ξ)) =
      v.ssign k * conj (chi N ξ.1 (v.shift k)) * Linalg.inner (fun m => dictF a D i m ξ) (fun m => V (k, m, ξ)) := by
  unfold Linalg.inner
  rw [← Equiv.sum_comp v.filts, mul_sum]
  refine sum_congr rfl fun m _ => ?_
  simp only [dictF_move v hD, fiso_apply]
  have := sq_sign (v.fsign_ok m)
  linear_combination (v.ssign k * conj (chi N ξ.1 (v.shift k)) * dictF a D i m ξ * V (k, m, ξ)) * this

theorem evalRf_move (v : Move c K M N) {D D' : Dict c M Nd} (hD : v.Dict D D') {S S' : Signal c K N}
    (hS : v.Signal S S') (V : HS K M N a) : evalRf D' S' (fiso a v V) = siso a v (evalRf D S V) := by
  refine sext v fun i k ξ => ?_
  rw [siso_apply]
  change Linalg.inner (fun m => dictF a D' (v.chans i) m ξ) (fun m => fiso a v V (v.sigs k, m, ξ)) -
    sigF a S' (v.chans i) (v.sigs k) ξ = _ * (Linalg.inner (fun m => dictF a D i m ξ) (fun m => V (k, m, ξ)) -
    sigF a S i k ξ)
  rw [inner_move v hD, sigF_move v hS]
  ring

theorem conjDf_move (v : Move c K M N) {D D' : Dict c M Nd} (hD : v.Dict D D') (R : HS (Fin (c + 1)) K N a) :
    conjDf D' (siso a v R) = fiso a v (conjDf D R) := by
  refine fext v fun k m ξ => ?_
  rw [fiso_apply]
  change ∑ i, conj (dictF a D' i (v.filts m) ξ) * siso a v R (i, v.sigs k, ξ) =
    _ * ∑ i, conj (dictF a D i m ξ) * R (i, k, ξ)
  rw [← Equiv.sum_comp v.chans, mul_sum]
  refine sum_congr rfl fun i _ => ?_
  rw [siso_apply, dictF_move v hD, map_mul, Complex.conj_ofReal]
  ring

theorem frob_move {ι ι' : Type*} [Fintype ι] [Fintype ι'] (e : ι ≃ ι') (f : ι → ℂ) (f' : ι' → ℂ)
    (h : ∀ i, ‖f' (e i)‖ = ‖f i‖) : frob f' = frob f := by
  unfold frob
  congr 1
  rw [← Equiv.sum_comp e]
  simp only [h]

theorem rfl2_move {ι ι' : Type*} [Fintype ι] [Fintype ι'] (e : ι ≃ ι') (f : ι × Half N a → ℂ) (f' : ι' × Half N a → ℂ)
    (h : ∀ i ξ, ‖f' (e i, ξ)‖ = ‖f (i, ξ)‖) : rfl2norm2 N a f' = rfl2norm2 N a f := by
  have key : ∀ (Q : Half N a → Prop) [DecidablePred Q], frob (fun p => if Q p.2 then f' p else 0) =
      frob (fun p => if Q p.2 then f p else 0) := by
    intro Q _
    refine frob_move (Equiv.prodCongr e (Equiv.refl _)) _ _ fun i => ?_
    change ‖if Q i.2 then f' (e i.1, i.2) else 0‖ = ‖if Q i.2 then f (i.1, i.2) else 0‖
    split_ifs
    · exact h _ _
    · rfl
  unfold rfl2norm2
  simp only
  rw [key (fun ξ => (ξ.1 a).val = 0), key (fun ξ => 1 ≤ (ξ.1 a).val ∧ (ξ.1 a).val < (N a + 1) / 2),
    key (fun ξ => (ξ.1 a).val = N a / 2 + 1 - 1)]

theorem hnorm2_siso (v : Move c K M N) (R : HS (Fin (c + 1)) K N a) : hnorm2 (siso a v R) = hnorm2 R := by
  refine rfl2_move (Equiv.prodCongr v.chans v.sigs) _ _ fun i ξ => ?_
  change ‖siso a v R (v.chans i.1, v.sigs i.2, ξ)‖ = ‖R (i.1, i.2, ξ)‖
  rw [siso_apply, norm_mul, norm_mul, RCLike.norm_conj, norm_chi, norm_sign (v.ssign_ok _)]
  norm_num

theorem hnorm2_fiso (v : Move c K M N) (R : HS K M N a) : hnorm2 (fiso a v R) = hnorm2 R := by
  refine rfl2_move (Equiv.prodCongr v.sigs v.filts) _ _ fun i ξ => ?_
  change ‖fiso a v R (v.sigs i.1, v.filts i.2, ξ)‖ = ‖R (i.1, i.2, ξ)‖
  rw [fiso_apply, norm_mul, norm_mul, norm_mul, RCLike.norm_conj, norm_chi, norm_sign (v.ssign_ok _),
    norm_sign (v.fsign_ok _)]
  norm_num

theorem cext (v : Move c K M N) {x y : Coef K M N}
    (h : ∀ k m p, x (v.sigs k, v.filts m, p + v.shift k) = y (v.sigs k, v.filts m, p + v.shift k)) : x = y := by
  ext i
  obtain ⟨⟨k, m, p⟩, rfl⟩ := v.idx.surjective i
  exact h k m p

theorem fwd_move (v : Move c K M N) (x : Coef K M N) : fwd a (v.iso x) = fiso a v (fwd a x) := by
  refine fext v fun k m ξ => ?_
  rw [fiso_apply]
  have := rfft_shift (a := a) (v.ssign k * v.fsign m) (v.shift k) (part x k m) (part (v.iso x) (v.sigs k) (v.filts m))
    (fun p => v.part_iso x k m p) ξ
  rw [Complex.ofReal_mul] at this
  exact this

theorem bwd_move (v : Move c K M N) (V : HS K M N a) : bwd a (fiso a v V) = v.iso (bwd a V) := by
  refine cext v fun k m p => ?_
  rw [v.iso_apply]
  change irfft N a (fun ξ => fiso a v V (v.sigs k, v.filts m, ξ)) (p + v.shift k) =
    v.ssign k * v.fsign m * irfft N a (fun ξ => V (k, m, ξ)) p
  simp only [fiso_apply]
  refine Eq.trans ?_ ((irfft_phase (v.shift k) _ p).trans (irfft_sign (v.ssign k * v.fsign m) _ p))
  congr 1
  funext ξ
  push_cast
  ring

/-! ## The classes -/

theorem prox_move (v : Move c K M N) {q : COpts} (hq : v.Allowed q) (lmbda : ℝ) {w w' : K × M × Grid N → ℝ}
    (hW : v.Weights w w') (L : ℝ) (x : Coef K M N) :
    proxG q Nd lmbda w' L (v.iso x) = v.iso (proxG q Nd lmbda w L x) := by
  refine cext v fun k m p => ?_
  rw [v.iso_apply]
  have h1 : w' (v.sigs k, v.filts m, p + v.shift k) = w (k, m, p) := hW k m p
  have h2 : (v.iso x).ofLp (v.sigs k, v.filts m, p + v.shift k) = v.ssign k * v.fsign m * x.ofLp (k, m, p) :=
    v.iso_apply x k m p
  have h3 : proxL1Arr (v.iso x).ofLp (fun i => lmbda / L * w' i) (v.sigs k, v.filts m, p + v.shift k) =
      v.ssign k * v.fsign m * proxL1Arr x.ofLp (fun i => lmbda / L * w i) (k, m, p) := by
    unfold proxL1Arr
    simp only [h1, h2]
    refine Pgm.proxL1_sign ?_ _ _
    rcases v.ssign_ok k with h | h <;> rcases v.fsign_ok m with h' | h' <;> rw [h, h'] <;> simp
  have h4 : (if q.nonNeg then clip (proxL1Arr (v.iso x).ofLp (fun i => lmbda / L * w' i)) else
      proxL1Arr (v.iso x).ofLp (fun i => lmbda / L * w' i)) (v.sigs k, v.filts m, p + v.shift k) =
      v.ssign k * v.fsign m * (if q.nonNeg then clip (proxL1Arr x.ofLp (fun i => lmbda / L * w i)) else
        proxL1Arr x.ofLp (fun i => lmbda / L * w i)) (k, m, p) := by
    cases hn : q.nonNeg
    · simpa using h3
    · simp only [if_true]
      unfold clip
      rw [h3, (hq.1 hn).1, (hq.1 hn).2]
      simp
  change Conv.gystep q Nd _ (v.sigs k, v.filts m, p + v.shift k) = _ * Conv.gystep q Nd _ (k, m, p)
  unfold Conv.gystep
  simp only
  cases hb : q.noBndry
  · simpa using h4
  · simp only [if_true]
    rw [Conv.zeroTail_apply, Conv.zeroTail_apply, h4]
    have e : p + v.shift k = p := by rw [hq.2 hb, add_zero]
    simp only [e]
    split_ifs <;> first | rfl | rw [mul_zero]

theorem rl1_move (v : Move c K M N) {w w' : K × M × Grid N → ℝ} (hW : v.Weights w w') (x : Coef K M N) :
    rl1 w' (v.iso x) = rl1 w x := by
  unfold rl1 normL1
  rw [← Equiv.sum_comp v.idx]
  refine sum_congr rfl fun i _ => ?_
  obtain ⟨k, m, p⟩ := i
  have h1 : w' (v.idx (k, m, p)) = w (k, m, p) := hW k m p
  have h2 : v.iso x (v.idx (k, m, p)) = v.ssign k * v.fsign m * x (k, m, p) := v.iso_apply x k m p
  simp only [h1, h2]
  rcases v.ssign_ok k with h | h <;> rcases v.fsign_ok m with h' | h' <;> rw [h, h'] <;> simp

theorem dprod_move (v : Move c K M N) {D D' : Dict c M Nd} (hD : v.Dict D D') (V : HS K M N a) :
    (WithLp.toLp 2 fun i : Fin (c + 1) × K × Half N a =>
      Linalg.inner (fun m => dictF a D' i.1 m i.2.2) (fun m => fiso a v V (i.2.1, m, i.2.2)) : HS (Fin (c + 1)) K N a) =
    siso a v (WithLp.toLp 2 fun i : Fin (c + 1) × K × Half N a =>
      Linalg.inner (fun m => dictF a D i.1 m i.2.2) (fun m => V (i.2.1, m, i.2.2))) := by
  refine sext v fun i k ξ => ?_
  rw [siso_apply]
  exact inner_move v hD V i k ξ

/-- The methods of `ConvBPDN` of `pgm/cbpdn.py` correspond. -/
theorem cls_bpdn (v : Move c K M N) (q : COpts) (hq : v.Allowed q) {D D' : Dict c M Nd} (hD : v.Dict D D')
    {S S' : Signal c K N} (hS : v.Signal S S') (lmbda : ℝ) {w w' : K × M × Grid N → ℝ} (hW : v.Weights w w') :
    Pgm.ClsFSame (clsBPDN a q D S lmbda w) (clsBPDN a q D' S' lmbda w') v.iso (fiso a v).toLinearIsometry where
  rfftn := fwd_move v
  irfftn := bwd_move v
  gradF := fun x => by
    change conjDf D' (evalRf D' S' (fiso a v x)) = _
    rw [evalRf_move v hD hS, conjDf_move v hD]
    rfl
  proxG := fun L x => prox_move v hq lmbda hW L x
  hessF := fun x => (congrArg (conjDf D') (dprod_move v hD x)).trans (conjDf_move v hD _)
  obfnF := fun x => by
    change 1 / 2 * ‖evalRf D' S' (fiso a v x)‖ ^ 2 = _
    rw [evalRf_move v hD hS, LinearIsometryEquiv.norm_map]
    rfl
  evalObj := fun x y => by
    change (hnorm2 (evalRf D' S' (fiso a v y)) / 2 + lmbda * rl1 w' (v.iso x), hnorm2 (evalRf D' S' (fiso a v y)) / 2,
      rl1 w' (v.iso x)) = _
    rw [evalRf_move v hD hS, hnorm2_siso, rl1_move v hW]
    rfl
  rsdl := fun x y => by
    change hnorm2 (fiso a v x - fiso a v y) = hnorm2 (x - y)
    rw [← map_sub, hnorm2_fiso]

/-- Where the samples of the signals go. -/
def gidx (v : Move c K M N) : Fin (c + 1) × K × Grid N ≃ Fin (c + 1) × K × Grid N where
  toFun i := (v.chans i.1, v.sigs i.2.1, i.2.2 + v.shift i.2.1)
  invFun i := (v.chans.symm i.1, v.sigs.symm i.2.1, i.2.2 - v.shift (v.sigs.symm i.2.1))
  left_inv i := by simp
  right_inv i := by simp

/-- The isometry of signal arrays. -/
noncomputable def giso (v : Move c K M N) : Sig (Fin (c + 1)) K N ≃ₗᵢ[ℝ] Sig (Fin (c + 1)) K N :=
  Admm.signPerm (gidx v) (fun i => v.ssign i.2.1) fun _ => v.ssign_ok _

theorem giso_apply (v : Move c K M N) (x : Sig (Fin (c + 1)) K N) (i : Fin (c + 1)) (k : K) (p : Grid N) :
    giso v x (v.chans i, v.sigs k, p + v.shift k) = v.ssign k * x (i, k, p) :=
  Admm.signPerm_image (gidx v) _ _ x (i, k, p)

theorem gext (v : Move c K M N) {x y : Sig (Fin (c + 1)) K N}
    (h : ∀ i k p, x (v.chans i, v.sigs k, p + v.shift k) = y (v.chans i, v.sigs k, p + v.shift k)) : x = y := by
  ext i
  obtain ⟨⟨k, m, p⟩, rfl⟩ := (gidx v).surjective i
  exact h k m p

theorem gfwd_move (v : Move c K M N) (x : Sig (Fin (c + 1)) K N) : fwd a (giso v x) = siso a v (fwd a x) := by
  refine sext v fun i k ξ => ?_
  rw [siso_apply]
  exact rfft_shift (a := a) (v.ssign k) (v.shift k) (part x i k) (part (giso v x) (v.chans i) (v.sigs k))
    (fun p => giso_apply v x i k p) ξ

theorem gbwd_move (v : Move c K M N) (V : HS (Fin (c + 1)) K N a) : bwd a (siso a v V) = giso v (bwd a V) := by
  refine gext v fun i k p => ?_
  rw [giso_apply]
  change irfft N a (fun ξ => siso a v V (v.chans i, v.sigs k, ξ)) (p + v.shift k) =
    v.ssign k * irfft N a (fun ξ => V (i, k, ξ)) p
  simp only [siso_apply]
  refine Eq.trans ?_ ((irfft_phase (v.shift k) _ p).trans (irfft_sign (v.ssign k) _ p))
  congr 1
  funext ξ
  ring

theorem mulW_move (v : Move c K M N) {W W' : Signal c K N}
    (hW : ∀ i k p, W' (v.chans i) (v.sigs k) (p + v.shift k) = W i k p) (x : Sig (Fin (c + 1)) K N) :
    mulW W' (giso v x) = giso v (mulW W x) := by
  refine gext v fun i k p => ?_
  rw [giso_apply]
  change W' (v.chans i) (v.sigs k) (p + v.shift k) * giso v x (v.chans i, v.sigs k, p + v.shift k) =
    v.ssign k * (W i k p * x (i, k, p))
  rw [hW, giso_apply]
  ring

/-- The methods of `ConvBPDNMask` of `pgm/cbpdn.py` correspond. -/
theorem cls_bpdnmask (v : Move c K M N) (q : COpts) (hq : v.Allowed q) {D D' : Dict c M Nd} (hD : v.Dict D D')
    {S S' : Signal c K N} (hS : v.Signal S S') (lmbda : ℝ) {w w' : K × M × Grid N → ℝ} (hw : v.Weights w w')
    {W W' : Signal c K N} (hW : ∀ i k p, W' (v.chans i) (v.sigs k) (p + v.shift k) = W i k p) :
    Pgm.ClsFSame (clsBPDNMask a q D S lmbda w W) (clsBPDNMask a q D' S' lmbda w' W') v.iso (fiso a v).toLinearIsometry :=
  { cls_bpdn (a := a) v q hq hD hS lmbda hw with
    gradF := fun x => by
      change conjDf D' (fwd a (mulW (fun i k p => W' i k p ^ 2) (bwd a (evalRf D' S' (fiso a v x))))) = _
      rw [evalRf_move v hD hS, gbwd_move,
        mulW_move v (W := fun i k p => W i k p ^ 2) (W' := fun i k p => W' i k p ^ 2) (fun i k p => by simp only [hW]),
        gfwd_move, conjDf_move v hD]
      rfl
    obfnF := fun x => by
      change 1 / 2 * ‖fwd a (mulW W' (bwd a (evalRf D' S' (fiso a v x))))‖ ^ 2 = _
      rw [evalRf_move v hD hS, gbwd_move, mulW_move v hW, gfwd_move, LinearIsometryEquiv.norm_map]
      rfl
    evalObj := fun x y => by
      change (‖mulW W' (bwd a (evalRf D' S' (fiso a v y)))‖ ^ 2 / 2 + lmbda * rl1 w' (v.iso x),
        ‖mulW W' (bwd a (evalRf D' S' (fiso a v y)))‖ ^ 2 / 2, rl1 w' (v.iso x)) = _
      rw [evalRf_move v hD hS, gbwd_move, mulW_move v hW, LinearIsometryEquiv.norm_map, rl1_move v hw]
      rfl }

/-! ## Theorems -/

/-- The state after the constructor with initial value `X0` (`pgm/cbpdn.py` 229-243, `pgm/pgm.py` 257-273). The
attributes that do not exist yet are given the values `e`. -/
noncomputable def init (a : Fin d) (X0 : Coef K M N) (L : ℝ) (e : HS K M N a) :
    Pgm.St (Pgm.VarsF (Coef K M N) (HS K M N a)) where
  k := 0
  itstat := []
  v := { X := X0, Xf := fwd a X0, Yf := fwd a X0, Xfprv := e, Yfprv := WithLp.toLp 2 fun i => fwd a X0 i + 1e5, ZZf := e,
         L := L, t := 1, objfn := 0, objfnPrev := 0, F := none, Q := none, iterBT := none, bbX := e, bbG := e, Tk := 0,
         Zrb := none }

/-- Solvers constructed with corresponding initial values correspond. -/
theorem init_corr (v : Move c K M N) (X0 X0' : Coef K M N) (h : v.Coefs X0 X0') (L : ℝ) :
    Pgm.CorrF v.iso (fiso a v) (init a X0 L 0) (init a X0' L 0) := by
  refine ⟨fun _ => (init a X0' L 0).v.Yfprv, ?_⟩
  have e := (v.coefs_iff _ _).1 h
  unfold init Pgm.St.map Pgm.VarsF.map
  simp only [e, fwd_move, map_zero, Option.map_none]

/-- **C84 for `pgm.cbpdn.ConvBPDN`.** Permute signals, filters and channels, shift the signals circularly (not with
`NoBndryCross`), negate signals and filters (not with `NonNegCoef`), and do the same to the weights and to the initial
coefficients. Then `solve()` returns, for all options (momentum, step size policy, backtracking, monotone variant,
stopping rule), the coefficient maps permuted, shifted and negated in the same way, after the same number of
iterations, with the same statistics and step size parameter; the reconstruction is that of the first run, shifted,
permuted and negated like the signal; the two solvers correspond again, so the same holds for later calls. -/
theorem C84_pgm_convbpdn (v : Move c K M N) (q : COpts) (hq : v.Allowed q) (D D' : Dict c M Nd) (hD : v.Dict D D')
    (S S' : Signal c K N) (hS : v.Signal S S') (lmbda : ℝ) (w w' : K × M × Grid N → ℝ) (hW : v.Weights w w')
    (o : Pgm.Opts) (s s' : Pgm.St (Pgm.VarsF (Coef K M N) (HS K M N a))) (h : Pgm.CorrF v.iso (fiso a v) s s') :
    let r := Pgm.solve (Pgm.DFT.ops (clsBPDN a q D S lmbda w) o) o none s
    let r' := Pgm.solve (Pgm.DFT.ops (clsBPDN a q D' S' lmbda w') o) o none s'
    Pgm.CorrF v.iso (fiso a v) r r' ∧ v.Coefs r.v.X r'.v.X ∧ r'.itstat = r.itstat ∧ r'.k = r.k ∧ r'.v.L = r.v.L ∧
      v.Signal (Conv.recon D (part r.v.X)) (Conv.recon D' (part r'.v.X)) := by
  obtain ⟨f, rfl⟩ := h
  obtain ⟨f', e⟩ := Pgm.solve_same (Pgm.DFT.ops_same (cls_bpdn (a := a) v q hq hD hS lmbda hW) o) (Or.inl ⟨rfl, rfl⟩) f s
    (cb := none) (cb' := none)
  intro r r'
  change r' = r.map _ at e
  refine ⟨⟨f', e⟩, ?_, by rw [e]; rfl, by rw [e]; rfl, by rw [e]; rfl, ?_⟩
  · rw [e]; exact (v.coefs_iff _ _).2 rfl
  · rw [e]; exact v.recon_move hD _

/-- **C84 for `pgm.cbpdn.ConvBPDNMask`.** As for `ConvBPDN`; the mask moves with the signals, and is not negated. -/
theorem C84_pgm_convbpdnmask (v : Move c K M N) (q : COpts) (hq : v.Allowed q) (D D' : Dict c M Nd) (hD : v.Dict D D')
    (S S' : Signal c K N) (hS : v.Signal S S') (lmbda : ℝ) (w w' : K × M × Grid N → ℝ) (hw : v.Weights w w')
    (W W' : Signal c K N) (hW : ∀ i k p, W' (v.chans i) (v.sigs k) (p + v.shift k) = W i k p)
    (o : Pgm.Opts) (s s' : Pgm.St (Pgm.VarsF (Coef K M N) (HS K M N a))) (h : Pgm.CorrF v.iso (fiso a v) s s') :
    let r := Pgm.solve (Pgm.DFT.ops (clsBPDNMask a q D S lmbda w W) o) o none s
    let r' := Pgm.solve (Pgm.DFT.ops (clsBPDNMask a q D' S' lmbda w' W') o) o none s'
    Pgm.CorrF v.iso (fiso a v) r r' ∧ v.Coefs r.v.X r'.v.X ∧ r'.itstat = r.itstat ∧ r'.k = r.k ∧ r'.v.L = r.v.L ∧
      v.Signal (Conv.recon D (part r.v.X)) (Conv.recon D' (part r'.v.X)) := by
  obtain ⟨f, rfl⟩ := h
  obtain ⟨f', e⟩ := Pgm.solve_same (Pgm.DFT.ops_same (cls_bpdnmask (a := a) v q hq hD hS lmbda hw hW) o)
    (Or.inl ⟨rfl, rfl⟩) f s (cb := none) (cb' := none)
  intro r r'
  change r' = r.map _ at e
  refine ⟨⟨f', e⟩, ?_, by rw [e]; rfl, by rw [e]; rfl, by rw [e]; rfl, ?_⟩
  · rw [e]; exact (v.coefs_iff _ _).2 rfl
  · rw [e]; exact v.recon_move hD _

end Sporco.PgmConv
