import Verif.Pgm.BpdnCert
import Verif.Pgm.StopsMom

/-!
# C45, C68 and C69 for `WeightedBPDN` (`sporco/pgm/bpdn.py` 271-369)
-/

set_option autoImplicit false

namespace Sporco.Pgm

open Matrix Sporco.Admm.Bpdn Sporco.Prox Sporco.Admm

variable {N M K : ℕ}

/-- The functional in the documentation of `WeightedBPDN`:
`1/2 Σ W (D X - S)² + lmbda Σ wl1 |X|`. -/
noncomputable def objWBPDN (D : Matrix (Fin N) (Fin M) ℝ) (S W : Matrix (Fin N) (Fin K) ℝ) (lmbda : ℝ)
    (wl1 : Fin M × Fin K → ℝ) (X : Matrix (Fin M) (Fin K) ℝ) : ℝ :=
  1 / 2 * ∑ i, ∑ j, W i j * ((D * X - S) i j) ^ 2 + lmbda * l1wMat wl1 X

/-- `Σ W (D X)²`. -/
noncomputable def wSq (D : Matrix (Fin N) (Fin M) ℝ) (W : Matrix (Fin N) (Fin K) ℝ)
    (X : Matrix (Fin M) (Fin K) ℝ) : ℝ := ∑ i, ∑ j, W i j * ((D * X) i j) ^ 2

theorem fro2_had_sqrt {m k : ℕ} (W R : Matrix (Fin m) (Fin k) ℝ) (hW : ∀ i j, 0 ≤ W i j) :
    fro2 (had (Matrix.of fun i j => Real.sqrt (W i j)) R) = ∑ i, ∑ j, W i j * R i j ^ 2 := by
  unfold fro2
  refine Finset.sum_congr rfl fun i _ => Finset.sum_congr rfl fun j _ => ?_
  simp only [had, Matrix.of_apply]
  rw [mul_pow, Real.sq_sqrt (hW i j)]

theorem F_wbpdn (D : Matrix (Fin N) (Fin M) ℝ) (S W : Matrix (Fin N) (Fin K) ℝ) (hW : ∀ i j, 0 ≤ W i j) (lmbda : ℝ)
    (wl1 : Fin M × Fin K → ℝ) (hw : ∀ i, 0 ≤ wl1 i) (nonNeg : Bool) (x : Arr M K) :
    (clsWBPDN D S lmbda wl1 nonNeg W).F x = objWBPDN D S W lmbda wl1 (mat x) := by
  have h := F_matrix D S lmbda wl1 hw nonNeg x
  simp only [Cls.F, clsBPDN, objBPDN, norm_arr] at h
  simp only [Cls.F, clsWBPDN, objWBPDN, norm_arr, fro2_had_sqrt _ _ hW, clsBPDN]
  linarith

theorem convex_wbpdn (D : Matrix (Fin N) (Fin M) ℝ) (S W : Matrix (Fin N) (Fin K) ℝ) (hW : ∀ i j, 0 ≤ W i j) (lmbda : ℝ)
    (hl : 0 ≤ lmbda) (wl1 : Fin M × Fin K → ℝ) (hw : ∀ i, 0 ≤ wl1 i) (nonNeg : Bool) (Lf : ℝ)
    (hL : ∀ X : Matrix (Fin M) (Fin K) ℝ, wSq D W X ≤ Lf * fro2 X) :
    Convex (clsWBPDN D S lmbda wl1 nonNeg W) (coefs nonNeg) Lf := by
  have hp := (bpdn_convex (0 : Matrix (Fin N) (Fin M) ℝ) S lmbda hl wl1 hw nonNeg 0
    (fun x => by simp [fro2])).prox
  refine ⟨?_, hp⟩
  have hs := smooth_ls (onArr (hadLin (Matrix.of fun i j => Real.sqrt (W i j)) ∘ₗ lmulLin D))
    (arr (hadLin (Matrix.of fun i j => Real.sqrt (W i j)) S))
    (onArr (lmulLin Dᵀ ∘ₗ hadLin (Matrix.of fun i j => Real.sqrt (W i j))))
    ((adj_had _).comp (adj_lmul D)) Lf (fun x => by
      rw [onArr_apply, norm_arr, norm_mat]
      change fro2 (had _ (D * mat x)) ≤ _
      rw [fro2_had_sqrt _ _ hW]
      exact hL (mat x))
  have e1 : ∀ x : Arr M K, onArr (hadLin (Matrix.of fun i j => Real.sqrt (W i j)) ∘ₗ lmulLin D) x -
      arr (hadLin (Matrix.of fun i j => Real.sqrt (W i j)) S) =
      arr (had (Matrix.of fun i j => Real.sqrt (W i j)) (D * mat x - S)) := by
    intro x
    change arr (((hadLin _ ∘ₗ lmulLin D) (mat x)) - hadLin _ S) = _
    rw [LinearMap.comp_apply, ← map_sub]; rfl
  have e2 : ∀ R : Matrix (Fin N) (Fin K) ℝ, onArr (lmulLin Dᵀ ∘ₗ hadLin (Matrix.of fun i j => Real.sqrt (W i j)))
      (arr (had (Matrix.of fun i j => Real.sqrt (W i j)) R)) = arr (Dᵀ * had W R) := by
    intro R
    change arr (Dᵀ * had _ (had _ R)) = _
    rw [had_had_sqrt W hW]
  simp only [e1, e2] at hs
  exact hs

section
variable (D : Matrix (Fin N) (Fin M) ℝ) (S W : Matrix (Fin N) (Fin K) ℝ) (hW : ∀ i j, 0 ≤ W i j) (lmbda : ℝ)
  (hl : 0 ≤ lmbda) (wl1 : Fin M × Fin K → ℝ) (hw : ∀ i, 0 ≤ wl1 i) (nonNeg : Bool) (o : Opts)

theorem norm_arr_sub (X Z : Matrix (Fin M) (Fin K) ℝ) : ‖arr X - arr Z‖ = √(fro2 (X - Z)) := by
  rw [← Real.sqrt_sq (norm_nonneg (arr X - arr Z)), norm_mat]
  rfl

include hW hl hw

/-- **C45 for `WeightedBPDN`.** For every dictionary, signal, nonnegative weights, `lmbda` and l1
weights, with or without `NonNegCoef`, from any starting point (a feasible one with `Monotone`), with
the default momentum and `L` so large that `Σ W (D X)² ≤ L Σ X²`: after `k` iterations the
functional exceeds its minimum by at most `2 L ‖X₀ - Xs‖² / (k + 1)²`. -/
theorem C45_weightedbpdn (hb : o.backtrack = .none) (hp : o.policy = .none) (hmom : o.momentum = .nesterov)
    (cb) (hcb : CallbackReads cb) (s : St (Vars (Arr M K))) (hs : Fresh s)
    (hX0 : o.monotone = true → mat s.v.X ∈ allowed nonNeg)
    (hL : 0 < s.v.L) (hLD : ∀ X : Matrix (Fin M) (Fin K) ℝ, wSq D W X ≤ s.v.L * fro2 X)
    (Xs : Matrix (Fin M) (Fin K) ℝ) (hXs : Xs ∈ allowed nonNeg)
    (hmin : ∀ X ∈ allowed nonNeg, objWBPDN D S W lmbda wl1 Xs ≤ objWBPDN D S W lmbda wl1 X) (k : ℕ) (hk : 1 ≤ k) :
    let X := mat (iterX (clsWBPDN D S lmbda wl1 nonNeg W) o cb s k)
    X ∈ allowed nonNeg ∧
    objWBPDN D S W lmbda wl1 X - objWBPDN D S W lmbda wl1 Xs ≤
      2 * s.v.L * fro2 (mat s.v.X - Xs) / (k + 1) ^ 2 := by
  have h := C45_rate _ _ _ (convex_wbpdn D S W hW lmbda hl wl1 hw nonNeg s.v.L hLD) o hb hp hmom cb hcb
    s hs hL le_rfl (fun hm => (coefs_allowed _ _).2 (hX0 hm)) (arr Xs) ((coefs_allowed _ _).2 hXs) (fun u hu => by
      rw [F_wbpdn D S W hW lmbda wl1 hw, F_wbpdn D S W hW lmbda wl1 hw]
      exact hmin _ ((coefs_allowed _ _).1 hu)) k hk
  refine ⟨(coefs_allowed _ _).1 h.1, ?_⟩
  have h2 := h.2
  rw [F_wbpdn D S W hW lmbda wl1 hw, F_wbpdn D S W hW lmbda wl1 hw, norm_mat] at h2
  exact h2

/-- **C68 for `WeightedBPDN`**, for every momentum and step size policy, without or with the standard
line search, from every state: the last recorded objective is the functional at the returned array,
which exceeds the functional at any other feasible array `Z` by at most
`L Rsdl ‖Z - X‖ + Lf/2 Rsdl²`; a solver that stops by itself has a last residual below
`RelStopTol`. -/
theorem C68_weightedbpdn_partial (hf : o.fastSolve = false) (hm : o.monotone = false) (hb : PlainSearch o)
    (hauto : o.autoStop = false) (hmax : 1 ≤ o.maxMainIter) (cb) (hcb : CallbackReads cb) (s : St (Vars (Arr M K)))
    (Lf : ℝ) (hLf : ∀ X : Matrix (Fin M) (Fin K) ℝ, wSq D W X ≤ Lf * fro2 X) :
    let r := solve (ops (clsWBPDN D S lmbda wl1 nonNeg W) o) o cb s
    let X := mat r.v.X
    ∃ e, r.itstat.getLast? = some e ∧ e.iter + 1 = r.k ∧
      (0 < e.L → X ∈ allowed nonNeg ∧ e.obj.1 = objWBPDN D S W lmbda wl1 X ∧
        (∀ Z ∈ allowed nonNeg, objWBPDN D S W lmbda wl1 X ≤ objWBPDN D S W lmbda wl1 Z +
          e.L * e.rsdl * √(fro2 (Z - X)) + Lf / 2 * e.rsdl ^ 2)) ∧
      (r.k < s.k + o.maxMainIter → (∀ f t, cb = some f → (f t).1 = false) → e.rsdl < o.relStopTol) := by
  intro r X
  obtain ⟨e, e1, e2, e3, e4⟩ := C68_solve_partial _ _ Lf
    (convex_wbpdn D S W hW lmbda hl wl1 hw nonNeg Lf hLf) o hf hm hb hauto hmax cb hcb s
  refine ⟨e, e1, e2, fun hL => ?_, e4⟩
  obtain ⟨a1, a2, a3⟩ := e3 hL
  rw [F_wbpdn D S W hW lmbda wl1 hw] at a2
  refine ⟨(coefs_allowed _ _).1 a1, a2, fun Z hZ => ?_⟩
  have h := a3 (arr Z) ((coefs_allowed _ _).2 hZ)
  rw [F_wbpdn D S W hW lmbda wl1 hw, F_wbpdn D S W hW lmbda wl1 hw] at h
  have e6 : ‖arr Z - r.v.X‖ = √(fro2 (Z - X)) := norm_arr_sub Z X
  rw [← e6]
  exact h

/-- **C69 for `WeightedBPDN`**: with the default momentum and a fixed `L` with
`Σ W (D X)² ≤ L Σ X²` (or the standard line search allowed to get there), a positive `RelStopTol` and
no `AutoStop`, `solve()` of a fresh object returns after at most `n` iterations, whatever
`MaxMainIter`, once `4 ‖X₀ - Xs‖ < RelStopTol (n + 1)` for a minimiser `Xs`; with linear momentum
(`b ≥ 2`) once `2 b ‖X₀ - Xs‖ < RelStopTol (n + b - 2)`. -/
theorem C69_weightedbpdn_partial (hf : o.fastSolve = false) (hauto : o.autoStop = false)
    (hmax : 1 ≤ o.maxMainIter) (s : St (Vars (Arr M K))) (hs : Fresh s) (hL : 0 < s.v.L) (Lf : ℝ)
    (hLf : ∀ X : Matrix (Fin M) (Fin K) ℝ, wSq D W X ≤ Lf * fro2 X)
    (hset : (o.backtrack = .none ∧ o.policy = .none ∧ Lf ≤ s.v.L ∧ (o.monotone = true → mat s.v.X ∈ allowed nonNeg)) ∨
      (∃ gu m, o.backtrack = .standard gu m ∧ 1 ≤ gu ∧ 1 ≤ m ∧ Lf ≤ s.v.L * gu ^ (m - 1) ∧ o.monotone = false))
    (Xs : Matrix (Fin M) (Fin K) ℝ) (hXs : Xs ∈ allowed nonNeg)
    (hmin : ∀ X ∈ allowed nonNeg, objWBPDN D S W lmbda wl1 Xs ≤ objWBPDN D S W lmbda wl1 X)
    (n : ℕ) (hn : 1 ≤ n)
    (hN : (o.momentum = .nesterov ∧ 4 * √(fro2 (mat s.v.X - Xs)) < o.relStopTol * (n + 1)) ∨
      (∃ b, 2 ≤ b ∧ o.momentum = .linear b ∧ 2 * b * √(fro2 (mat s.v.X - Xs)) < o.relStopTol * (n + b - 2))) :
    let r := solve (ops (clsWBPDN D S lmbda wl1 nonNeg W) o) o .none s
    r.k ≤ n ∧ (n < o.maxMainIter → ∃ e, r.itstat.getLast? = some e ∧ e.rsdl < o.relStopTol) := by
  have e6 : ‖s.v.X - arr Xs‖ = √(fro2 (mat s.v.X - Xs)) := norm_arr_sub (mat s.v.X) Xs
  have hset' : Converges o (coefs nonNeg) Lf s := by
    rcases hset with ⟨a, b, c, d⟩ | h
    · exact Or.inl ⟨a, b, c, fun hm => (coefs_allowed _ _).2 (d hm)⟩
    · exact Or.inr h
  have hmin' : ∀ u ∈ coefs nonNeg, (clsWBPDN D S lmbda wl1 nonNeg W).F (arr Xs) ≤
      (clsWBPDN D S lmbda wl1 nonNeg W).F u := fun u hu => by
    rw [F_wbpdn D S W hW lmbda wl1 hw, F_wbpdn D S W hW lmbda wl1 hw]
    exact hmin _ ((coefs_allowed _ _).1 hu)
  have hcv := convex_wbpdn D S W hW lmbda hl wl1 hw nonNeg Lf hLf
  rcases hN with ⟨hmom, hN⟩ | ⟨b, hb, hmom, hN⟩
  · exact C69_partial _ _ Lf hcv o hf hmom hauto hmax s hs hL hset' (arr Xs) ((coefs_allowed _ _).2 hXs) hmin' n hn
      (by rw [e6]; exact hN)
  · exact (C69_linear_partial _ _ Lf hcv o b hb hf hmom s hs hL hset' (arr Xs) ((coefs_allowed _ _).2 hXs) hmin').2
      hauto hmax n hn (by rw [e6]; exact hN)

end

/-- The hypotheses are met by `D = 2`, weight 3, signal 6, `lmbda = 12`, with minimiser 2 and
`Lf = 12`, started from 0. -/
example : (∀ X : Matrix (Fin 1) (Fin 1) ℝ, wSq (one1 2) (one1 3) X ≤ 12 * fro2 X) ∧
    one1 2 ∈ allowed (M := 1) (K := 1) false ∧
    (∀ X ∈ allowed (M := 1) (K := 1) false, objWBPDN (one1 2) (one1 6) (one1 3) 12 (fun _ => 1) (one1 2) ≤
      objWBPDN (one1 2) (one1 6) (one1 3) 12 (fun _ => 1) X) := by
  refine ⟨fun X => ?_, by simp [allowed], fun X _ => ?_⟩
  · simp [wSq, fro2, one1, Matrix.mul_apply]; nlinarith
  · simp [objWBPDN, l1wMat, one1, Matrix.mul_apply]
    cases abs_cases (X 0 0) <;> nlinarith [sq_nonneg (X 0 0 - 2)]

end Sporco.Pgm
