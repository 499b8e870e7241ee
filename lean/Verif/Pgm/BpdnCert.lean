import Verif.Pgm.CertRef

/-!
# C68 and C69 for `pgm.bpdn.BPDN`
-/

set_option autoImplicit false

namespace Sporco.Pgm

open Matrix
open Sporco.Admm (Arr mat arr dmul dmul_apply dmul_adj norm_arr norm_mat fro2 inner_arr)
open Sporco.Admm.Bpdn (gystep coefs objBPDN allowed coefs_allowed l1wMat)
open Sporco.Prox (proxL1Arr normL1 l1w)
open scoped RealInnerProductSpace

variable {N M K : ℕ}

theorem F_matrix (D : Matrix (Fin N) (Fin M) ℝ) (S : Matrix (Fin N) (Fin K) ℝ) (lmbda : ℝ)
    (wl1 : Fin M × Fin K → ℝ) (hw : ∀ i, 0 ≤ wl1 i) (nonNeg : Bool) (x : Arr M K) :
    (clsBPDN D S lmbda wl1 nonNeg).F x = objBPDN D S lmbda wl1 (mat x) := by
  simp only [Cls.F, clsBPDN, objBPDN, norm_arr, normL1, l1wMat]
  congr 2
  rw [Fintype.sum_prod_type]
  refine Finset.sum_congr rfl fun i _ => Finset.sum_congr rfl fun j _ => ?_
  rw [norm_mul, Real.norm_of_nonneg (hw _)]; rfl

/-- **C68 for `BPDN`.** For every dictionary, signal, nonnegative `lmbda` and weights, with or
without `NonNegCoef`, for every momentum and step size policy, without or with the standard line
search, from every state, the callback (if any) only reading: what `solve()` returns as X is a
feasible coefficient array if the last recorded L is positive, the last recorded objective is its
objective, and that exceeds the objective of any other feasible array `Z` by at most
`L Rsdl ‖Z - X‖ + Lf/2 Rsdl²`, `Lf` being any bound on the squared singular values of the
dictionary; and a solver that stops by itself has a last residual below `RelStopTol`. -/
theorem C68_bpdn_partial (D : Matrix (Fin N) (Fin M) ℝ) (S : Matrix (Fin N) (Fin K) ℝ) (lmbda : ℝ)
    (hl : 0 ≤ lmbda) (wl1 : Fin M × Fin K → ℝ) (hw : ∀ i, 0 ≤ wl1 i) (nonNeg : Bool) (o : Opts)
    (hf : o.fastSolve = false) (hm : o.monotone = false) (hb : PlainSearch o) (hauto : o.autoStop = false)
    (hmax : 1 ≤ o.maxMainIter) (cb) (hcb : CallbackReads cb) (s : St (Vars (Arr M K))) (Lf : ℝ)
    (hLf : ∀ x : Matrix (Fin M) (Fin K) ℝ, fro2 (D * x) ≤ Lf * fro2 x) :
    let r := solve (ops (clsBPDN D S lmbda wl1 nonNeg) o) o cb s
    let X := mat r.v.X
    ∃ e, r.itstat.getLast? = some e ∧ e.iter + 1 = r.k ∧
      (0 < e.L → X ∈ allowed nonNeg ∧ e.obj.1 = objBPDN D S lmbda wl1 X ∧
        (∀ Z ∈ allowed nonNeg, objBPDN D S lmbda wl1 X ≤ objBPDN D S lmbda wl1 Z +
          e.L * e.rsdl * √(fro2 (Z - X)) + Lf / 2 * e.rsdl ^ 2)) ∧
      (r.k < s.k + o.maxMainIter → (∀ f t, cb = some f → (f t).1 = false) → e.rsdl < o.relStopTol) := by
  intro r X
  obtain ⟨e, e1, e2, e3, e4⟩ := C68_solve_partial _ _ Lf
    (bpdn_convex D S lmbda hl wl1 hw nonNeg Lf fun x => hLf (mat x)) o hf hm hb hauto hmax cb hcb s
  refine ⟨e, e1, e2, fun hL => ?_, e4⟩
  obtain ⟨a1, a2, a3⟩ := e3 hL
  rw [F_matrix D S lmbda wl1 hw] at a2
  refine ⟨(coefs_allowed _ _).1 a1, a2, fun Z hZ => ?_⟩
  have h := a3 (arr Z) ((coefs_allowed _ _).2 hZ)
  rw [F_matrix D S lmbda wl1 hw, F_matrix D S lmbda wl1 hw] at h
  have e6 : ‖arr Z - r.v.X‖ = √(fro2 (Z - X)) := by
    rw [← Real.sqrt_sq (norm_nonneg (arr Z - r.v.X)), norm_mat]
    rfl
  rw [← e6]
  exact h

/-- **C69 for `BPDN`.** With the default momentum, a fixed `L` at least the largest squared singular
value of the dictionary (from a feasible start if `Monotone` is set) or the standard line search
allowed enough passes to get there, a positive `RelStopTol` and no `AutoStop`: from a fresh object,
`solve()` returns after at most `n` iterations, whatever `MaxMainIter`, once
`4 ‖X₀ - Xs‖ < RelStopTol (n + 1)` for a minimiser `Xs`. -/
theorem C69_bpdn_partial (D : Matrix (Fin N) (Fin M) ℝ) (S : Matrix (Fin N) (Fin K) ℝ) (lmbda : ℝ)
    (hl : 0 ≤ lmbda) (wl1 : Fin M × Fin K → ℝ) (hw : ∀ i, 0 ≤ wl1 i) (nonNeg : Bool) (o : Opts)
    (hf : o.fastSolve = false) (hmom : o.momentum = .nesterov) (hauto : o.autoStop = false)
    (hmax : 1 ≤ o.maxMainIter) (s : St (Vars (Arr M K))) (hs : Fresh s) (hL : 0 < s.v.L) (Lf : ℝ)
    (hLf : ∀ x : Matrix (Fin M) (Fin K) ℝ, fro2 (D * x) ≤ Lf * fro2 x)
    (hset : (o.backtrack = .none ∧ o.policy = .none ∧ Lf ≤ s.v.L ∧ (o.monotone = true → mat s.v.X ∈ allowed nonNeg)) ∨
      (∃ gu m, o.backtrack = .standard gu m ∧ 1 ≤ gu ∧ 1 ≤ m ∧ Lf ≤ s.v.L * gu ^ (m - 1) ∧ o.monotone = false))
    (Xs : Matrix (Fin M) (Fin K) ℝ) (hXs : Xs ∈ allowed nonNeg)
    (hmin : ∀ X ∈ allowed nonNeg, objBPDN D S lmbda wl1 Xs ≤ objBPDN D S lmbda wl1 X)
    (n : ℕ) (hn : 1 ≤ n) (hN : 4 * √(fro2 (mat s.v.X - Xs)) < o.relStopTol * (n + 1)) :
    let r := solve (ops (clsBPDN D S lmbda wl1 nonNeg) o) o .none s
    r.k ≤ n ∧ (n < o.maxMainIter → ∃ e, r.itstat.getLast? = some e ∧ e.rsdl < o.relStopTol) := by
  have e6 : ‖s.v.X - arr Xs‖ = √(fro2 (mat s.v.X - Xs)) := by
    rw [← Real.sqrt_sq (norm_nonneg (s.v.X - arr Xs)), norm_mat]
    rfl
  refine C69_partial _ _ Lf (bpdn_convex D S lmbda hl wl1 hw nonNeg Lf fun x => hLf (mat x)) o hf hmom hauto hmax
    s hs hL ?_ (arr Xs) ((coefs_allowed _ _).2 hXs) (fun u hu => ?_) n hn (by rw [e6]; exact hN)
  · rcases hset with ⟨a, b, c, d⟩ | h
    · exact Or.inl ⟨a, b, c, fun hm => (coefs_allowed _ _).2 (d hm)⟩
    · exact Or.inr h
  · rw [F_matrix D S lmbda wl1 hw, F_matrix D S lmbda wl1 hw]
    exact hmin _ ((coefs_allowed _ _).1 hu)

/-- The hypotheses of `C68_bpdn_partial` and `C69_bpdn_partial` are met by `D = 2`, signal 6,
`lmbda = 4`, started from 0 with `L = 4` or, with the line search, with `L = 1`. -/
example : (∀ x : Matrix (Fin 1) (Fin 1) ℝ, fro2 (one1 2 * x) ≤ 4 * fro2 x) ∧
    one1 2 ∈ allowed (M := 1) (K := 1) false ∧
    (∀ X ∈ allowed (M := 1) (K := 1) false, objBPDN (one1 2) (one1 6) 4 (fun _ => 1) (one1 2) ≤
      objBPDN (one1 2) (one1 6) 4 (fun _ => 1) X) ∧
    (4 : ℝ) ≤ 1 * 2 ^ (3 - 1) ∧ 4 * √(fro2 (0 - one1 2)) < 1 / 10 * ((80 : ℕ) + 1) := by
  refine ⟨fun x => ?_, by simp [allowed], fun X _ => ?_, by norm_num, ?_⟩
  · simp [fro2, one1, Matrix.mul_apply]; nlinarith
  · simp [objBPDN, fro2, l1wMat, one1, Matrix.mul_apply]
    cases abs_cases (X 0 0) <;> nlinarith [sq_nonneg (X 0 0 - 2)]
  · have : √(fro2 (0 - one1 2)) = 2 := by
      rw [show fro2 (0 - one1 2) = 2 ^ 2 by norm_num [fro2, one1]]
      exact Real.sqrt_sq (by norm_num)
    rw [this]; norm_num

end Sporco.Pgm
