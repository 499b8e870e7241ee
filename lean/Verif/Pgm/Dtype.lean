import Verif.Admm.Dtype
import Verif.Pgm.Batch

/-!
# Data types of the arrays of a proximal gradient solver (C86)
-/

set_option autoImplicit false

namespace Sporco.Pgm.Dtype

open Matrix Sporco.Prox Sporco.Admm Sporco.Admm.Bpdn Sporco.Pgm
open Sporco.Admm.Dtype (DT cast castM setDtype setAttr InType cast_inType cast_zero castM_small inType_int)

variable {N M K : ℕ}

/-- `BPDN.prox_g` (`pgm/bpdn.py` 186-193) with its conversion: negative entries are cleared afterwards. -/
noncomputable def proxGT (t : DT) (lmbda : ℝ) (wl1 : Fin M × Fin K → ℝ) (nonNeg : Bool) (L : ℝ) (V : Arr M K) :
    Arr M K :=
  WithLp.toLp 2 (gystep nonNeg fun i => cast t (proxL1Arr V.ofLp (fun i => lmbda / L * wl1 i) i))

/-- `BPDN` of `pgm/bpdn.py` working in data type `t`; the arguments have been converted (135-165). -/
noncomputable def clsBPDNT (t : DT) (D : Matrix (Fin N) (Fin M) ℝ) (S : Matrix (Fin N) (Fin K) ℝ) (lmbda : ℝ)
    (wl1 : Fin M × Fin K → ℝ) (nonNeg : Bool) : Cls (Arr M K) :=
  { clsBPDN D S lmbda wl1 nonNeg with proxG := proxGT t lmbda wl1 nonNeg }

/-- What the user passes to `BPDN(D, S, lmbda, opt)`. -/
structure Args (N M K : ℕ) where
  D : Matrix (Fin N) (Fin M) ℝ
  S : Matrix (Fin N) (Fin K) ℝ
  sig : DT
  lmbda : ℝ
  dataType : Option DT
  L : ℝ
  L1Weight : Fin M × Fin K → ℝ
  nonNeg : Bool
  opts : Opts

/-- The data type `BPDN.__init__` chooses (`pgm/bpdn.py` 135). -/
def Args.dt (a : Args N M K) : DT := setDtype a.dataType a.sig

/-- The class of the constructed object (`pgm/bpdn.py` 130-165). -/
noncomputable def Args.cls (a : Args N M K) : Cls (Arr M K) :=
  clsBPDNT a.dt (castM a.dt a.D) (castM a.dt a.S) (cast a.dt a.lmbda) (fun i => cast a.dt (a.L1Weight i)) a.nonNeg

/-- The state the constructor leaves (`pgm/bpdn.py` 155-156, `pgm.py` 238-270), without `X0`. -/
noncomputable def Args.init (a : Args N M K) : St (Vars (Arr M K)) where
  k := 0
  itstat := []
  v := { X := 0, Y := 0, Xprv := 0, Yprv := WithLp.toLp 2 fun _ => 1000, ZZ := 0, L := cast a.dt a.L, t := 1,
         objfn := 0, objfnPrev := 0, F := none, Q := none, iterBT := none, bbX := 0, bbG := 0, Tk := 0, Zrb := none }

/-- **C86, floating point types.** The object is the one the other theorems are about. -/
theorem C86_pgm_bpdn_float (a : Args N M K) (h : a.dt = .float) :
    a.cls = clsBPDN a.D a.S a.lmbda a.L1Weight a.nonNeg ∧ a.init.v.L = a.L := by
  unfold Args.cls Args.init
  rw [h]
  exact ⟨rfl, rfl⟩

theorem proxGT_zero (t : DT) (lmbda : ℝ) (w : Fin M × Fin K → ℝ) (nonNeg : Bool) (L : ℝ) :
    proxGT t lmbda w nonNeg L (0 : Arr M K) = 0 := by
  ext i
  have e : (fun i => cast t (proxL1Arr (0 : Arr M K).ofLp (fun i => lmbda / L * w i) i)) = fun _ => 0 := by
    funext i
    have : proxL1Arr (0 : Arr M K).ofLp (fun i => lmbda / L * w i) i = 0 := by simp [proxL1Arr, proxL1, npSign]
    rw [this, cast_zero]
  unfold proxGT
  rw [e]
  unfold gystep
  cases nonNeg
  · rfl
  · change clip (fun _ : Fin M × Fin K => (0 : ℝ)) i = 0
    simp [clip]

theorem fold_inv {V : Type*} (P : V → Prop) (f : V → ℕ → V) (hf : ∀ v k, P v → P (f v k)) (ks : List ℕ) (v : V)
    (h : P v) : P (ks.foldl f v) := by
  induction ks generalizing v with
  | nil => exact h
  | cons k ks ih => exact ih _ (hf v k h)

/-- **C86, integer signals.** For a signal of integer type (without floating point `DataType`) and a dictionary whose
entries are below one in absolute value, `solve` returns zero, whatever the signal and the parameters are: for the
default options without line search, step size policy and `Monotone`. -/
theorem C86_pgm_bpdn_integer (a : Args N M K) (hs : a.sig = .int) (hd : a.dataType = none)
    (hD : ∀ i j, |a.D i j| < 1) (h1 : a.opts.backtrack = .none) (h2 : a.opts.monotone = false)
    (h3 : a.opts.stepPolicy = .none) (hm : 0 < a.opts.maxMainIter) :
    mat (solve (ops a.cls a.opts) a.opts none a.init).v.X = 0 := by
  have ht : a.dt = .int := by unfold Args.dt setDtype; rw [hd]; exact hs
  have hg : ∀ V, a.cls.gradF V = 0 := by
    intro V
    have e : castM a.dt a.D = 0 := by rw [ht]; exact castM_small _ hD
    change arr ((castM a.dt a.D)ᵀ * _) = 0
    rw [e, transpose_zero, Matrix.zero_mul]
    rfl
  have hp : ∀ L, a.cls.proxG L 0 = 0 := fun L => proxGT_zero _ _ _ _ _
  obtain ⟨j, -, -, hj, -⟩ := solve_run (ops a.cls a.opts) a.opts hm a.init
  rw [hj]
  have := fold_inv (fun v : Vars (Arr M K) => v.X = 0 ∧ v.Y = 0)
    (fun v k => (ops a.cls a.opts).step k ((ops a.cls a.opts).start k v)) (by
      intro v k ⟨hX, hY⟩
      obtain ⟨e1, e2, -, -⟩ := step_off a.cls a.opts k v h1 h2 h3
      have e3 : a.cls.proxG v.L (v.Y - (1 / v.L) • a.cls.gradF v.Y) = 0 := by
        rw [hg, hY, smul_zero, sub_zero, hp]
      exact ⟨by rw [e1, e3], by rw [e2, e3, hX]; simp⟩) (List.range' a.init.k j) a.init.v ⟨rfl, rfl⟩
  rw [this.1]
  rfl

/-- **C86, the type of the solution.** The entries of the coefficient array are numbers of the data type of the signal,
or of `DataType`, after every call of `solve` (options as in `C86_pgm_bpdn_integer`). -/
theorem C86_pgm_bpdn_type (a : Args N M K) (h1 : a.opts.backtrack = .none) (h2 : a.opts.monotone = false)
    (h3 : a.opts.stepPolicy = .none) (s : St (Vars (Arr M K))) (hs : ∀ i, InType (a.dataType.getD a.sig) (s.v.X i)) :
    ∀ i, InType (a.dataType.getD a.sig) ((solve (ops a.cls a.opts) a.opts none s).v.X i) := by
  rcases Nat.eq_zero_or_pos a.opts.maxMainIter with hm | hm
  · unfold solve
    rw [hm]
    exact hs
  obtain ⟨j, -, -, hj, -⟩ := solve_run (ops a.cls a.opts) a.opts hm s
  rw [hj]
  refine fold_inv (fun v : Vars (Arr M K) => ∀ i, InType (a.dataType.getD a.sig) (v.X i))
    (fun v k => (ops a.cls a.opts).step k ((ops a.cls a.opts).start k v)) (fun v k _ i => ?_) _ s.v hs
  obtain ⟨e1, -, -, -⟩ := step_off a.cls a.opts k v h1 h2 h3
  simp only [e1]
  exact Sporco.Admm.Dtype.gystep_inType a.dt a.nonNeg _ (fun _ => cast_inType _ _) i

/-- The example of `Admm/Dtype.lean`: the signal `(3, 4)` of integer type and the atom `(3/5, 4/5)`. -/
noncomputable def exArgs (o : Opts) : Args 2 1 1 where
  D := !![3 / 5; 4 / 5]
  S := !![3; 4]
  sig := .int
  lmbda := 1
  dataType := none
  L := 500
  L1Weight := fun _ => 1
  nonNeg := false
  opts := o

/-- **Negation of C86 for integer signals.** The value of the functional at what `solve` returns is 12.5, after any
number of iterations; at the coefficient 4 it is 4.5. -/
theorem C86_pgm_bpdn_integer_refuted (o : Opts) (h1 : o.backtrack = .none) (h2 : o.monotone = false)
    (h3 : o.stepPolicy = .none) (hm : 0 < o.maxMainIter) :
    let a := exArgs o
    (∀ i j, InType a.sig (a.S i j)) ∧
    objBPDN a.D a.S a.lmbda a.L1Weight (mat (solve (ops a.cls a.opts) a.opts none a.init).v.X) = 25 / 2 ∧
    objBPDN a.D a.S a.lmbda a.L1Weight !![4] = 9 / 2 := by
  intro a
  have h := C86_pgm_bpdn_integer a rfl rfl (by
    intro i j
    fin_cases i <;> fin_cases j <;> norm_num [a, exArgs, abs_lt]) h1 h2 h3 hm
  refine ⟨?_, ?_, ?_⟩
  · intro i j
    fin_cases i <;> fin_cases j
    · exact ⟨3, by norm_num [a, exArgs]⟩
    · exact ⟨4, by norm_num [a, exArgs]⟩
  · rw [h]
    norm_num [objBPDN, a, exArgs, Fin.sum_univ_two, fro2, l1wMat]
  · norm_num [objBPDN, a, exArgs, Fin.sum_univ_two, mul_apply, fro2, l1wMat]

end Sporco.Pgm.Dtype
