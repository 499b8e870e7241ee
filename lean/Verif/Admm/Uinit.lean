import Mathlib.Algebra.BigOperators.Field
import Mathlib.Algebra.Order.BigOperators.Ring.Finset
import Mathlib.Analysis.Real.Sqrt
import Mathlib.Data.Sign.Basic
import Mathlib.Data.Fintype.BigOperators
import Mathlib.Tactic.Positivity
import Mathlib.Tactic.FieldSimp
import Mathlib.Tactic.Linarith
import Mathlib.Tactic.FinCases

/-!
# Default initial dual variables (C42)

Model of the methods `uinit` that claim to satisfy "the relevant dual optimality criterion (see
(3.10) in boyd-2010-distributed)", and of the order in which the constructors set the attributes
that they read. Real arrays, flattened.
-/

set_option autoImplicit false

namespace Sporco.Admm.Uinit

open Finset

variable {ι κ : Type*} [Fintype ι] [Fintype κ]

/-! ## Model -/

/-- `np.sign` -/
noncomputable def sgn (x : ℝ) : ℝ := if x < 0 then -1 else if 0 < x then 1 else 0

/-- `zdivide(x, y)` (`array.py` 119-137): zero where the denominator is zero. -/
noncomputable def zdivide (x y : ℝ) : ℝ := if y = 0 then 0 else x / y

/-- `BPDN.uinit` (`admm/bpdn.py` 434-443) and, verbatim, `RobustPCA.uinit` (`admm/rpca.py`
149-158); `Y0` is the option, `Y` the variable (a copy of `Y0` if that is given). -/
noncomputable def bpdn (lmbda rho : ℝ) (Y0 : Option (ι → ℝ)) (i : ι) : ℝ :=
  match Y0 with
  | none => 0
  | some Y => (lmbda / rho) * sgn (Y i)

/-- `TVL2Denoise.uinit` (`admm/tvl2.py` 223-233) and `TVL2Deconv.uinit` (580-590): `ι` indexes the
pixels (including channels), `κ` the last axis. -/
noncomputable def tvl2 (lmbda rho : ℝ) (Y0 : Option (ι → κ → ℝ)) (i : ι) (k : κ) : ℝ :=
  match Y0 with
  | none => 0
  | some Y => (lmbda / rho) * zdivide (Y i k) (Real.sqrt (∑ k, Y i k ^ 2))

/-- `TVL1Denoise.uinit` (`admm/tvl1.py` 223-236) and `TVL1Deconv.uinit` (612-625): the gradient
components and the last component. -/
noncomputable def tvl1 (lmbda rho : ℝ) (Y0 : Option ((ι → κ → ℝ) × (ι → ℝ))) :
    (ι → κ → ℝ) × (ι → ℝ) :=
  (tvl2 lmbda rho (Y0.map (·.1)), fun i =>
    match Y0 with
    | none => 0
    | some Y => (1 / rho) * sgn (Y.2 i))

/-- `CnstrMOD.uinit` (`admm/cmod.py` 198-207, `admm/ccmod.py` 298-307). -/
def cmod (Y0 : Option (ι → κ → ℝ)) (i : ι) (k : κ) : ℝ :=
  match Y0 with
  | none => 0
  | some Y => Y i k

/-- `ConvCnstrMOD_Consensus.uinit` (`admm/ccmod.py` 739-749; inherited by
`ConvCnstrMODMaskDcpl_Consensus`): `np.repeat(Y[..., newaxis], Nb, axis=-1) / rho`. The last
argument is the block. -/
noncomputable def consensus {Nb : ℕ} (rho : ℝ) (Y0 : Option (ι → κ → ℝ)) (i : ι) (k : κ)
    (_ : Fin Nb) : ℝ :=
  match Y0 with
  | none => 0
  | some Y => Y i k / rho

/-- `ConvCnstrMODMaskDcplBase.uinit` (`admm/ccmodmd.py` 311-322): the two blocks. -/
noncomputable def ccmodMask {σ : Type*} (W : σ → ℝ) (rho : ℝ) (Y0 : Option ((σ → ℝ) × (ι → κ → ℝ))) :
    (σ → ℝ) × (ι → κ → ℝ) :=
  match Y0 with
  | none => (fun _ => 0, fun _ _ => 0)
  | some Y => (fun s => W s ^ 2 * Y.1 s / rho, Y.2)

/-- `BPDNProjL1.uinit` (`admm/bpdn.py` 881-891) and `ConvBPDNProjL1.uinit` (`admm/cbpdn.py`
1359-1369). -/
def projL1 (Y0 : Option (ι → ℝ)) (_ : ι) : ℝ :=
  match Y0 with
  | none => 0
  | some _ => 0

/-- A statement of a constructor: an assignment to an attribute, or the call that ends in
`ADMM.__init__`, which calls `uinit`. -/
inductive Stmt
  | set (name : String)
  | admmInit

/-- The attributes that `ADMM.__init__` itself sets before it calls `uinit` (`admm/admm.py`
231-268). -/
def admmSets : List String := ["opt", "Nx", "Nc", "dtype", "rho", "rho_tau", "rho_mu", "rho_xi",
  "rlx", "X", "Y", "Yprev"]

/-- Execution of a constructor with option `Y0` given and `U0` not; `none` is an `AttributeError`
in `uinit`, which reads the attributes `reads`. -/
def construct (reads : List String) : List Stmt → List String → Option (List String)
  | [], a => some a
  | .set x :: s, a => construct reads s (x :: a)
  | .admmInit :: s, a =>
    if reads.all fun r => (admmSets ++ a).contains r then construct reads s (admmSets ++ a)
    else none

/-- The solver classes whose `uinit` uses the initial `Y`. -/
inductive Cls
  | bpdn | robustPCA | tvl2 | tvl1 | cmod | spline | minL1InL2Ball | convBPDN | convMaskDcpl
  | convMinL1InL2Ball | ccmodConsensus | ccmodMaskDcpl

/-- The attributes read by `uinit` apart from `opt`, `dtype`, `Y`. -/
def Cls.reads : Cls → List String
  | .bpdn => ["lmbda", "rho"]                    -- `admm/bpdn.py` 443
  | .robustPCA => ["lmbda", "rho"]               -- `admm/rpca.py` 158
  | .tvl2 => ["S", "lmbda", "rho"]               -- `admm/tvl2.py` 232-233
  | .tvl1 => ["S", "lmbda", "rho"]               -- `admm/tvl1.py` 232-236
  | .cmod => []                                  -- `admm/cmod.py` 207
  | .spline => ["Wdf", "rho"]                    -- `admm/spline.py` 185
  | .minL1InL2Ball => ["rho", "S"]               -- `admm/bpdn.py` 1085-1086
  | .convBPDN => ["lmbda", "rho"]                -- `admm/cbpdn.py` 610
  | .convMaskDcpl => ["W", "rho", "lmbda"]       -- `admm/cbpdn.py` 2233-2234
  -- `admm/cbpdn.py` 2012-2014; `sl.atleast_nd` is not an attribute of the module `sporco.linalg`
  | .convMinL1InL2Ball => ["rho", "cri", "S", "sl.atleast_nd"]
  | .ccmodConsensus => ["Nb", "rho"]             -- `admm/ccmod.py` 748-749
  -- `admm/ccmodmd.py` 320-322; the blocks are separated by `blkaxis`, `blkidx`
  | .ccmodMaskDcpl => ["W", "rho", "blkaxis", "blkidx"]

/-- The assignments of the constructors around the call of the parent constructors, in order of
execution. -/
def Cls.stmts : Cls → List Stmt
  | .bpdn => [.set "lmbda", .set "wl1", .set "rho", .set "rho_xi", .admmInit, .set "S", .set "D"]
  | .robustPCA => [.set "lmbda", .set "rho", .admmInit, .set "S"]
  | .tvl2 => [.set "real_dtype", .set "S", .set "axes", .set "saxes", .set "lmbda", .set "rho",
      .admmInit, .set "Wdf", .set "Wdf2", .set "lcw", .set "Wtv", .set "Wtvna"]
  | .tvl1 => [.set "real_dtype", .set "S", .set "axes", .set "saxes", .set "lmbda", .set "rho",
      .admmInit, .set "Wdf", .set "lcw", .set "Wtv", .set "Wtvna"]
  | .cmod => [.admmInit, .set "S", .set "Pcn"]
  | .spline => [.set "axes", .set "lmbda", .set "rho", .admmInit, .set "S", .set "Wdf",
      .set "Alpha", .set "Gamma"]
  | .minL1InL2Ball => [.admmInit, .set "epsilon", .set "wl1", .set "S", .set "D"]
  | .convBPDN => [.set "real_dtype", .set "cri", .admmInit, .set "D", .set "S", .set "lmbda",
      .set "rho", .set "wl1"]
  | .convMaskDcpl => [.set "real_dtype", .set "cri", .set "y0swapaxes", .admmInit, .set "D",
      .set "S", .set "lmbda", .set "W", .set "wl1"]
  | .convMinL1InL2Ball => [.set "S", .set "real_dtype", .set "cri", .set "y0swapaxes", .admmInit,
      .set "D", .set "S", .set "wl1", .set "epsilon"]
  | .ccmodConsensus => [.set "cri", .set "Nb", .set "xshape", .set "yshape", .admmInit, .set "rho",
      .set "S", .set "Sf", .set "Pcn"]
  | .ccmodMaskDcpl => [.set "cri", .set "W", .set "blkaxis", .set "blkidx", .admmInit, .set "S",
      .set "Pcn"]

/-! ## Specification -/

/-- `v` is a subgradient of `g` at `y`. -/
def IsSubgrad (g : (ι → ℝ) → ℝ) (y v : ι → ℝ) : Prop := ∀ y', g y + ∑ i, v i * (y' i - y i) ≤ g y'

/-- The dual optimality condition (3.10) for the constraint `A x + B y = c` with `B = b I` and the
scaled dual variable `u`: `0 ∈ ∂g(y) + Bᵀ ρ u`. -/
def DualOpt (b : ℝ) (g : (ι → ℝ) → ℝ) (rho : ℝ) (y u : ι → ℝ) : Prop :=
  IsSubgrad g y fun i => -(b * (rho * u i))

/-- The weighted `ℓ₁` term. -/
noncomputable def l1 (lmbda : ℝ) (w y : ι → ℝ) : ℝ := lmbda * ∑ i, |w i * y i|

/-- The weighted TV term: the sum over pixels of the norms over the last axis. -/
noncomputable def tv (lmbda : ℝ) (w : ι → ℝ) (y : ι × κ → ℝ) : ℝ :=
  lmbda * ∑ i, w i * Real.sqrt (∑ k, y (i, k) ^ 2)

/-! ## Proofs -/

theorem sgn_mul_self (x : ℝ) : sgn x * x = |x| := by
  unfold sgn
  split_ifs with h1 h2
  · rw [abs_of_neg h1]; ring
  · rw [abs_of_pos h2]; ring
  · have : x = 0 := by linarith
    simp [this]

theorem sgn_mul_le (x y : ℝ) : sgn x * y ≤ |y| := by
  unfold sgn
  split_ifs
  · have := neg_abs_le y; linarith
  · have := le_abs_self y; linarith
  · have := abs_nonneg y; linarith

/-- **C42, no initial `Y`.** The variables are then zero, and the condition holds for every
nonnegative weight (here for the `ℓ₁` term; both signs of `B`). -/
theorem C42_default (b lmbda rho : ℝ) (hl : 0 ≤ lmbda) (w : ι → ℝ) :
    DualOpt b (l1 lmbda w) rho (fun _ => 0) (bpdn lmbda rho none) := by
  intro y'
  simp only [l1, bpdn, mul_zero, abs_zero, sum_const_zero, neg_zero, zero_mul, add_zero]
  exact mul_nonneg hl (sum_nonneg fun i _ => abs_nonneg _)

/-- **C42, BPDN and ElasticNet.** With the default weight one, the condition holds for every
initial `Y`. Missing from the property: other weights (`C42_bpdn_weights`). -/
theorem C42_bpdn_partial (lmbda rho : ℝ) (hl : 0 ≤ lmbda) (hr : 0 < rho) (Y : ι → ℝ) :
    DualOpt (-1) (l1 lmbda fun _ => 1) rho Y (bpdn lmbda rho (some Y)) := by
  intro y'
  simp only [l1, bpdn, one_mul]
  have h : ∀ i, -(-1 * (rho * (lmbda / rho * sgn (Y i)))) * (y' i - Y i) ≤
      lmbda * (|y' i| - |Y i|) := by
    intro i
    have h1 : -(-1 * (rho * (lmbda / rho * sgn (Y i)))) = lmbda * sgn (Y i) := by field_simp
    rw [h1, mul_assoc]
    refine mul_le_mul_of_nonneg_left ?_ hl
    rw [mul_sub, sgn_mul_self]
    linarith [sgn_mul_le (Y i) (y' i)]
  have := sum_le_sum fun i (_ : i ∈ univ) => h i
  rw [← mul_sum, sum_sub_distrib] at this
  linarith

/-- **C42, BPDN with weights.** For `λ > 0` and nonnegative weights the condition holds exactly if
the weight is one wherever the initial `Y` is not zero: with any other `L1Weight` it fails. -/
theorem C42_bpdn_weights_partial [DecidableEq ι] (lmbda rho : ℝ) (hl : 0 < lmbda) (hr : 0 < rho)
    (w : ι → ℝ) (hw : ∀ i, 0 ≤ w i) (Y : ι → ℝ) :
    DualOpt (-1) (l1 lmbda w) rho Y (bpdn lmbda rho (some Y)) ↔ ∀ i, Y i ≠ 0 → w i = 1 := by
  have h1 : ∀ i, -(-1 * (rho * (lmbda / rho * sgn (Y i)))) = lmbda * sgn (Y i) := fun i => by
    field_simp
  constructor
  · intro h i hi
    -- move coordinate `i` to `t * Y i`
    have key : ∀ t : ℝ, 0 ≤ t → (t - 1) ≤ w i * (t - 1) := by
      intro t ht
      have ht' := h (Function.update Y i (t * Y i))
      simp only [l1, bpdn, h1] at ht'
      have e1 : ∑ j, lmbda * sgn (Y j) * (Function.update Y i (t * Y i) j - Y j) =
          lmbda * ((t - 1) * |Y i|) := by
        rw [sum_eq_single i ?_ (by simp)]
        · rw [Function.update_self, ← sgn_mul_self]; ring
        · intro j _ hj
          rw [Function.update_of_ne hj]; ring
      have e2 : ∑ j, |w j * Function.update Y i (t * Y i) j| - ∑ j, |w j * Y j| =
          w i * (t - 1) * |Y i| := by
        rw [← sum_sub_distrib, sum_eq_single i ?_ (by simp)]
        · rw [Function.update_self, abs_mul, abs_mul, abs_mul, abs_of_nonneg (hw i),
            abs_of_nonneg ht]; ring
        · intro j _ hj
          rw [Function.update_of_ne hj]; ring
      rw [e1] at ht'
      have h3 : lmbda * ((t - 1) * |Y i|) ≤ lmbda * (w i * (t - 1) * |Y i|) := by
        rw [← e2]; linarith
      have h4 := le_of_mul_le_mul_left h3 hl
      exact le_of_mul_le_mul_right h4 (abs_pos.2 hi)
    have k0 := key 0 le_rfl
    have k2 := key 2 (by norm_num)
    linarith
  · intro h y'
    simp only [l1, bpdn, h1]
    have h2 : ∀ i, lmbda * sgn (Y i) * (y' i - Y i) ≤ lmbda * (|w i * y' i| - |w i * Y i|) := by
      intro i
      rw [mul_assoc]
      refine mul_le_mul_of_nonneg_left ?_ hl.le
      by_cases hi : Y i = 0
      · have : sgn (Y i) = 0 := by rw [hi]; simp [sgn]
        rw [this, hi, mul_zero, abs_zero, sub_zero, zero_mul, sub_zero]
        exact abs_nonneg _
      · rw [h i hi, one_mul, one_mul, mul_sub, sgn_mul_self]
        linarith [sgn_mul_le (Y i) (y' i)]
    have := sum_le_sum fun i (_ : i ∈ univ) => h2 i
    rw [← mul_sum, sum_sub_distrib] at this
    linarith

/-- **C42, refuted for weights** other than one, here a weight 2. -/
theorem C42_bpdn_weights_refuted (lmbda rho : ℝ) (hl : 0 < lmbda) (hr : 0 < rho) :
    ¬ DualOpt (-1) (l1 lmbda fun _ : Fin 1 => 2) rho (fun _ => 1)
      (bpdn lmbda rho (some fun _ => 1)) := by
  rw [C42_bpdn_weights_partial lmbda rho hl hr _ (fun _ => by norm_num)]
  intro h
  have := h 0 (by norm_num)
  norm_num at this

/-- **C42, refuted for joint sparsity**: `BPDNJoint` inherits this `uinit`, while its `g` has the
additional term `μ ‖·‖_{2,1}`. -/
theorem C42_joint_refuted (lmbda mu rho : ℝ) (hm : 0 < mu) (hr : 0 < rho) :
    ¬ DualOpt (-1) (fun y : Fin 1 → ℝ => l1 lmbda (fun _ => 1) y + mu * Real.sqrt (∑ i, y i ^ 2))
      rho (fun _ => 1) (bpdn lmbda rho (some fun _ => 1)) := by
  intro h
  have h0 := h fun _ => 0
  have h1 : -(-1 * (rho * (lmbda / rho * sgn 1))) = lmbda := by
    have : sgn 1 = 1 := by norm_num [sgn]
    rw [this]; field_simp
  simp only [l1, bpdn, h1] at h0
  norm_num at h0
  linarith

/-- **C42, RobustPCA.** Its constraint is `X + Y = S`, so `B = I`; for `λ > 0` the condition then
holds only for `Y = 0`: the sign of the initial `U` is wrong for every other initial `Y`. -/
theorem C42_rpca_refuted (lmbda rho : ℝ) (hl : 0 < lmbda) (hr : 0 < rho) (Y : ι → ℝ) :
    DualOpt 1 (l1 lmbda fun _ => 1) rho Y (bpdn lmbda rho (some Y)) ↔ Y = fun _ => 0 := by
  constructor
  · intro h
    have h0 := h fun _ => 0
    simp only [l1, bpdn, one_mul, abs_zero, sum_const_zero, mul_zero, zero_sub] at h0
    have e : ∀ i, -(rho * (lmbda / rho * sgn (Y i))) * -(Y i) = lmbda * |Y i| := fun i => by
      rw [← sgn_mul_self]; field_simp
    rw [sum_congr rfl fun i _ => e i, ← mul_sum] at h0
    have h2 : ∑ i, |Y i| ≤ 0 := by
      have : 0 ≤ ∑ i, |Y i| := sum_nonneg fun _ _ => abs_nonneg _
      nlinarith
    funext i
    have h3 := single_le_sum (f := fun i => |Y i|) (fun _ _ => abs_nonneg _) (mem_univ i)
    exact abs_eq_zero.1 (le_antisymm (h3.trans h2) (abs_nonneg _))
  · rintro rfl y'
    have hs : sgn 0 = 0 := by simp [sgn]
    simp only [l1, bpdn, hs, mul_zero, neg_zero, zero_mul, sum_const_zero, add_zero, abs_zero,
      one_mul]
    exact mul_nonneg hl.le (sum_nonneg fun i _ => abs_nonneg _)

/-- Subgradient of the Euclidean norm. -/
theorem norm_subgrad (y y' : κ → ℝ) :
    ∑ k, zdivide (y k) (Real.sqrt (∑ k, y k ^ 2)) * (y' k - y k) ≤
      Real.sqrt (∑ k, y' k ^ 2) - Real.sqrt (∑ k, y k ^ 2) := by
  set s := Real.sqrt (∑ k, y k ^ 2) with hs
  have hs0 : 0 ≤ s := Real.sqrt_nonneg _
  have hss : s ^ 2 = ∑ k, y k ^ 2 := Real.sq_sqrt (sum_nonneg fun _ _ => sq_nonneg _)
  have hp0 : 0 ≤ Real.sqrt (∑ k, y' k ^ 2) := Real.sqrt_nonneg _
  by_cases h : s = 0
  · simp only [zdivide, h, if_true, zero_mul, sum_const_zero, sub_zero]
    exact hp0
  have hcs : ∑ k, y k * y' k ≤ s * Real.sqrt (∑ k, y' k ^ 2) := by
    have h1 := sum_mul_sq_le_sq_mul_sq univ y y'
    rw [← hss, ← Real.sq_sqrt (sum_nonneg fun k (_ : k ∈ univ) => sq_nonneg (y' k)), ← mul_pow] at h1
    exact le_of_sq_le_sq h1 (mul_nonneg hs0 hp0)
  have e : ∑ k, zdivide (y k) s * (y' k - y k) = (∑ k, y k * y' k - s ^ 2) / s := by
    rw [hss, ← sum_sub_distrib, sum_div]
    refine sum_congr rfl fun k _ => ?_
    rw [zdivide, if_neg h]
    ring
  have hpos : 0 < s := lt_of_le_of_ne hs0 (Ne.symm h)
  rw [e, div_le_iff₀ hpos]
  nlinarith

/-- **C42, TVL2.** With weight one and no channel axis, the condition holds for every initial `Y`.
Missing from the property: other weights, and the joint penalty over channels (`caxis`). -/
theorem C42_tvl2_partial (lmbda rho : ℝ) (hl : 0 ≤ lmbda) (hr : 0 < rho) (Y : ι → κ → ℝ) :
    DualOpt (-1) (tv lmbda fun _ => 1) rho (fun p : ι × κ => Y p.1 p.2)
      fun p => tvl2 lmbda rho (some Y) p.1 p.2 := by
  intro y'
  simp only [tv, tvl2, one_mul]
  have h1 : ∀ i k, -(-1 * (rho * (lmbda / rho * zdivide (Y i k) (Real.sqrt (∑ k, Y i k ^ 2))))) =
      lmbda * zdivide (Y i k) (Real.sqrt (∑ k, Y i k ^ 2)) := fun i k => by field_simp
  simp only [h1, Fintype.sum_prod_type]
  have h2 : ∀ i, ∑ k, lmbda * zdivide (Y i k) (Real.sqrt (∑ k, Y i k ^ 2)) * (y' (i, k) - Y i k) ≤
      lmbda * (Real.sqrt (∑ k, y' (i, k) ^ 2) - Real.sqrt (∑ k, Y i k ^ 2)) := by
    intro i
    rw [sum_congr rfl fun k _ => mul_assoc lmbda _ _, ← mul_sum]
    exact mul_le_mul_of_nonneg_left (norm_subgrad (Y i) fun k => y' (i, k)) hl
  have := sum_le_sum fun i (_ : i ∈ univ) => h2 i
  rw [← mul_sum, sum_sub_distrib] at this
  linarith

/-- **C42, refuted for TV weights** other than one. -/
theorem C42_tvl2_weights_refuted (lmbda rho : ℝ) (hl : 0 < lmbda) (hr : 0 < rho) :
    ¬ DualOpt (-1) (tv lmbda fun _ : Fin 1 => 2) rho (fun _ : Fin 1 × Fin 1 => 1)
      fun p => tvl2 lmbda rho (some fun _ _ => 1) p.1 p.2 := by
  intro h
  have h0 := h fun _ => 0
  have h1 : -(-1 * (rho * (lmbda / rho * zdivide 1 1))) = lmbda := by
    have : zdivide 1 1 = 1 := by norm_num [zdivide]
    rw [this]; field_simp
  simp only [tv, tvl2, Fintype.sum_prod_type] at h0
  norm_num [h1] at h0
  rw [show zdivide 1 1 = 1 by norm_num [zdivide], mul_one] at h0
  have h2 : rho * (lmbda / rho) = lmbda := by field_simp
  rw [h2] at h0
  linarith

/-- **C42, refuted for a channel axis**: with `caxis` the regularisation term is the norm over
channels and gradient components, while `uinit` takes norms per channel. Two channels, one gradient
component. -/
theorem C42_tvl2_caxis_refuted (lmbda rho : ℝ) (hl : 0 < lmbda) (hr : 0 < rho) :
    ¬ DualOpt (-1) (fun y : Fin 2 × Fin 1 → ℝ => lmbda * Real.sqrt (∑ p, y p ^ 2)) rho (fun _ => 1)
      fun p => tvl2 lmbda rho (some fun (_ : Fin 2) (_ : Fin 1) => 1) p.1 p.2 := by
  intro h
  have h0 := h fun _ => 2
  have hz : zdivide 1 1 = 1 := by norm_num [zdivide]
  simp only [tvl2, Fintype.sum_prod_type] at h0
  norm_num [hz] at h0
  have h2 : rho * (lmbda / rho) = lmbda := by field_simp
  rw [h2] at h0
  have h3 : Real.sqrt 8 = 2 * Real.sqrt 2 := by
    rw [show (8 : ℝ) = 2 ^ 2 * 2 by norm_num, Real.sqrt_mul (by norm_num), Real.sqrt_sq (by norm_num)]
  have h4 : Real.sqrt 2 < 2 := by
    rw [Real.sqrt_lt' (by norm_num)]; norm_num
  rw [h3] at h0
  nlinarith

/-- **C42, TVL1.** With weights one and no channel axis, the condition holds for both blocks and
every initial `Y`. -/
theorem C42_tvl1_partial (lmbda rho : ℝ) (hl : 0 ≤ lmbda) (hr : 0 < rho) (Y : ι → κ → ℝ)
    (Y1 : ι → ℝ) :
    DualOpt (-1) (tv lmbda fun _ => 1) rho (fun p : ι × κ => Y p.1 p.2)
      (fun p => (tvl1 lmbda rho (some (Y, Y1))).1 p.1 p.2) ∧
    DualOpt (-1) (l1 1 fun _ => 1) rho Y1 (tvl1 lmbda rho (some (Y, Y1))).2 :=
  ⟨C42_tvl2_partial lmbda rho hl hr Y, C42_bpdn_partial 1 rho zero_le_one hr Y1⟩

/-- `v` is normal at `y` to the set of arrays whose columns (indexed by `κ`) have norm at most
one. -/
def IsNormal (y v : ι → κ → ℝ) : Prop :=
  (∀ k, ∑ i, y i k ^ 2 ≤ 1) ∧
    ∀ y' : ι → κ → ℝ, (∀ k, ∑ i, y' i k ^ 2 ≤ 1) → ∑ i, ∑ k, v i k * (y' i k - y i k) ≤ 0

/-- **C42, dictionary update.** If the initial dictionary is normalised, `ρ U` with `U = Y` is
normal to the constraint set. Missing from the property: initial dictionaries that are not
normalised (`C42_cmod_refuted`). -/
theorem C42_cmod_partial (rho : ℝ) (hr : 0 < rho) (Y : ι → κ → ℝ) (hY : ∀ k, ∑ i, Y i k ^ 2 = 1) :
    IsNormal Y fun i k => rho * cmod (some Y) i k := by
  refine ⟨fun k => (hY k).le, fun y' h' => ?_⟩
  simp only [cmod]
  rw [sum_comm]
  refine sum_nonpos fun k _ => ?_
  have h1 := sum_mul_sq_le_sq_mul_sq univ (fun i => Y i k) fun i => y' i k
  simp only [hY k, one_mul] at h1
  have h2 : ∑ i, Y i k * y' i k ≤ 1 := by
    refine le_of_sq_le_sq (h1.trans ((h' k).trans_eq (by norm_num))) zero_le_one
  have e : ∑ i, rho * Y i k * (y' i k - Y i k) = rho * (∑ i, Y i k * y' i k - ∑ i, Y i k ^ 2) := by
    rw [← sum_sub_distrib, mul_sum]
    exact sum_congr rfl fun i _ => by ring
  rw [e, hY k]
  nlinarith

/-- **C42, refuted for dictionaries that are not normalised**, here one with an atom of norm
one half. -/
theorem C42_cmod_refuted (rho : ℝ) (hr : 0 < rho) :
    ¬ IsNormal (fun (_ _ : Fin 1) => (1 / 2 : ℝ))
      fun i k => rho * cmod (some fun (_ _ : Fin 1) => (1 / 2 : ℝ)) i k := by
  rintro ⟨-, h⟩
  have h0 := h (fun _ _ => 1) (by simp)
  simp only [cmod] at h0
  norm_num at h0
  linarith

/-- The condition for a positive multiple of the initial dictionary holds exactly if the norm of
every column is one or zero. -/
theorem normal_iff (c : ℝ) (hc : 0 < c) (Y : ι → κ → ℝ) :
    IsNormal Y (fun i k => c * Y i k) ↔ ∀ k, ∑ i, Y i k ^ 2 = 1 ∨ ∀ i, Y i k = 0 := by
  classical
  constructor
  · rintro ⟨h1, h2⟩ k
    by_contra hn
    rw [not_or] at hn
    obtain ⟨hn1, hn2⟩ := hn
    have hlt : ∑ i, Y i k ^ 2 < 1 := lt_of_le_of_ne (h1 k) hn1
    have hpos : 0 < ∑ i, Y i k ^ 2 := by
      refine lt_of_le_of_ne (sum_nonneg fun i _ => sq_nonneg _) fun h0 => hn2 fun i => ?_
      have := (sum_eq_zero_iff_of_nonneg (fun i _ => sq_nonneg (Y i k))).1 h0.symm i (mem_univ i)
      exact pow_eq_zero_iff (two_ne_zero) |>.1 this
    set s := ∑ i, Y i k ^ 2 with hs
    have hq : 0 < Real.sqrt s := Real.sqrt_pos.2 hpos
    have hq1 : Real.sqrt s < 1 := by
      rw [Real.sqrt_lt' one_pos]; simpa using hlt
    have hqs : Real.sqrt s ^ 2 = s := Real.sq_sqrt hpos.le
    have h := h2 (fun i l => if l = k then Y i l / Real.sqrt s else Y i l) (by
      intro l
      by_cases hl : l = k
      · subst hl
        simp only [if_true, div_pow, ← sum_div, hqs, ← hs]
        rw [div_self hpos.ne']
      · simp only [if_neg hl]; exact h1 l)
    have e : ∑ i, ∑ l, c * Y i l * ((if l = k then Y i l / Real.sqrt s else Y i l) - Y i l) =
        c * ((1 / Real.sqrt s - 1) * s) := by
      rw [hs, mul_sum, mul_sum]
      refine sum_congr rfl fun i _ => ?_
      rw [sum_eq_single k ?_ (by simp)]
      · rw [if_pos rfl]; ring
      · intro l _ hl; rw [if_neg hl]; ring
    rw [e] at h
    have : 0 < 1 / Real.sqrt s - 1 := by
      rw [sub_pos, lt_div_iff₀ hq]; linarith
    have := mul_pos hc (mul_pos this hpos)
    linarith
  · intro hY
    refine ⟨fun k => ?_, fun y' h' => ?_⟩
    · rcases hY k with h | h
      · exact h.le
      · simp [h]
    rw [sum_comm]
    refine sum_nonpos fun k _ => ?_
    rcases hY k with h | h
    · have h1 := sum_mul_sq_le_sq_mul_sq univ (fun i => Y i k) fun i => y' i k
      simp only [h, one_mul] at h1
      have h2 : ∑ i, Y i k * y' i k ≤ 1 := by
        refine le_of_sq_le_sq (h1.trans ((h' k).trans_eq (by norm_num))) zero_le_one
      have e : ∑ i, c * Y i k * (y' i k - Y i k) = c * (∑ i, Y i k * y' i k - ∑ i, Y i k ^ 2) := by
        rw [← sum_sub_distrib, mul_sum]
        exact sum_congr rfl fun i _ => by ring
      rw [e, h]
      exact mul_nonpos_of_nonneg_of_nonpos hc.le (by linarith)
    · exact le_of_eq (sum_eq_zero fun i _ => by simp [h i])

/-- **C42, dictionary update.** The condition holds exactly if every filter of the initial
dictionary has norm one or zero. -/
theorem C42_cmod_iff_partial (rho : ℝ) (hr : 0 < rho) (Y : ι → κ → ℝ) :
    IsNormal Y (fun i k => rho * cmod (some Y) i k) ↔
      ∀ k, ∑ i, Y i k ^ 2 = 1 ∨ ∀ i, Y i k = 0 := normal_iff rho hr Y

/-- **C42, consensus dictionary updates.** For the constraint `xₖ = y` for all blocks the condition
is that `Σₖ ρ uₖ` is normal to the constraint set at `y`; for one or more blocks it holds exactly
if every filter of the initial dictionary has norm one or zero. (The second auxiliary variable of
the masked class and its dual are zero initially, where the gradient of `½‖W y‖²` is zero.) Missing
from the property: dictionaries that are not normalised. -/
theorem C42_consensus_partial {Nb : ℕ} (hN : 0 < Nb) (rho : ℝ) (hr : 0 < rho) (Y : ι → κ → ℝ) :
    IsNormal Y (fun i k => ∑ b : Fin Nb, rho * consensus rho (some Y) i k b) ↔
      ∀ k, ∑ i, Y i k ^ 2 = 1 ∨ ∀ i, Y i k = 0 := by
  have e : (fun i k => ∑ b : Fin Nb, rho * consensus rho (some Y) i k b) =
      fun i k => (Nb : ℝ) * Y i k := by
    funext i k
    simp only [consensus, sum_const, card_univ, Fintype.card_fin, nsmul_eq_mul]
    field_simp
  rw [e]
  exact normal_iff _ (by exact_mod_cast hN) Y

/-- **C42, masked dictionary update.** The condition of the data fidelity block holds for every
initial `Y`, and that of the dictionary block exactly if every filter of the initial dictionary has
norm one or zero. Missing from the property: dictionaries that are not normalised. -/
theorem C42_ccmodMask_partial {σ : Type*} [Fintype σ] (W : σ → ℝ) (rho : ℝ) (hr : 0 < rho)
    (Y : (σ → ℝ) × (ι → κ → ℝ)) :
    DualOpt (-1) (fun y => 1 / 2 * ∑ s, (W s * y s) ^ 2) rho Y.1 (ccmodMask W rho (some Y)).1 ∧
    (IsNormal Y.2 (fun i k => rho * (ccmodMask W rho (some Y)).2 i k) ↔
      ∀ k, ∑ i, Y.2 i k ^ 2 = 1 ∨ ∀ i, Y.2 i k = 0) := by
  refine ⟨fun y' => ?_, normal_iff rho hr Y.2⟩
  simp only [ccmodMask]
  have h : ∀ s, -(-1 * (rho * (W s ^ 2 * Y.1 s / rho))) * (y' s - Y.1 s) ≤
      1 / 2 * (W s * y' s) ^ 2 - 1 / 2 * (W s * Y.1 s) ^ 2 := by
    intro s
    have h1 : -(-1 * (rho * (W s ^ 2 * Y.1 s / rho))) = W s ^ 2 * Y.1 s := by field_simp
    rw [h1]
    nlinarith [sq_nonneg (W s * y' s - W s * Y.1 s)]
  have := sum_le_sum fun s (_ : s ∈ univ) => h s
  rw [sum_sub_distrib, ← mul_sum, ← mul_sum] at this
  linarith

/-- `v` is normal at `y` to the `ℓ₁` ball of radius `gamma`. -/
def IsNormalL1 (gamma : ℝ) (y v : ι → ℝ) : Prop :=
  ∑ i, |y i| ≤ gamma ∧ ∀ y' : ι → ℝ, ∑ i, |y' i| ≤ gamma → ∑ i, v i * (y' i - y i) ≤ 0

/-- **C42, projection onto the `ℓ₁` ball.** The initial dual variable is zero, and the condition
holds exactly if the initial `Y` is in the ball. Missing from the property: other initial `Y`, for
which it fails. -/
theorem C42_projL1_partial (gamma rho : ℝ) (Y : ι → ℝ) :
    IsNormalL1 gamma Y (fun i => rho * projL1 (some Y) i) ↔ ∑ i, |Y i| ≤ gamma :=
  ⟨fun h => h.1, fun h => ⟨h, fun y' _ => by simp [projL1]⟩⟩

/-- Dictionaries of the three kinds: normalised with a zero filter, for which the conditions hold,
and not normalised, for which they do not. -/
example : (∀ k : Fin 2, ∑ i : Fin 2, (if i = 0 ∧ k = 0 then (1 : ℝ) else 0) ^ 2 = 1 ∨
      ∀ i : Fin 2, (if i = 0 ∧ k = 0 then (1 : ℝ) else 0) = 0) ∧
    ¬ ∀ k : Fin 2, ∑ i : Fin 2, (if i = k then (1 / 2 : ℝ) else 0) ^ 2 = 1 ∨
      ∀ i : Fin 2, (if i = k then (1 / 2 : ℝ) else 0) = 0 := by
  refine ⟨fun k => ?_, fun h => ?_⟩
  · fin_cases k <;> simp
  · have := h 0
    simp at this
    norm_num at this

/-- **C42, construction.** Given an initial `Y` and no initial `U`, the attributes read by `uinit`
exist for BPDN, RobustPCA, the TV solvers, CMOD and the consensus and masked dictionary updates, and do not exist, so that construction raises
`AttributeError`, for SplineL1, MinL1InL2Ball, ConvBPDN, ConvBPDNMaskDcpl and
ConvMinL1InL2Ball. -/
theorem C42_construct_refuted (c : Cls) : construct c.reads c.stmts [] = none ↔
    c = .spline ∨ c = .minL1InL2Ball ∨ c = .convBPDN ∨ c = .convMaskDcpl ∨
      c = .convMinL1InL2Ball := by
  cases c <;> simp [construct, Cls.reads, Cls.stmts, admmSets]

end Sporco.Admm.Uinit
