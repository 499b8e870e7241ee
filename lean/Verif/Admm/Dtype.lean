import Verif.Admm.BpdnConv
import Mathlib.Analysis.Matrix.LDL
import Mathlib.LinearAlgebra.Matrix.Block

/-!
# Data types of the arrays of a solver (C86)

The working data type of a solver is the `DataType` option or else the data type of the signal
(`common.py` `set_dtype`).  Dictionary, signal, weights, parameters, the Cholesky factor and the results of the X
and Y updates are converted to it.  Floating point types are idealised as before (conversion between them is
the identity on real numbers); conversion to a signed integer type drops the fraction.  Integer overflow, unsigned
types and complex types are not modelled.
-/

set_option autoImplicit false

namespace Sporco.Admm.Dtype

open Matrix Sporco.Linalg Sporco.Prox Sporco.Admm.Bpdn

variable {N M K : ℕ}

/-- Kind of a real data type: `dtype.kind` `'f'` or `'i'`. -/
inductive DT
  | float
  | int
  deriving DecidableEq

/-- The fraction of a number is dropped (C conversion of a floating point number to an integer). -/
noncomputable def trunc (x : ℝ) : ℝ := if 0 ≤ x then (⌊x⌋ : ℝ) else (⌈x⌉ : ℝ)

/-- `dtype.type(v)`, `np.asarray(v, dtype)`, `v.astype(dtype)` on one entry. -/
noncomputable def cast : DT → ℝ → ℝ
  | .float, x => x
  | .int, x => trunc x

/-- Conversion of a matrix. -/
noncomputable def castM {m n : ℕ} (t : DT) (A : Matrix (Fin m) (Fin n) ℝ) : Matrix (Fin m) (Fin n) ℝ :=
  A.map (cast t)

/-- Conversion of a coefficient array. -/
noncomputable def castA (t : DT) (x : Arr M K) : Arr M K := WithLp.toLp 2 fun i => cast t (x i)

/-- `IterativeSolver.set_dtype` (`common.py` 146-173) for an object without `dtype` attribute: the option wins. -/
def setDtype (opt : Option DT) (sig : DT) : DT := opt.getD sig

/-- `set_attr(name, val, dval, dtype)` (`common.py` 177-225) for an attribute that does not exist: the value or the
default, converted. -/
noncomputable def setAttr (t : DT) (val : Option ℝ) (dval : ℝ) : ℝ := cast t (val.getD dval)

/-- Contract of `scipy.linalg.cho_factor`: the triangular factor with positive diagonal. -/
structure Chol where
  fac : ∀ {n : ℕ}, Matrix (Fin n) (Fin n) ℝ → Matrix (Fin n) (Fin n) ℝ
  upper : ∀ {n : ℕ} (G : Matrix (Fin n) (Fin n) ℝ), G.PosDef → ∀ i j, j < i → fac G i j = 0
  diag : ∀ {n : ℕ} (G : Matrix (Fin n) (Fin n) ℝ), G.PosDef → ∀ i, 0 < fac G i i
  mul : ∀ {n : ℕ} (G : Matrix (Fin n) (Fin n) ℝ), G.PosDef → (fac G)ᵀ * fac G = G

/-- `self.lu = np.asarray(self.lu, dtype=self.dtype)` (`bpdn.py` 181, 265): the factor is converted; the
result stands for the product of the converted factors (`scipy.linalg.cho_solve`). -/
noncomputable def castFac (c : Chol) : DT → Fac N M → Fac N M
  | .float, F => F
  | .int, .tall G => .tall ((castM .int (c.fac G))ᵀ * castM .int (c.fac G))
  | .int, .wide G => .wide ((castM .int (c.fac G))ᵀ * castM .int (c.fac G))

/-- `GenericBPDN.setdict` (`bpdn.py` 174-181) with its conversions; `S` has been converted (169). -/
noncomputable def setdictT (c : Chol) (t : DT) (S : Matrix (Fin N) (Fin K) ℝ) (rho : ℝ)
    (D : Matrix (Fin N) (Fin M) ℝ) : Attr N M K :=
  { setdict S rho (castM t D) with lu := castFac c t (choFactor (castM t D) rho) }

/-- `GenericBPDN.rhochange` (`bpdn.py` 261-265) with its conversion. -/
noncomputable def rhochangeT (c : Chol) (t : DT) (rho : ℝ) (h : Attr N M K) : Attr N M K :=
  { h with lu := castFac c t (choFactor h.D rho) }

/-- `GenericBPDN.xstep` (`bpdn.py` 192-199) with its conversion. -/
noncomputable def xstepT (t : DT) (rho : ℝ) (X Y U : Arr M K) (h : Attr N M K) : Arr M K × Attr N M K :=
  (castA t (xstep rho X Y U h).1, h)

/-- `BPDN.ystep` (`bpdn.py` 447-454) with its conversion; negative entries are cleared afterwards (454, 219-220). -/
noncomputable def ystepT (t : DT) (nonNeg : Bool) (lmbda : ℝ) (wl1 : Fin M × Fin K → ℝ) (rho : ℝ)
    (AX _X _Y U : Arr M K) (h : Attr N M K) : Arr M K × Attr N M K :=
  (WithLp.toLp 2 (gystep nonNeg fun i => cast t (proxL1Arr (AX + U).ofLp (fun i => lmbda / rho * wl1 i) i)), h)

/-- Class `BPDN` (`bpdn.py` 271-464) working in data type `t`; the arguments have been converted. -/
noncomputable def clsBPDNT (c : Chol) (t : DT) (S : Matrix (Fin N) (Fin K) ℝ) (lmbda : ℝ) (wl1 : Fin M × Fin K → ℝ)
    (nonNeg fEvalX gEvalY : Bool) : Cls (Arr M K) (Arr M K) (Arr M K) (Attr N M K) :=
  Cls.equal (xstepT t) (ystepT t nonNeg lmbda wl1) (rhochangeT c t) fun X Y h =>
    let f := dfd h S (fvar fEvalX X Y)
    let r := regBPDN lmbda wl1 (gvar gEvalY X Y)
    (f + r, f, r)

/-- What the user passes to `BPDN(D, S, lmbda, opt)`: arrays, the data type of the signal and options.  `opts` holds
the remaining options with the values of the user (or the defaults). -/
structure Args (N M K : ℕ) where
  D : Matrix (Fin N) (Fin M) ℝ
  S : Matrix (Fin N) (Fin K) ℝ
  sig : DT
  lmbda : ℝ
  dataType : Option DT
  rho : Option ℝ
  L1Weight : Fin M × Fin K → ℝ
  nonNeg : Bool
  fEvalX : Bool
  gEvalY : Bool
  opts : Opts

/-- The data type `BPDN.__init__` chooses (`bpdn.py` 407). -/
def Args.dt (a : Args N M K) : DT := setDtype a.dataType a.sig

/-- `self.lmbda` (`bpdn.py` 415). -/
noncomputable def Args.lmbdaT (a : Args N M K) : ℝ := cast a.dt a.lmbda

/-- `self.rho` (`bpdn.py` 419-420). -/
noncomputable def Args.rhoT (a : Args N M K) : ℝ := setAttr a.dt a.rho (50 * a.lmbdaT + 1)

/-- The parameters `ADMM.__init__` converts (`admm.py` 246-254, `bpdn.py` 427-428). -/
noncomputable def Args.optsT (a : Args N M K) : Opts :=
  { a.opts with
    tau := cast a.dt a.opts.tau, mu := cast a.dt a.opts.mu, xi := cast a.dt a.opts.xi, rlx := cast a.dt a.opts.rlx }

/-- The class of the constructed object. -/
noncomputable def Args.cls (c : Chol) (a : Args N M K) : Cls (Arr M K) (Arr M K) (Arr M K) (Attr N M K) :=
  clsBPDNT c a.dt (castM a.dt a.S) a.lmbdaT (fun i => cast a.dt (a.L1Weight i)) a.nonNeg a.fEvalX a.gEvalY

/-- The state `BPDN.__init__` leaves (`bpdn.py` 403-431, 161-170; `admm.py` 257-275), without `Y0` and `U0`. -/
noncomputable def Args.init (c : Chol) (a : Args N M K) : St (Arr M K) (Arr M K) (Arr M K) (Attr N M K) where
  X := 0
  Y := 0
  Yprev := 0
  U := 0
  AX := 0
  AXnr := 0
  rho := a.rhoT
  k := 0
  itstat := []
  extra := setdictT c a.dt (castM a.dt a.S) a.rhoT a.D

/-! ## Conversions -/

theorem trunc_zero : trunc 0 = 0 := by simp [trunc]

theorem cast_zero (t : DT) : cast t 0 = 0 := by cases t; exacts [rfl, trunc_zero]

theorem trunc_int (n : ℤ) : trunc n = n := by
  unfold trunc
  split_ifs <;> simp

theorem trunc_small {x : ℝ} (h : |x| < 1) : trunc x = 0 := by
  obtain ⟨h1, h2⟩ := abs_lt.1 h
  unfold trunc
  split_ifs with h0
  · rw [Int.floor_eq_zero_iff.2 ⟨h0, h2⟩]; simp
  · push Not at h0
    rw [Int.ceil_eq_zero_iff.2 ⟨h1, h0.le⟩]; simp

/-- A number of the type: any real number, or an integer. -/
def InType : DT → ℝ → Prop
  | .float, _ => True
  | .int, x => ∃ n : ℤ, x = n

theorem cast_inType (t : DT) (x : ℝ) : InType t (cast t x) := by
  cases t
  · trivial
  · change ∃ n : ℤ, trunc x = n
    unfold trunc
    split_ifs
    · exact ⟨_, rfl⟩
    · exact ⟨_, rfl⟩

theorem cast_of_inType {t : DT} {x : ℝ} (h : InType t x) : cast t x = x := by
  cases t
  · rfl
  · obtain ⟨n, rfl⟩ := h
    exact trunc_int n

theorem castA_zero (t : DT) : castA t (0 : Arr M K) = 0 := by
  ext i
  exact cast_zero t

theorem castM_zero {m n : ℕ} (t : DT) : castM t (0 : Matrix (Fin m) (Fin n) ℝ) = 0 := by
  ext i j
  exact cast_zero t

theorem castM_small {m n : ℕ} (A : Matrix (Fin m) (Fin n) ℝ) (h : ∀ i j, |A i j| < 1) : castM .int A = 0 := by
  ext i j
  exact trunc_small (h i j)

theorem castM_float {m n : ℕ} (A : Matrix (Fin m) (Fin n) ℝ) : castM .float A = A := rfl

/-! ## Floating point types -/

/-- With a floating point type the constructed object is the one the other theorems are about. -/
theorem float_cls (c : Chol) (a : Args N M K) (h : a.dt = .float) :
    a.cls c = clsBPDN a.S a.lmbda a.L1Weight a.nonNeg a.fEvalX a.gEvalY ∧ a.optsT = a.opts ∧
    (a.init c).extra = setdict a.S (a.init c).rho a.D ∧ (a.init c).rho = a.rho.getD (50 * a.lmbda + 1) := by
  unfold Args.cls Args.optsT Args.init Args.rhoT Args.lmbdaT setAttr
  rw [h]
  refine ⟨?_, rfl, rfl, rfl⟩
  rfl

open Filter Topology in
/-- **C86.** With a signal of a floating point type, or a floating point `DataType`, whatever the type of the other
arrays, a `BPDN` object solves the problem of the given dictionary, signal, parameter and weights: the functional at
its solution array tends to the minimum. -/
theorem C86_bpdn_float (c : Chol) (a : Args N M K) (h : a.dataType = some .float ∨ (a.dataType = none ∧ a.sig = .float))
    (hl : 0 < a.lmbda) (hw : ∀ i, 0 < a.L1Weight i) (hr : ∀ r, a.rho = some r → 0 < r)
    (ha : a.opts.autoRho = false) (hrlx : 0 < a.opts.rlx ∧ a.opts.rlx < 2) :
    ∃ Xopt : Matrix (Fin M) (Fin K) ℝ, IsMin (objBPDN a.D a.S a.lmbda a.L1Weight) (allowed a.nonNeg) Xopt ∧
      Tendsto (fun n => objBPDN a.D a.S a.lmbda a.L1Weight (mat (traj (a.cls c) a.optsT none (a.init c) n).Y))
        atTop (𝓝 (objBPDN a.D a.S a.lmbda a.L1Weight Xopt)) := by
  have ht : a.dt = .float := by
    unfold Args.dt setDtype
    rcases h with h | ⟨h, h'⟩
    · rw [h]; rfl
    · rw [h]; exact h'
  obtain ⟨h1, h2, h3, h4⟩ := float_cls c a ht
  have hp : 0 < (a.init c).rho := by
    rw [h4]
    cases e : a.rho with
    | none => change 0 < 50 * a.lmbda + 1; linarith
    | some r => exact hr r e
  obtain ⟨X, hX, hc, -⟩ := C39_bpdn a.D a.S a.lmbda hl a.L1Weight hw a.nonNeg a.fEvalX a.gEvalY a.opts ha hrlx none
    (fun _ _ hf => by cases hf) (a.init c) hp h3
  rw [h1, h2]
  exact ⟨X, hX, hc⟩

/-! ## The Cholesky factor -/

theorem chol_exists {n : ℕ} (G : Matrix (Fin n) (Fin n) ℝ) (h : G.PosDef) :
    ∃ R : Matrix (Fin n) (Fin n) ℝ, (∀ i j, j < i → R i j = 0) ∧ (∀ i, 0 < R i i) ∧ Rᵀ * R = G := by
  set L := LDL.lower h with hL
  have hinv : IsUnit (LDL.lowerInv h) := isUnit_of_invertible _
  have hT : (LDL.lowerInv h).BlockTriangular OrderDual.toDual := fun i j hij => LDL.lowerInv_triangular h hij
  have hLT : L.BlockTriangular OrderDual.toDual := by
    have := LDL.invertibleLowerInv h
    exact Matrix.blockTriangular_inv_of_blockTriangular hT
  have hdet : L.det ≠ 0 := by
    have : IsUnit L.det := (Matrix.isUnit_iff_isUnit_det _).1 (by
      rw [hL]; unfold LDL.lower; exact (Matrix.isUnit_nonsing_inv_iff).2 hinv)
    exact this.ne_zero
  have hdiag : ∀ i, L i i ≠ 0 := by
    rw [Matrix.det_of_isLowerTriangular _ hLT] at hdet
    intro i
    exact (Finset.prod_ne_zero_iff.1 hdet) i (Finset.mem_univ i)
  have hG : L * LDL.diag h * Lᵀ = G := by
    have := LDL.lower_conj_diag h
    rwa [conjTranspose_eq_transpose_of_trivial] at this
  have hd : ∀ i, 0 < LDL.diagEntries h i := by
    have hpd : (LDL.diag h).PosDef := by
      rw [LDL.diag_eq_lowerInv_conj]
      exact (IsUnit.posDef_star_right_conjugate_iff hinv).2 h
    exact fun i => (Matrix.posDef_diagonal_iff.1 hpd) i
  let σ : Fin n → ℝ := fun i => SignType.sign (L i i)
  have hσ : ∀ i, σ i * L i i = |L i i| := fun i => sign_mul_self _
  have hσ2 : ∀ i, σ i * σ i = 1 := by
    intro i
    rcases lt_or_gt_of_ne (hdiag i) with h' | h' <;> simp [σ, h']
  refine ⟨Matrix.of fun i j => σ i * Real.sqrt (LDL.diagEntries h i) * L j i, fun i j hij => ?_, fun i => ?_, ?_⟩
  · change _ * L j i = 0
    rw [hLT (show OrderDual.toDual i < OrderDual.toDual j from hij), mul_zero]
  · change 0 < σ i * Real.sqrt (LDL.diagEntries h i) * L i i
    rw [mul_right_comm, hσ]
    exact mul_pos (abs_pos.2 (hdiag i)) (Real.sqrt_pos.2 (hd i))
  · refine Eq.trans ?_ hG
    ext i j
    rw [mul_apply, mul_apply]
    refine Finset.sum_congr rfl fun k _ => ?_
    rw [LDL.diag, mul_diagonal]
    change σ k * Real.sqrt (LDL.diagEntries h k) * L i k * (σ k * Real.sqrt (LDL.diagEntries h k) * L j k) =
      L i k * LDL.diagEntries h k * L j k
    have e := Real.mul_self_sqrt (hd k).le
    calc _ = (σ k * σ k) * (Real.sqrt (LDL.diagEntries h k) * Real.sqrt (LDL.diagEntries h k)) * L i k * L j k := by ring
      _ = _ := by rw [hσ2, e]; ring

/-- The contract can be met. -/
theorem chol_satisfiable : Nonempty Chol := by
  classical
  refine ⟨⟨fun {n} G => if h : G.PosDef then (chol_exists G h).choose else 0, ?_, ?_, ?_⟩⟩
  · intro n G h i j hij
    simp only [dif_pos h]
    exact (chol_exists G h).choose_spec.1 i j hij
  · intro n G h i
    simp only [dif_pos h]
    exact (chol_exists G h).choose_spec.2.1 i
  · intro n G h
    simp only [dif_pos h]
    exact (chol_exists G h).choose_spec.2.2

/-- The factor of a multiple of the identity. -/
theorem chol_smul_one (c : Chol) {n : ℕ} {rho : ℝ} (hr : 0 < rho) :
    c.fac (rho • (1 : Matrix (Fin n) (Fin n) ℝ)) = Real.sqrt rho • (1 : Matrix (Fin n) (Fin n) ℝ) := by
  have hp : (rho • (1 : Matrix (Fin n) (Fin n) ℝ)).PosDef := by
    rw [smul_one_eq_diagonal]
    exact Matrix.posDef_diagonal_iff.2 fun _ => hr
  set R := c.fac (rho • (1 : Matrix (Fin n) (Fin n) ℝ)) with hR
  have h1 : ∀ i j, j < i → R i j = 0 := c.upper _ hp
  have h2 := c.diag _ hp
  have h3 : Rᵀ * R = rho • 1 := c.mul _ hp
  have hinv : R⁻¹ = rho⁻¹ • Rᵀ := by
    refine Matrix.inv_eq_left_inv ?_
    rw [smul_mul, h3, smul_smul, inv_mul_cancel₀ hr.ne', one_smul]
  have hRi : Invertible R := by
    refine invertibleOfLeftInverse R (rho⁻¹ • Rᵀ) ?_
    rw [smul_mul, h3, smul_smul, inv_mul_cancel₀ hr.ne', one_smul]
  have hbt : R.BlockTriangular id := fun i j hij => h1 i j hij
  have hbi := Matrix.blockTriangular_inv_of_blockTriangular hbt
  rw [hinv] at hbi
  have h4 : ∀ i j, i < j → R i j = 0 := by
    intro i j hij
    have : (rho⁻¹ • Rᵀ) j i = 0 := hbi hij
    have h5 : rho⁻¹ * R i j = 0 := this
    exact (mul_eq_zero.1 h5).resolve_left (inv_ne_zero hr.ne')
  ext i j
  rcases lt_trichotomy i j with h | h | h
  · rw [h4 i j h]; simp [h.ne]
  · subst h
    have h5 : (Rᵀ * R) i i = rho := by rw [h3]; simp
    rw [mul_apply, Finset.sum_eq_single i] at h5
    · have h6 : R i i * R i i = rho := h5
      have : R i i = Real.sqrt rho := by
        rw [← h6, Real.sqrt_mul_self (h2 i).le]
      rw [this]; simp
    · intro b _ hb
      rcases lt_or_gt_of_ne hb with hlt | hgt
      · change R b i * R b i = 0
        rw [h4 b i hlt, zero_mul]
      · change R b i * R b i = 0
        rw [h1 b i hgt, zero_mul]
    · intro hi; exact absurd (Finset.mem_univ i) hi
  · rw [h1 i j h]; simp [h.ne']

/-- The converted factor of a multiple of the identity by a number at least one still is invertible, so that the
solve with it is the exact one. -/
theorem castFac_invertible (c : Chol) {n : ℕ} {rho : ℝ} (hr : 1 ≤ rho) :
    IsUnit ((castM .int (c.fac (rho • (1 : Matrix (Fin n) (Fin n) ℝ))))ᵀ *
      castM .int (c.fac (rho • (1 : Matrix (Fin n) (Fin n) ℝ)))).det := by
  rw [chol_smul_one c (by linarith)]
  have h1 : 1 ≤ Real.sqrt rho := Real.one_le_sqrt.2 hr
  have h2 : (1 : ℝ) ≤ trunc (Real.sqrt rho) := by
    unfold trunc
    rw [if_pos (by linarith)]
    exact_mod_cast Int.le_floor.2 (by simpa using h1)
  have h3 : castM .int (Real.sqrt rho • (1 : Matrix (Fin n) (Fin n) ℝ)) = trunc (Real.sqrt rho) • 1 := by
    ext i j
    change trunc ((Real.sqrt rho • (1 : Matrix (Fin n) (Fin n) ℝ)) i j) = _
    by_cases h : i = j
    · subst h; simp
    · simp [h, trunc_zero]
  rw [h3, isUnit_iff_ne_zero]
  simp
  intro h
  linarith

/-- The factorised matrix is invertible. -/
def Regular : Fac N M → Prop
  | .tall G => IsUnit G.det
  | .wide G => IsUnit G.det

/-! ## Integer types -/

/-- Everything is zero. -/
structure Zero (s : St (Arr M K) (Arr M K) (Arr M K) (Attr N M K)) : Prop where
  Y : s.Y = 0
  U : s.U = 0
  D : s.extra.D = 0
  DTS : s.extra.DTS = 0

theorem xstepT_zero (t : DT) (rho : ℝ) (X : Arr M K) (h : Attr N M K) (hD : h.D = 0) (hS : h.DTS = 0) :
    (xstepT t rho X 0 0 h).1 = 0 := by
  have e : (xstep rho X 0 0 h).1 = 0 := by
    unfold xstep
    have h0 : mat (0 : Arr M K) = 0 := rfl
    rw [hS, h0, sub_self, smul_zero, add_zero]
    have : choSolveWith h.D rho (0 : Matrix (Fin M) (Fin K) ℝ) h.lu = 0 := by
      cases h.lu
      · change _ * _ = _
        rw [Matrix.mul_zero]
      · change (1 / rho) • (0 - h.Dᵀ * facSolve _ (h.D * 0)) = 0
        rw [hD]
        simp
    rw [this]
    rfl
  unfold xstepT
  rw [e]
  exact castA_zero t

theorem ystepT_zero (t : DT) (nonNeg : Bool) (lmbda : ℝ) (w : Fin M × Fin K → ℝ) (rho : ℝ) (X Y : Arr M K)
    (h : Attr N M K) : (ystepT t nonNeg lmbda w rho 0 X Y 0 h).1 = 0 := by
  ext i
  have e : (fun i => cast t (proxL1Arr ((0 : Arr M K) + 0).ofLp (fun i => lmbda / rho * w i) i)) = fun _ => 0 := by
    funext i
    have : proxL1Arr ((0 : Arr M K) + 0).ofLp (fun i => lmbda / rho * w i) i = 0 := by
      simp [proxL1Arr, proxL1, npSign]
    rw [this, cast_zero]
  unfold ystepT
  rw [e]
  unfold gystep
  cases nonNeg
  · rfl
  · change clip (fun _ : Fin M × Fin K => (0 : ℝ)) i = 0
    simp [clip]

theorem relax_zero (rlx : ℝ) : Equal.relaxAX rlx (0 : Arr M K) 0 = (0, 0) := by
  unfold Equal.relaxAX
  split_ifs <;> simp

/-- One iteration from a zero state. -/
theorem steps_zero (c : Chol) (t : DT) (S : Matrix (Fin N) (Fin K) ℝ) (lmbda : ℝ) (w : Fin M × Fin K → ℝ)
    (nonNeg fe ge : Bool) (o : Opts) (s : St (Arr M K) (Arr M K) (Arr M K) (Attr N M K)) (h : Zero s) :
    let s' := steps (clsBPDNT c t S lmbda w nonNeg fe ge) o s
    s'.X = 0 ∧ s'.AXnr = 0 ∧ s'.Yprev = 0 ∧ Zero s' ∧ s'.k = s.k := by
  intro s'
  have hX : s'.X = 0 := by
    change (xstepT t s.rho s.X s.Y s.U s.extra).1 = 0
    rw [h.Y, h.U]
    exact xstepT_zero t _ _ _ h.D h.DTS
  have hA : s'.AX = 0 ∧ s'.AXnr = 0 := by
    have e : (s'.AX, s'.AXnr) = Equal.relaxAX o.rlx s'.X s.Y := rfl
    rw [hX, h.Y, relax_zero] at e
    exact Prod.mk.inj e
  have hY : s'.Y = 0 := by
    have e : s'.Y = (ystepT t nonNeg lmbda w s.rho s'.AX s'.X s.Y s.U s.extra).1 := rfl
    rw [e, hA.1, h.U]
    exact ystepT_zero _ _ _ _ _ _ _ _
  have hU : s'.U = 0 := by
    have e : s'.U = Equal.ustep s'.AX s'.Y s.U := rfl
    rw [e, hA.1, hY, h.U]
    simp [Equal.ustep, Equal.rsdlR]
  exact ⟨hX, hA.2, h.Y, ⟨hY, hU, h.D, h.DTS⟩, rfl⟩

theorem body_zero (c : Chol) (t : DT) (S : Matrix (Fin N) (Fin K) ℝ) (lmbda : ℝ) (w : Fin M × Fin K → ℝ)
    (nonNeg fe ge : Bool) (o : Opts) (k : ℕ) (s : St (Arr M K) (Arr M K) (Arr M K) (Attr N M K)) (h : Zero s) :
    let b := body (clsBPDNT c t S lmbda w nonNeg fe ge) o none k s
    b.1.X = 0 ∧ Zero b.1 ∧ b.1.k = k ∧
    (o.withRsdl = true → o.stdResiduals = false → 0 < o.relStopTol → 0 ≤ o.absStopTol → b.2 = true) := by
  classical
  intro b
  have h0 : Zero { s with k := k } := ⟨h.Y, h.U, h.D, h.DTS⟩
  obtain ⟨hX, hA, hP, hZ, hk⟩ := steps_zero c t S lmbda w nonNeg fe ge o { s with k := k } h0
  set C := clsBPDNT c t S lmbda w nonNeg fe ge with hC
  set s1 := steps C o { s with k := k } with hs1
  set q := computeResiduals C o s1 with hq
  set s2 := (if o.fastSolve then s1 else { s1 with itstat := s1.itstat ++ [⟨k, C.objfn s1.X s1.Y s1.extra, q, s1.rho⟩] })
    with hs2
  have h2 : s2.X = 0 ∧ Zero s2 ∧ s2.k = k := by
    rw [hs2]
    split_ifs
    · exact ⟨hX, hZ, hk⟩
    · exact ⟨hX, ⟨hZ.Y, hZ.U, hZ.D, hZ.DTS⟩, hk⟩
  set s3 := (if o.withRsdl then updateRho C o k q.r q.s s2 else s2) with hs3
  have h3 : s3.X = 0 ∧ Zero s3 ∧ s3.k = k := by
    rw [hs3]
    split_ifs
    · unfold updateRho
      split_ifs
      · simp only
        split_ifs
        · refine ⟨h2.1, ⟨h2.2.1.Y, ?_, h2.2.1.D, h2.2.1.DTS⟩, h2.2.2⟩
          change _ • s2.U = 0
          rw [h2.2.1.U, smul_zero]
        · refine ⟨h2.1, ⟨h2.2.1.Y, ?_, h2.2.1.D, h2.2.1.DTS⟩, h2.2.2⟩
          change _ • s2.U = 0
          rw [h2.2.1.U, smul_zero]
      · exact h2
    · exact h2
  have hb : b = ({ s3 with extra := s3.extra }, false || (o.withRsdl && decide (q.r < q.epri ∧ q.s < q.edua))) := rfl
  refine ⟨by rw [hb]; exact h3.1, by rw [hb]; exact h3.2.1, by rw [hb]; exact h3.2.2, fun hw hstd hrel habs => ?_⟩
  rw [hb]
  simp only [Bool.false_or, hw, Bool.true_and, decide_eq_true_eq]
  have hr : q.r = 0 ∧ q.s = 0 ∧ 0 < q.epri ∧ 0 < q.edua := by
    rw [hq]
    unfold computeResiduals
    rw [hstd]
    have e1 : C.nrmR s1.AXnr s1.Y = 0 := by
      change ‖s1.AXnr - s1.Y‖ = 0
      rw [hA, hZ.Y]; simp
    have e2 : C.nrmS s1.rho s1.Yprev s1.Y s1.U = 0 := by
      change ‖Equal.rsdlS s1.rho s1.Yprev s1.Y‖ = 0
      rw [hP, hZ.Y]; simp [Equal.rsdlS]
    have e3 : C.rsdlRn s1.AXnr s1.Y = 0 := by
      change max ‖s1.AXnr‖ ‖s1.Y‖ = 0
      rw [hA, hZ.Y]; simp
    have e4 : C.rsdlSn s1.rho s1.U = 0 := by
      change s1.rho * ‖s1.U‖ = 0
      rw [hZ.U]; simp
    simp only [Bool.false_eq_true, if_false, e1, e2, e3, e4, if_true, div_one, true_and]
    constructor <;> positivity
  exact ⟨by rw [hr.1]; exact hr.2.2.1, by rw [hr.2.1]; exact hr.2.2.2⟩

theorem loop_zero (c : Chol) (t : DT) (S : Matrix (Fin N) (Fin K) ℝ) (lmbda : ℝ) (w : Fin M × Fin K → ℝ)
    (nonNeg fe ge : Bool) (o : Opts) (ks : List ℕ) (s : St (Arr M K) (Arr M K) (Arr M K) (Attr N M K)) (h : Zero s) :
    Zero (loop (clsBPDNT c t S lmbda w nonNeg fe ge) o none ks s) := by
  induction ks generalizing s with
  | nil => exact h
  | cons k ks ih =>
    unfold loop
    obtain ⟨-, hz, -⟩ := body_zero c t S lmbda w nonNeg fe ge o k s h
    simp only
    split_ifs
    · exact hz
    · exact ih _ hz

/-- The state of a `BPDN` object of integer type whose dictionary has entries below one. -/
theorem init_zero (c : Chol) (a : Args N M K) (ht : a.dt = .int) (hD : ∀ i j, |a.D i j| < 1) : Zero (a.init c) := by
  have e : castM a.dt a.D = 0 := by rw [ht]; exact castM_small _ hD
  refine ⟨rfl, rfl, e, ?_⟩
  change (castM a.dt a.D)ᵀ * castM a.dt a.S = 0
  rw [e, transpose_zero, Matrix.zero_mul]

/-- **C86, integer signals.** For a signal of integer type (without floating point `DataType`) and a dictionary whose
entries are below one in absolute value, for instance one with normalised atoms none of which is a unit vector, `solve`
returns zero, whatever the signal and the parameters are.  The linear systems it solves on the way are regular.  With
`AutoRho` this needs a positive relative tolerance: then the loop is left after the first iteration, before the
division of the integer array U by a floating point number raises an exception. -/
theorem C86_bpdn_integer (c : Chol) (a : Args N M K) (hs : a.sig = .int) (hd : a.dataType = none)
    (hD : ∀ i j, |a.D i j| < 1) (hl : 0 ≤ a.lmbda) (hr : ∀ r, a.rho = some r → 1 ≤ r)
    (ho : a.opts.autoRho = false ∨
      (a.opts.stdResiduals = false ∧ 0 < a.opts.relStopTol ∧ 0 ≤ a.opts.absStopTol ∧ 0 < a.opts.maxMainIter)) :
    let s := solve (a.cls c) a.optsT none (a.init c)
    mat s.Y = 0 ∧ (a.opts.autoRho = true → s.k = 1) ∧
    Regular (a.init c).extra.lu := by
  intro s
  have ht : a.dt = .int := by unfold Args.dt setDtype; rw [hd]; exact hs
  have hz := init_zero c a ht hD
  have hrho : 1 ≤ a.rhoT := by
    unfold Args.rhoT setAttr Args.lmbdaT
    rw [ht]
    have key : ∀ x : ℝ, 1 ≤ x → 1 ≤ trunc x := by
      intro x hx
      unfold trunc
      rw [if_pos (by linarith)]
      exact_mod_cast Int.le_floor.2 (by simpa using hx)
    cases e : a.rho with
    | none =>
      refine key _ ?_
      have : 0 ≤ trunc a.lmbda := by
        unfold trunc
        rw [if_pos hl]
        exact_mod_cast Int.floor_nonneg.2 hl
      change 1 ≤ 50 * trunc a.lmbda + 1
      linarith
    | some r => exact key _ (hr r e)
  have e : castM a.dt a.D = 0 := by rw [ht]; exact castM_small _ hD
  refine ⟨?_, fun ha => ?_, ?_⟩
  · have := (loop_zero c a.dt (castM a.dt a.S) a.lmbdaT (fun i => cast a.dt (a.L1Weight i)) a.nonNeg a.fEvalX a.gEvalY
      a.optsT (List.range' (a.init c).k a.optsT.maxMainIter) _ hz).Y
    change mat (loop _ a.optsT none (List.range' (a.init c).k a.optsT.maxMainIter) (a.init c)).Y = 0
    unfold Args.cls
    rw [this]
    rfl
  · obtain ⟨h1, h2, h3, h4⟩ := ho.resolve_left (by rw [ha]; simp)
    obtain ⟨m, hm⟩ : ∃ m, a.opts.maxMainIter = m + 1 := ⟨a.opts.maxMainIter - 1, by omega⟩
    obtain ⟨-, -, hk, hb⟩ := body_zero c a.dt (castM a.dt a.S) a.lmbdaT (fun i => cast a.dt (a.L1Weight i)) a.nonNeg
      a.fEvalX a.gEvalY a.optsT 0 _ hz
    have hb' := hb (by change (a.opts.autoRho || _) = true; rw [ha]; rfl) h1 h2 h3
    change (loop _ a.optsT none (List.range' 0 a.opts.maxMainIter) (a.init c)).k + 1 = 1
    rw [hm, List.range'_succ]
    unfold loop
    simp only
    unfold Args.cls
    rw [if_pos hb', hk]
  · change Regular (castFac c a.dt (choFactor (castM a.dt a.D) a.rhoT))
    rw [e, ht]
    unfold choFactor
    split_ifs
    · have : facTall (0 : Matrix (Fin N) (Fin M) ℝ) a.rhoT = a.rhoT • 1 := by simp [facTall]
      rw [this]
      exact castFac_invertible c hrho
    · have : facWide (0 : Matrix (Fin N) (Fin M) ℝ) a.rhoT = a.rhoT • 1 := by simp [facWide]
      rw [this]
      exact castFac_invertible c hrho

/-! ## The type of the solution -/

theorem InType.add {t : DT} {x y : ℝ} (hx : InType t x) (hy : InType t y) : InType t (x + y) := by
  cases t
  · trivial
  · obtain ⟨m, rfl⟩ := hx
    obtain ⟨n, rfl⟩ := hy
    exact ⟨m + n, by push_cast; rfl⟩

theorem InType.mul {t : DT} {x y : ℝ} (hx : InType t x) (hy : InType t y) : InType t (x * y) := by
  cases t
  · trivial
  · obtain ⟨m, rfl⟩ := hx
    obtain ⟨n, rfl⟩ := hy
    exact ⟨m * n, by push_cast; rfl⟩

theorem inType_int (t : DT) (n : ℤ) : InType t n := by
  cases t
  · trivial
  · exact ⟨n, rfl⟩

theorem InType.sub {t : DT} {x y : ℝ} (hx : InType t x) (hy : InType t y) : InType t (x - y) := by
  have := hx.add ((inType_int t (-1)).mul hy)
  simpa [sub_eq_add_neg] using this

theorem gystep_inType (t : DT) (nonNeg : Bool) (f : Fin M × Fin K → ℝ) (hf : ∀ i, InType t (f i))
    (i : Fin M × Fin K) :
    InType t (gystep nonNeg f i) := by
  unfold gystep
  cases nonNeg
  · exact hf i
  · simp only [if_true]
    unfold clip
    split_ifs
    · simpa using inType_int t 0
    · exact hf i

/-- Entries of the three arrays are numbers of the data type. -/
structure Typed (t : DT) (s : St (Arr M K) (Arr M K) (Arr M K) (Attr N M K)) : Prop where
  X : ∀ i, InType t (s.X i)
  Y : ∀ i, InType t (s.Y i)
  U : ∀ i, InType t (s.U i)

theorem steps_typed (c : Chol) (t : DT) (S : Matrix (Fin N) (Fin K) ℝ) (lmbda : ℝ) (w : Fin M × Fin K → ℝ)
    (nonNeg fe ge : Bool) (o : Opts) (ho : InType t o.rlx) (s : St (Arr M K) (Arr M K) (Arr M K) (Attr N M K))
    (h : Typed t s) : Typed t (steps (clsBPDNT c t S lmbda w nonNeg fe ge) o s) := by
  set s' := steps (clsBPDNT c t S lmbda w nonNeg fe ge) o s with hs
  have hX : ∀ i, InType t (s'.X i) := fun i => cast_inType t _
  have hA : ∀ i, InType t (s'.AX i) := by
    intro i
    have e : s'.AX = (Equal.relaxAX o.rlx s'.X s.Y).1 := rfl
    rw [e]
    unfold Equal.relaxAX
    split_ifs
    · exact hX i
    · have h1 : InType t (1 - o.rlx) := by simpa using (inType_int t 1).sub ho
      exact (ho.mul (hX i)).add (h1.mul (h.Y i))
  have hY : ∀ i, InType t (s'.Y i) := by
    intro i
    exact gystep_inType t nonNeg _ (fun _ => cast_inType t _) i
  exact ⟨hX, hY, fun i => (h.U i).add ((hA i).sub (hY i))⟩

/-- **C86, the type of the solution.** The entries of X, Y and U are numbers of the data type of the signal, or of
`DataType`, after `solve` without `AutoRho`, and after any number of calls. -/
theorem C86_bpdn_type (c : Chol) (a : Args N M K) (ho : a.opts.autoRho = false)
    (s : St (Arr M K) (Arr M K) (Arr M K) (Attr N M K)) (h : Typed (a.dataType.getD a.sig) s) :
    Typed (a.dataType.getD a.sig) (a.init c) ∧
    Typed (a.dataType.getD a.sig) (solve (a.cls c) a.optsT none s) := by
  classical
  have h0 : InType (a.dataType.getD a.sig) 0 := by simpa using inType_int (a.dataType.getD a.sig) 0
  refine ⟨⟨fun _ => h0, fun _ => h0, fun _ => h0⟩, ?_⟩
  have hb : ∀ k s, Typed a.dt s → Typed a.dt (body (a.cls c) a.optsT none k s).1 := by
    intro k s hs
    have h1 := steps_typed c a.dt (castM a.dt a.S) a.lmbdaT (fun i => cast a.dt (a.L1Weight i)) a.nonNeg a.fEvalX
      a.gEvalY a.optsT (cast_inType _ _) { s with k := k } ⟨hs.X, hs.Y, hs.U⟩
    have e : a.optsT.autoRho = false := ho
    unfold body
    simp only [updateRho, e, Bool.false_eq_true, false_and, if_false, ite_self]
    split_ifs
    · exact ⟨h1.X, h1.Y, h1.U⟩
    · exact ⟨h1.X, h1.Y, h1.U⟩
  have hl : ∀ ks s, Typed a.dt s → Typed a.dt (loop (a.cls c) a.optsT none ks s) := by
    intro ks
    induction ks with
    | nil => intro s hs; exact hs
    | cons k ks ih =>
      intro s hs
      unfold loop
      simp only
      split_ifs
      · exact hb k s hs
      · exact ih _ (hb k s hs)
  have := hl (List.range' s.k a.optsT.maxMainIter) s h
  exact ⟨this.X, this.Y, this.U⟩

/-- The signal `(3, 4)` of integer type, one atom `(3/5, 4/5)`, parameter 1. -/
noncomputable def exArgs (o : Opts) : Args 2 1 1 where
  D := !![3 / 5; 4 / 5]
  S := !![3; 4]
  sig := .int
  lmbda := 1
  dataType := none
  rho := none
  L1Weight := fun _ => 1
  nonNeg := false
  fEvalX := false
  gEvalY := true
  opts := o

/-- **Negation of C86 for integer signals.** The array that `solve` returns for the signal `(3, 4)`, after any number
of iterations, is not near a minimum of the functional: its value is 12.5, that of the coefficient 4 is 4.5. -/
theorem C86_bpdn_integer_refuted (c : Chol) (o : Opts) (ho : o.autoRho = false) :
    let a := exArgs o
    (∀ i j, InType a.sig (a.S i j)) ∧
    objBPDN a.D a.S a.lmbda a.L1Weight (mat (solve (a.cls c) a.optsT none (a.init c)).Y) = 25 / 2 ∧
    objBPDN a.D a.S a.lmbda a.L1Weight !![4] = 9 / 2 := by
  intro a
  have h := (C86_bpdn_integer c a rfl rfl (by
    intro i j
    fin_cases i <;> fin_cases j <;> norm_num [a, exArgs, abs_lt]) (by norm_num [a, exArgs])
    (fun r hr => by cases hr) (Or.inl ho)).1
  refine ⟨?_, ?_, ?_⟩
  · intro i j
    fin_cases i <;> fin_cases j
    · exact ⟨3, by norm_num [a, exArgs]⟩
    · exact ⟨4, by norm_num [a, exArgs]⟩
  · rw [h]
    norm_num [objBPDN, a, exArgs, Fin.sum_univ_two, fro2, l1wMat]
  · norm_num [objBPDN, a, exArgs, Fin.sum_univ_two, mul_apply, fro2, l1wMat]

end Sporco.Admm.Dtype
