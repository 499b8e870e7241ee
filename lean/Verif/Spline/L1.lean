import Verif.Spline.Dct
import Verif.Admm.BpdnConv

/-!
# The l1-spline solver (C33, C39, C40)

`admm/spline.py`: `SplineL1`.  Arrays are real, arithmetic is exact.
-/

set_option autoImplicit false
set_option linter.unusedSectionVars false

namespace Sporco.Spline

open Finset Sporco.Prox Sporco.Admm Filter Topology
open scoped RealInnerProductSpace

variable {d : ℕ} {n : Fin d → ℕ}

/-- Arrays with the Euclidean norm. -/
abbrev V (n : Fin d → ℕ) : Type := EuclideanSpace ℝ ((k : Fin d) → Fin (n k))

/-! ## Model -/

/-- `SplineL1.Alpha` (`admm/spline.py` 163-170), accumulated over the axes.  The code keeps
length one on axes that are not transformed and broadcasts; here the array has full shape. -/
noncomputable def Alpha (axes : List (Fin d)) (i : (k : Fin d) → Fin (n k)) : ℝ :=
  axes.foldl (fun acc ax => acc + (-2 + 2 * Real.cos ((i ax).val * Real.pi / n ax))) 0

/-- `SplineL1.Gamma` (`admm/spline.py` 171, 217) -/
noncomputable def Gamma (axes : List (Fin d)) (lmbda rho : ℝ) : Arr n :=
  fun i => 1 / (1 + lmbda / rho * Alpha axes i ^ 2)

/-- `SplineL1.xstep` (`admm/spline.py` 189-200), `LinSolveCheck` false.  The attribute is
`Gamma`. -/
noncomputable def xstep (axes : List (Fin d)) (S : V n) (_rho : ℝ) (_X Y U : V n) (h : Arr n) :
    V n × Arr n :=
  (WithLp.toLp 2 (idctii axes fun i => h i * dctii axes (Y + S - U).ofLp i), h)

/-- `SplineL1.ystep` (`admm/spline.py` 205-210) -/
noncomputable def ystep (S : V n) (Wdf : Arr n) (rho : ℝ) (AX _X _Y U : V n) (h : Arr n) :
    V n × Arr n :=
  (WithLp.toLp 2 (proxL1Arr (AX - S + U).ofLp fun i => Wdf i / rho), h)

/-- `SplineL1.rhochange` (`admm/spline.py` 214-217) -/
noncomputable def rhochange (axes : List (Fin d)) (lmbda rho : ℝ) (_h : Arr n) : Arr n :=
  Gamma axes lmbda rho

/-- `SplineL1.obfn_gvar` (`admm/spline.py` 221-229) -/
noncomputable def gvar (S : V n) (gEvalY : Bool) (X Y : V n) : V n := if gEvalY then Y else X - S

/-- `SplineL1.eval_objfn` (`admm/spline.py` 233-246): objective, data fidelity, regularisation -/
noncomputable def objfn (axes : List (Fin d)) (S : V n) (lmbda : ℝ) (Wdf : Arr n) (gEvalY : Bool)
    (X Y : V n) (_h : Arr n) : ℝ × ℝ × ℝ :=
  let gvr := gvar S gEvalY X Y
  let dfd := ∑ i, |Wdf i * gvr.ofLp i|
  let reg := 1 / 2 * (Real.sqrt (∑ i,
    (idctii axes (fun i => Alpha axes i * dctii axes X.ofLp i) i) ^ 2)) ^ 2
  (dfd + lmbda * reg, dfd, reg)

/-- Class `SplineL1` (`admm/spline.py` 24-292): the constraint is `x - y = s` (258-292). -/
noncomputable def clsSpline (axes : List (Fin d)) (S : V n) (lmbda : ℝ) (Wdf : Arr n)
    (gEvalY : Bool) : Cls (V n) (V n) (V n) (Arr n) :=
  Cls.generic (fun x => x) (fun x => x) (fun y => -y) S (xstep axes S) (ystep S Wdf)
    (rhochange axes lmbda) (objfn axes S lmbda Wdf gEvalY)

/-! ## Specification -/

/-- The matrix `D` of the class documentation: ones next to the diagonal, and on the diagonal
minus the number of neighbours of the sample. -/
def D2 (N : ℕ) : Matrix (Fin N) (Fin N) ℝ := Matrix.of fun i j =>
  if j.val = i.val + 1 then 1 else if i.val = j.val + 1 then 1
  else if i = j then -((if i.val = 0 then 0 else 1) + (if i.val + 1 = N then 0 else 1)) else 0

/-- The documented operator, applied along each of the axes and summed. -/
noncomputable def lap (axes : List (Fin d)) (x : Arr n) : Arr n :=
  fun i => (axes.map fun a => along a (D2 (n a)) x i).sum

/-- The documented functional `‖W (x - s)‖₁ + (λ/2) ‖D x‖₂²`. -/
noncomputable def objSpline (axes : List (Fin d)) (s : Arr n) (lmbda : ℝ) (W : Arr n) (x : Arr n) : ℝ :=
  ∑ i, |W i * (x i - s i)| + lmbda / 2 * ∑ i, lap axes x i ^ 2

/-- The function the x update has to minimise: the terms of the augmented Lagrangian of
`‖W y‖₁ + (λ/2) ‖D x‖₂²` such that `x - y = s` that contain `x`. -/
noncomputable def augSpline (axes : List (Fin d)) (s : Arr n) (lmbda rho : ℝ) (y u : Arr n) (x : Arr n) : ℝ :=
  lmbda / 2 * ∑ i, lap axes x i ^ 2 + rho / 2 * ∑ i, (x i - y i - s i + u i) ^ 2

/-! ## Diagonalisation -/

theorem D2_symm (N : ℕ) (i j : Fin N) : D2 N i j = D2 N j i := by
  simp only [D2, Matrix.of_apply]
  by_cases h1 : j.val = i.val + 1
  · rw [if_pos h1, if_neg (by omega), if_pos h1]
  · rw [if_neg h1]
    by_cases h2 : i.val = j.val + 1
    · rw [if_pos h2, if_pos h2]
    · rw [if_neg h2, if_neg h2, if_neg h1]
      by_cases h3 : i = j
      · subst h3; rfl
      · rw [if_neg h3, if_neg (Ne.symm h3)]

/-- One row of `D`, applied to samples of a function. -/
theorem D2_row (N : ℕ) (i : Fin N) (f : ℕ → ℝ) :
    ∑ j : Fin N, D2 N i j * f j.val =
      (if i.val + 1 = N then 0 else f (i.val + 1) - f i.val) +
        (if i.val = 0 then 0 else f (i.val - 1) - f i.val) := by
  have e : ∀ j : Fin N, D2 N i j * f j.val =
      (if j.val = i.val + 1 then f (i.val + 1) else 0) + (if j.val + 1 = i.val then f (i.val - 1) else 0) +
      (if j = i then -((if i.val = 0 then 0 else 1) + (if i.val + 1 = N then 0 else 1)) * f i.val else 0) := by
    intro j
    simp only [D2, Matrix.of_apply]
    by_cases h1 : j.val = i.val + 1
    · rw [if_pos h1, if_pos h1, if_neg (by omega), if_neg (fun h => by rw [h] at h1; omega), h1]; ring
    · rw [if_neg h1, if_neg h1]
      by_cases h2 : i.val = j.val + 1
      · rw [if_pos h2, if_pos h2.symm, if_neg (fun h => by rw [h] at h2; omega),
          show i.val - 1 = j.val by omega]; ring
      · rw [if_neg h2, if_neg (Ne.symm h2)]
        by_cases h3 : i = j
        · subst h3; rw [if_pos rfl, if_pos rfl]; ring
        · rw [if_neg h3, if_neg (Ne.symm h3)]; ring
  simp only [e]
  rw [sum_add_distrib, sum_add_distrib, sum_ite_eq' univ i, if_pos (mem_univ _)]
  have s1 : ∑ j : Fin N, (if j.val = i.val + 1 then f (i.val + 1) else 0) =
      if i.val + 1 = N then 0 else f (i.val + 1) := by
    by_cases h : i.val + 1 = N
    · rw [if_pos h]
      exact sum_eq_zero fun j _ => if_neg (by have := j.2; omega)
    · rw [if_neg h, sum_eq_single (⟨i.val + 1, by have := i.2; omega⟩ : Fin N)]
      · rw [if_pos rfl]
      · intro j _ hj; exact if_neg fun h' => hj (Fin.ext h')
      · intro h'; exact absurd (mem_univ _) h'
  have s2 : ∑ j : Fin N, (if j.val + 1 = i.val then f (i.val - 1) else 0) =
      if i.val = 0 then 0 else f (i.val - 1) := by
    by_cases h : i.val = 0
    · rw [if_pos h]
      exact sum_eq_zero fun j _ => if_neg (by omega)
    · rw [if_neg h, sum_eq_single (⟨i.val - 1, by have := i.2; omega⟩ : Fin N)]
      · rw [if_pos (by simp only; omega)]
      · intro j _ hj; exact if_neg fun h' => hj (Fin.ext (by simp only; omega))
      · intro h'; exact absurd (mem_univ _) h'
  rw [s1, s2]
  split_ifs <;> ring

/-- The cosine vectors are eigenvectors of `D`. -/
theorem D2_cosv (N : ℕ) (k i : Fin N) :
    ∑ j : Fin N, D2 N i j * cosv N k.val j.val =
      (-2 + 2 * Real.cos (k.val * Real.pi / N)) * cosv N k.val i.val := by
  have hN : 0 < N := k.pos
  have hN' : (N : ℝ) ≠ 0 := by positivity
  rw [D2_row N i fun j => cosv N k.val j]
  set θ : ℝ := Real.pi * k.val / (2 * N) with hθ
  have e : ∀ j : ℕ, cosv N k.val j = Real.cos (θ * (2 * j + 1)) := by
    intro j; unfold cosv; congr 1; rw [hθ]; ring
  have e2 : (k.val : ℝ) * Real.pi / N = 2 * θ := by rw [hθ]; field_simp
  -- the recurrence, with continued indices
  have hrec : ∀ t : ℝ, Real.cos (θ * (2 * (t + 1) + 1)) + Real.cos (θ * (2 * (t - 1) + 1)) =
      2 * Real.cos (2 * θ) * Real.cos (θ * (2 * t + 1)) := by
    intro t
    rw [show θ * (2 * (t + 1) + 1) = θ * (2 * t + 1) + 2 * θ by ring,
      show θ * (2 * (t - 1) + 1) = θ * (2 * t + 1) - 2 * θ by ring, Real.cos_add, Real.cos_sub]
    ring
  -- right boundary
  have hr : i.val + 1 = N → Real.cos (θ * (2 * ((i.val : ℝ) + 1) + 1)) = Real.cos (θ * (2 * i.val + 1)) := by
    intro h
    have hc : (i.val : ℝ) + 1 = N := by exact_mod_cast h
    have hs : Real.sin (2 * N * θ) = 0 := by
      rw [show 2 * N * θ = k.val * Real.pi by rw [hθ]; field_simp]
      exact Real.sin_nat_mul_pi k.val
    rw [show θ * (2 * ((i.val : ℝ) + 1) + 1) = 2 * N * θ + θ by rw [hc]; ring,
      show θ * (2 * (i.val : ℝ) + 1) = 2 * N * θ - θ by rw [← hc]; ring, Real.cos_add, Real.cos_sub, hs]
    ring
  have hl : i.val = 0 → Real.cos (θ * (2 * ((i.val : ℝ) - 1) + 1)) = Real.cos (θ * (2 * i.val + 1)) := by
    intro h
    rw [h, ← Real.cos_neg]
    congr 1
    push_cast; ring
  have key := hrec i.val
  rw [e2]
  have h1 : (if i.val + 1 = N then (0 : ℝ) else cosv N k.val (i.val + 1) - cosv N k.val i.val) =
      Real.cos (θ * (2 * ((i.val : ℝ) + 1) + 1)) - Real.cos (θ * (2 * i.val + 1)) := by
    split
    · rename_i h; rw [hr h]; ring
    · rw [e, e]; push_cast; rfl
  have h2 : (if i.val = 0 then (0 : ℝ) else cosv N k.val (i.val - 1) - cosv N k.val i.val) =
      Real.cos (θ * (2 * ((i.val : ℝ) - 1) + 1)) - Real.cos (θ * (2 * i.val + 1)) := by
    split
    · rename_i h; rw [hl h]; ring
    · rename_i h
      rw [e, e, Nat.cast_sub (by omega)]; push_cast; rfl
  rw [h1, h2, e]
  linarith

theorem dctM_D2 (N : ℕ) : dctM N * D2 N =
    Matrix.diagonal (fun k : Fin N => -2 + 2 * Real.cos (k.val * Real.pi / N)) * dctM N := by
  ext k j
  rw [Matrix.mul_apply, Matrix.diagonal_mul]
  simp only [dctM, Matrix.of_apply]
  have e : ∀ i : Fin N, fac N k.val * cosv N k.val i.val * D2 N i j =
      fac N k.val * (D2 N j i * cosv N k.val i.val) := fun i => by rw [D2_symm N i j]; ring
  simp only [e]
  rw [← mul_sum, D2_cosv]
  ring

theorem along_diagonal (a : Fin d) (v : Fin (n a) → ℝ) (x : Arr n) (i : (k : Fin d) → Fin (n k)) :
    along a (Matrix.diagonal v) x i = v (i a) * x i := by
  unfold along
  rw [sum_eq_single (i a)]
  · rw [Matrix.diagonal_apply_eq, Function.update_eq_self]
  · intro j _ hj
    rw [Matrix.diagonal_apply_ne _ hj.symm, zero_mul]
  · intro h; exact absurd (mem_univ _) h

theorem Alpha_eq (axes : List (Fin d)) (i : (k : Fin d) → Fin (n k)) :
    Alpha axes i = (axes.map fun ax => -2 + 2 * Real.cos ((i ax).val * Real.pi / n ax)).sum := by
  have h : ∀ (l : List (Fin d)) (c : ℝ),
      l.foldl (fun acc ax => acc + (-2 + 2 * Real.cos ((i ax).val * Real.pi / n ax))) c =
      c + (l.map fun ax => -2 + 2 * Real.cos ((i ax).val * Real.pi / n ax)).sum := by
    intro l
    induction l with
    | nil => intro c; simp
    | cons a l ih => intro c; rw [List.foldl_cons, ih, List.map_cons, List.sum_cons]; ring
  unfold Alpha
  rw [h, zero_add]

theorem dctii_zero (axes : List (Fin d)) : dctii axes (fun _ => 0 : Arr n) = fun _ => 0 := by
  have := dctii_smul axes 0 (fun _ => 0 : Arr n)
  simpa using this

/-- The transform turns the documented operator into multiplication by `Alpha`. -/
theorem dctii_lap (axes : List (Fin d)) (hnd : axes.Nodup) (x : Arr n) :
    dctii axes (lap axes x) = fun i => Alpha axes i * dctii axes x i := by
  have h : ∀ l : List (Fin d), (∀ a ∈ l, a ∈ axes) →
      dctii axes (fun i => (l.map fun a => along a (D2 (n a)) x i).sum) =
      fun i => (l.map fun ax => -2 + 2 * Real.cos ((i ax).val * Real.pi / n ax)).sum * dctii axes x i := by
    intro l
    induction l with
    | nil => intro _; simp [dctii_zero]
    | cons a l ih =>
      intro hl
      simp only [List.map_cons, List.sum_cons]
      rw [dctii_add axes (fun i => along a (D2 (n a)) x i), ih fun b hb => hl b (List.mem_cons_of_mem _ hb),
        dctii_along_mem axes hnd a (hl a List.mem_cons_self) _ _ (dctM_D2 (n a))]
      funext i
      rw [along_diagonal]
      ring
  have := h axes fun _ h => h
  funext i
  rw [Alpha_eq]
  exact congrFun this i

/-- The operator as the code computes it. -/
theorem lap_eq (axes : List (Fin d)) (hnd : axes.Nodup) (x : Arr n) :
    idctii axes (fun i => Alpha axes i * dctii axes x i) = lap axes x := by
  rw [← dctii_lap axes hnd, idctii_dctii]

/-- **C33, transform pair.** `idctii` is the two-sided inverse of `dctii`, and `dctii` keeps
inner products, for every array shape and list of axes. -/
theorem C33_dct_pair (axes : List (Fin d)) (x y : Arr n) :
    idctii axes (dctii axes x) = x ∧ dctii axes (idctii axes x) = x ∧
      ∑ i, dctii axes x i * dctii axes y i = ∑ i, x i * y i :=
  ⟨idctii_dctii axes x, dctii_idctii axes x, dctii_inner axes x y⟩

/-- **C33, diagonalisation.** On every shape, multiplying by the array `Alpha` between the
transforms is the documented second-difference operator along the given axes. -/
theorem C33_diagonalises (axes : List (Fin d)) (hnd : axes.Nodup) (x : Arr n) :
    idctii axes (fun i => Alpha axes i * dctii axes x i) = lap axes x := lap_eq axes hnd x

/-- **C33, one axis.** Each row of the documented matrix: difference of the differences with the
neighbours the sample has. -/
theorem C33_operator (N : ℕ) (x : ℕ → ℝ) (i : Fin N) :
    ∑ j : Fin N, D2 N i j * x j.val =
      (if i.val + 1 = N then 0 else x (i.val + 1) - x i.val) -
        (if i.val = 0 then 0 else x i.val - x (i.val - 1)) := by
  rw [D2_row]
  split_ifs <;> ring

/-! ## The steps -/

theorem augSpline_dct (axes : List (Fin d)) (hnd : axes.Nodup) (s : Arr n) (lmbda rho : ℝ) (y u x : Arr n) :
    augSpline axes s lmbda rho y u x =
      ∑ i, (lmbda / 2 * (Alpha axes i * dctii axes x i) ^ 2 +
        rho / 2 * (dctii axes x i - dctii axes (fun i => y i + s i - u i) i) ^ 2) := by
  unfold augSpline
  rw [sum_add_distrib, ← mul_sum, ← mul_sum]
  congr 2
  · rw [← dctii_norm axes, dctii_lap axes hnd]
  · rw [← dctii_norm axes]
    have e : (fun i => x i - y i - s i + u i) = fun i => x i - (y i + s i - u i) := funext fun i => by ring
    rw [e, dctii_sub]

theorem xstep_dct (axes : List (Fin d)) (S : V n) (lmbda rho : ℝ) (X Y U : V n) (i) :
    dctii axes (xstep axes S rho X Y U (Gamma axes lmbda rho)).1.ofLp i =
      1 / (1 + lmbda / rho * Alpha axes i ^ 2) * dctii axes (fun i => Y.ofLp i + S.ofLp i - U.ofLp i) i := by
  unfold xstep
  simp only
  rw [dctii_idctii]
  rfl

theorem augSpline_margin (axes : List (Fin d)) (hnd : axes.Nodup) (S : V n) (lmbda rho : ℝ) (hl : 0 ≤ lmbda)
    (hr : 0 < rho) (X Y U : V n) (z : Arr n) :
    augSpline axes S.ofLp lmbda rho Y.ofLp U.ofLp (xstep axes S rho X Y U (Gamma axes lmbda rho)).1.ofLp +
      rho / 2 * ∑ i, (z i - (xstep axes S rho X Y U (Gamma axes lmbda rho)).1.ofLp i) ^ 2 ≤
    augSpline axes S.ofLp lmbda rho Y.ofLp U.ofLp z := by
  rw [augSpline_dct axes hnd, augSpline_dct axes hnd, ← dctii_norm axes (fun i => z i - _),
    dctii_sub axes z, mul_sum, ← sum_add_distrib]
  refine sum_le_sum fun i _ => ?_
  simp only [xstep_dct]
  set v := dctii axes (fun i => Y.ofLp i + S.ofLp i - U.ofLp i) i
  set a := Alpha axes i
  set w := dctii axes z i
  have hden : 0 < 1 + lmbda / rho * a ^ 2 := by positivity
  set x := 1 / (1 + lmbda / rho * a ^ 2) * v with hx
  have hx' : (rho + lmbda * a ^ 2) * x = rho * v := by
    rw [hx]; field_simp
  have : lmbda / 2 * (a * w) ^ 2 + rho / 2 * (w - v) ^ 2 - (lmbda / 2 * (a * x) ^ 2 + rho / 2 * (x - v) ^ 2) -
      rho / 2 * (w - x) ^ 2 = lmbda / 2 * (a * (w - x)) ^ 2 + (w - x) * ((rho + lmbda * a ^ 2) * x - rho * v) := by
    ring
  rw [hx', sub_self, mul_zero, add_zero] at this
  have h2 : 0 ≤ lmbda / 2 * (a * (w - x)) ^ 2 := by positivity
  linarith

/-- **C33, x update.** For every shape, set of axes, `λ ≥ 0` and `ρ > 0`, the x update is the
unique minimiser of `(λ/2)‖D x‖² + (ρ/2)‖x - y - s + u‖²`. -/
theorem C33_xstep (axes : List (Fin d)) (hnd : axes.Nodup) (S : V n) (lmbda rho : ℝ) (hl : 0 ≤ lmbda)
    (hr : 0 < rho) (X Y U : V n) :
    IsUniqueMin (augSpline axes S.ofLp lmbda rho Y.ofLp U.ofLp) Set.univ
      (xstep axes S rho X Y U (Gamma axes lmbda rho)).1.ofLp := by
  refine ⟨trivial, fun z _ hz => ?_⟩
  have h := augSpline_margin axes hnd S lmbda rho hl hr X Y U z
  have hpos : 0 < ∑ i, (z i - (xstep axes S rho X Y U (Gamma axes lmbda rho)).1.ofLp i) ^ 2 := by
    obtain ⟨j, hj⟩ := Function.ne_iff.1 hz
    exact sum_pos' (fun i _ => sq_nonneg _) ⟨j, mem_univ _, by have := sub_ne_zero.2 hj; positivity⟩
  have : 0 < rho / 2 * ∑ i, (z i - (xstep axes S rho X Y U (Gamma axes lmbda rho)).1.ofLp i) ^ 2 := by
    positivity
  linarith

theorem keeps_spline (axes : List (Fin d)) (S : V n) (lmbda : ℝ) (Wdf : Arr n) (ge : Bool) :
    Keeps (clsSpline axes S lmbda Wdf ge) (fun rho h => h = Gamma axes lmbda rho) :=
  ⟨generic_sane _ _ _ _ _ _ _ _, fun _ _ _ _ _ _ h => h, fun _ _ _ _ _ _ _ h => h, fun _ _ _ _ _ _ => rfl⟩

/-- **C33, C40.** At every iteration of every run, including after automatic changes of rho
(enabled by default, after every iteration), the x update is exact for the current rho. -/
theorem C33_C40_history (axes : List (Fin d)) (hnd : axes.Nodup) (S : V n) (lmbda : ℝ) (hl : 0 ≤ lmbda)
    (Wdf : Arr n) (ge : Bool) (o : Opts) (ho : o.autoRho = true → o.RhoOk) (cb)
    (hcb : Bpdn.CallbackReads cb) (s : St (V n) (V n) (V n) (Arr n)) (hp : 0 < s.rho)
    (hs : s.extra = Gamma axes lmbda s.rho) (m : ℕ) :
    let T := traj (clsSpline axes S lmbda Wdf ge) o cb s
    IsUniqueMin (augSpline axes S.ofLp lmbda (T m).rho (T m).Y.ofLp (T m).U.ofLp) Set.univ
      (T (m + 1)).X.ofLp := by
  obtain ⟨h1, h2⟩ := traj_keeps (keeps_spline axes S lmbda Wdf ge) o ho cb (hcb.keeps _) s hp hs m
  simp only
  rw [traj_succ, oneIter_X, h2]
  exact C33_xstep axes hnd S lmbda _ hl h1
    (traj (clsSpline axes S lmbda Wdf ge) o cb s m).X _ _

/-- **C33, recorded objective.** With `gEvalY` false the recorded objective is the documented
functional at X; in every case the recorded regularisation term is `(1/2)‖D x‖²`. -/
theorem C33_objfn (axes : List (Fin d)) (hnd : axes.Nodup) (S : V n) (lmbda : ℝ) (Wdf : Arr n) (X Y : V n)
    (h : Arr n) (ge : Bool) :
    (objfn axes S lmbda Wdf false X Y h).1 = objSpline axes S.ofLp lmbda Wdf X.ofLp ∧
    (objfn axes S lmbda Wdf ge X Y h).2.2 = 1 / 2 * ∑ i, lap axes X.ofLp i ^ 2 := by
  have e : ∀ ge, (objfn axes S lmbda Wdf ge X Y h).2.2 = 1 / 2 * ∑ i, lap axes X.ofLp i ^ 2 := by
    intro ge
    simp only [objfn]
    rw [Real.sq_sqrt (sum_nonneg fun _ _ => sq_nonneg _), lap_eq axes hnd]
  refine ⟨?_, e ge⟩
  have h1 : (objfn axes S lmbda Wdf false X Y h).1 = (objfn axes S lmbda Wdf false X Y h).2.1 +
      lmbda * (objfn axes S lmbda Wdf false X Y h).2.2 := rfl
  rw [h1, e]
  unfold objSpline
  have h2 : (objfn axes S lmbda Wdf false X Y h).2.1 = ∑ i, |Wdf i * (X.ofLp i - S.ofLp i)| := rfl
  rw [h2]; ring

/-! ## Convergence -/

/-- `√λ D` as a linear map. -/
noncomputable def lapL (axes : List (Fin d)) (lmbda : ℝ) : V n →L[ℝ] V n :=
  LinearMap.toContinuousLinearMap
    { toFun := fun x => WithLp.toLp 2 fun i => Real.sqrt lmbda * lap axes x.ofLp i
      map_add' := fun x y => by
        ext i
        change Real.sqrt lmbda * lap axes (fun j => x.ofLp j + y.ofLp j) i =
          Real.sqrt lmbda * lap axes x.ofLp i + Real.sqrt lmbda * lap axes y.ofLp i
        rw [← mul_add]; congr 1
        unfold lap
        rw [← List.sum_map_add]
        congr 1
        exact List.map_congr_left fun a _ => congrFun (along_add a _ x.ofLp y.ofLp) i
      map_smul' := fun c x => by
        ext i
        change Real.sqrt lmbda * lap axes (fun j => c * x.ofLp j) i =
          c * (Real.sqrt lmbda * lap axes x.ofLp i)
        rw [mul_left_comm]; congr 1
        unfold lap
        rw [← List.sum_map_mul_left]
        congr 1
        exact List.map_congr_left fun a _ => congrFun (along_smul a _ c x.ofLp) i }

theorem lapL_apply (axes : List (Fin d)) (lmbda : ℝ) (x : V n) (i) :
    (lapL axes lmbda x).ofLp i = Real.sqrt lmbda * lap axes x.ofLp i := rfl

theorem lapL_norm (axes : List (Fin d)) (lmbda : ℝ) (hl : 0 ≤ lmbda) (x : V n) :
    1 / 2 * ‖lapL axes lmbda x‖ ^ 2 = lmbda / 2 * ∑ i, lap axes x.ofLp i ^ 2 := by
  rw [EuclideanSpace.norm_sq_eq]
  simp only [lapL_apply, Real.norm_eq_abs, sq_abs, mul_pow, Real.sq_sqrt hl]
  rw [← mul_sum]; ring

noncomputable def splineProblem (axes : List (Fin d)) (S : V n) (lmbda : ℝ) (Wdf : Arr n)
    (hw : ∀ i, 0 ≤ Wdf i) : Problem (V n) (V n) (V n) :=
  ⟨ContinuousLinearMap.id ℝ _, ContinuousLinearMap.id ℝ _, -ContinuousLinearMap.id ℝ _, S,
    fun x => 1 / 2 * ‖lapL axes lmbda x - 0‖ ^ 2, Set.univ, fun y => 1 * l1w Wdf y.ofLp, Set.univ,
    fun _ _ => rfl, ls_convex (lapL axes lmbda) 0, Bpdn.convex_l1w Wdf hw _ convex_univ 1 zero_le_one⟩

theorem ystep_min (S : V n) (Wdf : Arr n) (hw : ∀ i, 0 ≤ Wdf i) (rho : ℝ) (hr : 0 < rho) (AX X Y U : V n)
    (h : Arr n) (z : V n) :
    1 * l1w Wdf (ystep S Wdf rho AX X Y U h).1.ofLp +
        rho / 2 * ‖AX + -(ystep S Wdf rho AX X Y U h).1 - S + U‖ ^ 2 ≤
      1 * l1w Wdf z.ofLp + rho / 2 * ‖AX + -z - S + U‖ ^ 2 := by
  have hm := C22_l1_partial false (AX - S + U).ofLp Wdf 1 rho zero_le_one hr hw
  have e : ∀ z : V n, yObj (fun y => 1 * l1w Wdf y) rho (AX - S + U).ofLp z.ofLp =
      1 * l1w Wdf z.ofLp + rho / 2 * ‖AX + -z - S + U‖ ^ 2 := by
    intro z
    unfold yObj
    rw [Bpdn.sq_norm]
    congr 4
    change AX - S + U - z = _
    abel
  have ey : (ystep S Wdf rho AX X Y U h).1.ofLp = ystepL1 false (AX - S + U).ofLp Wdf 1 rho := by
    funext i
    simp only [ystep, ystepL1]
    congr 1
    funext j
    ring
  rw [← e, ← e, ey]
  by_cases hz : z.ofLp = ystepL1 false (AX - S + U).ofLp Wdf 1 rho
  · rw [hz]
  · exact (hm.2 z.ofLp trivial hz).le

theorem implements_spline (axes : List (Fin d)) (hnd : axes.Nodup) (S : V n) (lmbda : ℝ) (hl : 0 ≤ lmbda)
    (Wdf : Arr n) (hw : ∀ i, 0 ≤ Wdf i) (ge : Bool) :
    Implements (clsSpline axes S lmbda Wdf ge) (splineProblem axes S lmbda Wdf hw)
      (fun rho h => h = Gamma axes lmbda rho) := by
  refine ⟨fun _ _ _ => rfl, fun _ _ _ => rfl, fun _ _ => rfl, Or.inl fun _ _ _ _ => rfl,
    (keeps_spline axes S lmbda Wdf ge).sane.rn, (keeps_spline axes S lmbda Wdf ge).sane.sn,
    fun _ _ _ _ _ _ h => h, fun _ _ _ _ _ _ _ h => h, fun _ _ _ _ _ _ => rfl, ?_, ?_⟩
  · intro rho X Y U h hr hI
    refine ⟨trivial, fun z _ => ?_⟩
    subst hI
    have e : ∀ z : V n, 1 / 2 * ‖lapL axes lmbda z - 0‖ ^ 2 + rho / 2 * ‖z + -Y - S + U‖ ^ 2 =
        augSpline axes S.ofLp lmbda rho Y.ofLp U.ofLp z.ofLp := by
      intro z
      rw [sub_zero, lapL_norm axes lmbda hl, EuclideanSpace.norm_sq_eq]
      unfold augSpline
      congr 2
      refine sum_congr rfl fun i _ => ?_
      rw [Real.norm_eq_abs, sq_abs]
      rfl
    have hm := augSpline_margin axes hnd S lmbda rho hl hr X Y U z.ofLp
    have hnn : 0 ≤ rho / 2 * ∑ i, (z.ofLp i - (xstep axes S rho X Y U (Gamma axes lmbda rho)).1.ofLp i) ^ 2 := by
      positivity
    change 1 / 2 * ‖lapL axes lmbda (xstep axes S rho X Y U (Gamma axes lmbda rho)).1 - 0‖ ^ 2 +
        rho / 2 * ‖(xstep axes S rho X Y U (Gamma axes lmbda rho)).1 + -Y - S + U‖ ^ 2 ≤
      1 / 2 * ‖lapL axes lmbda z - 0‖ ^ 2 + rho / 2 * ‖z + -Y - S + U‖ ^ 2
    rw [e, e]
    linarith
  · intro rho AX X Y U h hr _
    exact ⟨trivial, fun z _ => ystep_min S Wdf hw rho hr AX X Y U h z⟩

theorem objSpline_eq (axes : List (Fin d)) (S : V n) (lmbda : ℝ) (hl : 0 ≤ lmbda) (Wdf : Arr n)
    (hw : ∀ i, 0 ≤ Wdf i) (x : V n) :
    objSpline axes S.ofLp lmbda Wdf x.ofLp =
      1 / 2 * ‖lapL axes lmbda x - 0‖ ^ 2 + 1 * l1w Wdf (x - S).ofLp := by
  rw [sub_zero, lapL_norm axes lmbda hl, add_comm]
  unfold objSpline l1w
  congr 1
  rw [one_mul]
  refine sum_congr rfl fun i _ => ?_
  rw [abs_mul, abs_of_nonneg (hw i)]
  rfl

/-- **C39 for `SplineL1`.** For every signal shape and set of axes, `λ ≥ 0` and positive
weights, fixed rho, relaxation parameter in (0, 2), from any start: the documented problem has
a minimiser, and the functional at the array `solve()` returns (X) tends to the minimum. -/
theorem C39_spline (axes : List (Fin d)) (hnd : axes.Nodup) (S : V n) (lmbda : ℝ) (hl : 0 ≤ lmbda)
    (Wdf : Arr n) (hw : ∀ i, 0 < Wdf i) (ge : Bool) (o : Opts) (ha : o.autoRho = false)
    (hrlx : 0 < o.rlx ∧ o.rlx < 2) (cb) (hcb : Bpdn.CallbackReads cb)
    (s : St (V n) (V n) (V n) (Arr n)) (hp : 0 < s.rho) (hs : s.extra = Gamma axes lmbda s.rho) :
    ∃ xopt : Arr n, IsMin (objSpline axes S.ofLp lmbda Wdf) Set.univ xopt ∧
      Tendsto (fun m => objSpline axes S.ofLp lmbda Wdf
        (traj (clsSpline axes S lmbda Wdf ge) o cb s m).X.ofLp)
        atTop (𝓝 (objSpline axes S.ofLp lmbda Wdf xopt)) := by
  have hw0 : ∀ i, 0 ≤ Wdf i := fun i => (hw i).le
  set g : V n → ℝ := fun y => 1 * l1w Wdf y.ofLp with hg
  set L : V n →L[ℝ] V n := lapL axes lmbda with hL
  obtain ⟨c, hc, hgrow⟩ := Bpdn.l1w_grow Wdf hw 1 one_pos
  obtain ⟨y, -, hmin⟩ := ls_exists_min L (-L S) g Set.univ isClosed_univ ⟨0, trivial⟩
    (continuous_const.mul (Bpdn.continuous_l1w Wdf)) c hc hgrow
  have hadj : ∀ x y, ⟪L x, y⟫ = ⟪x, L.adjoint y⟫ := fun x y => (ContinuousLinearMap.adjoint_inner_right L x y).symm
  have hsad0 := ls_saddle L L.adjoint hadj (-L S) g Set.univ
    (Bpdn.convex_l1w Wdf hw0 _ convex_univ 1 zero_le_one) y trivial hmin
  have hsad : (splineProblem axes S lmbda Wdf hw0).Saddle (y + S) y (-L.adjoint (L y - -L S)) := by
    refine ⟨trivial, trivial, ?_, fun z _ => ?_, fun w hw' => hsad0.ymin w hw'⟩
    · change y + S + -y = S; abel
    · have h := hsad0.xmin (z - S) trivial
      change 1 / 2 * ‖L y - -L S‖ ^ 2 + ⟪-L.adjoint (L y - -L S), y⟫ ≤
        1 / 2 * ‖L (z - S) - -L S‖ ^ 2 + ⟪-L.adjoint (L y - -L S), z - S⟫ at h
      change 1 / 2 * ‖L (y + S) - 0‖ ^ 2 + ⟪-L.adjoint (L y - -L S), y + S⟫ ≤
        1 / 2 * ‖L z - 0‖ ^ 2 + ⟪-L.adjoint (L y - -L S), z⟫
      rw [map_sub L z S, show L z - L S - -L S = L z by abel, inner_sub_right] at h
      rw [sub_zero, sub_zero, map_add L y S, inner_add_right, show L y + L S = L y - -L S by abel]
      linarith
  obtain ⟨h1, -, h3⟩ := C39_convergence (clsSpline axes S lmbda Wdf ge) (splineProblem axes S lmbda Wdf hw0) _
    (implements_spline axes hnd S lmbda hl Wdf hw0 ge) o ha hrlx cb (hcb.keeps _) s hp hs _ _ _ hsad
  set T := traj (clsSpline axes S lmbda Wdf ge) o cb s with hT
  refine ⟨(y + S).ofLp, ⟨trivial, fun z _ => ?_⟩, ?_⟩
  · rw [objSpline_eq axes S lmbda hl Wdf hw0, show objSpline axes S.ofLp lmbda Wdf z = objSpline axes S.ofLp lmbda Wdf
      (WithLp.toLp 2 z : V n).ofLp from rfl, objSpline_eq axes S lmbda hl Wdf hw0]
    have h := hmin (WithLp.toLp 2 z - S) trivial
    unfold lsObj at h
    rw [map_sub, show ∀ q : V n, q - L S - -L S = q - 0 from fun q => by abel,
      show L y - -L S = L (y + S) - 0 by rw [map_add]; abel] at h
    rw [show y + S - S = y by abel]
    exact h
  · -- g is Lipschitz, so the objective at X follows
    have hd : Tendsto (fun m => ‖(T m).AXnr + -(T m).Y - S‖) atTop (𝓝 0) := h1
    have hAX : ∀ m, (T (m + 1)).AXnr = (T (m + 1)).X := by
      intro m
      rw [hT, traj_succ, (oneIter_steps _ o ha cb _).2.2.2.2.1, (oneIter_steps _ o ha cb _).1]
      change (relaxAX _ _ _ _ _ _).2 = _
      unfold relaxAX
      simp only
      split_ifs <;> rfl
    refine (tendsto_add_atTop_iff_nat 1).1 ?_
    have h3' := (tendsto_add_atTop_iff_nat 1).2 h3
    have hd' := (tendsto_add_atTop_iff_nat 1).2 hd
    have hLip : ∀ a b : V n, |l1w Wdf a.ofLp - l1w Wdf b.ofLp| ≤ (∑ i, Wdf i) * ‖a - b‖ := by
      intro a b
      unfold l1w
      rw [← sum_sub_distrib, sum_mul]
      refine (abs_sum_le_sum_abs _ _).trans (sum_le_sum fun i _ => ?_)
      rw [← mul_sub, abs_mul, abs_of_pos (hw i)]
      refine mul_le_mul_of_nonneg_left ?_ (hw i).le
      refine (abs_norm_sub_norm_le _ _).trans ?_
      exact PiLp.norm_apply_le (a - b) i
    have hz : Tendsto (fun m => l1w Wdf ((T (m + 1)).X - S).ofLp - l1w Wdf (T (m + 1)).Y.ofLp) atTop (𝓝 0) := by
      have hb : Tendsto (fun m => (∑ i, Wdf i) * ‖(T (m + 1)).AXnr + -(T (m + 1)).Y - S‖) atTop (𝓝 0) := by
        simpa using hd'.const_mul (∑ i, Wdf i)
      refine squeeze_zero_norm (fun m => ?_) hb
      rw [Real.norm_eq_abs, hAX]
      refine (hLip _ _).trans (le_of_eq ?_)
      congr 2
      abel
    have hsum := h3'.add hz
    rw [add_zero] at hsum
    have e0 : (splineProblem axes S lmbda Wdf hw0).f (y + S) + (splineProblem axes S lmbda Wdf hw0).g y =
        objSpline axes S.ofLp lmbda Wdf (y + S).ofLp := by
      rw [objSpline_eq axes S lmbda hl Wdf hw0, show y + S - S = y by abel]; rfl
    rw [e0] at hsum
    refine hsum.congr fun m => ?_
    rw [objSpline_eq axes S lmbda hl Wdf hw0]
    change 1 / 2 * ‖lapL axes lmbda (T (m + 1)).X - 0‖ ^ 2 + 1 * l1w Wdf (T (m + 1)).Y.ofLp + _ = _
    ring

/-- The hypotheses are met by a 3 × 2 image with both axes; the operator is not trivial there. -/
example : ([0, 1] : List (Fin 2)).Nodup ∧
    D2 3 = !![-1, 1, 0; 1, -2, 1; 0, 1, -1] ∧ D2 1 = 0 := by
  refine ⟨by decide, ?_, ?_⟩
  · ext i j
    fin_cases i <;> fin_cases j <;> (simp [D2]; try norm_num)
  · ext i j
    fin_cases i; fin_cases j; simp [D2]

end Sporco.Spline
