import Verif.Admm.BpdnConv2

/-!
# `BPDNProjL1` with `NonNegCoef` does not solve its problem

The Y update projects onto the l1 ball and then sets the negative entries to zero, which is not the
projection onto the non-negative part of the ball.
-/

set_option autoImplicit false

namespace Sporco.Admm.Bpdn

open Matrix Sporco.Linalg Sporco.Prox Filter Topology

/-- A scalar linear recursion with contraction factor and convergent input converges. -/
theorem tendsto_recursion {e b : ℕ → ℝ} {q l : ℝ} (hq : |q| < 1)
    (h : ∀ n, e (n + 1) = q * e n + b n) (hb : Tendsto b atTop (𝓝 ((1 - q) * l))) :
    Tendsto e atTop (𝓝 l) := by
  rw [Metric.tendsto_atTop]
  intro ε hε
  have h1 : 0 < (1 - |q|) * (ε / 2) := mul_pos (by linarith) (by linarith)
  obtain ⟨n0, hn0⟩ := Metric.tendsto_atTop.1 hb _ h1
  have key : ∀ k, |e (n0 + k) - l| ≤ |q| ^ k * |e n0 - l| + ε / 2 := by
    intro k
    induction k with
    | zero => simp; linarith
    | succ k ih =>
      have e1 : e (n0 + (k + 1)) - l = q * (e (n0 + k) - l) + (b (n0 + k) - (1 - q) * l) := by
        rw [← add_assoc, h]; ring
      have h2 := hn0 (n0 + k) (by omega)
      rw [Real.dist_eq] at h2
      have h3 : |q * (e (n0 + k) - l)| ≤ |q| * (|q| ^ k * |e n0 - l| + ε / 2) := by
        rw [abs_mul]; exact mul_le_mul_of_nonneg_left ih (abs_nonneg _)
      rw [e1]
      refine (abs_add_le _ _).trans ?_
      rw [pow_succ]
      nlinarith
  have ht : Tendsto (fun k => |q| ^ k * |e n0 - l|) atTop (𝓝 0) := by
    have := (tendsto_pow_atTop_nhds_zero_of_lt_one (abs_nonneg q) hq).mul_const |e n0 - l|
    simpa using this
  obtain ⟨k0, hk0⟩ := (Metric.tendsto_atTop.1 ht) (ε / 2) (by linarith)
  refine ⟨n0 + k0, fun n hn => ?_⟩
  obtain ⟨k, rfl⟩ : ∃ k, n = n0 + k := ⟨n - n0, by omega⟩
  have h4 := hk0 k (by omega)
  rw [Real.dist_eq, sub_zero, abs_of_nonneg (by positivity)] at h4
  rw [Real.dist_eq]
  linarith [key k]

/-- The projection onto the l1 ball of radius 1/2 of a vector with entries of both signs. -/
theorem proj_two (v : Fin 2 → ℝ) (h1 : 1 / 2 ≤ v 0 - v 1) (h2 : -(1 / 2) ≤ v 0 + v 1)
    (h3 : v 0 + v 1 ≤ 1 / 2) :
    projL1SortAxis v (1 / 2) = ![(v 0 + v 1 + 1 / 2) / 2, (v 0 + v 1 - 1 / 2) / 2] := by
  have hm := C18_proj_l1_sort_axis (σ := Unit) (fun _ => v) (1 / 2) (by norm_num)
  by_contra hne
  have hmem : l1 (![(v 0 + v 1 + 1 / 2) / 2, (v 0 + v 1 - 1 / 2) / 2] : Fin 2 → ℝ) ≤ 1 / 2 := by
    simp only [l1, Fin.sum_univ_two, Matrix.cons_val_zero, Matrix.cons_val_one, Real.norm_eq_abs]
    rw [abs_of_nonneg (by linarith), abs_of_nonpos (by linarith)]
    linarith
  have h4 := hm.2 (fun _ => ![(v 0 + v 1 + 1 / 2) / 2, (v 0 + v 1 - 1 / 2) / 2]) (fun _ => hmem)
    (fun h => hne (congrFun h ()).symm)
  have h5 := hm.1 ()
  set p := projL1SortAxis v (1 / 2) with hp
  simp only [l1, Fin.sum_univ_two, Real.norm_eq_abs] at h5
  have h6 : p 0 - p 1 ≤ 1 / 2 := by
    have := le_abs_self (p 0); have := neg_le_abs (p 1); linarith
  simp only [Finset.univ_unique, Finset.sum_singleton, Prox.sq, Fin.sum_univ_two, Pi.sub_apply,
    Real.norm_eq_abs, sq_abs, Matrix.cons_val_zero, Matrix.cons_val_one] at h4
  nlinarith [sq_nonneg (p 0 - v 0 + (p 1 - v 1)), sq_nonneg (v 0 - v 1 - 1 / 2 - (p 0 - p 1 - 1/2))]

theorem proj_two' (v : Fin 2 → ℝ) (h1 : 0 ≤ v 0) (h2 : v 0 + v 1 ≤ -(1 / 2)) :
    projL1SortAxis v (1 / 2) = ![0, -(1 / 2)] := by
  have hm := C18_proj_l1_sort_axis (σ := Unit) (fun _ => v) (1 / 2) (by norm_num)
  by_contra hne
  have hmem : l1 (![0, -(1 / 2)] : Fin 2 → ℝ) ≤ 1 / 2 := by
    simp only [l1, Fin.sum_univ_two, Matrix.cons_val_zero, Matrix.cons_val_one, Real.norm_eq_abs]
    rw [abs_zero, abs_of_nonpos (by norm_num)]
    norm_num
  have h4 := hm.2 (fun _ => ![0, -(1 / 2)]) (fun _ => hmem) (fun h => hne (congrFun h ()).symm)
  have h5 := hm.1 ()
  set p := projL1SortAxis v (1 / 2) with hp
  simp only [l1, Fin.sum_univ_two, Real.norm_eq_abs] at h5
  have h6 : |p 0| ≤ p 1 + 1 / 2 := by
    have := neg_le_abs (p 1); linarith
  have h7 := le_abs_self (p 0)
  have h8 := abs_nonneg (p 0)
  simp only [Finset.univ_unique, Finset.sum_singleton, Prox.sq, Fin.sum_univ_two, Pi.sub_apply,
    Real.norm_eq_abs, sq_abs, Matrix.cons_val_zero, Matrix.cons_val_one] at h4
  have h9 : p 0 * v 0 ≤ |p 0| * v 0 := mul_le_mul_of_nonneg_right h7 h1
  have h10 : |p 0| * v 0 ≤ (p 1 + 1 / 2) * v 0 := mul_le_mul_of_nonneg_right h6 h1
  have h11 : (p 1 + 1 / 2) * v 0 ≤ (p 1 + 1 / 2) * (-(1 / 2) - v 1) :=
    mul_le_mul_of_nonneg_left (by linarith) (by linarith)
  nlinarith [sq_nonneg (p 0), sq_nonneg (p 1 + 1 / 2)]

/-- The first entry after setting negative entries to zero. -/
theorem clip_proj (v : Fin 2 → ℝ) (h0 : 0 ≤ v 0) (h1 : 1 / 2 ≤ v 0 - v 1) (h3 : v 0 + v 1 ≤ 1 / 2) :
    max 0 (projL1SortAxis v (1 / 2) 0) = max 0 ((v 0 + v 1 + 1 / 2) / 2) := by
  by_cases h2 : -(1 / 2) ≤ v 0 + v 1
  · rw [proj_two v h1 h2 h3]; rfl
  · rw [proj_two' v h0 (by linarith)]
    rw [max_eq_left (by linarith : (v 0 + v 1 + 1 / 2) / 2 ≤ 0)]
    exact max_self 0

/-- The dictionary `[1, -2]`. -/
def Dw : Matrix (Fin 1) (Fin 2) ℝ := !![1, -2]

/-- The signal 1. -/
def Sw : Matrix (Fin 1) (Fin 1) ℝ := !![1]

/-- The arrays that satisfy the constraints of the problem. -/
def feas : Set (Matrix (Fin 2) (Fin 1) ℝ) := {X | (∀ j, ∑ i, |X i j| ≤ 1 / 2) ∧ ∀ i j, 0 ≤ X i j}

theorem obj_w (X : Matrix (Fin 2) (Fin 1) ℝ) :
    1 / 2 * fro2 (Dw * X - Sw) = 1 / 2 * (X 0 0 - 2 * X 1 0 - 1) ^ 2 := by
  congr 1
  simp only [fro2, Finset.univ_unique, Finset.sum_singleton]
  have e : (Dw * X - Sw) default default = X 0 0 - 2 * X 1 0 - 1 := by
    change (Dw * X) 0 0 - Sw 0 0 = _
    rw [Matrix.mul_apply, Fin.sum_univ_two]
    simp [Dw, Sw]
    ring
  rw [e]

theorem min_w (X : Matrix (Fin 2) (Fin 1) ℝ) (hX : X ∈ feas) : 1 / 8 ≤ 1 / 2 * fro2 (Dw * X - Sw) := by
  rw [obj_w]
  have h1 := hX.1 0
  have h2 := hX.2 0 0
  have h3 := hX.2 1 0
  rw [Fin.sum_univ_two, abs_of_nonneg h2, abs_of_nonneg h3] at h1
  nlinarith

/-- If the objective tended to the minimum the sequence of recursions would be contradictory. -/
theorem no_limit {al r : ℝ} (hal : 0 < al ∧ al < 2) (hr : 0 < r) {x1 x2 y1 y2 u1 u2 : ℕ → ℝ}
    (hx1 : ∀ n, x1 n - 2 * x2 n + r * x1 n = 1 + r * (y1 n - u1 n))
    (hx2 : ∀ n, -2 * (x1 n - 2 * x2 n) + r * x2 n = -2 + r * (y2 n - u2 n))
    (hu1 : ∀ n, u1 (n + 1) = u1 n + (al * x1 n + (1 - al) * y1 n) - y1 (n + 1))
    (hu2 : ∀ n, u2 (n + 1) = u2 n + (al * x2 n + (1 - al) * y2 n) - y2 (n + 1))
    (hy : ∀ n, let v1 := al * x1 n + (1 - al) * y1 n + u1 n
      let v2 := al * x2 n + (1 - al) * y2 n + u2 n
      0 ≤ v1 → 1 / 2 ≤ v1 - v2 → v1 + v2 ≤ 1 / 2 → y1 (n + 1) = max 0 ((v1 + v2 + 1 / 2) / 2))
    (h1 : Tendsto y1 atTop (𝓝 (1 / 2))) (h2 : Tendsto y2 atTop (𝓝 0)) : False := by
  have s1 : Tendsto (fun n => y1 (n + 1)) atTop (𝓝 (1 / 2)) := h1.comp (tendsto_add_atTop_nat 1)
  have s2 : Tendsto (fun n => y2 (n + 1)) atTop (𝓝 0) := h2.comp (tendsto_add_atTop_nat 1)
  have hr5 : 0 < r + 5 := by linarith
  -- the component of U in the kernel of the dictionary
  have hk : Tendsto (fun n => 2 * u1 n + u2 n) atTop (𝓝 0) := by
    refine tendsto_recursion (q := 1 - al)
      (b := fun n => 2 * (y1 n - y1 (n + 1)) + (y2 n - y2 (n + 1)))
      (abs_lt.2 ⟨by linarith [hal.2], by linarith [hal.1]⟩) (fun n => ?_) ?_
    · have e : r * (2 * x1 n + x2 n) = r * (2 * (y1 n - u1 n) + (y2 n - u2 n)) := by
        linarith [hx1 n, hx2 n]
      have e := mul_left_cancel₀ hr.ne' e
      rw [hu1, hu2]
      linear_combination al * e
    · have := ((h1.sub s1).const_mul 2).add (h2.sub s2)
      simpa using this
  -- the component in the range
  have hp : Tendsto (fun n => u1 n - 2 * u2 n) atTop (𝓝 (5 / (2 * r))) := by
    refine tendsto_recursion (q := 1 - al * (r / (r + 5)))
      (b := fun n => (y1 n - 2 * y2 n - (y1 (n + 1) - 2 * y2 (n + 1))) +
        al * (5 / (r + 5)) * (1 - (y1 n - 2 * y2 n))) ?_ (fun n => ?_) ?_
    · have h3 : 0 < r / (r + 5) := by positivity
      have h4 : r / (r + 5) < 1 := by rw [div_lt_one hr5]; linarith
      rw [abs_lt]
      constructor <;> nlinarith [hal.1, hal.2, mul_pos hal.1 h3]
    · have e : (r + 5) * (x1 n - 2 * x2 n) = 5 + r * (y1 n - 2 * y2 n - (u1 n - 2 * u2 n)) := by
        linarith [hx1 n, hx2 n]
      have e2 : x1 n - 2 * x2 n = (5 + r * (y1 n - 2 * y2 n - (u1 n - 2 * u2 n))) / (r + 5) := by
        rw [eq_div_iff hr5.ne']; linarith
      rw [hu1, hu2]
      have e3 : u1 n + (al * x1 n + (1 - al) * y1 n) - y1 (n + 1) -
          2 * (u2 n + (al * x2 n + (1 - al) * y2 n) - y2 (n + 1)) =
          (u1 n - 2 * u2 n) + al * (x1 n - 2 * x2 n) + (1 - al) * (y1 n - 2 * y2 n) -
          (y1 (n + 1) - 2 * y2 (n + 1)) := by ring
      rw [e3, e2]
      field_simp
      ring
    · have h3 := (h1.sub (h2.const_mul 2))
      have h4 := (s1.sub (s2.const_mul 2))
      have h5 := (h3.sub h4).add ((h3.const_sub 1).const_mul (al * (5 / (r + 5))))
      have e : (1 - (1 - al * (r / (r + 5)))) * (5 / (2 * r)) =
          1 / 2 - 2 * 0 - (1 / 2 - 2 * 0) + al * (5 / (r + 5)) * (1 - (1 / 2 - 2 * 0)) := by
        field_simp
        ring
      rw [e]
      exact h5
  -- the arguments of the projection
  have hU1 : Tendsto (fun n => u1 (n + 1)) atTop (𝓝 (1 / (2 * r))) := by
    have h3 := (((hk.const_mul 2).add hp).mul_const (1 / 5)).comp (tendsto_add_atTop_nat 1)
    have e : (2 * 0 + 5 / (2 * r)) * (1 / 5) = 1 / (2 * r) := by field_simp; ring
    rw [e] at h3
    refine h3.congr fun n => ?_
    simp only [Function.comp]
    ring
  have hU2 : Tendsto (fun n => u2 (n + 1)) atTop (𝓝 (-(1 / r))) := by
    have h3 := ((hk.sub (hp.const_mul 2)).mul_const (1 / 5)).comp (tendsto_add_atTop_nat 1)
    have e : (0 - 2 * (5 / (2 * r))) * (1 / 5) = -(1 / r) := by field_simp; ring
    rw [e] at h3
    refine h3.congr fun n => ?_
    simp only [Function.comp]
    ring
  have hv1 : Tendsto (fun n => al * x1 n + (1 - al) * y1 n + u1 n) atTop (𝓝 (1 / (2 * r) + 1 / 2)) :=
    (hU1.add s1).congr fun n => by rw [hu1]; ring
  have hv2 : Tendsto (fun n => al * x2 n + (1 - al) * y2 n + u2 n) atTop (𝓝 (-(1 / r) + 0)) :=
    (hU2.add s2).congr fun n => by rw [hu2]; ring
  have hr' : 0 < 1 / r := by positivity
  have h12 : 1 / (2 * r) = 1 / 2 * (1 / r) := by field_simp
  -- the first entry of the projection is wrong in the limit
  have hlim : Tendsto (fun n => y1 (n + 1)) atTop
      (𝓝 (max 0 ((1 / (2 * r) + 1 / 2 + (-(1 / r) + 0) + 1 / 2) / 2))) := by
    refine Tendsto.congr' ?_ (tendsto_const_nhds.max (((hv1.add hv2).add_const (1 / 2)).div_const 2))
    have c1 := hv1.eventually_const_le (u := 0) (by rw [h12]; linarith)
    have c2 := (hv1.sub hv2).eventually_const_le (u := 1 / 2) (by rw [h12]; linarith)
    have c3 := (hv1.add hv2).eventually_le_const (u := 1 / 2) (by rw [h12]; linarith)
    filter_upwards [c1, c2, c3] with n b1 b2 b3
    exact (hy n b1 b2 b3).symm
  have := tendsto_nhds_unique hlim s1
  rw [h12] at this
  rcases max_choice 0 ((1 / 2 * (1 / r) + 1 / 2 + (-(1 / r) + 0) + 1 / 2) / 2) with h | h <;>
    rw [h] at this <;> linarith

/-- **C22 and C39, refuted for `BPDNProjL1` with `NonNegCoef`.** For the dictionary `[1, -2]`, the
signal 1 and `gamma = 1/2` the problem has a minimiser.  Whatever the penalty parameter, relaxation
parameter and start, the data term at the array that would be returned does not tend to its
minimum. -/
theorem C22_C39_projl1_nonneg_refuted :
    (∃ Xopt, IsMin (fun X => 1 / 2 * fro2 (Dw * X - Sw)) feas Xopt) ∧
    ∀ (fe ge : Bool) (o : Opts) (_ : o.autoRho = false) (_ : 0 < o.rlx ∧ o.rlx < 2)
      (cb) (_ : CallbackReads cb) (s : St (Arr 2 1) (Arr 2 1) (Arr 2 1) (Attr 1 2 1)) (_ : 0 < s.rho)
      (_ : s.extra = setdict Sw s.rho Dw) (Xopt : Matrix (Fin 2) (Fin 1) ℝ),
      IsMin (fun X => 1 / 2 * fro2 (Dw * X - Sw)) feas Xopt →
      ¬ Tendsto (fun n => 1 / 2 * fro2 (Dw * mat (traj (clsPrj Sw (1 / 2) true fe ge) o cb s n).Y - Sw))
        atTop (𝓝 (1 / 2 * fro2 (Dw * Xopt - Sw))) := by
  have hx0 : (!![1 / 2; 0] : Matrix (Fin 2) (Fin 1) ℝ) ∈ feas := by
    refine ⟨fun j => ?_, fun i j => ?_⟩
    · fin_cases j
      simp [Fin.sum_univ_two]
    · fin_cases i <;> fin_cases j <;> simp
  have hv0 : 1 / 2 * fro2 (Dw * (!![1 / 2; 0] : Matrix (Fin 2) (Fin 1) ℝ) - Sw) = 1 / 8 := by
    rw [obj_w]; simp; norm_num
  refine ⟨⟨!![1 / 2; 0], hx0, fun Z hZ => ?_⟩, ?_⟩
  · change 1 / 2 * fro2 _ ≤ 1 / 2 * fro2 _
    rw [hv0]; exact min_w Z hZ
  intro fe ge o ha hrlx cb hcb s hp hs Xo ⟨hXf, hXm⟩ ht
  have hval : 1 / 2 * fro2 (Dw * Xo - Sw) = 1 / 8 :=
    le_antisymm (by have := hXm _ hx0; simp only [hv0] at this; exact this) (min_w Xo hXf)
  rw [hval] at ht
  set C := clsPrj (M := 2) Sw (1 / 2) true fe ge with hC
  set T := traj C o cb s with hT
  have hinv : ∀ n, (T n).extra = setdict Sw s.rho Dw := by
    intro n
    have hk : Keeps C (Coh Dw Sw) := keeps_bpdn Dw Sw (ystepPrj true (1 / 2)) (fun _ _ _ _ _ _ => rfl) _
    have := (traj_keeps hk o (fun h => by simp [ha] at h) cb (hcb.keeps _) s hp hs n).2
    have h2 := traj_rho C o ha cb s n
    rw [hT, ← h2]; exact this
  have hrho : ∀ n, (T n).rho = s.rho := fun n => traj_rho C o ha cb s n
  -- one iteration
  have hst : ∀ n, (T (n + 1)).X = (xstep s.rho (T n).X (T n).Y (T n).U (setdict Sw s.rho Dw)).1 ∧
      (T (n + 1)).Y = (ystepPrj true (1 / 2) s.rho (o.rlx • (T (n + 1)).X + (1 - o.rlx) • (T n).Y)
        (T (n + 1)).X (T n).Y (T n).U (setdict Sw s.rho Dw)).1 ∧
      (T (n + 1)).U = (T n).U + (o.rlx • (T (n + 1)).X + (1 - o.rlx) • (T n).Y - (T (n + 1)).Y) := by
    intro n
    have h1 := oneIter_steps C o ha cb (T n)
    have hTs : T (n + 1) = oneIter C o cb (T n) := traj_succ C o cb s n
    rw [← hTs] at h1
    have hX : (steps C o (T n)).X = (xstep s.rho (T n).X (T n).Y (T n).U (setdict Sw s.rho Dw)).1 := by
      rw [← hinv n, ← hrho n]; rfl
    have hrel : ∀ X Y : Arr 2 1, (Equal.relaxAX o.rlx X Y).1 = o.rlx • X + (1 - o.rlx) • Y := by
      intro X Y
      unfold Equal.relaxAX
      split_ifs with hh
      · rw [hh]; simp
      · rfl
    have hY : (steps C o (T n)).Y = (ystepPrj true (1 / 2) s.rho
        (Equal.relaxAX o.rlx (steps C o (T n)).X (T n).Y).1
        (steps C o (T n)).X (T n).Y (T n).U (setdict Sw s.rho Dw)).1 := rfl
    have hU : (steps C o (T n)).U = (T n).U +
        ((Equal.relaxAX o.rlx (steps C o (T n)).X (T n).Y).1 - (steps C o (T n)).Y) := rfl
    rw [hrel] at hY hU
    refine ⟨h1.1.trans hX, ?_, ?_⟩
    · rw [h1.2.1, hY, h1.1]
    · rw [h1.2.2.1, hU, h1.1, h1.2.1]
  -- the entries of Y
  let v : ℕ → Fin 2 → ℝ := fun n i =>
    o.rlx * (T (n + 1)).X (i, 0) + (1 - o.rlx) * (T n).Y (i, 0) + (T n).U (i, 0)
  have hYe : ∀ n i, (T (n + 1)).Y (i, 0) = max 0 (projL1SortAxis (v n) (1 / 2) i) := by
    intro n i
    rw [(hst n).2.1]
    change clip (fun p : Fin 2 × Fin 1 => projL1SortAxis (fun i =>
      (o.rlx • (T (n + 1)).X + (1 - o.rlx) • (T n).Y + (T n).U).ofLp (i, p.2)) (1 / 2) p.1) (i, 0) = _
    unfold clip
    simp only
    have : (fun i => (o.rlx • (T (n + 1)).X + (1 - o.rlx) • (T n).Y + (T n).U).ofLp (i, 0)) = v n := rfl
    rw [this]
    split_ifs with hh
    · rw [max_eq_left hh.le]
    · rw [max_eq_right (not_lt.1 hh)]
  have hball : ∀ n, |projL1SortAxis (v n) (1 / 2) 0| + |projL1SortAxis (v n) (1 / 2) 1| ≤ 1 / 2 := by
    intro n
    have h1 := (C18_proj_l1_sort_axis (σ := Unit) (fun _ => v n) (1 / 2) (by norm_num)).1 ()
    simpa [l1, Fin.sum_univ_two] using h1
  have hmx : ∀ t : ℝ, max 0 t ≤ |t| := fun t => max_le (abs_nonneg _) (le_abs_self _)
  have hYf : ∀ n, 0 ≤ (T (n + 1)).Y (0, 0) ∧ 0 ≤ (T (n + 1)).Y (1, 0) ∧
      (T (n + 1)).Y (0, 0) + (T (n + 1)).Y (1, 0) ≤ 1 / 2 := by
    intro n
    rw [hYe, hYe]
    exact ⟨le_max_left _ _, le_max_left _ _, by
      have := hball n
      have := hmx (projL1SortAxis (v n) (1 / 2) 0)
      have := hmx (projL1SortAxis (v n) (1 / 2) 1)
      linarith⟩
  -- convergence of Y
  have ht1 : Tendsto (fun n => 1 / 2 * ((T (n + 1)).Y (0, 0) - 2 * (T (n + 1)).Y (1, 0) - 1) ^ 2) atTop
      (𝓝 (1 / 8)) :=
    (ht.comp (tendsto_add_atTop_nat 1)).congr fun n => obj_w _
  have hm : Tendsto (fun n => (T (n + 1)).Y (0, 0) - 2 * (T (n + 1)).Y (1, 0)) atTop (𝓝 (1 / 2)) := by
    have h1 := (Real.continuous_sqrt.tendsto _).comp (ht1.const_mul 2)
    have e1 : Real.sqrt (2 * (1 / 8)) = 1 / 2 := by
      rw [show (2 : ℝ) * (1 / 8) = (1 / 2) ^ 2 by norm_num]
      exact Real.sqrt_sq (by norm_num)
    rw [e1] at h1
    have h2 := h1.const_sub 1
    rw [show (1 : ℝ) - 1 / 2 = 1 / 2 by norm_num] at h2
    refine h2.congr fun n => ?_
    obtain ⟨a1, a2, a3⟩ := hYf n
    simp only [Function.comp]
    rw [show 2 * (1 / 2 * ((T (n + 1)).Y (0, 0) - 2 * (T (n + 1)).Y (1, 0) - 1) ^ 2) =
      (1 - ((T (n + 1)).Y (0, 0) - 2 * (T (n + 1)).Y (1, 0))) ^ 2 by ring, Real.sqrt_sq (by linarith)]
    ring
  have hy2 : Tendsto (fun n => (T (n + 1)).Y (1, 0)) atTop (𝓝 0) := by
    have h1 := (hm.const_sub (1 / 2)).div_const 3
    rw [show ((1 : ℝ) / 2 - 1 / 2) / 3 = 0 by norm_num] at h1
    refine tendsto_of_tendsto_of_tendsto_of_le_of_le tendsto_const_nhds h1 (fun n => (hYf n).2.1) fun n => ?_
    have := (hYf n).2.2
    simp only
    linarith
  have hy1 : Tendsto (fun n => (T (n + 1)).Y (0, 0)) atTop (𝓝 (1 / 2)) := by
    have h1 := hm.add (hy2.const_mul 2)
    rw [show (1 : ℝ) / 2 + 2 * 0 = 1 / 2 by norm_num] at h1
    exact h1.congr fun n => by ring
  -- the recursions
  have hno : ∀ n, Dwᵀ * (Dw * mat (T (n + 1)).X) + s.rho • mat (T (n + 1)).X =
      Dwᵀ * Sw + s.rho • (mat (T n).Y - mat (T n).U) := by
    intro n
    rw [(hst n).1]
    exact choSolve_normal Dw s.rho hp _
  have hent : ∀ n, (T (n + 1)).X (0, 0) - 2 * (T (n + 1)).X (1, 0) + s.rho * (T (n + 1)).X (0, 0) =
      1 + s.rho * ((T n).Y (0, 0) - (T n).U (0, 0)) ∧
      -2 * ((T (n + 1)).X (0, 0) - 2 * (T (n + 1)).X (1, 0)) + s.rho * (T (n + 1)).X (1, 0) =
      -2 + s.rho * ((T n).Y (1, 0) - (T n).U (1, 0)) := by
    intro n
    have hD : (Dw * mat (T (n + 1)).X) 0 0 = (T (n + 1)).X (0, 0) - 2 * (T (n + 1)).X (1, 0) := by
      rw [Matrix.mul_apply, Fin.sum_univ_two]
      simp [Dw, mat]
      ring
    constructor
    · have h1 := congrFun (congrFun (hno n) 0) 0
      simp only [Matrix.add_apply, Matrix.mul_apply (M := Dwᵀ), Matrix.smul_apply, Matrix.sub_apply,
        Finset.univ_unique, Finset.sum_singleton, Fin.default_eq_zero, hD, smul_eq_mul] at h1
      simp [Dw, Sw, mat] at h1
      linarith
    · have h1 := congrFun (congrFun (hno n) 1) 0
      simp only [Matrix.add_apply, Matrix.mul_apply (M := Dwᵀ), Matrix.smul_apply, Matrix.sub_apply,
        Finset.univ_unique, Finset.sum_singleton, Fin.default_eq_zero, hD, smul_eq_mul] at h1
      simp [Dw, Sw, mat] at h1
      linarith
  have hUe : ∀ n i, (T (n + 1)).U (i, 0) = (T n).U (i, 0) +
      (o.rlx * (T (n + 1)).X (i, 0) + (1 - o.rlx) * (T n).Y (i, 0)) - (T (n + 1)).Y (i, 0) := by
    intro n i
    rw [(hst n).2.2]
    change (T n).U (i, 0) + (o.rlx * (T (n + 1)).X (i, 0) + (1 - o.rlx) * (T n).Y (i, 0) -
      (T (n + 1)).Y (i, 0)) = _
    ring
  exact no_limit (x1 := fun n => (T (n + 1 + 1)).X (0, 0)) (x2 := fun n => (T (n + 1 + 1)).X (1, 0))
    (y1 := fun n => (T (n + 1)).Y (0, 0)) (y2 := fun n => (T (n + 1)).Y (1, 0))
    (u1 := fun n => (T (n + 1)).U (0, 0)) (u2 := fun n => (T (n + 1)).U (1, 0)) hrlx hp
    (fun n => (hent (n + 1)).1) (fun n => (hent (n + 1)).2) (fun n => hUe (n + 1) 0)
    (fun n => hUe (n + 1) 1)
    (fun n b1 b2 b3 => (hYe (n + 1) 0).trans (clip_proj (v (n + 1)) b1 b2 b3)) hy1 hy2

end Sporco.Admm.Bpdn
