import Verif.Admm.AutoConv
import Verif.Admm.BpdnConv
import Mathlib.Tactic.LinearCombination

/-!
# C88 for `BPDN`: convergence when rho settles, and a run that never converges
-/

set_option autoImplicit false

namespace Sporco.Admm.Bpdn

open Matrix Sporco.Linalg Sporco.Prox Filter Topology
open scoped RealInnerProductSpace

section Ls
variable {E F₁ : Type*} [NormedAddCommGroup E] [InnerProductSpace ℝ E] [NormedAddCommGroup F₁] [InnerProductSpace ℝ F₁]

/-- If ADMM runs exact steps on a least-squares problem with a non-negative regulariser and the changes of log rho are
summable, the objective at Y tends to its minimum. -/
theorem ls_convergence_auto {H : Type*} (L : E →L[ℝ] F₁) (LT : F₁ →L[ℝ] E)
    (hadj : ∀ x y, ⟪L x, y⟫ = ⟪x, LT y⟫) (b : F₁) (g : E → ℝ) (Dg : Set E) (hg : ConvexOn ℝ Dg g)
    (hg0 : ∀ y ∈ Dg, 0 ≤ g y) (C : Cls E E E H) (Inv : ℝ → H → Prop)
    (hC : Implements C (lsProblem L b g Dg hg) Inv) (o : Opts) (ho : o.autoRho = true → o.RhoOk)
    (hrlx : 0 < o.rlx ∧ o.rlx < 2) (cb) (hcb : CallbackKeeps Inv cb) (s : St E E E H) (hp : 0 < s.rho)
    (hI : Inv s.rho s.extra)
    (hsum : Summable fun n => |Real.log (traj C o cb s (n + 1)).rho - Real.log (traj C o cb s n).rho|) (x : E) (hx : x ∈ Dg)
    (hmin : ∀ z ∈ Dg, lsObj L b g x ≤ lsObj L b g z) :
    Tendsto (fun n => lsObj L b g (traj C o cb s n).Y) atTop (𝓝 (lsObj L b g x)) ∧
    (∀ n, (traj C o cb s (n + 1)).Y ∈ Dg) := by
  have hsad := ls_saddle L LT hadj b g Dg hg x hx hmin
  obtain ⟨h1, -, h3⟩ := C88_convergence_partial C _ Inv hC o ho hrlx cb hcb s hp hI hsum _ _ _ hsad
  set T := traj C o cb s with hT
  have hone : ∀ n, _ := fun n => oneIter_auto C o cb (T n)
    (by have h1 := (traj_inv hC o ho cb hcb s hp hI (n + 1)).1; rw [traj_succ] at h1; exact h1)
  have hmem : ∀ n, (T (n + 1)).Y ∈ Dg := by
    intro n
    have hinv := traj_inv hC o ho cb hcb s hp hI n
    have h2 := (steps_spec hC o (T n) hinv.1 hinv.2).2.2.2.2.1
    rw [hT, traj_succ, (hone n).2.1]
    exact h2
  refine ⟨?_, hmem⟩
  -- x - y tends to zero
  have hd : Tendsto (fun n => (T (n + 1)).Y - (T (n + 1)).X) atTop (𝓝 0) := by
    rw [tendsto_zero_iff_norm_tendsto_zero]
    refine h1.congr fun n => ?_
    have hinv := traj_inv hC o ho cb hcb s hp hI n
    have h2 := (steps_spec hC o (T n) hinv.1 hinv.2).2.2.1
    rw [hC.nrmR, h2, ← (hone n).1, ← (hone n).2.1, ← traj_succ, ← hT]
    simp only [rsdlR, lsProblem, _root_.neg_apply, ContinuousLinearMap.id_apply, sub_zero]
    rw [norm_sub_rev]
    congr 1
    abel
  have h3' := (tendsto_add_atTop_iff_nat 1).2 h3
  -- the data residual at x is bounded
  obtain ⟨K, hK⟩ := (h3'.bddAbove_range)
  have hbd : ∀ n, ‖L (T (n + 1)).X - b‖ ≤ 2 * |K| + 1 := by
    intro n
    have h := hK ⟨n, rfl⟩
    simp only [lsProblem] at h
    have h4 := hg0 _ (hmem n)
    have h5 : ‖L (T (n + 1)).X - b‖ ^ 2 ≤ 2 * |K| := by
      have := le_abs_self K
      linarith
    have := abs_nonneg K
    nlinarith [norm_nonneg (L (T (n + 1)).X - b)]
  have hLd : Tendsto (fun n => ‖L ((T (n + 1)).Y - (T (n + 1)).X)‖) atTop (𝓝 0) := by
    have := (L.continuous.tendsto 0).comp hd
    rw [map_zero] at this
    exact tendsto_zero_iff_norm_tendsto_zero.1 this
  have hin : Tendsto (fun n => ⟪L (T (n + 1)).X - b, L ((T (n + 1)).Y - (T (n + 1)).X)⟫) atTop (𝓝 0) := by
    have hz : Tendsto (fun n => (2 * |K| + 1) * ‖L ((T (n + 1)).Y - (T (n + 1)).X)‖) atTop (𝓝 0) := by
      simpa using hLd.const_mul (2 * |K| + 1)
    refine squeeze_zero_norm (fun n => ?_) hz
    exact (norm_inner_le_norm _ _).trans (mul_le_mul_of_nonneg_right (hbd n) (norm_nonneg _))
  refine (tendsto_add_atTop_iff_nat 1).1 ?_
  have hfin := (h3'.add hin).add ((hLd.pow 2).const_mul (1 / 2))
  simp only [zero_pow two_ne_zero, mul_zero, add_zero] at hfin
  refine hfin.congr fun n => ?_
  simp only [lsProblem, lsObj]
  rw [quad1 L b (T (n + 1)).X (T (n + 1)).Y]
  ring

end Ls

namespace AutoCycle

/-- A column vector with two entries, as an array. -/
noncomputable def vec (a b : ℝ) : Arr 2 1 := arr !![a; b]

theorem vec_0 (a b : ℝ) : vec a b (0, 0) = a := rfl
theorem vec_1 (a b : ℝ) : vec a b (1, 0) = b := rfl

theorem ext2 {v w : Arr 2 1} (h0 : v (0, 0) = w (0, 0)) (h1 : v (1, 0) = w (1, 0)) : v = w := by
  ext ⟨i, j⟩
  fin_cases i <;> fin_cases j <;> assumption

theorem vec_sub (a b c d : ℝ) : vec a b - vec c d = vec (a - c) (b - d) := ext2 rfl rfl
theorem smul_vec (c a b : ℝ) : c • vec a b = vec (c * a) (c * b) := ext2 rfl rfl

theorem norm_vec (a b : ℝ) : ‖vec a b‖ = Real.sqrt (a ^ 2 + b ^ 2) := by
  rw [← Real.sqrt_sq (norm_nonneg (vec a b))]
  congr 1
  unfold vec
  rw [norm_arr]
  simp [fro2, Fin.sum_univ_two]

/-- The dictionary: five rows, two atoms. -/
def D : Matrix (Fin 5) (Fin 2) ℝ := !![3, 1; 3, 1; 1, -1; 0, 6; 0, 1]

/-- The signal. -/
noncomputable def S : Matrix (Fin 5) (Fin 1) ℝ := !![0; 0; 12 / 25; 0; 29 / 50]

/-- `BPDN(D, S, 0.1)` with unit weights. -/
noncomputable abbrev C : Cls (Arr 2 1) (Arr 2 1) (Arr 2 1) (Attr 5 2 1) := clsBPDN S (1 / 10) (fun _ => 1) false false true

/-- The default options of `BPDN` (`bpdn.py` 100-115, 420-428, `admm.py` 150-165; the residual target `RsdlTarget` is 2 for
`lmbda = 0.1`), except for `AutoRho`: `Period` 1 and `AutoScaling` False. -/
noncomputable def opts : Opts where
  fastSolve := false
  maxMainIter := 1000
  absStopTol := 0
  relStopTol := 1 / 1000
  autoRho := true
  period := 1
  autoScaling := false
  stdResiduals := false
  Nx := 2
  Nc := 2
  tau := 1000
  mu := 6 / 5
  xi := 2
  rlx := 9 / 5

/-- The object at construction with options `rho` 0.7, `Y0` and `U0` as given. -/
noncomputable def start : St (Arr 2 1) (Arr 2 1) (Arr 2 1) (Attr 5 2 1) where
  X := 0
  Y := vec (35729 / 1341375) 0
  Yprev := vec (35729 / 1341375) 0
  U := vec (1 / 7) (79210 / 536550)
  AX := 0
  AXnr := 0
  rho := 7 / 10
  k := 0
  itstat := []
  extra := setdict S (7 / 10) D

abbrev State := St (Arr 2 1) (Arr 2 1) (Arr 2 1) (Attr 5 2 1)

/-- The part of the state that matters: rho, the first entry of Y (the second is zero) and the second entry of rho U (the
first is `lmbda`). -/
def At (s : State) (ρ y n : ℝ) : Prop :=
  s.rho = ρ ∧ s.Y = vec y 0 ∧ s.U = vec (1 / 10 / ρ) (n / ρ) ∧ s.extra = setdict S ρ D

/-- The equations of one iteration. -/
structure Lin (ρ y n a b y' n' : ℝ) : Prop where
  pos : 0 < ρ
  e1 : (19 + ρ) * a + 5 * b = 12 / 25 + ρ * y - 1 / 10
  e2 : 5 * a + (40 + ρ) * b = 1 / 10 - n
  hy : y' = 9 / 5 * a - 4 / 5 * y
  hn : n' = n + 9 / 5 * ρ * b
  y0 : 0 ≤ y'
  n1 : |n'| ≤ 1 / 10

theorem xstep_eq {ρ y n a b y' n' : ℝ} (h : Lin ρ y n a b y' n') (X : Arr 2 1) :
    (xstep ρ X (vec y 0) (vec (1 / 10 / ρ) (n / ρ)) (setdict S ρ D)).1 = vec a b := by
  have hm := choSolve_normal D ρ h.pos (Dᵀ * S + ρ • (mat (vec y 0) - mat (vec (1 / 10 / ρ) (n / ρ))))
  set x := (xstep ρ X (vec y 0) (vec (1 / 10 / ρ) (n / ρ)) (setdict S ρ D)).1 with hx
  have hx' : choSolveWith D ρ (Dᵀ * S + ρ • (mat (vec y 0) - mat (vec (1 / 10 / ρ) (n / ρ)))) (choFactor D ρ) = mat x := rfl
  rw [hx'] at hm
  have h0 := congrFun (congrFun hm 0) 0
  have h1 := congrFun (congrFun hm 1) 0
  have hp := h.pos.ne'
  simp [Matrix.mul_apply, Fin.sum_univ_succ, D, S, mat, vec, arr, Matrix.vecHead, Matrix.vecTail] at h0 h1
  have g0 : (19 + ρ) * x (0, 0) + 5 * x (1, 0) = 12 / 25 + ρ * y - 1 / 10 := by
    field_simp at h0 ⊢
    linarith
  have g1 : 5 * x (0, 0) + (40 + ρ) * x (1, 0) = 1 / 10 - n := by
    field_simp at h1 ⊢
    linarith
  have e1 := h.e1
  have e2 := h.e2
  have hdet : (19 + ρ) * (40 + ρ) - 25 ≠ 0 := by nlinarith [h.pos]
  refine ext2 ?_ ?_
  · rw [vec_0]
    refine mul_left_cancel₀ hdet ?_
    linear_combination (40 + ρ) * (g0 - e1) - 5 * (g1 - e2)
  · rw [vec_1]
    refine mul_left_cancel₀ hdet ?_
    linear_combination (19 + ρ) * (g1 - e2) - 5 * (g0 - e1)

theorem prox_active {v t : ℝ} (hv : 0 ≤ v) (ht : 0 < t) : proxL1 (v + t) t = v := by
  have : 0 < v + t := by linarith
  unfold proxL1 npSign
  rw [if_pos this, abs_of_pos this, one_mul, add_sub_cancel_right, max_eq_left hv]

theorem prox_zero {v t : ℝ} (hv : |v| ≤ t) : proxL1 v t = 0 := by
  unfold proxL1
  rw [max_eq_right (by linarith), mul_zero]

theorem steps_lin {s : State} {ρ y n a b y' n' : ℝ} (hs : At s ρ y n) (h : Lin ρ y n a b y' n') :
    (steps C opts s).X = vec a b ∧ (steps C opts s).AXnr = vec a b ∧ (steps C opts s).Yprev = vec y 0 ∧
    At (steps C opts s) ρ y' n' := by
  obtain ⟨h1, h2, h3, h4⟩ := hs
  have hX : (steps C opts s).X = vec a b := by
    change (xstep s.rho s.X s.Y s.U s.extra).1 = _
    rw [h1, h2, h3, h4]; exact xstep_eq h _
  have hAX : (steps C opts s).AX = vec y' (9 / 5 * b) := by
    change (Equal.relaxAX (9 / 5) (steps C opts s).X s.Y).1 = _
    rw [hX, h2]
    unfold Equal.relaxAX
    rw [if_neg (by norm_num)]
    refine ext2 ?_ ?_
    · change 9 / 5 * a + (1 - 9 / 5) * y = y'
      rw [h.hy]; ring
    · change 9 / 5 * b + (1 - 9 / 5) * 0 = 9 / 5 * b
      ring
  have hAXnr : (steps C opts s).AXnr = vec a b := by
    change (Equal.relaxAX (9 / 5) (steps C opts s).X s.Y).2 = _
    rw [hX]
    unfold Equal.relaxAX
    rw [if_neg (by norm_num)]
  have hp := h.pos
  have hY : (steps C opts s).Y = vec y' 0 := by
    change (ystepBPDN false (1 / 10) (fun _ => 1) s.rho (steps C opts s).AX (steps C opts s).X s.Y s.U s.extra).1 = _
    rw [hAX, h1, h3]
    refine ext2 ?_ ?_
    · change proxL1 (y' + 1 / 10 / ρ) (1 / 10 / ρ * 1) = y'
      rw [mul_one]
      exact prox_active h.y0 (by positivity)
    · change proxL1 (9 / 5 * b + n / ρ) (1 / 10 / ρ * 1) = 0
      rw [mul_one]
      refine prox_zero ?_
      have e : 9 / 5 * b + n / ρ = n' / ρ := by rw [h.hn]; field_simp; ring
      rw [e, abs_div, abs_of_pos hp]
      exact div_le_div_of_nonneg_right h.n1 hp.le
  refine ⟨hX, hAXnr, h2, h1, hY, ?_, h4⟩
  change s.U + ((steps C opts s).AX - (steps C opts s).Y) = _
  rw [hAX, hY, h3]
  refine ext2 ?_ ?_
  · change 1 / 10 / ρ + (y' - y') = 1 / 10 / ρ
    ring
  · change n / ρ + (9 / 5 * b - 0) = n' / ρ
    rw [h.hn]; field_simp; ring

/-! ## Residuals -/

theorem rsd_eq {t : State} {ρ a b y y' n' : ℝ} (hA : t.AXnr = vec a b) (hP : t.Yprev = vec y 0) (ht : At t ρ y' n')
    (hp : 0 < ρ) (hy : 0 < y') :
    (computeResiduals C opts t).r = ‖vec (a - y') b‖ / max ‖vec a b‖ ‖vec y' 0‖ ∧
    (computeResiduals C opts t).s = ρ * |y - y'| / ‖vec (1 / 10) n'‖ ∧
    (computeResiduals C opts t).epri = 1 / 1000 ∧ (computeResiduals C opts t).edua = 1 / 1000 := by
  obtain ⟨h1, h2, h3, -⟩ := ht
  have hn0 : ‖vec y' 0‖ = y' := by
    rw [norm_vec]; simp [Real.sqrt_sq hy.le]
  have e1 : C.rsdlRn t.AXnr t.Y = max ‖vec a b‖ ‖vec y' 0‖ := by rw [hA, h2]; rfl
  have e2 : C.rsdlSn t.rho t.U = ‖vec (1 / 10) n'‖ := by
    rw [h1, h3]
    change ρ * ‖vec (1 / 10 / ρ) (n' / ρ)‖ = _
    rw [← abs_of_pos hp, ← Real.norm_eq_abs, ← norm_smul, Real.norm_eq_abs, abs_of_pos hp, smul_vec,
      mul_div_cancel₀ _ hp.ne', mul_div_cancel₀ _ hp.ne']
  have e3 : C.nrmR t.AXnr t.Y = ‖vec (a - y') b‖ := by
    rw [hA, h2]
    change ‖vec a b - vec y' 0‖ = _
    rw [vec_sub, sub_zero]
  have e4 : C.nrmS t.rho t.Yprev t.Y t.U = ρ * |y - y'| := by
    rw [h1, hP, h2]
    change ‖ρ • (vec y 0 - vec y' 0)‖ = _
    rw [vec_sub, norm_smul, Real.norm_eq_abs, abs_of_pos hp, norm_vec, sub_zero]
    congr 1
    rw [show (y - y') ^ 2 + (0 : ℝ) ^ 2 = (y - y') ^ 2 by ring, Real.sqrt_sq_eq_abs]
  have n1 : max ‖vec a b‖ ‖vec y' 0‖ ≠ 0 := by
    have : 0 < max ‖vec a b‖ ‖vec y' 0‖ := lt_max_of_lt_right (by rw [hn0]; exact hy)
    exact this.ne'
  have n2 : ‖vec (1 / 10) n'‖ ≠ 0 := by
    rw [norm_vec]; positivity
  unfold computeResiduals
  simp only [e1, e2, e3, e4, if_neg n1, if_neg n2]
  simp [opts]

/-- Sizes for which rho goes up. -/
structure Up (ρ y a b y' n' : ℝ) : Prop where
  r : (1 / 250) ^ 2 ≤ (a - y') ^ 2 + b ^ 2
  x : a ^ 2 + b ^ 2 ≤ (1 / 40) ^ 2
  y0 : 0 < y'
  y1 : y' ≤ 1 / 40

theorem up_r {t : State} {ρ a b y y' n' : ℝ} (hA : t.AXnr = vec a b) (hP : t.Yprev = vec y 0) (ht : At t ρ y' n')
    (hp : 0 < ρ) (hu : Up ρ y a b y' n') : 4 / 25 ≤ (computeResiduals C opts t).r := by
  rw [(rsd_eq hA hP ht hp hu.y0).1]
  have h1 : 1 / 250 ≤ ‖vec (a - y') b‖ := by rw [norm_vec]; exact Real.le_sqrt_of_sq_le hu.r
  have h2 : ‖vec a b‖ ≤ 1 / 40 := by rw [norm_vec]; exact Real.sqrt_le_iff.2 ⟨by norm_num, hu.x⟩
  have h3 : ‖vec y' 0‖ = y' := by rw [norm_vec]; simp [Real.sqrt_sq hu.y0.le]
  have h4 : max ‖vec a b‖ ‖vec y' 0‖ ≤ 1 / 40 := max_le h2 (by rw [h3]; exact hu.y1)
  have h5 : 0 < max ‖vec a b‖ ‖vec y' 0‖ := lt_max_of_lt_right (by rw [h3]; exact hu.y0)
  rw [le_div_iff₀ h5]
  linarith

theorem up_s {t : State} {ρ a b y y' n' : ℝ} (hA : t.AXnr = vec a b) (hP : t.Yprev = vec y 0) (ht : At t ρ y' n')
    (hp : 0 < ρ) (hy : 0 < y') (hs : ρ * |y - y'| ≤ 6 / 1000) : (computeResiduals C opts t).s ≤ 6 / 100 := by
  rw [(rsd_eq hA hP ht hp hy).2.1]
  have h1 : 1 / 10 ≤ ‖vec (1 / 10) n'‖ := by
    rw [norm_vec]; exact Real.le_sqrt_of_sq_le (by nlinarith [sq_nonneg n'])
  rw [div_le_iff₀ (by linarith)]
  linarith

/-- Sizes for which rho goes down. -/
structure Down (ρ y a b y' n' : ℝ) : Prop where
  r : (a - y') ^ 2 + b ^ 2 ≤ (1 / 1000) ^ 2
  y0 : 16 / 1000 ≤ y'
  n : |n'| ≤ 1 / 10
  s : 126 / 1000 ≤ ρ * |y - y'|

theorem down_rs {t : State} {ρ a b y y' n' : ℝ} (hA : t.AXnr = vec a b) (hP : t.Yprev = vec y 0) (ht : At t ρ y' n')
    (hp : 0 < ρ) (hu : Down ρ y a b y' n') :
    (computeResiduals C opts t).r ≤ 1 / 16 ∧ 4 / 5 ≤ (computeResiduals C opts t).s := by
  have hy : 0 < y' := by have := hu.y0; linarith
  obtain ⟨g1, g2, -, -⟩ := rsd_eq hA hP ht hp hy
  rw [g1, g2]
  constructor
  · have h1 : ‖vec (a - y') b‖ ≤ 1 / 1000 := by rw [norm_vec]; exact Real.sqrt_le_iff.2 ⟨by norm_num, hu.r⟩
    have h3 : ‖vec y' 0‖ = y' := by rw [norm_vec]; simp [Real.sqrt_sq hy.le]
    have h4 : 16 / 1000 ≤ max ‖vec a b‖ ‖vec y' 0‖ := le_max_of_le_right (by rw [h3]; exact hu.y0)
    rw [div_le_iff₀ (by linarith)]
    linarith
  · have h1 : ‖vec (1 / 10) n'‖ ≤ 3 / 20 := by
      rw [norm_vec]
      refine Real.sqrt_le_iff.2 ⟨by norm_num, ?_⟩
      have := sq_le_sq' (by have := neg_abs_le n'; linarith [hu.n]) ((le_abs_self n').trans hu.n)
      linarith
    have h2 : 0 < ‖vec (1 / 10) n'‖ := by rw [norm_vec]; positivity
    rw [le_div_iff₀ h2]
    have := hu.s
    linarith

theorem rhomlt_opts (r s : ℝ) : rhomlt opts r s = 1000 := by
  unfold rhomlt; rw [if_neg (by simp [opts])]; rfl

theorem rsf_up {r s : ℝ} (hr : 4 / 25 ≤ r) (hs : s ≤ 6 / 100) : rsf opts r s = 1000 := by
  have h : r > opts.xi * opts.mu * s := by simp only [opts]; linarith
  unfold rsf
  rw [if_pos h, rhomlt_opts]

theorem rsf_down {r s : ℝ} (hr : r ≤ 1 / 16) (hs : 4 / 5 ≤ s) : rsf opts r s = 1 / 1000 := by
  have h : ¬ r > opts.xi * opts.mu * s := by simp only [opts]; linarith
  have h' : s > opts.mu / opts.xi * r := by simp only [opts]; linarith
  unfold rsf
  rw [if_neg h, if_pos h', rhomlt_opts]

/-! ## Iterations -/

theorem At.update {t : State} {ρ y n : ℝ} (h : At t ρ y n) (k : ℕ) (hk : k ≠ 0) (r s f : ℝ) (hf : rsf opts r s = f)
    (hf1 : f ≠ 1) (hf0 : f ≠ 0) (hp : ρ ≠ 0) : At (updateRho C opts k r s t) (ρ * f) y n := by
  obtain ⟨h1, h2, h3, h4⟩ := h
  have hc : opts.autoRho = true ∧ k ≠ 0 ∧ npMod (k + 1) opts.period = 0 :=
    ⟨rfl, hk, by simp [npMod, opts, Nat.mod_one]⟩
  unfold updateRho
  rw [if_pos hc]
  simp only [hf]
  rw [if_pos hf1]
  refine ⟨by rw [h1], h2, ?_, ?_⟩
  · change f⁻¹ • t.U = _
    rw [h3, smul_vec]
    congr 1
    · field_simp
    · field_simp
  · change rhochange (t.rho * f) t.extra = _
    rw [h4, h1]; rfl

theorem oneIter_none (s : State) : ∃ t : State, t.AXnr = (steps C opts s).AXnr ∧ t.Yprev = (steps C opts s).Yprev ∧
    (∀ ρ y n, At (steps C opts s) ρ y n → At t ρ y n) ∧
    (∀ ρ y n, At (updateRho C opts s.k (computeResiduals C opts (steps C opts s)).r
      (computeResiduals C opts (steps C opts s)).s t) ρ y n → At (oneIter C opts none s) ρ y n) :=
  ⟨{ steps C opts s with itstat := (steps C opts s).itstat ++ [⟨s.k, C.objfn (steps C opts s).X (steps C opts s).Y
      (steps C opts s).extra, computeResiduals C opts (steps C opts s), (steps C opts s).rho⟩] },
    rfl, rfl, fun _ _ _ h => h, fun _ _ _ h => h⟩

/-- One iteration after which rho is multiplied by 1000. -/
theorem iter_up {s : State} {ρ y n a b y' n' : ℝ} (hs : At s ρ y n) (hk : s.k ≠ 0) (h : Lin ρ y n a b y' n')
    (hu : Up ρ y a b y' n') (hd : ρ * |y - y'| ≤ 6 / 1000) : At (oneIter C opts none s) (ρ * 1000) y' n' := by
  obtain ⟨-, g1, g2, g3⟩ := steps_lin hs h
  obtain ⟨t, -, -, t3, t4⟩ := oneIter_none s
  exact t4 _ _ _ ((t3 _ _ _ g3).update s.k hk _ _ 1000 (rsf_up (up_r g1 g2 g3 h.pos hu) (up_s g1 g2 g3 h.pos hu.y0 hd))
    (by norm_num) (by norm_num) h.pos.ne')

/-- One iteration after which rho is divided by 1000. -/
theorem iter_down {s : State} {ρ y n a b y' n' : ℝ} (hs : At s ρ y n) (hk : s.k ≠ 0) (h : Lin ρ y n a b y' n')
    (hu : Down ρ y a b y' n') : At (oneIter C opts none s) (ρ * (1 / 1000)) y' n' := by
  obtain ⟨-, g1, g2, g3⟩ := steps_lin hs h
  obtain ⟨t, -, -, t3, t4⟩ := oneIter_none s
  obtain ⟨d1, d2⟩ := down_rs g1 g2 g3 h.pos hu
  exact t4 _ _ _ ((t3 _ _ _ g3).update s.k hk _ _ (1 / 1000) (rsf_down d1 d2)
    (by norm_num) (by norm_num) h.pos.ne')

/-- The first iteration, which never changes rho. -/
theorem iter_first {s : State} {ρ y n a b y' n' : ℝ} (hs : At s ρ y n) (hk : s.k = 0) (h : Lin ρ y n a b y' n') :
    At (oneIter C opts none s) ρ y' n' := by
  obtain ⟨-, -, -, g3⟩ := steps_lin hs h
  obtain ⟨t, -, -, t3, t4⟩ := oneIter_none s
  refine t4 _ _ _ ?_
  unfold updateRho
  rw [if_neg (by simp [hk])]
  exact t3 _ _ _ g3

theorem stops_iff (s : State) : StopsAfter C opts none s ↔ (computeResiduals C opts (steps C opts s)).below := by
  rw [C35_stop_condition]
  constructor
  · rintro (⟨f, hf, -⟩ | ⟨-, h⟩)
    · cases hf
    · exact h
  · exact fun h => Or.inr ⟨Or.inl rfl, h⟩

theorem no_stop_up {s : State} {ρ y n a b y' n' : ℝ} (hs : At s ρ y n) (h : Lin ρ y n a b y' n')
    (hu : Up ρ y a b y' n') : ¬ StopsAfter C opts none s := by
  obtain ⟨-, g1, g2, g3⟩ := steps_lin hs h
  rw [stops_iff]
  rintro ⟨h1, -⟩
  rw [(rsd_eq g1 g2 g3 h.pos hu.y0).2.2.1] at h1
  have := up_r g1 g2 g3 h.pos hu
  linarith

theorem no_stop_down {s : State} {ρ y n a b y' n' : ℝ} (hs : At s ρ y n) (h : Lin ρ y n a b y' n')
    (hu : Down ρ y a b y' n') : ¬ StopsAfter C opts none s := by
  obtain ⟨-, g1, g2, g3⟩ := steps_lin hs h
  rw [stops_iff]
  rintro ⟨-, h1⟩
  have hy : 0 < y' := by have := hu.y0; linarith
  rw [(rsd_eq g1 g2 g3 h.pos hy).2.2.2] at h1
  have := (down_rs g1 g2 g3 h.pos hu).2
  linarith

/-- The four states of the cycle. -/
def Ph : Fin 4 → State → Prop
  | 0, s => At s (7 / 10) (4 / 245) (1 / 10)
  | 1, s => At s 700 (263 / 11025) (61 / 630)
  | 2, s => At s (7 / 10) (29 / 1225) (-1 / 10)
  | 3, s => At s 700 (178 / 11025) (-61 / 630)

theorem lin_first : Lin (7 / 10) (35729 / 1341375) (7921 / 76650) (252416 / 12072375) (-256 / 96579) (4 / 245) (1 / 10) := by
  constructor <;> norm_num [abs_le]
theorem lin0 : Lin (7 / 10) (4 / 245) (1 / 10) (407 / 19845) (-10 / 3969) (263 / 11025) (61 / 630) := by
  constructor <;> norm_num [abs_le]
theorem lin1 : Lin 700 (263 / 11025) (61 / 630) (2357 / 99225) (-31 / 198450) (29 / 1225) (-1 / 10) := by
  constructor <;> norm_num [abs_le]
theorem lin2 : Lin (7 / 10) (29 / 1225) (-1 / 10) (1934 / 99225) (10 / 3969) (178 / 11025) (-61 / 630) := by
  constructor <;> norm_num [abs_le]
theorem lin3 : Lin 700 (178 / 11025) (-61 / 630) (1612 / 99225) (31 / 198450) (4 / 245) (1 / 10) := by
  constructor <;> norm_num [abs_le]

theorem up_first : Up (7 / 10) (35729 / 1341375) (252416 / 12072375) (-256 / 96579) (4 / 245) (1 / 10) := by
  constructor <;> norm_num
theorem up0 : Up (7 / 10) (4 / 245) (407 / 19845) (-10 / 3969) (263 / 11025) (61 / 630) := by
  constructor <;> norm_num
theorem up2 : Up (7 / 10) (29 / 1225) (1934 / 99225) (10 / 3969) (178 / 11025) (-61 / 630) := by
  constructor <;> norm_num
theorem down1 : Down 700 (263 / 11025) (2357 / 99225) (-31 / 198450) (29 / 1225) (-1 / 10) := by
  constructor <;> norm_num [abs_le, le_abs]
theorem down3 : Down 700 (178 / 11025) (1612 / 99225) (31 / 198450) (4 / 245) (1 / 10) := by
  constructor <;> norm_num [abs_le, le_abs]

theorem ph_next (i : Fin 4) (s : State) (hk : s.k ≠ 0) (h : Ph i s) :
    Ph (i + 1) (oneIter C opts none s) ∧ ¬ StopsAfter C opts none s := by
  fin_cases i
  · refine ⟨?_, no_stop_up h lin0 up0⟩
    have := iter_up h hk lin0 up0 (by norm_num [abs_le])
    rw [show (7 / 10 * 1000 : ℝ) = 700 by norm_num] at this
    exact this
  · refine ⟨?_, no_stop_down h lin1 down1⟩
    have := iter_down h hk lin1 down1
    rw [show (700 * (1 / 1000) : ℝ) = 7 / 10 by norm_num] at this
    exact this
  · refine ⟨?_, no_stop_up h lin2 up2⟩
    have := iter_up h hk lin2 up2 (by norm_num [abs_le])
    rw [show (7 / 10 * 1000 : ℝ) = 700 by norm_num] at this
    exact this
  · refine ⟨?_, no_stop_down h lin3 down3⟩
    have := iter_down h hk lin3 down3
    rw [show (700 * (1 / 1000) : ℝ) = 7 / 10 by norm_num] at this
    exact this

theorem at_start : At start (7 / 10) (35729 / 1341375) (7921 / 76650) := by
  refine ⟨rfl, rfl, ?_, rfl⟩
  change vec (1 / 7) (79210 / 536550) = _
  congr 1 <;> norm_num

theorem ph_traj (n : ℕ) : Ph (Fin.ofNat 4 n) (traj C opts none start (n + 1)) := by
  induction n with
  | zero =>
    exact iter_first at_start rfl lin_first
  | succ n ih =>
    rw [traj_succ]
    have := (ph_next _ _ (by rw [traj_k]; simp [start]) ih).1
    have e : (Fin.ofNat 4 n + 1 : Fin 4) = Fin.ofNat 4 (n + 1) := by
      ext; simp [Fin.val_add, Fin.ofNat]
    rw [e] at this
    exact this

theorem never_stops (n : ℕ) : ¬ StopsAfter C opts none (traj C opts none start n) := by
  cases n with
  | zero => exact no_stop_up at_start lin_first up_first
  | succ n => exact (ph_next _ _ (by rw [traj_k]; simp [start]) (ph_traj n)).2

/-- The functional at the points of the cycle. -/
theorem obj_vec (y : ℝ) (hy : 0 ≤ y) :
    objBPDN D S (1 / 10) (fun _ => 1) (mat (vec y 0)) =
      objBPDN D S (1 / 10) (fun _ => 1) (mat (vec (1 / 50) 0)) + 19 / 2 * (y - 1 / 50) ^ 2 := by
  simp only [objBPDN, fro2, l1wMat, Matrix.sub_apply, Matrix.mul_apply, Fin.sum_univ_succ, D, S, mat, vec, arr]
  simp [abs_of_nonneg hy]
  ring

theorem opt : IsMin (objBPDN D S (1 / 10) (fun _ => 1)) (allowed false) (mat (vec (1 / 50) 0)) := by
  refine ⟨by simp [allowed], fun Z _ => ?_⟩
  simp only [objBPDN, fro2, l1wMat, Matrix.sub_apply, Matrix.mul_apply, Fin.sum_univ_succ, D, S, mat, vec, arr]
  simp
  have h1 := le_abs_self (Z 0 0)
  have h2 := abs_nonneg (Z 1 0)
  nlinarith [sq_nonneg (3 * (Z 0 0 - 1 / 50) + Z 1 0), sq_nonneg (Z 0 0 - 1 / 50 - Z 1 0), sq_nonneg (Z 1 0)]

end AutoCycle

open AutoCycle in
/-- **C88, refuted as documented.** `BPDN` with `AutoRho` (enabled by default) need not converge. For the dictionary, signal
and start given above, `lmbda` 0.1, and default options but `AutoRho` `Period` 1 and `AutoScaling` False: no iteration stops
the solver, so every call of `solve()` runs for `MaxMainIter` iterations; the solution array repeats with period 4; and its
functional exceeds the minimum by more than 0.0001 for ever. With `AutoRho` disabled the same object converges. -/
theorem C88_bpdn_cycle_refuted :
    (∀ m, 1 ≤ m → (solve C { opts with maxMainIter := m } none start).k = m) ∧
    (∀ n, (traj C opts none start (n + 5)).Y = (traj C opts none start (n + 1)).Y) ∧
    (∃ Xopt, IsMin (objBPDN D S (1 / 10) (fun _ => 1)) (allowed false) Xopt ∧
      ∀ n, objBPDN D S (1 / 10) (fun _ => 1) Xopt + 1 / 10000 <
        objBPDN D S (1 / 10) (fun _ => 1) (mat (traj C opts none start (n + 1)).Y)) ∧
    (∃ Xopt, IsMin (objBPDN D S (1 / 10) (fun _ => 1)) (allowed false) Xopt ∧
      Tendsto (fun n => objBPDN D S (1 / 10) (fun _ => 1) (mat (traj C { opts with autoRho := false } none start n).Y))
        atTop (𝓝 (objBPDN D S (1 / 10) (fun _ => 1) Xopt))) := by
  refine ⟨fun m hm => ?_, fun n => ?_, ⟨_, opt, fun n => ?_⟩, ?_⟩
  · obtain ⟨n, a1, a2, -, a4, -, a6⟩ := C35_solve_partial C { opts with maxMainIter := m } none start hm
    rw [a4]
    change 0 + n = m
    by_contra hne
    have := a6 (by change n < m; change n ≤ m at a2; omega)
    rw [traj_max, StopsAfter_max] at this
    exact never_stops _ this
  · have h1 := ph_traj n
    have h2 := ph_traj (n + 4)
    have e : Fin.ofNat 4 (n + 4) = Fin.ofNat 4 n := by ext; simp [Fin.ofNat]
    rw [e] at h2
    revert h1 h2
    generalize Fin.ofNat 4 n = i
    intro h1 h2
    fin_cases i <;> exact h2.2.1.trans h1.2.1.symm
  · have h1 := ph_traj n
    revert h1
    generalize Fin.ofNat 4 n = i
    intro h1
    fin_cases i <;>
    · rw [h1.2.1]
      refine lt_of_lt_of_eq ?_ (obj_vec _ (by norm_num)).symm
      norm_num
  · obtain ⟨x, h1, h2, -⟩ := C39_bpdn D S (1 / 10) (by norm_num) (fun _ => 1) (fun _ => one_pos) false false true
      { opts with autoRho := false } rfl (by norm_num [opts]) none (fun f t h => by cases h) start (by norm_num [start]) rfl
    exact ⟨x, h1, h2⟩

/-- **C88 for `BPDN`.** For every dictionary and signal, positive `lmbda` and weights, with or without `NonNegCoef`, relaxation
parameter in (0, 2), from any start and with automatic changes of rho allowed: if rho stops changing (or the changes of log
rho are summable), the objective at the array `solve()` would return tends to the minimum. -/
theorem C88_bpdn_partial {N M K : ℕ} (D : Matrix (Fin N) (Fin M) ℝ) (S : Matrix (Fin N) (Fin K) ℝ) (lmbda : ℝ)
    (hl : 0 < lmbda) (w : Fin M × Fin K → ℝ) (hw : ∀ i, 0 < w i) (nonNeg fe ge : Bool)
    (o : Opts) (ho : o.autoRho = true → o.RhoOk) (hrlx : 0 < o.rlx ∧ o.rlx < 2)
    (cb) (hcb : CallbackReads cb) (s : St (Arr M K) (Arr M K) (Arr M K) (Attr N M K)) (hp : 0 < s.rho)
    (hs : s.extra = setdict S s.rho D)
    (hsum : Summable fun n => |Real.log (traj (clsBPDN S lmbda w nonNeg fe ge) o cb s (n + 1)).rho -
      Real.log (traj (clsBPDN S lmbda w nonNeg fe ge) o cb s n).rho|) :
    ∃ Xopt : Matrix (Fin M) (Fin K) ℝ, IsMin (objBPDN D S lmbda w) (allowed nonNeg) Xopt ∧
      Tendsto (fun n => objBPDN D S lmbda w (mat (traj (clsBPDN S lmbda w nonNeg fe ge) o cb s n).Y))
        atTop (𝓝 (objBPDN D S lmbda w Xopt)) ∧
      ∀ n, mat (traj (clsBPDN S lmbda w nonNeg fe ge) o cb s (n + 1)).Y ∈ allowed nonNeg := by
  set g : Arr M K → ℝ := fun y => lmbda * l1w w y.ofLp with hg
  have hobj : ∀ y : Arr M K, lsObj (dmul D) (arr S) g y = objBPDN D S lmbda w (mat y) := by
    intro y
    unfold lsObj objBPDN
    rw [dmul_apply, ← arr_sub, norm_arr, ← l1w_mat]
  obtain ⟨c, hc, hgrow⟩ := l1w_grow w hw lmbda hl
  obtain ⟨x, hx, hmin⟩ := ls_exists_min (dmul D) (arr S) g (coefs nonNeg) (closed_coefs nonNeg)
    ⟨0, zero_coefs nonNeg⟩ (continuous_const.mul (continuous_l1w w)) c hc hgrow
  have hconv := ls_convergence_auto (dmul D) (dmul Dᵀ) (dmul_adj D) (arr S) g (coefs nonNeg)
    (convex_l1w w (fun i => (hw i).le) _ (convex_coefs nonNeg) lmbda hl.le)
    (fun y _ => mul_nonneg hl.le (Finset.sum_nonneg fun i _ => mul_nonneg (hw i).le (norm_nonneg _)))
    (clsBPDN S lmbda w nonNeg fe ge) (Coh D S)
    (implements_bpdn D S lmbda hl.le w (fun i => (hw i).le) nonNeg fe ge) o ho hrlx cb (hcb.keeps _) s hp hs hsum
    x hx hmin
  refine ⟨mat x, ⟨(coefs_allowed nonNeg x).1 hx, fun Z hZ => ?_⟩, ?_, fun n => ?_⟩
  · have := hmin (arr Z) ((coefs_allowed nonNeg (arr Z)).2 hZ)
    rw [hobj, hobj] at this
    exact this
  · have := hconv.1
    simp only [hobj] at this
    exact this
  · exact (coefs_allowed nonNeg _).1 (hconv.2 n)

/-- The hypotheses are met with automatic updates switched on: the problem and start of the refutation with `Scaling` 1. -/
example : ∃ o : Opts, o.autoRho = true ∧ o.RhoOk ∧ (0 < o.rlx ∧ o.rlx < 2) ∧
    AutoCycle.start.extra = setdict AutoCycle.S AutoCycle.start.rho AutoCycle.D ∧
    Summable fun n => |Real.log (traj AutoCycle.C o none AutoCycle.start (n + 1)).rho -
      Real.log (traj AutoCycle.C o none AutoCycle.start n).rho| := by
  refine ⟨{ AutoCycle.opts with tau := 1 }, rfl, ⟨le_rfl, by norm_num [AutoCycle.opts], by norm_num [AutoCycle.opts]⟩,
    by norm_num [AutoCycle.opts], rfl, ?_⟩
  have h : ∀ r s : ℝ, rsf { AutoCycle.opts with tau := 1 } r s = 1 := by
    intro r s
    have : rhomlt { AutoCycle.opts with tau := 1 } r s = 1 := by
      unfold rhomlt; rw [if_neg (by simp [AutoCycle.opts])]
    unfold rsf
    rw [this]
    split_ifs <;> simp
  refine summable_zero.congr fun n => ?_
  rw [traj_succ, oneIter_rho, h, ite_self, mul_one, sub_self, abs_zero]

end Sporco.Admm.Bpdn
