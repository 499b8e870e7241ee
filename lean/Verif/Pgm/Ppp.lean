import Verif.Pgm.Cert

/-!
# The plug and play priors solver of `sporco/pgm/ppp.py` (C72)
-/

set_option autoImplicit false

namespace Sporco.Pgm.Ppp

variable {E : Type*} [NormedAddCommGroup E] [InnerProductSpace ℝ E]

/-! ## Model -/

/-- The methods of class `PPP` (`pgm/ppp.py` 23-152) constructed with `f`, `gradf`, `proxg`: `grad_f` (56-59), `prox_g`
(63-66) and `eval_objfn` (77-85), whose tuple has the single entry `FVal`, the value of `f`.  The class has no
`hessian_f` and no `obfn_f`, so that backtracking and the Cauchy step size policy raise an exception; the model is used
without them. -/
def cls (f : E → ℝ) (gradf : E → E) (proxg : E → ℝ → E) : Cls E :=
  ⟨gradf, fun L V => proxg V L, fun _ => 0, f, fun _ => 0⟩

/-- The object: `rsdl` (70-73) is overridden. -/
noncomputable def ppp (f : E → ℝ) (gradf : E → E) (proxg : E → ℝ → E) (o : Opts) : Ops (Vars E) :=
  { ops (cls f gradf proxg) o with rsdl := fun _ v => ‖v.X - v.Yprv‖ }

/-! ## Specification -/

/-- The equilibrium of the proximal gradient form of plug and play priors. -/
def Equilibrium (gradf : E → E) (proxg : E → ℝ → E) (L : ℝ) (x : E) : Prop := proxg (x - (1 / L) • gradf x) L = x

/-! ## Theorems -/

/-- Without backtracking, Monotone and step size policy the variables evolve as in a class that also knows `g`. -/
theorem traj_v_eq (f g : E → ℝ) (gradf : E → E) (proxg : E → ℝ → E) (o : Opts) (hb : o.backtrack = .none)
    (hp : o.policy = .none) (hm : o.monotone = false) (cb) (hcb : CallbackReads cb) (s : St (Vars E)) (n : ℕ) :
    (traj (ppp f gradf proxg o) o cb s n).v =
      (traj (ops ⟨gradf, fun L V => proxg V L, fun _ => 0, f, g⟩ o) o cb s n).v := by
  have hp' : o.stepPolicy = .none := by unfold Opts.stepPolicy; rw [hb]; exact hp
  induction n with
  | zero => rfl
  | succ n ih =>
    rw [traj_v_reads _ _ _ hcb, traj_v_reads _ _ _ hcb]
    unfold after
    rw [ih, traj_k, traj_k]
    generalize (traj (ops ⟨gradf, fun L V => proxg V L, fun _ => 0, f, g⟩ o) o cb s n).v = v
    change mainStep _ o _ (onStart _ o _ v) = mainStep _ o _ (onStart _ o _ v)
    unfold mainStep
    rw [hb]
    simp [onStart, xstep, xstepG, stepL, storeBB, hp', safeguard, hm, cls]

/-- **C72, `PPP` of `pgm/ppp.py`.** If `f` is convex with gradient `gradf` and Lipschitz constant at most the step
parameter `L`, and `proxg` is the proximal operator of a convex function `g`, then with the default options the
objective `f + g` of X after `k` iterations exceeds its minimum by at most `2 L ||x0 - x*||^2 / (k+1)^2`. -/
theorem C72_pgm_rate (f g : E → ℝ) (gradf : E → E) (proxg : E → ℝ → E) (Dg : Set E) (Lf : ℝ)
    (hsm : Smooth f gradf Lf) (hpr : ProxOf g Dg fun L V => proxg V L) (o : Opts)
    (hb : o.backtrack = .none) (hp : o.policy = .none) (hmom : o.momentum = .nesterov) (hm : o.monotone = false)
    (cb) (hcb : CallbackReads cb) (s : St (Vars E)) (hs : Fresh s) (hL : 0 < s.v.L) (hLf : Lf ≤ s.v.L)
    (xs : E) (hxs : xs ∈ Dg) (hmin : ∀ z ∈ Dg, f xs + g xs ≤ f z + g z) (k : ℕ) (hk : 1 ≤ k) :
    let X := (traj (ppp f gradf proxg o) o cb s k).v.X
    X ∈ Dg ∧ (f X + g X) - (f xs + g xs) ≤ 2 * s.v.L * ‖s.v.X - xs‖ ^ 2 / (k + 1) ^ 2 := by
  intro X
  have h := C45_rate ⟨gradf, fun L V => proxg V L, fun _ => 0, f, g⟩ Dg Lf ⟨hsm, hpr⟩ o hb hp hmom cb hcb s hs hL hLf
    (by rw [hm]; simp) xs hxs hmin k hk
  have e : X = iterX ⟨gradf, fun L V => proxg V L, fun _ => 0, f, g⟩ o cb s k := by
    change (traj (ppp f gradf proxg o) o cb s k).v.X = _
    rw [traj_v_eq f g gradf proxg o hb hp hm cb hcb s k]; rfl
  rw [e]
  exact h

/-- **C72, the statistics of `PPP`** (default options, any operators): each entry records the value of `f` at the
array X that the callback sees; and if the recorded residual is zero, that array is an equilibrium of the
operators. -/
theorem C72_pgm_recorded (f : E → ℝ) (gradf : E → E) (proxg : E → ℝ → E) (o : Opts) (hf : o.fastSolve = false)
    (hb : o.backtrack = .none) (hp : o.policy = .none) (hm : o.monotone = false)
    (cb : Option (St (Vars E) → Bool × Vars E)) (s : St (Vars E)) (n : ℕ) :
    let seen := atCallback (ppp f gradf proxg o) o (traj (ppp f gradf proxg o) o cb s n)
    ∃ e, seen.itstat.getLast? = some e ∧ e.iter = s.k + n ∧
      (traj (ppp f gradf proxg o) o cb s (n + 1)).itstat = seen.itstat ∧
      e.obj.1 = f seen.v.X ∧ e.L = seen.v.L ∧
      (e.rsdl = 0 → Equilibrium gradf proxg e.L seen.v.X) := by
  intro seen
  have hp' : o.stepPolicy = .none := by unfold Opts.stepPolicy; rw [hb]; exact hp
  have hs : seen = _ := C50_callback_view (ppp f gradf proxg o) o (traj (ppp f gradf proxg o) o cb s n) hf
  have hv : seen.v = after (ppp f gradf proxg o) (traj (ppp f gradf proxg o) o cb s n) := by rw [hs]
  refine ⟨entryOf (ppp f gradf proxg o) (traj (ppp f gradf proxg o) o cb s n), by rw [hs]; simp, ?_, ?_, ?_, ?_,
    fun hr => ?_⟩
  · exact traj_k _ _ _ _ _
  · rw [hs, traj_itstat, traj_itstat]
    simp [hf, List.range_succ]
  · rw [hv]
    simp [entryOf, ppp, ops, statOf, hm, Cls.objfn, cls]
  · rw [hv]; rfl
  · have hX : seen.v.X = proxg (seen.v.Yprv - (1 / seen.v.L) • gradf seen.v.Yprv) seen.v.L := by
      rw [hv]
      generalize traj (ppp f gradf proxg o) o cb s n = t
      simp [after, ppp, ops, mainStep, hb, ystep, xstep, xstepG, stepL, storeBB, hp', safeguard, onStart, hm, hf, cls]
    have hr' : ‖seen.v.X - seen.v.Yprv‖ = 0 := by rw [hv]; exact hr
    have he : seen.v.Yprv = seen.v.X := (sub_eq_zero.1 (norm_eq_zero.1 hr')).symm
    rw [he] at hX
    have hLe : (entryOf (ppp f gradf proxg o) (traj (ppp f gradf proxg o) o cb s n)).L = seen.v.L := by rw [hv]; rfl
    rw [hLe]
    exact hX.symm

/-! ## Concrete cases -/

/-- `proxg` of `(z - 2)^2 / 2`. -/
noncomputable def exProx (V L : ℝ) : ℝ := (2 + L * V) / (1 + L)

theorem exProx_is : ProxOf (fun z : ℝ => (z - 2) ^ 2 / 2) Set.univ (fun L V => exProx V L) := by
  refine ⟨⟨convex_univ, fun x _ y _ a b ha hb hab => ?_⟩, fun _ _ _ => trivial, fun L v hL z _ => ?_⟩
  · simp only [smul_eq_mul]
    have e : b = 1 - a := by linarith
    subst e
    nlinarith [mul_nonneg (mul_nonneg ha hb) (sq_nonneg (x - y))]
  · simp only [Real.norm_eq_abs, sq_abs]
    have h1 : (1 + L) ≠ 0 := by positivity
    have e : (2 + L * v) = (1 + L) * exProx v L := by unfold exProx; field_simp
    generalize exProx v L = p at e
    have hv : (p - 2) = L * (v - p) := by linarith
    have : (z - 2) ^ 2 / 2 + L / 2 * (z - v) ^ 2 - ((p - 2) ^ 2 / 2 + L / 2 * (p - v) ^ 2) =
        (1 + L) / 2 * (z - p) ^ 2 + (z - p) * ((p - 2) - L * (v - p)) := by ring
    have h2 : 0 ≤ (1 + L) / 2 * (z - p) ^ 2 := by positivity
    rw [hv, sub_self, mul_zero, add_zero] at this
    rw [hv]
    linarith

theorem exSmooth : Smooth (fun z : ℝ => z ^ 2 / 2) (fun z => z) 1 := by
  constructor
  · intro x y
    simp only [RCLike.inner_apply, conj_trivial]
    nlinarith [sq_nonneg (x - y)]
  · intro x y
    simp only [RCLike.inner_apply, conj_trivial, Real.norm_eq_abs, sq_abs]
    nlinarith

/-- Default options. -/
noncomputable def exOpt : Opts := ⟨false, 100, 0, false, 0, false, .nesterov, .none, .none⟩

/-- The hypotheses of `C72_pgm_rate` hold for `f = z^2/2`, `g = (z - 2)^2/2`, whose sum has its minimum at 1. -/
example (k : ℕ) (hk : 1 ≤ k) :
    let X := (traj (ppp (fun z : ℝ => z ^ 2 / 2) (fun z => z) exProx exOpt) exOpt .none (exAt 2 0) k).v.X
    (X ^ 2 / 2 + (X - 2) ^ 2 / 2) - 1 ≤ 4 / (k + 1) ^ 2 := by
  intro X
  have h := (C72_pgm_rate _ _ _ _ _ 1 exSmooth exProx_is exOpt rfl rfl rfl rfl .none (fun _ _ h => by cases h)
    (exAt 2 0) (exAt_fresh 2 0) (by norm_num [exAt]) (by norm_num [exAt]) 1 trivial
    (fun z _ => by nlinarith [sq_nonneg (z - 1)]) k hk).2
  change X ^ 2 / 2 + (X - 2) ^ 2 / 2 - (1 ^ 2 / 2 + (1 - 2) ^ 2 / 2) ≤ 2 * 2 * ‖(0 : ℝ) - 1‖ ^ 2 / (k + 1) ^ 2 at h
  norm_num at h
  linarith

/-- What the `Monotone` run below keeps. -/
structure Stuck (v : Vars ℝ) : Prop where
  X : v.X = 2 / 3
  objfn : v.objfn.1 = 0
  Ylo : 2 / 3 ≤ v.Y
  Yhi : v.Y ≤ 1
  t : 1 ≤ v.t
  L : v.L = 2

theorem le_nesterov {t : ℝ} (_ht : 1 ≤ t) : t ≤ nesterovUpdate t := by
  have h : 2 * t ≤ Real.sqrt (1 + 4 * t ^ 2) := by apply Real.le_sqrt_of_sq_le; nlinarith
  unfold nesterovUpdate
  linarith

theorem stuck_step {v : Vars ℝ} (h : Stuck v) (k : ℕ) (hk : 0 < k) :
    Stuck ((ppp (fun z : ℝ => z ^ 2 / 2) (fun z => z) exProx (exMono .nesterov)).step k
      ((ppp (fun z : ℝ => z ^ 2 / 2) (fun z => z) exProx (exMono .nesterov)).start k v)) := by
  obtain ⟨h1, h2, h3, h4, h5, h6⟩ := h
  have hz : exProx (v.Y - 2⁻¹ * v.Y) 2 = (2 + v.Y) / 3 := by unfold exProx; ring
  have hpos : 0 < ((2 + v.Y) / 3) ^ 2 / 2 := by positivity
  have hk' : k ≠ 0 := by omega
  have hn : v.t ≤ (exMono .nesterov).momentum.next k v.t := le_nesterov h5
  have hq0 : 0 ≤ v.t / (exMono .nesterov).momentum.next k v.t := by
    apply div_nonneg <;> linarith
  have hq1 : v.t / (exMono .nesterov).momentum.next k v.t ≤ 1 := by
    rw [div_le_one (by linarith)]; exact hn
  have hm : (exMono .nesterov).monotone = true := rfl
  have hb : (exMono .nesterov).backtrack = .none := rfl
  have hp : (exMono .nesterov).stepPolicy = .none := rfl
  have hf : (exMono .nesterov).fastSolve = false := rfl
  generalize exMono .nesterov = o at *
  have key : (ppp (fun z : ℝ => z ^ 2 / 2) (fun z => z) exProx o).step k
      ((ppp (fun z : ℝ => z ^ 2 / 2) (fun z => z) exProx o).start k v) = 
      { v with Xprv := v.X, Yprv := v.Y, objfnPrev := v.objfn, ZZ := (2 + v.Y) / 3, t := o.momentum.next k v.t,
               Y := 2 / 3 + (v.t / o.momentum.next k v.t) * ((2 + v.Y) / 3 - 2 / 3) } := by
    change mainStep _ o k (onStart _ o k v) = _
    unfold mainStep
    rw [hb]
    simp [onStart, xstep, xstepG, stepL, storeBB, hp, safeguard, hm, hf, cls, hk, hk', ystep, Cls.objfn, h6, h2, hz,
      hpos, h1]
  rw [key]
  refine ⟨h1, h2, ?_, ?_, by linarith, h6⟩
  · change 2 / 3 ≤ 2 / 3 + _ * _
    have : 0 ≤ v.t / o.momentum.next k v.t * ((2 + v.Y) / 3 - 2 / 3) := mul_nonneg hq0 (by linarith)
    linarith
  · change 2 / 3 + _ * _ ≤ 1
    have : v.t / o.momentum.next k v.t * ((2 + v.Y) / 3 - 2 / 3) ≤ 1 * (1 / 3) := 
      mul_le_mul hq1 (by linarith) (by linarith) (by norm_num)
    linarith

/-- **C72 does not hold with the `Monotone` option**: the safeguard compares the only objective value the class has,
that of `f`, and so rejects every step that trades `f` for `g`.  With `f = z^2/2`, `g = (z - 2)^2/2` and start 0, X is
`2/3` after every iteration, while the minimiser of `f + g`, and the only equilibrium, is 1. -/
theorem C72_pgm_monotone_refuted :
    let o := exMono .nesterov
    let f := fun z : ℝ => z ^ 2 / 2
    let g := fun z : ℝ => (z - 2) ^ 2 / 2
    Smooth f (fun z => z) 1 ∧ ProxOf g Set.univ (fun L V => exProx V L) ∧
      (∀ n, (traj (ppp f (fun z => z) exProx o) o .none (exAt 2 0) (n + 1)).v.X = 2 / 3) ∧
      (∀ z, f 1 + g 1 ≤ f z + g z) ∧ f 1 + g 1 < f (2 / 3) + g (2 / 3) ∧
      ∀ z, Equilibrium (fun z => z) exProx 2 z ↔ z = 1 := by
  intro o f g
  refine ⟨exSmooth, exProx_is, fun n => ?_, fun z => ?_, by norm_num [f, g], fun z => ?_⟩
  · suffices h : Stuck (traj (ppp f (fun z => z) exProx o) o .none (exAt 2 0) (n + 1)).v from h.X
    induction n with
    | zero =>
      rw [traj_v_reads _ _ _ (fun _ _ h => by cases h)]
      have hn : 1 ≤ o.momentum.next 0 (1 : ℝ) := le_nesterov (le_refl _)
      have key : after (ppp f (fun z => z) exProx o) (traj (ppp f (fun z => z) exProx o) o .none (exAt 2 0) 0) =
          { (exAt 2 0).v with X := 2 / 3, Y := 2 / 3, t := o.momentum.next 0 1 } := by
        have hm : o.monotone = true := rfl
        have hb : o.backtrack = .none := rfl
        have hp : o.stepPolicy = .none := rfl
        have hf : o.fastSolve = false := rfl
        unfold after
        rw [traj_zero]
        generalize o = o at *
        change mainStep _ o 0 (onStart _ o 0 _) = _
        unfold mainStep
        rw [hb]
        norm_num [onStart, xstep, xstepG, stepL, storeBB, hp, safeguard, hm, hf, cls, ystep, Cls.objfn, exAt, exProx, f]
      rw [key]
      exact ⟨rfl, rfl, le_refl _, by norm_num, hn, rfl⟩
    | succ n ih =>
      rw [traj_v_reads _ _ _ (fun _ _ h => by cases h)]
      unfold after
      rw [traj_k]
      exact stuck_step ih _ (by change 0 < 0 + (n + 1); omega)
  · simp only [f, g]; nlinarith [sq_nonneg (z - 1)]
  · unfold Equilibrium exProx
    constructor <;> intro h
    · simp only [smul_eq_mul] at h; linarith
    · subst h; norm_num

end Sporco.Pgm.Ppp
