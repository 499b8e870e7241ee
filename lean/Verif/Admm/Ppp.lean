import Verif.Admm.Firm
import Verif.Admm.Slater

/-!
# The plug and play priors solvers of `sporco/admm/ppp.py` (C72)
-/

set_option autoImplicit false

namespace Sporco.Admm.Ppp

open scoped RealInnerProductSpace
open Filter Topology

/-! ## Model -/

section Model
variable {E : Type*} [NormedAddCommGroup E] [InnerProductSpace ℝ E]

/-- Class `PPP` (`admm/ppp.py` 22-150) constructed with `f`, `proxf`, `proxg`: `xstep` (52-57), `ystep` (61-66) and
`eval_objfn` (70-78), whose tuple has the single entry `FVal`; the other two entries of the model are unused.  The
remaining methods are those of `ADMMEqual`. -/
noncomputable def cls (f : E → ℝ) (proxf proxg : E → ℝ → E) : Cls E E E Unit :=
  Cls.equal (fun rho _ Y U h => (proxf (Y - U) rho, h)) (fun rho AX _ _ U h => (proxg (AX + U) rho, h))
    (fun _ h => h) (fun X _ _ => (f X, 0, 0))

variable {Nb : ℕ}

/-- `self.X[..., i] = self.prox_fi(self.Y - self.U[..., i], self.rho, i)` (`admm/ppp.py` 219-224) with `prox_fi` of
`PPPConsensus` (294-299). -/
noncomputable def xistep (proxfi : Fin Nb → E → ℝ → E) (rho : ℝ) (Y : E) (U : Blocks E Nb) (X : Blocks E Nb)
    (i : Fin Nb) : Blocks E Nb :=
  WithLp.toLp 2 (Function.update X.ofLp i (proxfi i (Y - U i) rho))

/-- `ADMMConsensus.xstep` (`admm/admm.py` 1563-1570): `xistep` for each block in turn. -/
noncomputable def xstepC (proxfi : Fin Nb → E → ℝ → E) (rho : ℝ) (Y : E) (U X : Blocks E Nb) : Blocks E Nb :=
  (List.finRange Nb).foldl (xistep proxfi rho Y U) X

/-- The weights after `__init__` (`admm/ppp.py` 183-191). -/
noncomputable def weights (mu : Option (Fin Nb → ℝ)) : Fin Nb → ℝ := mu.getD fun _ => 1

/-- `prox_g` after `__init__` (`admm/ppp.py` 242-253, 286-288). -/
def proxG (proxg : Option (E → ℝ → E)) : E → ℝ → E := proxg.getD fun X _ => X

/-- Class `PPPConsensus` (`admm/ppp.py` 156-299) on top of `WeightedADMMConsensus`.  `eval_objfn` (207-215) returns
the empty tuple; the entries of the model are unused. -/
noncomputable def clsC (proxfi : Fin Nb → E → ℝ → E) (proxg : Option (E → ℝ → E)) (mu : Option (Fin Nb → ℝ)) :
    Cls (Blocks E Nb) E (Blocks E Nb) Unit where
  xstep rho X Y U h := (xstepC proxfi rho Y U X, h)
  ystep rho AX _ _ U h := (WConsensus.ystep (weights mu) (proxG proxg) rho AX U, h)
  relax := Consensus.relaxAX
  ustep := WConsensus.ustep
  nrmR AX Y := ‖WConsensus.rsdlR (weights mu) AX Y‖
  nrmS rho Yprev Y _ := ‖WConsensus.rsdlS (weights mu) rho Yprev Y‖
  rsdlRn := WConsensus.rsdlRn (weights mu)
  rsdlSn := WConsensus.rsdlSn
  rhochange _ h := h
  objfn _ _ _ := (0, 0, 0)

end Model

/-! ## Specification -/

section Spec
variable {E : Type*} [NormedAddCommGroup E] [InnerProductSpace ℝ E]

/-- The equilibrium of plug and play priors: the data operator moved by `-u` and the prior moved by `u` agree
on `x`. -/
def Equilibrium (F G : E → E) (x u : E) : Prop := F (x - u) = x ∧ G (x + u) = x

/-- The consensus equilibrium of several operators `Fi` with weights `mu` and the additional operator `G`. -/
def EquilibriumC {Nb : ℕ} (Fi : Fin Nb → E → E) (mu : Fin Nb → ℝ) (G : E → E) (x : E) (u : Fin Nb → E) : Prop :=
  (∀ i, Fi i (x - u i) = x) ∧ G (x + (∑ i, mu i)⁻¹ • ∑ i, mu i • u i) = x

/-- `x` minimises `h` over the set `D`. -/
def IsArgmin (h : E → ℝ) (D : Set E) (x : E) : Prop := x ∈ D ∧ ∀ z ∈ D, h x ≤ h z

end Spec

/-! ## `PPP` -/

section Single
variable {E : Type*} [NormedAddCommGroup E] [InnerProductSpace ℝ E]

theorem relax_eq (al : ℝ) (X Y : E) : (Equal.relaxAX al X Y).1 = al • X + (1 - al) • Y := by
  unfold Equal.relaxAX
  split_ifs with h
  · subst h; simp
  · rfl

theorem relax_nr (al : ℝ) (X Y : E) : (Equal.relaxAX al X Y).2 = X := by
  unfold Equal.relaxAX
  split_ifs <;> rfl

/-- The iterates of `PPP` with fixed rho. -/
theorem traj_eq (f : E → ℝ) (proxf proxg : E → ℝ → E) (o : Opts) (ha : o.autoRho = false) (cb)
    (s : St E E E Unit) (n : ℕ) :
    let T := traj (cls f proxf proxg) o cb s
    (T (n + 1)).X = proxf ((T n).Y - (T n).U) s.rho ∧
    (T (n + 1)).Y = proxg (o.rlx • (T (n + 1)).X + (1 - o.rlx) • (T n).Y + (T n).U) s.rho ∧
    (T (n + 1)).U = (T n).U + (o.rlx • (T (n + 1)).X + (1 - o.rlx) • (T n).Y) - (T (n + 1)).Y ∧
    (T (n + 1)).AXnr = (T (n + 1)).X ∧ (T (n + 1)).Yprev = (T n).Y := by
  simp only
  have hr := traj_rho (cls f proxf proxg) o ha cb s n
  obtain ⟨h1, h2, h3, h4, h5, h6⟩ := oneIter_steps (cls f proxf proxg) o ha cb (traj (cls f proxf proxg) o cb s n)
  rw [traj_succ, h1, h2, h3, h5, h6]
  generalize traj (cls f proxf proxg) o cb s n = t at hr
  have hX : (steps (cls f proxf proxg) o t).X = proxf (t.Y - t.U) t.rho := rfl
  have hA : (steps (cls f proxf proxg) o t).AX = (Equal.relaxAX o.rlx (steps (cls f proxf proxg) o t).X t.Y).1 := rfl
  have hAn : (steps (cls f proxf proxg) o t).AXnr = (Equal.relaxAX o.rlx (steps (cls f proxf proxg) o t).X t.Y).2 := rfl
  have hY : (steps (cls f proxf proxg) o t).Y = proxg ((steps (cls f proxf proxg) o t).AX + t.U) t.rho := rfl
  have hU : (steps (cls f proxf proxg) o t).U =
    t.U + ((steps (cls f proxf proxg) o t).AX - (steps (cls f proxf proxg) o t).Y) := rfl
  rw [relax_eq] at hA
  rw [relax_nr] at hAn
  refine ⟨by rw [hX, hr], by rw [hY, hA, hr], by rw [hU, hA]; abel, hAn, rfl⟩

/-- **C72, `PPP`.** For operators `proxf`, `proxg` that are firmly non-expansive at the penalty parameter in use
(every proximal operator of a convex function is, and so are many denoisers that are no proximal operators), with
rho fixed and relaxation parameter in (0, 2): if an equilibrium exists, then from any start the iterates X and Y
converge to the same array `x`, U converges to `u`, `(x, u)` is an equilibrium, and both residuals tend to zero. -/
theorem C72_ppp [FiniteDimensional ℝ E] (f : E → ℝ) (proxf proxg : E → ℝ → E) (o : Opts)
    (ha : o.autoRho = false) (hrlx : 0 < o.rlx ∧ o.rlx < 2) (cb) (s : St E E E Unit)
    (hF : Firm fun v => proxf v s.rho) (hG : Firm fun v => proxg v s.rho)
    (hex : ∃ x u, Equilibrium (fun v => proxf v s.rho) (fun v => proxg v s.rho) x u) :
    let C := cls f proxf proxg
    let T := traj C o cb s
    ∃ x u, Equilibrium (fun v => proxf v s.rho) (fun v => proxg v s.rho) x u ∧
      Tendsto (fun n => (T n).X) atTop (𝓝 x) ∧ Tendsto (fun n => (T n).Y) atTop (𝓝 x) ∧
      Tendsto (fun n => (T n).U) atTop (𝓝 u) ∧
      Tendsto (fun n => C.nrmR (T n).AXnr (T n).Y) atTop (𝓝 0) ∧
      Tendsto (fun n => C.nrmS (T n).rho (T n).Yprev (T n).Y (T n).U) atTop (𝓝 0) := by
  intro C T
  obtain ⟨xs, us, h1, h2⟩ := hex
  have ht := traj_eq f proxf proxg o ha cb s
  obtain ⟨x, u, e1, e2, l1, l2, l3⟩ := admm_firm_tendsto hF hG o.rlx hrlx (fun n => (T n).X) (fun n => (T n).Y)
    (fun n => (T n).U) (fun n => (ht n).1) (fun n => (ht n).2.1) (fun n => (ht n).2.2.1) xs us h1 h2
  refine ⟨x, u, ⟨e1, e2⟩, l1, l2, l3, ?_, ?_⟩
  · refine (tendsto_add_atTop_iff_nat 1).1 ?_
    have h := ((tendsto_add_atTop_iff_nat 1).2 l1).sub ((tendsto_add_atTop_iff_nat 1).2 l2)
    rw [sub_self] at h
    have := h.norm
    rw [norm_zero] at this
    refine this.congr fun n => ?_
    change _ = ‖(T (n + 1)).AXnr - (T (n + 1)).Y‖
    rw [show (T (n + 1)).AXnr = (T (n + 1)).X from (ht n).2.2.2.1]
  · refine (tendsto_add_atTop_iff_nat 1).1 ?_
    have h := (l2.sub ((tendsto_add_atTop_iff_nat 1).2 l2)).const_smul s.rho
    rw [sub_self, smul_zero] at h
    have := h.norm
    rw [norm_zero] at this
    refine this.congr fun n => ?_
    change _ = ‖(T (n + 1)).rho • ((T (n + 1)).Yprev - (T (n + 1)).Y)‖
    rw [show (T (n + 1)).Yprev = (T n).Y from (ht n).2.2.2.2,
      show (T (n + 1)).rho = s.rho from traj_rho C o ha cb s (n + 1)]

theorem prox_eq {g : E → ℝ} {D : Set E} {prox : E → ℝ → E} (hp : IsProxG g D prox) {rho : ℝ} (hr : 0 < rho)
    (v x : E) (hx : x ∈ D) (h : ∀ z ∈ D, g x + rho * ⟪v - x, z - x⟫ ≤ g z) : prox v rho = x := by
  obtain ⟨hm, hmin⟩ := hp v rho hr
  have h1 := h _ hm
  have h2 := hmin x hx
  have e : ‖prox v rho - v‖ ^ 2 = ‖prox v rho - x‖ ^ 2 - 2 * ⟪v - x, prox v rho - x⟫ + ‖x - v‖ ^ 2 := by
    rw [show prox v rho - v = (prox v rho - x) - (v - x) by abel, norm_sub_sq_real, norm_sub_rev v x,
      real_inner_comm]
  rw [e] at h2
  have h3 : rho / 2 * ‖prox v rho - x‖ ^ 2 ≤ 0 := by nlinarith
  have h4 : ‖prox v rho - x‖ ^ 2 ≤ 0 := by
    by_contra hc
    push Not at hc
    have := mul_pos (half_pos hr) hc
    linarith
  have h5 : ‖prox v rho - x‖ = 0 := by
    have := sq_nonneg ‖prox v rho - x‖
    exact pow_eq_zero_iff (two_ne_zero) |>.1 (le_antisymm h4 this)
  exact sub_eq_zero.1 (norm_eq_zero.1 h5)

/-- An equilibrium of two proximal operators minimises the sum of the functions. -/
theorem equilibrium_argmin {f g : E → ℝ} {Df Dg : Set E} (hf : ConvexOn ℝ Df f) (hg : ConvexOn ℝ Dg g)
    {proxf proxg : E → ℝ → E} (hpf : IsProxG f Df proxf) (hpg : IsProxG g Dg proxg) {rho : ℝ} (hr : 0 < rho)
    {x u : E} (he : Equilibrium (fun v => proxf v rho) (fun v => proxg v rho) x u) :
    IsArgmin (fun z => f z + g z) (Df ∩ Dg) x := by
  obtain ⟨h1, h2⟩ := he
  simp only at h1 h2
  refine ⟨⟨?_, ?_⟩, fun z hz => ?_⟩
  · rw [← h1]; exact (hpf _ _ hr).1
  · rw [← h2]; exact (hpg _ _ hr).1
  · have a1 := prox_subgrad hf hpf hr (x - u) hz.1
    have a2 := prox_subgrad hg hpg hr (x + u) hz.2
    rw [h1, sub_sub_cancel_left, inner_neg_left] at a1
    rw [h2, add_sub_cancel_left] at a2
    change f x + g x ≤ f z + g z
    linarith

/-- A minimiser of the sum is the first component of an equilibrium of the proximal operators, if `dom f` meets the
interior of `dom g`. -/
theorem argmin_equilibrium [FiniteDimensional ℝ E] {f g : E → ℝ} {Df Dg : Set E} (hf : ConvexOn ℝ Df f)
    (hg : ConvexOn ℝ Dg g) {proxf proxg : E → ℝ → E} (hpf : IsProxG f Df proxf) (hpg : IsProxG g Dg proxg) {rho : ℝ}
    (hr : 0 < rho) (hq : (Df ∩ interior Dg).Nonempty) {x : E} (hx : IsArgmin (fun z => f z + g z) (Df ∩ Dg) x) :
    ∃ u, Equilibrium (fun v => proxf v rho) (fun v => proxg v rho) x u := by
  obtain ⟨xb, hb1, hb2⟩ := hq
  obtain ⟨l, hl⟩ := exists_multiplier (ContinuousLinearMap.id ℝ E) 0 f Df g Dg hf hg (f x + g x)
    (fun z hz hz2 => by
      have e : (ContinuousLinearMap.id ℝ E) z - 0 = z := by simp
      rw [e] at hz2 ⊢
      exact hx.2 z ⟨hz, hz2⟩) xb hb1 (by simpa using hb2)
  have e : ∀ z w : E, (ContinuousLinearMap.id ℝ E) z - w - 0 = z - w := fun z w => by simp
  simp only [e] at hl
  refine ⟨rho⁻¹ • l, prox_eq hpf hr _ _ hx.1.1 fun z hz => ?_, prox_eq hpg hr _ _ hx.1.2 fun z hz => ?_⟩
  · have := hl z hz x hx.1.2
    rw [sub_sub_cancel_left, inner_neg_left, real_inner_smul_left, mul_neg, ← mul_assoc, mul_inv_cancel₀ hr.ne',
      one_mul]
    linarith
  · have := hl x hx.1.1 z hz
    rw [add_sub_cancel_left, real_inner_smul_left, ← mul_assoc, mul_inv_cancel₀ hr.ne', one_mul,
      ← neg_sub x z, inner_neg_right]
    linarith

/-- **C72, `PPP` with proximal operators.** If `proxf` and `proxg` are the proximal operators, as the documentation of
the parameters says, of convex functions `f` and `g` whose sum has a minimiser (`dom f` meeting the interior of
`dom g`), then from any start X and Y converge to a minimiser of `f + g`. -/
theorem C72_ppp_optimal [FiniteDimensional ℝ E] (f g : E → ℝ) (Df Dg : Set E) (hf : ConvexOn ℝ Df f)
    (hg : ConvexOn ℝ Dg g) (proxf proxg : E → ℝ → E) (hpf : IsProxG f Df proxf) (hpg : IsProxG g Dg proxg)
    (hq : (Df ∩ interior Dg).Nonempty) (hmin : ∃ z, IsArgmin (fun z => f z + g z) (Df ∩ Dg) z)
    (o : Opts) (ha : o.autoRho = false) (hrlx : 0 < o.rlx ∧ o.rlx < 2) (cb) (s : St E E E Unit) (hr : 0 < s.rho) :
    let T := traj (cls f proxf proxg) o cb s
    ∃ x, IsArgmin (fun z => f z + g z) (Df ∩ Dg) x ∧
      Tendsto (fun n => (T n).X) atTop (𝓝 x) ∧ Tendsto (fun n => (T n).Y) atTop (𝓝 x) := by
  obtain ⟨z, hz⟩ := hmin
  obtain ⟨u, hu⟩ := argmin_equilibrium hf hg hpf hpg hr hq hz
  obtain ⟨x, v, h1, h2, h3, -⟩ := C72_ppp f proxf proxg o ha hrlx cb s (prox_firm hf hpf hr) (prox_firm hg hpg hr)
    ⟨z, u, hu⟩
  exact ⟨x, equilibrium_argmin hf hg hpf hpg hr h1, h2, h3⟩

end Single

/-! ## `PPPConsensus` -/

section Several
variable {E : Type*} [NormedAddCommGroup E] [InnerProductSpace ℝ E] {Nb : ℕ}

omit [NormedAddCommGroup E] [InnerProductSpace ℝ E] in
theorem foldl_update (v : Fin Nb → E) (l : List (Fin Nb)) (X : Blocks E Nb) (j : Fin Nb) :
    (l.foldl (fun X i => WithLp.toLp 2 (Function.update X.ofLp i (v i))) X : Blocks E Nb) j =
      if j ∈ l then v j else X j := by
  induction l generalizing X with
  | nil => simp
  | cons i l ih =>
    rw [List.foldl_cons, ih]
    by_cases hj : j ∈ l
    · simp [hj]
    · rw [if_neg hj]
      by_cases hi : j = i
      · subst hi; simp
      · simp [hi, hj]

omit [InnerProductSpace ℝ E] in
theorem xstepC_apply (proxfi : Fin Nb → E → ℝ → E) (rho : ℝ) (Y : E) (U X : Blocks E Nb) (i : Fin Nb) :
    xstepC proxfi rho Y U X i = proxfi i (Y - U i) rho := by
  have := foldl_update (fun i => proxfi i (Y - U i) rho) (List.finRange Nb) X i
  rw [if_pos (List.mem_finRange i)] at this
  exact this

theorem relaxC_eq (al : ℝ) (X : Blocks E Nb) (Y : E) :
    (Consensus.relaxAX al X Y).1 = al • X + (1 - al) • Consensus.rep Nb Y := by
  unfold Consensus.relaxAX
  split_ifs with h
  · subst h; simp
  · rfl

theorem relaxC_nr (al : ℝ) (X : Blocks E Nb) (Y : E) : (Consensus.relaxAX al X Y).2 = X := by
  unfold Consensus.relaxAX
  split_ifs <;> rfl

/-- The iterates of `PPPConsensus` with fixed rho. -/
theorem trajC_eq (proxfi : Fin Nb → E → ℝ → E) (proxg : Option (E → ℝ → E)) (mu : Option (Fin Nb → ℝ)) (o : Opts)
    (ha : o.autoRho = false) (cb) (s : St (Blocks E Nb) E (Blocks E Nb) Unit) (n : ℕ) :
    let T := traj (clsC proxfi proxg mu) o cb s
    (∀ i, (T (n + 1)).X i = proxfi i ((T n).Y - (T n).U i) s.rho) ∧
    (T (n + 1)).Y = proxG proxg (WConsensus.wmean (weights mu)
      (o.rlx • (T (n + 1)).X + (1 - o.rlx) • Consensus.rep Nb (T n).Y + (T n).U)) ((∑ i, weights mu i) * s.rho) ∧
    (T (n + 1)).U = (T n).U + (o.rlx • (T (n + 1)).X + (1 - o.rlx) • Consensus.rep Nb (T n).Y) -
      Consensus.rep Nb (T (n + 1)).Y ∧
    (T (n + 1)).AXnr = (T (n + 1)).X ∧ (T (n + 1)).Yprev = (T n).Y := by
  simp only
  have hr := traj_rho (clsC proxfi proxg mu) o ha cb s n
  obtain ⟨h1, h2, h3, h4, h5, h6⟩ :=
    oneIter_steps (clsC proxfi proxg mu) o ha cb (traj (clsC proxfi proxg mu) o cb s n)
  rw [traj_succ, h1, h2, h3, h5, h6]
  generalize traj (clsC proxfi proxg mu) o cb s n = t at hr
  have hX : (steps (clsC proxfi proxg mu) o t).X = xstepC proxfi t.rho t.Y t.U t.X := rfl
  have hA : (steps (clsC proxfi proxg mu) o t).AX =
    (Consensus.relaxAX o.rlx (steps (clsC proxfi proxg mu) o t).X t.Y).1 := rfl
  have hAn : (steps (clsC proxfi proxg mu) o t).AXnr =
    (Consensus.relaxAX o.rlx (steps (clsC proxfi proxg mu) o t).X t.Y).2 := rfl
  have hY : (steps (clsC proxfi proxg mu) o t).Y = proxG proxg (WConsensus.wmean (weights mu)
    ((steps (clsC proxfi proxg mu) o t).AX + t.U)) ((∑ i, weights mu i) * t.rho) := rfl
  have hU : (steps (clsC proxfi proxg mu) o t).U = t.U + ((steps (clsC proxfi proxg mu) o t).AX -
    Consensus.rep Nb (steps (clsC proxfi proxg mu) o t).Y) := rfl
  rw [relaxC_eq] at hA
  rw [relaxC_nr] at hAn
  refine ⟨fun i => by rw [hX, xstepC_apply, hr], by rw [hY, hA, hr], by rw [hU, hA]; abel, hAn, rfl⟩

/-! ### The weighted space -/

theorem sqrtScale_inv (a : Fin Nb → ℝ) (ha : ∀ i, 0 < a i) (V : Blocks E Nb) :
    WConsensus.sqrtScale (fun i => (a i)⁻¹) (WConsensus.sqrtScale a V) = V := by
  ext i
  change Real.sqrt (a i)⁻¹ • Real.sqrt (a i) • V i = V i
  rw [smul_smul, Real.sqrt_inv, inv_mul_cancel₀ (Real.sqrt_pos.2 (ha i)).ne', one_smul]

theorem sqrtScale_inv' (a : Fin Nb → ℝ) (ha : ∀ i, 0 < a i) (V : Blocks E Nb) :
    WConsensus.sqrtScale a (WConsensus.sqrtScale (fun i => (a i)⁻¹) V) = V := by
  have := sqrtScale_inv (fun i => (a i)⁻¹) (fun i => inv_pos.2 (ha i)) V
  simpa using this

theorem scale_add (a : Fin Nb → ℝ) (V W : Blocks E Nb) :
    WConsensus.sqrtScale a (V + W) = WConsensus.sqrtScale a V + WConsensus.sqrtScale a W := by
  ext i; exact smul_add _ _ _

theorem scale_sub (a : Fin Nb → ℝ) (V W : Blocks E Nb) :
    WConsensus.sqrtScale a (V - W) = WConsensus.sqrtScale a V - WConsensus.sqrtScale a W := by
  ext i; exact smul_sub _ _ _

theorem scale_smul (a : Fin Nb → ℝ) (c : ℝ) (V : Blocks E Nb) :
    WConsensus.sqrtScale a (c • V) = c • WConsensus.sqrtScale a V := by
  ext i; exact smul_comm _ _ _

theorem continuous_scale (a : Fin Nb → ℝ) : Continuous (WConsensus.sqrtScale (F := E) a) := by
  refine (PiLp.continuous_toLp 2 _).comp ?_
  exact continuous_pi fun i => ((continuous_apply i).comp (PiLp.continuous_ofLp 2 _)).const_smul _

theorem scale_inner (a : Fin Nb → ℝ) (ha : ∀ i, 0 ≤ a i) (V W : Blocks E Nb) :
    ⟪WConsensus.sqrtScale a V, WConsensus.sqrtScale a W⟫ = ∑ i, a i * ⟪V i, W i⟫ := by
  rw [PiLp.inner_apply]
  refine Finset.sum_congr rfl fun i _ => ?_
  change ⟪Real.sqrt (a i) • V i, Real.sqrt (a i) • W i⟫ = _
  rw [real_inner_smul_left, real_inner_smul_right, ← mul_assoc, Real.mul_self_sqrt (ha i)]

/-- All block operators together are firmly non-expansive. -/
theorem firm_blocks (a : Fin Nb → ℝ) (ha : ∀ i, 0 < a i) (Fi : Fin Nb → E → E) (hF : ∀ i, Firm (Fi i)) :
    Firm fun V : Blocks E Nb => WConsensus.sqrtScale a
      (WithLp.toLp 2 fun i => Fi i (WConsensus.sqrtScale (fun i => (a i)⁻¹) V i)) := by
  intro p q
  obtain ⟨p, rfl⟩ : ∃ p', p = WConsensus.sqrtScale a p' := ⟨_, (sqrtScale_inv' a ha p).symm⟩
  obtain ⟨q, rfl⟩ : ∃ q', q = WConsensus.sqrtScale a q' := ⟨_, (sqrtScale_inv' a ha q).symm⟩
  simp only [sqrtScale_inv a ha]
  rw [← scale_sub, ← scale_sub, scale_inner a fun i => (ha i).le, norm_sqrtScale_sq a fun i => (ha i).le]
  exact Finset.sum_le_sum fun i _ => mul_le_mul_of_nonneg_left (hF i (p i) (q i)) (ha i).le

/-- The averaging step followed by `G` is firmly non-expansive. -/
theorem firm_mean (a : Fin Nb → ℝ) (ha : ∀ i, 0 < a i) (hS : 0 < ∑ i, a i) (G : E → E) (hG : Firm G) :
    Firm fun V : Blocks E Nb => WConsensus.sqrtScale a (Consensus.rep Nb
      (G (WConsensus.wmean a (WConsensus.sqrtScale (fun i => (a i)⁻¹) V)))) := by
  intro p q
  obtain ⟨p, rfl⟩ : ∃ p', p = WConsensus.sqrtScale a p' := ⟨_, (sqrtScale_inv' a ha p).symm⟩
  obtain ⟨q, rfl⟩ : ∃ q', q = WConsensus.sqrtScale a q' := ⟨_, (sqrtScale_inv' a ha q).symm⟩
  simp only [sqrtScale_inv a ha]
  rw [← scale_sub, ← scale_sub, scale_inner a fun i => (ha i).le, norm_sqrtScale_sq a fun i => (ha i).le]
  have h := hG (WConsensus.wmean a p) (WConsensus.wmean a q)
  generalize G (WConsensus.wmean a p) = x at h ⊢
  generalize G (WConsensus.wmean a q) = y at h ⊢
  have e1 : ∑ i, a i * ‖(Consensus.rep Nb x - Consensus.rep Nb y) i‖ ^ 2 = (∑ i, a i) * ‖x - y‖ ^ 2 := by
    rw [Finset.sum_mul]; rfl
  have e2 : ∑ i, a i * ⟪(Consensus.rep Nb x - Consensus.rep Nb y) i, (p - q) i⟫ =
      (∑ i, a i) * ⟪x - y, WConsensus.wmean a p - WConsensus.wmean a q⟫ := by
    unfold WConsensus.wmean
    rw [← smul_sub, real_inner_smul_right, ← mul_assoc, mul_inv_cancel₀ hS.ne', one_mul, ← Finset.sum_sub_distrib,
      inner_sum]
    refine Finset.sum_congr rfl fun i _ => ?_
    rw [← smul_sub, real_inner_smul_right]; rfl
  rw [e1, e2]
  exact mul_le_mul_of_nonneg_left h hS.le

/-- **C72, `PPPConsensus`.** For any number of operators that are firmly non-expansive at the penalty parameter in use
and positive weights, with rho fixed and relaxation parameter in (0, 2): if a consensus equilibrium exists, then from
any start every block of X and Y converge to the same array `x`, the blocks of U converge to `u`, `(x, u)` is a
consensus equilibrium, and both residuals tend to zero. -/
theorem C72_pppconsensus [FiniteDimensional ℝ E] [NeZero Nb] (proxfi : Fin Nb → E → ℝ → E)
    (proxg : Option (E → ℝ → E)) (mu : Option (Fin Nb → ℝ)) (hmu : ∀ i, 0 < weights mu i) (o : Opts)
    (ha : o.autoRho = false) (hrlx : 0 < o.rlx ∧ o.rlx < 2) (cb) (s : St (Blocks E Nb) E (Blocks E Nb) Unit)
    (hF : ∀ i, Firm fun v => proxfi i v s.rho) (hG : Firm fun v => proxG proxg v ((∑ i, weights mu i) * s.rho))
    (hex : ∃ x u, EquilibriumC (fun i v => proxfi i v s.rho) (weights mu)
      (fun v => proxG proxg v ((∑ i, weights mu i) * s.rho)) x u) :
    let C := clsC proxfi proxg mu
    let T := traj C o cb s
    ∃ x u, EquilibriumC (fun i v => proxfi i v s.rho) (weights mu)
        (fun v => proxG proxg v ((∑ i, weights mu i) * s.rho)) x u ∧
      (∀ i, Tendsto (fun n => (T n).X i) atTop (𝓝 x)) ∧ Tendsto (fun n => (T n).Y) atTop (𝓝 x) ∧
      (∀ i, Tendsto (fun n => (T n).U i) atTop (𝓝 (u i))) ∧
      Tendsto (fun n => C.nrmR (T n).AXnr (T n).Y) atTop (𝓝 0) ∧
      Tendsto (fun n => C.nrmS (T n).rho (T n).Yprev (T n).Y (T n).U) atTop (𝓝 0) := by
  intro C T
  obtain ⟨xs, us, q1, q2⟩ := hex
  have ht := trajC_eq proxfi proxg mu o ha cb s
  set a := weights mu with hadef
  set G := fun v => proxG proxg v ((∑ i, a i) * s.rho) with hGd
  have hS : 0 < ∑ i, a i :=
    Finset.sum_pos (fun i _ => hmu i) ⟨⟨0, Nat.pos_of_ne_zero (NeZero.ne Nb)⟩, Finset.mem_univ _⟩
  have i0 : Fin Nb := ⟨0, Nat.pos_of_ne_zero (NeZero.ne Nb)⟩
  set S := WConsensus.sqrtScale (F := E) a with hSd
  set Si := WConsensus.sqrtScale (F := E) (fun i => (a i)⁻¹) with hSid
  have hSiS : ∀ V, Si (S V) = V := sqrtScale_inv a hmu
  have hFF := firm_blocks a hmu (fun i v => proxfi i v s.rho) hF
  have hGG := firm_mean a hmu hS G hG
  have hmean_add : ∀ (z : E) (V : Blocks E Nb), WConsensus.wmean a (Consensus.rep Nb z + V) =
      z + (∑ i, a i)⁻¹ • ∑ i, a i • V i := by
    intro z V
    unfold WConsensus.wmean
    have : ∑ i, a i • (Consensus.rep Nb z + V) i = (∑ i, a i) • z + ∑ i, a i • V i := by
      rw [Finset.sum_smul, ← Finset.sum_add_distrib]
      refine Finset.sum_congr rfl fun i _ => ?_
      exact smul_add (a i) z (V i)
    rw [this, smul_add, smul_smul, inv_mul_cancel₀ hS.ne', one_smul]
  obtain ⟨yb, ub, e1, e2, l1, l2, l3⟩ := admm_firm_tendsto hFF hGG o.rlx hrlx (fun n => S (T n).X)
    (fun n => S (Consensus.rep Nb (T n).Y)) (fun n => S (T n).U)
    (fun n => by
      rw [← scale_sub]
      change S (T (n + 1)).X = S (WithLp.toLp 2 fun i => proxfi i (Si (S (Consensus.rep Nb (T n).Y - (T n).U)) i) s.rho)
      rw [hSiS]
      congr 1
      ext i
      exact (ht n).1 i)
    (fun n => by
      rw [← scale_smul, ← scale_smul, ← scale_add, ← scale_add]
      change S (Consensus.rep Nb (T (n + 1)).Y) = S (Consensus.rep Nb (G (WConsensus.wmean a (Si (S _)))))
      rw [hSiS, (ht n).2.1])
    (fun n => by
      rw [(ht n).2.2.1, hSd, scale_sub, scale_add, scale_add, scale_smul, scale_smul])
    (S (Consensus.rep Nb xs)) (S (WithLp.toLp 2 us))
    (by
      rw [← scale_sub]
      change S (WithLp.toLp 2 fun i => proxfi i (Si (S (Consensus.rep Nb xs - WithLp.toLp 2 us)) i) s.rho) = _
      rw [hSiS]
      congr 1
      ext i
      exact q1 i)
    (by
      rw [← scale_add]
      change S (Consensus.rep Nb (G (WConsensus.wmean a (Si (S _))))) = _
      rw [hSiS, hmean_add]
      congr 2)
  -- back from the weighted space
  have hcS : Continuous Si := continuous_scale _
  have hev : ∀ i, Continuous fun V : Blocks E Nb => V i := fun i => (continuous_apply i).comp (PiLp.continuous_ofLp 2 _)
  have m1 : ∀ i, Tendsto (fun n => (T n).X i) atTop (𝓝 (Si yb i)) := fun i =>
    ((((hev i).comp hcS).tendsto yb).comp l1).congr fun n => by
      change Si (S (T n).X) i = _
      rw [hSiS]
  have m2 : ∀ i, Tendsto (fun n => (T n).Y) atTop (𝓝 (Si yb i)) := fun i =>
    ((((hev i).comp hcS).tendsto yb).comp l2).congr fun n => by
      change Si (S (Consensus.rep Nb (T n).Y)) i = _
      rw [hSiS]; rfl
  have m3 : ∀ i, Tendsto (fun n => (T n).U i) atTop (𝓝 (Si ub i)) := fun i =>
    ((((hev i).comp hcS).tendsto ub).comp l3).congr fun n => by
      change Si (S (T n).U) i = _
      rw [hSiS]
  have hx : ∀ i, Si yb i = Si yb i0 := fun i => tendsto_nhds_unique (m2 i) (m2 i0)
  refine ⟨Si yb i0, fun i => Si ub i, ⟨fun i => ?_, ?_⟩, fun i => by rw [← hx i]; exact m1 i, m2 i0, m3, ?_, ?_⟩
  · have h := congrArg (fun V => Si V i) e1
    simp only at h
    rw [hSiS, ← hSid] at h
    change proxfi i (Si (yb - ub) i) s.rho = Si yb i at h
    rw [show Si (yb - ub) i = Si yb i - Si ub i from congrArg (fun V : Blocks E Nb => V i) (scale_sub _ yb ub)] at h
    rw [hx i] at h
    exact h
  · have h := congrArg (fun V => Si V i0) e2
    simp only at h
    rw [hSiS, ← hSid] at h
    rw [show Si (yb + ub) = Consensus.rep Nb (Si yb i0) + Si ub by
      rw [hSid, scale_add, ← hSid]
      congr 1
      ext i; exact hx i, hmean_add] at h
    exact h
  · refine (tendsto_add_atTop_iff_nat 1).1 ?_
    have h := ((tendsto_add_atTop_iff_nat 1).2 l1).sub ((tendsto_add_atTop_iff_nat 1).2 l2)
    rw [sub_self] at h
    have := h.norm
    rw [norm_zero] at this
    refine this.congr fun n => ?_
    change ‖S (T (n + 1)).X - S (Consensus.rep Nb (T (n + 1)).Y)‖ =
      ‖S ((T (n + 1)).AXnr - Consensus.rep Nb (T (n + 1)).Y)‖
    rw [show (T (n + 1)).AXnr = (T (n + 1)).X from (ht n).2.2.2.1, hSd, scale_sub]
  · refine (tendsto_add_atTop_iff_nat 1).1 ?_
    have h := ((m2 i0).sub ((tendsto_add_atTop_iff_nat 1).2 (m2 i0))).const_smul
      (s.rho * Real.sqrt (∑ i, a i ^ 2))
    rw [sub_self, smul_zero] at h
    have := h.norm
    rw [norm_zero] at this
    refine this.congr fun n => ?_
    change _ = ‖((T (n + 1)).rho * Real.sqrt (∑ i, a i ^ 2)) • ((T (n + 1)).Yprev - (T (n + 1)).Y)‖
    rw [show (T (n + 1)).Yprev = (T n).Y from (ht n).2.2.2.2,
      show (T (n + 1)).rho = s.rho from traj_rho C o ha cb s (n + 1)]

/-- The same with the default `proxg=None`: the multi-agent consensus equilibrium `F_i(x - u_i) = x`,
`Σ mu_i u_i = 0`, of the paper cited in the class documentation. -/
theorem C72_pppconsensus_mace [FiniteDimensional ℝ E] [NeZero Nb] (proxfi : Fin Nb → E → ℝ → E)
    (mu : Option (Fin Nb → ℝ)) (hmu : ∀ i, 0 < weights mu i) (o : Opts)
    (ha : o.autoRho = false) (hrlx : 0 < o.rlx ∧ o.rlx < 2) (cb) (s : St (Blocks E Nb) E (Blocks E Nb) Unit)
    (hF : ∀ i, Firm fun v => proxfi i v s.rho)
    (hex : ∃ (x : E) (u : Fin Nb → E), (∀ i, proxfi i (x - u i) s.rho = x) ∧ ∑ i, weights mu i • u i = 0) :
    let T := traj (clsC proxfi none mu) o cb s
    ∃ (x : E) (u : Fin Nb → E), ((∀ i, proxfi i (x - u i) s.rho = x) ∧ ∑ i, weights mu i • u i = 0) ∧
      (∀ i, Tendsto (fun n => (T n).X i) atTop (𝓝 x)) ∧ Tendsto (fun n => (T n).Y) atTop (𝓝 x) := by
  have hS : 0 < ∑ i, weights mu i :=
    Finset.sum_pos (fun i _ => hmu i) ⟨⟨0, Nat.pos_of_ne_zero (NeZero.ne Nb)⟩, Finset.mem_univ _⟩
  have he : ∀ (x : E) (u : Fin Nb → E), EquilibriumC (fun i v => proxfi i v s.rho) (weights mu)
      (fun v => proxG none v ((∑ i, weights mu i) * s.rho)) x u ↔
      (∀ i, proxfi i (x - u i) s.rho = x) ∧ ∑ i, weights mu i • u i = 0 := by
    intro x u
    unfold EquilibriumC
    refine and_congr Iff.rfl ?_
    change x + _ = x ↔ _
    rw [add_eq_left, smul_eq_zero]
    exact ⟨fun h => h.resolve_left (inv_ne_zero hS.ne'), Or.inr⟩
  obtain ⟨x, u, hxu⟩ := hex
  obtain ⟨x, u, h1, h2, h3, -⟩ := C72_pppconsensus proxfi none mu hmu o ha hrlx cb s hF
    (fun p q => by change ‖p - q‖ ^ 2 ≤ ⟪p - q, p - q⟫; rw [real_inner_self_eq_norm_sq])
    ⟨x, u, (he x u).2 hxu⟩
  exact ⟨x, u, (he x u).1 h1, h2, h3⟩

/-! ### Proximal operators -/

/-- A consensus equilibrium of proximal operators minimises the weighted sum of the functions. -/
theorem equilibriumC_argmin {f : Fin Nb → E → ℝ} {g : E → ℝ} {Df : Fin Nb → Set E} {Dg : Set E}
    (hf : ∀ i, ConvexOn ℝ (Df i) (f i)) (hg : ConvexOn ℝ Dg g) {proxfi : Fin Nb → E → ℝ → E} {proxg : E → ℝ → E}
    (hpf : ∀ i, IsProxG (f i) (Df i) (proxfi i)) (hpg : IsProxG g Dg proxg) {a : Fin Nb → ℝ} (ha : ∀ i, 0 < a i)
    (hS : 0 < ∑ i, a i) {rho : ℝ} (hr : 0 < rho) {x : E} {u : Fin Nb → E}
    (he : EquilibriumC (fun i v => proxfi i v rho) a (fun v => proxg v ((∑ i, a i) * rho)) x u) :
    IsArgmin (fun z => ∑ i, a i * f i z + g z) ((⋂ i, Df i) ∩ Dg) x := by
  obtain ⟨h1, h2⟩ := he
  simp only at h1 h2
  have hr2 := mul_pos hS hr
  refine ⟨⟨Set.mem_iInter.2 fun i => ?_, ?_⟩, fun z hz => ?_⟩
  · rw [← h1 i]; exact (hpf i _ _ hr).1
  · rw [← h2]; exact (hpg _ _ hr2).1
  · have a1 : ∀ i, a i * f i x - rho * (a i * ⟪u i, z - x⟫) ≤ a i * f i z := by
      intro i
      have h := prox_subgrad (hf i) (hpf i) hr (x - u i) (Set.mem_iInter.1 hz.1 i)
      rw [h1, sub_sub_cancel_left, inner_neg_left] at h
      have := mul_le_mul_of_nonneg_left h (ha i).le
      linarith
    have a2 := prox_subgrad hg hpg hr2 (x + (∑ i, a i)⁻¹ • ∑ i, a i • u i) hz.2
    rw [h2, add_sub_cancel_left, real_inner_smul_left, sum_inner] at a2
    have a3 := Finset.sum_le_sum fun i (_ : i ∈ Finset.univ) => a1 i
    rw [Finset.sum_sub_distrib, ← Finset.mul_sum] at a3
    have e : ∑ i, ⟪a i • u i, z - x⟫ = ∑ i, a i * ⟪u i, z - x⟫ :=
      Finset.sum_congr rfl fun i _ => real_inner_smul_left _ _ _
    have e2 : (∑ i, a i) * rho * ((∑ i, a i)⁻¹ * ∑ i, a i * ⟪u i, z - x⟫) = rho * ∑ i, a i * ⟪u i, z - x⟫ := by
      field_simp
    rw [e, e2] at a2
    change ∑ i, a i * f i x + g x ≤ ∑ i, a i * f i z + g z
    linarith

theorem convex_sumBlocks {f : Fin Nb → E → ℝ} {Df : Fin Nb → Set E} (hf : ∀ i, ConvexOn ℝ (Df i) (f i))
    {a : Fin Nb → ℝ} (ha : ∀ i, 0 < a i) :
    ConvexOn ℝ {V : Blocks E Nb | ∀ i, V i ∈ Df i} (fun V => ∑ i, a i * f i (V i)) := by
  refine ⟨fun V hV W hW s t hs ht hst i => (hf i).1 (hV i) (hW i) hs ht hst, fun V hV W hW s t hs ht hst => ?_⟩
  simp only [smul_eq_mul, Finset.mul_sum, ← Finset.sum_add_distrib]
  refine Finset.sum_le_sum fun i _ => ?_
  have := mul_le_mul_of_nonneg_left ((hf i).2 (hV i) (hW i) hs ht hst) (ha i).le
  simp only [smul_eq_mul] at this
  change a i * f i (s • V i + t • W i) ≤ _
  linarith

/-- The replication `y ↦ (y, y, ...)` as a continuous linear map. -/
def repL (E : Type*) [NormedAddCommGroup E] [InnerProductSpace ℝ E] (Nb : ℕ) : E →L[ℝ] Blocks E Nb where
  toFun := Consensus.rep Nb
  map_add' _ _ := rfl
  map_smul' _ _ := rfl
  cont := (PiLp.continuous_toLp 2 _).comp (continuous_pi fun _ => continuous_id)

/-- A minimiser of the weighted sum is the first component of a consensus equilibrium of the proximal operators, if
`dom g` meets the interior of every `dom f_i`. -/
theorem argmin_equilibriumC [FiniteDimensional ℝ E] {f : Fin Nb → E → ℝ} {g : E → ℝ} {Df : Fin Nb → Set E}
    {Dg : Set E} (hf : ∀ i, ConvexOn ℝ (Df i) (f i)) (hg : ConvexOn ℝ Dg g) {proxfi : Fin Nb → E → ℝ → E}
    {proxg : E → ℝ → E} (hpf : ∀ i, IsProxG (f i) (Df i) (proxfi i)) (hpg : IsProxG g Dg proxg) {a : Fin Nb → ℝ}
    (ha : ∀ i, 0 < a i) (hS : 0 < ∑ i, a i) {rho : ℝ} (hr : 0 < rho) (hq : ∃ z ∈ Dg, ∀ i, z ∈ interior (Df i)) {x : E}
    (hx : IsArgmin (fun z => ∑ i, a i * f i z + g z) ((⋂ i, Df i) ∩ Dg) x) :
    ∃ u, EquilibriumC (fun i v => proxfi i v rho) a (fun v => proxg v ((∑ i, a i) * rho)) x u := by
  classical
  obtain ⟨xb, hb1, hb2⟩ := hq
  have hxi : ∀ i, x ∈ Df i := fun i => Set.mem_iInter.1 hx.1.1 i
  have hev : ∀ i, Continuous fun V : Blocks E Nb => V i := fun i =>
    (continuous_apply i).comp (PiLp.continuous_ofLp 2 _)
  have hint : (repL E Nb) xb - 0 ∈ interior {V : Blocks E Nb | ∀ i, V i ∈ Df i} := by
    rw [sub_zero]
    refine interior_maximal (s := {V : Blocks E Nb | ∀ i, V i ∈ Df i})
      (t := ⋂ i, (fun V : Blocks E Nb => V i) ⁻¹' interior (Df i)) (fun V hV i => ?_)
      (isOpen_iInter_of_finite fun i => isOpen_interior.preimage (hev i)) (Set.mem_iInter.2 fun i => hb2 i)
    exact interior_subset (Set.mem_iInter.1 hV i)
  obtain ⟨l, hl⟩ := exists_multiplier (repL E Nb) 0 g Dg (fun V => ∑ i, a i * f i (V i))
    {V : Blocks E Nb | ∀ i, V i ∈ Df i} hg (convex_sumBlocks hf ha) (g x + ∑ i, a i * f i x)
    (fun z hz hz2 => by
      have e : (repL E Nb) z - 0 = Consensus.rep Nb z := sub_zero _
      rw [e] at hz2 ⊢
      have := hx.2 z ⟨Set.mem_iInter.2 fun i => hz2 i, hz⟩
      simp only at this
      change g x + ∑ i, a i * f i x ≤ g z + ∑ i, a i * f i z
      linarith) xb hb1 hint
  have e : ∀ (z : E) (w : Blocks E Nb), (repL E Nb) z - w - 0 = Consensus.rep Nb z - w := fun z w => sub_zero _
  simp only [e] at hl
  have hin : ∀ (z : E) (w : Blocks E Nb), ⟪l, Consensus.rep Nb z - w⟫ = ∑ i, ⟪l i, z - w i⟫ := fun z w => by
    rw [PiLp.inner_apply]; rfl
  refine ⟨fun i => -((rho * a i)⁻¹ • l i), fun i => ?_, ?_⟩
  · refine prox_eq (hpf i) hr _ _ (hxi i) fun z hz => ?_
    have h := hl x hx.1.2 (WithLp.toLp 2 (Function.update (fun _ => x) i z)) (fun j => by
      change Function.update (fun _ => x) i z j ∈ Df j
      by_cases hj : j = i
      · subst hj; rw [Function.update_self]; exact hz
      · rw [Function.update_of_ne hj]; exact hxi j)
    rw [hin] at h
    have s1 : ∑ j, a j * f j ((WithLp.toLp 2 (Function.update (fun _ => x) i z) : Blocks E Nb) j) =
        ∑ j, a j * f j x + a i * (f i z - f i x) := by
      rw [← Finset.add_sum_erase _ _ (Finset.mem_univ i), ← Finset.add_sum_erase (a := i) _ (fun j => a j * f j x)
        (Finset.mem_univ i)]
      have : ∀ j ∈ Finset.univ.erase i, a j * f j ((WithLp.toLp 2 (Function.update (fun _ => x) i z) : Blocks E Nb) j) =
          a j * f j x := by
        intro j hj
        change a j * f j (Function.update (fun _ => x) i z j) = _
        rw [Function.update_of_ne (Finset.ne_of_mem_erase hj)]
      rw [Finset.sum_congr rfl this]
      change a i * f i (Function.update (fun _ => x) i z i) + _ = _
      rw [Function.update_self]; ring
    have s2 : ∑ j, ⟪l j, x - (WithLp.toLp 2 (Function.update (fun _ => x) i z) : Blocks E Nb) j⟫ = ⟪l i, x - z⟫ := by
      rw [Finset.sum_eq_single i]
      · change ⟪l i, x - Function.update (fun _ => x) i z i⟫ = _
        rw [Function.update_self]
      · intro j _ hj
        change ⟪l j, x - Function.update (fun _ => x) i z j⟫ = 0
        rw [Function.update_of_ne hj, sub_self, inner_zero_right]
      · exact fun h => absurd (Finset.mem_univ i) h
    rw [s1, s2] at h
    rw [sub_neg_eq_add, add_sub_cancel_left, real_inner_smul_left, ← neg_sub x z, inner_neg_right, mul_inv]
    have hai := ha i
    have e3 : rho * (rho⁻¹ * (a i)⁻¹ * -⟪l i, x - z⟫) = -((a i)⁻¹ * ⟪l i, x - z⟫) := by
      field_simp
    rw [e3]
    have h4 : 0 ≤ a i * (f i z - f i x) + ⟪l i, x - z⟫ := by linarith
    have h5 := mul_nonneg (inv_pos.2 hai).le h4
    rw [mul_add, ← mul_assoc, inv_mul_cancel₀ hai.ne', one_mul] at h5
    linarith
  · refine prox_eq hpg (mul_pos hS hr) _ _ hx.1.2 fun z hz => ?_
    have h := hl z hz (Consensus.rep Nb x) (fun i => hxi i)
    rw [hin] at h
    have s1 : ∑ j, ⟪l j, z - (Consensus.rep Nb x) j⟫ = ∑ j, ⟪l j, z - x⟫ := rfl
    have s0 : ∑ i, a i * f i ((Consensus.rep Nb x) i) = ∑ i, a i * f i x := rfl
    rw [s1, s0] at h
    have s2 : ∑ i, a i • -((rho * a i)⁻¹ • l i) = -(rho⁻¹ • ∑ i, l i) := by
      rw [Finset.smul_sum, ← Finset.sum_neg_distrib]
      refine Finset.sum_congr rfl fun i _ => ?_
      have := (ha i).ne'
      rw [smul_neg, smul_smul, mul_inv, mul_comm rho⁻¹, ← mul_assoc, mul_inv_cancel₀ this, one_mul]
    rw [add_sub_cancel_left, s2, real_inner_smul_left, inner_neg_left, real_inner_smul_left, sum_inner]
    have e3 : (∑ i, a i) * rho * ((∑ i, a i)⁻¹ * -(rho⁻¹ * ∑ i, ⟪l i, z - x⟫)) = -∑ i, ⟪l i, z - x⟫ := by
      field_simp
    rw [e3]
    linarith

/-- **C72, `PPPConsensus` with proximal operators.** If the operators are the proximal operators of convex functions
`f_i` and `g` (zero for `proxg=None`) and `Σ mu_i f_i + g` has a minimiser (`dom g` meeting the interior of every
`dom f_i`), then from any start the blocks of X, and Y, converge to a minimiser of `Σ mu_i f_i + g`. -/
theorem C72_pppconsensus_optimal [FiniteDimensional ℝ E] [NeZero Nb] (f : Fin Nb → E → ℝ) (g : E → ℝ)
    (Df : Fin Nb → Set E) (Dg : Set E) (hf : ∀ i, ConvexOn ℝ (Df i) (f i)) (hg : ConvexOn ℝ Dg g)
    (proxfi : Fin Nb → E → ℝ → E) (proxg : Option (E → ℝ → E)) (mu : Option (Fin Nb → ℝ))
    (hpf : ∀ i, IsProxG (f i) (Df i) (proxfi i))
    (hpg : match proxg with | none => Dg = Set.univ ∧ ∀ z, g z = 0 | some p => IsProxG g Dg p)
    (hmu : ∀ w, mu = some w → ∀ i, 0 < w i) (hq : ∃ z ∈ Dg, ∀ i, z ∈ interior (Df i))
    (hmin : ∃ z, IsArgmin (fun z => ∑ i, weights mu i * f i z + g z) ((⋂ i, Df i) ∩ Dg) z)
    (o : Opts) (ha : o.autoRho = false) (hrlx : 0 < o.rlx ∧ o.rlx < 2) (cb)
    (s : St (Blocks E Nb) E (Blocks E Nb) Unit) (hr : 0 < s.rho) :
    let T := traj (clsC proxfi proxg mu) o cb s
    ∃ x, IsArgmin (fun z => ∑ i, weights mu i * f i z + g z) ((⋂ i, Df i) ∩ Dg) x ∧
      (∀ i, Tendsto (fun n => (T n).X i) atTop (𝓝 x)) ∧ Tendsto (fun n => (T n).Y) atTop (𝓝 x) := by
  have hw : ∀ i, 0 < weights mu i := by
    intro i
    cases mu with
    | none => exact one_pos
    | some w => exact hmu w rfl i
  have hS : 0 < ∑ i, weights mu i :=
    Finset.sum_pos (fun i _ => hw i) ⟨⟨0, Nat.pos_of_ne_zero (NeZero.ne Nb)⟩, Finset.mem_univ _⟩
  have hp : IsProxG g Dg (proxG proxg) := by
    cases proxg with
    | none =>
      intro v rho hrho
      simp only at hpg
      refine ⟨by rw [hpg.1]; trivial, fun z _ => ?_⟩
      rw [hpg.2, hpg.2]
      change 0 + rho / 2 * ‖v - v‖ ^ 2 ≤ _
      rw [sub_self, norm_zero]
      have := mul_nonneg (half_pos hrho).le (sq_nonneg ‖z - v‖)
      nlinarith
    | some p => exact hpg
  obtain ⟨z, hz⟩ := hmin
  obtain ⟨u, hu⟩ := argmin_equilibriumC hf hg hpf hp hw hS hr hq hz
  obtain ⟨x, v, h1, h2, h3, -⟩ := C72_pppconsensus proxfi proxg mu hw o ha hrlx cb s (fun i => prox_firm (hf i) (hpf i) hr)
    (prox_firm hg hp (mul_pos hS hr)) ⟨z, u, hu⟩
  exact ⟨x, equilibriumC_argmin hf hg hpf hp hw hS hr h1, h2, h3⟩

end Several

/-! ## Concrete cases -/

/-- The proximal operator of `(z - p)^2 / 2`. -/
noncomputable def proxQ (p : ℝ) (v rho : ℝ) : ℝ := (p + rho * v) / (1 + rho)

theorem proxQ_is (p : ℝ) : IsProxG (fun z : ℝ => (z - p) ^ 2 / 2) Set.univ (proxQ p) := by
  intro v rho hr
  refine ⟨trivial, fun z _ => ?_⟩
  have := quad_min p v rho (proxQ p v rho) hr (by unfold proxQ; field_simp) z
  simpa only [Real.norm_eq_abs, sq_abs] using this

/-- A firmly non-expansive operator on the plane that is not a proximal operator: its derivative
`(1/2) (I + rotation by 90 degrees)` is not symmetric. -/
noncomputable def spin (v : EuclideanSpace ℝ (Fin 2)) : EuclideanSpace ℝ (Fin 2) :=
  WithLp.toLp 2 ![(v 0 - v 1) / 2, (v 0 + v 1) / 2]

theorem spin_firm : Firm spin := by
  intro p q
  rw [EuclideanSpace.norm_sq_eq, PiLp.inner_apply]
  simp only [Fin.sum_univ_two, Real.norm_eq_abs, sq_abs, RCLike.inner_apply, conj_trivial]
  simp [spin]
  nlinarith

/-- `C72_ppp` applies to a pair of operators one of which is not a proximal operator. -/
example (o : Opts) (ha : o.autoRho = false) (hrlx : 0 < o.rlx ∧ o.rlx < 2) (cb)
    (s : St (EuclideanSpace ℝ (Fin 2)) (EuclideanSpace ℝ (Fin 2)) (EuclideanSpace ℝ (Fin 2)) Unit) :
    let T := traj (cls (fun _ => 0) (fun v _ => spin v) (fun v _ => spin v)) o cb s
    ∃ x u, Equilibrium spin spin x u ∧ Tendsto (fun n => (T n).Y) atTop (𝓝 x) := by
  have h0 : spin 0 = 0 := by ext i; fin_cases i <;> simp [spin]
  obtain ⟨x, u, h1, -, h2, -⟩ := C72_ppp (fun _ => 0) (fun v _ => spin v) (fun v _ => spin v) o ha hrlx cb s
    spin_firm spin_firm ⟨0, 0, by simp [h0], by simp [h0]⟩
  exact ⟨x, u, h1, h2⟩

/-- `C72_ppp_optimal` applies to `(z - 2)^2/2 + (z - 0)^2/2`, whose minimiser is 1. -/
example (o : Opts) (ha : o.autoRho = false) (hrlx : 0 < o.rlx ∧ o.rlx < 2) (cb) (s : St ℝ ℝ ℝ Unit) (hr : 0 < s.rho) :
    Tendsto (fun n => (traj (cls (fun z : ℝ => (z - 2) ^ 2 / 2) (proxQ 2) (proxQ 0)) o cb s n).Y) atTop (𝓝 1) := by
  obtain ⟨x, h1, -, h2⟩ := C72_ppp_optimal (fun z : ℝ => (z - 2) ^ 2 / 2) (fun z : ℝ => (z - 0) ^ 2 / 2) Set.univ Set.univ
    (quad_convex 2) (quad_convex 0) (proxQ 2) (proxQ 0) (proxQ_is 2) (proxQ_is 0) (by simp)
    ⟨1, by simp, fun z _ => by simp only; nlinarith [sq_nonneg (z - 1)]⟩ o ha hrlx cb s hr
  have h3 := h1.2 1 (by simp)
  simp only at h3
  have : x = 1 := by nlinarith [sq_nonneg (x - 1)]
  rw [← this]; exact h2

/-- `C72_pppconsensus_optimal` applies to `1 (z - 0)^2/2 + 3 (z - 4)^2/2` with weights 1 and 3, whose minimiser
is 3. -/
example (o : Opts) (ha : o.autoRho = false) (hrlx : 0 < o.rlx ∧ o.rlx < 2) (cb)
    (s : St (Blocks ℝ 2) ℝ (Blocks ℝ 2) Unit) (hr : 0 < s.rho) :
    Tendsto (fun n => (traj (clsC ![proxQ 0, proxQ 4] none (some ![1, 3])) o cb s n).Y) atTop (𝓝 3) := by
  have hw : weights (some ![(1 : ℝ), 3]) = ![1, 3] := rfl
  obtain ⟨x, h1, -, h2⟩ := C72_pppconsensus_optimal (E := ℝ) (Nb := 2)
    ![fun z : ℝ => (z - 0) ^ 2 / 2, fun z : ℝ => (z - 4) ^ 2 / 2] (fun _ => 0) (fun _ => Set.univ) Set.univ
    (fun i => by fin_cases i; exacts [quad_convex 0, quad_convex 4]) (convexOn_const 0 convex_univ)
    ![proxQ 0, proxQ 4] none (some ![1, 3]) (fun i => by fin_cases i; exacts [proxQ_is 0, proxQ_is 4])
    ⟨rfl, fun _ => rfl⟩ (fun w hw i => by
      obtain rfl := (Option.some.inj hw)
      fin_cases i <;> simp) (by simp)
    ⟨3, by simp, fun z _ => by
      simp only [hw, Fin.sum_univ_two, Matrix.cons_val_zero, Matrix.cons_val_one]
      nlinarith [sq_nonneg (z - 3)]⟩ o ha hrlx cb s hr
  have h3 := h1.2 3 (by simp)
  simp only [hw, Fin.sum_univ_two, Matrix.cons_val_zero, Matrix.cons_val_one] at h3
  have : x = 3 := by nlinarith [sq_nonneg (x - 3)]
  rw [this] at h2; exact h2

end Sporco.Admm.Ppp
