import Verif.Conv.CcmodModel
import Verif.Conv.TwoBlock

/-!
# The dictionary updates of `ccmod.py` and `ccmodmd.py` (C36, C37, C40)
-/

set_option autoImplicit false
set_option linter.unusedSectionVars false

namespace Sporco.Conv.Mod

open Finset ComplexConjugate Sporco.Linalg Sporco.Prox Sporco.Admm Sporco.Conv
open Sporco.PgmConv (coefF dictTerm dictMaskTerm modOp modOpT modOp_adj dictTerm_eq mulL)
open scoped RealInnerProductSpace

variable {d : ℕ} {N : Fin d → ℕ} [∀ k, NeZero (N k)] {a : Fin d} {A K M : Type*} [Fintype A] [Fintype K]
  [Fintype M] {κ Nb : ℕ}

/-! ## Specification -/

/-- The augmented Lagrangian of the dictionary update as a function of the dictionary:
`(1/2) ∑ₖ ‖∑ₘ z_{k,m} * d_m - s_k‖² + (ρ/2)‖d - y + u‖²`. -/
noncomputable def augMod (Z : K → M → Grid N → ℝ) (S : A → K → Grid N → ℝ) (rho : ℝ)
    (Y U X : A → M → Grid N → ℝ) : ℝ :=
  dictTerm Z S X + rho / 2 * sumSq fun i m p => X i m p - Y i m p + U i m p

/-- The same with the data term split off by a mask:
`(ρ/2)(∑ₖ ‖∑ₘ z_{k,m} * d_m - s_k - y⁰_k + u⁰_k‖² + ‖d - y + u‖²)`. -/
noncomputable def augModMask (Z : K → M → Grid N → ℝ) (S : A → K → Grid N → ℝ) (rho : ℝ)
    (Y0 U0 : A → K → Grid N → ℝ) (Y U X : A → M → Grid N → ℝ) : ℝ :=
  rho / 2 * (∑ i, ∑ k, ∑ p, (∑ m, ∑ y, Z k m y * X i m (p - y) - S i k p - Y0 i k p + U0 i k p) ^ 2 +
    sumSq fun i m p => X i m p - Y i m p + U i m p)

/-- The coefficient maps of signal `k` alone. -/
def one (Z : K → M → Grid N → ℝ) (k : K) : Unit → M → Grid N → ℝ := fun _ => Z k

/-- Signal `k` alone. -/
def oneS (S : A → K → Grid N → ℝ) (k : K) : A → Unit → Grid N → ℝ := fun i _ => S i k

/-! ## Linear systems at every frequency -/

theorem part_modOp (Z : K → M → Grid N → ℝ) (x : Coef A M N) (i : A) (k : K) :
    part (modOp Z x) i k = fun p => ∑ m, rconv (Z k m) (part x i m) p := rfl

theorem part_modOpT (Z : K → M → Grid N → ℝ) (s : Sig A K N) (i : A) (m : M) :
    part (modOpT Z s) i m = fun p => ∑ k, rcorr (Z k m) (part s i k) p := rfl

/-- `F` solves the normal equations at every frequency. -/
def Solves (Z : K → M → Grid N → ℝ) (r : ℝ) (T : Sig A K N) (V : Coef A M N) (F : A → M → Grid N → ℂ) :
    Prop :=
  ∀ i m ξ, ∑ k, conj (rf (Z k m) ξ) * ∑ n, rf (Z k n) ξ * F i n ξ + r * F i m ξ =
    ∑ k, conj (rf (Z k m) ξ) * rf (part T i k) ξ + r * rf (part V i m) ξ

/-- The array with spectrum `F`. -/
noncomputable def genX (a : Fin d) (F : A → M → Grid N → ℂ) : Coef A M N :=
  join fun i m => irfft N a fun ξ => F i m ξ.1

theorem rf_genX {Z : K → M → Grid N → ℝ} {r : ℝ} (hr : 0 < r) {T : Sig A K N} {V : Coef A M N}
    {F : A → M → Grid N → ℂ} (hF : Solves Z r T V F) (i : A) (m : M) :
    rf (part (genX a F) i m) = F i m := by
  unfold genX
  rw [part_join]
  refine rf_irfft a (freq_herm (fun k n => rf (Z k n)) (fun k n => rf_herm _) (fun _ _ => r)
    (fun _ _ => hr) (fun _ _ => rfl) _ (F i) (fun n ξ => ?_) (fun n ξ => hF i n ξ) m)
  simp only [rf_herm _ ξ, map_add, map_sum, map_mul, Complex.conj_ofReal]

theorem gen_normal {Z : K → M → Grid N → ℝ} {r : ℝ} (hr : 0 < r) {T : Sig A K N} {V : Coef A M N}
    {F : A → M → Grid N → ℂ} (hF : Solves Z r T V F) :
    modOpT Z (modOp Z (genX a F)) + r • genX a F = modOpT Z T + r • V := by
  refine part_ext fun i m ξ => ?_
  have hp : ∀ (x y : Coef A M N) (r : ℝ), rf (part (x + r • y) i m) ξ =
      rf (part x i m) ξ + r * rf (part y i m) ξ := by
    intro x y r
    rw [← rf_smul, ← rf_add]; rfl
  rw [hp, hp, part_modOpT, part_modOpT, rf_sum, rf_sum]
  simp only [rf_rcorr, part_modOp, rf_sum, rf_rconv, rf_genX hr hF]
  exact hF i m ξ

/-- The excess of any array over the solution. -/
theorem gen_excess {Z : K → M → Grid N → ℝ} {r : ℝ} {T : Sig A K N} {V x : Coef A M N}
    (hn : modOpT Z (modOp Z x) + r • x = modOpT Z T + r • V) (z : Coef A M N) :
    1 / 2 * ‖modOp Z z - T‖ ^ 2 + r / 2 * ‖z - V‖ ^ 2 =
      1 / 2 * ‖modOp Z x - T‖ ^ 2 + r / 2 * ‖x - V‖ ^ 2 +
      1 / 2 * ‖modOp Z (z - x)‖ ^ 2 + r / 2 * ‖z - x‖ ^ 2 := by
  have h1 := quad1 (modOp (A := A) Z) T x z
  have h3 := quad1 (ContinuousLinearMap.id ℝ (Coef A M N)) V x z
  simp only [ContinuousLinearMap.id_apply] at h3
  have hg : ⟪modOp Z x - T, modOp Z (z - x)⟫ + r * ⟪x - V, z - x⟫ = 0 := by
    rw [real_inner_comm, modOp_adj, real_inner_comm, ← real_inner_smul_left, ← inner_add_left, map_sub]
    have : modOpT Z (modOp Z x) - modOpT Z T + r • (x - V) = 0 := by
      have e := sub_eq_zero.2 hn
      rw [← e]; module
    rw [this, inner_zero_left]
  linear_combination h1 + r * h3 + hg

theorem gen_unique {Z : K → M → Grid N → ℝ} {r : ℝ} (hr : 0 < r) {T : Sig A K N} {V x : Coef A M N}
    (hn : modOpT Z (modOp Z x) + r • x = modOpT Z T + r • V) (z : Coef A M N) (hz : z ≠ x) :
    1 / 2 * ‖modOp Z x - T‖ ^ 2 + r / 2 * ‖x - V‖ ^ 2 <
      1 / 2 * ‖modOp Z z - T‖ ^ 2 + r / 2 * ‖z - V‖ ^ 2 := by
  rw [gen_excess hn z]
  have hp : 0 < ‖z - x‖ := by rw [norm_pos_iff, sub_ne_zero]; exact hz
  have := mul_pos (half_pos hr) (pow_pos hp 2)
  have := sq_nonneg ‖modOp Z (z - x)‖
  linarith

theorem augMod_eq (Z : K → M → Grid N → ℝ) (S : A → K → Grid N → ℝ) (rho : ℝ) (Y U x : Coef A M N) :
    augMod Z S rho (part Y) (part U) (part x) =
      1 / 2 * ‖modOp Z x - join S‖ ^ 2 + rho / 2 * ‖x - (Y - U)‖ ^ 2 := by
  unfold augMod
  rw [dictTerm_eq, ← sumSq_eq (x - (Y - U))]
  have : (fun i m p => part x i m p - part Y i m p + part U i m p) = part (x - (Y - U)) := by
    funext i m p
    change _ = part x i m p - (part Y i m p - part U i m p)
    ring
  rw [this]

theorem augModMask_eq (Z : K → M → Grid N → ℝ) (S : A → K → Grid N → ℝ) (rho : ℝ) (Y0 U0 : Sig A K N)
    (Y U x : Coef A M N) :
    augModMask Z S rho (part Y0) (part U0) (part Y) (part U) (part x) =
      rho * (1 / 2 * ‖modOp Z x - (Y0 - U0 + join S)‖ ^ 2 + 1 / 2 * ‖x - (Y - U)‖ ^ 2) := by
  unfold augModMask
  rw [← sumSq_eq (x - (Y - U)), norm_part]
  have e1 : (fun i m p => part x i m p - part Y i m p + part U i m p) = part (x - (Y - U)) := by
    funext i m p
    change _ = part x i m p - (part Y i m p - part U i m p)
    ring
  have e2 : ∀ i k p, ∑ m, ∑ y, Z k m y * part x i m (p - y) - S i k p - part Y0 i k p + part U0 i k p =
      part (modOp Z x - (Y0 - U0 + join S)) i k p := by
    intro i k p
    change _ = ∑ m, ∑ y, Z k m y * part x i m (p - y) - (part Y0 i k p - part U0 i k p + S i k p)
    ring
  simp only [e1, e2]
  ring

theorem augMod_unique {Z : K → M → Grid N → ℝ} {S : A → K → Grid N → ℝ} {rho : ℝ} (hr : 0 < rho)
    {Y U x : Coef A M N}
    (hn : modOpT Z (modOp Z x) + rho • x = modOpT Z (join S) + rho • (Y - U)) :
    IsUniqueMin (augMod Z S rho (part Y) (part U)) Set.univ (part x) := by
  refine ⟨trivial, fun X _ hne => ?_⟩
  change _ < augMod Z S rho (part Y) (part U) (part (join X))
  rw [augMod_eq, augMod_eq]
  refine gen_unique hr hn (join X) fun he => hne ?_
  rw [← he]; rfl

theorem augModMask_unique {Z : K → M → Grid N → ℝ} {S : A → K → Grid N → ℝ} {rho : ℝ} (hr : 0 < rho)
    {Y0 U0 : Sig A K N} {Y U x : Coef A M N}
    (hn : modOpT Z (modOp Z x) + (1 : ℝ) • x = modOpT Z (Y0 - U0 + join S) + (1 : ℝ) • (Y - U)) :
    IsUniqueMin (augModMask Z S rho (part Y0) (part U0) (part Y) (part U)) Set.univ (part x) := by
  refine ⟨trivial, fun X _ hne => ?_⟩
  change _ < augModMask Z S rho (part Y0) (part U0) (part Y) (part U) (part (join X))
  rw [augModMask_eq, augModMask_eq]
  refine mul_lt_mul_of_pos_left (gen_unique one_pos hn (join X) fun he => hne ?_) hr
  rw [← he]; rfl

/-! ## The solvers -/

theorem ism_spec (zf : Fin (κ + 1) → M → ℂ) (rho : ℝ) (hr : 0 < rho) (b : M → ℂ) (m : M) :
    let x := solvemdbiIsm (zf 0) (List.ofFn fun k : Fin κ => zf k.succ) rho b
    ∑ k, conj (zf k m) * ∑ n, zf k n * x n + rho * x m = b m := by
  classical
  intro x
  have h := congrFun (C24_ism (zf 0) (List.ofFn fun i : Fin κ => zf i.succ) rho hr b) m
  rw [sumMatrix_mulVec] at h
  simp only [List.map_cons, List.sum_cons, List.map_ofFn, List.sum_ofFn, Function.comp_def,
    Complex.conj_conj, Linalg.inner] at h
  rw [Fin.sum_univ_succ, add_comm]
  exact h

theorem sm_spec (zf : M → ℂ) (rho : ℝ) (hr : 0 < rho) (b : M → ℂ) (m : M) :
    conj (zf m) * ∑ n, zf n * solvedbiSm zf rho b none n + rho * solvedbiSm zf rho b none m = b m := by
  classical
  have h := congrFun (C23_solvedbi zf b rho hr) m
  rw [rankOne_apply] at h
  simp only [Complex.conj_conj, Linalg.inner] at h
  rw [add_comm]
  exact h

/-- The spectrum computed by the iterated Sherman-Morrison solver, at every frequency. -/
noncomputable def fullI (Z : Fin (κ + 1) → M → Grid N → ℝ) (r : ℝ) (T : Sig A (Fin (κ + 1)) N)
    (V : Coef A M N) (i : A) (m : M) (ξ : Grid N) : ℂ :=
  solvemdbiIsm (fun n => rf (Z 0 n) ξ) (List.ofFn fun k : Fin κ => fun n => rf (Z k.succ n) ξ) r
    (fun n => ∑ k, conj (rf (Z k n) ξ) * rf (part T i k) ξ + r * rf (part V i n) ξ) m

theorem fullI_solves (Z : Fin (κ + 1) → M → Grid N → ℝ) {r : ℝ} (hr : 0 < r)
    (T : Sig A (Fin (κ + 1)) N) (V : Coef A M N) : Solves Z r T V (fullI Z r T V) := fun i m ξ =>
  ism_spec (fun k n => rf (Z k n) ξ) r hr _ m

/-- The spectrum computed by the Sherman-Morrison solver for one block, at every frequency. -/
noncomputable def fullB (Z : M → Grid N → ℝ) (r : ℝ) (T : Sig A Unit N) (V : Coef A M N) (i : A) (m : M)
    (ξ : Grid N) : ℂ :=
  solvedbiSm (fun n => rf (Z n) ξ) r
    (fun n => conj (rf (Z n) ξ) * rf (part T i ()) ξ + r * rf (part V i n) ξ) none m

theorem fullB_solves (Z : M → Grid N → ℝ) {r : ℝ} (hr : 0 < r) (T : Sig A Unit N) (V : Coef A M N) :
    Solves (fun _ : Unit => Z) r T V (fullB Z r T V) := fun i m ξ => by
  simp only [univ_unique, sum_singleton, PUnit.default_eq_unit]
  exact sm_spec (fun n => rf (Z n) ξ) r hr _ m

/-! ## `ConvCnstrMOD_IterSM` -/

theorem xstepISM_eq (S : A → Fin (κ + 1) → Grid N → ℝ) (Z : Fin (κ + 1) → M → Grid N → ℝ) (rho : ℝ)
    (X Y U : Coef A M N) (Xf : Spec A M N a) :
    (xstepISM rho X Y U (setcoef S Z Xf)).1 = genX a (fullI Z rho (join S) (Y - U)) ∧
    ∀ i m, (xstepISM rho X Y U (setcoef S Z Xf)).2.Xf i m =
      fun ξ => fullI Z rho (join S) (Y - U) i m ξ.1 := ⟨rfl, fun _ _ => rfl⟩

/-- After the X update `Xf` is the transform of X. -/
theorem xstepISM_Xf (S : A → Fin (κ + 1) → Grid N → ℝ) (Z : Fin (κ + 1) → M → Grid N → ℝ) {rho : ℝ}
    (hr : 0 < rho) (X Y U : Coef A M N) (Xf : Spec A M N a) (i : A) (m : M) :
    (xstepISM rho X Y U (setcoef S Z Xf)).2.Xf i m =
      rfft N a (part (xstepISM rho X Y U (setcoef S Z Xf)).1 i m) := by
  obtain ⟨h1, h2⟩ := xstepISM_eq S Z rho X Y U Xf
  rw [h1, h2]
  funext ξ
  exact (congrFun (rf_genX (a := a) hr (fullI_solves Z hr (join S) (Y - U)) i m) ξ.1).symm

/-- **C40.** The X update of `ConvCnstrMOD_IterSM` gives the unique minimiser of the augmented
Lagrangian over all real dictionaries of the size of the signal. -/
theorem C40_ccmod_ism (S : A → Fin (κ + 1) → Grid N → ℝ) (Z : Fin (κ + 1) → M → Grid N → ℝ) (rho : ℝ)
    (hr : 0 < rho) (X Y U : Coef A M N) (Xf : Spec A M N a) :
    IsUniqueMin (augMod Z S rho (part Y) (part U)) Set.univ
      (part (xstepISM rho X Y U (setcoef S Z Xf)).1) := by
  rw [(xstepISM_eq S Z rho X Y U Xf).1]
  exact augMod_unique hr (gen_normal hr (fullI_solves Z hr (join S) (Y - U)))

/-- The attributes belong to the coefficient maps and signal. -/
def CohD (S : A → K → Grid N → ℝ) (Z : K → M → Grid N → ℝ) (h : AttrD A K M N a) : Prop :=
  ∃ Xf, h = setcoef S Z Xf

theorem keeps_ism (Pcn : Coef A M N → Coef A M N) (S : A → Fin (κ + 1) → Grid N → ℝ)
    (Z : Fin (κ + 1) → M → Grid N → ℝ) (fe ge : Bool) :
    Keeps (clsISM Pcn S fe ge) (fun _ (h : AttrD A (Fin (κ + 1)) M N a) => CohD S Z h) :=
  ⟨equal_sane _ _ _ _, fun _ X Y U _ _ hc => by obtain ⟨Xf, rfl⟩ := hc; exact ⟨_, rfl⟩,
    fun _ _ _ _ _ _ _ hc => hc, fun _ _ _ _ _ hc => hc⟩

/-- **C40.** At every iteration of every run, including after automatic changes of rho, X is the unique
minimiser of the augmented Lagrangian in x. -/
theorem C40_ccmod_ism_history (Pcn : Coef A M N → Coef A M N) (S : A → Fin (κ + 1) → Grid N → ℝ)
    (Z : Fin (κ + 1) → M → Grid N → ℝ) (fe ge : Bool) (o : Opts) (ho : o.autoRho = true → o.RhoOk) (cb)
    (hcb : Bpdn.CallbackReads cb)
    (s : St (Coef A M N) (Coef A M N) (Coef A M N) (AttrD A (Fin (κ + 1)) M N a)) (hp : 0 < s.rho)
    (Xf : Spec A M N a) (hs : s.extra = setcoef S Z Xf) (n : ℕ) :
    let T := traj (clsISM Pcn S fe ge) o cb s
    IsUniqueMin (augMod Z S (T n).rho (part (T n).Y) (part (T n).U)) Set.univ (part (T (n + 1)).X) := by
  obtain ⟨h1, Xf', h2⟩ := traj_keeps (keeps_ism Pcn S Z fe ge) o ho cb (hcb.keeps _) s hp ⟨Xf, hs⟩ n
  simp only
  rw [traj_succ, oneIter_X, show (clsISM (a := a) Pcn S fe ge).xstep = xstepISM from rfl, h2]
  exact C40_ccmod_ism S Z _ h1 _ _ _ _

theorem rfl_dict (S : A → K → Grid N → ℝ) (Z : K → M → Grid N → ℝ) (V : K → A → M → Grid N → ℝ) :
    rfl2norm2 N a (fun p : (A × K) × Half N a =>
      Linalg.inner (fun m => coefF a Z p.1.2 m p.2) (fun m => rfft N a (V p.1.2 p.1.1 m) p.2) -
        rfft N a (S p.1.1 p.1.2) p.2) / 2 =
      1 / 2 * ∑ i, ∑ k, ∑ p, (∑ m, ∑ y, Z k m y * V k i m (p - y) - S i k p) ^ 2 := by
  have h := C32_rfl2norm2 a (fun p : A × K => fun q => ∑ m, rconv (Z p.2 m) (V p.2 p.1 m) q - S p.1 p.2 q)
  have e : (fun p : (A × K) × Half N a =>
      Linalg.inner (fun m => coefF a Z p.1.2 m p.2) (fun m => rfft N a (V p.1.2 p.1.1 m) p.2) -
        rfft N a (S p.1.1 p.1.2) p.2) = fun p : (A × K) × Half N a =>
      rfft N a (fun q => ∑ m, rconv (Z p.1.2 m) (V p.1.2 p.1.1 m) q - S p.1.1 p.1.2 q) p.2 := by
    funext p
    change ∑ m, rf (Z p.1.2 m) p.2.1 * rf (V p.1.2 p.1.1 m) p.2.1 - rf (S p.1.1 p.1.2) p.2.1 =
      rf (fun q => ∑ m, rconv (Z p.1.2 m) (V p.1.2 p.1.1 m) q - S p.1.1 p.1.2 q) p.2.1
    rw [rf_sub, rf_sum]
    simp only [rf_rconv]
  rw [e, h, Fintype.sum_prod_type, div_eq_mul_one_div, mul_comm]
  rfl

/-- **C40.** The data fidelity value recorded by `ConvCnstrMOD_IterSM` after an X update is
`(1/2) ∑ₖ ‖∑ₘ z_{k,m} * d_m - s_k‖²` at X if `fEvalX` is set and at Y if not. -/
theorem C40_ccmod_ism_recorded (Pcn : Coef A M N → Coef A M N) (S : A → Fin (κ + 1) → Grid N → ℝ)
    (Z : Fin (κ + 1) → M → Grid N → ℝ) (fe ge : Bool) (rho : ℝ) (hr : 0 < rho) (X Y0 U Y : Coef A M N)
    (Xf : Spec A M N a) :
    let x := xstepISM rho X Y0 U (setcoef S Z Xf)
    ((clsISM Pcn S fe ge).objfn x.1 Y x.2).1 = dictTerm Z S (part (if fe then x.1 else Y)) := by
  intro x
  change dfdD S fe Y x.2 = _
  unfold dfdD
  cases fe
  · exact rfl_dict S Z fun _ => part Y
  · have := rfl_dict (a := a) S Z fun _ => part x.1
    simp only [← xstepISM_Xf S Z hr X Y0 U Xf, x] at this
    exact this

/-- **C40.** `reconstruct(D)` is the sum of the circular convolutions of the filters with the
coefficient maps. -/
theorem C40_ccmod_reconstruct (Z : K → M → Grid N → ℝ) (D : Coef A M N) :
    reconstructD (coefF a Z) D = fun i k p => ∑ m, ∑ y, Z k m y * part D i m (p - y) := by
  funext i k
  have hh : Herm fun ξ => ∑ m, rf (Z k m) ξ * rf (part D i m) ξ := by
    intro ξ
    simp only [rf_herm _ ξ, map_sum, map_mul]
  have h1 := rf_irfft a hh
  apply rf_injective
  intro ξ
  have e : (fun p => ∑ m, ∑ y, Z k m y * part D i m (p - y)) =
      fun p => ∑ m, rconv (Z k m) (part D i m) p := rfl
  rw [e, rf_sum]
  simp only [rf_rconv]
  exact congrFun h1 ξ

/-- `Pcn v` is a point of `D` nearest to `v`.  (For the unit norm constraint this holds of the `v` in
which no filter is zero, see `nearest_unit`; C34 is about `Pcn` itself.) -/
def Nearest {E : Type*} [NormedAddCommGroup E] (Pcn : E → E) (D : Set E) (v : E) : Prop :=
  Pcn v ∈ D ∧ ∀ z ∈ D, ‖Pcn v - v‖ ≤ ‖z - v‖

/-- A non-zero point and the unit sphere, as an instance. -/
theorem nearest_unit {E : Type*} [NormedAddCommGroup E] [NormedSpace ℝ E] (v : E) (hv : v ≠ 0) :
    Nearest (fun v : E => ‖v‖⁻¹ • v) {y | ‖y‖ = 1} v := by
  have h0 : ‖v‖ ≠ 0 := norm_ne_zero_iff.2 hv
  refine ⟨?_, fun z hz => ?_⟩
  · change ‖‖v‖⁻¹ • v‖ = 1
    rw [norm_smul, norm_inv, norm_norm, inv_mul_cancel₀ h0]
  · have hz' : ‖z‖ = 1 := hz
    have e : (fun v : E => ‖v‖⁻¹ • v) v - v = (‖v‖⁻¹ - 1) • v := by simp only; module
    rw [e, norm_smul, Real.norm_eq_abs]
    have h1 := abs_norm_sub_norm_le z v
    rw [hz'] at h1
    refine le_trans (le_of_eq ?_) h1
    rw [← abs_norm v, ← abs_mul, sub_mul, abs_norm, inv_mul_cancel₀ h0, one_mul]

/-- **C40.** If `Pcn` gives a nearest point of the constraint set, the Y update minimises the augmented
Lagrangian in y over the constraint set. -/
theorem C40_ccmod_ism_ystep (Pcn : Coef A M N → Coef A M N) (D : Set (Coef A M N))
    (S : A → Fin (κ + 1) → Grid N → ℝ) (fe ge : Bool) (rho : ℝ) (hr : 0 < rho) (AX X Y U : Coef A M N)
    (h : AttrD A (Fin (κ + 1)) M N a) (hP : Nearest Pcn D (AX + U)) :
    let y := ((clsISM Pcn S fe ge).ystep rho AX X Y U h).1
    y ∈ D ∧ ∀ z ∈ D, rho / 2 * ‖AX - y + U‖ ^ 2 ≤ rho / 2 * ‖AX - z + U‖ ^ 2 := by
  intro y
  refine ⟨hP.1, fun z hz => ?_⟩
  have e : ∀ z, AX - z + U = (AX + U) - z := fun z => by abel
  rw [e, e, norm_sub_rev, norm_sub_rev _ z]
  exact mul_le_mul_of_nonneg_left (pow_le_pow_left₀ (norm_nonneg _) (hP.2 z hz) 2) (half_pos hr).le

/-! ## `ConvCnstrMOD_Consensus` -/

theorem xstepC_eq (S : A → Fin Nb → Grid N → ℝ) (Z : Fin Nb → M → Grid N → ℝ) (rho : ℝ)
    (X : Blocks (Coef A M N) Nb) (Y : Coef A M N) (U : Blocks (Coef A M N) Nb)
    (Xf : Fin Nb → Spec A M N a) (k : Fin Nb) :
    (xstepC rho X Y U (setcoefC S Z Xf)).1 k = genX a (fullB (Z k) rho (join (oneS S k)) (Y - U k)) ∧
    ∀ i m, (xstepC rho X Y U (setcoefC S Z Xf)).2.Xf k i m =
      fun ξ => fullB (Z k) rho (join (oneS S k)) (Y - U k) i m ξ.1 := ⟨rfl, fun _ _ => rfl⟩

theorem xstepC_Xf (S : A → Fin Nb → Grid N → ℝ) (Z : Fin Nb → M → Grid N → ℝ) {rho : ℝ} (hr : 0 < rho)
    (X : Blocks (Coef A M N) Nb) (Y : Coef A M N) (U : Blocks (Coef A M N) Nb)
    (Xf : Fin Nb → Spec A M N a) (k : Fin Nb) (i : A) (m : M) :
    (xstepC rho X Y U (setcoefC S Z Xf)).2.Xf k i m =
      rfft N a (part ((xstepC rho X Y U (setcoefC S Z Xf)).1 k) i m) := by
  obtain ⟨h1, h2⟩ := xstepC_eq S Z rho X Y U Xf k
  rw [h1, h2]
  funext ξ
  exact (congrFun (rf_genX (a := a) hr (fullB_solves (Z k) hr (join (oneS S k)) (Y - U k)) i m) ξ.1).symm

/-- **C40.** The X update of `ConvCnstrMOD_Consensus`: every block is the unique minimiser of its part
of the augmented Lagrangian, `(1/2)‖∑ₘ z_{k,m} * d_m - s_k‖² + (ρ/2)‖d - y + u_k‖²`. -/
theorem C40_ccmod_cns (S : A → Fin Nb → Grid N → ℝ) (Z : Fin Nb → M → Grid N → ℝ) (rho : ℝ)
    (hr : 0 < rho) (X : Blocks (Coef A M N) Nb) (Y : Coef A M N) (U : Blocks (Coef A M N) Nb)
    (Xf : Fin Nb → Spec A M N a) (k : Fin Nb) :
    IsUniqueMin (augMod (one Z k) (oneS S k) rho (part Y) (part (U k))) Set.univ
      (part ((xstepC rho X Y U (setcoefC S Z Xf)).1 k)) := by
  rw [(xstepC_eq S Z rho X Y U Xf k).1]
  exact augMod_unique hr (gen_normal hr (fullB_solves (Z k) hr (join (oneS S k)) (Y - U k)))

/-- The attributes belong to the coefficient maps and signal. -/
def CohC (S : A → Fin Nb → Grid N → ℝ) (Z : Fin Nb → M → Grid N → ℝ) (h : AttrC A Nb M N a) : Prop :=
  ∃ Xf, h = setcoefC S Z Xf

theorem keeps_cns (Pcn : Coef A M N → Coef A M N) (S : A → Fin Nb → Grid N → ℝ)
    (Z : Fin Nb → M → Grid N → ℝ) (fe ge : Bool) :
    Keeps (clsCns Pcn S fe ge) (fun _ (h : AttrC A Nb M N a) => CohC S Z h) :=
  ⟨⟨fun _ _ => norm_nonneg _, fun _ _ _ _ => norm_nonneg _,
      fun _ _ => le_trans (norm_nonneg _) (le_max_left _ _),
      fun _ _ hr => mul_nonneg hr (norm_nonneg _)⟩,
    fun _ X Y U _ _ hc => by obtain ⟨Xf, rfl⟩ := hc; exact ⟨_, rfl⟩,
    fun _ _ _ _ _ _ _ hc => hc, fun _ _ _ _ _ hc => hc⟩

/-- **C40.** At every iteration of every run. -/
theorem C40_ccmod_cns_history (Pcn : Coef A M N → Coef A M N) (S : A → Fin Nb → Grid N → ℝ)
    (Z : Fin Nb → M → Grid N → ℝ) (fe ge : Bool) (o : Opts) (ho : o.autoRho = true → o.RhoOk) (cb)
    (hcb : Bpdn.CallbackReads cb)
    (s : St (Blocks (Coef A M N) Nb) (Coef A M N) (Blocks (Coef A M N) Nb) (AttrC A Nb M N a))
    (hp : 0 < s.rho) (Xf : Fin Nb → Spec A M N a) (hs : s.extra = setcoefC S Z Xf) (n : ℕ) (k : Fin Nb) :
    let T := traj (clsCns Pcn S fe ge) o cb s
    IsUniqueMin (augMod (one Z k) (oneS S k) (T n).rho (part (T n).Y) (part ((T n).U k))) Set.univ
      (part ((T (n + 1)).X k)) := by
  obtain ⟨h1, Xf', h2⟩ := traj_keeps (keeps_cns Pcn S Z fe ge) o ho cb (hcb.keeps _) s hp ⟨Xf, hs⟩ n
  simp only
  rw [traj_succ, oneIter_X, show (clsCns (a := a) Pcn S fe ge).xstep = xstepC from rfl, h2]
  exact C40_ccmod_cns S Z _ h1 _ _ _ _ k

/-- **C40.** The data fidelity value recorded by `ConvCnstrMOD_Consensus`: with `fEvalX`, the sum over
the signals of `(1/2)‖∑ₘ z_{k,m} * d_m - s_k‖²` at the block of that signal; otherwise the term at Y. -/
theorem C40_ccmod_cns_recorded (Pcn : Coef A M N → Coef A M N) (S : A → Fin Nb → Grid N → ℝ)
    (Z : Fin Nb → M → Grid N → ℝ) (fe ge : Bool) (rho : ℝ) (hr : 0 < rho)
    (X : Blocks (Coef A M N) Nb) (Y0 : Coef A M N) (U : Blocks (Coef A M N) Nb) (Y : Coef A M N)
    (Xf : Fin Nb → Spec A M N a) :
    let x := xstepC rho X Y0 U (setcoefC S Z Xf)
    ((clsCns Pcn S fe ge).objfn x.1 Y x.2).1 =
      if fe then ∑ k, dictTerm (one Z k) (oneS S k) (part (x.1 k)) else dictTerm Z S (part Y) := by
  intro x
  change dfdC S fe Y x.2 = _
  unfold dfdC
  cases fe
  · exact rfl_dict S Z fun _ => part Y
  · have h := rfl_dict (a := a) S Z fun k => part (x.1 k)
    simp only [← xstepC_Xf S Z hr X Y0 U Xf, x] at h
    rw [if_pos rfl]
    refine h.trans ?_
    unfold dictTerm
    rw [sum_comm, mul_sum]
    refine sum_congr rfl fun k _ => ?_
    simp only [univ_unique, sum_singleton]
    rfl

/-- **C40.** If `Pcn` gives a nearest point, the Y update minimises the augmented Lagrangian in y over
the constraint set. -/
theorem C40_ccmod_cns_ystep (Pcn : Coef A M N → Coef A M N) (D : Set (Coef A M N))
    (S : A → Fin Nb → Grid N → ℝ) (fe ge : Bool) (rho : ℝ) (hr : 0 < rho) (hN : 0 < Nb)
    (AX U X : Blocks (Coef A M N) Nb) (Y : Coef A M N) (h : AttrC A Nb M N a)
    (hP : Nearest Pcn D ((Nb : ℝ)⁻¹ • ∑ k, (AX k + U k))) :
    let y := ((clsCns Pcn S fe ge).ystep rho AX X Y U h).1
    y ∈ D ∧ ∀ z ∈ D, rho / 2 * ∑ k, ‖AX k - y + U k‖ ^ 2 ≤ rho / 2 * ∑ k, ‖AX k - z + U k‖ ^ 2 := by
  intro y
  obtain ⟨v, hv⟩ : ∃ v, v = Consensus.mean (AX + U) := ⟨_, rfl⟩
  have hP' : Nearest Pcn D v := by rw [hv]; exact hP
  have hy : y = Pcn v := by rw [hv]; rfl
  refine ⟨hP.1, fun z hz => ?_⟩
  have hprox : IsProxG (fun _ => 0) {Pcn v, z} (fun u _ => if ‖Pcn v - u‖ ≤ ‖z - u‖ then Pcn v else z) :=
    fun u r hr => by
      beta_reduce
      refine ⟨by split_ifs <;> simp, fun w hw => ?_⟩
      rw [zero_add, zero_add]
      refine mul_le_mul_of_nonneg_left (pow_le_pow_left₀ (norm_nonneg _) ?_ 2) (half_pos hr).le
      rcases hw with rfl | rfl <;> split_ifs with hc
      · exact le_rfl
      · exact (not_le.1 hc).le
      · exact hc
      · exact le_rfl
  have := (C37_consensus_ystep _ {Pcn v, z} _ hprox rho hr hN AX U z (by simp)).2
  have e : Consensus.ystep (fun u _ => if ‖Pcn v - u‖ ≤ ‖z - u‖ then Pcn v else z) rho AX U = y := by
    unfold Consensus.ystep
    beta_reduce
    rw [← hv, if_pos (hP'.2 z hz), hy]
  rw [zero_add, zero_add, norm_sq_blocks, norm_sq_blocks, e] at this
  exact this

/-! ## `ConvCnstrMODMaskDcpl_IterSM` -/

theorem cnstA0_eq (Z : K → M → Grid N → ℝ) (X : Coef A M N) : cnstA0 a Z X = modOp Z X := by
  refine part_ext fun i k ξ => ?_
  have hh : Herm fun ξ => ∑ m, rf (Z k m) ξ * rf (part X i m) ξ := by
    intro ξ
    simp only [rf_herm _ ξ, map_sum, map_mul]
  have h1 := congrFun (rf_irfft a hh) ξ
  rw [part_modOp, rf_sum]
  simp only [rf_rconv]
  exact h1

theorem cnstA0T_eq (Z : K → M → Grid N → ℝ) (Y : Sig A K N) : cnstA0T a Z Y = modOpT Z Y := by
  refine part_ext fun i m ξ => ?_
  have hh : Herm fun ξ => ∑ k, conj (rf (Z k m) ξ) * rf (part Y i k) ξ := by
    intro ξ
    simp only [rf_herm _ ξ, map_sum, map_mul]
  have h1 := congrFun (rf_irfft a hh) ξ
  rw [part_modOpT, rf_sum]
  simp only [rf_rcorr]
  exact h1

/-- **C37.** `cnst_A0T` of `ccmodmd.py` is the adjoint of `cnst_A0`. -/
theorem C37_ccmodmd_adjoint (Z : K → M → Grid N → ℝ) (X : Coef A M N) (Y : Sig A K N) :
    ∑ i, ∑ k, ∑ p, part (cnstA0 a Z X) i k p * part Y i k p =
      ∑ i, ∑ m, ∑ p, part X i m p * part (cnstA0T a Z Y) i m p := by
  rw [← inner_part, ← inner_part, cnstA0_eq, cnstA0T_eq, modOp_adj]

theorem xstepMD_eq (Z : Fin (κ + 1) → M → Grid N → ℝ) (S : A → Fin (κ + 1) → Grid N → ℝ) (rho : ℝ)
    (X : Coef A M N) (Y U : YD A (Fin (κ + 1)) M N) (h : Spec A M N a) :
    (xstepMD Z S rho X Y U h).1 = genX a (fullI Z 1 (Y.fst - U.fst + join S) (Y.snd - U.snd)) ∧
    ∀ i m, (xstepMD Z S rho X Y U h).2 i m =
      fun ξ => fullI Z 1 (Y.fst - U.fst + join S) (Y.snd - U.snd) i m ξ.1 := by
  constructor
  · unfold xstepMD genX fullI ism
    simp only [Complex.ofReal_one, one_mul]
    rfl
  · intro i m
    unfold xstepMD fullI ism
    simp only [Complex.ofReal_one, one_mul]
    rfl

/-- After the X update `Xf` is the transform of X. -/
theorem xstepMD_Xf (Z : Fin (κ + 1) → M → Grid N → ℝ) (S : A → Fin (κ + 1) → Grid N → ℝ) (rho : ℝ)
    (X : Coef A M N) (Y U : YD A (Fin (κ + 1)) M N) (h : Spec A M N a) (i : A) (m : M) :
    (xstepMD Z S rho X Y U h).2 i m = rfft N a (part (xstepMD Z S rho X Y U h).1 i m) := by
  obtain ⟨h1, h2⟩ := xstepMD_eq Z S rho X Y U h
  rw [h1, h2]
  funext ξ
  exact (congrFun (rf_genX (a := a) one_pos (fullI_solves Z one_pos _ _) i m) ξ.1).symm

theorem xstepMD_normal (Z : Fin (κ + 1) → M → Grid N → ℝ) (S : A → Fin (κ + 1) → Grid N → ℝ) (rho : ℝ)
    (X : Coef A M N) (Y U : YD A (Fin (κ + 1)) M N) (h : Spec A M N a) :
    modOpT Z (modOp Z (xstepMD Z S rho X Y U h).1) + (1 : ℝ) • (xstepMD Z S rho X Y U h).1 =
      modOpT Z (Y.fst - U.fst + join S) + (1 : ℝ) • (Y.snd - U.snd) := by
  rw [(xstepMD_eq Z S rho X Y U h).1]
  exact gen_normal one_pos (fullI_solves Z one_pos _ _)

/-- **C40.** The X update of `ConvCnstrMODMaskDcpl_IterSM` gives the unique minimiser of the augmented
Lagrangian, whatever the state. -/
theorem C40_ccmodmd_ism (Z : Fin (κ + 1) → M → Grid N → ℝ) (S : A → Fin (κ + 1) → Grid N → ℝ) (rho : ℝ)
    (hr : 0 < rho) (X : Coef A M N) (Y U : YD A (Fin (κ + 1)) M N) (h : Spec A M N a) :
    IsUniqueMin (augModMask Z S rho (part Y.fst) (part U.fst) (part Y.snd) (part U.snd)) Set.univ
      (part (xstepMD Z S rho X Y U h).1) :=
  augModMask_unique hr (xstepMD_normal Z S rho X Y U h)

/-- The first block's functional. -/
noncomputable def gW (W : A → K → Grid N → ℝ) (y : Sig A K N) : ℝ :=
  1 / 2 * ∑ i, ∑ k, ∑ p, (W i k p * part y i k p) ^ 2

theorem maskDiv_min (S W : A → K → Grid N → ℝ) (rho : ℝ) (hr : 0 < rho) (v z : Sig A K N) :
    gW W (maskDiv S W rho v) + rho / 2 * ‖v - join S - maskDiv S W rho v‖ ^ 2 +
        rho / 2 * ‖z - maskDiv S W rho v‖ ^ 2 ≤ gW W z + rho / 2 * ‖v - join S - z‖ ^ 2 := by
  unfold gW
  obtain ⟨y, hy⟩ : ∃ y, y = maskDiv S W rho v := ⟨_, rfl⟩
  rw [← hy, norm_part, norm_part, norm_part]
  simp only [mul_sum, ← sum_add_distrib]
  refine sum_le_sum fun i _ => sum_le_sum fun k _ => sum_le_sum fun p _ => ?_
  have e : ∀ z : Sig A K N, part (v - join S - z) i k p =
      part v i k p - S i k p - part z i k p := fun z => rfl
  have e' : part (z - y) i k p = part z i k p - part y i k p := rfl
  rw [e, e, e']
  have ey : part y i k p = rho * (part v i k p - S i k p) / (W i k p ^ 2 + rho) := by rw [hy]; rfl
  have hd : 0 < W i k p ^ 2 + rho := by positivity
  obtain ⟨t, ht⟩ : ∃ t, t = part v i k p - S i k p := ⟨_, rfl⟩
  rw [← ht] at ey ⊢
  have hy : (W i k p ^ 2 + rho) * part y i k p = rho * t := by rw [ey]; field_simp
  have h1 : 0 ≤ W i k p ^ 2 * (part z i k p - part y i k p) ^ 2 := by positivity
  nlinarith [congrArg (fun r => r * (part z i k p - part y i k p)) hy]

/-- Without constraint on the dictionary, the class solves its subproblems exactly. -/
theorem exact_md (Z : Fin (κ + 1) → M → Grid N → ℝ) (S W : A → Fin (κ + 1) → Grid N → ℝ) (av : Bool) :
    TbExact (clsMD a (fun v => v) Z S W av) (modOp Z) (modOpT Z) (ContinuousLinearMap.id ℝ _)
      (ContinuousLinearMap.id ℝ _) (join S) 0 (gW W) Set.univ (fun _ => 0) Set.univ (fun _ _ => True) := by
  refine ⟨fun rlx x y => ?_, fun _ _ _ => rfl, fun _ _ => rfl, fun rho yp y u => ?_,
    fun ax y => ?_, fun rho u hr => mul_nonneg hr (norm_nonneg _), fun _ _ _ _ _ _ _ => trivial,
    fun _ _ _ _ _ _ _ _ => trivial, fun _ _ _ _ _ _ => trivial, ?_, ?_, ?_⟩
  · change TwoBlock.relaxAX (cnstA0 a Z) (fun x => x) (join S) 0 rlx x y = _
    rw [show (cnstA0 a Z : Coef A M N → Sig A (Fin (κ + 1)) N) = modOp Z from
      funext fun X => cnstA0_eq Z X]
    rfl
  · change ‖rho * ‖TwoBlock.cnstAT (cnstA0T a Z) (fun y => y) u‖‖ = _
    rw [show (cnstA0T a Z : Sig A (Fin (κ + 1)) N → Coef A M N) = modOpT Z from
      funext fun X => cnstA0T_eq Z X, norm_smul, norm_mul, norm_norm]
    rfl
  · change 0 ≤ TwoBlock.rsdlRn (join S) 0 ax y
    unfold TwoBlock.rsdlRn
    positivity
  · intro rho X Y U h _ _ z
    have h1 := gen_excess (xstepMD_normal Z S rho X Y U h) z
    have h2 := sq_nonneg ‖modOp Z (z - (xstepMD Z S rho X Y U h).1)‖
    have h3 := sq_nonneg ‖z - (xstepMD Z S rho X Y U h).1‖
    simp only [ContinuousLinearMap.id_apply, add_zero]
    change ‖modOp Z (xstepMD Z S rho X Y U h).1 - _‖ ^ 2 + ‖(xstepMD Z S rho X Y U h).1 - _‖ ^ 2 ≤ _
    linarith
  · intro rho AX X Y U h hp _
    refine ⟨trivial, fun z _ => ?_⟩
    have h1 := maskDiv_min S W rho hp (AX.fst + U.fst) z
    have h2 : 0 ≤ rho / 2 * ‖z - maskDiv S W rho (AX.fst + U.fst)‖ ^ 2 := by positivity
    change gW W (maskDiv S W rho (AX.fst + U.fst)) +
      rho / 2 * ‖AX.fst + U.fst - join S - maskDiv S W rho (AX.fst + U.fst)‖ ^ 2 ≤ _
    linarith
  · intro rho AX X Y U h hp _
    refine ⟨trivial, fun z _ => ?_⟩
    rw [zero_add, zero_add, sub_zero]
    change rho / 2 * ‖AX.snd + U.snd - (AX.snd + U.snd)‖ ^ 2 ≤ _
    rw [sub_self, norm_zero, zero_pow two_ne_zero, mul_zero]
    positivity

/-- **C40.** The Y update of `ConvCnstrMODMaskDcpl_IterSM` minimises the augmented Lagrangian in
`(y⁰, y¹)`, with y¹ in the constraint set, if `Pcn` gives a nearest point. -/
theorem C40_ccmodmd_ism_ystep (Pcn : Coef A M N → Coef A M N) (D : Set (Coef A M N))
    (Z : Fin (κ + 1) → M → Grid N → ℝ) (S W : A → Fin (κ + 1) → Grid N → ℝ) (av : Bool) (rho : ℝ)
    (hr : 0 < rho) (AX U Y : YD A (Fin (κ + 1)) M N) (X : Coef A M N) (h : Spec A M N a)
    (hP : Nearest Pcn D (AX.snd + U.snd)) :
    let y := ((clsMD a Pcn Z S W av).ystep rho AX X Y U h).1
    let L (y0 : Sig A (Fin (κ + 1)) N) (y1 : Coef A M N) : ℝ :=
      1 / 2 * ∑ i, ∑ k, ∑ p, (W i k p * part y0 i k p) ^ 2 +
        rho / 2 * (‖AX.fst - y0 - join S + U.fst‖ ^ 2 + ‖AX.snd - y1 + U.snd‖ ^ 2)
    y.snd ∈ D ∧ ∀ z0, ∀ z1 ∈ D, L y.fst y.snd ≤ L z0 z1 := by
  intro y L
  refine ⟨hP.1, fun z0 z1 hz => ?_⟩
  have h3 := maskDiv_min S W rho hr (AX.fst + U.fst) z0
  have h4 : 0 ≤ rho / 2 * ‖z0 - maskDiv S W rho (AX.fst + U.fst)‖ ^ 2 := by positivity
  have e0 : ∀ z, AX.fst - z - join S + U.fst = AX.fst + U.fst - join S - z := fun z => by abel
  have e1 : ∀ z, AX.snd - z + U.snd = (AX.snd + U.snd) - z := fun z => by abel
  have h5 : rho / 2 * ‖Pcn (AX.snd + U.snd) - (AX.snd + U.snd)‖ ^ 2 ≤ rho / 2 * ‖z1 - (AX.snd + U.snd)‖ ^ 2 :=
    mul_le_mul_of_nonneg_left (pow_le_pow_left₀ (norm_nonneg _) (hP.2 z1 hz) 2) (half_pos hr).le
  change 1 / 2 * _ + rho / 2 * (‖AX.fst - maskDiv S W rho (AX.fst + U.fst) - join S + U.fst‖ ^ 2 +
      ‖AX.snd - Pcn (AX.snd + U.snd) + U.snd‖ ^ 2) ≤
    1 / 2 * _ + rho / 2 * (‖AX.fst - z0 - join S + U.fst‖ ^ 2 + ‖AX.snd - z1 + U.snd‖ ^ 2)
  rw [e0, e0, e1, e1, norm_sub_rev _ (Pcn _), norm_sub_rev _ z1, mul_add, mul_add]
  unfold gW at h3
  have h6 : 1 / 2 * ∑ i, ∑ k, ∑ p, (W i k p * part y.fst i k p) ^ 2 =
    1 / 2 * ∑ i, ∑ k, ∑ p, (W i k p * part (maskDiv S W rho (AX.fst + U.fst)) i k p) ^ 2 := rfl
  linarith

/-- **C37.** The residual `rho Aᵀ u` reported by `ConvCnstrMODMaskDcpl_IterSM` is the dual residual
`rho Aᵀ B (y' - y)` of the method plus `1 - RelaxParam` times its own previous value; the two agree
without relaxation.  (Missing: with relaxation they differ, see `C37_twoblock_dual_partial`.) -/
theorem C37_ccmodmd_dual_partial (Pcn : Coef A M N → Coef A M N) (Z : Fin (κ + 1) → M → Grid N → ℝ)
    (S W : A → Fin (κ + 1) → Grid N → ℝ) (av : Bool) (rho rlx : ℝ) (hp : 0 < rho)
    (X0 : Coef A M N) (Y U Y' : YD A (Fin (κ + 1)) M N) (e : Spec A M N a) :
    let C := clsMD a Pcn Z S W av
    let X := (C.xstep rho X0 Y U e).1
    let U' := C.ustep (C.relax rlx X Y).1 Y' U
    let AT := TwoBlock.cnstAT (modOpT (A := A) Z) (ContinuousLinearMap.id ℝ (Coef A M N))
    rho • AT U' = rsdlS AT (fun y => -y) rho Y Y' + (1 - rlx) • (rho • AT U) ∧
    (rlx = 1 → C.nrmS rho Y Y' U' = ‖rsdlS AT (fun y => -y) rho Y Y'‖) :=
  C37_twoblock_dual_partial (exact_md Z S W av) (modOp_adj Z) (fun _ _ => rfl) rho rlx hp X0 Y U
    Y' e trivial

/-- **C40.** The recorded data fidelity of `ConvCnstrMODMaskDcpl_IterSM` (with `AuxVarObj` false) is
`(1/2) ∑ₖ ‖W(∑ₘ z_{k,m} * d_m - s_k)‖²` at X. -/
theorem C40_ccmodmd_ism_recorded (Pcn : Coef A M N → Coef A M N) (Z : Fin (κ + 1) → M → Grid N → ℝ)
    (S W : A → Fin (κ + 1) → Grid N → ℝ) (rho : ℝ) (X : Coef A M N) (Y0 U Y : YD A (Fin (κ + 1)) M N)
    (h : Spec A M N a) :
    let x := xstepMD Z S rho X Y0 U h
    ((clsMD a Pcn Z S W false).objfn x.1 Y x.2).1 = dictMaskTerm Z S W (part x.1) := by
  intro x
  have e : g0varD a Z S false Y x.2 = modOp Z x.1 - join S := by
    rw [← cnstA0_eq (a := a)]
    unfold g0varD cnstA0
    simp only [x, ← xstepMD_Xf Z S rho X Y0 U h]
    rfl
  change ‖(join fun i k p => W i k p * part (g0varD a Z S false Y x.2) i k p : Sig A (Fin (κ + 1)) N)‖ ^ 2 / 2 = _
  rw [e, PgmConv.dictMaskTerm_eq, div_eq_mul_one_div, mul_comm]
  rfl

end Sporco.Conv.Mod
