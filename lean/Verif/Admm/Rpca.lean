import Verif.Admm.Generic
import Verif.Admm.BpdnConv
import Verif.Prox.Nuclear
import Verif.Linalg.SvdExists
import Verif.Tv.DeconvL1

/-!
# `RobustPCA` (`sporco/admm/rpca.py`): model, exact steps, recorded values, convergence

The routine `numpy.linalg.svd` is a parameter, restricted by its contract `SvdRoutine`.
-/

set_option autoImplicit false
set_option linter.unusedSectionVars false

namespace Sporco.Admm.Rpca

open Matrix Filter Topology
open Sporco.Prox (IsSVD proxNuclear normNuclear nuc fsq fdot opBound IsUniqueMin IsMin l1w l1 proxL1Arr normL1 proxObj)
open Sporco.Linalg (OrthoFam svd_exists)
open Sporco.Admm.Bpdn (CallbackReads)
open scoped RealInnerProductSpace

variable {m n : ℕ}

/-! ## Model -/

/-- The three arrays `np.linalg.svd(V, full_matrices=False)` returns. -/
abbrev Svd (m n : ℕ) := Matrix (Fin m) (Fin n) ℝ →
  Matrix (Fin m) (Fin (min m n)) ℝ × (Fin (min m n) → ℝ) × Matrix (Fin (min m n)) (Fin n) ℝ

/-- The contract of the SVD routine. -/
def SvdRoutine (svd : Svd m n) : Prop := ∀ V, IsSVD V (svd V).1 (svd V).2.1 (svd V).2.2

/-- `sporco.prox.prox_nuclear(V, alpha)` (`prox/_nuclear.py` 65-67). -/
noncomputable def proxNuc (svd : Svd m n) (V : Matrix (Fin m) (Fin n) ℝ) (alpha : ℝ) :
    Matrix (Fin m) (Fin n) ℝ × (Fin (min m n) → ℝ) :=
  proxNuclear (svd V).1 (svd V).2.1 (svd V).2.2 alpha

/-- `sporco.prox.norm_nuclear(X)` (`prox/_nuclear.py` 21-41). -/
noncomputable def normNuc (svd : Svd m n) (X : Matrix (Fin m) (Fin n) ℝ) : ℝ := normNuclear (svd X).2.1

/-- The attribute `ss` (`rpca.py` 175). -/
abbrev Attr (m n : ℕ) := Fin (min m n) → ℝ

/-- `RobustPCA.__init__`, default of `lmbda` (`rpca.py` 134-136). -/
noncomputable def defaultLmbda (m : ℕ) : ℝ := (m : ℝ) ^ (-(1 / 2) : ℝ)

/-- `RobustPCA.xstep` (`rpca.py` 170-176). -/
noncomputable def xstep (svd : Svd m n) (S : Arr m n) (rho : ℝ) (_X Y U : Arr m n) (_h : Attr m n) :
    Arr m n × Attr m n :=
  let r := proxNuc svd (mat (S - Y - U)) (1 / rho)
  (arr r.1, r.2)

/-- `RobustPCA.ystep` (`rpca.py` 180-186). -/
noncomputable def ystep (S : Arr m n) (lmbda rho : ℝ) (AX _X _Y U : Arr m n) (h : Attr m n) :
    Arr m n × Attr m n :=
  (WithLp.toLp 2 (proxL1Arr (S - AX - U).ofLp fun _ => lmbda / rho), h)

/-- `RobustPCA.obfn_fvar` (`rpca.py` 190-198). -/
def fvar (S : Arr m n) (fEvalX : Bool) (X Y : Arr m n) : Arr m n := if fEvalX then X else S - Y

/-- `RobustPCA.obfn_gvar` (`rpca.py` 202-210). -/
def gvar (S : Arr m n) (gEvalY : Bool) (X Y : Arr m n) : Arr m n := if gEvalY then Y else S - X

/-- `RobustPCA.eval_objfn`, the entries `ObjFun`, `NrmNuc`, `NrmL1` (`rpca.py` 214-226). -/
noncomputable def evalObjfn (svd : Svd m n) (S : Arr m n) (lmbda : ℝ) (fEvalX gEvalY : Bool)
    (X Y : Arr m n) (h : Attr m n) : ℝ × ℝ × ℝ :=
  let rnn := if fEvalX then normNuclear h else normNuc svd (mat (fvar S fEvalX X Y))
  let rl1 := normL1 (gvar S gEvalY X Y).ofLp
  (rnn + lmbda * rl1, rnn, rl1)

/-- `RobustPCA.eval_objfn`, the entry `Cnstr` (`rpca.py` 224). -/
noncomputable def cns (S X Y : Arr m n) : ℝ := ‖X + Y - S‖

/-- The class `RobustPCA` (`rpca.py` 23-262), with `cnst_A`, `cnst_AT`, `cnst_B` the identity and `cnst_c`
the data (`rpca.py` 230-262), on the generic `ADMM` methods. -/
noncomputable def cls (svd : Svd m n) (S : Arr m n) (lmbda : ℝ) (fEvalX gEvalY : Bool) :
    Cls (Arr m n) (Arr m n) (Arr m n) (Attr m n) :=
  Cls.generic (fun x => x) (fun y => y) (fun y => y) S (xstep svd S) (ystep S lmbda) (fun _ h => h)
    (evalObjfn svd S lmbda fEvalX gEvalY)

/-! ## Specification -/

/-- The functional of the class documentation: `‖X‖_* + λ ‖Y‖₁`. -/
noncomputable def objRPCA (lmbda : ℝ) (X Y : Matrix (Fin m) (Fin n) ℝ) : ℝ :=
  nuc X + lmbda * ∑ i, ∑ j, |Y i j|

/-- The augmented Lagrangian for the data `S`. -/
noncomputable def augRPCA (S : Matrix (Fin m) (Fin n) ℝ) (lmbda rho : ℝ) (U X Y : Matrix (Fin m) (Fin n) ℝ) : ℝ :=
  objRPCA lmbda X Y + rho / 2 * fsq (X + Y - S + U)

/-- `(X, Y)` solves the documented problem. -/
def Solves (S : Matrix (Fin m) (Fin n) ℝ) (lmbda : ℝ) (X Y : Matrix (Fin m) (Fin n) ℝ) : Prop :=
  X + Y = S ∧ ∀ X' Y', X' + Y' = S → objRPCA lmbda X Y ≤ objRPCA lmbda X' Y'

/-! ## Lemmas -/

theorem norm_fsq (x : Arr m n) : ‖x‖ ^ 2 = fsq (mat x) := by
  rw [norm_mat]; unfold fro2 fsq
  simp only [Real.norm_eq_abs, sq_abs]

theorem l1_sum (y : Arr m n) : (∑ i, ∑ j, |mat y i j|) = l1w (fun _ => 1) y.ofLp := by
  unfold l1w
  rw [Fintype.sum_prod_type]
  simp only [one_mul, Real.norm_eq_abs]
  rfl

theorem norml1_sum (y : Arr m n) : normL1 y.ofLp = ∑ i, ∑ j, |mat y i j| := by
  rw [l1_sum]; unfold normL1 l1w; simp only [one_mul]

theorem fdot_add (G X Y : Matrix (Fin m) (Fin n) ℝ) : fdot G (X + Y) = fdot G X + fdot G Y :=
  Prox.fdot_add_right G X Y

theorem fdot_smul (G Y : Matrix (Fin m) (Fin n) ℝ) (c : ℝ) : fdot G (c • Y) = c * fdot G Y := by
  unfold fdot
  rw [Finset.mul_sum]
  refine Finset.sum_congr rfl fun i _ => ?_
  rw [Finset.mul_sum]
  refine Finset.sum_congr rfl fun j _ => ?_
  simp only [Matrix.smul_apply, smul_eq_mul, star_trivial, RCLike.re_to_real]
  ring

theorem le_nuc {G : Matrix (Fin m) (Fin n) ℝ} (hG : opBound G 1) (Y : Matrix (Fin m) (Fin n) ℝ) :
    fdot G Y ≤ nuc Y := le_csSup (Prox.nuc_bdd Y) ⟨G, hG, rfl⟩

theorem nuc_le {Y : Matrix (Fin m) (Fin n) ℝ} {b : ℝ} (h : ∀ G, opBound G 1 → fdot G Y ≤ b) : nuc Y ≤ b := by
  refine csSup_le ⟨_, 0, Prox.opBound_zero, rfl⟩ ?_
  rintro r ⟨G, hG, rfl⟩
  exact h G hG

theorem nuc_nonneg (Y : Matrix (Fin m) (Fin n) ℝ) : 0 ≤ nuc Y := by
  have := le_nuc Prox.opBound_zero Y
  have e : fdot (0 : Matrix (Fin m) (Fin n) ℝ) Y = 0 := by unfold fdot; simp
  rwa [e] at this

theorem nuc_zero : nuc (0 : Matrix (Fin m) (Fin n) ℝ) = 0 :=
  le_antisymm (nuc_le fun G _ => by unfold fdot; simp) (nuc_nonneg _)

theorem nuc_add (X Y : Matrix (Fin m) (Fin n) ℝ) : nuc (X + Y) ≤ nuc X + nuc Y :=
  nuc_le fun G hG => by rw [fdot_add]; exact add_le_add (le_nuc hG X) (le_nuc hG Y)

theorem nuc_smul (c : ℝ) (hc : 0 ≤ c) (X : Matrix (Fin m) (Fin n) ℝ) : nuc (c • X) ≤ c * nuc X :=
  nuc_le fun G hG => by rw [fdot_smul]; exact mul_le_mul_of_nonneg_left (le_nuc hG X) hc

theorem entry_le {G : Matrix (Fin m) (Fin n) ℝ} (hG : opBound G 1) (i : Fin m) (j : Fin n) : |G i j| ≤ 1 := by
  have h := hG (Pi.single i 1) (Pi.single j 1)
  have e1 : ∑ i', ∑ j', star ((Pi.single i 1 : Fin m → ℝ) i') * G i' j' * (Pi.single j 1 : Fin n → ℝ) j' =
      G i j := by
    rw [Finset.sum_eq_single i, Finset.sum_eq_single j]
    · simp
    · intro b _ hb; simp [hb]
    · simp
    · intro b _ hb; simp [hb]
    · simp
  have e2 : ∀ {p : ℕ} (i : Fin p), Prox.l2 (Pi.single i 1 : Fin p → ℝ) = 1 := by
    intro p i
    unfold Prox.l2 Prox.sq
    rw [Finset.sum_eq_single i (fun b _ hb => by simp [hb]) (by simp)]
    simp
  rw [e1, e2, e2] at h
  simpa using h

theorem nuc_le_l1 (Y : Matrix (Fin m) (Fin n) ℝ) : nuc Y ≤ ∑ i, ∑ j, |Y i j| := by
  refine nuc_le fun G hG => ?_
  unfold fdot
  refine Finset.sum_le_sum fun i _ => Finset.sum_le_sum fun j _ => ?_
  simp only [star_trivial, RCLike.re_to_real]
  refine (le_abs_self _).trans ?_
  rw [abs_mul]
  exact mul_le_of_le_one_left (abs_nonneg _) (entry_le hG i j)

theorem nuc_sub (X Y : Matrix (Fin m) (Fin n) ℝ) : |nuc X - nuc Y| ≤ ∑ i, ∑ j, |(X - Y) i j| := by
  have h1 := nuc_add (X - Y) Y
  have h2 := nuc_add (Y - X) X
  rw [sub_add_cancel] at h1 h2
  have h3 := nuc_le_l1 (X - Y)
  have h4 := nuc_le_l1 (Y - X)
  have e : (∑ i, ∑ j, |(Y - X) i j|) = ∑ i, ∑ j, |(X - Y) i j| := by
    refine Finset.sum_congr rfl fun i _ => Finset.sum_congr rfl fun j _ => ?_
    rw [Matrix.sub_apply, Matrix.sub_apply, abs_sub_comm]
  rw [e] at h4
  rw [abs_le]
  constructor <;> linarith

theorem nuc_convex : ConvexOn ℝ Set.univ fun x : Arr m n => nuc (mat x) := by
  refine ⟨convex_univ, fun x _ y _ a b ha hb _ => ?_⟩
  change nuc (a • mat x + b • mat y) ≤ a * nuc (mat x) + b * nuc (mat y)
  exact (nuc_add _ _).trans (add_le_add (nuc_smul a ha _) (nuc_smul b hb _))

theorem nuc_continuous : Continuous fun x : Arr m n => nuc (mat x) := by
  have hc : Continuous fun x : Arr m n => l1w (fun _ => 1) x.ofLp := Bpdn.continuous_l1w _
  rw [continuous_iff_continuousAt]
  intro x
  rw [ContinuousAt, tendsto_iff_norm_sub_tendsto_zero]
  have h0 : Tendsto (fun y : Arr m n => l1w (fun _ => 1) (y - x).ofLp) (𝓝 x) (𝓝 0) := by
    have hd : Continuous fun y : Arr m n => l1w (fun _ => (1 : ℝ)) (y - x).ofLp :=
      hc.comp (continuous_id.sub continuous_const)
    have h1 := hd.tendsto x
    have e : l1w (fun _ => (1 : ℝ)) (x - x : Arr m n).ofLp = 0 := by
      rw [sub_self]; unfold l1w; simp
    rw [e] at h1
    exact h1
  refine squeeze_zero (fun _ => norm_nonneg _) (fun y => ?_) h0
  rw [Real.norm_eq_abs, ← l1_sum]
  exact nuc_sub _ _

theorem l1_convex (lmbda : ℝ) (hl : 0 ≤ lmbda) :
    ConvexOn ℝ Set.univ fun y : Arr m n => lmbda * ∑ i, ∑ j, |mat y i j| := by
  have := Bpdn.convex_l1w (fun _ : Fin m × Fin n => 1) (fun _ => zero_le_one) Set.univ convex_univ lmbda hl
  simpa only [l1_sum] using this

/-! ## The steps -/

theorem xstep_min (svd : Svd m n) (hsvd : SvdRoutine svd) (S : Arr m n) (rho : ℝ) (hr : 0 < rho)
    (X Y U : Arr m n) (h : Attr m n) :
    IsUniqueMin (fun Z : Matrix (Fin m) (Fin n) ℝ => nuc Z + rho / 2 * fsq (Z + mat Y - mat S + mat U)) Set.univ
      (mat (xstep svd S rho X Y U h).1) ∧
    (xstep svd S rho X Y U h).2 = (proxNuc svd (mat (S - Y - U)) (1 / rho)).2 ∧
    normNuclear (xstep svd S rho X Y U h).2 = nuc (mat (xstep svd S rho X Y U h).1) := by
  obtain ⟨⟨-, h1⟩, h2⟩ := Prox.C21_prox_nuclear (hsvd (mat (S - Y - U))) (1 / rho) (by positivity)
  refine ⟨⟨trivial, fun Z _ hZ => ?_⟩, rfl, (Prox.C21_nuc_eq_sum_singular_values h2).symm⟩
  have h3 := h1 Z trivial hZ
  have e : ∀ W : Matrix (Fin m) (Fin n) ℝ, rho * (1 / 2 * fsq (W - mat (S - Y - U)) + 1 / rho * nuc W) =
      nuc W + rho / 2 * fsq (W + mat Y - mat S + mat U) := by
    intro W
    have e1 : W - mat (S - Y - U) = W + mat Y - mat S + mat U := by
      rw [mat_sub, mat_sub]; abel
    rw [e1]
    field_simp
    ring
  have h4 := mul_lt_mul_of_pos_left h3 hr
  simp only at h4
  rw [e, e] at h4
  exact h4

theorem ystep_min (S : Arr m n) (lmbda : ℝ) (hl : 0 ≤ lmbda) (rho : ℝ) (hr : 0 < rho)
    (AX X Y U : Arr m n) (h : Attr m n) :
    IsUniqueMin (fun Z : Matrix (Fin m) (Fin n) ℝ => lmbda * (∑ i, ∑ j, |Z i j|) +
        rho / 2 * fsq (mat AX + Z - mat S + mat U)) Set.univ
      (mat (ystep S lmbda rho AX X Y U h).1) := by
  obtain ⟨-, h1⟩ := Prox.C15_prox_l1_real (S - AX - U).ofLp (fun _ => lmbda / rho) (fun _ => by positivity)
  have e : ∀ z : Arr m n, rho * proxObj (l1w fun _ => lmbda / rho) (S - AX - U).ofLp z.ofLp =
      lmbda * (∑ i, ∑ j, |mat z i j|) + rho / 2 * fsq (mat AX + mat z - mat S + mat U) := by
    intro z
    have e1 : Prox.sq (z.ofLp - (S - AX - U).ofLp) = fsq (mat AX + mat z - mat S + mat U) := by
      have e2 : mat AX + mat z - mat S + mat U = mat (z - (S - AX - U)) := by
        rw [mat_sub, mat_sub, mat_sub]; abel
      rw [e2, ← norm_fsq, ← WithLp.ofLp_sub, Bpdn.sq_norm]
    have e3 : l1w (fun _ => lmbda / rho) z.ofLp = lmbda / rho * ∑ i, ∑ j, |mat z i j| := by
      rw [l1_sum]; unfold l1w; rw [Finset.mul_sum]; simp only [one_mul]
    unfold proxObj
    rw [e1, e3]
    field_simp
    ring
  refine ⟨trivial, fun Z _ hZ => ?_⟩
  have h3 := h1 (arr Z).ofLp trivial (fun hc => hZ (by
    have : (arr Z).ofLp = (ystep S lmbda rho AX X Y U h).1.ofLp := hc
    have h5 : arr Z = (ystep S lmbda rho AX X Y U h).1 := WithLp.ofLp_injective 2 this
    rw [← h5, mat_arr]))
  have h4 := mul_lt_mul_of_pos_left h3 hr
  have h5 := h4
  rw [e (arr Z)] at h5
  have h6 := (e (ystep S lmbda rho AX X Y U h).1).symm.trans_lt h5
  exact h6

/-- The problem of the class. -/
noncomputable def problem (S : Arr m n) (lmbda : ℝ) (hl : 0 ≤ lmbda) : Problem (Arr m n) (Arr m n) (Arr m n) :=
  ⟨ContinuousLinearMap.id ℝ _, ContinuousLinearMap.id ℝ _, ContinuousLinearMap.id ℝ _, S,
    fun x => nuc (mat x), Set.univ, fun y => lmbda * ∑ i, ∑ j, |mat y i j|, Set.univ, fun _ _ => rfl,
    nuc_convex, l1_convex lmbda hl⟩

theorem le_of_unique {X : Type*} {F : X → ℝ} {x z : X} (h : IsUniqueMin F Set.univ x) : F x ≤ F z := by
  by_cases hz : z = x
  · rw [hz]
  · exact (h.2 z trivial hz).le

theorem implements (svd : Svd m n) (hsvd : SvdRoutine svd) (S : Arr m n) (lmbda : ℝ) (hl : 0 ≤ lmbda)
    (fe ge : Bool) : Implements (cls svd S lmbda fe ge) (problem S lmbda hl) (fun _ _ => True) := by
  refine ⟨fun rlx x y => rfl, fun ax y u => rfl, fun ax y => rfl, Or.inl fun rho yp y u => rfl, fun ax y => ?_,
    fun rho u hr => ?_, fun _ _ _ _ _ _ _ => trivial, fun _ _ _ _ _ _ _ _ => trivial,
    fun _ _ _ _ _ _ => trivial, fun rho X Y U h hp _ => ⟨trivial, fun z _ => ?_⟩,
    fun rho AX X Y U h hp _ => ⟨trivial, fun z _ => ?_⟩⟩
  · exact le_max_of_le_right (norm_nonneg _)
  · exact mul_nonneg hr (norm_nonneg _)
  · have h1 := le_of_unique (z := mat z) (xstep_min svd hsvd S rho hp X Y U h).1
    have e : ∀ x : Arr m n, ‖x + Y - S + U‖ ^ 2 = fsq (mat x + mat Y - mat S + mat U) := fun x => norm_fsq _
    simp only [← e] at h1
    exact h1
  · have h1 := le_of_unique (z := mat z) (ystep_min S lmbda hl rho hp AX X Y U h)
    have e : ∀ x : Arr m n, ‖AX + x - S + U‖ ^ 2 = fsq (mat AX + mat x - mat S + mat U) := fun x => norm_fsq _
    simp only [← e] at h1
    exact h1

/-! ## Theorems -/

/-- **C21, C40.** At every iteration of every `RobustPCA` run, including after automatic changes of rho, the
new X is the unique minimiser over X of the augmented Lagrangian for the current rho, Y and U. -/
theorem C21_C40_rpca_history (svd : Svd m n) (hsvd : SvdRoutine svd) (S : Arr m n) (lmbda : ℝ) (hl : 0 ≤ lmbda)
    (fe ge : Bool) (o : Opts) (ho : o.autoRho = true → o.RhoOk) (cb)
    (s : St (Arr m n) (Arr m n) (Arr m n) (Attr m n)) (hp : 0 < s.rho) (k : ℕ) :
    let T := traj (cls svd S lmbda fe ge) o cb s
    IsUniqueMin (fun Z => augRPCA (mat S) lmbda (T k).rho (mat (T k).U) Z (mat (T k).Y)) Set.univ
      (mat (T (k + 1)).X) := by
  intro T
  have hI := traj_inv (implements svd hsvd S lmbda hl fe ge) o ho cb (fun _ _ _ _ => trivial) s hp trivial k
  obtain ⟨-, h1⟩ := (xstep_min svd hsvd S (T k).rho hI.1 (T k).X (T k).Y (T k).U (T k).extra).1
  have e : (T (k + 1)).X = (xstep svd S (T k).rho (T k).X (T k).Y (T k).U (T k).extra).1 := by
    change (traj (cls svd S lmbda fe ge) o cb s (k + 1)).X = _
    rw [traj_succ, oneIter_X]
    rfl
  refine ⟨trivial, fun Z _ hZ => ?_⟩
  rw [e] at hZ ⊢
  have := h1 Z trivial hZ
  unfold augRPCA objRPCA
  simp only at this
  linarith

/-- **C40.** The new Y is the unique minimiser over Y of the same functional with X replaced by the relaxed
combination of the new X and of `S - Y`. -/
theorem C40_rpca_ystep (svd : Svd m n) (S : Arr m n) (lmbda : ℝ) (hl : 0 ≤ lmbda)
    (fe ge : Bool) (o : Opts) (s : St (Arr m n) (Arr m n) (Arr m n) (Attr m n)) (hp : 0 < s.rho) :
    let t := steps (cls svd S lmbda fe ge) o s
    IsUniqueMin (fun Z => augRPCA (mat S) lmbda s.rho (mat s.U)
        (o.rlx • mat t.X + (1 - o.rlx) • (mat S - mat s.Y)) Z) Set.univ (mat t.Y) := by
  intro t
  have hAX : t.AX = o.rlx • t.X + (1 - o.rlx) • (S - s.Y) := by
    have h : (t.AX, t.AXnr) = relaxAX (fun x : Arr m n => x) (fun y => y) S o.rlx t.X s.Y := rfl
    have h1 := congrArg Prod.fst h
    simp only at h1
    rw [h1]
    unfold relaxAX
    simp only
    split_ifs with h2
    · rw [h2]; simp
    · simp only; rw [smul_sub, smul_sub]; abel
  obtain ⟨-, h1⟩ := ystep_min S lmbda hl s.rho hp t.AX t.X s.Y s.U
    (xstep svd S s.rho s.X s.Y s.U s.extra).2
  have e : t.Y = (ystep S lmbda s.rho t.AX t.X s.Y s.U (xstep svd S s.rho s.X s.Y s.U s.extra).2).1 := rfl
  have eA : mat t.AX = o.rlx • mat t.X + (1 - o.rlx) • (mat S - mat s.Y) := by rw [hAX]; rfl
  refine ⟨trivial, fun Z _ hZ => ?_⟩
  rw [e] at hZ ⊢
  have := h1 Z trivial hZ
  simp only [eA] at this
  unfold augRPCA objRPCA
  linarith

/-- **C40.** What `RobustPCA` records in `ObjFun`, `NrmNuc` and `NrmL1` after every iteration: by default
the functional at the current (X, Y); with `fEvalX` false the nuclear norm is taken at `S - Y`, with `gEvalY`
false the l1 norm at `S - X`. -/
theorem C40_rpca_recorded (svd : Svd m n) (hsvd : SvdRoutine svd) (S : Arr m n) (lmbda : ℝ)
    (fe ge : Bool) (o : Opts) (s : St (Arr m n) (Arr m n) (Arr m n) (Attr m n)) (hp : 0 < s.rho) :
    let C := cls svd S lmbda fe ge
    let t := steps C o s
    let V := if fe then mat t.X else mat S - mat t.Y
    let W := if ge then mat t.Y else mat S - mat t.X
    C.objfn t.X t.Y t.extra = (objRPCA lmbda V W, nuc V, ∑ i, ∑ j, |W i j|) := by
  intro C t V W
  have e1 : normNuclear t.extra = nuc (mat t.X) :=
    (xstep_min svd hsvd S s.rho hp s.X s.Y s.U s.extra).2.2
  have e2 : ∀ Z, normNuc svd Z = nuc Z := fun Z => (Prox.C21_nuc_eq_sum_singular_values (hsvd Z)).symm
  have h1 : (if fe then normNuclear t.extra else normNuc svd (mat (fvar S fe t.X t.Y))) = nuc V := by
    cases fe
    · rw [if_neg (by simp), e2]; rfl
    · rw [if_pos rfl, e1]; rfl
  have h2 : normL1 (gvar S ge t.X t.Y).ofLp = ∑ i, ∑ j, |W i j| := by
    rw [norml1_sum]
    cases ge <;> rfl
  change evalObjfn svd S lmbda fe ge t.X t.Y t.extra = _
  unfold evalObjfn objRPCA
  rw [h1, h2]

/-- The documented problem has a solution. -/
theorem exists_solution (S : Matrix (Fin m) (Fin n) ℝ) (lmbda : ℝ) (hl : 0 ≤ lmbda) : ∃ X Y, Solves S lmbda X Y := by
  rcases hl.eq_or_lt with h | h
  · refine ⟨0, S, zero_add S, fun X' Y' _ => ?_⟩
    unfold objRPCA
    rw [nuc_zero, ← h]
    have := nuc_nonneg X'
    linarith
  · obtain ⟨y, hy⟩ := Sporco.Tv.Dec.exists_min_of_growth
      (fun y : Arr m n => nuc (mat (arr S - y)) + lmbda * l1w (fun _ => 1) y.ofLp)
      ((nuc_continuous.comp (continuous_const.sub continuous_id)).add
        (continuous_const.mul (Bpdn.continuous_l1w _)))
      (fun M => M / lmbda) (fun x M hM => by
        have h1 := nuc_nonneg (mat (arr S - x))
        have h2 : ‖x‖ ≤ l1w (fun _ => 1) x.ofLp := by
          rw [EuclideanSpace.norm_eq]
          apply Real.sqrt_le_iff.2
          unfold l1w
          simp only [one_mul]
          exact ⟨Finset.sum_nonneg fun i _ => norm_nonneg _,
            Finset.sum_sq_le_sq_sum_of_nonneg fun i _ => norm_nonneg _⟩
        rw [le_div_iff₀ h]
        have h3 := mul_le_mul_of_nonneg_left h2 h.le
        simp only at hM
        linarith)
    refine ⟨S - mat y, mat y, sub_add_cancel _ _, fun X' Y' hXY => ?_⟩
    have h1 := hy (arr Y')
    simp only [mat_sub, mat_arr, ← l1_sum] at h1
    unfold objRPCA
    rw [eq_sub_of_add_eq hXY]
    exact h1

/-- A solution has a multiplier. -/
theorem saddle (S : Arr m n) (lmbda : ℝ) (hl : 0 ≤ lmbda) (X Y : Matrix (Fin m) (Fin n) ℝ)
    (hs : Solves (mat S) lmbda X Y) : ∃ l, (problem S lmbda hl).Saddle (arr X) (arr Y) l := by
  have hneg : ∀ y : Arr m n, (∑ i, ∑ j, |mat (-y) i j|) = ∑ i, ∑ j, |mat y i j| := by
    intro y
    refine Finset.sum_congr rfl fun i _ => Finset.sum_congr rfl fun j _ => ?_
    exact abs_neg _
  have eY : Y = mat S - X := eq_sub_of_add_eq' hs.1
  have esub : ∀ Z : Arr m n, (∑ i, ∑ j, |mat (Z - S) i j|) = ∑ i, ∑ j, |(mat S - mat Z) i j| := by
    intro Z
    rw [← hneg, neg_sub]
    rfl
  obtain ⟨l, -, -, -, h4, h5⟩ := split_saddle (ContinuousLinearMap.id ℝ (Arr m n))
    (ContinuousLinearMap.id ℝ (Arr m n)) (fun _ _ => rfl) S (fun x => nuc (mat x)) nuc_convex
    (fun y => lmbda * ∑ i, ∑ j, |mat y i j|) (l1_convex lmbda hl) (arr X) (fun z => by
      have h := hs.2 (mat z) (mat S - mat z) (add_sub_cancel _ _)
      unfold objRPCA at h
      rw [eY] at h
      change nuc (mat (arr X)) + lmbda * (∑ i, ∑ j, |mat (arr X - S) i j|) ≤
        nuc (mat z) + lmbda * (∑ i, ∑ j, |mat (z - S) i j|)
      rw [esub, esub]
      exact h)
  refine ⟨l, trivial, trivial, ?_, h4, fun w _ => ?_⟩
  · change arr X + arr Y = S
    rw [← arr_add, hs.1, arr_mat]
  · have h6 := h5 (-w) trivial
    have eYn : arr X - S = -arr Y := by
      rw [eY, arr_sub, arr_mat]; abel
    change lmbda * (∑ i, ∑ j, |mat (arr X - S) i j|) + ⟪l, -(arr X - S)⟫ ≤
      lmbda * (∑ i, ∑ j, |mat (-w) i j|) + ⟪l, - -w⟫ at h6
    rw [eYn, neg_neg, neg_neg, hneg, hneg] at h6
    exact h6

/-- **C39 for `RobustPCA`.** For all data, with fixed rho and relaxation parameter in (0, 2), from any start:
the documented problem has a solution, the functional at the pair `(X, Y)` that `solve()` returns tends to
the optimal value, and `X + Y` tends to the data. -/
theorem C39_rpca (svd : Svd m n) (hsvd : SvdRoutine svd) (S : Arr m n) (lmbda : ℝ) (hl : 0 ≤ lmbda)
    (fe ge : Bool) (o : Opts) (ha : o.autoRho = false) (hrlx : 0 < o.rlx ∧ o.rlx < 2) (cb)
    (s : St (Arr m n) (Arr m n) (Arr m n) (Attr m n)) (hp : 0 < s.rho) :
    let T := traj (cls svd S lmbda fe ge) o cb s
    ∃ X Y : Matrix (Fin m) (Fin n) ℝ, Solves (mat S) lmbda X Y ∧
      Tendsto (fun k => objRPCA lmbda (mat (T k).X) (mat (T k).Y)) atTop (𝓝 (objRPCA lmbda X Y)) ∧
      Tendsto (fun k => (T k).X + (T k).Y) atTop (𝓝 S) ∧
      Tendsto (fun k => cns S (T k).X (T k).Y) atTop (𝓝 0) := by
  intro T
  obtain ⟨X, Y, hs⟩ := exists_solution (mat S) lmbda hl
  obtain ⟨l, hsad⟩ := saddle S lmbda hl X Y hs
  have hC := implements svd hsvd S lmbda hl fe ge
  obtain ⟨c1, -, c3⟩ := C39_convergence _ _ _ hC o ha hrlx cb (fun _ _ _ _ => trivial) s hp trivial _ _ l hsad
  have hst : ∀ k, (T (k + 1)).AXnr = (T (k + 1)).X := by
    intro k
    have hinv := traj_inv hC o (fun h => by simp [ha] at h) cb (fun _ _ _ _ => trivial) s hp trivial k
    have h2 := steps_spec hC o (T k) hinv.1 hinv.2
    have h5 := oneIter_steps (cls svd S lmbda fe ge) o ha cb (T k)
    change (traj (cls svd S lmbda fe ge) o cb s (k + 1)).AXnr = (traj (cls svd S lmbda fe ge) o cb s (k + 1)).X
    rw [traj_succ, h5.2.2.2.2.1, h5.1]
    exact h2.2.2.1
  have hr : Tendsto (fun k => ‖(T k).X + (T k).Y - S‖) atTop (𝓝 0) := by
    refine (tendsto_add_atTop_iff_nat 1).1 (((tendsto_add_atTop_iff_nat 1).2 c1).congr fun k => ?_)
    have h1 := hC.nrmR (T (k + 1)).AXnr (T (k + 1)).Y
    rw [hst k] at h1
    change (cls svd S lmbda fe ge).nrmR (T (k + 1)).AXnr (T (k + 1)).Y = _
    rw [hst k, h1]
    rfl
  refine ⟨X, Y, hs, c3, ?_, hr⟩
  exact tendsto_iff_norm_sub_tendsto_zero.2 hr

/-- An SVD routine that meets the contract exists for every shape. -/
theorem svdRoutine_exists (m n : ℕ) : ∃ svd : Svd m n, SvdRoutine svd := by
  have h : ∀ V : Matrix (Fin m) (Fin n) ℝ, ∃ t : Matrix (Fin m) (Fin (min m n)) ℝ × (Fin (min m n) → ℝ) ×
      Matrix (Fin (min m n)) (Fin n) ℝ, IsSVD V t.1 t.2.1 t.2.2 := by
    intro V
    obtain ⟨σ, u, v, -, hσ, hu, hv, hM⟩ := svd_exists m n fun i j => V i j
    refine ⟨⟨Matrix.of fun i r => u ⟨r, lt_of_lt_of_le r.2 (min_le_left _ _)⟩ i, fun r => σ r,
      Matrix.of fun r j => v ⟨r, lt_of_lt_of_le r.2 (min_le_right _ _)⟩ j⟩, ?_, ?_, fun r => hσ r, ?_⟩
    · ext r r'
      have := hu ⟨r, lt_of_lt_of_le r.2 (min_le_left _ _)⟩ ⟨r', lt_of_lt_of_le r'.2 (min_le_left _ _)⟩
      simp only [Matrix.mul_apply, Matrix.conjTranspose_apply, Matrix.of_apply, star_trivial, Matrix.one_apply]
      rw [this]
      simp [Fin.ext_iff]
    · ext r r'
      have := hv ⟨r, lt_of_lt_of_le r.2 (min_le_right _ _)⟩ ⟨r', lt_of_lt_of_le r'.2 (min_le_right _ _)⟩
      simp only [Matrix.mul_apply, Matrix.conjTranspose_apply, Matrix.of_apply, star_trivial, Matrix.one_apply]
      rw [this]
      simp [Fin.ext_iff]
    · ext i j
      rw [Prox.entry_UDV, hM i j]
      refine Finset.sum_congr rfl fun r _ => ?_
      rw [mul_comm (σ r)]
      rfl
  choose f hf using h
  exact ⟨f, hf⟩

/-- The hypotheses are met: default weight for two rows, default relaxation, a two by three data array. -/
example : ∃ svd : Svd 2 3, SvdRoutine svd ∧ 0 ≤ defaultLmbda 2 ∧ ∃ o : Opts, o.autoRho = false ∧
    (0 < o.rlx ∧ o.rlx < 2) :=
  ⟨(svdRoutine_exists 2 3).choose, (svdRoutine_exists 2 3).choose_spec, by unfold defaultLmbda; positivity,
    ⟨false, 1000, 0, 1, false, 10, true, false, 2, 2, 10, 10, 1, 1.8⟩, rfl, by norm_num⟩

end Sporco.Admm.Rpca
