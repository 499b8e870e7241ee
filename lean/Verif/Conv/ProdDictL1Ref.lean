import Verif.Conv.ProdDictL1Res

/-!
# `ConvProdDictL1L1Grd`: where the claims fail (C39, C43)
-/

set_option autoImplicit false
set_option linter.unusedSectionVars false

namespace Sporco.Conv.PL

open Finset ComplexConjugate Sporco.Linalg Sporco.Prox Sporco.Admm Sporco.Conv Sporco.Conv.TB Sporco.Conv.Grd
  Sporco.Conv.PD Filter Topology
open scoped RealInnerProductSpace

/-! ## Two samples -/

/-- Two samples. -/
def N2 : Fin 1 → ℕ := fun _ => 2

instance : ∀ k, NeZero (N2 k) := fun _ => ⟨two_ne_zero⟩

/-- One sample. -/
def Nd1 : Fin 1 → ℕ := fun _ => 1

instance : ∀ k, Unique (Fin (Nd1 k)) := fun _ => inferInstanceAs (Unique (Fin 1))

/-- The second sample. -/
def p1 : Grid N2 := fun _ => (1 : ZMod 2)

theorem sum_N2 (f : Grid N2 → ℝ) : ∑ p, f p = f 0 + f p1 := by
  have h : (Finset.univ : Finset (Grid N2)) = {0, p1} := by decide
  rw [h, Finset.sum_pair (by decide)]

theorem shift0 (i : Fin 1) : (0 : Grid N2) - Pi.single i 1 = p1 := by revert i; decide
theorem shift1 (i : Fin 1) : p1 - Pi.single i 1 = 0 := by revert i; decide
theorem shift2 (i : Fin 1) : (0 : Grid N2) + Pi.single i 1 = p1 := by revert i; decide
theorem shift3 (i : Fin 1) : p1 + Pi.single i 1 = 0 := by revert i; decide

/-- The filter with one sample of value 1. -/
def dD : Dict 0 Unit Nd1 := fun _ _ _ => 1

/-- The matrix with one entry of value 1. -/
def bB : Matrix (Fin (0 + 1)) Unit ℝ := fun _ _ => 1

/-- The signal `(1, 0)`. -/
def sS : Signal 0 Unit N2 := fun _ _ p => if p = 0 then 1 else 0

theorem recon_two (X : Unit → Unit × Unit → Grid N2 → ℝ) (i : Fin (0 + 1)) (p : Grid N2) :
    reconPD dD bB X i () p = X () ((), ()) p := by
  unfold reconPD
  simp only [Fintype.sum_unique]
  have : filt (dD 0 ()) (X () ((), ())) p = X () ((), ()) p := by
    unfold filt dD
    rw [Fintype.sum_unique, one_mul]
    congr 1
    funext k
    change p k - (((default : (k : Fin 1) → Fin (Nd1 k)) k).val : ZMod (N2 k)) = p k
    rw [show ((default : (k : Fin 1) → Fin (Nd1 k)) k).val = 0 from rfl]
    simp
  rw [show (default : Unit) = () from rfl, this]
  change (1 : ℝ) * _ = _
  rw [one_mul]

/-- The functional with `lmbda = mu = 1/2` and unit weights. -/
theorem obj_two (X : Unit → Unit × Unit → Grid N2 → ℝ) :
    objPL dD bB sS (fun _ _ _ => 1) (1 / 2) (1 / 2) (fun _ => 1) (fun _ => 1) X =
      |X () ((), ()) 0 - 1| + |X () ((), ()) p1| + 1 / 2 * (|X () ((), ()) 0| + |X () ((), ()) p1|) +
        1 / 2 * (X () ((), ()) 0 - X () ((), ()) p1) ^ 2 := by
  have hs0 : sS 0 () 0 = 1 := rfl
  have hs1 : sS 0 () p1 = 0 := by
    unfold sS
    rw [if_neg (by decide)]
  unfold objPL l1PD gradPD
  rw [Fin.sum_univ_succ, Fin.sum_univ_zero]
  simp only [Fintype.sum_prod_type, Fintype.sum_unique, sum_N2, one_mul, add_zero]
  simp only [show (default : Unit) = () from rfl, recon_two, shift0, shift1, hs0, hs1, sub_zero]
  ring

theorem lap_two (X : Unit → Unit × Unit → Grid N2 → ℝ) :
    lapPD (fun _ => 1) X () ((), ()) 0 = 2 * (X () ((), ()) 0 - X () ((), ()) p1) := by
  unfold lapPD
  simp only [Fintype.sum_unique, shift0, shift2, one_mul]
  ring

/-- Where the functional is below 0.9 the two samples differ by at least 1/15. -/
theorem obj_low (X : Unit → Unit × Unit → Grid N2 → ℝ)
    (h : objPL dD bB sS (fun _ _ _ => 1) (1 / 2) (1 / 2) (fun _ => 1) (fun _ => 1) X < 9 / 10) :
    1 / 15 < |X () ((), ()) 0 - X () ((), ()) p1| := by
  rw [obj_two] at h
  generalize X () ((), ()) 0 = x at *
  generalize X () ((), ()) p1 = y at *
  have h1 : 1 - |x| ≤ |x - 1| := by
    have := abs_sub_abs_le_abs_sub (1 : ℝ) x
    rw [abs_one, abs_sub_comm] at this
    exact this
  have h2 : |x| - |y| ≤ |x - y| := abs_sub_abs_le_abs_sub x y
  have h3 := abs_nonneg x
  have h4 := sq_nonneg (x - y)
  linarith

/-- **C39 is false of the dual residual of `ConvProdDictL1L1Grd`.** One filter and one entry of B of value 1, the
signal `(1, 0)`, `lmbda = mu = 1/2`: whatever the fixed rho, the relaxation parameter in (0, 2) and the start, the
objective tends to the minimum but the recorded dual residual stays above 1/40. -/
theorem C39_proddictl1_residual_refuted (eigh : Eigh Unit) (he : EighOk eigh) (av : Bool) (o : Opts)
    (ha : o.autoRho = false) (hrlx : 0 < o.rlx ∧ o.rlx < 2) (cb) (hcb : Bpdn.CallbackReads cb)
    (s : StL 0 Unit Unit Unit N2 0) (hp : 0 < s.rho) :
    let C := clsPL ⟨false, false, false⟩ (fix0 eigh dD bB : Fix 0 Unit Unit Nd1 N2 0) sS (fun _ _ _ => 1) (1 / 2) (1 / 2)
      (fun _ => 1) (fun _ => 1) av
    let T := traj C o cb s
    ∀ᶠ n in atTop, 1 / 40 < C.nrmS (T n).rho (T n).Yprev (T n).Y (T n).U := by
  intro C T
  have hN : ∀ n, Nd1 n ≤ N2 n := fun _ => by change 1 ≤ 2; norm_num
  have hN2 : ∀ n, 2 ≤ N2 n := fun _ => le_refl 2
  have hq : (COpts.mk false false false).noBndry = true → ∀ n, 2 ≤ Nd1 n := fun h => by cases h
  obtain ⟨Xo, hmin, k1, -, -, k2⟩ := C39_C67_proddictl1_partial (a := 0) hN hN2 eigh he ⟨false, false, false⟩ hq dD bB sS
    (fun _ _ _ => 1) (fun _ _ _ => zero_le_one) (1 / 2) (1 / 2) (by norm_num) (by norm_num) (fun _ => 1)
    (fun _ => one_pos) (fun _ => 1) (fun _ => zero_le_one) av o ha hrlx cb hcb s hp
  have k3 := C39_proddictl1_residual_partial (a := 0) hN hN2 eigh he ⟨false, false, false⟩ hq dD bB sS
    (fun _ _ _ => 1) (fun _ _ _ => zero_le_one) (1 / 2) (1 / 2) (by norm_num) (by norm_num) (fun _ => 1)
    (fun _ => one_pos) (fun _ => 1) (fun _ => zero_le_one) av o ha hrlx cb hcb s hp
  have h0 := hmin.2 (fun _ _ p => if p = 0 then 1 / 2 else 0) ⟨fun h => (Bool.false_ne_true h).elim, fun h => (Bool.false_ne_true h).elim⟩
  rw [obj_two (fun _ _ p => if p = 0 then 1 / 2 else 0)] at h0
  rw [if_pos rfl, if_neg (by decide : ¬ p1 = 0)] at h0
  have h1 : objPL dD bB sS (fun _ _ _ => 1) (1 / 2) (1 / 2) (fun _ => 1) (fun _ => 1) Xo < 9 / 10 := by
    refine h0.trans_lt ?_
    rw [abs_zero, abs_of_neg (by norm_num : (1 / 2 - 1 : ℝ) < 0), abs_of_pos (by norm_num : (0 : ℝ) < 1 / 2)]
    norm_num
  have e1 := k1.eventually_lt_const h1
  have k2' := tendsto_zero_iff_norm_tendsto_zero.1 k2
  have e2 := k2'.eventually_lt_const (show (0 : ℝ) < 1 / 240 by norm_num)
  have k3' := tendsto_zero_iff_norm_tendsto_zero.1 k3
  have e3 := k3'.eventually_lt_const (show (0 : ℝ) < 1 / 40 by norm_num)
  filter_upwards [e1, e2, e3] with n a1 a2 a3
  have b1 := obj_low _ a1
  have b2 : ∀ p, |part (T n).X () ((), ()) p - part (T n).Y.snd () ((), ()) p| < 1 / 240 := fun p =>
    (PiLp.norm_apply_le ((T n).X - (T n).Y.snd) ((), ((), ()), p)).trans_lt a2
  have b3 := b2 0
  have b4 := b2 p1
  have b5 : |lapPD (fun _ => 1) (part (T n).X) () ((), ()) 0| ≤
      Real.sqrt (∑ k, ∑ j, ∑ p, lapPD (fun _ => 1) (part (T n).X) k j p ^ 2) := by
    refine Real.abs_le_sqrt ?_
    simp only [Fintype.sum_prod_type, Fintype.sum_unique, sum_N2]
    exact le_add_of_nonneg_right (sq_nonneg _)
  rw [lap_two, abs_mul, abs_of_pos (by norm_num : (0 : ℝ) < 2)] at b5
  have b6 := abs_lt.1 a3
  change _ ∧ C.nrmS (T n).rho (T n).Yprev (T n).Y (T n).U - 1 / 2 *
    Real.sqrt (∑ k, ∑ j, ∑ p, lapPD (fun _ => 1) (part (T n).X) k j p ^ 2) < _ at b6
  have b7 : |part (T n).Y.snd () ((), ()) 0 - part (T n).Y.snd () ((), ()) p1| ≤
      |part (T n).X () ((), ()) 0 - part (T n).X () ((), ()) p1| + 1 / 240 + 1 / 240 := by
    have := abs_lt.1 b3
    have := abs_lt.1 b4
    refine abs_le.2 ⟨?_, ?_⟩
    · have := neg_abs_le (part (T n).X () ((), ()) 0 - part (T n).X () ((), ()) p1)
      linarith
    · have := le_abs_self (part (T n).X () ((), ()) 0 - part (T n).X () ((), ()) p1)
      linarith
  linarith [b6.1]

variable {d c : ℕ} {N Nd : Fin d → ℕ} [∀ k, NeZero (N k)] {a : Fin d} {K L M : Type*} [Fintype K]
  [Fintype L] [Fintype M] [DecidableEq L]

/-- **C43 is false of `ConvProdDictL1L1Grd` and `ConvProdDictL1L1GrdJoint`.** With `HighMemSolve` the constructor
raises an exception whatever the other arguments; without it the object is constructed, with zero arrays whatever
the options `Y0` and `U0` say. -/
theorem C43_proddictl1_refuted (eigh : Eigh L) (q : COpts) (D : Dict 0 M Nd) (B : Matrix (Fin (c + 1)) L ℝ)
    (Y0 U0 : YY c K (L × M) N) :
    (q.highMem = true → init (a := a) eigh q D B Y0 U0 = none) ∧
    (q.highMem = false → init (a := a) eigh q D B Y0 U0 = some (fix0 eigh D B, 0, 0)) := by
  unfold init
  constructor <;> intro h <;> rw [h] <;> rfl

/-- The hypotheses of `C39_C67_proddictl1_partial` and `C39_proddictl1_residual_refuted` are met by an `eigh` that does
what LAPACK promises and by default options. -/
example : ∃ (eigh : Eigh Unit) (s : StL 0 Unit Unit Unit N2 0), EighOk eigh ∧ 0 < s.rho ∧ s.Y ≠ 0 := by
  obtain ⟨eigh, he⟩ := eighOk_exists (L := Unit)
  refine ⟨eigh, ⟨0, TwoBlock.cat (join fun _ _ _ => 1) 0, 0, 0, 0, 0, 1, 0, [], 0⟩, he, one_pos, fun h => ?_⟩
  have h1 : (join (fun _ _ _ => 1) : Sig (Fin (0 + 1)) Unit N2) = 0 := congrArg TwoBlock.sep0 h
  have h2 := congrArg (fun z : Sig (Fin (0 + 1)) Unit N2 => z (0, (), 0)) h1
  exact one_ne_zero h2

end Sporco.Conv.PL
