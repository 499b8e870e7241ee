import Verif.Admm.Stable
import Verif.Conv.Settings

/-!
# C98 and C99 for the convolutional solvers
-/

set_option autoImplicit false
set_option linter.unusedSectionVars false

namespace Sporco.Conv

open Filter Topology Finset ComplexConjugate Sporco.Prox Sporco.Admm
open scoped RealInnerProductSpace

variable {d c : ℕ} {K M : Type} [Fintype K] [Fintype M]
  {Nd N : Fin d → ℕ} [∀ n, NeZero (N n)] {a : Fin d}

/-- **C98 for `ConvBPDN`.** Two runs with the same dictionary, `lmbda`, weights and constraints for signals `S` and `S'`, with
any two settings and starts: the reconstructions from the returned coefficient maps tend to arrays whose distance is at most
that of the signals. -/
theorem C98_convbpdn (hN : ∀ n, Nd n ≤ N n) (q q' : COpts) (hq : q'.nonNeg = q.nonNeg) (hq' : q'.noBndry = q.noBndry)
    (h2 : q.noBndry = true → ∀ n, 2 ≤ Nd n)
    (D : Dict c M Nd) (S S' : Signal c K N) (lmbda : ℝ) (hl : 0 < lmbda) (w : K × M × Grid N → ℝ)
    (hw : ∀ i, 0 < w i) (fe ge fe' ge' : Bool) (o o' : Opts) (ha : o.autoRho = false) (ha' : o'.autoRho = false)
    (hrlx : 0 < o.rlx ∧ o.rlx < 2) (hrlx' : 0 < o'.rlx ∧ o'.rlx < 2) (cb) (hcb : Bpdn.CallbackReads cb)
    (cb') (hcb' : Bpdn.CallbackReads cb')
    (s s' : St (Coef K M N) (Coef K M N) (Coef K M N) (Attr c K M Nd N a)) (hp : 0 < s.rho) (hp' : 0 < s'.rho)
    (Xf Xf' : Spec K M N a) (hs : s.extra = setdict q S s.rho D Xf) (hs' : s'.extra = setdict q' S' s'.rho D Xf') :
    ∃ R R' : Signal c K N,
      ConvTo (fun n => recon D (part (traj (clsConvBPDN q S lmbda w fe ge) o cb s n).Y)) R ∧
      ConvTo (fun n => recon D (part (traj (clsConvBPDN q' S' lmbda w fe' ge') o' cb' s' n).Y)) R' ∧
      ∑ i, ∑ k, ∑ p, (R i k p - R' i k p) ^ 2 ≤ ∑ i, ∑ k, ∑ p, (S i k p - S' i k p) ^ 2 := by
  obtain ⟨X, hX, -, h1⟩ := C39_convbpdn_iterates hN q h2 D S lmbda hl w hw fe ge o ha hrlx cb hcb s hp Xf hs
  obtain ⟨X', hX', -, h1'⟩ := C39_convbpdn_iterates hN q' (by rw [hq']; exact h2) D S' lmbda hl w hw fe' ge' o' ha' hrlx' cb'
    hcb' s' hp' Xf' hs'
  rw [hq, hq'] at hX'
  refine ⟨recon D X, recon D X', convTo_recon hN D h1, convTo_recon hN D h1', ?_⟩
  have h := ls_nonexpansive (convOp (padD N D)) (convOpT (padD N D)) (convOp_adj (padD N D)) (join S) (join S')
    (fun y : Coef K M N => lmbda * l1w w y.ofLp) (cset q Nd)
    (Bpdn.convex_l1w w (fun i => (hw i).le) _ (convex_cset (K := K) (M := M) (N := N) q Nd) lmbda hl.le) (join X) (join X')
    hX.1 hX'.1
    (fun z hz => by
      rw [lsObj_conv hN, lsObj_conv hN]
      exact hX.2 _ hz)
    (fun z hz => by
      rw [lsObj_conv hN, lsObj_conv hN]
      exact hX'.2 _ hz)
  rw [map_sub, norm_part, norm_part] at h
  refine le_trans (le_of_eq ?_) h
  refine Finset.sum_congr rfl fun i _ => Finset.sum_congr rfl fun j _ => Finset.sum_congr rfl fun p _ => ?_
  have e1 := congrFun (convOp_recon hN D (join X) i j) p
  have e2 := congrFun (convOp_recon hN D (join X') i j) p
  have e3 : part (convOp (padD N D) (join X) - convOp (padD N D) (join X')) i j p =
    part (convOp (padD N D) (join X)) i j p - part (convOp (padD N D) (join X')) i j p := rfl
  rw [e3, e1, e2]
  rfl

/-- **C99 for `ConvBPDN`.** The maps returned for the larger of two values of `lmbda` tend to maps with the larger or equal data
fidelity term and the smaller or equal l1 norm, whatever the settings and starts are. -/
theorem C99_convbpdn_lmbda (hN : ∀ n, Nd n ≤ N n) (q q' : COpts) (hq : q'.nonNeg = q.nonNeg)
    (hq' : q'.noBndry = q.noBndry) (h2 : q.noBndry = true → ∀ n, 2 ≤ Nd n)
    (D : Dict c M Nd) (S : Signal c K N) (lmbda lmbda' : ℝ) (hl : 0 < lmbda) (hll : lmbda < lmbda')
    (w : K × M × Grid N → ℝ)
    (hw : ∀ i, 0 < w i) (fe ge fe' ge' : Bool) (o o' : Opts) (ha : o.autoRho = false) (ha' : o'.autoRho = false)
    (hrlx : 0 < o.rlx ∧ o.rlx < 2) (hrlx' : 0 < o'.rlx ∧ o'.rlx < 2) (cb) (hcb : Bpdn.CallbackReads cb)
    (cb') (hcb' : Bpdn.CallbackReads cb')
    (s s' : St (Coef K M N) (Coef K M N) (Coef K M N) (Attr c K M Nd N a)) (hp : 0 < s.rho) (hp' : 0 < s'.rho)
    (Xf Xf' : Spec K M N a) (hs : s.extra = setdict q S s.rho D Xf) (hs' : s'.extra = setdict q' S s'.rho D Xf') :
    ∃ X X' : K → M → Grid N → ℝ,
      ConvTo (fun n => part (traj (clsConvBPDN q S lmbda w fe ge) o cb s n).Y) X ∧
      ConvTo (fun n => part (traj (clsConvBPDN q' S lmbda' w fe' ge') o' cb' s' n).Y) X' ∧
      dataTerm D S X ≤ dataTerm D S X' ∧
      ∑ k, ∑ m, ∑ p, w (k, m, p) * |X' k m p| ≤ ∑ k, ∑ m, ∑ p, w (k, m, p) * |X k m p| := by
  obtain ⟨X, hX, -, h1⟩ := C39_convbpdn_iterates hN q h2 D S lmbda hl w hw fe ge o ha hrlx cb hcb s hp Xf hs
  obtain ⟨X', hX', -, h1'⟩ := C39_convbpdn_iterates hN q' (by rw [hq']; exact h2) D S lmbda' (hl.trans hll) w hw fe' ge' o'
    ha' hrlx' cb' hcb' s' hp' Xf' hs'
  rw [hq, hq'] at hX'
  obtain ⟨h3, h4⟩ := trade_off (dataTerm D S) (fun X : K → M → Grid N → ℝ => ∑ k, ∑ m, ∑ p, w (k, m, p) * |X k m p|)
    (allowedConv q.nonNeg q.noBndry Nd) lmbda lmbda' hll hl.le X X' hX hX'
  exact ⟨X, X', h1, h1', h3, h4⟩

/-- `lmbda = 0.1 * abs(b).max()` with `b = np.conj(Df) * Sf` (`admm/cbpdn.py` 573-578, `pgm/cbpdn.py` 203-208): the maximum is
taken over the frequencies, not over the positions. -/
noncomputable def lmbdaDefault (a : Fin d) (D : Dict c M Nd) (S : Signal c K N) : ℝ :=
  1 / 10 * ⨆ x : Fin (c + 1) × K × M × Half N a, ‖conj (dictF a D x.1 x.2.2.1 x.2.2.2) * sigF a S x.1 x.2.1 x.2.2.2‖

/-- The value at frequency zero bounds the default from below. -/
theorem lmbdaDefault_ge (hN : ∀ n, Nd n ≤ N n) (D : Dict c M Nd) (S : Signal c K N) (i : Fin (c + 1)) (k : K) (m : M) :
    1 / 10 * (|∑ t, D i m t| * |∑ p, S i k p|) ≤ lmbdaDefault a D S := by
  classical
  have hb : BddAbove (Set.range fun x : Fin (c + 1) × K × M × Half N a =>
      ‖conj (dictF a D x.1 x.2.2.1 x.2.2.2) * sigF a S x.1 x.2.1 x.2.2.2‖) := (Set.finite_range _).bddAbove
  have h := le_ciSup hb (i, k, m, ⟨0, by simp⟩)
  have hz : ∀ X : Grid N → ℝ, rfft N a X ⟨0, by simp⟩ = ((∑ p, X p : ℝ) : ℂ) := by
    intro X
    unfold rfft fft
    simp [chi]
  have hpad : ∑ p, pad N (D i m) p = ∑ t, D i m t := by
    simp only [pad_eq hN]
    rw [Finset.sum_comm]
    refine Finset.sum_congr rfl fun t _ => ?_
    rw [Finset.sum_ite_eq]
    simp
  unfold lmbdaDefault
  refine mul_le_mul_of_nonneg_left ?_ (by norm_num)
  refine le_trans (le_of_eq ?_) h
  simp only [dictF, sigF]
  rw [hz, hz, hpad, norm_mul, RCLike.norm_conj, Complex.norm_real, Complex.norm_real, Real.norm_eq_abs, Real.norm_eq_abs]

/-- **C99, the default of `ConvBPDN`.** If dictionary and signal are nonnegative and for some channel, signal and filter the sum of
the filter times the sum of the signal is more than ten times every correlation of a filter with the signal, the default
`lmbda` gives the zero solution: from every start all coefficient maps returned from some iteration on are zero. -/
theorem C99_convbpdn_default_zero (hN : ∀ n, Nd n ≤ N n) (q : COpts) (h2 : q.noBndry = true → ∀ n, 2 ≤ Nd n)
    (D : Dict c M Nd) (S : Signal c K N) (hD : ∀ i m t, 0 ≤ D i m t) (hS : ∀ i k p, 0 ≤ S i k p)
    (i : Fin (c + 1)) (k : K) (m : M)
    (hlarge : ∀ k' m' p, 10 * correl D S k' m' p < (∑ t, D i m t) * ∑ p, S i k p)
    (fe ge : Bool) (o : Opts) (ha : o.autoRho = false) (hrlx : 0 < o.rlx ∧ o.rlx < 2) (cb) (hcb : Bpdn.CallbackReads cb)
    (s : St (Coef K M N) (Coef K M N) (Coef K M N) (Attr c K M Nd N a)) (hp : 0 < s.rho)
    (Xf : Spec K M N a) (hs : s.extra = setdict q S s.rho D Xf) :
    ∃ n0, ∀ n ≥ n0, (traj (clsConvBPDN q S (lmbdaDefault a D S) (fun _ => 1) fe ge) o cb s n).Y = 0 := by
  have hcor : ∀ k m p, 0 ≤ correl D S k m p := fun k m p =>
    Finset.sum_nonneg fun i _ => Finset.sum_nonneg fun t _ => mul_nonneg (hD _ _ _) (hS _ _ _)
  have hge := lmbdaDefault_ge (a := a) hN D S i k m
  rw [abs_of_nonneg (Finset.sum_nonneg fun t _ => hD _ _ _), abs_of_nonneg (Finset.sum_nonneg fun p _ => hS _ _ _)] at hge
  have hlt : ∀ k' m' p, correl D S k' m' p < lmbdaDefault a D S := by
    intro k' m' p
    have := hlarge k' m' p
    linarith
  have hpos : 0 < lmbdaDefault a D S := (hcor k m 0).trans_lt (hlt k m 0)
  refine C94_convbpdn_zero hN q h2 D S _ hpos (fun _ => 1) (fun _ => one_pos) fe ge o ha hrlx cb hcb s hp Xf hs
    fun k' m' p => ⟨?_, fun _ => ?_⟩
  · rw [mul_one]
    exact hlt k' m' p
  · have := hcor k' m' p
    linarith

/-- **C99 is false of `ConvBPDN`.** One filter of one sample and a constant signal of any length above ten: the filter is fully
correlated with the signal at every position, but with the default `lmbda` the maps returned are zero from some iteration on. -/
theorem C99_convbpdn_default_refuted (n : ℕ) [NeZero n] (hn : 10 < n) (q : COpts) (hq : q.noBndry = false)
    (fe ge : Bool) (o : Opts) (ha : o.autoRho = false) (hrlx : 0 < o.rlx ∧ o.rlx < 2) (cb) (hcb : Bpdn.CallbackReads cb)
    (s : St (Coef Unit Unit fun _ : Fin 1 => n) (Coef Unit Unit fun _ : Fin 1 => n) (Coef Unit Unit fun _ : Fin 1 => n)
      (Attr 0 Unit Unit (fun _ => 1) (fun _ : Fin 1 => n) 0)) (hp : 0 < s.rho)
    (Xf : Spec Unit Unit (fun _ : Fin 1 => n) 0)
    (hs : s.extra = setdict q (fun _ _ _ => 1) s.rho (fun _ _ _ => 1) Xf) :
    (∀ p, correl (fun _ _ _ => 1 : Dict 0 Unit fun _ : Fin 1 => 1) (fun _ _ _ => 1 : Signal 0 Unit fun _ : Fin 1 => n) () () p =
      1) ∧
    ∃ n0, ∀ j ≥ n0, (traj (clsConvBPDN q (fun _ _ _ => 1) (lmbdaDefault 0 (fun _ _ _ => 1 : Dict 0 Unit fun _ : Fin 1 => 1)
      (fun _ _ _ => 1 : Signal 0 Unit fun _ : Fin 1 => n)) (fun _ => 1) fe ge) o cb s j).Y = 0 := by
  have hc : ∀ p, correl (fun _ _ _ => 1 : Dict 0 Unit fun _ : Fin 1 => 1)
      (fun _ _ _ => 1 : Signal 0 Unit fun _ : Fin 1 => n) () () p = 1 := by
    intro p
    simp [correl]
  refine ⟨hc, ?_⟩
  have hn1 : 1 ≤ n := by omega
  refine C99_convbpdn_default_zero (fun _ => hn1) q (by simp [hq]) _ _ (fun _ _ _ => zero_le_one) (fun _ _ _ => zero_le_one)
    0 () () (fun _ _ p => ?_) fe ge o ha hrlx cb hcb s hp Xf hs
  rw [hc]
  have : (10 : ℝ) < n := by exact_mod_cast hn
  simp [ZMod.card]
  linarith

end Sporco.Conv
