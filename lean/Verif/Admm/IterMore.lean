import Verif.Admm.IterGen
import Verif.Admm.BpdnIter
import Verif.Admm.Rpca
import Verif.Admm.MinL1

/-!
# C39: iterates of `RobustPCA` and `MinL1InL2Ball`
-/

set_option autoImplicit false

namespace Sporco.Admm

open Matrix Filter Topology Sporco.Prox
open scoped RealInnerProductSpace

namespace Rpca

variable {m n : ℕ}

/-- **C39, iterates of `RobustPCA`.** For all data, with fixed rho and relaxation parameter in (0, 2), from any start: X and
Y themselves converge, entry by entry, and the pair of limits is a solution of the documented problem. -/
theorem C39_rpca_iterates (svd : Svd m n) (hsvd : SvdRoutine svd) (S : Arr m n) (lmbda : ℝ) (hl : 0 ≤ lmbda)
    (fe ge : Bool) (o : Opts) (ha : o.autoRho = false) (hrlx : 0 < o.rlx ∧ o.rlx < 2) (cb)
    (s : St (Arr m n) (Arr m n) (Arr m n) (Attr m n)) (hp : 0 < s.rho) :
    let T := traj (cls svd S lmbda fe ge) o cb s
    ∃ X Y : Matrix (Fin m) (Fin n) ℝ, Solves (mat S) lmbda X Y ∧
      Bpdn.ConvTo (fun k => mat (T k).X) X ∧ Bpdn.ConvTo (fun k => mat (T k).Y) Y := by
  intro T
  obtain ⟨X, Y, hs⟩ := exists_solution (mat S) lmbda hl
  obtain ⟨l, hsad⟩ := saddle S lmbda hl X Y hs
  have hgc : Continuous fun y : Arr m n => lmbda * ∑ i, ∑ j, |mat y i j| := by
    refine continuous_const.mul (continuous_finsetSum _ fun i _ => continuous_finsetSum _ fun j _ => ?_)
    exact (EuclideanSpace.proj (i, j) : Arr m n →L[ℝ] ℝ).continuous.abs
  obtain ⟨x, y, u, h0, h1, h2, -⟩ := gen_iterates (P := problem S lmbda hl) (fun _ _ h => h) (fun _ _ h => h)
    nuc_continuous isClosed_univ hgc isClosed_univ (implements svd hsvd S lmbda hl fe ge) o ha hrlx cb
    (fun _ _ _ _ => trivial) s hp trivial hsad
  refine ⟨mat x, mat y, ⟨?_, fun X' Y' h => ?_⟩, Bpdn.entry_tendsto h1, Bpdn.entry_tendsto h2⟩
  · have := h0.feas
    change x + y = S at this
    rw [← this]; rfl
  · have := h0.solution (arr X') (arr Y') trivial trivial (by
      change arr X' + arr Y' = S
      rw [← arr_add, h, arr_mat])
    exact this

end Rpca

namespace Bpdn

variable {N M K : ℕ}

/-- **C39, iterates of `MinL1InL2Ball`.** Under the hypotheses of `C39_minl1`, the coefficient array itself converges, to
an array of smallest weighted l1 norm among those satisfying the constraints. -/
theorem C39_minl1_iterates (D : Matrix (Fin N) (Fin M) ℝ) (S : Arr N K) (eps : ℝ) (he : 0 < eps) (nonNeg : Bool)
    (w : Fin M × Fin K → ℝ) (hw : ∀ i, 0 < w i) (av : Bool)
    (Xb : Matrix (Fin M) (Fin K) ℝ) (hXb : Xb ∈ allowed nonNeg)
    (hsl : ∀ k, colNorm (D * Xb - mat S) k < eps)
    (o : Opts) (ha : o.autoRho = false) (hrlx : 0 < o.rlx ∧ o.rlx < 2) (cb) (hcb : CallbackReads cb)
    (s : St (Arr M K) (Y2 N M K) (Y2 N M K) (AttrML1 N M)) (hp : 0 < s.rho)
    (hs : s.extra = setdictML1 D) :
    let T := traj (clsML1 D S eps nonNeg w av) o cb s
    ∃ Xopt : Matrix (Fin M) (Fin K) ℝ, IsMin (l1wMat w) (feasML1 D (mat S) eps nonNeg) Xopt ∧
      ConvTo (fun n => mat (T n).X) Xopt ∧ ConvTo (fun n => mat (T n).Y.fst) Xopt ∧
      ConvTo (fun n => mat (T n).Y.snd) (D * Xopt) := by
  intro T
  have hw0 : ∀ i, 0 ≤ w i := fun i => (hw i).le
  obtain ⟨c, hc, hgrow⟩ := l1w_grow w hw 1 one_pos
  have hXb' : arr Xb ∈ coefs nonNeg := (coefs_allowed nonNeg (arr Xb)).2 hXb
  have hstr : ∀ k, l2 (slice (colEquiv N K) (dmul D (arr Xb) - S) k) < eps := by
    intro k
    rw [colNorm_slice]
    exact hsl k
  have hball : IsClosed (ball1 S eps) :=
    (closed_sball (colEquiv N K) eps).preimage (f := fun y : Arr N K => y - S) (by fun_prop)
  have hcl : IsClosed {x : Arr M K | x ∈ coefs nonNeg ∧ dmul D x - 0 ∈ ball1 S eps} := by
    refine (closed_coefs nonNeg).inter ?_
    refine (closed_sball (colEquiv N K) eps).preimage (f := fun x : Arr M K => dmul D x - 0 - S) ?_
    fun_prop
  obtain ⟨x, ⟨hx, hx1⟩, hmin⟩ := ls_exists_min (0 : Arr M K →L[ℝ] Arr M K) 0 (fun y => 1 * l1w w y.ofLp) _ hcl
    ⟨arr Xb, hXb', by rw [sub_zero]; exact fun k => (hstr k).le⟩
    (continuous_const.mul (continuous_l1w w)) c hc hgrow
  have hmin' : ∀ z ∈ coefs nonNeg, dmul D z - 0 ∈ ball1 S eps → l1w w x.ofLp ≤ l1w w z.ofLp := by
    intro z hz hz1
    have := hmin z ⟨hz, hz1⟩
    simpa [lsObj] using this
  have hg0 : ConvexOn ℝ (coefs nonNeg) (fun y : Arr M K => l1w w y.ofLp) := by
    have := convex_l1w w hw0 _ (convex_coefs nonNeg) 1 one_pos.le
    simpa only [one_mul] using this
  have hg1 : ConvexOn ℝ (ball1 S eps) (fun _ : Arr N K => (0 : ℝ)) := convexOn_const 0 (convex_ball1 S eps)
  have hint : dmul D (arr Xb) - 0 ∈ interior (ball1 S eps) := by
    rw [sub_zero]
    have h1 := interior_sball (colEquiv N K) eps _ hstr
    have hcont : Continuous fun y : Arr N K => y - S := by fun_prop
    have h2 : (fun y : Arr N K => y - S) ⁻¹' interior (sball (colEquiv N K) eps) ⊆ interior (ball1 S eps) :=
      interior_maximal (fun y hy => interior_subset (s := sball (colEquiv N K) eps) hy)
        (isOpen_interior.preimage hcont)
    exact h2 h1
  obtain ⟨l, hl⟩ := exists_multiplier (dmul D) 0 (fun y : Arr M K => l1w w y.ofLp) (coefs nonNeg)
    (fun _ => 0) (ball1 S eps) hg0 hg1 (l1w w x.ofLp) (fun z hz hz1 => by
      rw [add_zero]; exact hmin' z hz hz1) (arr Xb) hXb' hint
  have hsad := tb_saddle' (A1 := dmul D) (A1T := dmul Dᵀ) (c1 := 0) (g1 := fun _ => (0 : ℝ)) (dmul_adj D)
    (fun y : Arr M K => l1w w y.ofLp) (coefs nonNeg) hg0 hg1 x hx hx1 l (fun z hz y hy => by
      have := hl z hz y hy
      linarith)
  obtain ⟨z, hz0, hz1, hzm, h1, h2, h3⟩ := tb_iterates (exact_ml1 D S eps he.le nonNeg w hw0 av) (fun _ _ => rfl)
    (dmul_adj D) hg0 hg1 (fun _ _ h _ => h) (continuous_l1w w) continuous_const (closed_coefs nonNeg) hball
    o ha hrlx cb (hcb.keeps _) s hp hs hsad
  simp only [ContinuousLinearMap.id_apply, sub_zero, add_zero] at hz0 hz1 hzm h2 h3
  refine ⟨mat z, ⟨(mem_feas D S eps nonNeg z).2 ⟨hz0, by rw [sub_zero]; exact hz1⟩, fun Z hZ => ?_⟩,
    entry_tendsto h1, entry_tendsto h2, ?_⟩
  · obtain ⟨h7, h8⟩ := (mem_feas D S eps nonNeg (arr Z)).1 hZ
    rw [sub_zero] at h8
    have := hzm (arr Z) h7 h8
    rw [l1w_mat, l1w_mat] at this
    exact this
  · have := entry_tendsto h3
    exact this

end Bpdn

end Sporco.Admm
