import Verif.Admm.Stable
import Verif.Admm.IterMore

/-!
# C98 and C99 for `BPDNProjL1`, `MinL1InL2Ball`, `BPDNJoint` and `RobustPCA`
-/

set_option autoImplicit false
set_option linter.unusedSectionVars false

namespace Sporco.Admm

open Filter Topology Finset Sporco.Prox Matrix

namespace Bpdn

variable {N M K : ℕ}

/-- **C98 for `BPDNProjL1`** (without `NonNegCoef`). -/
theorem C98_projl1 (D : Matrix (Fin N) (Fin M) ℝ) (S S' : Matrix (Fin N) (Fin K) ℝ) (gamma : ℝ)
    (hγ : 0 ≤ gamma) (fe ge fe' ge' : Bool)
    (o o' : Opts) (ha : o.autoRho = false) (ha' : o'.autoRho = false) (hrlx : 0 < o.rlx ∧ o.rlx < 2)
    (hrlx' : 0 < o'.rlx ∧ o'.rlx < 2) (cb) (hcb : CallbackReads cb) (cb') (hcb' : CallbackReads cb')
    (s s' : St (Arr M K) (Arr M K) (Arr M K) (Attr N M K)) (hp : 0 < s.rho) (hp' : 0 < s'.rho)
    (hs : s.extra = setdict S s.rho D) (hs' : s'.extra = setdict S' s'.rho D) :
    ∃ R R' : Matrix (Fin N) (Fin K) ℝ,
      ConvTo (fun n => D * mat (traj (clsPrj S gamma false fe ge) o cb s n).Y) R ∧
      ConvTo (fun n => D * mat (traj (clsPrj S' gamma false fe' ge') o' cb' s' n).Y) R' ∧
      fro2 (R - R') ≤ fro2 (S - S') := by
  obtain ⟨X, hX, -, h1⟩ := C39_projl1_iterates D S gamma hγ fe ge o ha hrlx cb hcb s hp hs
  obtain ⟨X', hX', -, h1'⟩ := C39_projl1_iterates D S' gamma hγ fe' ge' o' ha' hrlx' cb' hcb' s' hp' hs'
  refine ⟨D * X, D * X', convTo_mul D h1, convTo_mul D h1', ?_⟩
  have hobj : ∀ (S : Matrix (Fin N) (Fin K) ℝ) (y : Arr M K),
      lsObj (dmul D) (arr S) (fun _ => 0) y = 1 / 2 * fro2 (D * mat y - S) := by
    intro S y
    unfold lsObj
    rw [dmul_apply, ← arr_sub, norm_arr, add_zero]
  have h := ls_nonexpansive (dmul D) (dmul Dᵀ) (dmul_adj D) (arr S) (arr S') (fun _ : Arr M K => 0)
    (prjSet gamma) (convexOn_const 0 (convex_prjSet gamma)) (arr X) (arr X') hX.1 hX'.1
    (fun z hz => by
      rw [hobj, hobj]
      exact hX.2 _ hz)
    (fun z hz => by
      rw [hobj, hobj]
      exact hX'.2 _ hz)
  rwa [map_sub, dmul_apply, dmul_apply, mat_arr, mat_arr, ← arr_sub, ← arr_sub, norm_arr, norm_arr] at h

/-- **C99 for `BPDNProjL1`.** The larger of two radii gives the smaller or equal data term. -/
theorem C99_projl1_gamma (D : Matrix (Fin N) (Fin M) ℝ) (S : Matrix (Fin N) (Fin K) ℝ) (gamma gamma' : ℝ)
    (hγ : 0 ≤ gamma) (hγ' : gamma ≤ gamma') (fe ge fe' ge' : Bool)
    (o o' : Opts) (ha : o.autoRho = false) (ha' : o'.autoRho = false) (hrlx : 0 < o.rlx ∧ o.rlx < 2)
    (hrlx' : 0 < o'.rlx ∧ o'.rlx < 2) (cb) (hcb : CallbackReads cb) (cb') (hcb' : CallbackReads cb')
    (s s' : St (Arr M K) (Arr M K) (Arr M K) (Attr N M K)) (hp : 0 < s.rho) (hp' : 0 < s'.rho)
    (hs : s.extra = setdict S s.rho D) (hs' : s'.extra = setdict S s'.rho D) :
    ∃ X X' : Matrix (Fin M) (Fin K) ℝ,
      ConvTo (fun n => mat (traj (clsPrj S gamma false fe ge) o cb s n).Y) X ∧
      ConvTo (fun n => mat (traj (clsPrj S gamma' false fe' ge') o' cb' s' n).Y) X' ∧
      fro2 (D * X' - S) ≤ fro2 (D * X - S) := by
  obtain ⟨X, hX, -, h1⟩ := C39_projl1_iterates D S gamma hγ fe ge o ha hrlx cb hcb s hp hs
  obtain ⟨X', hX', -, h1'⟩ := C39_projl1_iterates D S gamma' (hγ.trans hγ') fe' ge' o' ha' hrlx' cb' hcb' s' hp' hs'
  refine ⟨X, X', h1, h1', ?_⟩
  have h := hX'.2 X fun j => (hX.1 j).trans hγ'
  beta_reduce at h
  linarith

/-- **C99 for `MinL1InL2Ball`.** The larger of two radii gives the smaller or equal l1 norm. -/
theorem C99_minl1_epsilon (D : Matrix (Fin N) (Fin M) ℝ) (S : Arr N K) (eps eps' : ℝ) (he : 0 < eps) (he' : eps ≤ eps')
    (nonNeg : Bool) (w : Fin M × Fin K → ℝ) (hw : ∀ i, 0 < w i) (av av' : Bool)
    (Xb : Matrix (Fin M) (Fin K) ℝ) (hXb : Xb ∈ allowed nonNeg)
    (hsl : ∀ k, colNorm (D * Xb - mat S) k < eps)
    (o o' : Opts) (ha : o.autoRho = false) (ha' : o'.autoRho = false) (hrlx : 0 < o.rlx ∧ o.rlx < 2)
    (hrlx' : 0 < o'.rlx ∧ o'.rlx < 2) (cb) (hcb : CallbackReads cb) (cb') (hcb' : CallbackReads cb')
    (s s' : St (Arr M K) (Y2 N M K) (Y2 N M K) (AttrML1 N M)) (hp : 0 < s.rho) (hp' : 0 < s'.rho)
    (hs : s.extra = setdictML1 D) (hs' : s'.extra = setdictML1 D) :
    ∃ X X' : Matrix (Fin M) (Fin K) ℝ,
      ConvTo (fun n => mat (traj (clsML1 D S eps nonNeg w av) o cb s n).X) X ∧
      ConvTo (fun n => mat (traj (clsML1 D S eps' nonNeg w av') o' cb' s' n).X) X' ∧
      l1wMat w X' ≤ l1wMat w X := by
  obtain ⟨X, hX, h1, -⟩ := C39_minl1_iterates D S eps he nonNeg w hw av Xb hXb hsl o ha hrlx cb hcb s hp hs
  obtain ⟨X', hX', h1', -⟩ := C39_minl1_iterates D S eps' (he.trans_le he') nonNeg w hw av' Xb hXb
    (fun k => (hsl k).trans_le he') o' ha' hrlx' cb' hcb' s' hp' hs'
  exact ⟨X, X', h1, h1', hX'.2 X ⟨hX.1.1, fun k => (hX.1.2 k).trans he'⟩⟩

/-- **C99 for `BPDNJoint`** (without `NonNegCoef`). The larger of two values of `mu` gives the smaller or equal l2,1 norm, and the
larger or equal value of the other two terms. -/
theorem C99_joint_mu (D : Matrix (Fin N) (Fin M) ℝ) (S : Matrix (Fin N) (Fin K) ℝ) (lmbda mu mu' : ℝ)
    (hl : 0 < lmbda) (hm : 0 ≤ mu) (hmm : mu < mu') (w : Fin M × Fin K → ℝ) (hw : ∀ i, 0 < w i) (fe ge fe' ge' : Bool)
    (o o' : Opts) (ha : o.autoRho = false) (ha' : o'.autoRho = false) (hrlx : 0 < o.rlx ∧ o.rlx < 2)
    (hrlx' : 0 < o'.rlx ∧ o'.rlx < 2) (cb) (hcb : CallbackReads cb) (cb') (hcb' : CallbackReads cb')
    (s s' : St (Arr M K) (Arr M K) (Arr M K) (Attr N M K)) (hp : 0 < s.rho) (hp' : 0 < s'.rho)
    (hs : s.extra = setdict S s.rho D) (hs' : s'.extra = setdict S s'.rho D) :
    ∃ X X' : Matrix (Fin M) (Fin K) ℝ,
      ConvTo (fun n => mat (traj (clsJnt S lmbda mu w false fe ge) o cb s n).Y) X ∧
      ConvTo (fun n => mat (traj (clsJnt S lmbda mu' w false fe' ge') o' cb' s' n).Y) X' ∧
      objBPDN D S lmbda w X ≤ objBPDN D S lmbda w X' ∧
      ∑ i, Real.sqrt (∑ j, X' i j ^ 2) ≤ ∑ i, Real.sqrt (∑ j, X i j ^ 2) := by
  obtain ⟨X, hX, -, h1⟩ := C39_joint_iterates D S lmbda mu hl hm w hw fe ge o ha hrlx cb hcb s hp hs
  obtain ⟨X', hX', -, h1'⟩ := C39_joint_iterates D S lmbda mu' hl (hm.trans hmm.le) w hw fe' ge' o' ha' hrlx' cb' hcb' s' hp' hs'
  obtain ⟨h3, h4⟩ := trade_off (objBPDN D S lmbda w) (fun X : Matrix (Fin M) (Fin K) ℝ => ∑ i, Real.sqrt (∑ j, X i j ^ 2))
    Set.univ mu mu' hmm hm X X' hX hX'
  exact ⟨X, X', h1, h1', h3, h4⟩

/-- The hypotheses of `C99_minl1_epsilon` are met: one atom, signal 3, radii 1 and 2. -/
example : let D : Matrix (Fin 1) (Fin 1) ℝ := !![1]
    let S : Arr 1 1 := arr !![3]
    ∃ Xb : Matrix (Fin 1) (Fin 1) ℝ, Xb ∈ allowed true ∧ ∀ k, colNorm (D * Xb - mat S) k < 1 := by
  intro D S
  refine ⟨!![3], fun _ i j => ?_, fun k => ?_⟩
  · fin_cases i
    fin_cases j
    norm_num
  · have : D * !![3] - mat S = 0 := by
      rw [mat_arr]
      ext i j
      fin_cases i
      fin_cases j
      simp [D]
    rw [this]
    simp [colNorm]

end Bpdn

namespace Rpca

variable {m n : ℕ}

/-- **C99 for `RobustPCA`.** The larger of two values of `lmbda` gives the larger or equal nuclear norm of the low rank part and the
smaller or equal l1 norm of the sparse part. -/
theorem C99_rpca_lmbda (svd svd' : Svd m n) (hsvd : SvdRoutine svd) (hsvd' : SvdRoutine svd') (S : Arr m n) (lmbda lmbda' : ℝ)
    (hl : 0 ≤ lmbda) (hll : lmbda < lmbda') (fe ge fe' ge' : Bool) (o o' : Opts) (ha : o.autoRho = false)
    (ha' : o'.autoRho = false) (hrlx : 0 < o.rlx ∧ o.rlx < 2) (hrlx' : 0 < o'.rlx ∧ o'.rlx < 2) (cb cb')
    (s s' : St (Arr m n) (Arr m n) (Arr m n) (Attr m n)) (hp : 0 < s.rho) (hp' : 0 < s'.rho) :
    ∃ X Y X' Y' : Matrix (Fin m) (Fin n) ℝ,
      (Bpdn.ConvTo (fun k => mat (traj (cls svd S lmbda fe ge) o cb s k).X) X ∧
        Bpdn.ConvTo (fun k => mat (traj (cls svd S lmbda fe ge) o cb s k).Y) Y) ∧
      (Bpdn.ConvTo (fun k => mat (traj (cls svd' S lmbda' fe' ge') o' cb' s' k).X) X' ∧
        Bpdn.ConvTo (fun k => mat (traj (cls svd' S lmbda' fe' ge') o' cb' s' k).Y) Y') ∧
      nuc X ≤ nuc X' ∧ ∑ i, ∑ j, |Y' i j| ≤ ∑ i, ∑ j, |Y i j| := by
  obtain ⟨X, Y, hX, h1, h2⟩ := C39_rpca_iterates svd hsvd S lmbda hl fe ge o ha hrlx cb s hp
  obtain ⟨X', Y', hX', h1', h2'⟩ := C39_rpca_iterates svd' hsvd' S lmbda' (hl.trans hll.le) fe' ge' o' ha' hrlx' cb' s' hp'
  have h := trade_off (fun p : Matrix (Fin m) (Fin n) ℝ × Matrix (Fin m) (Fin n) ℝ => nuc p.1)
    (fun p => ∑ i, ∑ j, |p.2 i j|) {p | p.1 + p.2 = mat S} lmbda lmbda' hll hl (X, Y) (X', Y')
    ⟨hX.1, fun z hz => hX.2 z.1 z.2 hz⟩ ⟨hX'.1, fun z hz => hX'.2 z.1 z.2 hz⟩
  exact ⟨X, Y, X', Y', ⟨h1, h2⟩, ⟨h1', h2'⟩, h.1, h.2⟩

end Rpca

end Sporco.Admm
