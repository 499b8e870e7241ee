import Verif.Conv.Settings
import Verif.Tv.Stable

/-!
# C101: scaling and shifting the signal, reordering the dictionary
-/

set_option autoImplicit false
set_option linter.unusedSectionVars false

namespace Sporco.Admm

open Filter Topology Finset Sporco.Prox

/-- A minimiser is carried over by a map of the feasible set onto itself that multiplies the functional by a positive factor. -/
theorem isMin_map {X Y : Type*} (f : X → ℝ) (g : Y → ℝ) (A : Set X) (B : Set Y) (T : X → Y) (T' : Y → X)
    (hT : ∀ x ∈ A, T x ∈ B) (hT' : ∀ y ∈ B, T' y ∈ A) (hTT : ∀ y, T (T' y) = y) (a : ℝ) (ha : 0 < a)
    (hf : ∀ x, g (T x) = a * f x) (x : X) (h : IsMin f A x) : IsMin g B (T x) := by
  refine ⟨hT x h.1, fun y hy => ?_⟩
  have := h.2 (T' y) (hT' y hy)
  rw [← hTT y, hf, hf]
  exact mul_le_mul_of_nonneg_left this ha.le

namespace Bpdn

variable {N M K : ℕ}

/-- **C101 for `BPDN`, scaling.** Multiplying the signal and `lmbda` by a positive number multiplies the limit of the
reconstructions by it, whatever settings and starts the two runs use. -/
theorem C101_bpdn_scale (D : Matrix (Fin N) (Fin M) ℝ) (S : Matrix (Fin N) (Fin K) ℝ) (lmbda t : ℝ)
    (hl : 0 < lmbda) (ht : 0 < t) (w : Fin M × Fin K → ℝ) (hw : ∀ i, 0 < w i) (nonNeg fe ge fe' ge' : Bool)
    (o o' : Opts) (ha : o.autoRho = false) (ha' : o'.autoRho = false) (hrlx : 0 < o.rlx ∧ o.rlx < 2)
    (hrlx' : 0 < o'.rlx ∧ o'.rlx < 2) (cb) (hcb : CallbackReads cb) (cb') (hcb' : CallbackReads cb')
    (s s' : St (Arr M K) (Arr M K) (Arr M K) (Attr N M K)) (hp : 0 < s.rho) (hp' : 0 < s'.rho)
    (hs : s.extra = setdict S s.rho D) (hs' : s'.extra = setdict (t • S) s'.rho D) :
    ∃ R : Matrix (Fin N) (Fin K) ℝ,
      ConvTo (fun n => D * mat (traj (clsBPDN S lmbda w nonNeg fe ge) o cb s n).Y) R ∧
      ConvTo (fun n => D * mat (traj (clsBPDN (t • S) (t * lmbda) w nonNeg fe' ge') o' cb' s' n).Y) (t • R) := by
  obtain ⟨X, hX, -, h1⟩ := C39_bpdn_iterates D S lmbda hl w hw nonNeg fe ge o ha hrlx cb hcb s hp hs
  refine ⟨D * X, convTo_mul D h1, ?_⟩
  rw [← Matrix.mul_smul]
  refine C95_bpdn_admm D (t • S) (t * lmbda) (mul_pos ht hl) w hw nonNeg fe' ge' o' ha' hrlx' cb' hcb' s' hp' hs' _ ?_
  refine isMin_map (objBPDN D S lmbda w) _ (allowed nonNeg) _ (fun X => t • X) (fun X => t⁻¹ • X) ?_ ?_ ?_ (t ^ 2)
    (by positivity) ?_ X hX
  · intro x hx hn i j
    exact mul_nonneg ht.le (hx hn i j)
  · intro x hx hn i j
    exact mul_nonneg (inv_pos.2 ht).le (hx hn i j)
  · intro y
    exact smul_inv_smul₀ ht.ne' y
  · intro x
    have e1 : fro2 (D * (t • x) - t • S) = t ^ 2 * fro2 (D * x - S) := by
      rw [Matrix.mul_smul, ← smul_sub]
      unfold fro2
      simp only [Matrix.smul_apply, smul_eq_mul, mul_pow, mul_sum]
    have e2 : l1wMat w (t • x) = t * l1wMat w x := by
      unfold l1wMat
      simp only [Matrix.smul_apply, smul_eq_mul, abs_mul, abs_of_pos ht, mul_sum]
      exact sum_congr rfl fun i _ => sum_congr rfl fun j _ => by ring
    unfold objBPDN
    rw [e1, e2]
    ring

/-- **C101 for `BPDN`, reordering.** With the columns of the dictionary, and the rows of the weights, in another order the
reconstructions tend to the same array. -/
theorem C101_bpdn_perm (D : Matrix (Fin N) (Fin M) ℝ) (S : Matrix (Fin N) (Fin K) ℝ) (lmbda : ℝ) (e : Equiv.Perm (Fin M))
    (hl : 0 < lmbda) (w : Fin M × Fin K → ℝ) (hw : ∀ i, 0 < w i) (nonNeg fe ge fe' ge' : Bool)
    (o o' : Opts) (ha : o.autoRho = false) (ha' : o'.autoRho = false) (hrlx : 0 < o.rlx ∧ o.rlx < 2)
    (hrlx' : 0 < o'.rlx ∧ o'.rlx < 2) (cb) (hcb : CallbackReads cb) (cb') (hcb' : CallbackReads cb')
    (s s' : St (Arr M K) (Arr M K) (Arr M K) (Attr N M K)) (hp : 0 < s.rho) (hp' : 0 < s'.rho)
    (hs : s.extra = setdict S s.rho D) (hs' : s'.extra = setdict S s'.rho (D.submatrix id e)) :
    ∃ R : Matrix (Fin N) (Fin K) ℝ,
      ConvTo (fun n => D * mat (traj (clsBPDN S lmbda w nonNeg fe ge) o cb s n).Y) R ∧
      ConvTo (fun n => D.submatrix id e *
        mat (traj (clsBPDN S lmbda (fun i => w (e i.1, i.2)) nonNeg fe' ge') o' cb' s' n).Y) R := by
  obtain ⟨X, hX, -, h1⟩ := C39_bpdn_iterates D S lmbda hl w hw nonNeg fe ge o ha hrlx cb hcb s hp hs
  refine ⟨D * X, convTo_mul D h1, ?_⟩
  have hm : ∀ x : Matrix (Fin M) (Fin K) ℝ, D.submatrix id e * x.submatrix e id = D * x := by
    intro x
    ext i j
    rw [Matrix.mul_apply, Matrix.mul_apply]
    exact Equiv.sum_comp e fun m => D i m * x m j
  rw [← hm X]
  refine C95_bpdn_admm (D.submatrix id e) S lmbda hl (fun i => w (e i.1, i.2)) (fun i => hw _) nonNeg fe' ge' o' ha' hrlx'
    cb' hcb' s' hp' hs' _ ?_
  refine isMin_map (objBPDN D S lmbda w) _ (allowed nonNeg) _ (fun X => X.submatrix e id) (fun X => X.submatrix e.symm id)
    ?_ ?_ ?_ 1 one_pos ?_ X hX
  · intro x hx hn i j
    exact hx hn _ _
  · intro x hx hn i j
    exact hx hn _ _
  · intro y
    ext i j
    simp
  · intro x
    unfold objBPDN
    rw [hm, one_mul]
    congr 2
    exact Equiv.sum_comp e fun m => ∑ j, w (m, j) * |x m j|

/-- The hypotheses are met by an overcomplete dictionary: the signal is doubled, and the two columns are swapped, for runs with
different penalty parameters. -/
example (o : Opts) (ha : o.autoRho = false) (hr : o.rlx = 1.8) (s : St (Arr 2 1) (Arr 2 1) (Arr 2 1) (Attr 1 2 1)) :
    let D : Matrix (Fin 1) (Fin 2) ℝ := !![1, 2]
    let S : Matrix (Fin 1) (Fin 1) ℝ := !![3]
    let s1 := { s with rho := 1, extra := setdict S 1 D }
    let s2 := { s with rho := 5, extra := setdict ((2 : ℝ) • S) 5 D }
    let s3 := { s with rho := 7, extra := setdict S 7 (D.submatrix id (Equiv.swap 0 1)) }
    ∃ R, ConvTo (fun n => D * mat (traj (clsBPDN S 1 (fun _ => 1) false false false) o none s1 n).Y) R ∧
      ConvTo (fun n => D * mat (traj (clsBPDN ((2 : ℝ) • S) (2 * 1) (fun _ => 1) false false false) o none s2 n).Y) ((2 : ℝ) • R) ∧
      ConvTo (fun n => D.submatrix id (Equiv.swap 0 1) *
        mat (traj (clsBPDN S 1 (fun _ => 1) false false false) o none s3 n).Y) R := by
  intro D S s1 s2 s3
  have hr2 : 0 < o.rlx ∧ o.rlx < 2 := by
    rw [hr]
    norm_num
  have hcb : CallbackReads (none : Option (St (Arr 2 1) (Arr 2 1) (Arr 2 1) (Attr 1 2 1) → Bool × Attr 1 2 1)) :=
    fun _ _ h => nomatch h
  obtain ⟨R, h1, h2⟩ := C101_bpdn_scale D S 1 2 one_pos two_pos (fun _ => 1) (fun _ => one_pos) false false false false false
    o o ha ha hr2 hr2 none hcb none hcb s1 s2 one_pos (by norm_num [s2]) rfl rfl
  obtain ⟨R', h3, h4⟩ := C101_bpdn_perm D S 1 (Equiv.swap 0 1) one_pos (fun _ => 1) (fun _ => one_pos) false false false false
    false o o ha ha hr2 hr2 none hcb none hcb s1 s3 one_pos (by norm_num [s3]) rfl rfl
  have e : R = R' := by
    ext i j
    exact tendsto_nhds_unique (h1 i j) (h3 i j)
  exact ⟨R, h1, h2, e ▸ h4⟩

end Bpdn

end Sporco.Admm

namespace Sporco.Conv

open Filter Topology Finset ComplexConjugate Sporco.Prox Sporco.Admm

variable {d c : ℕ} {K M : Type} [Fintype K] [Fintype M]
  {Nd N : Fin d → ℕ} [∀ n, NeZero (N n)] {a : Fin d}

theorem recon_scale (D : Dict c M Nd) (t : ℝ) (X : K → M → Grid N → ℝ) :
    recon D (fun k m p => t * X k m p) = fun i k p => t * recon D X i k p := by
  funext i k p
  unfold recon filt
  simp only [mul_sum]
  exact sum_congr rfl fun m _ => sum_congr rfl fun j _ => by ring

theorem recon_shift (D : Dict c M Nd) (v : Grid N) (X : K → M → Grid N → ℝ) :
    recon D (fun k m p => X k m (p - v)) = fun i k p => recon D X i k (p - v) := by
  funext i k p
  unfold recon filt
  refine sum_congr rfl fun m _ => sum_congr rfl fun j _ => ?_
  rw [sub_right_comm]

/-- **C101 for `ConvBPDN`, scaling.** Multiplying the signal and `lmbda` by a positive number multiplies the limit of the
reconstructions by it. -/
theorem C101_convbpdn_scale (hN : ∀ n, Nd n ≤ N n) (q q' : COpts) (hq : q'.nonNeg = q.nonNeg) (hq' : q'.noBndry = q.noBndry)
    (h2 : q.noBndry = true → ∀ n, 2 ≤ Nd n)
    (D : Dict c M Nd) (S : Signal c K N) (lmbda t : ℝ) (hl : 0 < lmbda) (ht : 0 < t) (w : K × M × Grid N → ℝ)
    (hw : ∀ i, 0 < w i) (fe ge fe' ge' : Bool) (o o' : Opts) (ha : o.autoRho = false) (ha' : o'.autoRho = false)
    (hrlx : 0 < o.rlx ∧ o.rlx < 2) (hrlx' : 0 < o'.rlx ∧ o'.rlx < 2) (cb) (hcb : Bpdn.CallbackReads cb)
    (cb') (hcb' : Bpdn.CallbackReads cb')
    (s s' : St (Coef K M N) (Coef K M N) (Coef K M N) (Attr c K M Nd N a)) (hp : 0 < s.rho) (hp' : 0 < s'.rho)
    (Xf Xf' : Spec K M N a) (hs : s.extra = setdict q S s.rho D Xf)
    (hs' : s'.extra = setdict q' (fun i k p => t * S i k p) s'.rho D Xf') :
    ∃ R : Signal c K N,
      ConvTo (fun n => recon D (part (traj (clsConvBPDN q S lmbda w fe ge) o cb s n).Y)) R ∧
      ConvTo (fun n => recon D (part (traj (clsConvBPDN q' (fun i k p => t * S i k p) (t * lmbda) w fe' ge') o' cb' s' n).Y))
        fun i k p => t * R i k p := by
  obtain ⟨X, hX, -, h1⟩ := C39_convbpdn_iterates hN q h2 D S lmbda hl w hw fe ge o ha hrlx cb hcb s hp Xf hs
  refine ⟨recon D X, convTo_recon hN D h1, ?_⟩
  rw [← recon_scale]
  refine C95_convbpdn_admm hN q' (by rw [hq']; exact h2) D _ (t * lmbda) (mul_pos ht hl) w hw fe' ge' o' ha' hrlx' cb' hcb' s'
    hp' Xf' hs' _ ?_
  rw [hq, hq']
  refine isMin_map (objConv D S lmbda w) _ (allowedConv q.nonNeg q.noBndry Nd) _ (fun X k m p => t * X k m p)
    (fun X k m p => t⁻¹ * X k m p) ?_ ?_ ?_ (t ^ 2) (by positivity) ?_ X hX
  · rintro x ⟨hx, hx'⟩
    exact ⟨fun hn k m p => mul_nonneg ht.le (hx hn k m p), fun hn k m p hc => by simp only [hx' hn k m p hc, mul_zero]⟩
  · rintro x ⟨hx, hx'⟩
    exact ⟨fun hn k m p => mul_nonneg (inv_pos.2 ht).le (hx hn k m p),
      fun hn k m p hc => by simp only [hx' hn k m p hc, mul_zero]⟩
  · intro y
    funext k m p
    exact mul_inv_cancel_left₀ ht.ne' _
  · intro x
    unfold objConv dataTerm
    rw [recon_scale]
    simp only [← mul_sub, mul_pow, abs_mul, abs_of_pos ht, mul_left_comm _ t, ← mul_sum]
    ring

/-- **C101 for `ConvBPDN`, shifting.** Without `NoBndryCross`, and with weights that do not change under the shift, shifting the signal
circularly shifts the limit of the reconstructions by the same amount. -/
theorem C101_convbpdn_shift (hN : ∀ n, Nd n ≤ N n) (q q' : COpts) (hq : q'.nonNeg = q.nonNeg) (h2 : q.noBndry = false)
    (h2' : q'.noBndry = false) (D : Dict c M Nd) (S : Signal c K N) (v : Grid N) (lmbda : ℝ) (hl : 0 < lmbda)
    (w : K × M × Grid N → ℝ) (hw : ∀ i, 0 < w i) (hv : ∀ k m p, w (k, m, p - v) = w (k, m, p))
    (fe ge fe' ge' : Bool) (o o' : Opts) (ha : o.autoRho = false) (ha' : o'.autoRho = false)
    (hrlx : 0 < o.rlx ∧ o.rlx < 2) (hrlx' : 0 < o'.rlx ∧ o'.rlx < 2) (cb) (hcb : Bpdn.CallbackReads cb)
    (cb') (hcb' : Bpdn.CallbackReads cb')
    (s s' : St (Coef K M N) (Coef K M N) (Coef K M N) (Attr c K M Nd N a)) (hp : 0 < s.rho) (hp' : 0 < s'.rho)
    (Xf Xf' : Spec K M N a) (hs : s.extra = setdict q S s.rho D Xf)
    (hs' : s'.extra = setdict q' (fun i k p => S i k (p - v)) s'.rho D Xf') :
    ∃ R : Signal c K N,
      ConvTo (fun n => recon D (part (traj (clsConvBPDN q S lmbda w fe ge) o cb s n).Y)) R ∧
      ConvTo (fun n => recon D (part (traj (clsConvBPDN q' (fun i k p => S i k (p - v)) lmbda w fe' ge') o' cb' s' n).Y))
        fun i k p => R i k (p - v) := by
  obtain ⟨X, hX, -, h1⟩ := C39_convbpdn_iterates hN q (by simp [h2]) D S lmbda hl w hw fe ge o ha hrlx cb hcb s hp Xf hs
  refine ⟨recon D X, convTo_recon hN D h1, ?_⟩
  rw [← recon_shift]
  refine C95_convbpdn_admm hN q' (by simp [h2']) D _ lmbda hl w hw fe' ge' o' ha' hrlx' cb' hcb' s' hp' Xf' hs' _ ?_
  rw [hq, h2']
  rw [h2] at hX
  refine isMin_map (objConv D S lmbda w) _ (allowedConv q.nonNeg false Nd) _ (fun X k m p => X k m (p - v))
    (fun X k m p => X k m (p + v)) ?_ ?_ ?_ 1 one_pos ?_ X hX
  · rintro x ⟨hx, -⟩
    exact ⟨fun hn k m p => hx hn k m _, fun hn => absurd hn (by decide)⟩
  · rintro x ⟨hx, -⟩
    exact ⟨fun hn k m p => hx hn k m _, fun hn => absurd hn (by decide)⟩
  · intro y
    funext k m p
    simp only [sub_add_cancel]
  · intro x
    unfold objConv dataTerm
    rw [recon_shift, one_mul]
    congr 2
    · exact sum_congr rfl fun i _ => sum_congr rfl fun k _ =>
        Equiv.sum_comp (Equiv.subRight v) fun p => (recon D x i k p - S i k p) ^ 2
    · refine sum_congr rfl fun k _ => sum_congr rfl fun m _ => ?_
      refine Eq.trans (sum_congr rfl fun p _ => ?_) (Equiv.sum_comp (Equiv.subRight v) fun p => w (k, m, p) * |x k m p|)
      rw [← hv k m p]
      rfl

/-- **C101 for `ConvBPDN`, reordering.** With the filters, and the weights, in another order the reconstructions tend to the same
array. -/
theorem C101_convbpdn_perm (hN : ∀ n, Nd n ≤ N n) (q q' : COpts) (hq : q'.nonNeg = q.nonNeg) (hq' : q'.noBndry = q.noBndry)
    (h2 : q.noBndry = true → ∀ n, 2 ≤ Nd n)
    (D : Dict c M Nd) (S : Signal c K N) (e : Equiv.Perm M) (lmbda : ℝ) (hl : 0 < lmbda) (w : K × M × Grid N → ℝ)
    (hw : ∀ i, 0 < w i) (fe ge fe' ge' : Bool) (o o' : Opts) (ha : o.autoRho = false) (ha' : o'.autoRho = false)
    (hrlx : 0 < o.rlx ∧ o.rlx < 2) (hrlx' : 0 < o'.rlx ∧ o'.rlx < 2) (cb) (hcb : Bpdn.CallbackReads cb)
    (cb') (hcb' : Bpdn.CallbackReads cb')
    (s s' : St (Coef K M N) (Coef K M N) (Coef K M N) (Attr c K M Nd N a)) (hp : 0 < s.rho) (hp' : 0 < s'.rho)
    (Xf Xf' : Spec K M N a) (hs : s.extra = setdict q S s.rho D Xf)
    (hs' : s'.extra = setdict q' S s'.rho (fun i m => D i (e m)) Xf') :
    ∃ R : Signal c K N,
      ConvTo (fun n => recon D (part (traj (clsConvBPDN q S lmbda w fe ge) o cb s n).Y)) R ∧
      ConvTo (fun n => recon (fun i m => D i (e m))
        (part (traj (clsConvBPDN q' S lmbda (fun i => w (i.1, e i.2.1, i.2.2)) fe' ge') o' cb' s' n).Y)) R := by
  obtain ⟨X, hX, -, h1⟩ := C39_convbpdn_iterates hN q h2 D S lmbda hl w hw fe ge o ha hrlx cb hcb s hp Xf hs
  refine ⟨recon D X, convTo_recon hN D h1, ?_⟩
  have hr : ∀ x : K → M → Grid N → ℝ, recon (fun i m => D i (e m)) (fun k m => x k (e m)) = recon D x := by
    intro x
    funext i k p
    exact Equiv.sum_comp e fun m => filt (D i m) (x k m) p
  rw [← hr X]
  refine C95_convbpdn_admm hN q' (by rw [hq']; exact h2) _ S lmbda hl (fun i => w (i.1, e i.2.1, i.2.2)) (fun i => hw _) fe' ge'
    o' ha' hrlx' cb' hcb' s' hp' Xf' hs' _ ?_
  rw [hq, hq']
  refine isMin_map (objConv D S lmbda w) _ (allowedConv q.nonNeg q.noBndry Nd) _ (fun X k m => X k (e m))
    (fun X k m => X k (e.symm m)) ?_ ?_ ?_ 1 one_pos ?_ X hX
  · rintro x ⟨hx, hx'⟩
    exact ⟨fun hn k m p => hx hn _ _ _, fun hn k m p hc => hx' hn _ _ _ hc⟩
  · rintro x ⟨hx, hx'⟩
    exact ⟨fun hn k m p => hx hn _ _ _, fun hn k m p hc => hx' hn _ _ _ hc⟩
  · intro y
    funext k m
    simp only [Equiv.symm_apply_apply]
  · intro x
    unfold objConv dataTerm
    rw [hr, one_mul]
    congr 2
    exact sum_congr rfl fun k _ => Equiv.sum_comp e fun m => ∑ p, w (k, m, p) * |x k m p|

end Sporco.Conv

namespace Sporco.Tv.Den

open Finset Sporco.Admm Filter Topology

variable {D : ℕ} {n : Fin D → ℕ} {axes : List (Fin D)} {γ χ : Type*} [Fintype γ] [Fintype χ]

/-- **C101 for `TVL2Denoise`, scaling.** Multiplying the signal and `lmbda` by a positive number multiplies the limit of the returned
images by it. -/
theorem C101_tvl2denoise_scale (hax : GoodAxes n axes) (e : Pix n ≃ γ × χ) (S : Img n) (t : ℝ) (h0 : 0 < t) (P P' : Par γ n)
    (hl : 0 ≤ P.lmbda) (hw : ∀ g, 0 ≤ P.w g) (hwd : ∀ p, P.wd p ≠ 0) (h1 : P'.lmbda = t * P.lmbda) (h2 : P'.wd = P.wd)
    (h3 : P'.w = P.w) (ht : P.tol ≤ 0) (ht' : P'.tol ≤ 0) (hm : 0 < P.maxIter ∧ Even P.maxIter)
    (hm' : 0 < P'.maxIter ∧ Even P'.maxIter) (o o' : Opts) (ha : o.autoRho = false) (ha' : o'.autoRho = false)
    (hrlx : 0 < o.rlx ∧ o.rlx < 2) (hrlx' : 0 < o'.rlx ∧ o'.rlx < 2) (cb cb')
    (s s' : St (ImE n) (GradE axes n) (GradE axes n) Xs) (hp : 0 < s.rho) (hp' : 0 < s'.rho) :
    ∃ x : Img n, (∀ p, Tendsto (fun j => (traj (clsL2 axes e P S) o cb s j).X p) atTop (𝓝 (x p))) ∧
      ∀ p, Tendsto (fun j => (traj (clsL2 axes e P' fun p => t * S p) o' cb' s' j).X p) atTop (𝓝 (t * x p)) := by
  obtain ⟨x, hx, -, hr⟩ := C95_tvl2denoise hax e S P.wd P.lmbda P.w hl hw hwd
  obtain ⟨x', -, hu', hr'⟩ := C95_tvl2denoise hax e (fun p => t * S p) P.wd (t * P.lmbda) P.w (mul_nonneg h0.le hl) hw hwd
  refine ⟨x, hr P rfl rfl rfl ht hm o ha hrlx cb s hp, ?_⟩
  have hsc : ∀ z : Img n, tvL2 axes e (fun p => t * S p) P.wd (t * P.lmbda) P.w (fun p => t * z p) =
      t ^ 2 * tvL2 axes e S P.wd P.lmbda P.w z := by
    intro z
    have hq : ∀ g, Real.sqrt (∑ c, ∑ i, diff (axes.get i) (fun p => t * z p) (e.symm (g, c)) ^ 2) =
        t * Real.sqrt (∑ c, ∑ i, diff (axes.get i) z (e.symm (g, c)) ^ 2) := by
      intro g
      simp only [diff_smul, mul_pow, ← mul_sum]
      rw [Real.sqrt_mul (sq_nonneg t), Real.sqrt_sq h0.le]
    unfold tvL2 tv
    simp only [hq, ← mul_sub, mul_left_comm _ t, mul_pow, ← mul_sum]
    ring
  have hs : (fun p => t * x p) = x' := by
    refine hu' _ fun z => ?_
    have hz : z = fun p => t * (t⁻¹ * z p) := by
      funext p
      rw [mul_inv_cancel_left₀ h0.ne']
    rw [hz, hsc, hsc]
    exact mul_le_mul_of_nonneg_left (hx _) (sq_nonneg t)
  intro p
  have h := hr' P' h1 h2 h3 ht' hm' o' ha' hrlx' cb' s' hp' p
  rw [← hs] at h
  exact h

end Sporco.Tv.Den
