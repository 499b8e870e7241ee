import Verif.Admm.Symm
import Verif.Admm.BpdnConv2

/-!
# Symmetries of sparse coding (C84)

What happens to a run of `BPDN`, `BPDNJoint` or `ElasticNet` when the signals or the atoms are permuted or negated,
or when signals and atoms are rotated.
-/

set_option autoImplicit false
set_option linter.unusedSectionVars false

namespace Sporco.Admm.Bpdn

open Finset Matrix Sporco.Prox

variable {N M K : ℕ}

/-! ## Specification -/

/-- A change of the input: permutations and signs of atoms and signals, and an orthogonal matrix applied to both. -/
structure Move (N M K : ℕ) where
  atoms : Fin M ≃ Fin M
  sigs : Fin K ≃ Fin K
  asign : Fin M → ℝ
  ssign : Fin K → ℝ
  rot : Matrix (Fin N) (Fin N) ℝ
  asign_ok : ∀ m, asign m = 1 ∨ asign m = -1
  ssign_ok : ∀ k, ssign k = 1 ∨ ssign k = -1
  rot_ok : rotᵀ * rot = 1

/-- `D'` is the rotated dictionary with atoms permuted and negated. -/
def Move.Dict (v : Move N M K) (D D' : Matrix (Fin N) (Fin M) ℝ) : Prop :=
  ∀ n m, D' n (v.atoms m) = v.asign m * (v.rot * D) n m

/-- `S'` is the rotated signal array with signals permuted and negated. -/
def Move.Signal (v : Move N M K) (S S' : Matrix (Fin N) (Fin K) ℝ) : Prop :=
  ∀ n k, S' n (v.sigs k) = v.ssign k * (v.rot * S) n k

/-- `w'` are the weights at the positions the coefficients move to. -/
def Move.Weights (v : Move N M K) (w w' : Fin M × Fin K → ℝ) : Prop :=
  ∀ m k, w' (v.atoms m, v.sigs k) = w (m, k)

/-- `X'` are the coefficients permuted and negated accordingly. -/
def Move.Coefs (v : Move N M K) (X X' : Arr M K) : Prop :=
  ∀ m k, X' (v.atoms m, v.sigs k) = v.asign m * v.ssign k * X (m, k)

/-- No negation with `NonNegCoef`. -/
def Move.Allowed (v : Move N M K) (nonNeg : Bool) : Prop :=
  nonNeg = true → (∀ m, v.asign m = 1) ∧ ∀ k, v.ssign k = 1

/-- What it means for two runs to correspond. -/
structure Move.Same (v : Move N M K) (s s' : St (Arr M K) (Arr M K) (Arr M K) (Attr N M K)) : Prop where
  X : v.Coefs s.X s'.X
  Y : v.Coefs s.Y s'.Y
  U : v.Coefs s.U s'.U
  rho : s'.rho = s.rho
  k : s'.k = s.k
  itstat : s'.itstat = s.itstat

/-! ## The isometry -/

namespace Move

/-- Where the coefficients go. -/
def idx (v : Move N M K) : Fin M × Fin K ≃ Fin M × Fin K := Equiv.prodCongr v.atoms v.sigs

/-- The isometry of coefficient arrays. -/
noncomputable def iso (v : Move N M K) : Arr M K ≃ₗᵢ[ℝ] Arr M K :=
  signPerm v.idx (fun i => v.asign i.1 * v.ssign i.2) fun i => by
    rcases v.ssign_ok i.2 with h | h <;> rcases v.asign_ok i.1 with h' | h' <;> rw [h, h'] <;> simp

theorem iso_apply (v : Move N M K) (x : Arr M K) (m : Fin M) (k : Fin K) :
    v.iso x (v.atoms m, v.sigs k) = v.asign m * v.ssign k * x (m, k) := signPerm_image v.idx _ _ x (m, k)

theorem coefs_iff (v : Move N M K) (x x' : Arr M K) : v.Coefs x x' ↔ x' = v.iso x := by
  constructor
  · intro h
    ext i
    obtain ⟨⟨m, k⟩, rfl⟩ := v.idx.surjective i
    exact (h m k).trans (v.iso_apply x m k).symm
  · rintro rfl m k
    exact v.iso_apply x m k

/-- The residual is rotated, permuted and negated. -/
theorem mul_move (v : Move N M K) {D D' : Matrix (Fin N) (Fin M) ℝ} (hD : v.Dict D D') (x : Arr M K) :
    v.Signal (D * mat x) (D' * mat (v.iso x)) := by
  intro n k
  rw [← Matrix.mul_assoc, Matrix.mul_apply, ← Equiv.sum_comp v.atoms, Matrix.mul_apply, mul_sum]
  refine sum_congr rfl fun m _ => ?_
  have : mat (v.iso x) (v.atoms m) (v.sigs k) = v.asign m * v.ssign k * mat x m k := v.iso_apply x m k
  rw [hD, this]
  rcases v.asign_ok m with h | h <;> rw [h] <;> ring

theorem rot_sq (v : Move N M K) (R : Matrix (Fin N) (Fin K) ℝ) : fro2 (v.rot * R) = fro2 R := by
  have h : ∀ A : Matrix (Fin N) (Fin K) ℝ, fro2 A = (Aᵀ * A).trace := by
    intro A
    unfold fro2 Matrix.trace
    rw [sum_comm]
    refine sum_congr rfl fun k _ => ?_
    rw [Matrix.diag_apply, Matrix.mul_apply]
    refine sum_congr rfl fun n _ => ?_
    rw [Matrix.transpose_apply]; ring
  rw [h, h, Matrix.transpose_mul, Matrix.mul_assoc, ← Matrix.mul_assoc v.rotᵀ, v.rot_ok, Matrix.one_mul]

theorem data_move (v : Move N M K) {D D' : Matrix (Fin N) (Fin M) ℝ} (hD : v.Dict D D')
    {S S' : Matrix (Fin N) (Fin K) ℝ} (hS : v.Signal S S') (x : Arr M K) :
    fro2 (D' * mat (v.iso x) - S') = fro2 (D * mat x - S) := by
  rw [← v.rot_sq (D * mat x - S)]
  unfold fro2
  refine sum_congr rfl fun n _ => ?_
  rw [← Equiv.sum_comp v.sigs]
  refine sum_congr rfl fun k _ => ?_
  rw [Matrix.sub_apply, v.mul_move hD x n k, hS n k, Matrix.mul_sub, Matrix.sub_apply]
  rcases v.ssign_ok k with h | h <;> rw [h] <;> ring

theorem l1w_move (v : Move N M K) {w w' : Fin M × Fin K → ℝ} (hw : v.Weights w w') (x : Arr M K) :
    l1w w' (v.iso x).ofLp = l1w w x.ofLp := by
  unfold l1w
  rw [← Equiv.sum_comp v.idx]
  refine sum_congr rfl fun i _ => ?_
  obtain ⟨m, k⟩ := i
  have h1 : w' (v.idx (m, k)) = w (m, k) := hw m k
  have h2 : (v.iso x).ofLp (v.idx (m, k)) = v.asign m * v.ssign k * x (m, k) := v.iso_apply x m k
  rw [h1, h2]
  congr 1
  rcases v.ssign_ok k with h | h <;> rcases v.asign_ok m with h' | h' <;> rw [h, h'] <;> simp

theorem normL1_move (v : Move N M K) {w w' : Fin M × Fin K → ℝ} (hw : v.Weights w w') (x : Arr M K) :
    normL1 (fun i => w' i * v.iso x i) = normL1 (fun i => w i * x i) := by
  unfold normL1
  rw [← Equiv.sum_comp v.idx]
  refine sum_congr rfl fun i _ => ?_
  obtain ⟨m, k⟩ := i
  have h1 : w' (v.idx (m, k)) = w (m, k) := hw m k
  have h2 : (v.iso x) (v.idx (m, k)) = v.asign m * v.ssign k * x (m, k) := v.iso_apply x m k
  simp only [h1, h2]
  rcases v.ssign_ok k with h | h <;> rcases v.asign_ok m with h' | h' <;> rw [h, h'] <;> simp

theorem sq_iso (v : Move N M K) (x : Arr M K) (m : Fin M) (k : Fin K) :
    v.iso x (v.atoms m, v.sigs k) ^ 2 = x (m, k) ^ 2 := by
  rw [iso_apply]
  rcases v.ssign_ok k with h | h <;> rcases v.asign_ok m with h' | h' <;> rw [h, h'] <;> ring

theorem rows_move (v : Move N M K) (x : Arr M K) :
    ∑ i, Real.sqrt (∑ j, v.iso x (i, j) ^ 2) = ∑ i, Real.sqrt (∑ j, x (i, j) ^ 2) := by
  rw [← Equiv.sum_comp v.atoms]
  refine sum_congr rfl fun m _ => ?_
  rw [← Equiv.sum_comp v.sigs]
  simp only [sq_iso]

theorem gJnt_move (v : Move N M K) {w w' : Fin M × Fin K → ℝ} (hw : v.Weights w w') (lmbda mu : ℝ) (x : Arr M K) :
    gJnt lmbda mu w' (v.iso x) = gJnt lmbda mu w x := by
  unfold gJnt
  rw [v.l1w_move hw]
  have h : ∀ x : Arr M K, ∑ i, l2 (row x i) = ∑ i, Real.sqrt (∑ j, x (i, j) ^ 2) := by
    intro x
    refine sum_congr rfl fun i _ => ?_
    unfold l2 Prox.sq
    congr 1
    refine sum_congr rfl fun j _ => ?_
    rw [Real.norm_eq_abs, sq_abs]
    rfl
  rw [h, h, v.rows_move]

theorem coefs_move (v : Move N M K) {nonNeg : Bool} (hv : v.Allowed nonNeg) (x : Arr M K) :
    v.iso x ∈ coefs nonNeg ↔ x ∈ coefs nonNeg := by
  rw [mem_coefs, mem_coefs]
  constructor
  · intro h hn i
    have := h hn (v.atoms i.1, v.sigs i.2)
    rw [iso_apply, (hv hn).1, (hv hn).2] at this
    simpa using this
  · intro h hn i
    obtain ⟨⟨m, k⟩, rfl⟩ := v.idx.surjective i
    have e : v.iso x (v.idx (m, k)) = _ := v.iso_apply x m k
    rw [e, (hv hn).1, (hv hn).2]
    simpa using h hn (m, k)

theorem fvar_move (v : Move N M K) (b : Bool) (X Y : Arr M K) : fvar b (v.iso X) (v.iso Y) = v.iso (fvar b X Y) := by
  unfold fvar; cases b <;> rfl

theorem gvar_move (v : Move N M K) (b : Bool) (X Y : Arr M K) : gvar b (v.iso X) (v.iso Y) = v.iso (gvar b X Y) := by
  unfold gvar; cases b <;> rfl

theorem dfd_move (v : Move N M K) {D D' : Matrix (Fin N) (Fin M) ℝ} (hD : v.Dict D D')
    {S S' : Matrix (Fin N) (Fin K) ℝ} (hS : v.Signal S S') {h h' : Attr N M K} (e : h.D = D) (e' : h'.D = D')
    (x : Arr M K) : dfd h' S' (v.iso x) = dfd h S x := by
  unfold dfd
  rw [norm_arr, norm_arr, e, e', v.data_move hD hS]

end Move

/-! ## The classes -/

/-- Common part of the three theorems. -/
theorem run_move (v : Move N M K) {D D' : Matrix (Fin N) (Fin M) ℝ} (hD : v.Dict D D') {C C' : Cls _ _ _ (Attr N M K)}
    {P P' Inv Inv'} {o : Opts} (hP : Paired C P Inv C' P' Inv' v.iso v.iso v.iso o) (ho : o.autoRho = true → o.RhoOk)
    {cb cb'} (hcb : SameCallback cb cb') {s s' : St (Arr M K) (Arr M K) (Arr M K) (Attr N M K)} (h : v.Same s s')
    (hp : 0 < s.rho) (hs : Inv s.rho s.extra) (hs' : Inv' s'.rho s'.extra) :
    v.Same (solve C o cb s) (solve C' o cb' s') ∧
      (0 < (solve C o cb s).rho ∧ Inv (solve C o cb s).rho (solve C o cb s).extra) ∧
      Inv' (solve C' o cb' s').rho (solve C' o cb' s').extra ∧
      v.Signal (D * mat (solve C o cb s).Y) (D' * mat (solve C' o cb' s').Y) := by
  have hi : Image Inv Inv' v.iso v.iso v.iso s s' :=
    ⟨(v.coefs_iff _ _).1 h.X, (v.coefs_iff _ _).1 h.Y, (v.coefs_iff _ _).1 h.U, h.rho, h.k, h.itstat, hp, hs,
      by rw [h.rho] at hs'; exact hs'⟩
  have t := solve_image hP ho cb cb' (hcb.image _ _ _ _ _) hi
  refine ⟨⟨(v.coefs_iff _ _).2 t.X, (v.coefs_iff _ _).2 t.Y, (v.coefs_iff _ _).2 t.U, t.rho, t.k,
    t.itstat⟩, ⟨t.pos, t.inv⟩, ?_, ?_⟩
  · have := t.inv'
    rw [← t.rho] at this
    exact this
  · rw [t.Y]
    exact v.mul_move hD _

theorem weights_nonneg (v : Move N M K) {w w' : Fin M × Fin K → ℝ} (hW : v.Weights w w') (hw : ∀ i, 0 ≤ w i)
    (i : Fin M × Fin K) : 0 ≤ w' i := by
  obtain ⟨⟨m, k⟩, rfl⟩ := v.idx.surjective i
  have : w' (v.idx (m, k)) = w (m, k) := hW m k
  rw [this]; exact hw _

/-- **C84 for `BPDN`.** Permute and negate atoms and signals (no negation with `NonNegCoef`) and rotate both, in the
input, the weights and the initial values. Then `solve()` returns, for any options with valid `AutoRho` parameters and
any callback that decides from the statistics, the coefficients permuted and negated in the same way, after the same
number of iterations, with the same statistics; the solver is again as required, so the same holds for later calls. -/
theorem C84_bpdn (v : Move N M K) (nonNeg : Bool) (hv : v.Allowed nonNeg) (D D' : Matrix (Fin N) (Fin M) ℝ)
    (hD : v.Dict D D') (S S' : Matrix (Fin N) (Fin K) ℝ) (hS : v.Signal S S') (lmbda : ℝ) (hl : 0 ≤ lmbda)
    (w w' : Fin M × Fin K → ℝ) (hw : ∀ i, 0 ≤ w i) (hW : v.Weights w w') (fe ge : Bool) (o : Opts)
    (ho : o.autoRho = true → o.RhoOk) (cb cb') (hcb : SameCallback cb cb')
    (s s' : St (Arr M K) (Arr M K) (Arr M K) (Attr N M K)) (h : v.Same s s') (hp : 0 < s.rho)
    (hs : s.extra = setdict S s.rho D) (hs' : s'.extra = setdict S' s'.rho D') :
    let r := solve (clsBPDN S lmbda w nonNeg fe ge) o cb s
    let r' := solve (clsBPDN S' lmbda w' nonNeg fe ge) o cb' s'
    v.Same r r' ∧ (0 < r.rho ∧ r.extra = setdict S r.rho D) ∧ r'.extra = setdict S' r'.rho D' ∧
      v.Signal (D * mat r.Y) (D' * mat r'.Y) := by
  have hw' := weights_nonneg v hW hw
  refine run_move v hD (Inv := Coh D S) (Inv' := Coh D' S') (paired_equal v.iso
    (implements_bpdn D S lmbda hl w hw nonNeg fe ge) (implements_bpdn D' S' lmbda hl w' hw' nonNeg fe ge)
    (fun x => ?_) (fun y => ?_) (fun y => v.coefs_move hv y) ?_) ho hcb h hp hs hs'
  · rw [dmul_apply, dmul_apply, ← arr_sub, ← arr_sub, norm_arr, norm_arr, v.data_move hD hS]
  · simp only [v.l1w_move hW]
  · intro s s' hp hI hI' hr hX hY
    have e1 : s.extra.D = D := by rw [hI]; rfl
    have e2 : s'.extra.D = D' := by rw [hI']; rfl
    rw [hX, hY, v.fvar_move, v.gvar_move]
    have f := v.dfd_move hD hS (h := s.extra) (h' := s'.extra) e1 e2
    have r : ∀ x, regBPDN lmbda w' (v.iso x) = regBPDN lmbda w x := fun x => by
      unfold regBPDN; rw [v.normL1_move hW]
    exact Prod.ext (congrArg₂ (· + ·) (f _) (r _)) (Prod.ext (f _) (r _))

/-- **C84 for `ElasticNet`.** -/
theorem C84_elasticnet (v : Move N M K) (nonNeg : Bool) (hv : v.Allowed nonNeg) (D D' : Matrix (Fin N) (Fin M) ℝ)
    (hD : v.Dict D D') (S S' : Matrix (Fin N) (Fin K) ℝ) (hS : v.Signal S S') (lmbda mu : ℝ) (hl : 0 ≤ lmbda)
    (hm : 0 ≤ mu) (w w' : Fin M × Fin K → ℝ) (hw : ∀ i, 0 ≤ w i) (hW : v.Weights w w') (fe ge : Bool) (o : Opts)
    (ho : o.autoRho = true → o.RhoOk) (cb cb') (hcb : SameCallback cb cb')
    (s s' : St (Arr M K) (Arr M K) (Arr M K) (Attr N M K)) (h : v.Same s s') (hp : 0 < s.rho)
    (hs : s.extra = setdictEN S mu s.rho D) (hs' : s'.extra = setdictEN S' mu s'.rho D') :
    let r := solve (clsEN S lmbda mu w nonNeg fe ge) o cb s
    let r' := solve (clsEN S' lmbda mu w' nonNeg fe ge) o cb' s'
    v.Same r r' ∧ (0 < r.rho ∧ r.extra = setdictEN S mu r.rho D) ∧ r'.extra = setdictEN S' mu r'.rho D' ∧
      v.Signal (D * mat r.Y) (D' * mat r'.Y) := by
  have hw' := weights_nonneg v hW hw
  refine run_move v hD (Inv := CohEN D S mu) (Inv' := CohEN D' S' mu) (paired_equal v.iso
    (implements_en D S lmbda mu hl hm w hw nonNeg fe ge) (implements_en D' S' lmbda mu hl hm w' hw' nonNeg fe ge)
    (fun x => ?_) (fun y => ?_) (fun y => v.coefs_move hv y) ?_) ho hcb h hp hs hs'
  · rw [enL_norm D S mu hm, enL_norm D' S' mu hm, v.data_move hD hS, ← norm_mat, ← norm_mat, v.iso.norm_map]
  · simp only [v.l1w_move hW]
  · intro s s' hp hI hI' hr hX hY
    have e1 : s.extra.D = D := by rw [hI]; rfl
    have e2 : s'.extra.D = D' := by rw [hI']; rfl
    rw [hX, hY, v.fvar_move, v.gvar_move]
    have f := v.dfd_move hD hS (h := s.extra) (h' := s'.extra) e1 e2
    have r : ∀ x, regEN lmbda mu w' (v.iso x) = regEN lmbda mu w x := fun x => by
      unfold regEN; rw [v.normL1_move hW, v.iso.norm_map]
    exact Prod.ext (congrArg₂ (· + ·) (f _) (r _)) (Prod.ext (f _) (r _))

/-- **C84 for `BPDNJoint`**, without `NonNegCoef`. -/
theorem C84_joint (v : Move N M K) (D D' : Matrix (Fin N) (Fin M) ℝ)
    (hD : v.Dict D D') (S S' : Matrix (Fin N) (Fin K) ℝ) (hS : v.Signal S S') (lmbda mu : ℝ) (hl : 0 ≤ lmbda)
    (hm : 0 ≤ mu) (w w' : Fin M × Fin K → ℝ) (hw : ∀ i, 0 ≤ w i) (hW : v.Weights w w') (fe ge : Bool) (o : Opts)
    (ho : o.autoRho = true → o.RhoOk) (cb cb') (hcb : SameCallback cb cb')
    (s s' : St (Arr M K) (Arr M K) (Arr M K) (Attr N M K)) (h : v.Same s s') (hp : 0 < s.rho)
    (hs : s.extra = setdict S s.rho D) (hs' : s'.extra = setdict S' s'.rho D') :
    let r := solve (clsJnt S lmbda mu w false fe ge) o cb s
    let r' := solve (clsJnt S' lmbda mu w' false fe ge) o cb' s'
    v.Same r r' ∧ (0 < r.rho ∧ r.extra = setdict S r.rho D) ∧ r'.extra = setdict S' r'.rho D' ∧
      v.Signal (D * mat r.Y) (D' * mat r'.Y) := by
  have hw' := weights_nonneg v hW hw
  refine run_move v hD (Inv := Coh D S) (Inv' := Coh D' S') (paired_equal v.iso
    (implements_jnt D S lmbda mu hl hm w hw fe ge) (implements_jnt D' S' lmbda mu hl hm w' hw' fe ge)
    (fun x => ?_) (fun y => v.gJnt_move hW lmbda mu y) (fun y => ⟨fun _ => trivial, fun _ => trivial⟩) ?_)
    ho hcb h hp hs hs'
  · rw [dmul_apply, dmul_apply, ← arr_sub, ← arr_sub, norm_arr, norm_arr, v.data_move hD hS]
  · intro s s' hp hI hI' hr hX hY
    have e1 : s.extra.D = D := by rw [hI]; rfl
    have e2 : s'.extra.D = D' := by rw [hI']; rfl
    rw [hX, hY, v.fvar_move, v.gvar_move]
    have f := v.dfd_move hD hS (h := s.extra) (h' := s'.extra) e1 e2
    have r : ∀ x, regJnt lmbda mu w' (v.iso x) = regJnt lmbda mu w x := fun x => by
      unfold regJnt; rw [v.normL1_move hW, v.rows_move]
    exact Prod.ext (congrArg₂ (· + ·) (f _) (r _)) (Prod.ext (f _) (r _))

/-- Every change of the input meets the hypotheses for some second problem. -/
theorem move_exists (v : Move N M K) (D : Matrix (Fin N) (Fin M) ℝ) (S : Matrix (Fin N) (Fin K) ℝ)
    (w : Fin M × Fin K → ℝ) (X : Arr M K) :
    ∃ D' S' w' X', v.Dict D D' ∧ v.Signal S S' ∧ v.Weights w w' ∧ v.Coefs X X' :=
  ⟨fun n m => v.asign (v.atoms.symm m) * (v.rot * D) n (v.atoms.symm m),
    fun n k => v.ssign (v.sigs.symm k) * (v.rot * S) n (v.sigs.symm k),
    fun i => w (v.atoms.symm i.1, v.sigs.symm i.2), v.iso X, fun n m => by simp, fun n k => by simp,
    fun m k => by simp, (v.coefs_iff _ _).2 rfl⟩

end Sporco.Admm.Bpdn
