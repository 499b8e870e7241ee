import Verif.Conv.ProdDictModel
import Verif.Conv.CbpdnConv
import Verif.Admm.Sim
import Mathlib.Analysis.Matrix.Spectrum

/-!
# The product dictionary solvers are the solvers for a multi-channel dictionary (C39, C40)

The X update of `ConvProdDictBPDN` works with the eigenvectors of `Bᵀ B`.  It solves the same equations as
the X update of `ConvBPDN` with the multi-channel dictionary of all products of a column of B with a filter.
-/

set_option autoImplicit false
set_option linter.unusedSectionVars false

namespace Sporco.Admm

variable {E F G H H' : Type*} [NormedAddCommGroup E] [InnerProductSpace ℝ E] [NormedAddCommGroup F]
  [InnerProductSpace ℝ F] [NormedAddCommGroup G] [InnerProductSpace ℝ G]

/-- A callback that changes nothing does not influence the iterates. -/
theorem traj_reads (C : Cls E F G H) (o : Opts) (cb) (hcb : Bpdn.CallbackReads cb) (s : St E F G H) (n : ℕ) :
    traj C o cb s n = traj C o none s n := by
  have h : oneIter C o cb = oneIter C o none := by
    funext t
    unfold oneIter body
    rcases cb with _ | f
    · rfl
    · simp only [hcb f _ rfl]
  unfold traj
  rw [h]

theorem traj_sim {e : H → H'} {C : Cls E F G H} {C' : Cls E F G H'} {Inv : ℝ → H → Prop}
    (hs : ClsSim e C C' Inv) (hk : Keeps C Inv) (o : Opts) (ho : o.autoRho = true → o.RhoOk)
    (s : St E F G H) (hp : 0 < s.rho) (hI : Inv s.rho s.extra) (n : ℕ) :
    traj C' o none (s.mapExtra e) n = (traj C o none s n).mapExtra e := by
  have hn : CallbackKeeps Inv (none : Option (St E F G H → Bool × H)) := by
    intro f t hf; cases hf
  induction n with
  | zero => rfl
  | succ n ih =>
    rw [traj_succ, traj_succ, ih]
    obtain ⟨h1, h2⟩ := traj_keeps hk o ho none hn s hp hI n
    unfold oneIter
    have := body_sim hs hk o none none (Or.inl ⟨rfl, rfl⟩) (traj C o none s n).k (traj C o none s n) h1 h2
    rw [show ((traj C o none s n).mapExtra e).k = (traj C o none s n).k from rfl, this]
    rfl

end Sporco.Admm

namespace Sporco.Conv.PD

open Finset ComplexConjugate Sporco.Linalg Sporco.Prox Sporco.Admm Sporco.Conv

variable {d c : ℕ} {N Nd : Fin d → ℕ} [∀ k, NeZero (N k)] {a : Fin d} {K L M : Type*} [Fintype K]
  [Fintype L] [Fintype M] [DecidableEq L]

/-! ## Specification -/

/-- The signal the coefficients stand for, `D X Bᵀ`: entry `i` of the channel axis is the sum over the
columns `l` of B of `B i l` times the sum of the convolutions of the filters with the coefficient maps of
column `l`. -/
def reconPD (D : Dict 0 M Nd) (B : Matrix (Fin (c + 1)) L ℝ) (X : K → L × M → Grid N → ℝ) : Signal c K N :=
  fun i k p => ∑ l, B i l * ∑ m, filt (D 0 m) (X k (l, m)) p

/-- `(1/2) ‖D X Bᵀ - S‖²`. -/
noncomputable def dataPD (D : Dict 0 M Nd) (B : Matrix (Fin (c + 1)) L ℝ) (S : Signal c K N)
    (X : K → L × M → Grid N → ℝ) : ℝ :=
  1 / 2 * ∑ i, ∑ k, ∑ p, (reconPD D B X i k p - S i k p) ^ 2

/-- The augmented Lagrangian as a function of X. -/
noncomputable def augPD (D : Dict 0 M Nd) (B : Matrix (Fin (c + 1)) L ℝ) (S : Signal c K N) (rho : ℝ)
    (Y U X : K → L × M → Grid N → ℝ) : ℝ :=
  dataPD D B S X + rho / 2 * ∑ k, ∑ j, ∑ p, (X k j p - Y k j p + U k j p) ^ 2

/-- The `ConvProdDictBPDN` functional. -/
noncomputable def objPD (D : Dict 0 M Nd) (B : Matrix (Fin (c + 1)) L ℝ) (S : Signal c K N) (lmbda : ℝ)
    (w : K × (L × M) × Grid N → ℝ) (X : K → L × M → Grid N → ℝ) : ℝ :=
  dataPD D B S X + lmbda * ∑ k, ∑ j, ∑ p, w (k, j, p) * |X k j p|

/-- The multi-channel dictionary of all products of a column of B with a filter. -/
def prodDict (B : Matrix (Fin (c + 1)) L ℝ) (D : Dict 0 M Nd) : Dict c (L × M) Nd :=
  fun i j p => B i j.1 * D 0 j.2 p

theorem filt_smul (r : ℝ) (f : NArr Nd ℝ) (x : Grid N → ℝ) (p : Grid N) :
    filt (fun j => r * f j) x p = r * filt f x p := by
  unfold filt
  rw [Finset.mul_sum]
  exact Finset.sum_congr rfl fun j _ => mul_assoc _ _ _

theorem recon_prod (D : Dict 0 M Nd) (B : Matrix (Fin (c + 1)) L ℝ) (X : K → L × M → Grid N → ℝ) :
    recon (prodDict B D) X = reconPD D B X := by
  funext i k p
  unfold recon reconPD prodDict
  rw [Fintype.sum_prod_type]
  refine Finset.sum_congr rfl fun l _ => ?_
  rw [Finset.mul_sum]
  exact Finset.sum_congr rfl fun m _ => filt_smul _ _ _ _

theorem data_prod (D : Dict 0 M Nd) (B : Matrix (Fin (c + 1)) L ℝ) (S : Signal c K N) :
    dataTerm (prodDict B D) S = dataPD D B S := by
  funext X
  unfold dataTerm dataPD
  rw [recon_prod]

theorem aug_prod (D : Dict 0 M Nd) (B : Matrix (Fin (c + 1)) L ℝ) (S : Signal c K N) (rho : ℝ)
    (Y U : K → L × M → Grid N → ℝ) : augConv (prodDict B D) S rho Y U = augPD D B S rho Y U := by
  funext X
  unfold augConv augPD
  rw [data_prod]
  rfl

theorem obj_prod (D : Dict 0 M Nd) (B : Matrix (Fin (c + 1)) L ℝ) (S : Signal c K N) (lmbda : ℝ)
    (w : K × (L × M) × Grid N → ℝ) : objConv (prodDict B D) S lmbda w = objPD D B S lmbda w := by
  funext X
  unfold objConv objPD
  rw [data_prod]

/-! ## The contract -/

theorem eigs_spec {eigh : Eigh L} (he : EighOk eigh) (B : Matrix (Fin (c + 1)) L ℝ) :
    let e := eigs eigh B
    e.2.transpose * e.2 = 1 ∧ e.2 * e.2.transpose = 1 ∧ (∀ l, 0 ≤ e.1 l) ∧
      B.transpose * B * e.2 = e.2 * Matrix.diagonal e.1 := by
  intro e
  obtain ⟨h1, h2⟩ := he (B.transpose * B) (by
    unfold Matrix.IsSymm
    rw [Matrix.transpose_mul, Matrix.transpose_transpose])
  have hQ : e.2 = (eigh (B.transpose * B)).2 := rfl
  rw [← hQ] at h1 h2
  have h3 : e.2 * e.2.transpose = 1 := mul_eq_one_comm.mp h1
  set g := (eigh (B.transpose * B)).1 with hg
  have h4 : B.transpose * B * e.2 = e.2 * Matrix.diagonal g := by
    rw [← h2, Matrix.mul_assoc, h1, Matrix.mul_one]
  have h5 : Matrix.diagonal g = (B * e.2).transpose * (B * e.2) := by
    rw [Matrix.transpose_mul, Matrix.mul_assoc, ← Matrix.mul_assoc B.transpose B, h4, ← Matrix.mul_assoc, h1,
      Matrix.one_mul]
  have h6 : ∀ l, 0 ≤ g l := by
    intro l
    have := congrFun (congrFun h5 l) l
    rw [Matrix.diagonal_apply_eq, Matrix.mul_apply] at this
    rw [this]
    exact Finset.sum_nonneg fun i _ => mul_self_nonneg _
  have h7 : e.1 = g := funext fun l => abs_of_nonneg (h6 l)
  refine ⟨h1, h3, fun l => abs_nonneg _, ?_⟩
  rw [h7]
  exact h4

/-- A function meeting the contract exists. -/
theorem eighOk_exists : ∃ eigh : Eigh L, EighOk eigh := by
  classical
  refine ⟨fun A => if h : A.IsHermitian then (h.eigenvalues, (h.eigenvectorUnitary : Matrix L L ℝ)) else (0, 0), ?_⟩
  intro A hA
  have hh : A.IsHermitian := by
    unfold Matrix.IsHermitian
    rw [Matrix.conjTranspose_eq_transpose_of_trivial]
    exact hA
  simp only [dif_pos hh]
  have h1 : (hh.eigenvectorUnitary : Matrix L L ℝ).transpose * (hh.eigenvectorUnitary : Matrix L L ℝ) = 1 := by
    have := Unitary.coe_star_mul_self hh.eigenvectorUnitary
    rw [Matrix.star_eq_conjTranspose, Matrix.conjTranspose_eq_transpose_of_trivial] at this
    exact this
  refine ⟨h1, ?_⟩
  have h2 := hh.spectral_theorem
  rw [Unitary.conjStarAlgAut_apply] at h2
  rw [Matrix.star_eq_conjTranspose, Matrix.conjTranspose_eq_transpose_of_trivial] at h2
  exact h2.symm

/-! ## One frequency -/

theorem ofReal_sum_mul {ι : Type*} [Fintype ι] (f g : ι → ℝ) :
    ∑ i, ((f i : ℝ) : ℂ) * ((g i : ℝ) : ℂ) = ((∑ i, f i * g i : ℝ) : ℂ) := by
  push_cast; rfl

/-- The change of basis: if for every eigenvector the equation with the eigenvalue is solved, the array in
the original basis solves the equation with `Bᵀ B`. -/
theorem basis_change (B : Matrix (Fin (c + 1)) L ℝ) (Q : Matrix L L ℝ) (g : L → ℝ)
    (hQ : Q * Q.transpose = 1) (hB : B.transpose * B * Q = Q * Matrix.diagonal g)
    (df : M → ℂ) (dg : M → ℂ) (be : L → M → ℂ) (xh : L → M → ℂ)
    (hx : ∀ j m, (g j : ℂ) * conj (df m) * (∑ n, df n * xh j n) + dg m * xh j m =
      ∑ l, ((Q l j : ℝ) : ℂ) * be l m) (l : L) (m : M) :
    ∑ i, conj (((B i l : ℝ) : ℂ) * df m) * ∑ t : L × M, (((B i t.1 : ℝ) : ℂ) * df t.2) *
        (∑ j, ((Q t.1 j : ℝ) : ℂ) * xh j t.2) + dg m * ∑ j, ((Q l j : ℝ) : ℂ) * xh j m = be l m := by
  have e1 : ∀ i, ∑ t : L × M, (((B i t.1 : ℝ) : ℂ) * df t.2) * (∑ j, ((Q t.1 j : ℝ) : ℂ) * xh j t.2) =
      ∑ j, (((B * Q) i j : ℝ) : ℂ) * ∑ n, df n * xh j n := by
    intro i
    have h0 : ∀ j, (((B * Q) i j : ℝ) : ℂ) * ∑ n, df n * xh j n =
        ∑ l, ∑ n, ((B i l : ℝ) : ℂ) * df n * (((Q l j : ℝ) : ℂ) * xh j n) := by
      intro j
      rw [Matrix.mul_apply, ← ofReal_sum_mul, Finset.sum_mul]
      refine Finset.sum_congr rfl fun l _ => ?_
      rw [Finset.mul_sum]
      exact Finset.sum_congr rfl fun n _ => by ring
    simp only [h0]
    rw [Finset.sum_comm, Fintype.sum_prod_type]
    refine Finset.sum_congr rfl fun l _ => ?_
    rw [Finset.sum_comm]
    refine Finset.sum_congr rfl fun n _ => ?_
    rw [Finset.mul_sum]
  have e2 : ∑ i, conj (((B i l : ℝ) : ℂ) * df m) * ∑ j, (((B * Q) i j : ℝ) : ℂ) * ∑ n, df n * xh j n =
      ∑ j, ((Q l j : ℝ) : ℂ) * ((g j : ℂ) * conj (df m) * ∑ n, df n * xh j n) := by
    have h0 : ∀ j, ((Q l j : ℝ) : ℂ) * (g j : ℂ) = ∑ i, ((B i l : ℝ) : ℂ) * (((B * Q) i j : ℝ) : ℂ) := by
      intro j
      have h := congrFun (congrFun hB l) j
      rw [Matrix.mul_diagonal, Matrix.mul_assoc, Matrix.mul_apply] at h
      rw [ofReal_sum_mul, ← Complex.ofReal_mul, ← h]
      rfl
    simp only [Finset.mul_sum (s := (univ : Finset L)), map_mul, Complex.conj_ofReal]
    rw [Finset.sum_comm]
    refine Finset.sum_congr rfl fun j _ => ?_
    rw [show ((Q l j : ℝ) : ℂ) * ((g j : ℂ) * conj (df m) * ∑ n, df n * xh j n) =
      (((Q l j : ℝ) : ℂ) * (g j : ℂ)) * (conj (df m) * ∑ n, df n * xh j n) by ring, h0, Finset.sum_mul]
    exact Finset.sum_congr rfl fun i _ => by ring
  simp only [e1]
  rw [e2, Finset.mul_sum, ← Finset.sum_add_distrib]
  have e3 : ∀ j, ((Q l j : ℝ) : ℂ) * ((g j : ℂ) * conj (df m) * ∑ n, df n * xh j n) +
      dg m * (((Q l j : ℝ) : ℂ) * xh j m) = ∑ r, (((Q l j : ℝ) : ℂ) * ((Q r j : ℝ) : ℂ)) * be r m := by
    intro j
    rw [show ((Q l j : ℝ) : ℂ) * ((g j : ℂ) * conj (df m) * ∑ n, df n * xh j n) +
      dg m * (((Q l j : ℝ) : ℂ) * xh j m) = ((Q l j : ℝ) : ℂ) * ((g j : ℂ) * conj (df m) * (∑ n, df n * xh j n) +
        dg m * xh j m) by ring, hx, Finset.mul_sum]
    exact Finset.sum_congr rfl fun r _ => by ring
  simp only [e3]
  rw [Finset.sum_comm]
  have e4 : ∀ r, ∑ j, (((Q l j : ℝ) : ℂ) * ((Q r j : ℝ) : ℂ)) * be r m = if l = r then be r m else 0 := by
    intro r
    rw [← Finset.sum_mul, ofReal_sum_mul]
    have h := congrFun (congrFun hQ l) r
    rw [Matrix.mul_apply, Matrix.one_apply] at h
    have h' : ∑ i, Q l i * Q r i = if l = r then 1 else 0 := h
    rw [h']
    split_ifs <;> simp
  simp only [e4]
  simp

/-- Linearity of the right hand side of the equation in the eigenvector basis. -/
theorem rhs_basis (B : Matrix (Fin (c + 1)) L ℝ) (Q : Matrix L L ℝ) (v : Fin (c + 1) → ℂ) (z : L → ℂ) (r : ℂ)
    (j : L) :
    ∑ i, (((B * Q) i j : ℝ) : ℂ) * v i + r * ∑ l, ((Q l j : ℝ) : ℂ) * z l =
      ∑ l, ((Q l j : ℝ) : ℂ) * (∑ i, ((B i l : ℝ) : ℂ) * v i + r * z l) := by
  simp only [mul_add, Finset.sum_add_distrib]
  congr 1
  · have h0 : ∀ i, (((B * Q) i j : ℝ) : ℂ) * v i = ∑ l, ((Q l j : ℝ) : ℂ) * (((B i l : ℝ) : ℂ) * v i) := by
      intro i
      rw [Matrix.mul_apply, ← ofReal_sum_mul, Finset.sum_mul]
      exact Finset.sum_congr rfl fun l _ => by ring
    simp only [h0]
    rw [Finset.sum_comm]
    exact Finset.sum_congr rfl fun l _ => (Finset.mul_sum _ _ _).symm
  · rw [Finset.mul_sum]
    exact Finset.sum_congr rfl fun l _ => by ring

/-! ## The X update -/

/-- The attributes belong to D, B and rho. -/
def Coh (eigh : Eigh L) (q : COpts) (D : Dict 0 M Nd) (B : Matrix (Fin (c + 1)) L ℝ) (S : Signal c K N)
    (rho : ℝ) (h : AttrP c K L M Nd N a) : Prop := ∃ Xf, h = setdict0 eigh q S rho D B Xf

theorem solvedbi_eq (ah b : M → ℂ) (rho : ℝ) (hr : 0 < rho) (m : M) :
    conj (ah m) * (∑ n, ah n * solvedbiSm ah rho b none n) + rho * solvedbiSm ah rho b none m = b m := by
  classical
  have h := congrFun (C23_solvedbi ah b rho hr) m
  rw [rankOne_apply] at h
  simp only [Complex.conj_conj, Linalg.inner] at h
  rw [← h]
  ring

theorem dictF_prod (D : Dict 0 M Nd) (B : Matrix (Fin (c + 1)) L ℝ) (i : Fin (c + 1)) (j : L × M) (ξ : Half N a) :
    dictF a (prodDict B D) i j ξ = ((B i j.1 : ℝ) : ℂ) * dictF a D 0 j.2 ξ := by
  have e : pad N (prodDict B D i j) = B i j.1 • pad N (D 0 j.2) := by
    funext p
    unfold pad prodDict
    simp only [Pi.smul_apply, smul_eq_mul]
    split_ifs
    · rfl
    · simp
  have h := rf_smul (B i j.1) (pad N (D 0 j.2)) ξ.1
  change rf (pad N (prodDict B D i j)) ξ.1 = _ * rf (pad N (D 0 j.2)) ξ.1
  rw [e, ← h]
  rfl

/-- The attributes of the `ConvBPDN` object with the multi-channel dictionary. -/
noncomputable def toConv (q : COpts) (S : Signal c K N) (h : AttrP c K L M Nd N a) : Attr c K (L × M) Nd N a :=
  Conv.setdict (q.mem false) S 1 (prodDict h.B h.D) h.Xf

theorem setdict_mem (q : COpts) (S : Signal c K N) (rho rho' : ℝ) (D : Dict c (L × M) Nd) (Xf : Spec K (L × M) N a) :
    Conv.setdict (q.mem false) S rho D Xf = Conv.setdict (q.mem false) S rho' D Xf := by
  simp [Conv.setdict, COpts.mem, COpts.caches]

/-- The spectrum computed in the eigenvector basis is the one computed for the multi-channel dictionary. -/
theorem solveP_eq {eigh : Eigh L} (he : EighOk eigh) {q : COpts} {D : Dict 0 M Nd}
    {B : Matrix (Fin (c + 1)) L ℝ} {S : Signal c K N} {rho : ℝ} (hr : 0 < rho) {h : AttrP c K L M Nd N a}
    (hc : Coh eigh q D B S rho h) (Y U : Coef K (L × M) N) :
    solveP rho Y U h = solveF rho rho Y U (toConv q S h) := by
  obtain ⟨Xf, rfl⟩ := hc
  obtain ⟨-, h2, h3, h4⟩ := eigs_spec he B
  set g := (eigs eigh B).1 with hg
  set Q := (eigs eigh B).2 with hQ
  funext k j ξ
  -- the right hand side
  set be : L → M → ℂ := fun l m => ∑ i, ((B i l : ℝ) : ℂ) * (conj (dictF a D 0 m ξ) * sigF a S i k ξ) +
    rho * rfft N a (part (Y - U) k (l, m)) ξ with hbe
  set b : L → M → ℂ := fun l m => ∑ i, (((B * Q) i l : ℝ) : ℂ) * (conj (dictF a D 0 m ξ) * sigF a S i k ξ) +
    rho * ∑ l', ((Q.transpose l l' : ℝ) : ℂ) * rfft N a (part (Y - U) k (l', m)) ξ with hb
  set xh : L → M → ℂ := fun l m => solvedbiSm (fun n => gdf g (dictF a D) l n ξ) rho (b l) none m with hxh
  have hsol : ∀ t : L × M, solveP rho Y U (setdict0 eigh q S rho D B Xf) k t ξ = ∑ l, ((Q t.1 l : ℝ) : ℂ) * xh l t.2 := by
    intro t
    unfold solveP setdict0 fin
    simp only
    refine Finset.sum_congr rfl fun l _ => ?_
    congr 1
    by_cases hq : q.highMem = true
    · simp only [if_pos hq]
      rfl
    · simp only [if_neg hq]
      rfl
  have hx : ∀ l m, (g l : ℂ) * conj (dictF a D 0 m ξ) * (∑ n, dictF a D 0 n ξ * xh l n) + (rho : ℂ) * xh l m =
      ∑ r, ((Q r l : ℝ) : ℂ) * be r m := by
    intro l m
    have h5 := solvedbi_eq (fun n => gdf g (dictF a D) l n ξ) (b l) rho hr m
    have hs : ((Real.sqrt (g l) : ℝ) : ℂ) * ((Real.sqrt (g l) : ℝ) : ℂ) = (g l : ℂ) := by
      rw [← Complex.ofReal_mul, Real.mul_self_sqrt (h3 l)]
    have h6 : conj (gdf g (dictF a D) l m ξ) * (∑ n, gdf g (dictF a D) l n ξ * xh l n) =
        (g l : ℂ) * conj (dictF a D 0 m ξ) * (∑ n, dictF a D 0 n ξ * xh l n) := by
      unfold gdf
      rw [map_mul, Complex.conj_ofReal, ← hs, Finset.mul_sum, Finset.mul_sum]
      exact Finset.sum_congr rfl fun n _ => by ring
    rw [← h6]
    refine h5.trans ?_
    exact rhs_basis B Q (fun i => conj (dictF a D 0 m ξ) * sigF a S i k ξ)
      (fun r => rfft N a (part (Y - U) k (r, m)) ξ) rho l
  have hP := basis_change B Q g h2 h4 (fun m => dictF a D 0 m ξ) (fun _ => (rho : ℂ)) be xh hx
  -- the other side
  have hF : ∀ t : L × M, solveF rho rho Y U (toConv q S (setdict0 eigh q S rho D B Xf)) k t ξ =
      freqSolve (fun i n => dictF a (prodDict B D) i n ξ) rho
        (fun n => ∑ i, conj (dictF a (prodDict B D) i n ξ) * sigF a S i k ξ +
          rho * rfft N a (part (Y - U) k n) ξ) none t := by
    intro t
    unfold solveF toConv Conv.setdict
    simp only [COpts.mem, COpts.caches, Bool.false_and, Bool.false_eq_true, if_false]
    rfl
  have hu := freq_unique (fun i n => dictF a (prodDict B D) i n ξ) (fun _ => rho) (fun _ => hr)
    (fun t => solveP rho Y U (setdict0 eigh q S rho D B Xf) k t ξ -
      solveF rho rho Y U (toConv q S (setdict0 eigh q S rho D B Xf)) k t ξ) (fun t => by
      have h7 := hP t.1 t.2
      have h8 := freqSolve_spec (fun i n => dictF a (prodDict B D) i n ξ) rho hr
        (fun n => ∑ i, conj (dictF a (prodDict B D) i n ξ) * sigF a S i k ξ +
          rho * rfft N a (part (Y - U) k n) ξ) t
      simp only [← hF] at h8
      simp only [← hsol, ← dictF_prod] at h7
      simp only [hbe] at h7
      have h9 : ∑ i, ((B i t.1 : ℝ) : ℂ) * (conj (dictF a D 0 t.2 ξ) * sigF a S i k ξ) =
          ∑ i, conj (dictF a (prodDict B D) i t ξ) * sigF a S i k ξ := by
        refine Finset.sum_congr rfl fun i _ => ?_
        rw [dictF_prod, map_mul, Complex.conj_ofReal]
        ring
      rw [h9] at h7
      have h10 := h7.trans h8.symm
      simp only [mul_sub, Finset.sum_sub_distrib]
      linear_combination h10)
  exact sub_eq_zero.1 (congrFun hu j)

theorem coh_xstep {eigh : Eigh L} {q : COpts} {D : Dict 0 M Nd} {B : Matrix (Fin (c + 1)) L ℝ}
    {S : Signal c K N} {rho rho' : ℝ} {h : AttrP c K L M Nd N a} (hc : Coh eigh q D B S rho h)
    (X Y U : Coef K (L × M) N) : Coh eigh q D B S rho (xstep rho' X Y U h).2 := by
  obtain ⟨Xf, rfl⟩ := hc
  exact ⟨_, rfl⟩

theorem coh_rhochange {eigh : Eigh L} {q : COpts} {D : Dict 0 M Nd} {B : Matrix (Fin (c + 1)) L ℝ}
    {S : Signal c K N} {rho rho' : ℝ} {h : AttrP c K L M Nd N a} (hc : Coh eigh q D B S rho h) :
    Coh eigh q D B S rho' (rhochange q rho' h) := by
  obtain ⟨Xf, rfl⟩ := hc
  refine ⟨Xf, ?_⟩
  unfold rhochange setdict0 fin
  by_cases hq : q.highMem = true
  · simp only [if_pos hq]
  · simp only [if_neg hq]

theorem xstep_sim {eigh : Eigh L} (he : EighOk eigh) {q : COpts} {D : Dict 0 M Nd}
    {B : Matrix (Fin (c + 1)) L ℝ} {S : Signal c K N} {rho : ℝ} (hr : 0 < rho) {h : AttrP c K L M Nd N a}
    (hc : Coh eigh q D B S rho h) (X Y U : Coef K (L × M) N) :
    Conv.xstep rho X Y U (toConv q S h) = ((xstep rho X Y U h).1, toConv q S (xstep rho X Y U h).2) := by
  unfold Conv.xstep xstep
  simp only [← solveP_eq he hr hc]
  rfl

theorem keeps_pd (eigh : Eigh L) (q : COpts) (D : Dict 0 M Nd) (B : Matrix (Fin (c + 1)) L ℝ) (S : Signal c K N)
    (ys : ℝ → Coef K (L × M) N → Coef K (L × M) N → Coef K (L × M) N → Coef K (L × M) N → AttrP c K L M Nd N a →
      Coef K (L × M) N × AttrP c K L M Nd N a)
    (hys : ∀ rho AX X Y U h, (ys rho AX X Y U h).2 = h) (ob) :
    Keeps (Cls.equal xstep ys (rhochange q) ob) (Coh eigh q D B S) :=
  ⟨equal_sane _ _ _ _, fun _ X Y U _ _ h => coh_xstep h X Y U, fun rho AX X Y U h _ hc => by
    change Coh eigh q D B S rho (ys rho AX X Y U h).2; rw [hys]; exact hc, fun _ _ _ _ _ h => coh_rhochange h⟩

/-- A class with the X update of `ConvProdDictBPDN` makes the same iterations as the one with the X update of
`ConvBPDN` and the multi-channel dictionary, the other methods being the same. -/
theorem sim_pd {eigh : Eigh L} (he : EighOk eigh) (q : COpts) (D : Dict 0 M Nd) (B : Matrix (Fin (c + 1)) L ℝ)
    (S : Signal c K N)
    (ys : ℝ → Coef K (L × M) N → Coef K (L × M) N → Coef K (L × M) N → Coef K (L × M) N → Coef K (L × M) N)
    (ob : Coef K (L × M) N → Coef K (L × M) N → AttrP c K L M Nd N a → ℝ × ℝ × ℝ)
    (ob' : Coef K (L × M) N → Coef K (L × M) N → Attr c K (L × M) Nd N a → ℝ × ℝ × ℝ)
    (hob : ∀ rho X Y h, Coh eigh q D B S rho h → ob' X Y (toConv q S h) = ob X Y h) :
    ClsSim (toConv q S)
      (Cls.equal xstep (fun rho AX X Y U h => (ys rho AX X Y U, h)) (rhochange q) ob)
      (Cls.equal Conv.xstep (fun rho AX X Y U h => (ys rho AX X Y U, h)) (Conv.rhochange (q.mem false)) ob')
      (Coh eigh q D B S) where
  xstep rho X Y U h hr hc := xstep_sim he hr hc X Y U
  ystep rho AX X Y U h _ _ := rfl
  rhochange rho rho' h _ := by
    change Conv.rhochange (q.mem false) rho' (toConv q S h) = toConv q S (rhochange q rho' h)
    rw [rhochange_mem]
    unfold rhochange
    split_ifs <;> rfl
  objfn rho X Y h hc := hob rho X Y h hc
  relax := rfl
  ustep := rfl
  nrmR := rfl
  nrmS := rfl
  rsdlRn := rfl
  rsdlSn := rfl

/-- The recorded data fidelity. -/
theorem dfd_sim {eigh : Eigh L} {q : COpts} {D : Dict 0 M Nd} {B : Matrix (Fin (c + 1)) L ℝ}
    {S : Signal c K N} {rho : ℝ} {h : AttrP c K L M Nd N a} (hc : Coh eigh q D B S rho h) (fe : Bool)
    (Y : Coef K (L × M) N) : Conv.dfd S fe Y (toConv q S h) = dfd S fe Y h := by
  obtain ⟨Xf, rfl⟩ := hc
  unfold Conv.dfd dfd
  congr 2
  funext p
  congr 1
  unfold Linalg.inner
  rw [Fintype.sum_prod_type]
  refine Finset.sum_congr rfl fun l _ => ?_
  rw [Finset.mul_sum]
  refine Finset.sum_congr rfl fun m _ => ?_
  change dictF a (prodDict B D) p.1.1 (l, m) p.2 * Conv.fvarf fe Y _ p.1.2 (l, m) p.2 = _
  rw [dictF_prod]
  have hf : Conv.fvarf fe Y (toConv q S (setdict0 eigh q S rho D B Xf)) =
    fvarf fe Y (setdict0 eigh q S rho D B Xf) := rfl
  rw [hf, mul_assoc]
  rfl

end Sporco.Conv.PD
