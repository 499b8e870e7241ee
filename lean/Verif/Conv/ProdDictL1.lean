import Verif.Conv.ProdDictL1Model
import Verif.Conv.ProdDictJoint
import Verif.Conv.RecTvThm
import Verif.Conv.L1L1Gen

/-!
# `ConvProdDictL1L1Grd`, `ConvProdDictL1L1GrdJoint`: theorems (C39, C40, C61, C67)
-/

set_option autoImplicit false
set_option linter.unusedSectionVars false

namespace Sporco.Conv.PL

open Finset ComplexConjugate Sporco.Linalg Sporco.Prox Sporco.Admm Sporco.Conv Sporco.Conv.TB Sporco.Conv.Grd
  Sporco.Conv.PD Filter Topology
open scoped RealInnerProductSpace

variable {d c : ℕ} {N Nd : Fin d → ℕ} [∀ k, NeZero (N k)] {a : Fin d} {K L M : Type*} [Fintype K]
  [Fintype L] [Fintype M] [DecidableEq L]

/-! ## Specification -/

/-- `‖W (D X Bᵀ - S)‖₁`. -/
noncomputable def l1PD (D : Dict 0 M Nd) (B : Matrix (Fin (c + 1)) L ℝ) (S W : Signal c K N)
    (X : K → L × M → Grid N → ℝ) : ℝ :=
  ∑ i, ∑ k, ∑ p, |W i k p * (reconPD D B X i k p - S i k p)|

/-- `∑ᵢ ‖Gᵢ X‖²` with one weight for every filter. -/
def gradPD (wg : M → ℝ) (X : K → L × M → Grid N → ℝ) : ℝ :=
  ∑ i, ∑ k, ∑ j : L × M, wg j.2 * ∑ p, (X k j p - X k j (p - Pi.single i 1)) ^ 2

/-- The problem of `ConvProdDictL1L1Grd` (class documentation), with weights. -/
noncomputable def objPL (D : Dict 0 M Nd) (B : Matrix (Fin (c + 1)) L ℝ) (S W : Signal c K N) (lmbda mu : ℝ)
    (w : K × (L × M) × Grid N → ℝ) (wg : M → ℝ) (X : K → L × M → Grid N → ℝ) : ℝ :=
  l1PD D B S W X + lmbda * ∑ k, ∑ j, ∑ p, w (k, j, p) * |X k j p| + mu / 2 * gradPD wg X

/-- The problem of `ConvProdDictL1L1GrdJoint` (class documentation), with weights. -/
noncomputable def objPLJ (D : Dict 0 M Nd) (B : Matrix (Fin (c + 1)) L ℝ) (S W : Signal c K N) (lmbda mu : ℝ)
    (wl21 : K × M → ℝ) (wg : M → ℝ) (X : K → L × M → Grid N → ℝ) : ℝ :=
  l1PD D B S W X + lmbda * ∑ k, ∑ m, ∑ p, wl21 (k, m) * Real.sqrt (∑ l, X k (l, m) p ^ 2) + mu / 2 * gradPD wg X

/-- The functional the X update minimises:
`(μ/2) ∑ ‖G X‖² + (ρ/2)(‖D X Bᵀ - S - Y₀ + U₀‖² + ‖X - Y₁ + U₁‖²)`. -/
noncomputable def augPL (D : Dict 0 M Nd) (B : Matrix (Fin (c + 1)) L ℝ) (S : Signal c K N) (mu : ℝ) (wg : M → ℝ)
    (rho : ℝ) (Y0 U0 : Signal c K N) (Y1 U1 X : K → L × M → Grid N → ℝ) : ℝ :=
  mu / 2 * gradPD wg X +
    rho / 2 * (∑ i, ∑ k, ∑ p, (reconPD D B X i k p - S i k p - Y0 i k p + U0 i k p) ^ 2 +
      ∑ k, ∑ j, ∑ p, (X k j p - Y1 k j p + U1 k j p) ^ 2)

theorem aug_eq (D : Dict 0 M Nd) (B : Matrix (Fin (c + 1)) L ℝ) (S : Signal c K N) (mu : ℝ) (wg : M → ℝ) (rho : ℝ)
    (Y0 U0 : Signal c K N) (Y1 U1 : K → L × M → Grid N → ℝ) :
    LG.augLG (prodDict B D) S mu (fun j : L × M => wg j.2) rho Y0 U0 Y1 U1 = augPL D B S mu wg rho Y0 U0 Y1 U1 := by
  funext X
  unfold LG.augLG augPL augTB
  rw [recon_prod]
  rfl

theorem l1_eq (D : Dict 0 M Nd) (B : Matrix (Fin (c + 1)) L ℝ) (S W : Signal c K N) (X : K → L × M → Grid N → ℝ) :
    LG.l1Data (prodDict B D) S W X = l1PD D B S W X := by
  unfold LG.l1Data l1PD
  rw [recon_prod]

/-! ## The X update and the constraint operators -/

/-- `setdict` leaves the attributes of the dictionaries given last. -/
theorem setdict_fix (eigh : Eigh L) (D : Dict 0 M Nd) (B : Matrix (Fin (c + 1)) L ℝ) (Dn : Option (Dict 0 M Nd))
    (Bn : Option (Matrix (Fin (c + 1)) L ℝ)) :
    setdict eigh Dn Bn (fix0 eigh D B : Fix c L M Nd N a) = fix0 eigh (Dn.getD D) (Bn.getD B) := by
  rcases Dn with _ | D' <;> rcases Bn with _ | B' <;> rfl

theorem cnstA0_prod (eigh : Eigh L) (D : Dict 0 M Nd) (B : Matrix (Fin (c + 1)) L ℝ) :
    (cnstA0 (fix0 eigh D B : Fix c L M Nd N a) : Coef K (L × M) N → Sig (Fin (c + 1)) K N) =
      TB.cnstA0 a (prodDict B D) := by
  funext X
  unfold cnstA0 TB.cnstA0
  congr 1
  funext i k
  congr 1
  funext ξ
  unfold Linalg.inner
  rw [Fintype.sum_prod_type]
  refine Finset.sum_congr rfl fun l _ => ?_
  rw [Finset.mul_sum]
  refine Finset.sum_congr rfl fun m _ => ?_
  change ((B i l : ℝ) : ℂ) * (dictF a D 0 m ξ * _) = dictF a (prodDict B D) i (l, m) ξ * _
  rw [dictF_prod, mul_assoc]

theorem cnstA0T_prod (eigh : Eigh L) (D : Dict 0 M Nd) (B : Matrix (Fin (c + 1)) L ℝ) :
    (cnstA0T (fix0 eigh D B : Fix c L M Nd N a) : Sig (Fin (c + 1)) K N → Coef K (L × M) N) =
      TB.cnstA0T a (prodDict B D) := by
  funext Y
  unfold cnstA0T TB.cnstA0T
  congr 1
  funext k j
  congr 1
  funext ξ
  refine Finset.sum_congr rfl fun i _ => ?_
  rw [dictF_prod, map_mul, Complex.conj_ofReal, mul_assoc]
  rfl

theorem solvedbd_eq (ah b : M → ℂ) (dg : M → ℝ) (hd : ∀ m, 0 < dg m) (m : M) :
    conj (ah m) * (∑ n, ah n * solvedbdSm ah (fun m => (dg m : ℂ)) b none n) +
      dg m * solvedbdSm ah (fun m => (dg m : ℂ)) b none m = b m := by
  classical
  have h := congrFun (C23_solvedbd ah b dg hd) m
  rw [rankOne_apply] at h
  simp only [Complex.conj_conj, Linalg.inner] at h
  rw [← h]
  ring

theorem diagL_pos (mu : ℝ) (hm : 0 ≤ mu) (wg : M → ℝ) (hg : ∀ m, 0 ≤ wg m) (rho : ℝ) (hr : 0 < rho) (m : M)
    (ξ : Half N a) : 0 < LG.diagL a mu wg rho m ξ := by
  rw [LG.diagL_eq, diagG_eq]
  exact diagN_pos _ (div_nonneg hm hr.le) wg hg 1 one_pos m ξ.1

/-- The spectrum computed in the eigenvector basis is the one computed by `ConvL1L1Grd` for the multi-channel
dictionary. -/
theorem xf_eq {eigh : Eigh L} (he : EighOk eigh) (D : Dict 0 M Nd) (B : Matrix (Fin (c + 1)) L ℝ)
    (S : Signal c K N) (mu : ℝ) (hm : 0 ≤ mu) (wg : M → ℝ) (hg : ∀ m, 0 ≤ wg m) (rho : ℝ) (hr : 0 < rho)
    (X : Coef K (L × M) N) (Y U : YY c K (L × M) N) (Xf : Spec K (L × M) N a) :
    (xstep (fix0 eigh D B) S mu wg rho X Y U Xf).2 =
      (LG.xstep (prodDict B D) S mu (fun j : L × M => wg j.2) rho X Y U ⟨none, Xf⟩).2.Xf := by
  obtain ⟨-, h2, h3, h4⟩ := eigs_spec he B
  set g := (eigs eigh B).1 with hgd
  set Q := (eigs eigh B).2 with hQ
  funext k j ξ
  set z0 : Fin (c + 1) → ℂ := fun i => rfft N a (part (TwoBlock.sep0 (Y - U) + join S) i k) ξ with hz0
  set z1 : L × M → ℂ := fun t => rfft N a (part (TwoBlock.sep1 (Y - U)) k t) ξ with hz1
  set dg : M → ℝ := fun m => LG.diagL a mu wg rho m ξ with hdg
  have hpos : ∀ m, 0 < dg m := fun m => diagL_pos mu hm wg hg rho hr m ξ
  set be : L → M → ℂ := fun l m => ∑ i, ((B i l : ℝ) : ℂ) * (conj (dictF a D 0 m ξ) * z0 i) + 1 * z1 (l, m) with hbe
  set b : L → M → ℂ := fun l m => ∑ i, (((B * Q) i l : ℝ) : ℂ) * (conj (dictF a D 0 m ξ) * z0 i) +
    ∑ l', ((Q l' l : ℝ) : ℂ) * z1 (l', m) with hb
  set xh : L → M → ℂ := fun l m => solvedbdSm (fun n => gdf g (dictF a D) l n ξ) (fun n => (dg n : ℂ)) (b l) none m
    with hxh
  have hsol : ∀ t : L × M, (xstep (fix0 eigh D B) S mu wg rho X Y U Xf).2 k t ξ = ∑ l, ((Q t.1 l : ℝ) : ℂ) * xh l t.2 :=
    fun t => rfl
  have hx : ∀ l m, (g l : ℂ) * conj (dictF a D 0 m ξ) * (∑ n, dictF a D 0 n ξ * xh l n) + (dg m : ℂ) * xh l m =
      ∑ r, ((Q r l : ℝ) : ℂ) * be r m := by
    intro l m
    have h5 := solvedbd_eq (fun n => gdf g (dictF a D) l n ξ) (b l) dg hpos m
    have hs : ((Real.sqrt (g l) : ℝ) : ℂ) * ((Real.sqrt (g l) : ℝ) : ℂ) = (g l : ℂ) := by
      rw [← Complex.ofReal_mul, Real.mul_self_sqrt (h3 l)]
    have h6 : conj (gdf g (dictF a D) l m ξ) * (∑ n, gdf g (dictF a D) l n ξ * xh l n) =
        (g l : ℂ) * conj (dictF a D 0 m ξ) * (∑ n, dictF a D 0 n ξ * xh l n) := by
      unfold gdf
      rw [map_mul, Complex.conj_ofReal, ← hs, Finset.mul_sum, Finset.mul_sum]
      exact Finset.sum_congr rfl fun n _ => by ring
    rw [← h6]
    refine h5.trans ?_
    have h7 := rhs_basis B Q (fun i => conj (dictF a D 0 m ξ) * z0 i) (fun r => z1 (r, m)) 1 l
    rw [← h7, one_mul]
  have hP := basis_change B Q g h2 h4 (fun m => dictF a D 0 m ξ) (fun m => (dg m : ℂ)) be xh hx
  have hF : ∀ t : L × M, (LG.xstep (prodDict B D) S mu (fun j : L × M => wg j.2) rho X Y U ⟨none, Xf⟩).2.Xf k t ξ =
      freqSolveD (fun i n => dictF a (prodDict B D) i n ξ) (fun n : L × M => (dg n.2 : ℂ))
        (fun n => ∑ i, conj (dictF a (prodDict B D) i n ξ) * z0 i + z1 n) none t := fun t => rfl
  have hu := freq_unique (fun i n => dictF a (prodDict B D) i n ξ) (fun t : L × M => dg t.2) (fun t => hpos t.2)
    (fun t => (xstep (fix0 eigh D B) S mu wg rho X Y U Xf).2 k t ξ -
      (LG.xstep (prodDict B D) S mu (fun j : L × M => wg j.2) rho X Y U ⟨none, Xf⟩).2.Xf k t ξ) (fun t => by
      have h7 := hP t.1 t.2
      have h8 := freqSolveD_spec (fun i n => dictF a (prodDict B D) i n ξ) (fun t : L × M => dg t.2)
        (fun t => hpos t.2) (fun n => ∑ i, conj (dictF a (prodDict B D) i n ξ) * z0 i + z1 n) t
      simp only [← hF] at h8
      simp only [← hsol, ← dictF_prod] at h7
      simp only [hbe] at h7
      have h9 : ∑ i, ((B i t.1 : ℝ) : ℂ) * (conj (dictF a D 0 t.2 ξ) * z0 i) =
          ∑ i, conj (dictF a (prodDict B D) i t ξ) * z0 i := by
        refine Finset.sum_congr rfl fun i _ => ?_
        rw [dictF_prod, map_mul, Complex.conj_ofReal]
        ring
      rw [h9, one_mul] at h7
      have h10 := h7.trans h8.symm
      simp only [mul_sub, Finset.sum_sub_distrib]
      linear_combination h10)
  exact sub_eq_zero.1 (congrFun hu j)

theorem xstep_sim {eigh : Eigh L} (he : EighOk eigh) (D : Dict 0 M Nd) (B : Matrix (Fin (c + 1)) L ℝ)
    (S : Signal c K N) (mu : ℝ) (hm : 0 ≤ mu) (wg : M → ℝ) (hg : ∀ m, 0 ≤ wg m) (rho : ℝ) (hr : 0 < rho)
    (X : Coef K (L × M) N) (Y U : YY c K (L × M) N) (Xf : Spec K (L × M) N a) :
    LG.xstep (prodDict B D) S mu (fun j : L × M => wg j.2) rho X Y U ⟨none, Xf⟩ =
      ((xstep (fix0 eigh D B) S mu wg rho X Y U Xf).1, ⟨none, (xstep (fix0 eigh D B) S mu wg rho X Y U Xf).2⟩) := by
  have h := xf_eq he D B S mu hm wg hg rho hr X Y U Xf
  have e1 : (xstep (fix0 eigh D B) S mu wg rho X Y U Xf).1 =
      join fun k m => irfft N a ((xstep (fix0 eigh D B) S mu wg rho X Y U Xf).2 k m) := rfl
  rw [e1, h]
  rfl

/-- **C40.** The X update of `ConvProdDictL1L1Grd` and `ConvProdDictL1L1GrdJoint` gives the unique minimiser of
the augmented Lagrangian in x, for the dictionaries given last. -/
theorem C40_proddictl1_xstep (hN : ∀ n, Nd n ≤ N n) (hN2 : ∀ k, 2 ≤ N k) (eigh : Eigh L) (he : EighOk eigh)
    (D D' : Dict 0 M Nd) (B B' : Matrix (Fin (c + 1)) L ℝ) (S : Signal c K N) (mu : ℝ) (hm : 0 ≤ mu) (wg : M → ℝ)
    (hg : ∀ m, 0 ≤ wg m) (rho : ℝ) (hr : 0 < rho) (X : Coef K (L × M) N) (Y U : YY c K (L × M) N)
    (Xf : Spec K (L × M) N a) :
    let f : Fix c L M Nd N a := fix0 eigh D B
    let A := fun D B => augPL D B S mu wg rho (part Y.fst) (part U.fst) (part Y.snd) (part U.snd)
    IsUniqueMin (A D B) Set.univ (part (xstep f S mu wg rho X Y U Xf).1) ∧
    IsUniqueMin (A D' B) Set.univ (part (xstep (setdict eigh (some D') none f) S mu wg rho X Y U Xf).1) ∧
    IsUniqueMin (A D B') Set.univ (part (xstep (setdict eigh none (some B') f) S mu wg rho X Y U Xf).1) ∧
    IsUniqueMin (A D' B') Set.univ (part (xstep (setdict eigh (some D') (some B') f) S mu wg rho X Y U Xf).1) := by
  intro f A
  have key : ∀ D B, IsUniqueMin (A D B) Set.univ (part (xstep (fix0 eigh D B) S mu wg rho X Y U Xf).1) := by
    intro D B
    have h1 := LG.C40_convl1l1grd_xstep hN hN2 ⟨false, false, false⟩ (prodDict B D) S mu hm (fun j : L × M => wg j.2)
      (fun j => hg j.2) rho hr X Y U (⟨none, Xf⟩ : AttrTB K (L × M) N a) rfl
    rw [xstep_sim he D B S mu hm wg hg rho hr, aug_eq] at h1
    exact h1
  refine ⟨key D B, ?_, ?_, ?_⟩
  · exact key D' B
  · exact key D B'
  · exact key D' B'

/-- **C61.** `cnst_A0T` is the adjoint of `cnst_A0`, and `cnst_A0(X)` is `D X Bᵀ`. -/
theorem C61_proddictl1 (hN : ∀ n, Nd n ≤ N n) (eigh : Eigh L) (D : Dict 0 M Nd) (B : Matrix (Fin (c + 1)) L ℝ)
    (X : Coef K (L × M) N) (Y : Sig (Fin (c + 1)) K N) :
    let f : Fix c L M Nd N a := fix0 eigh D B
    ⟪cnstA0 f X, Y⟫ = ⟪X, cnstA0T f Y⟫ ∧ part (cnstA0 f X) = reconPD D B (part X) := by
  intro f
  constructor
  · change ⟪cnstA0 (fix0 eigh D B : Fix c L M Nd N a) X, Y⟫ = ⟪X, cnstA0T (fix0 eigh D B : Fix c L M Nd N a) Y⟫
    rw [cnstA0_prod, cnstA0T_prod, cnstA0_eq, cnstA0T_eq]
    exact convOp_adj (padD N (prodDict B D)) X Y
  · change part (cnstA0 (fix0 eigh D B : Fix c L M Nd N a) X) = _
    rw [cnstA0_prod, cnstA0_eq, ← recon_prod]
    unfold recon
    simp only [← rconv_pad hN]
    rfl

/-- **C40.** `reconstruct(X)` is `D X Bᵀ`. -/
theorem C40_proddictl1_reconstruct (hN : ∀ n, Nd n ≤ N n) (eigh : Eigh L) (D : Dict 0 M Nd)
    (B : Matrix (Fin (c + 1)) L ℝ) (X : Coef K (L × M) N) :
    reconstruct (fix0 eigh D B : Fix c L M Nd N a) X = reconPD D B (part X) := by
  rw [← C40_proddict_reconstruct (a := a) hN eigh ⟨false, false, false⟩ D B (fun _ _ _ => 0 : Signal c K N) 1
    (fun _ _ _ => 0) X]
  rfl

end Sporco.Conv.PL
