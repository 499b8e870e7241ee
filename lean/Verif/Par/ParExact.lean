import Verif.Par.ParCbpdn
import Verif.Par.ParConv
import Verif.Conv.CbpdnConv

/-!
# `ParConvBPDN`: exact steps and convergence (C53)

The numerical functions of `admm/parcbpdn.py` for a dictionary with one channel (for multi-channel dictionaries
`par_xstep` contracts over the wrong axis, `parcbpdn.py` 153-154).
-/

set_option autoImplicit false
set_option linter.unusedSectionVars false

namespace Sporco.Par.PCbpdn

open Finset Sporco.Conv Sporco.Prox Sporco.Admm Sporco.Par.PConv Filter Topology
open scoped RealInnerProductSpace

variable {d M L : ℕ} {N Nd : Fin d → ℕ} [∀ k, NeZero (N k)] {a : Fin d} {K : Type*} [Fintype K]

/-- The problem: dictionary, signals, mask, weights, parameters (`parcbpdn.py` 508-593). -/
structure Prob (d M : ℕ) (N Nd : Fin d → ℕ) [∀ k, NeZero (N k)] (K : Type*) where
  D : Dict 0 (Fin M) Nd
  S : K → Grid N → ℝ
  W : K → Grid N → ℝ
  lmbda : ℝ
  w : K × Fin M × Grid N → ℝ
  rho : ℝ
  alpha : ℝ
  rlx : ℝ
  q : COpts

/-- `mp_Df[mp_grp[i]:mp_grp[i+1]]` -/
def subD (grp : Fin M → Fin L) (D : Dict 0 (Fin M) Nd) (i : Fin L) : Dict 0 {m // grp m = i} Nd :=
  fun c m => D c m

/-- `par_xstep` (`parcbpdn.py` 145-160), single-channel dictionary.  The linear solve is that of
`GenericConvBPDN.xstep` with `rho` replaced by `alpha**2`, the signal by `Y0 - U0`, and with the cached component
of 699-702. -/
noncomputable def xsolF (a : Fin d) (P : Prob d M N Nd K) (grp : Fin M → Fin L) (i : Fin L) (s : K → Grid N → ℝ)
    (b : {m // grp m = i} → K → Grid N → ℝ) : ({m // grp m = i} → K → Grid N → ℝ) × (K → Grid N → ℝ) :=
  let r := Conv.xstep (a := a) (P.alpha ^ 2) 0 (join fun k m => b m k) 0
    (setdict P.q (fun _ => s) (P.alpha ^ 2) (subD grp P.D i) 0)
  (fun m k => part r.1 k m, fun k => irfft N a fun ξ => ∑ m, dictF a (subD grp P.D i) 0 m ξ * r.2.Xf k m ξ)

/-- `par_y1step` (`parcbpdn.py` 222-232) -/
noncomputable def proxF (P : Prob d M N Nd K) (grp : Fin M → Fin L) (i : Fin L)
    (v : {m // grp m = i} → K → Grid N → ℝ) : {m // grp m = i} → K → Grid N → ℝ :=
  fun m k p => gystep P.q Nd (proxL1Arr (fun j : K × {m // grp m = i} × Grid N => v j.2.1 j.1 j.2.2)
    fun j => P.lmbda / (P.alpha ^ 2 * P.rho) * P.w (j.1, j.2.1, j.2.2)) (k, m, p)

/-- `mp_inv_off_diag` (`parcbpdn.py` 686-693) -/
noncomputable def invOffDiag (P : Prob d M N Nd K) (L : ℕ) (k : K) (p : Grid N) : ℝ :=
  -(P.W k p) ^ 2 / (P.rho * (P.rho + (P.W k p) ^ 2 * L))

/-- `mp_S` (`parcbpdn.py` 636-637) -/
def mpS (P : Prob d M N Nd K) : K → Grid N → ℝ := fun k p => P.S k p * (P.W k p) ^ 2

/-- The functions of `parcbpdn.py` for this problem (residuals: 337-347, first two entries only). -/
noncomputable def opsF (a : Fin d) (P : Prob d M N Nd K) (grp : Fin M → Fin L) :
    Ops grp (K → Grid N → ℝ) (K → Grid N → ℝ) (ℝ × ℝ) where
  xsol := xsolF a P grp
  prox := proxF P grp
  y0a v := fun k p => invOffDiag P L k p * ∑ i, (mpS P + P.rho • v i) k p
  y0b v b := (1 / P.rho) • mpS P + v + b
  rlx := P.rlx
  alpha := P.alpha
  res _ dx y0 _ _ x y1 _ _ := (∑ k, ∑ p, (dx k p - y0 k p) ^ 2,
    P.alpha ^ 2 * ∑ m, ∑ k, ∑ p, (x m k p - y1 m k p) ^ 2)

/-! ## Specification -/

/-- The functional of the class (`parcbpdn.py` 366-369). -/
noncomputable def objMask (P : Prob d M N Nd K) (X : K → Fin M → Grid N → ℝ) : ℝ :=
  1 / 2 * ∑ k, ∑ p, (P.W k p * (recon P.D X 0 k p - P.S k p)) ^ 2 +
    P.lmbda * ∑ k, ∑ m, ∑ p, P.w (k, m, p) * |X k m p|

/-! ## Arrays as vectors -/

/-- Coefficient array as a vector. -/
def toE (y : Fin M → K → Grid N → ℝ) : Coef K (Fin M) N := join fun k m => y m k

/-- Signal array as a vector. -/
def toH (s : K → Grid N → ℝ) : Sig (Fin 1) K N := join fun _ => s

/-- The maps of the filters of one group. -/
noncomputable def restr (grp : Fin M → Fin L) (i : Fin L) :
    Coef K (Fin M) N →L[ℝ] Coef K {m // grp m = i} N :=
  LinearMap.toContinuousLinearMap
    { toFun := fun x => join fun k m => part x k m
      map_add' := fun _ _ => rfl
      map_smul' := fun _ _ => rfl }

theorem part_restr (grp : Fin M → Fin L) (i : Fin L) (x : Coef K (Fin M) N) (k : K) (m : {m // grp m = i}) :
    part (restr grp i x) k m = part x k m := rfl

theorem sum_groups (grp : Fin M → Fin L) (f : Fin M → ℝ) :
    ∑ i, ∑ m : {m // grp m = i}, f m = ∑ m, f m := Fintype.sum_fiberwise grp f

theorem inner_restr (grp : Fin M → Fin L) (x y : Coef K (Fin M) N) :
    ∑ i, ⟪restr grp i x, restr grp i y⟫ = ⟪x, y⟫ := by
  simp only [inner_part, part_restr]
  rw [sum_comm]
  refine sum_congr rfl fun k _ => ?_
  exact sum_groups grp fun m => ∑ p, part x k m p * part y k m p

/-- The operator of one group. -/
noncomputable def Dg (P : Prob d M N Nd K) (grp : Fin M → Fin L) (i : Fin L) :
    Coef K (Fin M) N →L[ℝ] Sig (Fin 1) K N :=
  (convOp (padD N (subD grp P.D i))).comp (restr grp i)

theorem Dsum_eq (P : Prob d M N Nd K) (grp : Fin M → Fin L) :
    Dsum (Dg P grp) = convOp (K := K) (padD N P.D) := by
  ext x ⟨c, k, p⟩
  rw [Dsum_apply]
  have e : (∑ i, Dg P grp i x) (c, k, p) = ∑ i, (Dg P grp i x) (c, k, p) := by
    simp
  rw [e]
  exact sum_groups grp fun m => rconv (padD N P.D c m) (part x k m) p

/-- Multiplication by the mask. -/
noncomputable def Wop (P : Prob d M N Nd K) : Sig (Fin 1) K N →L[ℝ] Sig (Fin 1) K N :=
  LinearMap.toContinuousLinearMap
    { toFun := fun x => join fun c k p => P.W k p * part x c k p
      map_add' := fun x y => by
        ext ⟨c, k, p⟩
        change _ * (part x c k p + part y c k p) = _ * _ + _ * _
        ring
      map_smul' := fun r x => by
        ext ⟨c, k, p⟩
        change _ * (r * part x c k p) = r * (_ * _)
        ring }

theorem part_Wop (P : Prob d M N Nd K) (x : Sig (Fin 1) K N) (c : Fin 1) (k : K) (p : Grid N) :
    part (Wop P x) c k p = P.W k p * part x c k p := rfl

theorem Wop_sym (P : Prob d M N Nd K) (x y : Sig (Fin 1) K N) : ⟪Wop P x, y⟫ = ⟪x, Wop P y⟫ := by
  simp only [inner_part, part_Wop]
  refine sum_congr rfl fun c _ => sum_congr rfl fun k _ => sum_congr rfl fun p _ => ?_
  ring

/-! ## X update -/

/-- What the group solve computes. -/
theorem xsolF_spec (hN : ∀ n, Nd n ≤ N n) (P : Prob d M N Nd K) (ha : 0 < P.alpha) (grp : Fin M → Fin L) (i : Fin L)
    (s : K → Grid N → ℝ) (b : {m // grp m = i} → K → Grid N → ℝ) :
    (join fun k m => (xsolF a P grp i s b).1 m k) =
      xOf a (subD grp P.D i) (fun _ => s) (P.alpha ^ 2) (P.alpha ^ 2) (join fun k m => b m k) 0 ∧
    toH (xsolF a P grp i s b).2 = convOp (padD N (subD grp P.D i))
      (join fun k m => (xsolF a P grp i s b).1 m k) := by
  have hc : Coh P.q (subD grp P.D i) (fun _ => s) (P.alpha ^ 2)
    (setdict (a := a) P.q (fun _ => s) (P.alpha ^ 2) (subD grp P.D i) 0) := ⟨0, rfl⟩
  have h1 : (join fun k m => (xsolF a P grp i s b).1 m k) =
      xOf a (subD grp P.D i) (fun _ => s) (P.alpha ^ 2) (P.alpha ^ 2) (join fun k m => b m k) 0 := by
    have := xstep_coh hc 0 (join fun k m => b m k) 0
    rw [← this]
    rfl
  refine ⟨h1, ?_⟩
  set x := (join fun k m => (xsolF a P grp i s b).1 m k) with hx
  have h2 : (xsolF a P grp i s b).2 = recon (subD grp P.D i) (part x) 0 := by
    have h3 := C40_reconstruct (a := a) hN P.q (subD grp P.D i) (fun _ => s) (P.alpha ^ 2) 0 x
    rw [← h3]
    funext k
    unfold reconstruct
    change irfft N a _ = irfft N a _
    congr 1
    funext ξ
    refine sum_congr rfl fun m _ => ?_
    have := xstep_Xf (by positivity) hc 0 (join fun k m => b m k) 0 k m
    rw [this]
    rfl
  rw [h2]
  ext ⟨c, k, p⟩
  obtain rfl := Subsingleton.elim 0 c
  change recon (subD grp P.D i) (part x) 0 k p = part (convOp (padD N (subD grp P.D i)) x) 0 k p
  rw [part_convOp]
  unfold recon
  simp only [← rconv_pad hN]
  rfl

/-- The X update of all groups satisfies the optimality condition. -/
theorem xAll_opt (hN : ∀ n, Nd n ≤ N n) (P : Prob d M N Nd K) (ha : 0 < P.alpha) (grp : Fin M → Fin L)
    (c : Core M L (K → Grid N → ℝ) (K → Grid N → ℝ)) :
    (∀ l, toH ((xAll (opsF a P grp) c).2 l) = Dg P grp l (toE (xAll (opsF a P grp) c).1)) ∧
    ∀ z, ∑ l, ⟪Dg P grp l (toE (xAll (opsF a P grp) c).1) - (toH (c.Y0 l) - toH (c.U0 l)), Dg P grp l z⟫ +
      P.alpha ^ 2 * ⟪toE (xAll (opsF a P grp) c).1 - (toE c.Y1 - P.alpha⁻¹ • toE c.U1), z⟫ = 0 := by
  set x := (xAll (opsF a P grp) c).1 with hx
  have hr : ∀ l, restr grp l (toE x) = join fun k m => (xsolF a P grp l (c.Y0 l - c.U0 l)
      (sl grp l c.Y1 - P.alpha⁻¹ • sl grp l c.U1)).1 m k := by
    intro l
    have e := sl_xAll (opsF a P grp) c l
    ext ⟨k, m, p⟩
    exact congrFun (congrFun (congrFun e m) k) p
  constructor
  · intro l
    have := (xsolF_spec (a := a) hN P ha grp l (c.Y0 l - c.U0 l) (sl grp l c.Y1 - P.alpha⁻¹ • sl grp l c.U1)).2
    rw [← hr] at this
    exact this
  · intro z
    rw [← inner_restr grp, mul_sum, ← sum_add_distrib]
    refine sum_eq_zero fun l _ => ?_
    have hn := xOf_normal (a := a) (subD grp P.D l) (fun _ => c.Y0 l - c.U0 l) (P.alpha ^ 2) (P.alpha ^ 2)
      (by positivity) (join fun k m => (sl grp l c.Y1 - P.alpha⁻¹ • sl grp l c.U1) m k) 0
    rw [← (xsolF_spec (a := a) hN P ha grp l _ _).1, ← hr l, sub_zero] at hn
    have e1 : (join fun k m => (sl grp l c.Y1 - P.alpha⁻¹ • sl grp l c.U1) m k : Coef K {m // grp m = l} N) =
        restr grp l (toE c.Y1 - P.alpha⁻¹ • toE c.U1) := rfl
    have e2 : (join fun _ => c.Y0 l - c.U0 l : Sig (Fin 1) K N) = toH (c.Y0 l) - toH (c.U0 l) := rfl
    rw [e1, e2] at hn
    have hn' : convOpT (padD N (subD grp P.D l)) (convOp (padD N (subD grp P.D l)) (restr grp l (toE x)) -
        (toH (c.Y0 l) - toH (c.U0 l))) +
        P.alpha ^ 2 • restr grp l (toE x - (toE c.Y1 - P.alpha⁻¹ • toE c.U1)) = 0 := by
      rw [map_sub (convOpT _), map_sub (restr grp l), smul_sub]
      rw [← sub_eq_zero] at hn
      rw [← hn]
      abel
    change ⟪convOp (padD N (subD grp P.D l)) (restr grp l (toE x)) - _,
      convOp (padD N (subD grp P.D l)) (restr grp l z)⟫ + _ = 0
    rw [real_inner_comm, convOp_adj, real_inner_comm, ← real_inner_smul_left, ← inner_add_left, hn',
      inner_zero_left]

/-! ## Y updates -/

/-- The Y0 update: adding to every `v l` the same `t` with `W²(∑ (v l + t) - s) + rho t = 0`. -/
theorem y0_min {H : Type*} [NormedAddCommGroup H] [InnerProductSpace ℝ H] (W : H →L[ℝ] H)
    (hW : ∀ x y, ⟪W x, y⟫ = ⟪x, W y⟫) (s : H) (rho : ℝ) (v : Fin L → H) (t : H)
    (ht : W (W (∑ l, (v l + t)) - W s) + rho • t = 0) (z : Fin L → H) :
    1 / 2 * ‖W (∑ l, z l) - W s‖ ^ 2 + rho / 2 * ∑ l, ‖v l - z l‖ ^ 2 =
      1 / 2 * ‖W (∑ l, (v l + t)) - W s‖ ^ 2 + rho / 2 * ∑ l, ‖v l - (v l + t)‖ ^ 2 +
      (1 / 2 * ‖W (∑ l, z l - ∑ l, (v l + t))‖ ^ 2 + rho / 2 * ∑ l, ‖z l - (v l + t)‖ ^ 2) := by
  have hq := quad1 W (W s) (∑ l, (v l + t)) (∑ l, z l)
  have h2 : ∀ l, ‖v l - z l‖ ^ 2 = ‖v l - (v l + t)‖ ^ 2 + 2 * ⟪t, z l - (v l + t)⟫ +
      ‖z l - (v l + t)‖ ^ 2 := by
    intro l
    have e : v l - z l = -t - (z l - (v l + t)) := by abel
    have e' : v l - (v l + t) = -t := by abel
    rw [e, e', norm_sub_sq_real, inner_neg_left]
    ring
  simp only [h2]
  rw [sum_add_distrib, sum_add_distrib, ← mul_sum]
  have h3 : ⟪W (∑ l, (v l + t)) - W s, W (∑ l, z l - ∑ l, (v l + t))⟫ +
      rho * ∑ l, ⟪t, z l - (v l + t)⟫ = 0 := by
    rw [← hW, ← inner_sum, sum_sub_distrib, ← real_inner_smul_left, ← inner_add_left, ht, inner_zero_left]
  linear_combination hq + h3

theorem norm_toH (s : K → Grid N → ℝ) : ‖toH s‖ ^ 2 = ∑ k, ∑ p, s k p ^ 2 := by
  rw [norm_part, Fin.sum_univ_one]
  rfl

theorem mask_norm (P : Prob d M N Nd K) (y : Fin L → K → Grid N → ℝ) :
    ∑ k, ∑ p, (P.W k p * (∑ l, y l k p - P.S k p)) ^ 2 = ‖Wop P (∑ l, toH (y l)) - Wop P (toH P.S)‖ ^ 2 := by
  have e : Wop P (∑ l, toH (y l)) - Wop P (toH P.S) = toH fun k p => P.W k p * (∑ l, y l k p - P.S k p) := by
    rw [← map_sub]
    ext ⟨c, k, p⟩
    change P.W k p * ((∑ l, toH (y l)) (c, k, p) - P.S k p) = _ * (_ - _)
    congr 2
    simp [toH, Conv.join]
  rw [e, norm_toH]

/-- `t` such that the Y0 update is `v + t`. -/
noncomputable def tOf (P : Prob d M N Nd K) (grp : Fin M → Fin L) (a : Fin d) (v : Fin L → K → Grid N → ℝ) :
    K → Grid N → ℝ := (1 / P.rho) • mpS P + (opsF a P grp).y0a v

theorem y0b_eq (P : Prob d M N Nd K) (grp : Fin M → Fin L) (v : Fin L → K → Grid N → ℝ) (l : Fin L) :
    (opsF a P grp).y0b (v l) ((opsF a P grp).y0a v) = v l + tOf P grp a v := by
  change (1 / P.rho) • mpS P + v l + (opsF a P grp).y0a v = v l + ((1 / P.rho) • mpS P + (opsF a P grp).y0a v)
  abel

theorem tOf_spec (P : Prob d M N Nd K) (hr : 0 < P.rho) (grp : Fin M → Fin L) (v : Fin L → K → Grid N → ℝ) :
    Wop P (Wop P (∑ l, (toH (v l) + toH (tOf P grp a v))) - Wop P (toH P.S)) + P.rho • toH (tOf P grp a v) = 0 := by
  ext ⟨c, k, p⟩
  have e : (∑ l, (toH (v l) + toH (tOf P grp a v))) (c, k, p) = ∑ l, v l k p + L * tOf P grp a v k p := by
    simp [toH, Conv.join, sum_add_distrib]
  change P.W k p * (P.W k p * (∑ l, (toH (v l) + toH (tOf P grp a v))) (c, k, p) - P.W k p * P.S k p) +
    P.rho * tOf P grp a v k p = 0
  rw [e]
  have ht : tOf P grp a v k p = 1 / P.rho * (P.S k p * P.W k p ^ 2) +
      -(P.W k p) ^ 2 / (P.rho * (P.rho + (P.W k p) ^ 2 * L)) *
        (L * (P.S k p * P.W k p ^ 2) + P.rho * ∑ l, v l k p) := by
    change 1 / P.rho * (P.S k p * P.W k p ^ 2) + invOffDiag P L k p * ∑ i, (mpS P + P.rho • v i) k p = _
    have : ∑ i, (mpS P + P.rho • v i) k p = L * (P.S k p * P.W k p ^ 2) + P.rho * ∑ l, v l k p := by
      simp [mpS, sum_add_distrib, mul_sum]
    rw [this]
    rfl
  have hpos : 0 < P.rho + (P.W k p) ^ 2 * L := by positivity
  rw [ht]
  field_simp
  ring

/-- **C53, Y0 update.** The Y0 update is the unique minimiser of
`(1/2)‖W (∑ y_l - s)‖² + (rho/2) ∑ ‖v_l - y_l‖²`, where `v = DX + U0`. -/
theorem C53_y0step (P : Prob d M N Nd K) (hr : 0 < P.rho) (grp : Fin M → Fin L) (v : Fin L → K → Grid N → ℝ) :
    IsUniqueMin (fun y : Fin L → K → Grid N → ℝ => 1 / 2 * ∑ k, ∑ p, (P.W k p * (∑ l, y l k p - P.S k p)) ^ 2 +
        P.rho / 2 * ∑ l, ∑ k, ∑ p, (v l k p - y l k p) ^ 2) Set.univ
      fun l => (opsF a P grp).y0b (v l) ((opsF a P grp).y0a v) := by
  refine ⟨trivial, fun z _ hz => ?_⟩
  have hobj : ∀ y : Fin L → K → Grid N → ℝ, 1 / 2 * ∑ k, ∑ p, (P.W k p * (∑ l, y l k p - P.S k p)) ^ 2 +
        P.rho / 2 * ∑ l, ∑ k, ∑ p, (v l k p - y l k p) ^ 2 =
      1 / 2 * ‖Wop P (∑ l, toH (y l)) - Wop P (toH P.S)‖ ^ 2 + P.rho / 2 * ∑ l, ‖toH (v l) - toH (y l)‖ ^ 2 := by
    intro y
    rw [mask_norm]
    congr 2
    refine sum_congr rfl fun l _ => ?_
    exact (norm_toH (v l - y l)).symm
  simp only [hobj]
  simp only [y0b_eq]
  have h := y0_min (Wop P) (Wop_sym P) (toH P.S) P.rho (fun l => toH (v l)) (toH (tOf P grp a v))
    (tOf_spec P hr grp v) fun l => toH (z l)
  rw [h]
  change _ < _ + (1 / 2 * ‖Wop P (∑ l, toH (z l) - ∑ l, (toH (v l) + toH (tOf P grp a v)))‖ ^ 2 +
    P.rho / 2 * ∑ l, ‖toH (z l) - (toH (v l) + toH (tOf P grp a v))‖ ^ 2)
  obtain ⟨l, hl⟩ := Function.ne_iff.1 hz
  have hpos : 0 < ∑ l, ‖toH (z l) - (toH (v l) + toH (tOf P grp a v))‖ ^ 2 := by
    refine sum_pos' (fun _ _ => sq_nonneg _) ⟨l, mem_univ _, ?_⟩
    apply pow_pos
    rw [norm_pos_iff]
    intro h0
    apply hl
    rw [y0b_eq]
    funext k p
    have := congrArg (fun x : Sig (Fin 1) K N => x (0, k, p)) h0
    have h1 : z l k p - (v l k p + tOf P grp a v k p) = 0 := this
    have h2 : (v l + tOf P grp a v) k p = v l k p + tOf P grp a v k p := rfl
    rw [h2]
    linarith
  have h2 := sq_nonneg ‖Wop P (∑ l, toH (z l) - ∑ l, (toH (v l) + toH (tOf P grp a v)))‖
  have h3 := mul_pos (half_pos hr) hpos
  change _ < 1 / 2 * ‖Wop P (∑ l, (toH (v l) + toH (tOf P grp a v))) - Wop P (toH P.S)‖ ^ 2 +
    P.rho / 2 * ∑ l, ‖toH (v l) - (toH (v l) + toH (tOf P grp a v))‖ ^ 2 + _
  have e : ∀ l, toH (v l + tOf P grp a v) = toH (v l) + toH (tOf P grp a v) := fun l => rfl
  simp only [e]
  linarith

/-- The Y1 update of all groups is that of `ConvBPDN` with penalty parameter `alpha² rho`. -/
theorem y1_eq (P : Prob d M N Nd K) (grp : Fin M → Fin L) (x u : Fin M → K → Grid N → ℝ)
    (h : Attr 0 K (Fin M) Nd N a) :
    toE (fun n => (opsF a P grp).prox (grp n) (sl grp (grp n) x + P.alpha⁻¹ • sl grp (grp n) u) ⟨n, rfl⟩) =
      (ystep P.q P.lmbda P.w (P.alpha ^ 2 * P.rho) (toE x) 0 0 (P.alpha⁻¹ • toE u) h).1 := by
  ext ⟨k, n, p⟩
  change gystep P.q Nd _ (k, (⟨n, rfl⟩ : {m // grp m = grp n}), p) = gystep P.q Nd _ (k, n, p)
  unfold gystep
  simp only
  by_cases hb : P.q.noBndry = true
  · rw [if_pos hb, if_pos hb, zeroTail_apply, zeroTail_apply]
    by_cases hn : P.q.nonNeg = true
    · rw [if_pos hn, if_pos hn]
      rfl
    · rw [if_neg hn, if_neg hn]
      rfl
  · rw [if_neg hb, if_neg hb]
    by_cases hn : P.q.nonNeg = true
    · rw [if_pos hn, if_pos hn]
      rfl
    · rw [if_neg hn, if_neg hn]
      rfl

/-! ## The whole iteration -/

theorem steps (hN : ∀ n, Nd n ≤ N n) (P : Prob d M N Nd K) (h2 : P.q.noBndry = true → ∀ n, 2 ≤ Nd n)
    (ha : 0 < P.alpha) (hr : 0 < P.rho) (hl : 0 ≤ P.lmbda) (hw : ∀ i, 0 ≤ P.w i) (grp : Fin M → Fin L)
    (c : Core M L (K → Grid N → ℝ) (K → Grid N → ℝ)) :
    Steps (Dg P grp) (Wop P) (toH P.S) (fun y : Coef K (Fin M) N => P.lmbda * l1w P.w y.ofLp) (cset P.q Nd)
      P.rlx P.alpha P.rho
      (fun n => toE (xAll (opsF a P grp) ((admmStep (opsF a P grp))^[n] c)).1)
      (fun n l => toH (((admmStep (opsF a P grp))^[n] c).Y0 l))
      (fun n => toE ((admmStep (opsF a P grp))^[n] c).Y1)
      (fun n l => toH (((admmStep (opsF a P grp))^[n] c).U0 l))
      (fun n => toE ((admmStep (opsF a P grp))^[n] c).U1) := by
  have hs : ∀ n, (admmStep (opsF a P grp))^[n + 1] c = admmStep (opsF a P grp) ((admmStep (opsF a P grp))^[n] c) :=
    fun n => Function.iterate_succ_apply' _ _ _
  have hx := fun n => xAll_opt (a := a) hN P ha grp ((admmStep (opsF a P grp))^[n] c)
  have hv : ∀ n l, P.rlx • Dg P grp l (toE (xAll (opsF a P grp) ((admmStep (opsF a P grp))^[n] c)).1) +
      (1 - P.rlx) • toH (((admmStep (opsF a P grp))^[n] c).Y0 l) =
      toH ((xRel (opsF a P grp) ((admmStep (opsF a P grp))^[n] c)).2 l) := by
    intro n l
    rw [← (hx n).1 l]
    rfl
  have hy0 : ∀ n l, ((admmStep (opsF a P grp))^[n + 1] c).Y0 l =
      ((xRel (opsF a P grp) ((admmStep (opsF a P grp))^[n] c)).2 + ((admmStep (opsF a P grp))^[n] c).U0) l +
        tOf P grp a ((xRel (opsF a P grp) ((admmStep (opsF a P grp))^[n] c)).2 +
          ((admmStep (opsF a P grp))^[n] c).U0) := by
    intro n l
    rw [hs, ← y0b_eq]
    rfl
  have hy1 : ∀ n, toE ((admmStep (opsF a P grp))^[n + 1] c).Y1 = (ystep P.q P.lmbda P.w (P.alpha ^ 2 * P.rho)
      (toE (xRel (opsF a P grp) ((admmStep (opsF a P grp))^[n] c)).1) 0 0
      (P.alpha⁻¹ • toE ((admmStep (opsF a P grp))^[n] c).U1)
      (setdict (a := a) P.q 0 0 P.D 0)).1 := by
    intro n
    rw [hs, ← y1_eq]
    rfl
  have hmin := fun n => ystep_conv_min P.q h2 hN P.lmbda hl P.w hw (P.alpha ^ 2 * P.rho) (by positivity)
      (toE (xRel (opsF a P grp) ((admmStep (opsF a P grp))^[n] c)).1) 0 0
      (P.alpha⁻¹ • toE ((admmStep (opsF a P grp))^[n] c).U1)
      (setdict (a := a) P.q 0 0 P.D 0)
  simp only [← hy1] at hmin
  refine ⟨fun n => (hx n).2, fun n z => ?_, fun n => (hmin n).1, fun n z hz => ?_, fun n l => ?_, fun n => ?_⟩
  · simp only [hv, hy0]
    have h := y0_min (Wop P) (Wop_sym P) (toH P.S) P.rho
      (fun l => toH (((xRel (opsF a P grp) ((admmStep (opsF a P grp))^[n] c)).2 +
        ((admmStep (opsF a P grp))^[n] c).U0) l)) _ (tOf_spec (a := a) P hr grp _) z
    have h1 := mul_nonneg (half_pos hr).le (sum_nonneg (s := univ) fun l _ => sq_nonneg
      ‖z l - (toH (((xRel (opsF a P grp) ((admmStep (opsF a P grp))^[n] c)).2 +
        ((admmStep (opsF a P grp))^[n] c).U0) l) + toH (tOf P grp a ((xRel (opsF a P grp)
          ((admmStep (opsF a P grp))^[n] c)).2 + ((admmStep (opsF a P grp))^[n] c).U0)))‖)
    have h2 := sq_nonneg ‖Wop P (∑ l, z l - ∑ l, (toH (((xRel (opsF a P grp) ((admmStep (opsF a P grp))^[n] c)).2 +
        ((admmStep (opsF a P grp))^[n] c).U0) l) + toH (tOf P grp a ((xRel (opsF a P grp)
          ((admmStep (opsF a P grp))^[n] c)).2 + ((admmStep (opsF a P grp))^[n] c).U0))))‖
    refine le_trans (le_of_eq ?_) (le_trans (le_add_of_nonneg_right (add_nonneg (by positivity) h1)) h.ge)
    rfl
  · have h := (hmin n).2 z hz
    have e : ∀ y : Coef K (Fin M) N, P.rlx • toE (xAll (opsF a P grp) ((admmStep (opsF a P grp))^[n] c)).1 +
        (1 - P.rlx) • toE ((admmStep (opsF a P grp))^[n] c).Y1 +
        P.alpha⁻¹ • toE ((admmStep (opsF a P grp))^[n] c).U1 - y =
        toE (xRel (opsF a P grp) ((admmStep (opsF a P grp))^[n] c)).1 - y +
          P.alpha⁻¹ • toE ((admmStep (opsF a P grp))^[n] c).U1 := by
      intro y
      rw [add_sub_right_comm]
      rfl
    rw [e, e]
    exact h
  · rw [hv]
    simp only [hs]
    rfl
  · simp only [hs]
    rfl

/-! ## Convergence -/

theorem lsObj_mask (hN : ∀ n, Nd n ≤ N n) (P : Prob d M N Nd K) (grp : Fin M → Fin L) (y : Coef K (Fin M) N) :
    lsObj ((Wop P).comp (Dsum (Dg P grp))) (Wop P (toH P.S)) (fun y : Coef K (Fin M) N => P.lmbda * l1w P.w y.ofLp)
      y = objMask P (part y) := by
  unfold lsObj objMask
  beta_reduce
  rw [l1w_part, Dsum_eq, ContinuousLinearMap.comp_apply, ← map_sub, norm_part, Fin.sum_univ_one]
  congr 2
  refine sum_congr rfl fun k _ => sum_congr rfl fun p _ => ?_
  rw [part_Wop]
  have e : part (convOp (padD N P.D) y - toH P.S) 0 k p = part (convOp (padD N P.D) y) 0 k p - P.S k p := rfl
  rw [e, part_convOp]
  unfold recon
  simp only [← rconv_pad hN]
  rfl

/-- The coefficient array `solve()` returns with `MaxMainIter = n` (`parcbpdn.py` 825, 831; `ReturnX` off):
`mp_Y1`, the first axis moved. -/
noncomputable def returned {V : Type*} (P : Prob d M N Nd K) (grp : Fin M → Fin L) (a : Fin d)
    (sched : ℕ → Phase → List (Fin L × (Mem M L (K → Grid N → ℝ) (K → Grid N → ℝ) (ℝ × ℝ) →
      Mem M L (K → Grid N → ℝ) (K → Grid N → ℝ) (ℝ × ℝ)))) (comp : Bool)
    (ev : ℕ → Mem M L (K → Grid N → ℝ) (K → Grid N → ℝ) (ℝ × ℝ) → List V) (n : ℕ)
    (s : ℕ × Mem M L (K → Grid N → ℝ) (K → Grid N → ℝ) (ℝ × ℝ) × List V) : K → Fin M → Grid N → ℝ :=
  let r := solve (opsF a P grp) (fun j p => execL (sched j p)) comp (fun _ _ => false) ev n s
  fun k m => r.2.1.Y1 m k

/-- **C53, convergence.** Any dictionary with one channel, signals, mask (zeros allowed), positive `lmbda` and
weights, positive penalty parameters, relaxation parameter in (0, 2), with or without `NonNegCoef` and
`NoBndryCross`, any division into groups, any schedule in every call: the problem has a minimiser, and the
objective at the array returned by `solve()` tends to the minimum as `MaxMainIter` grows; the array satisfies the
constraints.  The object may have been used before (up to 256 iterations). -/
theorem C53_convergence {V : Type*} (hN : ∀ n, Nd n ≤ N n) (P : Prob d M N Nd K)
    (h2 : P.q.noBndry = true → ∀ n, 2 ≤ Nd n) (ha : 0 < P.alpha) (hr : 0 < P.rho) (hl : 0 < P.lmbda)
    (hw : ∀ i, 0 < P.w i) (hrlx : 0 < P.rlx ∧ P.rlx < 2) (grp : Fin M → Fin L)
    (sched : ℕ → ℕ → Phase → List (Fin L × (Mem M L (K → Grid N → ℝ) (K → Grid N → ℝ) (ℝ × ℝ) →
      Mem M L (K → Grid N → ℝ) (K → Grid N → ℝ) (ℝ × ℝ))))
    (hsched : ∀ n j p, Interleaving (prog (opsF a P grp) p) (sched n j p)) (comp : Bool)
    (ev : ℕ → Mem M L (K → Grid N → ℝ) (K → Grid N → ℝ) (ℝ × ℝ) → List V)
    (s : ℕ × Mem M L (K → Grid N → ℝ) (K → Grid N → ℝ) (ℝ × ℝ) × List V) (hs : s.1 ≤ 256) :
    ∃ Xopt, IsMin (objMask P) (allowedConv P.q.nonNeg P.q.noBndry Nd) Xopt ∧
      Tendsto (fun n => objMask P (returned P grp a (sched n) comp ev n s)) atTop (𝓝 (objMask P Xopt)) ∧
      ∀ n, 0 < n → returned P grp a (sched n) comp ev n s ∈ allowedConv P.q.nonNeg P.q.noBndry Nd := by
  have hret : ∀ n, 0 < n → returned P grp a (sched n) comp ev n s =
      part (toE ((admmStep (opsF a P grp))^[n] s.2.1.core).Y1) := by
    intro n hn
    unfold returned
    rw [C53_solve _ (sched n) (hsched n)]
    obtain ⟨t, -, -, t3, -, t5, -⟩ := loop_core (opsF a P grp) s.1 comp (fun _ _ => false) ev n s.1 hn s
      (Or.inl (by simp [same]; exact hs))
    have t3 := t3 fun _ _ => rfl
    subst t3
    rw [← t5]
    rfl
  have hst := steps (a := a) hN P h2 ha hr hl.le (fun i => (hw i).le) grp s.2.1.core
  have hcg := Bpdn.convex_l1w P.w (fun i => (hw i).le) _ (convex_cset (K := K) (M := Fin M) (N := N) P.q Nd)
    P.lmbda hl.le
  obtain ⟨r, hr0, hgrow⟩ := Bpdn.l1w_grow P.w hw P.lmbda hl
  obtain ⟨x, hx, hmin⟩ := ls_exists_min ((Wop P).comp (Dsum (Dg P grp))) (Wop P (toH P.S))
    (fun y : Coef K (Fin M) N => P.lmbda * l1w P.w y.ofLp) (cset P.q Nd) (closed_cset P.q Nd)
    ⟨0, zero_cset P.q Nd⟩ (continuous_const.mul (Bpdn.continuous_l1w P.w)) r hr0 hgrow
  have hconv := (hst.tendsto hcg
    (fun y _ => mul_nonneg hl.le (Finset.sum_nonneg fun i _ => mul_nonneg (hw i).le (norm_nonneg _)))
    ha hr hrlx (convOpT (padD N P.D)) (fun x y => by rw [Dsum_eq]; exact convOp_adj (padD N P.D) x y)
    (Wop_sym P) x hx hmin).2.2
  refine ⟨part x, ⟨hx, fun Z hZ => ?_⟩, ?_, fun n hn => ?_⟩
  · have := hmin (join Z) hZ
    rw [lsObj_mask hN, lsObj_mask hN] at this
    exact this
  · simp only [lsObj_mask hN] at hconv
    refine hconv.congr' ?_
    filter_upwards [eventually_gt_atTop 0] with n hn
    rw [hret n hn]
  · rw [hret n hn]
    obtain ⟨n, rfl⟩ := Nat.exists_eq_succ_of_ne_zero hn.ne'
    exact hst.y1mem n

/-- The groups the class forms are of the kind considered: `mp_grp[i]:mp_grp[i+1]` are the filters of
group `i`. -/
theorem C53_slices (M L : ℕ) (hL : 0 < L) (hM : L ≤ M) :
    ∃ (g : Fin (L + 1) → ℕ) (grp : Fin M → Fin L), mpGrp M L = some (List.ofFn g) ∧
      ∀ (m : Fin M) (i : Fin L), grp m = i ↔ g i.castSucc ≤ m ∧ (m : ℕ) < g i.succ := by
  obtain ⟨g, h1, h2, -, -⟩ := C53_groups M L hL hM
  refine ⟨g, fun m => (h2 m m.2).choose, h1, fun m i => ⟨?_, fun h => ?_⟩⟩
  · rintro rfl
    exact (h2 m m.2).choose_spec.1
  · exact ((h2 m m.2).choose_spec.2 i h).symm

/-- **C53, X update.** For each group the X update is the minimiser of
`(1/2)‖∑ d_m * x_m - (y0 - u0)‖² + (alpha²/2) ∑‖x_m - (y1_m - u1_m/alpha)‖²`. -/
theorem C53_xstep (hN : ∀ n, Nd n ≤ N n) (P : Prob d M N Nd K) (ha : 0 < P.alpha) (grp : Fin M → Fin L)
    (i : Fin L) (s : K → Grid N → ℝ) (b : {m // grp m = i} → K → Grid N → ℝ) :
    IsUniqueMin (fun x : {m // grp m = i} → K → Grid N → ℝ =>
        1 / 2 * ∑ k, ∑ p, (recon (subD grp P.D i) (fun k m => x m k) 0 k p - s k p) ^ 2 +
        P.alpha ^ 2 / 2 * ∑ k, ∑ m, ∑ p, (x m k p - b m k p) ^ 2) Set.univ (xsolF a P grp i s b).1 ∧
    (xsolF a P grp i s b).2 = recon (subD grp P.D i) (fun k m => (xsolF a P grp i s b).1 m k) 0 := by
  obtain ⟨h1, h2⟩ := xsolF_spec (a := a) hN P ha grp i s b
  refine ⟨⟨trivial, fun z _ hz => ?_⟩, ?_⟩
  · have h := (C40_convbpdn_xstep (a := a) hN P.q (subD grp P.D i) (fun _ => s) (P.alpha ^ 2) (by positivity) 0
      (join fun k m => b m k) 0 0).2 (fun k m => z m k) trivial fun h => hz (by
        funext m k
        exact congrFun (congrFun h k) m)
    have e : ∀ x : {m // grp m = i} → K → Grid N → ℝ,
        augConv (subD grp P.D i) (fun _ => s) (P.alpha ^ 2) (part (join fun k m => b m k))
          (part (0 : Coef K {m // grp m = i} N)) (fun k m => x m k) =
        1 / 2 * ∑ k, ∑ p, (recon (subD grp P.D i) (fun k m => x m k) 0 k p - s k p) ^ 2 +
        P.alpha ^ 2 / 2 * ∑ k, ∑ m, ∑ p, (x m k p - b m k p) ^ 2 := by
      intro x
      unfold augConv dataTerm
      rw [Fin.sum_univ_one]
      congr 2
      refine sum_congr rfl fun k _ => sum_congr rfl fun m _ => sum_congr rfl fun p _ => ?_
      change (x m k p - b m k p + 0) ^ 2 = _
      rw [add_zero]
    rw [e z] at h
    exact lt_of_eq_of_lt (e _).symm h
  · funext k p
    have h3 := congrArg (fun x => part x 0 k p) h2
    have h4 : (xsolF a P grp i s b).2 k p = part (convOp (padD N (subD grp P.D i))
      (join fun k m => (xsolF a P grp i s b).1 m k)) 0 k p := h3
    rw [h4, part_convOp]
    unfold recon
    simp only [← rconv_pad hN]
    rfl

/-! ## A concrete problem -/

/-- Two filters of two samples, signals of four samples, one sample masked, two groups, `NonNegCoef` and
`NoBndryCross` on. -/
noncomputable def prob2 : Prob 1 2 (fun _ => 4) (fun _ => 2) (Fin 1) where
  D _ m p := if m = 0 then 1 else (p 0 : ℕ)
  S _ p := (p 0).val
  W _ p := if (p 0).val = 1 then 0 else 1
  lmbda := 1 / 10
  w _ := 1
  rho := 1
  alpha := 1 / 2
  rlx := 9 / 5
  q := ⟨true, true, true⟩

/-- `C53_convergence` applies to it, with the workers run one after the other in either order. -/
example (o : Bool) : ∃ Xopt, IsMin (objMask prob2) (allowedConv true true fun _ => 2) Xopt ∧
    Tendsto (fun n => objMask prob2 (returned prob2 (fun m : Fin 2 => m) 0
      (fun _ p => sequential (prog (opsF 0 prob2 fun m => m) p) (if o then [0, 1] else [1, 0])) true
      (fun _ _ => ([] : List ℕ)) n (0, ⟨0, 0, 0, 0, 0, 0, 0, 0, 0, 0, 0, 0⟩, []))) atTop (𝓝 (objMask prob2 Xopt)) :=
  let ⟨x, h1, h2, _⟩ := C53_convergence (a := 0) (V := ℕ) (by intro n; simp) prob2 (by intro _ n; rfl)
    (by norm_num [prob2]) (by norm_num [prob2]) (by norm_num [prob2]) (by norm_num [prob2]) (by norm_num [prob2])
    (fun m : Fin 2 => m) (fun _ _ p => sequential (prog (opsF 0 prob2 fun m => m) p) (if o then [0, 1] else [1, 0]))
    (fun _ _ p => interleaving_sequential _ _ (by cases o <;> decide)
      (by intro k; cases o <;> fin_cases k <;> decide))
    true (fun _ _ => []) (0, ⟨0, 0, 0, 0, 0, 0, 0, 0, 0, 0, 0, 0⟩, []) (by norm_num)
  ⟨x, h1, h2⟩

end Sporco.Par.PCbpdn
