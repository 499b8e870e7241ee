import Verif.Conv.InhibLim

/-!
# Convolutional sparse coding with inhibition: windows, group weights and concrete cases (C73)
-/

set_option autoImplicit false
set_option linter.unusedSectionVars false

namespace Sporco.Conv.Inhib

open Finset ComplexConjugate Sporco.Linalg Sporco.Prox Sporco.Admm Filter Topology

variable {d c : ℕ} {N Nd : Fin d → ℕ} [∀ k, NeZero (N k)] {a : Fin d} {K M Γ : Type*} [Fintype K]
  [Fintype M] [Fintype Γ] [DecidableEq M]

/-! ## The windows -/

theorem rollAll (s : ℤ) (x : Grid N → ℝ) :
    (List.finRange d).foldl (fun x k => rollAx s k x) x = fun p => x fun k => p k - s := by
  have key : ∀ (l : List (Fin d)) (hl : l.Nodup) (x : Grid N → ℝ),
      l.foldl (fun x k => rollAx s k x) x = fun p => x fun k => if k ∈ l then p k - s else p k := by
    intro l
    induction l with
    | nil => intro _ x; simp
    | cons j l ih =>
      intro hl x
      rw [List.foldl_cons, ih (List.nodup_cons.1 hl).2]
      funext p
      unfold rollAx
      congr 1
      funext k
      by_cases hk : k = j
      · subst hk
        simp [(List.nodup_cons.1 hl).1]
      · simp [hk]
  rw [key _ (List.nodup_finRange d)]
  funext p
  simp

theorem whl_eq (r : ℕ) (win : ℕ → ℝ) (p : Grid N) :
    whl N (2 * r + 1) win p = winRaw N (2 * r + 1) win fun k => p k + (r : ℕ) := by
  unfold whl
  have e : (-((2 * r + 1 : ℕ) : ℤ) / 2 + 1) = -(r : ℤ) := by push_cast; omega
  rw [e, rollAll]
  simp [sub_neg_eq_add]

theorem oddLen_odd (n : ℕ) : ∃ r, oddLen n = 2 * r + 1 ∧ n ≤ oddLen n ∧ oddLen n ≤ n + 1 := by
  unfold oddLen
  rcases Nat.even_or_odd' n with ⟨r, h | h⟩
  · exact ⟨r, by subst h; simp, by split_ifs <;> omega, by split_ifs <;> omega⟩
  · exact ⟨r, by subst h; simp, by split_ifs <;> omega, by split_ifs <;> omega⟩

/-- **C73, the window.** For a window of `2 r + 1` samples, not larger than the array, the weight at the offset
`(j_1, ..., j_dimN)` is the geometric mean of the window samples `r + j_i` if all offsets are between `-r` and `r`,
and zero otherwise; the window of the self inhibition is the same except at the origin, where it is zero. -/
theorem C73_window (r : ℕ) (hr : ∀ k, 2 * r + 1 ≤ N k) (win : ℕ → ℝ) :
    (∀ j : Fin d → ℤ, (∀ k, -(r : ℤ) ≤ j k ∧ j k ≤ r) →
      whl N (2 * r + 1) win (fun k => (j k : ZMod (N k))) = (∏ k, win (r + j k).toNat) ^ (1 / d : ℝ)) ∧
    (∀ p : Grid N, (¬ ∃ j : Fin d → ℤ, (∀ k, -(r : ℤ) ≤ j k ∧ j k ≤ r) ∧ p = fun k => (j k : ZMod (N k))) →
      whl N (2 * r + 1) win p = 0) ∧
    whs N (2 * r + 1) win 0 = 0 ∧ ∀ p : Grid N, p ≠ 0 → whs N (2 * r + 1) win p = whl N (2 * r + 1) win p := by
  refine ⟨fun j hj => ?_, fun p hp => ?_, ?_, fun p hp => ?_⟩
  · rw [whl_eq]
    have hv : ∀ k, ((j k : ZMod (N k)) + (r : ℕ)).val = (r + j k).toNat := by
      intro k
      have h1 : (j k : ZMod (N k)) + (r : ℕ) = (((r + j k).toNat : ℕ) : ZMod (N k)) := by
        have : (((r + j k).toNat : ℕ) : ZMod (N k)) = (((r + j k).toNat : ℤ) : ZMod (N k)) := by norm_cast
        rw [this, Int.toNat_of_nonneg (by have := hj k; omega)]
        push_cast; ring
      rw [h1, ZMod.val_natCast, Nat.mod_eq_of_lt]
      have := hj k
      have := hr k
      omega
    unfold winRaw
    rw [if_pos]
    · simp only [hv]
    · intro k
      rw [hv]
      have := hj k
      omega
  · rw [whl_eq]
    unfold winRaw
    rw [if_neg]
    intro hall
    refine hp ⟨fun k => ((p k + (r : ℕ)).val : ℤ) - r, fun k => ?_, ?_⟩
    · have := hall k
      simp only at this ⊢
      constructor <;> omega
    · funext k
      push_cast
      rw [ZMod.natCast_zmod_val]
      ring
  · unfold whs; simp
  · unfold whs; rw [Function.update_of_ne hp]

/-- **C73, the constructor.** `mu` is `10 lmbda` and `gamma` zero if not given; the windows are those of `C73_window`
with the smallest odd number of samples that is at least `Whn`, by default the size of the filters along the first
axis. -/
theorem C73_constructor (lmbda : ℝ) (Wg : Option (Γ → M → ℝ)) (Whn : Option ℕ) (getWindow : ℕ → ℕ → ℝ)
    (mu gamma : Option ℝ) (smooth : ℝ) (Dn : ℕ) (N : Fin d → ℕ) [∀ k, NeZero (N k)] :
    let P := mkPar lmbda Wg Whn getWindow mu gamma smooth Dn N
    P.Wg = Wg ∧ (∀ x, mu = some x → P.mu = x) ∧ (mu = none → P.mu = 10 * lmbda) ∧ (∀ x, gamma = some x → P.gamma = x) ∧
      (gamma = none → P.gamma = 0) ∧ P.smooth = smooth ∧
      ∃ r, IsLeast {n | Odd n ∧ Whn.getD Dn ≤ n} (2 * r + 1) ∧ P.Whl = whl N (2 * r + 1) (getWindow (2 * r + 1)) ∧
        P.Whs = whs N (2 * r + 1) (getWindow (2 * r + 1)) := by
  intro P
  obtain ⟨r, hr, h1, h2⟩ := oddLen_odd (Whn.getD Dn)
  refine ⟨rfl, ?_, ?_, ?_, ?_, rfl, r, ⟨⟨⟨r, rfl⟩, hr ▸ h1⟩, fun n ⟨ho, hn⟩ => ?_⟩, ?_, ?_⟩
  · rintro x rfl; rfl
  · rintro rfl; rfl
  · rintro x rfl; rfl
  · rintro rfl; rfl
  · obtain ⟨t, rfl⟩ := ho
    by_contra hlt
    push Not at hlt
    unfold oddLen at hr
    split_ifs at hr <;> omega
  · rw [← hr]; rfl
  · rw [← hr]; rfl

theorem whl_nonneg (Whn : ℕ) (win : ℕ → ℝ) (hw : ∀ i, i < Whn → 0 ≤ win i) (ho : ∃ r, Whn = 2 * r + 1) (p : Grid N) :
    0 ≤ whl N Whn win p := by
  obtain ⟨r, rfl⟩ := ho
  rw [whl_eq]
  unfold winRaw
  split_ifs with h
  · exact Real.rpow_nonneg (Finset.prod_nonneg fun k _ => hw _ (h k)) _
  · exact le_rfl

theorem whs_nonneg (Whn : ℕ) (win : ℕ → ℝ) (hw : ∀ i, i < Whn → 0 ≤ win i) (ho : ∃ r, Whn = 2 * r + 1) (p : Grid N) :
    0 ≤ whs N Whn win p := by
  unfold whs
  by_cases hp : p = 0
  · subst hp; simp
  · rw [Function.update_of_ne hp]; exact whl_nonneg Whn win hw ho p

/-- `scipy.signal.get_window(('tukey', 0.5), n)`, the window used by default (`cbpdnin.py` 251, 265): the first `n`
samples of the symmetric Tukey window with `n + 1` samples, as `fftbins` is true by default. -/
noncomputable def tukeyWin (n i : ℕ) : ℝ :=
  if n ≤ 1 then 1
  else if i ≤ n / 4 then 1 / 2 * (1 + Real.cos (Real.pi * (-1 + 4 * i / n)))
  else if i < n - n / 4 then 1
  else 1 / 2 * (1 + Real.cos (Real.pi * (-3 + 4 * i / n)))

theorem tukeyWin_nonneg (n i : ℕ) : 0 ≤ tukeyWin n i := by
  unfold tukeyWin
  split_ifs
  · norm_num
  · have := Real.neg_one_le_cos (Real.pi * (-1 + 4 * (i : ℝ) / n)); linarith
  · norm_num
  · have := Real.neg_one_le_cos (Real.pi * (-3 + 4 * (i : ℝ) / n)); linarith

/-- The parameters set by the constructor with groups of filters and the default window satisfy the hypotheses of
the theorems. -/
theorem parOk_mk (lmbda : ℝ) (hl : 0 ≤ lmbda) (G : Option (Γ → M → Bool)) (Whn : Option ℕ) (mu gamma : Option ℝ)
    (hm : ∀ x, mu = some x → 0 ≤ x) (hg : ∀ x, gamma = some x → 0 ≤ x) (smooth : ℝ) (h0 : 0 ≤ smooth) (h1 : smooth ≤ 1)
    (Dn : ℕ) : ParOk (mkPar lmbda (G.map Wof) Whn tukeyWin mu gamma smooth Dn N : Par Γ M N) := by
  obtain ⟨r, hr, -⟩ := oddLen_odd (Whn.getD Dn)
  refine ⟨fun W hW => ?_, ?_, ?_, h0, h1, whl_nonneg _ _ (fun i _ => tukeyWin_nonneg _ i) ⟨r, hr⟩,
    whs_nonneg _ _ (fun i _ => tukeyWin_nonneg _ i) ⟨r, hr⟩⟩
  · cases G with
    | none => cases hW
    | some G => exact ⟨G, (Option.some.inj hW).symm⟩
  · change 0 ≤ mu.getD (10 * lmbda)
    cases mu with
    | none => simpa using hl
    | some x => exact hm x rfl
  · change 0 ≤ gamma.getD 0
    cases gamma with
    | none => exact le_rfl
    | some x => exact hg x rfl

theorem tukeyWin_mid (r : ℕ) (hr : 1 ≤ r) : tukeyWin (2 * r + 1) r = 1 := by
  unfold tukeyWin
  rw [if_neg (by omega), if_neg (by omega), if_pos (by omega)]

theorem tukeyWin_first (r : ℕ) (hr : 1 ≤ r) : tukeyWin (2 * r + 1) 0 = 0 := by
  unfold tukeyWin
  rw [if_neg (by omega), if_pos (by omega)]
  norm_num

theorem tukeyWin_last (r : ℕ) (hr : 1 ≤ r) : 0 < tukeyWin (2 * r + 1) (2 * r) := by
  unfold tukeyWin
  rw [if_neg (by omega), if_neg (by omega)]
  split_ifs with h
  · norm_num
  · have h4 : 2 ≤ r := by omega
    have hr' : (2 : ℝ) ≤ r := by exact_mod_cast h4
    have hn : (0 : ℝ) < 2 * r + 1 := by linarith
    have e : Real.pi * (-3 + 4 * ((2 * r : ℕ) : ℝ) / ((2 * r + 1 : ℕ) : ℝ)) =
        Real.pi * (1 - 4 / (2 * r + 1)) := by
      push_cast
      congr 1
      field_simp
      ring
    rw [e]
    have h5 : 4 / (2 * (r : ℝ) + 1) < 1 := by rw [div_lt_one hn]; linarith
    have h6 : 0 < 4 / (2 * (r : ℝ) + 1) := by positivity
    have h7 : Real.cos Real.pi < Real.cos (Real.pi * (1 - 4 / (2 * r + 1))) := by
      apply Real.cos_lt_cos_of_nonneg_of_le_pi
      · exact mul_nonneg Real.pi_pos.le (by linarith)
      · exact le_rfl
      · nlinarith [Real.pi_pos]
    rw [Real.cos_pi] at h7
    linarith

/-- **The inhibition window is not symmetric**, although its length is made odd for that purpose: with the default
window function, of any length, an active coefficient inhibits the one `r` samples after it, but not the one `r`
samples before it, on each axis. -/
theorem C73_window_refuted (r : ℕ) (h1 : 1 ≤ r) (hr : ∀ k, 2 * r + 1 ≤ N k) (k0 : Fin d) :
    whl N (2 * r + 1) (tukeyWin (2 * r + 1)) (Pi.single k0 (-(r : ZMod (N k0)))) = 0 ∧
      0 < whl N (2 * r + 1) (tukeyWin (2 * r + 1)) (Pi.single k0 (r : ZMod (N k0))) := by
  have hd : 0 < d := Fin.pos k0
  have hd' : (1 / d : ℝ) ≠ 0 := by positivity
  obtain ⟨hw, -⟩ := C73_window (N := N) r hr (tukeyWin (2 * r + 1))
  constructor
  · have h := hw (Pi.single k0 (-(r : ℤ))) fun k => by
      by_cases hk : k = k0
      · subst hk; simp
      · simp [Pi.single_eq_of_ne hk]
    have e : (fun k => (((Pi.single k0 (-(r : ℤ)) : Fin d → ℤ) k : ℤ) : ZMod (N k))) =
        (Pi.single k0 (-(r : ZMod (N k0))) : Grid N) := by
      funext k
      by_cases hk : k = k0
      · subst hk; simp
      · simp [Pi.single_eq_of_ne hk]
    rw [e] at h
    rw [h, Finset.prod_eq_zero (Finset.mem_univ k0), Real.zero_rpow hd']
    simpa using tukeyWin_first r h1
  · have h := hw (Pi.single k0 (r : ℤ)) fun k => by
      by_cases hk : k = k0
      · subst hk; simp
      · simp [Pi.single_eq_of_ne hk]
    have e : (fun k => (((Pi.single k0 (r : ℤ) : Fin d → ℤ) k : ℤ) : ZMod (N k))) =
        (Pi.single k0 (r : ZMod (N k0)) : Grid N) := by
      funext k
      by_cases hk : k = k0
      · subst hk; simp
      · simp [Pi.single_eq_of_ne hk]
    rw [e] at h
    rw [h]
    refine Real.rpow_pos_of_pos (Finset.prod_pos fun k _ => ?_) _
    by_cases hk : k = k0
    · subst hk
      have : ((r : ℤ) + (Pi.single k (r : ℤ) : Fin d → ℤ) k).toNat = 2 * r := by simp; omega
      rw [this]; exact tukeyWin_last r h1
    · have : ((r : ℤ) + (Pi.single k0 (r : ℤ) : Fin d → ℤ) k).toNat = r := by simp [Pi.single_eq_of_ne hk]
      rw [this, tukeyWin_mid r h1]; norm_num

/-- **Group weights other than 0 and 1 are not strengths of membership**: a filter that belongs to one group with
strength 1/2 "inhibits" itself, with a negative weight (`cbpdnin.py` 319-320 subtracts the weight where the square of
the weight is needed). -/
theorem C73_groups_refuted (N : Fin d → ℕ) [∀ k, NeZero (N k)] (a : Fin d) (h : Grid N → ℝ) (h0 : 0 < h 0)
    (hh : ∀ p, 0 ≤ h p) :
    let W : Unit → Unit → ℝ := fun _ _ => 1 / 2
    couplingW W () () = -1 / 4 ∧
      ∀ X : Coef Unit Unit N, ∀ p, part X () () p ≠ 0 → latNew a W h X ((), (), p) < 0 := by
  intro W
  have hc : couplingW W () () = -1 / 4 := by norm_num [couplingW, W]
  refine ⟨hc, fun X p hp => ?_⟩
  rw [latNew_eqW]
  unfold inhibW
  simp only [Finset.univ_unique, PUnit.default_eq_unit, Finset.sum_singleton, hc]
  have : 0 < rconv h (fun q => |part X () () q|) p := by
    refine lt_of_lt_of_le ?_ (Finset.single_le_sum (f := fun y => h y * |part X () () (p - y)|)
      (fun y _ => mul_nonneg (hh y) (abs_nonneg _)) (Finset.mem_univ 0))
    simp only [sub_zero]
    exact mul_pos h0 (abs_pos.2 hp)
  linarith

/-! ## A concrete run

One sample, two filters in one group, `S = 3`, `lmbda = mu = 1`, `SmoothWeight = 9/10`: started at `Y = (2, 0)`,
`U = (1, 1)` the algorithm stays there, while the lateral weight of the second filter tends to 2.  So the hypotheses of
`C73_limit` hold with coefficients that are not zero. -/

namespace Ex

/-- One axis with one sample. -/
def N1 : Fin 1 → ℕ := fun _ => 1

instance : ∀ k, NeZero (N1 k) := fun _ => ⟨one_ne_zero⟩

instance : Unique (Grid N1) := ⟨⟨0⟩, fun _ => funext fun _ => Subsingleton.elim (α := ZMod 1) _ _⟩

instance : Unique ((k : Fin 1) → Fin (N1 k)) := ⟨⟨fun _ => (0 : Fin 1)⟩,
  fun _ => funext fun _ => Subsingleton.elim (α := Fin 1) _ _⟩

def D : Dict 0 (Fin 2) N1 := fun _ _ _ => 1
def S : Signal 0 Unit N1 := fun _ _ _ => 3
noncomputable def P : Par Unit (Fin 2) N1 := ⟨some (Wof fun _ _ => true), 1, 0, 9 / 10, fun _ => 1, fun _ => 0⟩
def q : COpts := ⟨true, false, false⟩
noncomputable def o : Opts := ⟨true, 10, 0, 0, false, 1, false, false, 1, 1, 2, 10, 1, 1⟩
def x : Coef Unit (Fin 2) N1 := join fun _ m _ => if m = 0 then 2 else 0
def u : Coef Unit (Fin 2) N1 := join fun _ _ _ => 1

noncomputable def s : St (Coef Unit (Fin 2) N1) (Coef Unit (Fin 2) N1) (Coef Unit (Fin 2) N1)
    (AttrI 0 Unit (Fin 2) N1 N1 0) :=
  ⟨x, x, x, u, 0, 0, 1, 0, [], initI q S 1 D fun _ _ _ => 0⟩

theorem parOk : ParOk P := by
  refine ⟨fun W hW => ⟨fun _ _ => true, (Option.some.inj hW).symm⟩, ?_, ?_, ?_, ?_, ?_, ?_⟩ <;> norm_num [P]

theorem ext2 {y z : Coef Unit (Fin 2) N1} (h0 : part y () 0 0 = part z () 0 0) (h1 : part y () 1 0 = part z () 1 0) :
    y = z := by
  ext ⟨i, m, p⟩
  have hp : p = 0 := Subsingleton.elim _ _
  subst hp
  fin_cases m
  · exact h0
  · exact h1

theorem xmin : IsMin (augConv D S 1 (part x) (part u)) Set.univ (part x) := by
  refine ⟨trivial, fun z _ => ?_⟩
  simp only [augConv, dataTerm, recon, filt, sumSq, Finset.univ_unique, Finset.sum_singleton, Fin.sum_univ_two, D, S, x, u,
    part_join]
  simp only [Subsingleton.elim _ (0 : Grid N1)]
  norm_num
  nlinarith [sq_nonneg (z () 0 0 - 2), sq_nonneg (z () 1 0), sq_nonneg (z () 0 0 + z () 1 0 - 2)]

theorem run (n : ℕ) : let T := traj (clsInhib q S 1 (fun _ => 1) P true true) o none s
    (T n).X = x ∧ (T n).Y = x ∧ (T n).U = u ∧ (T n).extra.wml ((), 0, 0) = 0 := by
  intro T
  induction n with
  | zero => exact ⟨rfl, rfl, rfl, rfl⟩
  | succ n ih =>
    obtain ⟨hX, hY, hU, hw⟩ := ih
    have hrho : (T n).rho = 1 := traj_rho _ o rfl none s n
    have hu := C73_updates q S 1 (fun _ => 1) P (fun _ => le_rfl) (fun h => by cases h) D parOk (by norm_num)
      (fun _ => by norm_num) true true o (fun h => by cases h) none (fun _ _ h => by cases h) s one_pos _ rfl n
    have hwt := C73_weights q S 1 (fun _ => 1) P D parOk true true o (fun h => by cases h) none
      (fun _ _ h => by cases h) s one_pos _ rfl n
    obtain ⟨hxm, hym⟩ := hu
    obtain ⟨hwm, -, hwn⟩ := hwt
    change IsUniqueMin (augConv D S (T n).rho (part (T n).Y) (part (T n).U)) Set.univ (part (T (n + 1)).X) at hxm
    rw [hrho, hY, hU] at hxm
    have hX' : (T (n + 1)).X = x := by
      by_contra hne
      have h := hxm.2 (part x) trivial fun h => hne (congrArg join h).symm
      exact absurd (xmin.2 (part (T (n + 1)).X) trivial) (not_le.2 h)
    have hY' : (T (n + 1)).Y = x := by
      have h := hym.2 (part x) ⟨fun h => (by cases h), fun h => (by cases h)⟩
      simp only [show traj (clsInhib q S 1 (fun _ => 1) P true true) o none s = T from rfl, hrho, hY, hU, hX'] at h
      have hAX : o.rlx • x + (1 - o.rlx) • x = x := by module
      rw [hAX] at h
      have hw1 : 0 ≤ (T n).extra.wml ((), 1, 0) := (hwn _).1
      generalize (T (n + 1)).Y = y at h ⊢
      simp only [sumSq, Finset.univ_unique, Finset.sum_singleton, Fin.sum_univ_two, PUnit.default_eq_unit,
        show (default : Grid N1) = 0 from rfl, hw] at h
      simp only [x, u, part_join, P] at h
      norm_num at h
      have a0 := le_abs_self (part y () 0 0)
      have a1 := le_abs_self (part y () 1 0)
      have a2 := mul_nonneg hw1 (abs_nonneg (part y () 1 0))
      have hs : (part y () 0 0 - 2) ^ 2 + part y () 1 0 ^ 2 ≤ 0 := by nlinarith
      have h0 : part y () 0 0 - 2 = 0 := by
        have := sq_nonneg (part y () 1 0); exact pow_eq_zero_iff two_ne_zero |>.1 (le_antisymm (by linarith) (sq_nonneg _))
      have h1 : part y () 1 0 = 0 := by
        have := sq_nonneg (part y () 0 0 - 2)
        exact pow_eq_zero_iff two_ne_zero |>.1 (le_antisymm (by linarith) (sq_nonneg _))
      refine ext2 ?_ ?_
      · simp only [x, part_join]; simp; linarith
      · simp only [x, part_join]; simp; linarith
    refine ⟨hX', hY', ?_, ?_⟩
    · obtain ⟨e1, e2, e3, -⟩ := oneIter_steps (clsInhib q S 1 (fun _ => 1) P true true) o rfl none (T n)
      have hT : T (n + 1) = oneIter (clsInhib q S 1 (fun _ => 1) P true true) o none (T n) := traj_succ _ _ _ _ _
      have hUn : (T (n + 1)).U = (T n).U + (o.rlx • (T (n + 1)).X + (1 - o.rlx) • (T n).Y) - (T (n + 1)).Y := by
        rw [hT, e1, e2, e3, ← relax_eq]
        change (T n).U + (_ - _) = _
        rw [← add_sub_assoc]
        rfl
      rw [hUn, hX', hY', hY, hU]
      module
    · have h := hwm (fun _ _ => true) rfl one_pos ((), 0, 0)
      change (T (n + 1)).extra.wml ((), 0, 0) = P.smooth * (T n).extra.wml ((), 0, 0) + (1 - P.smooth) *
        inhibW (coupling fun _ _ => true) P.Whl (part (T (n + 1)).X) ((), 0, 0) at h
      rw [h, hw, hX']
      simp [inhibW, coupling, rconv, x, Fin.sum_univ_two]

/-- All hypotheses of `C73_limit` hold. -/
example : IsMin (objInhib D S 1 1 0 (fun _ => 1) (inhibW (couplingO (some fun (_ : Unit) _ => true)) (fun _ => 1) (part x))
    (inhibW selfC (fun _ => 0) (part x))) (allowedConv false false N1) (part x) :=
  (C73_limit q S 1 (fun _ => 1) P (fun _ => le_rfl) (fun h => by cases h) D (some fun _ _ => true) rfl parOk
    (by norm_num [P]) (by norm_num) (fun _ => by norm_num) true true o rfl (by norm_num [o]) none
    (fun _ _ h => by cases h) s one_pos _ rfl x x u
    (tendsto_const_nhds.congr fun n => (run n).1.symm) (tendsto_const_nhds.congr fun n => (run n).2.1.symm)
    (tendsto_const_nhds.congr fun n => (run n).2.2.1.symm)).2

end Ex

end Sporco.Conv.Inhib
