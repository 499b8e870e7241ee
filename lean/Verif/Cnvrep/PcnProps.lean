import Verif.Cnvrep.Pcn
import Mathlib.Tactic.FinCases
import Mathlib.Tactic.NormNum

/-!
# Padding and cropping (C12), dictionary constraint projection (C34)
-/

set_option autoImplicit false

namespace Sporco.Cnvrep

variable {n : ℕ}

/-! ## C12 -/

/-- **C12.** `zpad` keeps the array in the leading corner and is zero elsewhere; it fails
exactly if the array does not fit. -/
theorem C12_zpad (v : Arr n) (Nv : List ℕ) :
    (zpad v Nv = none ↔ ∃ (i : Fin n) (h : i.val < Nv.length), Nv[i.val] < v.sh i) ∧
    ∀ y, zpad v Nv = some y →
      (∀ i : Fin n, y.sh i = if h : i.val < Nv.length then Nv[i.val] else v.sh i) ∧
      (∀ p, v.In p → y.In p ∧ y.get p = v.get p) ∧ (∀ p, ¬ v.In p → y.get p = 0) := by
  unfold zpad
  split_ifs with hfit
  · constructor
    · simp only [reduceCtorEq, false_iff]
      rintro ⟨i, h, hlt⟩
      have := hfit i h
      omega
    · intro y hy
      simp only [Option.some.injEq] at hy
      subst hy
      refine ⟨fun i => rfl, ?_, fun p hp => if_neg hp⟩
      intro p hp
      refine ⟨?_, if_pos hp⟩
      intro i
      simp only
      split_ifs with h
      · exact lt_of_lt_of_le (hp i) (hfit i h)
      · exact hp i
  · constructor
    · simp only [true_iff]
      by_contra hc
      apply hfit
      intro i h
      by_contra hlt
      exact hc ⟨i, h, not_le.1 hlt⟩
    · intro y hy
      cases hy

open Classical in
/-- **C12.** Cropping keeps exactly the declared support of every filter and channel (for
arrays at least as large as the declared supports), for single- and multi-scale
specifications: every position of the support is in the cropped array with its value, and
all other entries of the cropped array are zero. -/
theorem C12_bcrop (v : Arr (n + 1)) (dsz : Dsz) (dimN : ℕ) (hw : dsz.WF n dimN)
    (hv : Fits dimN dsz v) :
    (∀ p, Support dimN dsz p → (∀ i : Fin (n + 1), dimN ≤ i.val → p i < v.sh i) →
      (bcrop v dsz dimN).In p) ∧
    (∀ p, (bcrop v dsz dimN).In p →
      (bcrop v dsz dimN).get p = if Support dimN dsz p then v.get p else 0) ∧
    ∀ i : Fin (n + 1), dimN ≤ i.val → (bcrop v dsz dimN).sh i = v.sh i :=
  ⟨fun p hs hp => bcrop_in v dsz hw hv p hs hp, fun p hp => bcrop_get v dsz hw p hp,
    fun i hi => bcrop_sh_tail v dsz i hi⟩

/-- **C12.** A dictionary of the declared size and support, zero-padded to the signal size and
cropped back, is unchanged. -/
theorem C12_pad_crop (v y : Arr (n + 1)) (dsz : Dsz) (Nv : List ℕ) (dimN : ℕ)
    (hw : dsz.WF n dimN) (hN : Nv.length = dimN)
    (hsh : ∀ i : Fin (n + 1), i.val < dimN → v.sh i = dsz.extent i.val)
    (hsup : ∀ p, v.In p → ¬ Support dimN dsz p → v.get p = 0) (hy : zpad v Nv = some y) :
    (bcrop y dsz dimN).Same v := by
  obtain ⟨hfit, hsome⟩ := C12_zpad v Nv
  obtain ⟨hysh, hin, hout⟩ := hsome y hy
  have hnone : ¬ ∃ (i : Fin (n + 1)) (h : i.val < Nv.length), Nv[i.val] < v.sh i := by
    rw [← hfit, hy]; simp
  have htail : ∀ i : Fin (n + 1), dimN ≤ i.val → y.sh i = v.sh i := by
    intro i hi; rw [hysh i, dif_neg (by omega)]
  have hshape : (bcrop y dsz dimN).sh = v.sh := by
    funext i
    by_cases hi : dimN ≤ i.val
    · rw [bcrop_sh_tail _ _ _ hi, htail i hi]
    · have hi := not_le.1 hi
      rw [hsh i hi]
      cases dsz with
      | multi bs => simp only [bcrop, if_pos hi, maxsz_eq]
      | single l =>
        have hl : i.val < (l.take dimN).length := by
          rw [List.length_take]; have := hw.2; omega
        have hl' : i.val < l.length := by have := hw.2; omega
        have hyv : v.sh i ≤ y.sh i := by
          rw [hysh i, dif_pos (by omega)]
          by_contra h
          exact hnone ⟨i, by omega, not_le.1 h⟩
        have h1 := hsh i hi
        simp only [bcrop, dif_pos hl, Dsz.extent] at h1 ⊢
        rw [List.getElem_take, List.getD_eq_getElem _ _ hl']
        rw [List.getD_eq_getElem _ _ hl'] at h1
        omega
  refine ⟨hshape, ?_⟩
  intro p hp
  rw [bcrop_get y dsz hw p hp]
  have hpv : v.In p := by intro i; rw [← hshape]; exact hp i
  split_ifs with hs
  · exact (hin p hpv).2
  · exact (hsup p hpv hs).symm

/-! ## C34 -/

section Proj

variable {dimN dimC : ℕ} {x y w : Arr (n + 1)} {dsz : Dsz} {Nv : List ℕ} {crp zm : Bool}

theorem Feasible.linear {q : ℕ} (h : Feasible dimN q dsz zm y) : Linear dimN dsz zm y :=
  ⟨h.supp, h.mean⟩

/-- Norm of the part of `z` that is normalised together with position `p`. -/
noncomputable def fnorm (z : Arr n) (q : ℕ) (p : Fin n → ℕ) : ℝ :=
  Real.sqrt (∑ r ∈ fib z.sh q p, z.get r ^ 2)

theorem fnorm_sq (z : Arr n) (q : ℕ) (p : Fin n → ℕ) :
    fnorm z q p ^ 2 = ∑ r ∈ fib z.sh q p, z.get r ^ 2 :=
  Real.sq_sqrt (Finset.sum_nonneg fun _ _ => sq_nonneg _)

theorem fnorm_congr (z : Arr n) (q : ℕ) {p r : Fin n → ℕ} (h : r ∈ fib z.sh q p) :
    fnorm z q r = fnorm z q p := by
  unfold fnorm; rw [fib_congr (mem_fib.1 h).2]

theorem fnorm_zero {z : Arr n} {q : ℕ} {p r : Fin n → ℕ} (h0 : fnorm z q p = 0)
    (h : r ∈ fib z.sh q p) : z.get r = 0 := by
  have h1 := fnorm_sq z q p
  rw [h0] at h1
  have h2 := (Finset.sum_eq_zero_iff_of_nonneg (fun _ _ => sq_nonneg _)).1
    (h1.symm.trans (by norm_num)) r h
  exact pow_eq_zero_iff (two_ne_zero) |>.1 h2

open Classical in
theorem normalise_get (z : Arr n) (q : ℕ) (p : Fin n → ℕ) :
    (normalise z q).get p = z.get p / (if fnorm z q p = 0 then 1 else fnorm z q p) := rfl

/-- Normalisation of a fibre that is not zero. -/
theorem normalise_pos (z : Arr n) (q : ℕ) (p r : Fin n → ℕ) (h0 : fnorm z q p ≠ 0)
    (hr : r ∈ fib z.sh q p) : (normalise z q).get r = z.get r / fnorm z q p := by
  rw [normalise_get, fnorm_congr z q hr, if_neg h0]

theorem normalise_zero (z : Arr n) (q : ℕ) (p r : Fin n → ℕ) (h0 : fnorm z q p = 0)
    (hr : r ∈ fib z.sh q p) : (normalise z q).get r = 0 := by
  rw [normalise_get, fnorm_zero h0 hr, zero_div]

theorem normalise_feasible (z : Arr (n + 1)) {q : ℕ} (hq : dimN ≤ q) (hz : Linear dimN dsz zm z) :
    Feasible dimN q dsz zm (normalise z q) := by
  refine ⟨?_, ?_, ?_⟩
  · intro p hp hs
    rw [normalise_get, hz.1 p hp hs, zero_div]
  · intro h p hp
    change ∑ r ∈ fib z.sh dimN p, (normalise z q).get r = 0
    have hsub : ∀ r ∈ fib z.sh dimN p, r ∈ fib z.sh q p := by
      intro r hr
      rw [mem_fib] at hr ⊢
      exact ⟨hr.1, fun i hi => hr.2 i (hq.trans hi)⟩
    by_cases h0 : fnorm z q p = 0
    · exact Finset.sum_eq_zero fun r hr => normalise_zero z q p r h0 (hsub r hr)
    · rw [Finset.sum_congr rfl fun r hr => normalise_pos z q p r h0 (hsub r hr),
        ← Finset.sum_div, hz.2 h p hp, zero_div]
  · intro p hp
    change (∑ r ∈ fib z.sh q p, _ = 1 ∨ ∀ r ∈ fib z.sh q p, _)
    by_cases h0 : fnorm z q p = 0
    · right
      exact fun r hr => normalise_zero z q p r h0 hr
    · left
      rw [Finset.sum_congr rfl fun r hr => by rw [normalise_pos z q p r h0 hr, div_pow],
        ← Finset.sum_div, ← fnorm_sq]
      exact div_self (pow_ne_zero 2 h0)

/-- The result of `Pcn` in terms of the cropped (and padded) array. -/
theorem Pcn_some (h : Pcn x dsz Nv dimN dimC crp zm = some w) : ∃ y, prep x dsz Nv dimN crp = some y ∧
    w = normalise (if zm then zeromean y dsz dimN else y) (dimN + dimC) := by
  rw [Pcn_eq, Option.map_eq_some_iff] at h
  obtain ⟨y, h1, h2⟩ := h
  exact ⟨y, h1, h2.symm⟩

/-- **C34, constraint set.** The result of `Pcn` vanishes outside the declared support of
each filter, has zero spatial mean if requested, and every filter has unit norm or is zero.
It is zero only if the input is orthogonal to all filters meeting the linear constraints. -/
theorem C34_feasible (hw : dsz.WF n dimN) (hN : Nv.length = dimN) (hx : Fits dimN dsz x)
    (h : Pcn x dsz Nv dimN dimC crp zm = some w) :
    Feasible dimN (dimN + dimC) dsz zm w ∧
    ∀ p, w.In p → (∀ r ∈ fib w.sh (dimN + dimC) p, w.get r = 0) →
      ∀ u : Arr (n + 1), u.sh = w.sh → Feasible dimN (dimN + dimC) dsz zm u →
        ∑ r ∈ fib w.sh (dimN + dimC) p, x.get r * u.get r = 0 := by
  obtain ⟨y, hy, rfl⟩ := Pcn_some h
  obtain ⟨hyg, -, -⟩ := prep_spec hw hN hx hy
  obtain ⟨hzsh, hlin, horth⟩ := linear_part x y dsz zm hw hyg
  set z := if zm then zeromean y dsz dimN else y with hz
  have hq : dimN ≤ dimN + dimC := Nat.le_add_right _ _
  refine ⟨normalise_feasible z hq hlin, ?_⟩
  intro p hp h0 u hu hfu
  have hws : (normalise z (dimN + dimC)).sh = y.sh := hzsh
  rw [hws] at h0 hu ⊢
  rw [horth u hu hfu.linear _ hq p]
  have hn : fnorm z (dimN + dimC) p = 0 := by
    by_contra hne
    have h1 := fnorm_sq z (dimN + dimC) p
    rw [hzsh] at h1
    have : ∀ r ∈ fib y.sh (dimN + dimC) p, z.get r = 0 := by
      intro r hr
      have h2 := h0 r hr
      rw [normalise_pos z _ p r hne (by rw [hzsh]; exact hr)] at h2
      exact (div_eq_zero_iff.1 h2).resolve_right hne
    rw [Finset.sum_eq_zero fun r hr => by rw [this r hr]; norm_num] at h1
    exact hne (pow_eq_zero_iff two_ne_zero |>.1 h1)
  apply Finset.sum_eq_zero
  intro r hr
  rw [fnorm_zero hn (by rw [hzsh]; exact hr), zero_mul]

/-- **C34, nearest point.** No array of the result's shape that meets the constraints, with
all filters of unit norm, is nearer to the input than the result of `Pcn` (in the l2 norm
over the positions of the result). -/
theorem C34_nearest (hw : dsz.WF n dimN) (hN : Nv.length = dimN) (hx : Fits dimN dsz x)
    (hd : dimN + dimC ≤ n + 1) (h : Pcn x dsz Nv dimN dimC crp zm = some w)
    (u : Arr (n + 1)) (hu : u.sh = w.sh) (hfu : Feasible dimN (dimN + dimC) dsz zm u)
    (hunit : ∀ p, u.In p → ∑ r ∈ fib u.sh (dimN + dimC) p, u.get r ^ 2 = 1) :
    ∑ p ∈ box w.sh, (x.get p - w.get p) ^ 2 ≤ ∑ p ∈ box w.sh, (x.get p - u.get p) ^ 2 := by
  have hfw := (C34_feasible hw hN hx h).1
  obtain ⟨y, hy, rfl⟩ := Pcn_some h
  obtain ⟨hyg, -, -⟩ := prep_spec hw hN hx hy
  obtain ⟨hzsh, hlin, horth⟩ := linear_part x y dsz zm hw hyg
  set z := if zm then zeromean y dsz dimN else y with hz
  have hq : dimN ≤ dimN + dimC := Nat.le_add_right _ _
  have hws : (normalise z (dimN + dimC)).sh = y.sh := hzsh
  rw [hws] at hu ⊢
  rw [← fib_all y.sh 0]
  apply sum_fib_le y.sh hd 0
  intro p hp
  have hin : y.In p := (mem_fib.1 hp).1
  have hu1 := hunit p (by unfold Arr.In; rw [hu]; exact hin)
  rw [hu] at hu1
  have ex : ∀ g : (Fin (n + 1) → ℕ) → ℝ, ∑ t ∈ fib y.sh (dimN + dimC) p, (x.get t - g t) ^ 2 =
      ∑ t ∈ fib y.sh (dimN + dimC) p, x.get t ^ 2 -
        2 * ∑ t ∈ fib y.sh (dimN + dimC) p, x.get t * g t +
        ∑ t ∈ fib y.sh (dimN + dimC) p, g t ^ 2 := by
    intro g
    rw [Finset.mul_sum, ← Finset.sum_sub_distrib, ← Finset.sum_add_distrib]
    exact Finset.sum_congr rfl fun _ _ => by ring
  rw [ex, ex, horth _ hws hfw.linear _ hq p, horth u hu hfu.linear _ hq p, hu1]
  have hfz := fnorm_sq z (dimN + dimC) p
  rw [hzsh] at hfz
  have hcs : ∑ r ∈ fib y.sh (dimN + dimC) p, z.get r * u.get r ≤ fnorm z (dimN + dimC) p := by
    have := Finset.sum_mul_sq_le_sq_mul_sq (fib y.sh (dimN + dimC) p) (fun r => z.get r) u.get
    rw [hu1, mul_one, ← hfz] at this
    exact abs_le_of_sq_le_sq' this (Real.sqrt_nonneg _) |>.2
  by_cases h0 : fnorm z (dimN + dimC) p = 0
  · have hw0 : ∀ r ∈ fib y.sh (dimN + dimC) p, (normalise z (dimN + dimC)).get r = 0 :=
      fun r hr => normalise_zero z _ p r h0 (by rw [hzsh]; exact hr)
    have e1 : ∑ r ∈ fib y.sh (dimN + dimC) p, z.get r * (normalise z (dimN + dimC)).get r = 0 :=
      Finset.sum_eq_zero fun r hr => by rw [hw0 r hr, mul_zero]
    have e2 : ∑ r ∈ fib y.sh (dimN + dimC) p, (normalise z (dimN + dimC)).get r ^ 2 = 0 :=
      Finset.sum_eq_zero fun r hr => by rw [hw0 r hr]; norm_num
    rw [h0] at hcs
    rw [e1, e2]
    linarith
  · have hwp : ∀ r ∈ fib y.sh (dimN + dimC) p, (normalise z (dimN + dimC)).get r =
        z.get r / fnorm z (dimN + dimC) p :=
      fun r hr => normalise_pos z _ p r h0 (by rw [hzsh]; exact hr)
    have e1 : ∑ r ∈ fib y.sh (dimN + dimC) p, z.get r * (normalise z (dimN + dimC)).get r =
        fnorm z (dimN + dimC) p := by
      rw [Finset.sum_congr rfl fun r hr => by rw [hwp r hr, mul_div_assoc', ← sq],
        ← Finset.sum_div, ← hfz, sq, mul_div_assoc, div_self h0, mul_one]
    have e2 : ∑ r ∈ fib y.sh (dimN + dimC) p, (normalise z (dimN + dimC)).get r ^ 2 = 1 := by
      rw [Finset.sum_congr rfl fun r hr => by rw [hwp r hr, div_pow], ← Finset.sum_div, ← hfz]
      exact div_self (pow_ne_zero 2 h0)
    rw [e1, e2]
    linarith

/-- **C34, idempotence.** Projecting a projected dictionary changes nothing. -/
theorem C34_idempotent (hw : dsz.WF n dimN) (hN : Nv.length = dimN) (hx : Fits dimN dsz x)
    (h : Pcn x dsz Nv dimN dimC crp zm = some w) :
    ∃ w', Pcn w dsz Nv dimN dimC crp zm = some w' ∧ w'.Same w := by
  classical
  have hfw := (C34_feasible hw hN hx h).1
  obtain ⟨y, hy, hwy⟩ := Pcn_some h
  obtain ⟨hyg, hyt, hyf⟩ := prep_spec hw hN hx hy
  have hws : w.sh = y.sh := by rw [hwy]; cases zm <;> rfl
  have hwf : Fits dimN dsz w := by
    intro p hs hp
    have := hyf p hs (by rw [← hws]; exact hp)
    unfold Arr.In; rw [hws]; exact this
  -- cropping and padding the result gives an array of the same shape
  have hprep : ∃ y', prep w dsz Nv dimN crp = some y' ∧ y'.sh = w.sh := by
    cases crp with
    | true =>
      refine ⟨_, rfl, ?_⟩
      have hyx : y = bcrop x dsz dimN := (Option.some.inj hy).symm
      funext i
      by_cases hi : dimN ≤ i.val
      · exact bcrop_sh_tail w dsz i hi
      · have hwi : w.sh i = (bcrop x dsz dimN).sh i := by rw [hws, hyx]
        rw [hwi]
        cases dsz with
        | multi bs => simp only [bcrop, if_pos (not_le.1 hi)]
        | single l =>
          have hl : i.val < (l.take dimN).length := by
            rw [List.length_take]; have := hw.2; omega
          simp only [bcrop, dif_pos hl] at hwi ⊢
          rw [hwi, ← min_assoc, min_self]
    | false =>
      have hz : zpad (bcrop x dsz dimN) Nv = some y := hy
      obtain ⟨hfx, hsx⟩ := C12_zpad (bcrop x dsz dimN) Nv
      obtain ⟨hyn, -, -⟩ := hsx y hz
      have hnx : ¬ ∃ (i : Fin (n + 1)) (h : i.val < Nv.length),
          Nv[i.val] < (bcrop x dsz dimN).sh i := by rw [← hfx, hz]; simp
      obtain ⟨hfw', hsw'⟩ := C12_zpad (bcrop w dsz dimN) Nv
      have hle : ¬ ∃ (i : Fin (n + 1)) (h : i.val < Nv.length),
          Nv[i.val] < (bcrop w dsz dimN).sh i := by
        rintro ⟨i, hi, hlt⟩
        cases dsz with
        | multi bs =>
          apply hnx
          refine ⟨i, hi, ?_⟩
          simp only [bcrop] at hlt ⊢
          rw [if_pos (by omega)] at hlt ⊢
          exact hlt
        | single l =>
          have hl : i.val < (l.take dimN).length := by
            rw [List.length_take]; have := hw.2; omega
          simp only [bcrop, dif_pos hl] at hlt
          have h1 := hyn i
          rw [dif_pos hi, ← hws] at h1
          rw [h1] at hlt
          exact absurd (lt_min_iff.1 hlt).2 (lt_irrefl _)
      have hne : zpad (bcrop w dsz dimN) Nv ≠ none := by rw [Ne, hfw']; exact hle
      obtain ⟨y', hy'⟩ := Option.ne_none_iff_exists'.1 hne
      refine ⟨y', hy', ?_⟩
      funext i
      rw [(hsw' y' hy').1 i, hws, hyn i]
      split_ifs with h
      · rfl
      · rw [bcrop_sh_tail _ _ _ (by omega), bcrop_sh_tail _ _ _ (by omega), hws, hyt i (by omega)]
  obtain ⟨y', hy', hsh'⟩ := hprep
  obtain ⟨hyg', -, -⟩ := prep_spec hw hN hwf hy'
  refine ⟨_, by rw [Pcn_eq, hy', Option.map_some], ?_⟩
  set z' := if zm then zeromean y' dsz dimN else y' with hz'
  have hzsh : z'.sh = w.sh := by rw [hz']; cases zm <;> exact hsh'
  have hyw : ∀ p, y'.In p → y'.get p = w.get p := by
    intro p hp
    rw [hyg' p hp]
    split_ifs with hs
    · rfl
    · exact (hfw.supp p (by unfold Arr.In; rw [← hsh']; exact hp) hs).symm
  have hzw : ∀ p, y'.In p → z'.get p = w.get p := by
    intro p hp
    rw [hz']
    cases hzm : zm with
    | false => simp only [Bool.false_eq_true, if_false]; exact hyw p hp
    | true =>
      simp only [if_true]
      rw [zeromean_covers y' dsz hw p, hyw p hp]
      split_ifs with hs
      · have hsum : ∑ r ∈ (fib y'.sh dimN p).filter (Support dimN dsz), y'.get r = 0 := by
          refine Eq.trans ?_ (hfw.mean hzm p (by unfold Arr.In; rw [← hsh']; exact hp))
          rw [Finset.sum_filter, hsh']
          apply Finset.sum_congr rfl
          intro r hr
          have hrin : w.In r := (mem_fib.1 hr).1
          split_ifs with hs'
          · exact hyw r (by unfold Arr.In; rw [hsh']; exact hrin)
          · exact (hfw.supp r hrin hs').symm
        rw [hsum, zero_div, sub_zero]
      · rfl
  refine ⟨hzsh, ?_⟩
  intro p hp
  have hpin : w.In p := by
    have h1 : z'.In p := hp
    unfold Arr.In at h1; rw [hzsh] at h1; exact h1
  have hzp : z'.get p = w.get p := hzw p (by unfold Arr.In; rw [hsh']; exact hpin)
  have hfn : fnorm z' (dimN + dimC) p ^ 2 = ∑ r ∈ fib w.sh (dimN + dimC) p, w.get r ^ 2 := by
    rw [fnorm_sq, hzsh]
    apply Finset.sum_congr rfl
    intro r hr
    rw [hzw r (by unfold Arr.In; rw [hsh']; exact (mem_fib.1 hr).1)]
  rw [normalise_get, hzp]
  rcases hfw.norm p hpin with h1 | h1
  · rw [h1] at hfn
    have h2 : fnorm z' (dimN + dimC) p = 1 := by
      have := Real.sqrt_nonneg (∑ r ∈ fib z'.sh (dimN + dimC) p, z'.get r ^ 2)
      have h3 : 0 ≤ fnorm z' (dimN + dimC) p := this
      nlinarith
    rw [h2]; simp
  · rw [h1 p (fib_self hpin), zero_div]

/-- **C34, `getPcn`.** The function returned by `getPcn` is `Pcn` with the given parameters,
except for padded zero-mean projections with a number of spatial axes other than two. -/
theorem C34_getPcn_partial (h : crp = true ∨ zm = false ∨ dimN = 2) :
    getPcn dsz Nv dimN dimC crp zm x = Pcn x dsz Nv dimN dimC crp zm := by
  unfold getPcn Pcn
  cases crp <;> cases zm <;> simp_all

end Proj

/-! ### Concrete cases -/

/-- A signal with one sample and two channels, `x = (1, 0)`. -/
def x1 : Arr 4 := ⟨![1, 2, 1, 1], fun p => if p 1 = 0 then 1 else 0⟩

theorem x1_fits : Fits 1 (.single [1, 2, 1]) x1 := by
  intro p hs hp i
  obtain ⟨sz, h1, h2⟩ := hs
  obtain rfl := Option.some.inj h1
  by_cases hi : 1 ≤ i.val
  · exact hp i hi
  · have h0 : i = 0 := Fin.ext (by simp; omega)
    subst h0
    have := h2 0 (by decide)
    simpa [x1] using this

/-- **C34, `getPcn` disagrees with `Pcn` for one spatial dimension**: with two channels the
padded zero-mean projection returned by `getPcn` subtracts the mean over both channels
(`_Pcn_zm` calls `zeromean` without `dimN`), and its result does not have zero-mean filters. -/
theorem C34_getPcn_refuted : ∃ (x w g : Arr 4),
    Pcn x (.single [1, 2, 1]) [1] 1 1 false true = some w ∧
    getPcn (.single [1, 2, 1]) [1] 1 1 false true x = some g ∧
    w.get 0 = 0 ∧ g.get 0 ≠ 0 ∧ ¬ Feasible 1 2 (.single [1, 2, 1]) true g := by
  classical
  have hw : (Dsz.single [1, 2, 1]).WF 3 1 := ⟨by decide, by decide⟩
  -- cropping and padding
  have hprep : ∃ y, prep x1 (.single [1, 2, 1]) [1] 1 false = some y ∧ y.sh = ![1, 2, 1, 1] := by
    have hsh : (bcrop x1 (.single [1, 2, 1]) 1).sh = ![1, 2, 1, 1] := by
      funext i
      fin_cases i <;> simp [bcrop, x1]
    unfold prep zpad
    simp only [Bool.false_eq_true, if_false, hsh]
    rw [if_pos]
    · refine ⟨_, rfl, ?_⟩
      funext i
      fin_cases i <;> simp
    · intro i h
      have h0 : i = 0 := Fin.ext (by simp at h; simpa using h)
      subst h0
      simp
  obtain ⟨y, hy, hsh⟩ := hprep
  obtain ⟨hyg, -, -⟩ := prep_spec hw rfl x1_fits hy
  have hW : Pcn x1 (.single [1, 2, 1]) [1] 1 1 false true =
      some (normalise (zeromean y (.single [1, 2, 1]) 1) 2) := by
    rw [Pcn_eq, hy]; rfl
  have hG : getPcn (.single [1, 2, 1]) [1] 1 1 false true x1 =
      some (normalise (zeromean y (.single [1, 2, 1]) 2) 2) := by
    have : zpad (bcrop x1 (.single [1, 2, 1]) 1) [1] = some y := hy
    simp only [getPcn, this]; rfl
  have hin : ∀ p : Fin 4 → ℕ, p = 0 ∨ p = ![0, 1, 0, 0] → y.In p := by
    rintro p (rfl | rfl) i <;> rw [hsh] <;> fin_cases i <;> decide
  have hfib1 : fib ![1, 2, 1, 1] 1 (0 : Fin 4 → ℕ) = {0} := by decide
  have hfib2 : fib ![1, 2, 1, 1] 2 (0 : Fin 4 → ℕ) = {0, ![0, 1, 0, 0]} := by decide
  have hsupp : ∀ p : Fin 4 → ℕ, p 0 = 0 → Support 1 (.single [1, 2, 1]) p := by
    intro p hp
    refine ⟨[1], rfl, ?_⟩
    intro i hi
    have h0 : i = 0 := Fin.ext (by simp at hi; simpa using hi)
    subst h0
    simp [hp]
  have hy0 : y.get 0 = 1 := by
    rw [hyg 0 (hin _ (.inl rfl)), if_pos (hsupp _ rfl)]; simp [x1]
  have hy1 : y.get ![0, 1, 0, 0] = 0 := by
    rw [hyg _ (hin _ (.inr rfl)), if_pos (hsupp _ rfl)]; simp [x1]
  have hg0 : (normalise (zeromean y (.single [1, 2, 1]) 2) 2).get 0 ≠ 0 := by
    have hw2 : (Dsz.single [1, 2, 1]).WF 3 2 := ⟨by decide, by decide⟩
    have hs2 : ∀ p : Fin 4 → ℕ, p 0 = 0 → p 1 < 2 → Support 2 (.single [1, 2, 1]) p := by
      intro p hp hp1
      refine ⟨[1, 2], rfl, ?_⟩
      intro i hi
      have hi : i.val < 2 := by simpa using hi
      rcases (by omega : i.val = 0 ∨ i.val = 1) with h | h
      · have h0 : i = 0 := Fin.ext h
        subst h0; simp [hp]
      · have h0 : i = 1 := Fin.ext h
        subst h0; simpa using hp1
    have hz : (zeromean y (.single [1, 2, 1]) 2).get 0 = 1 / 2 := by
      rw [zeromean_covers y _ hw2, if_pos (hs2 _ rfl (by simp)), hsh, hfib2,
        Finset.filter_true_of_mem]
      · rw [Finset.sum_pair (by decide), Finset.card_pair (by decide), hy0, hy1]; norm_num
      · intro r hr
        rcases Finset.mem_insert.1 hr with rfl | hr
        · exact hs2 _ rfl (by simp)
        · rw [Finset.mem_singleton.1 hr]; exact hs2 _ rfl (by simp)
    rw [normalise_get, hz]
    split_ifs with h
    · norm_num
    · exact div_ne_zero (by norm_num) h
  refine ⟨x1, _, _, hW, hG, ?_, hg0, ?_⟩
  · have h1 := (C34_feasible hw rfl x1_fits hW).1.mean rfl 0 (by
      intro i; change (0 : Fin 4 → ℕ) i < y.sh i; exact hin 0 (.inl rfl) i)
    have h2 : (normalise (zeromean y (.single [1, 2, 1]) 1) 2).sh = y.sh := rfl
    rw [h2, hsh, hfib1, Finset.sum_singleton] at h1
    exact h1
  · intro hf
    have h1 := hf.mean rfl 0 (by
      intro i; change (0 : Fin 4 → ℕ) i < y.sh i; exact hin 0 (.inl rfl) i)
    have h2 : (normalise (zeromean y (.single [1, 2, 1]) 2) 2).sh = y.sh := rfl
    rw [h2, hsh, hfib1, Finset.sum_singleton] at h1
    exact hg0 h1

/-- The hypotheses of the theorems are met by a multi-scale specification with separate
channel blocks: one-dimensional filters, two of length 2 on both channels, then one whose
channels have lengths 1 and 3. -/
example : (Dsz.multi [.whole [2, 2, 2], .chans [[1, 1, 1], [3, 1, 1]]]).WF 3 1 ∧
    Support (n := 3) 1 (.multi [.whole [2, 2, 2], .chans [[1, 1, 1], [3, 1, 1]]]) ![2, 1, 0, 2] ∧
    ¬ Support (n := 3) 1 (.multi [.whole [2, 2, 2], .chans [[1, 1, 1], [3, 1, 1]]]) ![1, 0, 0, 2] := by
  refine ⟨⟨by decide, ?_⟩, ⟨[3], by simp [Dsz.size, Blk.sizes, chan, Fin.last], ?_⟩, ?_⟩
  · intro b hb
    simp only [List.mem_cons, List.not_mem_nil, or_false] at hb
    rcases hb with rfl | rfl
    · exact .inr ⟨rfl, by decide⟩
    · exact ⟨by decide, by simp, by simp⟩
  · intro i hi
    have h0 : i = 0 := Fin.ext (by simp at hi; simpa using hi)
    subst h0; simp
  · rintro ⟨sz, h1, h2⟩
    have : sz = [1] := by
      simp [Dsz.size, Blk.sizes, chan, Fin.last] at h1; exact h1.symm
    subst this
    have := h2 0 (by decide)
    simp at this

/-- `Pcn` returns a result for a concrete input, so the hypotheses of `C34_feasible`,
`C34_nearest` and `C34_idempotent` are met. -/
example : ∃ w, Pcn x1 (.single [1, 2, 1]) [1] 1 1 true true = some w := ⟨_, rfl⟩

end Sporco.Cnvrep
