import Verif.Cnvrep.Model
import Mathlib.Tactic.Linarith
import Mathlib.Tactic.Ring
import Mathlib.Tactic.FieldSimp
import Mathlib.Algebra.BigOperators.Field
import Mathlib.Algebra.Order.BigOperators.Ring.Finset
import Mathlib.Algebra.Order.BigOperators.Group.Finset

/-!
# Filter support, padding and the dictionary constraint projection (C12, C34)
-/

set_option autoImplicit false

namespace Sporco.Cnvrep

variable {n : ℕ}

/-! ## The slices visited cover the declared support, without overlap -/

/-- What the slices visited do with `p`: none selects it and `p` is outside `S`, or exactly
one selects it, and that slice is `S` for all indices that differ from `p` in the first
`dimN` axes only. -/
def Covers (dimN : ℕ) (ss : List (Slc (n + 1))) (S : Slc (n + 1)) (p : Fin (n + 1) → ℕ) : Prop :=
  (¬ S p ∧ ∀ s ∈ ss, ¬ s p) ∨
  (S p ∧ ∃ a s b, ss = a ++ s :: b ∧ s p ∧ (∀ t ∈ a, ¬ t p) ∧ (∀ t ∈ b, ¬ t p) ∧
    ∀ r, (∀ i : Fin (n + 1), dimN ≤ i.val → r i = p i) → (s r ↔ S r))

theorem chSlices_last {dimN m0 m1 c0 : ℕ} {ls : List (List ℕ)} {s : Slc (n + 1)}
    (hs : s ∈ chSlices dimN m0 m1 c0 ls) {p : Fin (n + 1) → ℕ} (hp : s p) :
    m0 ≤ p (Fin.last n) ∧ p (Fin.last n) < m1 := by
  induction ls generalizing c0 with
  | nil => simp [chSlices] at hs
  | cons l ls ih =>
    simp only [chSlices, List.mem_cons] at hs
    rcases hs with rfl | hs
    · exact hp.2.2
    · exact ih hs

theorem blkSlices_last {dimN m0 : ℕ} {bs : List Blk} {s : Slc (n + 1)}
    (hs : s ∈ blkSlices dimN m0 bs) {p : Fin (n + 1) → ℕ} (hp : s p) : m0 ≤ p (Fin.last n) := by
  induction bs generalizing m0 with
  | nil => simp [blkSlices] at hs
  | cons b bs ih =>
    cases b with
    | whole l =>
      simp only [blkSlices, List.mem_cons] at hs
      rcases hs with rfl | hs
      · exact hp.2.1
      · exact le_trans (Nat.le_add_right _ _) (ih hs)
    | chans ls =>
      simp only [blkSlices, List.mem_append] at hs
      rcases hs with hs | hs
      · exact (chSlices_last hs hp).1
      · exact le_trans (Nat.le_add_right _ _) (ih hs)

theorem chSlices_chan {dimN m0 m1 c0 : ℕ} {ls : List (List ℕ)} {s : Slc (n + 1)} (hd : dimN < n)
    (hs : s ∈ chSlices dimN m0 m1 c0 ls) {p : Fin (n + 1) → ℕ} (hp : s p) : c0 ≤ chan dimN p := by
  induction ls generalizing c0 with
  | nil => simp [chSlices] at hs
  | cons l ls ih =>
    simp only [chSlices, List.mem_cons] at hs
    rcases hs with rfl | hs
    · simp only [chan, hd, dif_pos]; exact (hp.2.1 _ rfl).1
    · exact le_trans (Nat.le_add_right _ _) (ih hs)

theorem leadSlc_iff {dimN : ℕ} {l : List ℕ} (p : Fin (n + 1) → ℕ) :
    leadSlc (l.take dimN) p ↔ ∀ (i : Fin (n + 1)) (h : i.val < (l.take dimN).length),
      p i < (l.take dimN)[i.val] := Iff.rfl

theorem chan_congr {dimN : ℕ} {p r : Fin (n + 1) → ℕ}
    (h : ∀ i : Fin (n + 1), dimN ≤ i.val → r i = p i) : chan dimN r = chan dimN p := by
  unfold chan
  split_ifs
  · exact h _ le_rfl
  · rfl

theorem dropLast_getLastD {dimN : ℕ} {l : List ℕ} (h : l.length = dimN + 2) :
    l.dropLast.getLastD 0 = l.getD dimN 0 := by
  have h1 : l.dropLast.length = dimN + 1 := by simp [h]
  rw [List.getLastD_eq_getLast?, List.getLast?_eq_getElem?, h1, Nat.add_sub_cancel,
    List.getElem?_dropLast, if_pos (by omega), List.getD_eq_getElem?_getD]

theorem dropLast_take {dimN : ℕ} {l : List ℕ} (h : l.length = dimN + 1) :
    l.dropLast = l.take dimN := by
  rw [List.dropLast_eq_take, h, Nat.add_sub_cancel]

/-- The channel part of one block of filters. -/
def ChSup (dimN : ℕ) (ls : List (List ℕ)) (c : ℕ) (p : Fin (n + 1) → ℕ) : Prop :=
  ∃ sz, (ls.flatMap fun l => List.replicate (l.getD dimN 0) (l.take dimN))[c]? = some sz ∧
    leadSlc sz p

theorem covers_ch {dimN m0 m1 : ℕ} (hd : dimN < n) (ls : List (List ℕ)) (c0 : ℕ)
    (hl : ∀ l ∈ ls, l.length = dimN + 2) (p : Fin (n + 1) → ℕ) (hm0 : m0 ≤ p (Fin.last n))
    (hm1 : p (Fin.last n) < m1) (hc : c0 ≤ chan dimN p) :
    Covers dimN (chSlices dimN m0 m1 c0 ls) (fun r => ChSup dimN ls (chan dimN r - c0) r) p := by
  induction ls generalizing c0 with
  | nil => left; simp [ChSup, chSlices]
  | cons l ls ih =>
    have hk := dropLast_getLastD (hl l (List.mem_cons_self))
    set k := l.getD dimN 0 with hkdef
    by_cases hck : chan dimN p < c0 + k
    · -- the channel belongs to the first block
      have hsup : ∀ r : Fin (n + 1) → ℕ, c0 ≤ chan dimN r → chan dimN r < c0 + k →
          (ChSup dimN (l :: ls) (chan dimN r - c0) r ↔ leadSlc (l.take dimN) r) := by
        intro r h0 h1
        unfold ChSup
        rw [List.flatMap_cons, List.getElem?_append_left (by rw [List.length_replicate, ← hkdef]; omega),
          List.getElem?_replicate, if_pos (by rw [← hkdef]; omega)]
        simp
      have hslc : ∀ r : Fin (n + 1) → ℕ, (∀ i : Fin (n + 1), dimN ≤ i.val → r i = p i) →
          (cbSlc dimN l c0 (c0 + l.dropLast.getLastD 0) m0 m1 r ↔ leadSlc (l.take dimN) r) := by
        intro r hr
        unfold cbSlc
        rw [hk]
        constructor
        · exact fun h => h.1
        · intro h
          refine ⟨h, ?_, ?_, ?_⟩
          · intro i hi
            have : r i = chan dimN p := by
              rw [hr i hi.ge]; simp only [chan, hd, dif_pos]; congr 1; exact Fin.ext hi
            rw [this]; exact ⟨hc, hck⟩
          · rw [hr _ (by simp; omega)]; exact hm0
          · rw [hr _ (by simp; omega)]; exact hm1
      have hrest : ∀ t ∈ chSlices (n := n) dimN m0 m1 (c0 + k) ls, ¬ t p := by
        intro t ht htp
        have := chSlices_chan hd ht htp
        omega
      by_cases hS : leadSlc (l.take dimN) p
      · right
        refine ⟨(hsup p hc hck).2 hS, [], _, chSlices dimN m0 m1 (c0 + k) ls,
          by simp only [chSlices, hk, List.nil_append], (hslc p fun _ _ => rfl).2 hS, by simp, hrest, ?_⟩
        intro r hr
        have hcr := chan_congr hr
        exact (hslc r hr).trans (hsup r (by omega) (by omega)).symm
      · left
        refine ⟨fun h => hS ((hsup p hc hck).1 h), ?_⟩
        simp only [chSlices, hk, List.mem_cons]
        rintro t (rfl | ht)
        · exact fun h => hS h.1
        · exact hrest t ht
    · have hck : c0 + k ≤ chan dimN p := not_lt.1 hck
      have hfirst : ¬ cbSlc dimN l c0 (c0 + k) m0 m1 p := by
        intro h
        have := (h.2.1 ⟨dimN, by omega⟩ rfl).2
        simp only [chan, hd, dif_pos] at hck
        omega
      have hsup : ∀ r : Fin (n + 1) → ℕ, chan dimN r = chan dimN p →
          (ChSup dimN (l :: ls) (chan dimN r - c0) r ↔
            ChSup dimN ls (chan dimN r - (c0 + k)) r) := by
        intro r hr
        unfold ChSup
        rw [List.flatMap_cons, List.getElem?_append_right (by
          rw [List.length_replicate, ← hkdef]; omega), List.length_replicate, ← hkdef,
          Nat.sub_sub]
      rcases ih (c0 + k) (fun l' h' => hl l' (List.mem_cons_of_mem _ h')) hck with
        ⟨h1, h2⟩ | ⟨h1, a, s, b, e, hs, ha, hb, hr⟩
      · left
        refine ⟨fun h => h1 ((hsup p rfl).1 h), ?_⟩
        simp only [chSlices, hk, List.mem_cons]
        rintro t (rfl | ht)
        · exact hfirst
        · exact h2 t ht
      · right
        refine ⟨(hsup p rfl).2 h1, cbSlc dimN l c0 (c0 + k) m0 m1 :: a, s, b, ?_, hs, ?_, hb, ?_⟩
        · simp only [chSlices, hk, List.cons_append, ← e]
        · simp only [List.mem_cons]
          rintro t (rfl | ht)
          · exact hfirst
          · exact ha t ht
        · intro r hr'
          exact (hr r hr').trans (hsup r (chan_congr hr')).symm

/-- The support declared by a list of blocks, filter indices counted from `m0`. -/
def BlkSup (dimN m0 : ℕ) (bs : List Blk) (p : Fin (n + 1) → ℕ) : Prop :=
  ∃ sz, ((bs.flatMap (Blk.sizes dimN))[p (Fin.last n) - m0]?).bind
    (fun f => f (chan dimN p)) = some sz ∧ leadSlc sz p

theorem covers_blk {dimN : ℕ} (hd : dimN ≤ n) (bs : List Blk) (m0 : ℕ)
    (hl : ∀ b ∈ bs, b.WF n dimN) (p : Fin (n + 1) → ℕ) (hm0 : m0 ≤ p (Fin.last n)) :
    Covers dimN (blkSlices dimN m0 bs) (BlkSup dimN m0 bs) p := by
  induction bs generalizing m0 with
  | nil => left; simp [BlkSup, blkSlices]
  | cons b bs ih =>
    -- number of filters of the first block, its slices and its support
    obtain ⟨k, ss, f, hsz, hss, hlast, hcov⟩ : ∃ (k : ℕ) (ss : List (Slc (n + 1)))
        (f : ℕ → Option (List ℕ)), b.sizes dimN = List.replicate k f ∧
        blkSlices dimN m0 (b :: bs) = ss ++ blkSlices dimN (m0 + k) bs ∧
        (∀ s ∈ ss, ∀ q : Fin (n + 1) → ℕ, s q → q (Fin.last n) < m0 + k) ∧
        (p (Fin.last n) < m0 + k →
          Covers dimN ss (fun r => ∃ sz, f (chan dimN r) = some sz ∧ leadSlc sz r) p) := by
      have hb := hl b List.mem_cons_self
      cases b with
      | whole l =>
        refine ⟨l.getLastD 0, [mbSlc l m0 (m0 + l.getLastD 0)], _, rfl, rfl, ?_, ?_⟩
        · simp only [List.mem_singleton]
          rintro s rfl q hq
          exact hq.2.2
        · intro hm1
          have key : ∀ r : Fin (n + 1) → ℕ, (∀ i : Fin (n + 1), dimN ≤ i.val → r i = p i) →
              (mbSlc l m0 (m0 + l.getLastD 0) r ↔
                ∃ sz, (if l.length = dimN + 2 ∧ l.getD dimN 0 ≤ chan dimN r then none
                  else some (l.take dimN)) = some sz ∧ leadSlc sz r) := by
            intro r hr
            have hlst : r (Fin.last n) = p (Fin.last n) := hr _ (by simpa using hd)
            unfold mbSlc
            rw [hlst]
            simp only [hm0, hm1, and_true]
            rcases hb with hb | ⟨hb, hdn⟩
            · rw [dropLast_take hb, if_neg (by omega)]
              simp
            · have hdl : l.dropLast = l.take dimN ++ [l.getD dimN 0] := by
                rw [List.dropLast_eq_take, hb, show dimN + 2 - 1 = dimN + 1 from rfl,
                  List.take_add_one, List.getD_eq_getElem?_getD]
                have : dimN < l.length := by omega
                simp [this]
              have hlt : (l.take dimN).length = dimN := by rw [List.length_take]; omega
              have hcr : chan dimN r = r ⟨dimN, by omega⟩ := by simp only [chan, hdn, dif_pos]
              have hlead : leadSlc l.dropLast r ↔
                  leadSlc (l.take dimN) r ∧ chan dimN r < l.getD dimN 0 := by
                unfold leadSlc
                rw [hdl, hcr]
                constructor
                · intro h
                  constructor
                  · intro i hi
                    have := h i (by rw [List.length_append]; omega)
                    rwa [List.getElem_append_left hi] at this
                  · have := h ⟨dimN, by omega⟩ (by simp [hlt])
                    rw [List.getElem_append_right (by simp only; omega)] at this
                    simpa using this
                · rintro ⟨h1, h2⟩ i hi
                  by_cases hi' : i.val < (l.take dimN).length
                  · rw [List.getElem_append_left hi']; exact h1 i hi'
                  · have hid : i.val = dimN := by
                      rw [List.length_append, List.length_singleton] at hi; omega
                    have hie : i = ⟨dimN, by omega⟩ := Fin.ext hid
                    have hri : r i = r ⟨dimN, by omega⟩ := congrArg r hie
                    rw [List.getElem_append_right (by omega), hri]
                    simpa using h2
              rw [hlead]
              by_cases hcl : l.getD dimN 0 ≤ chan dimN r
              · rw [if_pos ⟨hb, hcl⟩]; simp only [reduceCtorEq, false_and, exists_false, iff_false]
                rintro ⟨-, h⟩; omega
              · rw [if_neg (fun h => hcl h.2)]
                simp only [Option.some.injEq, exists_eq_left', and_iff_left_iff_imp]
                intro _; omega
          by_cases hS : mbSlc l m0 (m0 + l.getLastD 0) p
          · right
            exact ⟨(key p fun _ _ => rfl).1 hS, [], _, [], rfl, hS, by simp, by simp, key⟩
          · left
            refine ⟨fun h => hS ((key p fun _ _ => rfl).2 h), ?_⟩
            simp only [List.mem_singleton]
            rintro t rfl
            exact hS
      | chans ls =>
        refine ⟨(ls.headD []).getLastD 0, _, _, rfl, rfl, ?_, ?_⟩
        · intro s hs q hq
          exact (chSlices_last hs hq).2
        · intro hm1
          have := covers_ch (m0 := m0) hb.1 ls 0 hb.2.2 p hm0 hm1 (Nat.zero_le _)
          simp only [Nat.sub_zero] at this
          exact this
    have hfm : (b :: bs).flatMap (Blk.sizes dimN) = List.replicate k f ++ bs.flatMap (Blk.sizes dimN) := by
      rw [List.flatMap_cons, hsz]
    rw [hss]
    by_cases hm1 : p (Fin.last n) < m0 + k
    · have hsup : ∀ r : Fin (n + 1) → ℕ, r (Fin.last n) = p (Fin.last n) →
          (BlkSup dimN m0 (b :: bs) r ↔ ∃ sz, f (chan dimN r) = some sz ∧ leadSlc sz r) := by
        intro r hr
        unfold BlkSup
        rw [hfm, List.getElem?_append_left (by rw [List.length_replicate]; omega),
          List.getElem?_replicate, if_pos (by omega)]
        simp
      have hrest : ∀ t ∈ blkSlices (n := n) dimN (m0 + k) bs, ¬ t p := by
        intro t ht htp
        have := blkSlices_last ht htp
        omega
      rcases hcov hm1 with ⟨h1, h2⟩ | ⟨h1, a, s, c, e, hs, ha, hc, hr⟩
      · left
        refine ⟨fun h => h1 ((hsup p rfl).1 h), ?_⟩
        intro t ht
        rcases List.mem_append.1 ht with ht | ht
        · exact h2 t ht
        · exact hrest t ht
      · right
        refine ⟨(hsup p rfl).2 h1, a, s, c ++ blkSlices dimN (m0 + k) bs, by rw [e]; simp, hs, ha,
          ?_, ?_⟩
        · intro t ht
          rcases List.mem_append.1 ht with ht | ht
          · exact hc t ht
          · exact hrest t ht
        · intro r hr'
          rw [hr r hr', hsup r (hr' _ (by simpa using hd))]
    · have hm1 : m0 + k ≤ p (Fin.last n) := not_lt.1 hm1
      have hsup : ∀ r : Fin (n + 1) → ℕ, r (Fin.last n) = p (Fin.last n) →
          (BlkSup dimN m0 (b :: bs) r ↔ BlkSup dimN (m0 + k) bs r) := by
        intro r hr
        unfold BlkSup
        rw [hfm, List.getElem?_append_right (by rw [List.length_replicate]; omega),
          List.length_replicate, Nat.sub_sub]
      have hfirst : ∀ t ∈ ss, ¬ t p := by
        intro t ht htp
        have := hlast t ht p htp
        omega
      rcases ih (m0 + k) (fun b' h' => hl b' (List.mem_cons_of_mem _ h')) hm1 with
        ⟨h1, h2⟩ | ⟨h1, a, s, c, e, hs, ha, hc, hr⟩
      · left
        refine ⟨fun h => h1 ((hsup p rfl).1 h), ?_⟩
        intro t ht
        rcases List.mem_append.1 ht with ht | ht
        · exact hfirst t ht
        · exact h2 t ht
      · right
        refine ⟨(hsup p rfl).2 h1, ss ++ a, s, c, by rw [e]; simp, hs, ?_, hc, ?_⟩
        · intro t ht
          rcases List.mem_append.1 ht with ht | ht
          · exact hfirst t ht
          · exact ha t ht
        · intro r hr'
          rw [hr r hr', hsup r (hr' _ (by simpa using hd))]

theorem covers_visited {dimN : ℕ} (dsz : Dsz) (hw : dsz.WF n dimN) (p : Fin (n + 1) → ℕ) :
    Covers dimN (visited dsz dimN) (Support dimN dsz) p := by
  cases dsz with
  | single l =>
    have key : ∀ r : Fin (n + 1) → ℕ, leadSlc (l.take dimN) r ↔ Support dimN (.single l) r := by
      intro r
      unfold Support Dsz.size
      simp [leadSlc]
    by_cases hS : leadSlc (l.take dimN) p
    · right
      exact ⟨(key p).1 hS, [], _, [], rfl, hS, by simp, by simp, fun r _ => key r⟩
    · left
      refine ⟨fun h => hS ((key p).2 h), ?_⟩
      simp only [visited, List.mem_singleton]
      rintro t rfl
      exact hS
  | multi bs =>
    have := covers_blk hw.1 bs 0 hw.2 p (Nat.zero_le _)
    have e : (BlkSup dimN 0 bs : Slc (n + 1)) = Support dimN (.multi bs) := by
      funext r
      unfold BlkSup Support Dsz.size
      simp only [Nat.sub_zero]
      rfl
    rw [e] at this
    exact this

/-! ## What the functions compute -/

open Classical in
theorem copySlices_get (v : (Fin n → ℕ) → ℝ) (ss : List (Slc n)) (vc : (Fin n → ℕ) → ℝ)
    (p : Fin n → ℕ) : copySlices v ss vc p = if ∃ s ∈ ss, s p then v p else vc p := by
  induction ss generalizing vc with
  | nil => simp [copySlices]
  | cons s ss ih =>
    have : copySlices v (s :: ss) vc = copySlices v ss (fun p => if s p then v p else vc p) := rfl
    rw [this, ih]
    by_cases h1 : ∃ t ∈ ss, t p
    · obtain ⟨t, ht, htp⟩ := h1
      rw [if_pos ⟨t, ht, htp⟩, if_pos ⟨t, List.mem_cons_of_mem _ ht, htp⟩]
    · rw [if_neg h1]
      by_cases h2 : s p
      · rw [if_pos h2, if_pos ⟨s, List.mem_cons_self, h2⟩]
      · rw [if_neg h2, if_neg]
        rintro ⟨t, ht, htp⟩
        rcases List.mem_cons.1 ht with rfl | ht
        · exact h2 htp
        · exact h1 ⟨t, ht, htp⟩

open Classical in
theorem copySlices_covers {dimN : ℕ} {S : Slc (n + 1)} {ss : List (Slc (n + 1))}
    {p : Fin (n + 1) → ℕ} (h : Covers dimN ss S p) (v : (Fin (n + 1) → ℕ) → ℝ) :
    copySlices v ss (fun _ => 0) p = if S p then v p else 0 := by
  rw [copySlices_get]
  rcases h with ⟨h1, h2⟩ | ⟨h1, a, s, b, e, hs, -⟩
  · rw [if_neg h1, if_neg]
    rintro ⟨s, hs, hsp⟩
    exact h2 s hs hsp
  · rw [if_pos h1, if_pos ⟨s, by rw [e]; simp, hs⟩]

open Classical in
theorem zeromean_covers {dimN : ℕ} (v : Arr (n + 1)) (dsz : Dsz) (hw : dsz.WF n dimN)
    (p : Fin (n + 1) → ℕ) :
    (zeromean v dsz dimN).get p = if Support dimN dsz p then
      v.get p - (∑ r ∈ (fib v.sh dimN p).filter (Support dimN dsz), v.get r) /
        ((fib v.sh dimN p).filter (Support dimN dsz)).card else v.get p := by
  have hskip : ∀ (ss : List (Slc (n + 1))) (f : (Fin (n + 1) → ℕ) → ℝ), (∀ s ∈ ss, ¬ s p) →
      ss.foldl (fun vz s p => if s p then vz p - sliceMean v dimN s p else vz p) f p = f p := by
    intro ss
    induction ss with
    | nil => intro f _; rfl
    | cons s ss ih =>
      intro f hs
      rw [List.foldl_cons, ih _ fun t ht => hs t (List.mem_cons_of_mem _ ht),
        if_neg (hs s List.mem_cons_self)]
  unfold zeromean
  simp only
  rcases covers_visited dsz hw p with ⟨h1, h2⟩ | ⟨h1, a, s, b, e, hs, ha, hb, hr⟩
  · rw [if_neg h1, hskip _ _ h2]
  · have hf : (fib v.sh dimN p).filter s = (fib v.sh dimN p).filter (Support dimN dsz) := by
      apply Finset.filter_congr
      intro r hr'
      exact hr r (fun i hi => (Finset.mem_filter.1 hr').2 i hi)
    rw [if_pos h1, e, List.foldl_append, List.foldl_cons, hskip _ _ hb, if_pos hs,
      hskip _ _ ha]
    unfold sliceMean
    rw [hf]

theorem foldl_max_ge {α : Type} (f : α → ℕ) (l : List α) (a : ℕ) :
    a ≤ l.foldl (fun a x => max a (f x)) a ∧ ∀ x ∈ l, f x ≤ l.foldl (fun a x => max a (f x)) a := by
  induction l generalizing a with
  | nil => simp
  | cons y l ih =>
    obtain ⟨h1, h2⟩ := ih (max a (f y))
    refine ⟨(le_max_left _ _).trans h1, ?_⟩
    intro x hx
    rcases List.mem_cons.1 hx with rfl | hx
    · exact (le_max_right _ _).trans h1
    · exact h2 x hx

/-- Sizes named in a block. -/
def Blk.tuples : Blk → List (List ℕ)
  | .whole l => [l]
  | .chans ls => ls

/-- The size of the smallest array holding all declared supports, on spatial axis `i`. -/
def Dsz.extent (i : ℕ) : Dsz → ℕ
  | .single l => l.getD i 0
  | .multi bs => ((bs.flatMap Blk.tuples).map fun l => l.getD i 0).foldl max 0

theorem maxsz_eq (bs : List Blk) (i : ℕ) : maxsz bs i = (Dsz.multi bs).extent i := by
  have key : ∀ (bs : List Blk) (a : ℕ), bs.foldl (fun a b => b.tuples.foldl
      (fun a l => max a (l.getD i 0)) a) a =
      (bs.flatMap Blk.tuples).foldl (fun a l => max a (l.getD i 0)) a := by
    intro bs
    induction bs with
    | nil => intro a; rfl
    | cons b bs ih => intro a; simp only [List.foldl_cons, List.flatMap_cons, List.foldl_append, ih]
  have hm : maxsz bs i = bs.foldl (fun a b => b.tuples.foldl
      (fun a l => max a (l.getD i 0)) a) 0 := by
    unfold maxsz
    congr 1
    funext a b
    cases b <;> rfl
  rw [hm, key, Dsz.extent, List.foldl_map]

theorem maxsz_ge (bs : List Blk) (i : ℕ) (b : Blk) (hb : b ∈ bs) (l : List ℕ) (hl : l ∈ b.tuples) :
    l.getD i 0 ≤ maxsz bs i := by
  rw [maxsz_eq, Dsz.extent, List.foldl_map]
  exact (foldl_max_ge (fun l : List ℕ => l.getD i 0) _ 0).2 l (List.mem_flatMap.2 ⟨b, hb, hl⟩)

theorem support_maxsz {dimN : ℕ} (bs : List Blk) (p : Fin (n + 1) → ℕ)
    (hw : (Dsz.multi bs).WF n dimN)
    (h : Support dimN (.multi bs) p) (i : Fin (n + 1)) (hi : i.val < dimN) :
    p i < maxsz bs i.val := by
  obtain ⟨sz, h1, h2⟩ := h
  unfold Dsz.size at h1
  simp only [Option.bind_eq_some_iff] at h1
  obtain ⟨f, hf, hsz⟩ := h1
  obtain ⟨b, hb, hfb⟩ := List.mem_flatMap.1 (List.mem_of_getElem? hf)
  have hwb := hw.2 b hb
  obtain ⟨l, hl, hll, rfl⟩ : ∃ l, l ∈ b.tuples ∧ dimN ≤ l.length ∧ sz = l.take dimN := by
    cases b with
    | whole l =>
      have := List.eq_of_mem_replicate hfb
      subst this
      simp only at hsz
      split_ifs at hsz
      refine ⟨l, by simp [Blk.tuples], ?_, (Option.some.inj hsz).symm⟩
      rcases hwb with h | h <;> omega
    | chans ls =>
      have := List.eq_of_mem_replicate hfb
      subst this
      simp only at hsz
      obtain ⟨l, hl, hm⟩ := List.mem_flatMap.1 (List.mem_of_getElem? hsz)
      refine ⟨l, hl, ?_, List.eq_of_mem_replicate hm⟩
      have := hwb.2.2 l hl
      omega
  have hlt : i.val < (l.take dimN).length := by rw [List.length_take]; omega
  have h3 := h2 i hlt
  have h4 := maxsz_ge bs i.val b hb l hl
  rw [List.getElem_take] at h3
  rw [List.getD_eq_getElem _ _ (by omega)] at h4
  omega

/-- The array is at least as large as the declared supports. -/
def Fits (dimN : ℕ) (dsz : Dsz) (x : Arr (n + 1)) : Prop :=
  ∀ p, Support dimN dsz p → (∀ i : Fin (n + 1), dimN ≤ i.val → p i < x.sh i) → x.In p

theorem bcrop_sh_tail {dimN : ℕ} (x : Arr (n + 1)) (dsz : Dsz) (i : Fin (n + 1))
    (hi : dimN ≤ i.val) : (bcrop x dsz dimN).sh i = x.sh i := by
  cases dsz with
  | single l =>
    unfold bcrop
    simp only
    rw [dif_neg]
    rw [List.length_take]; omega
  | multi bs =>
    unfold bcrop
    simp only
    rw [if_neg (by omega)]

theorem bcrop_in {dimN : ℕ} (x : Arr (n + 1)) (dsz : Dsz) (hw : dsz.WF n dimN)
    (hx : Fits dimN dsz x) (p : Fin (n + 1) → ℕ) (hs : Support dimN dsz p)
    (hp : ∀ i : Fin (n + 1), dimN ≤ i.val → p i < x.sh i) : (bcrop x dsz dimN).In p := by
  intro i
  by_cases hi : dimN ≤ i.val
  · rw [bcrop_sh_tail x dsz i hi]; exact hp i hi
  have hi : i.val < dimN := not_le.1 hi
  have hin := hx p hs hp i
  cases dsz with
  | single l =>
    obtain ⟨sz, h1, h2⟩ := hs
    unfold Dsz.size at h1
    obtain rfl := Option.some.inj h1
    unfold bcrop
    simp only
    have hlt : i.val < (l.take dimN).length := by
      rw [List.length_take]; have := hw.2; omega
    rw [dif_pos hlt]
    exact lt_min (h2 i hlt) hin
  | multi bs =>
    unfold bcrop
    simp only
    rw [if_pos hi]
    exact support_maxsz bs p hw hs i hi

open Classical in
theorem bcrop_get {dimN : ℕ} (x : Arr (n + 1)) (dsz : Dsz) (hw : dsz.WF n dimN)
    (p : Fin (n + 1) → ℕ) (hp : (bcrop x dsz dimN).In p) :
    (bcrop x dsz dimN).get p = if Support dimN dsz p then x.get p else 0 := by
  cases dsz with
  | single l =>
    rw [if_pos]
    · rfl
    · refine ⟨l.take dimN, rfl, ?_⟩
      intro i hi
      have := hp i
      unfold bcrop at this
      simp only at this
      rw [dif_pos hi] at this
      exact (lt_min_iff.1 this).1
  | multi bs =>
    exact copySlices_covers (covers_visited (.multi bs) hw p) x.get

/-- The array before `zeromean` and `normalise` in `Pcn`. -/
noncomputable def prep (x : Arr (n + 1)) (dsz : Dsz) (Nv : List ℕ) (dimN : ℕ) (crp : Bool) :
    Option (Arr (n + 1)) :=
  if crp then some (bcrop x dsz dimN) else zpad (bcrop x dsz dimN) Nv

open Classical in
theorem prep_spec {dimN : ℕ} {x y : Arr (n + 1)} {dsz : Dsz} {Nv : List ℕ} {crp : Bool}
    (hw : dsz.WF n dimN) (hN : Nv.length = dimN) (hx : Fits dimN dsz x)
    (hy : prep x dsz Nv dimN crp = some y) :
    (∀ p, y.In p → y.get p = if Support dimN dsz p then x.get p else 0) ∧
    (∀ i : Fin (n + 1), dimN ≤ i.val → y.sh i = x.sh i) ∧ Fits dimN dsz y := by
  unfold prep at hy
  cases crp with
  | true =>
    simp only [if_true, Option.some.injEq] at hy
    subst hy
    refine ⟨fun p hp => bcrop_get x dsz hw p hp, fun i hi => bcrop_sh_tail x dsz i hi, ?_⟩
    intro p hs hp
    exact bcrop_in x dsz hw hx p hs fun i hi => by
      have := hp i hi; rwa [bcrop_sh_tail x dsz i hi] at this
  | false =>
    simp only [Bool.false_eq_true, if_false] at hy
    unfold zpad at hy
    split_ifs at hy with hfit
    simp only [Option.some.injEq] at hy
    subst hy
    have htail : ∀ i : Fin (n + 1), dimN ≤ i.val →
        (if h : i.val < Nv.length then Nv[i.val] else (bcrop x dsz dimN).sh i) = x.sh i := by
      intro i hi
      rw [dif_neg (by omega), bcrop_sh_tail x dsz i hi]
    have hin : ∀ p, Support dimN dsz p → (∀ i : Fin (n + 1), dimN ≤ i.val →
        p i < (if h : i.val < Nv.length then Nv[i.val] else (bcrop x dsz dimN).sh i)) →
        (bcrop x dsz dimN).In p := by
      intro p hs hp
      exact bcrop_in x dsz hw hx p hs fun i hi => by
        have := hp i hi; rwa [htail i hi] at this
    refine ⟨?_, htail, ?_⟩
    · intro p hp
      simp only
      by_cases hb : (bcrop x dsz dimN).In p
      · rw [if_pos hb, bcrop_get x dsz hw p hb]
      · rw [if_neg hb, if_neg]
        intro hs
        exact hb (hin p hs fun i _ => hp i)
    · intro p hs hp i
      have := hin p hs hp i
      simp only
      split_ifs with h
      · exact lt_of_lt_of_le this (hfit i h)
      · exact this

theorem Pcn_eq (x : Arr (n + 1)) (dsz : Dsz) (Nv : List ℕ) (dimN dimC : ℕ) (crp zm : Bool) :
    Pcn x dsz Nv dimN dimC crp zm = (prep x dsz Nv dimN crp).map fun y =>
      normalise (if zm then zeromean y dsz dimN else y) (dimN + dimC) := rfl

/-! ## Sums over fibres -/

theorem mem_box {sh p : Fin n → ℕ} : p ∈ box sh ↔ ∀ i, p i < sh i := by simp [box]

theorem mem_fib {sh : Fin n → ℕ} {q : ℕ} {p r : Fin n → ℕ} :
    r ∈ fib sh q p ↔ (∀ i, r i < sh i) ∧ ∀ i : Fin n, q ≤ i.val → r i = p i := by
  rw [fib, Finset.mem_filter, mem_box]

theorem fib_congr {sh : Fin n → ℕ} {q : ℕ} {p r : Fin n → ℕ}
    (h : ∀ i : Fin n, q ≤ i.val → r i = p i) : fib sh q r = fib sh q p := by
  ext t
  rw [mem_fib, mem_fib]
  constructor
  · rintro ⟨h1, h2⟩; exact ⟨h1, fun i hi => (h2 i hi).trans (h i hi)⟩
  · rintro ⟨h1, h2⟩; exact ⟨h1, fun i hi => (h2 i hi).trans (h i hi).symm⟩

theorem fib_self {sh : Fin n → ℕ} {q : ℕ} {p : Fin n → ℕ} (hp : ∀ i, p i < sh i) :
    p ∈ fib sh q p := mem_fib.2 ⟨hp, fun _ _ => rfl⟩

theorem fib_all (sh : Fin n → ℕ) (p : Fin n → ℕ) : fib sh n p = box sh := by
  ext t
  rw [mem_fib, mem_box]
  constructor
  · exact fun h => h.1
  · exact fun h => ⟨h, fun i hi => absurd i.isLt (by omega)⟩

/-- An inequality between sums over the small fibres gives one over the large fibre. -/
theorem sum_fib_le (sh : Fin n → ℕ) {q q' : ℕ} (hq : q ≤ q') (p : Fin n → ℕ)
    (f g : (Fin n → ℕ) → ℝ)
    (h : ∀ r ∈ fib sh q' p, ∑ t ∈ fib sh q r, f t ≤ ∑ t ∈ fib sh q r, g t) :
    ∑ t ∈ fib sh q' p, f t ≤ ∑ t ∈ fib sh q' p, g t := by
  let κ : (Fin n → ℕ) → (Fin n → ℕ) := fun r i => if q ≤ i.val then r i else 0
  have hm : ∀ r ∈ fib sh q' p, κ r ∈ (fib sh q' p).image κ := fun r hr => Finset.mem_image_of_mem _ hr
  rw [← Finset.sum_fiberwise_of_maps_to hm f, ← Finset.sum_fiberwise_of_maps_to hm g]
  apply Finset.sum_le_sum
  intro k hk
  obtain ⟨r, hr, rfl⟩ := Finset.mem_image.1 hk
  have : (fib sh q' p).filter (fun t => κ t = κ r) = fib sh q r := by
    ext t
    rw [Finset.mem_filter, mem_fib, mem_fib]
    have hk : κ t = κ r ↔ ∀ i : Fin n, q ≤ i.val → t i = r i := by
      constructor
      · intro e i hi
        have := congrFun e i
        simpa [κ, hi] using this
      · intro e
        funext i
        by_cases hi : q ≤ i.val
        · simpa [κ, hi] using e i hi
        · simp [κ, hi]
    rw [hk]
    constructor
    · rintro ⟨⟨h1, -⟩, h3⟩; exact ⟨h1, h3⟩
    · rintro ⟨h1, h2⟩
      refine ⟨⟨h1, fun i hi => ?_⟩, h2⟩
      rw [h2 i (hq.trans hi), (mem_fib.1 hr).2 i hi]
  rw [this]
  exact h r hr

theorem sum_fib_zero (sh : Fin n → ℕ) {q q' : ℕ} (hq : q ≤ q') (p : Fin n → ℕ)
    (f : (Fin n → ℕ) → ℝ) (h : ∀ r ∈ fib sh q' p, ∑ t ∈ fib sh q r, f t = 0) :
    ∑ t ∈ fib sh q' p, f t = 0 := by
  apply le_antisymm
  · have := sum_fib_le sh hq p f (fun _ => 0) (fun r hr => by rw [h r hr]; simp)
    simpa using this
  · have := sum_fib_le sh hq p (fun _ => 0) f (fun r hr => by rw [h r hr]; simp)
    simpa using this

/-! ## The linear part of the projection -/

/-- The linear constraints: support and zero mean. -/
def Linear (dimN : ℕ) (dsz : Dsz) (zm : Bool) (y : Arr (n + 1)) : Prop :=
  (∀ p, y.In p → ¬ Support dimN dsz p → y.get p = 0) ∧
  (zm = true → ∀ p, y.In p → ∑ r ∈ fib y.sh dimN p, y.get r = 0)

open Classical in
theorem linear_part {dimN : ℕ} (x y : Arr (n + 1)) (dsz : Dsz) (zm : Bool) (hw : dsz.WF n dimN)
    (hy : ∀ p, y.In p → y.get p = if Support dimN dsz p then x.get p else 0) :
    let z := if zm then zeromean y dsz dimN else y
    z.sh = y.sh ∧ Linear dimN dsz zm z ∧
    ∀ (w : Arr (n + 1)), w.sh = y.sh → Linear dimN dsz zm w → ∀ q, dimN ≤ q → ∀ p,
      ∑ r ∈ fib y.sh q p, x.get r * w.get r = ∑ r ∈ fib y.sh q p, z.get r * w.get r := by
  cases zm with
  | false =>
    simp only [Bool.false_eq_true, if_false]
    refine ⟨trivial, ⟨fun p hp hs => by rw [hy p hp, if_neg hs], fun h => by cases h⟩, ?_⟩
    intro w hsh hl q hq p
    apply Finset.sum_congr rfl
    intro r hr
    have hin : y.In r := (mem_fib.1 hr).1
    by_cases hs : Support dimN dsz r
    · rw [hy r hin, if_pos hs]
    · rw [hl.1 r (by unfold Arr.In; rw [hsh]; exact hin) hs]; simp
  | true =>
    simp only [if_true]
    have hz := zeromean_covers y dsz hw
    set z := zeromean y dsz dimN with hzdef
    have hzsh : z.sh = y.sh := rfl
    refine ⟨rfl, ⟨?_, ?_⟩, ?_⟩
    · intro p hp hs
      rw [hz p, if_neg hs, hy p hp, if_neg hs]
    · intro _ p hp
      rw [hzsh]
      have hsplit : ∑ r ∈ fib y.sh dimN p, z.get r =
          ∑ r ∈ (fib y.sh dimN p).filter (Support dimN dsz), z.get r := by
        rw [Finset.sum_filter]
        apply Finset.sum_congr rfl
        intro r hr
        by_cases hs : Support dimN dsz r
        · rw [if_pos hs]
        · rw [if_neg hs, hz r, if_neg hs, hy r (mem_fib.1 hr).1, if_neg hs]
      rw [hsplit]
      set F := (fib y.sh dimN p).filter (Support dimN dsz) with hF
      have : ∀ r ∈ F, z.get r = y.get r - (∑ t ∈ F, y.get t) / F.card := by
        intro r hr
        rw [hz r, if_pos (Finset.mem_filter.1 hr).2,
          fib_congr (mem_fib.1 (Finset.mem_filter.1 hr).1).2]
      rw [Finset.sum_congr rfl this, Finset.sum_sub_distrib, Finset.sum_const, nsmul_eq_mul]
      by_cases hc : F.card = 0
      · rw [Finset.card_eq_zero] at hc; rw [hc]; simp
      · rw [mul_div_cancel₀]
        · ring
        · exact_mod_cast hc
    · intro w hsh hl q hq p
      rw [← sub_eq_zero, ← Finset.sum_sub_distrib]
      apply sum_fib_zero y.sh hq p
      intro r hr
      have hin : y.In r := (mem_fib.1 hr).1
      set c := (∑ t ∈ (fib y.sh dimN r).filter (Support dimN dsz), y.get t) /
        ((fib y.sh dimN r).filter (Support dimN dsz)).card with hc
      have : ∀ t ∈ fib y.sh dimN r, x.get t * w.get t - z.get t * w.get t = c * w.get t := by
        intro t ht
        have htin : y.In t := (mem_fib.1 ht).1
        by_cases hs : Support dimN dsz t
        · rw [hz t, if_pos hs, hy t htin, if_pos hs, fib_congr (mem_fib.1 ht).2, ← hc]
          ring
        · rw [hl.1 t (by unfold Arr.In; rw [hsh]; exact htin) hs]; simp
      rw [Finset.sum_congr rfl this, ← Finset.mul_sum]
      have h0 := hl.2 rfl r (by unfold Arr.In; rw [hsh]; exact hin)
      rw [hsh] at h0
      rw [h0, mul_zero]

end Sporco.Cnvrep
