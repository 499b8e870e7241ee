import Verif.Dictlrn.Online
import Verif.Conv.CcmodModel

/-!
# The variable of the convolutional dictionary updates and the dictionary arrays

The dictionary updates of `admm/ccmod.py`, `admm/ccmodmd.py`, `pgm/ccmod.py` work on an array of filters of the size of the
signal; `getdict` cuts it down with `bcrop`.  The projection is the one that `cnvrep.getPcn` returns, for any (also
multi-scale) dictionary size specification.
-/

set_option autoImplicit false

namespace Sporco.Dictlrn

open Finset Sporco.Conv Sporco.Cnvrep

/-! ## Model -/

section Model
variable {d : ℕ} {N : Fin d → ℕ} [∀ k, NeZero (N k)] {c m : ℕ}

/-- The variable as an array with axes `Nv + (Cd,) + (1,) + (M,)` (`cnvrep.py` 246-263). -/
def full (V : Coef (Fin (c + 1)) (Fin m) N) : Arr (d + 2 + 1) :=
  gArr N (c + 1) m fun i f p => if h : i < c + 1 ∧ f < m then part V ⟨i, h.1⟩ ⟨f, h.2⟩ p else 0

/-- The array of filters of the size of the signal: an array of smaller spatial size is extended by zeros (`zpad`,
`cnvrep.py` 704-725, as called in `cbpdndl.py` 453-454 and `cbpdndlmd.py` 470). -/
def coefOf (D : Arr (d + 2 + 1)) : Coef (Fin (c + 1)) (Fin m) N := join fun i f p => padG D N i f p

/-- `getPcn(dsz, Nv, dimN, dimCd, crp=False, zm)` (`admm/ccmod.py` 286-287, 723-724, `admm/ccmodmd.py` 297-298,
`pgm/ccmod.py` 242-243).  If the padding raised an error, then so did the construction of the object; the value is then
arbitrary. -/
noncomputable def pcnC (dsz : Dsz) (dimC : ℕ) (zm : Bool) (V : Coef (Fin (c + 1)) (Fin m) N) :
    Coef (Fin (c + 1)) (Fin m) N :=
  match getPcn dsz (List.ofFn N) d dimC false zm (full V) with
  | some w => coefOf w
  | none => V

/-- `bcrop(D, dsz, dimN)` as called by `getdict` (`admm/ccmod.py` 331-339, 849-857, `admm/ccmodmd.py` 344-352,
`pgm/ccmod.py` 283-291). -/
noncomputable def cropC (dsz : Dsz) (V : Coef (Fin (c + 1)) (Fin m) N) : Arr (d + 2 + 1) := bcrop (full V) dsz d

/-- A dictionary array as a dictionary of filters of the sizes that `dsz` declares (`setdict` of the sparse coding
classes). -/
def dictOf (dsz : Dsz) (D : Arr (d + 2 + 1)) : Dict c (Fin m) fun k : Fin d => dsz.extent k.val := fun i f p =>
  D.get (idx (fun k => (p k).val) i 0 f)

end Model

/-! ## Feasibility of cut and padded arrays -/

section Trans
variable {n dimN q : ℕ} {dsz : Dsz} {zm : Bool} {u v : Arr (n + 1)}

theorem sum_fib_ext (hle : ∀ i, v.sh i ≤ u.sh i) (h0 : ∀ p, u.In p → ¬ v.In p → u.get p = 0)
    (heq : ∀ p, v.In p → v.get p = u.get p) (f : ℝ → ℝ) (hf : f 0 = 0) (r : ℕ) (p : Fin (n + 1) → ℕ) :
    ∑ t ∈ fib u.sh r p, f (u.get t) = ∑ t ∈ fib v.sh r p, f (v.get t) := by
  have h1 : ∑ t ∈ fib v.sh r p, f (v.get t) = ∑ t ∈ fib v.sh r p, f (u.get t) :=
    sum_congr rfl fun t ht => by rw [heq t (mem_fib.1 ht).1]
  rw [h1]
  symm
  · refine sum_subset (fun t ht => ?_) fun t ht hnt => ?_
    · exact mem_fib.2 ⟨fun i => ((mem_fib.1 ht).1 i).trans_le (hle i), (mem_fib.1 ht).2⟩
    · rw [h0 t (mem_fib.1 ht).1 fun h => hnt (mem_fib.2 ⟨h, (mem_fib.1 ht).2⟩), hf]

/-- An array and its extension by zeros are in the constraint set together. -/
theorem feasible_ext (hle : ∀ i, v.sh i ≤ u.sh i) (heq : ∀ p, v.In p → v.get p = u.get p)
    (h0 : ∀ p, u.In p → ¬ v.In p → u.get p = 0) : Feasible dimN q dsz zm u ↔ Feasible dimN q dsz zm v := by
  constructor
  · intro h
    have hin : ∀ p, v.In p → u.In p := fun p hp i => (hp i).trans_le (hle i)
    refine ⟨fun p hp hs => ?_, fun hz p hp => ?_, fun p hp => ?_⟩
    · rw [heq p hp, h.supp p (hin p hp) hs]
    · rw [← sum_fib_ext hle h0 heq (fun x => x) rfl]
      exact h.mean hz p (hin p hp)
    · refine (h.norm p (hin p hp)).imp (fun h1 => ?_) fun h1 r hr => ?_
      · rw [← sum_fib_ext hle h0 heq (fun x => x ^ 2) (by norm_num)]
        exact h1
      · rw [heq r (mem_fib.1 hr).1]
        exact h1 r (mem_fib.2 ⟨hin r (mem_fib.1 hr).1, (mem_fib.1 hr).2⟩)
  · intro h
    refine ⟨fun p hp hs => ?_, fun hz p hp => ?_, fun p hp => ?_⟩
    · by_cases hv : v.In p
      · rw [← heq p hv]; exact h.supp p hv hs
      · exact h0 p hp hv
    · rw [sum_fib_ext hle h0 heq (fun x => x) rfl]
      rcases (fib v.sh dimN p).eq_empty_or_nonempty with he | ⟨r, hr⟩
      · rw [he, sum_empty]
      · rw [← fib_congr (mem_fib.1 hr).2]
        exact h.mean hz r (mem_fib.1 hr).1
    · rcases (fib v.sh q p).eq_empty_or_nonempty with he | ⟨r, hr⟩
      · right
        intro r hr
        refine h0 r (mem_fib.1 hr).1 fun hv => ?_
        have : r ∈ fib v.sh q p := mem_fib.2 ⟨hv, (mem_fib.1 hr).2⟩
        rw [he] at this
        exact absurd this (notMem_empty r)
      · have h1 := h.norm r (mem_fib.1 hr).1
        rw [fib_congr (mem_fib.1 hr).2] at h1
        refine h1.imp (fun h2 => ?_) fun h2 t ht => ?_
        · rw [sum_fib_ext hle h0 heq (fun x => x ^ 2) (by norm_num)]
          exact h2
        · by_cases hv : v.In t
          · rw [← heq t hv]
            exact h2 t (mem_fib.2 ⟨hv, (mem_fib.1 ht).2⟩)
          · exact h0 t (mem_fib.1 ht).1 hv

theorem bcrop_sh_lead (hw : dsz.WF n dimN) (x : Arr (n + 1)) (hx : ∀ i : Fin (n + 1), i.val < dimN → dsz.extent i.val ≤ x.sh i)
    (i : Fin (n + 1)) (hi : i.val < dimN) : (bcrop x dsz dimN).sh i = dsz.extent i.val := by
  have h := hx i hi
  cases dsz with
  | multi bs => simp only [bcrop, if_pos hi, maxsz_eq]
  | single l =>
    have hl : i.val < (l.take dimN).length := by
      rw [List.length_take]; have := hw.2; omega
    have hl' : i.val < l.length := by have := hw.2; omega
    simp only [bcrop, dif_pos hl, Dsz.extent] at h ⊢
    rw [List.getElem_take, List.getD_eq_getElem _ _ hl']
    rw [List.getD_eq_getElem _ _ hl'] at h
    omega

theorem support_extent (hw : dsz.WF n dimN) {p : Fin (n + 1) → ℕ} (hs : Support dimN dsz p) (i : Fin (n + 1))
    (hi : i.val < dimN) : p i < dsz.extent i.val := by
  cases dsz with
  | multi bs =>
    rw [← maxsz_eq]
    exact support_maxsz bs p hw hs i hi
  | single l =>
    obtain ⟨sz, h1, h2⟩ := hs
    obtain rfl := Option.some.inj h1
    have hlt : i.val < (l.take dimN).length := by
      rw [List.length_take]; have := hw.2; omega
    have h3 := h2 i hlt
    rw [List.getElem_take] at h3
    rw [Dsz.extent, List.getD_eq_getElem _ _ (by have := hw.2; omega)]
    exact h3

theorem fits_extent (hw : dsz.WF n dimN) (x : Arr (n + 1)) (hx : ∀ i : Fin (n + 1), i.val < dimN → dsz.extent i.val ≤ x.sh i) :
    Fits dimN dsz x := by
  intro p hs hp i
  by_cases hi : i.val < dimN
  · exact (support_extent hw hs i hi).trans_le (hx i hi)
  · exact hp i (not_lt.1 hi)

/-- Cutting down an array in the constraint set. -/
theorem feasible_bcrop (hw : dsz.WF n dimN) {x : Arr (n + 1)}
    (hx : ∀ i : Fin (n + 1), i.val < dimN → dsz.extent i.val ≤ x.sh i) (h : Feasible dimN q dsz zm x) :
    Feasible dimN q dsz zm (bcrop x dsz dimN) ∧ (∀ p, (bcrop x dsz dimN).In p → (bcrop x dsz dimN).get p = x.get p) ∧
      ∀ p, x.In p → ¬ (bcrop x dsz dimN).In p → x.get p = 0 := by
  have hle : ∀ i, (bcrop x dsz dimN).sh i ≤ x.sh i := by
    intro i
    by_cases hi : i.val < dimN
    · rw [bcrop_sh_lead hw x hx i hi]; exact hx i hi
    · rw [bcrop_sh_tail x dsz i (not_lt.1 hi)]
  have heq : ∀ p, (bcrop x dsz dimN).In p → (bcrop x dsz dimN).get p = x.get p := by
    intro p hp
    rw [bcrop_get x dsz hw p hp]
    split_ifs with hs
    · rfl
    · exact (h.supp p (fun i => (hp i).trans_le (hle i)) hs).symm
  have h0 : ∀ p, x.In p → ¬ (bcrop x dsz dimN).In p → x.get p = 0 := by
    intro p hp hn
    refine h.supp p hp fun hs => hn ?_
    exact bcrop_in x dsz hw (fits_extent hw x hx) p hs fun i _ => hp i
  exact ⟨(feasible_ext hle heq h0).1 h, heq, h0⟩

end Trans

/-! ## Feasibility of the variable -/

section Full
variable {d : ℕ} {N : Fin d → ℕ} [∀ k, NeZero (N k)] {c m : ℕ}

theorem idx_spatial (p : Fin d → ℕ) (i u f : ℕ) (k : Fin d) : idx p i u f ⟨k, by omega⟩ = p k := by
  unfold idx
  rw [dif_pos k.isLt]

theorem idx_in {sh : Fin d → ℕ} {C U M : ℕ} {p : Fin d → ℕ} {i u f : ℕ} (hp : ∀ k, p k < sh k) (hi : i < C) (hu : u < U)
    (hf : f < M) (t : Fin (d + 2 + 1)) : idx p i u f t < idx sh C U M t := by
  unfold idx
  split_ifs
  · exact hp _
  · exact hi
  · exact hu
  · exact hf

theorem idx_eta {sh : Fin d → ℕ} {C M : ℕ} {t : Fin (d + 2 + 1) → ℕ} (h : ∀ i, t i < idx sh C 1 M i) :
    t = idx (fun k => t ⟨k, by omega⟩) (t ⟨d, by omega⟩) 0 (t (Fin.last _)) := by
  funext i
  unfold idx
  split_ifs with h1 h2 h3
  · rfl
  · congr 1; exact Fin.ext h2
  · have := h i
    unfold idx at this
    rw [dif_neg h1, if_neg h2, if_pos h3] at this
    omega
  · congr 1; exact Fin.ext (by have := i.isLt; simp; omega)

theorem full_get (V : Coef (Fin (c + 1)) (Fin m) N) (i : Fin (c + 1)) (f : Fin m) (p : Grid N) :
    (full V).get (idx (fun k => (p k).val) i 0 f) = part V i f p := by
  have h1 : idx (fun k => (p k).val) (i : ℕ) 0 f (⟨d, by omega⟩ : Fin (d + 2 + 1)) = i := by
    unfold idx; rw [dif_neg (by simp), if_pos rfl]
  have h2 : idx (fun k => (p k).val) (i : ℕ) 0 f (Fin.last (d + 2)) = f := by
    unfold idx; rw [dif_neg (by simp), if_neg (by simp), if_neg (by simp)]
  have h3 : (fun k : Fin d => ((idx (fun k => (p k).val) (i : ℕ) 0 f ⟨k, by omega⟩ : ℕ) : ZMod (N k))) = p := by
    funext k
    rw [idx_spatial]
    exact ZMod.natCast_zmod_val (p k)
  unfold full gArr
  dsimp only
  rw [h1, h2, h3, dif_pos ⟨i.isLt, f.isLt⟩]

theorem full_sh_lead (V : Coef (Fin (c + 1)) (Fin m) N) (k : Fin d) : (full V).sh ⟨k, by omega⟩ = N k := idx_spatial _ _ _ _ _

open Classical in
/-- The variable made from an array agrees with it, and vanishes elsewhere. -/
theorem full_coefOf {D : Arr (d + 2 + 1)} {sh : Fin d → ℕ} (hD : D.sh = idx sh (c + 1) 1 m) (hN : ∀ k, sh k ≤ N k) :
    (∀ i, D.sh i ≤ (full (coefOf (N := N) (c := c) (m := m) D)).sh i) ∧
    (∀ p, D.In p → D.get p = (full (coefOf (N := N) (c := c) (m := m) D)).get p) ∧
    ∀ p, (full (coefOf (N := N) (c := c) (m := m) D)).In p → ¬ D.In p → (full (coefOf (N := N) (c := c) (m := m) D)).get p = 0 := by
  have hle : ∀ i, D.sh i ≤ (full (coefOf (N := N) (c := c) (m := m) D)).sh i := by
    intro i
    rw [hD]
    change idx sh (c + 1) 1 m i ≤ idx N (c + 1) 1 m i
    unfold idx
    split_ifs with h1
    · exact hN _
    all_goals exact le_rfl
  have hsp : ∀ k, Arr.sp D k = sh k := fun k => by unfold Arr.sp; rw [hD]; exact idx_spatial _ _ _ _ _
  have hval : ∀ t, (full (coefOf (N := N) (c := c) (m := m) D)).In t →
      (full (coefOf (N := N) (c := c) (m := m) D)).get t = if D.In t then D.get t else 0 := by
    intro t ht
    have ht' : ∀ i, t i < idx N (c + 1) 1 m i := ht
    have e := idx_eta ht'
    have hd := ht' ⟨d, by omega⟩
    have hl := ht' (Fin.last _)
    unfold idx at hd hl
    rw [dif_neg (by simp), if_pos rfl] at hd
    rw [dif_neg (by simp), if_neg (by simp), if_neg (by simp)] at hl
    have hg := full_get (coefOf (N := N) (c := c) (m := m) D) ⟨t ⟨d, by omega⟩, hd⟩ ⟨t (Fin.last _), hl⟩
      fun k => ((t ⟨k, by omega⟩ : ℕ) : ZMod (N k))
    have hv : ∀ k : Fin d, (((t ⟨k, by omega⟩ : ℕ) : ZMod (N k))).val = t ⟨k, by omega⟩ := by
      intro k
      have := ht' ⟨k, by omega⟩
      rw [idx_spatial] at this
      exact ZMod.val_natCast_of_lt this
    simp only [hv] at hg
    rw [← e] at hg
    rw [hg]
    change padG D N _ _ _ = _
    unfold padG
    simp only [hv, hsp]
    rw [← e]
    have hiff : (∀ k : Fin d, t ⟨k, by omega⟩ < sh k) ↔ D.In t := by
      constructor
      · intro h i
        rw [hD]
        unfold idx
        split_ifs with h1 h2 h3
        · exact h ⟨i, h1⟩
        · have : i = ⟨d, by omega⟩ := Fin.ext h2
          rw [this]; exact hd
        · have := ht' i
          unfold idx at this
          rwa [dif_neg h1, if_neg h2, if_pos h3] at this
        · have : i = Fin.last _ := Fin.ext (by have := i.isLt; simp; omega)
          rw [this]; exact hl
      · intro h k
        have := h ⟨k, by omega⟩
        rw [hD, idx_spatial] at this
        exact this
    by_cases h : D.In t
    · rw [if_pos h, if_pos (hiff.2 h)]
    · rw [if_neg h, if_neg fun h' => h (hiff.1 h')]
  refine ⟨hle, fun p hp => ?_, fun p hp hn => ?_⟩
  · rw [hval p fun i => (hp i).trans_le (hle i), if_pos hp]
  · rw [hval p hp, if_neg hn]

variable {dsz : Dsz} {dimC : ℕ} {zm : Bool}

theorem full_extent (hN : ∀ k : Fin d, dsz.extent k.val ≤ N k) (V : Coef (Fin (c + 1)) (Fin m) N) (i : Fin (d + 2 + 1))
    (hi : i.val < d) : dsz.extent i.val ≤ (full V).sh i := by
  rw [show i = ⟨(⟨i.val, hi⟩ : Fin d).val, by omega⟩ from rfl, full_sh_lead]
  exact hN ⟨i.val, hi⟩

/-- The projection succeeds. -/
theorem pcnC_some (hw : dsz.WF (d + 2) d) (hN : ∀ k : Fin d, dsz.extent k.val ≤ N k) (V : Coef (Fin (c + 1)) (Fin m) N) :
    ∃ w, getPcn dsz (List.ofFn N) d dimC false zm (full V) = some w ∧ pcnC dsz dimC zm V = coefOf w ∧
      w.sh = idx N (c + 1) 1 m := by
  have hz : ∃ y, zpad (bcrop (full V) dsz d) (List.ofFn N) = some y ∧ y.sh = idx N (c + 1) 1 m := by
    have hfit : ∀ (i : Fin (d + 2 + 1)) (h : i.val < (List.ofFn N).length), (bcrop (full V) dsz d).sh i ≤ (List.ofFn N)[i.val] := by
      intro i h
      rw [List.length_ofFn] at h
      rw [bcrop_sh_lead hw _ (full_extent hN V) i h, List.getElem_ofFn]
      exact hN ⟨i.val, h⟩
    refine ⟨_, if_pos hfit, ?_⟩
    funext i
    dsimp only
    by_cases h : i.val < d
    · rw [dif_pos (by rw [List.length_ofFn]; exact h), List.getElem_ofFn]
      unfold idx
      rw [dif_pos h]
    · rw [dif_neg (by rw [List.length_ofFn]; exact h), bcrop_sh_tail _ _ _ (not_lt.1 h)]
      rfl
  obtain ⟨y, hy, hsh⟩ := hz
  have hg : ∃ w, getPcn dsz (List.ofFn N) d dimC false zm (full V) = some w ∧ w.sh = y.sh := by
    unfold getPcn
    cases zm
    · simp only [hy, Option.map_some]
      exact ⟨_, rfl, rfl⟩
    · simp only [hy, Option.map_some]
      exact ⟨_, rfl, rfl⟩
  obtain ⟨w, h1, h2⟩ := hg
  refine ⟨w, h1, ?_, h2.trans hsh⟩
  unfold pcnC
  rw [h1]

/-- The projected variable is in the constraint set. -/
theorem pcnC_feasible (hw : dsz.WF (d + 2) d) (hN : ∀ k : Fin d, dsz.extent k.val ≤ N k) (hz : zm = false ∨ d = 2)
    (V : Coef (Fin (c + 1)) (Fin m) N) : Feasible d (d + dimC) dsz zm (full (pcnC dsz dimC zm V)) := by
  obtain ⟨w, h1, h2, h3⟩ := pcnC_some (dimC := dimC) (zm := zm) hw hN V
  rw [C34_getPcn_partial (Or.inr hz)] at h1
  have h4 := (C34_feasible hw (List.length_ofFn) (fits_extent hw _ (full_extent hN V)) h1).1
  obtain ⟨e1, e2, e3⟩ := full_coefOf (N := N) h3 fun _ => le_rfl
  rw [h2]
  exact (feasible_ext e1 e2 e3).2 h4

/-- The shape of a projected initial dictionary. -/
theorem Pcn_shape (hw : dsz.WF (d + 2) d) {D0 D : Arr (d + 2 + 1)} {sh : Fin d → ℕ} (hD0 : D0.sh = idx sh (c + 1) 1 m)
    (hext : ∀ k : Fin d, dsz.extent k.val ≤ sh k) (h : Pcn D0 dsz [] d dimC true zm = some D) :
    (∀ i : Fin (d + 2 + 1), i.val < d → dsz.extent i.val ≤ D0.sh i) ∧
      D.sh = idx (fun k : Fin d => dsz.extent k.val) (c + 1) 1 m := by
  have hx : ∀ i : Fin (d + 2 + 1), i.val < d → dsz.extent i.val ≤ D0.sh i := by
    intro i hi
    rw [hD0]
    unfold idx
    rw [dif_pos hi]
    exact hext ⟨i.val, hi⟩
  refine ⟨hx, ?_⟩
  rw [Pcn_sh h]
  funext i
  by_cases hi : i.val < d
  · rw [bcrop_sh_lead hw D0 hx i hi]
    unfold idx
    rw [dif_pos hi]
  · rw [bcrop_sh_tail _ _ _ (not_lt.1 hi), hD0]
    exact idx_tail _ _ _ _ _ _ (not_lt.1 hi)

/-- The variable made from a projected initial dictionary is in the constraint set. -/
theorem coefOf_feasible (hw : dsz.WF (d + 2) d) (hN : ∀ k : Fin d, dsz.extent k.val ≤ N k) {D0 D : Arr (d + 2 + 1)}
    {sh : Fin d → ℕ} (hD0 : D0.sh = idx sh (c + 1) 1 m) (hext : ∀ k : Fin d, dsz.extent k.val ≤ sh k)
    (h : Pcn D0 dsz [] d dimC true zm = some D) :
    Feasible d (d + dimC) dsz zm (full (coefOf (N := N) (c := c) (m := m) D)) := by
  obtain ⟨hx, hsh⟩ := Pcn_shape hw hD0 hext h
  have hf := Pcn_feasible hw (fits_extent hw D0 hx) h
  obtain ⟨e1, e2, e3⟩ := full_coefOf (N := N) hsh hN
  exact (feasible_ext e1 e2 e3).2 hf

/-- The variable made from an array of the declared size is the dictionary extended by zeros. -/
theorem part_coefOf {D : Arr (d + 2 + 1)} (hsh : D.sh = idx (fun k : Fin d => dsz.extent k.val) (c + 1) 1 m)
    (i : Fin (c + 1)) (f : Fin m) :
    part (coefOf D : Coef (Fin (c + 1)) (Fin m) N) i f = pad N (dictOf (c := c) (m := m) dsz D i f) := by
  have hsp : ∀ k, Arr.sp D k = dsz.extent k.val := fun k => by unfold Arr.sp; rw [hsh]; exact idx_spatial _ _ _ _ _
  funext p
  change padG D N i f p = _
  unfold padG pad
  simp only [hsp]
  split_ifs <;> rfl

/-- What `getdict` returns for a variable in the constraint set is in the constraint set; extended by zeros it is the
variable. -/
theorem cropC_spec (hw : dsz.WF (d + 2) d) (hN : ∀ k : Fin d, dsz.extent k.val ≤ N k) {V : Coef (Fin (c + 1)) (Fin m) N}
    {q : ℕ} (h : Feasible d q dsz zm (full V)) :
    Feasible d q dsz zm (cropC dsz V) ∧ (cropC dsz V).sh = idx (fun k : Fin d => dsz.extent k.val) (c + 1) 1 m ∧
      ∀ i f, pad N (dictOf dsz (cropC dsz V) i f) = part V i f := by
  have hx := full_extent hN V
  obtain ⟨h1, h2, h3⟩ := feasible_bcrop hw hx h
  have hsh : (cropC dsz V).sh = idx (fun k : Fin d => dsz.extent k.val) (c + 1) 1 m := by
    funext i
    by_cases hi : i.val < d
    · unfold cropC
      rw [bcrop_sh_lead hw _ hx i hi]
      unfold idx
      rw [dif_pos hi]
    · unfold cropC
      rw [bcrop_sh_tail _ _ _ (not_lt.1 hi)]
      exact idx_tail _ _ _ _ _ _ (not_lt.1 hi)
  refine ⟨h1, hsh, fun i f => ?_⟩
  funext p
  have hin : (full V).In (idx (fun k => (p k).val) i 0 f) :=
    idx_in (fun k => ZMod.val_lt (p k)) i.isLt Nat.zero_lt_one f.isLt
  rw [← full_get V i f p]
  unfold pad
  split_ifs with hp
  · refine h2 _ ?_
    change ∀ t, _ < (cropC dsz V).sh t
    rw [hsh]
    exact idx_in hp i.isLt Nat.zero_lt_one f.isLt
  · refine (h3 _ hin fun hc => hp fun k => ?_).symm
    have hc' : ∀ t, _ < (cropC dsz V).sh t := hc
    have := hc' ⟨k, by omega⟩
    rw [hsh, idx_spatial, idx_spatial] at this
    exact this

end Full

end Sporco.Dictlrn
