import Verif.Array.Blocks
import Mathlib.Data.List.Perm.Basic
import Mathlib.Data.List.Perm.Subperm
import Mathlib.Data.List.Nodup
import Mathlib.Data.List.GetD

/-!
# Rolling windows, subsampling, splitting, named tuples and axis grouping (C13)
-/

set_option autoImplicit false

namespace Sporco.Array

open Sporco.Util

variable {α : Type}

/-! ## Views -/

theorem addr_add : ∀ (ss : List ℤ) (o j : List ℕ), o.length = ss.length → j.length = ss.length →
    addr ss o + addr ss j = addr ss (List.zipWith (· + ·) o j) := by
  intro ss
  induction ss with
  | nil => intro o j _ _; simp [addr]
  | cons s ss ih =>
    intro o j ho hj
    cases o with
    | nil => simp at ho
    | cons a o =>
      cases j with
      | nil => simp at hj
      | cons b j =>
        simp only [List.zipWith_cons_cons, addr]
        rw [← ih o j (by simpa using ho) (by simpa using hj)]
        push_cast
        ring

theorem window_valid : ∀ (ns ws o j : List ℕ), List.Forall₂ (· ≤ ·) ws ns → Valid ws o →
    Valid (List.zipWith (fun a b => a - b + 1) ns ws) j → Valid ns (List.zipWith (· + ·) o j) := by
  intro ns ws o j hw
  induction hw generalizing o j with
  | nil => intro ho hj; cases ho; exact List.Forall₂.nil
  | @cons w n ws ns h1 h2 ih =>
    intro ho hj
    cases ho with
    | @cons a _ o' _ ho1 ho2 =>
      cases hj with
      | @cons b _ j' _ hj1 hj2 =>
        simp only [List.zipWith_cons_cons]
        refine List.Forall₂.cons ?_ (ih _ _ ho2 hj2)
        simp only at hj1
        omega

/-- **C13, `rolling_window`.** The window at shift `j` shows the entries `j + o`; all of them
are entries of the array. -/
theorem C13_rolling (x : View α) (wsz : List ℕ) (hw : List.Forall₂ (· ≤ ·) wsz x.shape)
    (hst : x.strides.length = x.shape.length) :
    (rollingWindow x wsz).shape = wsz ++ List.zipWith (fun a b => a - b + 1) x.shape wsz ∧
    ∀ o j, Valid wsz o → Valid (List.zipWith (fun a b => a - b + 1) x.shape wsz) j →
      Valid x.shape (List.zipWith (· + ·) o j) ∧
      (rollingWindow x wsz).nd.get (o ++ j) = x.nd.get (List.zipWith (· + ·) o j) := by
  refine ⟨rfl, ?_⟩
  intro o j ho hj
  refine ⟨window_valid _ _ _ _ hw ho hj, ?_⟩
  have hlen : o.length = x.strides.length := by rw [hst, ho.length_eq, hw.length_eq]
  have hlj : j.length = x.strides.length := by
    rw [hj.length_eq, List.length_zipWith, hw.length_eq, hst, min_self]
  simp only [View.nd, rollingWindow, asStrided]
  rw [addr_append _ _ _ _ hlen.symm, addr_add _ _ _ hlen hlj]

theorem addr_sub : ∀ (ss : List ℤ) (st o j : List ℕ), st.length = ss.length →
    o.length = ss.length → j.length = ss.length →
    addr ss o + addr (List.zipWith (fun (s : ℕ) (t : ℤ) => (s : ℤ) * t) st ss) j =
      addr ss (place st j o) := by
  intro ss
  induction ss with
  | nil =>
    intro st o j h1 h2 h3
    have : j = [] := List.length_eq_zero_iff.1 h3
    subst this
    cases st <;> simp [addr]
  | cons s ss ih =>
    intro st o j h1 ho hj
    cases o with
    | nil => simp at ho
    | cons a o =>
      cases j with
      | nil => simp at hj
      | cons b j =>
        cases st with
        | nil => simp at h1
        | cons c st =>
          simp only [List.zipWith_cons_cons, addr, place]
          rw [← ih st o j (by simpa using h1) (by simpa using ho) (by simpa using hj)]
          push_cast
          ring

/-- Index splitting of a subsampled array: the offset and the position of an index. -/
theorem place_exists : ∀ (st ns p : List ℕ), List.Forall₂ (fun s n => 0 < s ∧ s ≤ n) st ns →
    (Valid (List.zipWith (fun s n => s * (n / s)) st ns) p ↔
      ∃ o j, Valid st o ∧ Valid (List.zipWith (· / ·) ns st) j ∧ place st j o = p) := by
  intro st ns p h
  induction h generalizing p with
  | nil =>
    constructor
    · intro hp; cases hp; exact ⟨[], [], List.Forall₂.nil, List.Forall₂.nil, rfl⟩
    · rintro ⟨o, j, ho, hj, rfl⟩; cases ho; cases hj; exact List.Forall₂.nil
  | @cons s n st ns h1 h2 ih =>
    obtain ⟨hs, -⟩ := h1
    constructor
    · intro hp
      simp only [List.zipWith_cons_cons] at hp
      cases hp with
      | @cons x _ p' _ hx hp' =>
        obtain ⟨o, j, ho, hj, hpl⟩ := (ih p').1 hp'
        refine ⟨x % s :: o, x / s :: j, List.Forall₂.cons (Nat.mod_lt _ hs) ho,
          List.Forall₂.cons (Nat.div_lt_of_lt_mul hx) hj, ?_⟩
        simp only [place, hpl]
        congr 1
        rw [mul_comm]; exact Nat.div_add_mod x s
    · rintro ⟨o, j, ho, hj, rfl⟩
      simp only [List.zipWith_cons_cons] at hj ⊢
      cases ho with
      | @cons a _ o' _ ha ho' =>
        cases hj with
        | @cons b _ j' _ hb hj' =>
          simp only [place]
          refine List.Forall₂.cons ?_ ((ih _).2 ⟨o', j', ho', hj', rfl⟩)
          have : (b + 1) * s ≤ n / s * s := Nat.mul_le_mul_right _ hb
          nlinarith

theorem place_inj : ∀ (st o j o' j' : List ℕ), Valid st o → Valid st o' → j.length = st.length →
    j'.length = st.length → place st j o = place st j' o' → o = o' ∧ j = j' := by
  intro st
  induction st with
  | nil =>
    intro o j o' j' ho ho' hj hj' _
    cases ho; cases ho'
    exact ⟨rfl, (List.length_eq_zero_iff.1 hj).trans (List.length_eq_zero_iff.1 hj').symm⟩
  | cons s st ih =>
    intro o j o' j' ho ho' hj hj' h
    cases ho with
    | @cons a _ o1 _ ha ho1 =>
      cases ho' with
      | @cons a' _ o2 _ ha' ho2 =>
        cases j with
        | nil => simp at hj
        | cons b j =>
          cases j' with
          | nil => simp at hj'
          | cons b' j' =>
            simp only [place, List.cons.injEq] at h
            obtain ⟨h1, h2⟩ := h
            obtain ⟨i1, i2⟩ := ih _ _ _ _ ho1 ho2 (by simpa using hj) (by simpa using hj') h2
            have hb : b = b' := by
              rcases Nat.lt_trichotomy b b' with hlt | heq | hgt
              · exfalso; have : (b + 1) * s ≤ b' * s := Nat.mul_le_mul_right _ hlt
                nlinarith
              · exact heq
              · exfalso; have : (b' + 1) * s ≤ b * s := Nat.mul_le_mul_right _ hgt
                nlinarith
            subst hb
            have : a = a' := by omega
            subst this
            exact ⟨by rw [i1], by rw [i2]⟩

/-- **C13, `subsample_array`.** It fails exactly if a step is not below the size; otherwise entry
`o ++ j` of the result is the entry `j * step + o` of the array.  Offsets and positions
enumerate, each exactly once, the indices below the largest multiple of the step; so if the
steps divide the sizes, all entries. -/
theorem C13_subsample (x : View α) (step : List ℕ) (hst : x.strides.length = x.shape.length)
    (hpos : ∀ s ∈ step, 0 < s) :
    (subsampleArray x step = none ↔ ¬ List.Forall₂ (· < ·) step x.shape) ∧
    ∀ y, subsampleArray x step = some y →
      y.shape = step ++ List.zipWith (· / ·) x.shape step ∧
      (∀ o j, Valid step o → Valid (List.zipWith (· / ·) x.shape step) j →
        y.nd.get (o ++ j) = x.nd.get (place step j o)) ∧
      (∀ p, Valid (List.zipWith (fun s n => s * (n / s)) step x.shape) p ↔
        ∃! q : List ℕ × List ℕ, Valid step q.1 ∧ Valid (List.zipWith (· / ·) x.shape step) q.2 ∧
          place step q.2 q.1 = p) ∧
      (List.Forall₂ (· ∣ ·) step x.shape →
        List.zipWith (fun s n => s * (n / s)) step x.shape = x.shape) := by
  unfold subsampleArray
  split_ifs with hlt
  · refine ⟨by simp [hlt], ?_⟩
    intro y hy
    simp only [Option.some.injEq] at hy
    subst hy
    have hlen : step.length = x.strides.length := by rw [hst, hlt.length_eq]
    have hF : List.Forall₂ (fun s n => 0 < s ∧ s ≤ n) step x.shape := by
      clear hst hlen
      generalize x.shape = ns at hlt
      induction hlt with
      | nil => exact List.Forall₂.nil
      | cons h1 h2 ih =>
        exact List.Forall₂.cons ⟨hpos _ (by simp), h1.le⟩
          (ih fun s hs => hpos s (List.mem_cons_of_mem _ hs))
    have hjl : ∀ j, Valid (List.zipWith (· / ·) x.shape step) j → j.length = step.length := by
      intro j hj
      rw [hj.length_eq, List.length_zipWith, hlt.length_eq, min_self]
    refine ⟨rfl, ?_, ?_, ?_⟩
    · intro o j ho hj
      have hol : o.length = x.strides.length := by rw [ho.length_eq, hlen]
      simp only [View.nd, asStrided]
      rw [addr_append _ _ _ _ hol.symm, addr_sub _ _ _ _ hlen hol ((hjl j hj).trans hlen)]
    · intro p
      rw [place_exists step x.shape p hF]
      constructor
      · rintro ⟨o, j, ho, hj, hp⟩
        refine ⟨(o, j), ⟨ho, hj, hp⟩, ?_⟩
        rintro ⟨o', j'⟩ ⟨ho', hj', hp'⟩
        obtain ⟨e1, e2⟩ := place_inj step o' j' o j ho' ho (hjl _ hj') (hjl _ hj) (hp'.trans hp.symm)
        exact Prod.ext e1 e2
      · rintro ⟨⟨o, j⟩, ⟨ho, hj, hp⟩, -⟩
        exact ⟨o, j, ho, hj, hp⟩
    · intro hd
      clear hjl hF hlt hst hlen
      generalize x.shape = ns at hd
      induction hd with
      | nil => rfl
      | cons h1 h2 ih =>
        simp only [List.zipWith_cons_cons]
        rw [ih fun s hs => hpos s (List.mem_cons_of_mem _ hs), Nat.mul_div_cancel' h1]
  · exact ⟨by simp [hlt], fun y hy => by cases hy⟩

/-- **C13, `split`.** One array per index of the axis; every entry of the array is found, in the
array of its index on the axis, at its remaining indices. -/
theorem C13_split (u : ND α) (axis : ℕ) (h : axis < u.shape.length) :
    (split u axis).length = u.shape.getD axis 0 ∧
    ∀ idx, Valid u.shape idx → ∃ v, (split u axis)[idx.getD axis 0]? = some v ∧
      Valid v.shape (idx.eraseIdx axis) ∧ v.get (idx.eraseIdx axis) = u.get idx := by
  refine ⟨by simp [split], ?_⟩
  intro idx hidx
  have hlen := hidx.length_eq
  have hlt : idx.getD axis 0 < u.shape.getD axis 0 := by
    rw [List.getD_eq_getElem _ _ (by omega), List.getD_eq_getElem _ _ h]
    exact List.Forall₂.get hidx (by omega) h
  refine ⟨_, by
    unfold split
    rw [List.getElem?_map, List.getElem?_range hlt]
    rfl, ?_, ?_⟩
  · simp only
    clear hlt hlen
    revert hidx h
    generalize u.shape = sh
    intro h hidx
    induction hidx generalizing axis with
    | nil => simp at h
    | cons h1 h2 ih =>
      cases axis with
      | zero => exact h2
      | succ a => exact List.Forall₂.cons h1 (ih a (by simpa using h))
  · simp only
    congr 1
    have hax : axis < idx.length := by omega
    rw [List.eraseIdx_eq_take_drop_succ, List.getD_eq_getElem _ _ hax]
    rw [List.take_append_of_le_length (by simp; omega), List.take_take, min_self,
      List.drop_append_of_le_length (by simp; omega), List.drop_take]
    simp

/-! ## Named tuples -/

theorem mapM_option {β γ : Type} (f : β → Option γ) (g : β → γ) (l : List β)
    (h : ∀ x ∈ l, f x = some (g x)) : l.mapM f = some (l.map g) := by
  induction l with
  | nil => rfl
  | cons x l ih =>
    rw [List.mapM_cons, h x (by simp), ih fun y hy => h y (List.mem_cons_of_mem _ hy)]
    rfl

/-- **C13, `transpose_ntpl_list`.** An empty list gives `None`; a list of tuples of one type gives a
tuple with the same name and fields, whose field `l` is the list of the fields `l`. -/
theorem C13_transpose_ntpl (lst : List (NTuple α)) (d : α) :
    (lst = [] → transposeNtplList lst = some none) ∧
    ∀ (t : NTuple α), t ∈ lst.head? → (∀ u ∈ lst, u.vals.length = t.vals.length) →
      ∃ r, transposeNtplList lst = some (some r) ∧ r.name = t.name ∧ r.fields = t.fields ∧
        r.vals = (List.range t.vals.length).map fun l => lst.map fun u => u.vals.getD l d := by
  refine ⟨fun h => by subst h; rfl, ?_⟩
  intro t ht hlen
  cases lst with
  | nil => simp at ht
  | cons u us =>
    simp only [List.head?_cons, Option.mem_def, Option.some.injEq] at ht
    subst ht
    refine ⟨⟨u.name, u.fields, (List.range u.vals.length).map fun l =>
      (u :: us).map fun w => w.vals.getD l d⟩, ?_, rfl, rfl, rfl⟩
    unfold transposeNtplList
    simp only
    rw [mapM_option _ (fun l => (u :: us).map fun w => w.vals.getD l d)]
    · rfl
    · intro l hl
      apply mapM_option
      intro w hw
      have : l < w.vals.length := by rw [hlen w hw]; exact List.mem_range.1 hl
      rw [List.getElem?_eq_getElem this, List.getD_eq_getElem _ _ this]

/-- **C13, named tuple round trip (scalar fields).** `array2ntpl(ntpl2array(t))` is `t` if all
fields are scalars. Missing: tuples with sequence fields, see `C13_ntpl_refuted`. -/
theorem C13_ntpl_partial (name : String) (fields : List String) (vals : List α)
    (h : fields.length = vals.length) :
    array2ntpl (ntpl2array (⟨name, fields, vals.map .scalar⟩ : NTuple (Col α))) =
      some ⟨name, fields, vals.map .scalar⟩ := by
  have : (vals.map Col.scalar).flatMap Col.flat = vals := by
    induction vals generalizing fields with
    | nil => rfl
    | cons v vs ih =>
      cases fields with
      | nil => simp at h
      | cons f fs =>
        simp only [List.map_cons, List.flatMap_cons, Col.flat]
        rw [ih fs (by simpa using h)]; rfl
  unfold ntpl2array array2ntpl
  simp only [this]
  rw [if_pos h.symm]

/-- **C13 fails for named tuples of sequences**, the form in which iteration statistics are
returned: after `ntpl2array`, `array2ntpl` raises an error (or returns other fields). -/
theorem C13_ntpl_refuted (name : String) (fields : List String) (cols : List (List ℝ))
    (h : fields.length = cols.length) (hne : cols ≠ []) (hl : ∀ c ∈ cols, 2 ≤ c.length) :
    array2ntpl (ntpl2array (⟨name, fields, cols.map .seq⟩ : NTuple (Col ℝ))) = none := by
  have hlen : ∀ cols : List (List ℝ), (∀ c ∈ cols, 2 ≤ c.length) →
      2 * cols.length ≤ ((cols.map Col.seq).flatMap Col.flat).length := by
    intro cols
    induction cols with
    | nil => simp
    | cons c cs ih =>
      intro h
      have h1 := ih fun c' hc' => h c' (List.mem_cons_of_mem _ hc')
      have h2 := h c (by simp)
      simp only [List.map_cons, List.flatMap_cons, List.length_append, List.length_cons, Col.flat]
      omega
  have h1 := hlen cols hl
  have h2 := List.length_pos_iff.2 hne
  unfold ntpl2array array2ntpl
  simp only
  rw [if_neg (by omega)]

example : array2ntpl (ntpl2array (⟨"IterationStats", ["Iter", "ObjFun"],
    [.seq [0, 1, 2], .seq [5, 4, 3]]⟩ : NTuple (Col ℝ))) = none :=
  C13_ntpl_refuted _ _ [[0, 1, 2], [5, 4, 3]] rfl (by simp) (by simp)

/-! ## Axis grouping -/

/-- `prm` is a permutation of the axes. -/
def IsPerm (n : ℕ) (prm : List ℕ) : Prop := prm.Perm (List.range n)

theorem IsPerm.length {n : ℕ} {prm : List ℕ} (h : IsPerm n prm) : prm.length = n := by
  rw [List.Perm.length_eq h, List.length_range]

theorem IsPerm.idxOf {n : ℕ} {prm : List ℕ} (h : IsPerm n prm) (j : ℕ) (hj : j < n) :
    prm.idxOf j < prm.length ∧ prm.getD (prm.idxOf j) 0 = j := by
  have hm : j ∈ prm := (List.Perm.mem_iff h).2 (List.mem_range.2 hj)
  have hlt := List.idxOf_lt_length_iff.2 hm
  exact ⟨hlt, by rw [List.getD_eq_getElem _ _ hlt, List.getElem_idxOf]⟩

theorem map_getD_range {β : Type} (l : List β) (d : β) :
    (List.range l.length).map (fun j => l.getD j d) = l := by
  apply List.ext_getElem
  · simp
  · intro i h1 h2
    rw [List.getElem_map, List.getElem_range, List.getD_eq_getElem _ _ h2]

/-- `transpose` moves the entry at `idx` to the permuted index. -/
theorem transpose_get (x : ND α) (prm idx : List ℕ) (h : IsPerm x.shape.length prm)
    (hi : idx.length = x.shape.length) :
    (transpose x prm).get (prm.map fun k => idx.getD k 0) = x.get idx := by
  unfold transpose
  simp only
  congr 1
  rw [h.length, ← hi]
  conv_rhs => rw [← map_getD_range idx 0]
  apply List.map_congr_left
  intro j hj
  have hj : j < x.shape.length := by rw [← hi]; exact List.mem_range.1 hj
  obtain ⟨h1, h2⟩ := h.idxOf j hj
  rw [List.getD_eq_getElem _ _ (by simpa using h1), List.getElem_map]
  rw [List.getD_eq_getElem _ _ h1] at h2
  rw [h2]

theorem map_valid (shape idx prm : List ℕ) (hv : Valid shape idx)
    (hp : ∀ k ∈ prm, k < shape.length) :
    Valid (prm.map fun k => shape.getD k 0) (prm.map fun k => idx.getD k 0) := by
  induction prm with
  | nil => exact List.Forall₂.nil
  | cons k prm ih =>
    refine List.Forall₂.cons ?_ (ih fun j hj => hp j (List.mem_cons_of_mem _ hj))
    have hk := hp k (by simp)
    have hl := hv.length_eq
    simp only
    rw [List.getD_eq_getElem _ _ (by omega), List.getD_eq_getElem _ _ hk]
    exact List.Forall₂.get hv (by omega) hk

/-- The axes not in `ax`. -/
def others (n : ℕ) (ax : List ℕ) : List ℕ := (List.range n).filter fun k => k ∉ ax

theorem others_perm (n : ℕ) (ax : List ℕ) (hn : ax.Nodup) (hlt : ∀ k ∈ ax, k < n) :
    IsPerm n (others n ax ++ ax) := by
  unfold IsPerm others
  rw [List.perm_ext_iff_of_nodup]
  · intro a
    simp only [List.mem_append, List.mem_filter, List.mem_range, decide_eq_true_eq]
    constructor
    · rintro (⟨h, -⟩ | h)
      · exact h
      · exact hlt a h
    · intro h
      by_cases ha : a ∈ ax
      · exact .inr ha
      · exact .inl ⟨h, ha⟩
  · rw [List.nodup_append]
    refine ⟨List.nodup_range.filter _, hn, ?_⟩
    intro a ha b hb hab
    subst hab
    simp only [List.mem_filter, decide_eq_true_eq] at ha
    exact ha.2 hb
  · exact List.nodup_range

theorem ndto2d_eq (x : ND α) (axis : List ℤ) :
    let ax := normAxes x.shape.length axis
    let prm := others x.shape.length ax ++ ax
    ndto2d x axis = (reshape (transpose x prm)
      [((others x.shape.length ax).map fun k => x.shape.getD k 0).prod,
        (ax.map fun k => x.shape.getD k 0).prod], ((transpose x prm).shape, prm)) := by
  intro ax prm
  have e1 : (prm.map fun k => x.shape.getD k 0).take (others x.shape.length ax).length =
      (others x.shape.length ax).map fun k => x.shape.getD k 0 := by
    rw [List.map_append, List.take_left' (by simp)]
  have e2 : (prm.map fun k => x.shape.getD k 0).drop (others x.shape.length ax).length =
      ax.map fun k => x.shape.getD k 0 := by
    rw [List.map_append, List.drop_left' (by simp)]
  rw [← e1, ← e2]
  rfl

/-- **C13, `ndto2d`.** The row of an entry is given by its indices on the axes not grouped, the
column by its indices on the grouped axes (each in C order). -/
theorem C13_ndto2d (x : ND α) (axis : List ℤ)
    (hn : (normAxes x.shape.length axis).Nodup)
    (hlt : ∀ k ∈ normAxes x.shape.length axis, k < x.shape.length) (idx : List ℕ)
    (hidx : Valid x.shape idx) :
    let ax := normAxes x.shape.length axis
    let cx := others x.shape.length ax
    (ndto2d x axis).1.shape = [(cx.map fun k => x.shape.getD k 0).prod,
      (ax.map fun k => x.shape.getD k 0).prod] ∧
    (ndto2d x axis).1.get
      [ravel (cx.map fun k => x.shape.getD k 0) (cx.map fun k => idx.getD k 0),
        ravel (ax.map fun k => x.shape.getD k 0) (ax.map fun k => idx.getD k 0)] = x.get idx := by
  intro ax cx
  have hp := others_perm x.shape.length ax hn hlt
  rw [ndto2d_eq]
  refine ⟨rfl, ?_⟩
  have hcv : Valid (cx.map fun k => x.shape.getD k 0) (cx.map fun k => idx.getD k 0) :=
    map_valid _ _ _ hidx fun k hk => by
      simp only [cx, others, List.mem_filter, List.mem_range] at hk; exact hk.1
  have hav : Valid (ax.map fun k => x.shape.getD k 0) (ax.map fun k => idx.getD k 0) :=
    map_valid _ _ _ hidx hlt
  rw [← transpose_get x _ idx hp hidx.length_eq]
  apply reshape_get
  · simp only [transpose, List.map_append]
    exact valid_append hcv hav
  · simp only [transpose, List.map_append]
    rw [ravel_append hcv]
    simp [ravel]
    rfl

/-- **C13, round trip.** `ndfrom2d` undoes `ndto2d`. -/
theorem C13_ndfrom2d (x : ND α) (axis : List ℤ)
    (hn : (normAxes x.shape.length axis).Nodup)
    (hlt : ∀ k ∈ normAxes x.shape.length axis, k < x.shape.length) :
    (ndfrom2d (ndto2d x axis).1 (ndto2d x axis).2).shape = x.shape ∧
    ∀ idx, Valid x.shape idx →
      (ndfrom2d (ndto2d x axis).1 (ndto2d x axis).2).get idx = x.get idx := by
  set ax := normAxes x.shape.length axis with hax
  have hp := others_perm x.shape.length ax hn hlt
  have he := ndto2d_eq x axis
  simp only at he
  rw [← hax] at he
  set prm := others x.shape.length ax ++ ax with hprm
  rw [he]
  have hlen := hp.length
  unfold ndfrom2d
  simp only
  have hqn : ∀ j, j < x.shape.length → (argsort prm).idxOf (j) = prm.getD j 0 := by
    intro j hj
    have hjl : j < prm.length := by rw [hlen]; exact hj
    have hpj : prm.getD j 0 < x.shape.length := by
      rw [List.getD_eq_getElem _ _ hjl]
      exact List.mem_range.1 ((List.Perm.mem_iff hp).1 (List.getElem_mem hjl))
    have hnd : prm.Nodup := (List.Perm.nodup_iff hp).2 List.nodup_range
    have hqd : (argsort prm).Nodup := by
      unfold argsort
      apply List.Nodup.map_on _ List.nodup_range
      intro a ha b hb hab
      have h1 := (hp.idxOf a (by rw [← hlen]; exact List.mem_range.1 ha)).2
      have h2 := (hp.idxOf b (by rw [← hlen]; exact List.mem_range.1 hb)).2
      rw [← h1, hab, h2]
    have hql : (argsort prm).length = prm.length := by simp [argsort]
    have hq : (argsort prm)[prm.getD j 0]'(by rw [hql, hlen]; exact hpj) = j := by
      unfold argsort
      rw [List.getElem_map, List.getElem_range, List.getD_eq_getElem _ _ hjl]
      exact hnd.idxOf_getElem j hjl
    conv_lhs => rw [← hq]
    exact hqd.idxOf_getElem _ _
  constructor
  · simp only [transpose, reshape, argsort, List.map_map]
    conv_rhs => rw [← map_getD_range x.shape 0]
    rw [hlen]
    apply List.map_congr_left
    intro j hj
    obtain ⟨h1, h2⟩ := hp.idxOf j (List.mem_range.1 hj)
    simp only [Function.comp]
    rw [List.getD_eq_getElem _ _ (by simpa using h1), List.getElem_map]
    rw [List.getD_eq_getElem _ _ h1] at h2
    rw [h2]
  · intro idx hidx
    have hi : (List.range (argsort prm).length).map
        (fun j => idx.getD ((argsort prm).idxOf j) 0) = prm.map fun k => idx.getD k 0 := by
      have hql : (argsort prm).length = prm.length := by simp [argsort]
      rw [hql]
      conv_rhs => rw [← map_getD_range prm 0, List.map_map]
      apply List.map_congr_left
      intro j hj
      rw [hqn j (by rw [← hlen]; exact List.mem_range.1 hj)]
      rfl
    have hv : Valid (transpose x prm).shape (prm.map fun k => idx.getD k 0) :=
      map_valid _ _ _ hidx fun k hk => List.mem_range.1 ((List.Perm.mem_iff hp).1 hk)
    conv_lhs => unfold transpose
    simp only
    rw [hi, ← transpose_get x prm idx hp hidx.length_eq]
    have hprod : ([((others x.shape.length ax).map fun k => x.shape.getD k 0).prod,
        (ax.map fun k => x.shape.getD k 0).prod] : List ℕ).prod = (transpose x prm).shape.prod := by
      simp only [transpose, hprm, List.map_append, List.prod_append, List.prod_cons, List.prod_nil,
        mul_one]
    exact reshape_reshape (transpose x prm) _ _ hprod hv

/-- Concrete case: grouping axes 0 and 2 of a `2 × 3 × 4` array. -/
example : normAxes 3 [0, -1] = [0, 2] ∧ others 3 [0, 2] = [1] ∧ Valid [2, 3, 4] [1, 2, 3] := by
  refine ⟨by decide, by decide, ?_⟩
  repeat' constructor

end Sporco.Array
