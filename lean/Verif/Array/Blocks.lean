import Verif.Array.Model
import Mathlib.Algebra.BigOperators.Group.List.Basic
import Mathlib.Tactic.Linarith
import Mathlib.Tactic.Ring
import Mathlib.Tactic.FieldSimp

/-!
# Block extraction and recombination (C11)
-/

set_option autoImplicit false

namespace Sporco.Array

open Sporco.Util

variable {α : Type}

/-! ## Indices -/

theorem ravel_inj : ∀ (shape a b : List ℕ), Valid shape a → Valid shape b →
    ravel shape a = ravel shape b → a = b := by
  intro shape
  induction shape with
  | nil => intro a b ha hb _; cases ha; cases hb; rfl
  | cons n ns ih =>
    intro a b ha hb h
    cases ha with
    | cons ha1 ha2 =>
      cases hb with
      | cons hb1 hb2 =>
        rename_i i is j js
        simp only [ravel] at h
        have h1 := ravel_lt _ _ ha2
        have h2 := ravel_lt _ _ hb2
        have hij : i = j := by
          rcases Nat.lt_trichotomy i j with hlt | heq | hgt
          · exfalso; have : (i + 1) * ns.prod ≤ j * ns.prod := Nat.mul_le_mul_right _ hlt
            nlinarith
          · exact heq
          · exfalso; have : (j + 1) * ns.prod ≤ i * ns.prod := Nat.mul_le_mul_right _ hgt
            nlinarith
        subst hij
        rw [ih _ _ ha2 hb2 (by omega)]

theorem unravel_ravel (shape idx : List ℕ) (h : Valid shape idx) :
    unravel shape (ravel shape idx) = idx := by
  obtain ⟨h1, h2⟩ := unravel_valid shape _ (ravel_lt _ _ h)
  exact ravel_inj shape _ _ h1 h h2

theorem valid_append {s t i j : List ℕ} (hi : Valid s i) (hj : Valid t j) :
    Valid (s ++ t) (i ++ j) := by
  induction hi with
  | nil => exact hj
  | cons h _ ih => exact List.Forall₂.cons h ih

theorem ravel_append {s t i j : List ℕ} (hi : Valid s i) :
    ravel (s ++ t) (i ++ j) = ravel s i * t.prod + ravel t j := by
  induction hi with
  | nil => simp [ravel]
  | cons h _ ih =>
    simp only [List.cons_append, ravel, ih, List.prod_append]
    ring

/-- Reshaping to a shape and back. -/
theorem reshape_reshape (x : ND α) (s idx : List ℕ) (hs : s.prod = x.shape.prod)
    (h : Valid x.shape idx) : (reshape (reshape x s) x.shape).get idx = x.get idx := by
  unfold reshape
  simp only
  obtain ⟨-, h2⟩ := unravel_valid s (ravel x.shape idx) (by rw [hs]; exact ravel_lt _ _ h)
  rw [h2, unravel_ravel _ _ h]

theorem reshape_get (x : ND α) (s i j : List ℕ) (hj : Valid x.shape j)
    (h : ravel s i = ravel x.shape j) : (reshape x s).get i = x.get j := by
  unfold reshape
  simp only
  rw [h, unravel_ravel _ _ hj]

theorem mem_ndindex (shape p : List ℕ) : p ∈ ndindex shape ↔ Valid shape p := by
  unfold ndindex
  induction shape generalizing p with
  | nil =>
    simp only [List.map_nil, product, List.mem_singleton]
    constructor
    · rintro rfl; exact List.Forall₂.nil
    · intro h; cases h; rfl
  | cons n ns ih =>
    simp only [List.map_cons, product, List.mem_flatMap, List.mem_range, List.mem_map]
    constructor
    · rintro ⟨i, hi, q, hq, rfl⟩
      exact List.Forall₂.cons hi ((ih q).1 hq)
    · intro h
      cases h with
      | cons h1 h2 => exact ⟨_, h1, _, (ih _).2 h2, rfl⟩

theorem addr_append : ∀ (s : List ℤ) (i : List ℕ) (t : List ℤ) (j : List ℕ), s.length = i.length →
    addr (s ++ t) (i ++ j) = addr s i + addr t j := by
  intro s
  induction s with
  | nil =>
    intro i t j h
    have : i = [] := List.length_eq_zero_iff.1 h.symm
    subst this; simp [addr]
  | cons a s ih =>
    intro i t j h
    cases i with
    | nil => simp at h
    | cons b i =>
      simp only [List.cons_append, addr]
      rw [ih i t j (by simpa using h)]
      ring

/-! ## Specification -/

/-- Index of offset `o` within the block at grid position `pos`: `pos * step + offset` on the
block axes, `pos` on the others. -/
def place : List ℕ → List ℕ → List ℕ → List ℕ
  | c :: cs, a :: as, o :: os => (a * c + o) :: place cs as os
  | _, as, _ => as

/-- A block that fits into the image covers entry `p`: on each block axis there is a multiple
of the step at which a block starts, contains `p` and ends within the image. -/
def Covered : List ℕ → List ℕ → List ℕ → List ℕ → Prop
  | n :: ns, b :: bs, c :: cs, x :: xs =>
    (∃ a, a * c ≤ x ∧ x < a * c + b ∧ a * c + b ≤ n) ∧ Covered ns bs cs xs
  | _, _, _, _ => True

/-- Admissible block and step sizes: as many steps as block sizes, no more than axes, all
positive. -/
structure Sizes (shape blksz stpsz : List ℕ) : Prop where
  len : stpsz.length = blksz.length
  rank : blksz.length ≤ shape.length
  pos : ∀ c ∈ stpsz, 0 < c
  bpos : ∀ b ∈ blksz, 0 < b

theorem numBlk_iff {a b c j : ℕ} (hc : 0 < c) : j < numBlk a b c ↔ j * c + b ≤ a := by
  unfold numBlk
  rw [Int.lt_toNat]
  have hc' : (0 : ℤ) < c := by exact_mod_cast hc
  constructor
  · intro h
    have h1 : (j : ℤ) ≤ ((a : ℤ) - b) / c := by omega
    rw [Int.le_ediv_iff_mul_le hc'] at h1
    have : ((j * c + b : ℕ) : ℤ) ≤ a := by push_cast; linarith
    exact_mod_cast this
  · intro h
    have h1 : (j : ℤ) * c ≤ (a : ℤ) - b := by
      have : ((j * c + b : ℕ) : ℤ) ≤ a := by exact_mod_cast h
      push_cast at this; linarith
    have h2 := (Int.le_ediv_iff_mul_le hc').2 h1
    omega

theorem numBlk_one (a : ℕ) : numBlk a 1 1 = a := by
  apply Nat.le_antisymm
  · by_contra h
    have := (numBlk_iff (a := a) (b := 1) (c := 1) (j := a) one_pos).1 (by omega)
    omega
  · cases a with
    | zero => omega
    | succ a => exact (numBlk_iff one_pos).2 (by omega)

theorem numBlocks_nil (ns : List ℕ) : numBlocks ns [] [] = ns := by
  induction ns with
  | nil => rfl
  | cons n ns ih => simp [numBlocks, numBlk_one, ih]

theorem blockStrides_nil (ss : List ℤ) : blockStrides ss [] = ss := by
  induction ss with
  | nil => rfl
  | cons n ns ih => simp [blockStrides, ih]

theorem numBlocks_length (ns bs cs : List ℕ) : (numBlocks ns bs cs).length = ns.length := by
  induction ns generalizing bs cs with
  | nil => rfl
  | cons n ns ih => simp [numBlocks, ih]

theorem blockStrides_length (ss : List ℤ) (cs : List ℕ) :
    (blockStrides ss cs).length = ss.length := by
  induction ss generalizing cs with
  | nil => rfl
  | cons n ns ih => simp [blockStrides, ih]

theorem Sizes.tail {n b c : ℕ} {ns bs cs : List ℕ} (h : Sizes (n :: ns) (b :: bs) (c :: cs)) :
    Sizes ns bs cs :=
  ⟨by simpa using h.len, by simpa using h.rank, fun x hx => h.pos x (List.mem_cons_of_mem _ hx),
    fun x hx => h.bpos x (List.mem_cons_of_mem _ hx)⟩

/-- Blocks lie inside the image. -/
theorem place_valid : ∀ (ns bs cs pos o : List ℕ), Sizes ns bs cs → Valid (numBlocks ns bs cs) pos →
    Valid bs o → Valid ns (place cs pos o) := by
  intro ns bs
  induction bs generalizing ns with
  | nil =>
    intro cs pos o hs hp ho
    have hc : cs = [] := List.length_eq_zero_iff.1 hs.len
    subst hc
    rw [numBlocks_nil] at hp
    simpa [place] using hp
  | cons b bs ih =>
    intro cs pos o hs hp ho
    cases ho with
    | cons ho1 ho2 =>
      cases cs with
      | nil => have := hs.len; simp at this
      | cons c cs =>
        cases ns with
        | nil => have := hs.rank; simp at this
        | cons n ns =>
          simp only [numBlocks, List.headD_cons, List.tail_cons] at hp
          cases hp with
          | cons hp1 hp2 =>
            simp only [place]
            have := (numBlk_iff (hs.pos c (by simp))).1 hp1
            exact List.Forall₂.cons (by omega) (ih ns cs _ _ hs.tail hp2 ho2)

/-- Address of an entry of a block. -/
theorem addr_place : ∀ (ns bs cs : List ℕ) (ss : List ℤ) (pos o : List ℕ), Sizes ns bs cs →
    ss.length = ns.length → Valid (numBlocks ns bs cs) pos → Valid bs o →
    addr (ss.take bs.length) o + addr (blockStrides ss cs) pos = addr ss (place cs pos o) := by
  intro ns bs
  induction bs generalizing ns with
  | nil =>
    intro cs ss pos o hs hl hp ho
    have hc : cs = [] := List.length_eq_zero_iff.1 hs.len
    subst hc
    cases ho
    simp [addr, place, blockStrides_nil]
  | cons b bs ih =>
    intro cs ss pos o hs hl hp ho
    cases ho with
    | cons ho1 ho2 =>
      cases cs with
      | nil => have := hs.len; simp at this
      | cons c cs =>
        cases ns with
        | nil => have := hs.rank; simp at this
        | cons n ns =>
          cases ss with
          | nil => simp at hl
          | cons s ss =>
            simp only [numBlocks, List.headD_cons, List.tail_cons] at hp
            cases hp with
            | cons hp1 hp2 =>
              have := ih ns cs ss _ _ hs.tail (by simpa using hl) hp2 ho2
              simp only [place, addr, List.length_cons, List.take_succ_cons, blockStrides,
                List.headD_cons, List.tail_cons]
              rw [← this]
              push_cast
              ring

/-- **C11, extraction.** `extract_blocks` returns an array of shape `blksz + (n,)`; `n` runs over
the grid positions at which a block starting at a multiple of the step fits into the image
(in C order), and the entry at an offset is the image entry at that offset of the block. No
address outside the image is read. -/
theorem C11_extract (img : View α) (blksz stpsz : List ℕ) (hs : Sizes img.shape blksz stpsz)
    (hst : img.strides.length = img.shape.length) :
    (extractBlocks img blksz stpsz).shape = blksz ++ [(numBlocks img.shape blksz stpsz).prod] ∧
    (∀ k (hk : k < blksz.length) j, j < (numBlocks img.shape blksz stpsz).getD k 0 ↔
      j * stpsz.getD k 0 + blksz.getD k 0 ≤ img.shape.getD k 0) ∧
    (∀ k, blksz.length ≤ k →
      (numBlocks img.shape blksz stpsz).getD k 0 = img.shape.getD k 0) ∧
    ∀ pos o, Valid (numBlocks img.shape blksz stpsz) pos → Valid blksz o →
      Valid img.shape (place stpsz pos o) ∧
      (extractBlocks img blksz stpsz).get
        (o ++ [ravel (numBlocks img.shape blksz stpsz) pos]) = img.nd.get (place stpsz pos o) := by
  have hcount : ∀ (ns bs cs : List ℕ), Sizes ns bs cs →
      (∀ k (hk : k < bs.length) j, j < (numBlocks ns bs cs).getD k 0 ↔
        j * cs.getD k 0 + bs.getD k 0 ≤ ns.getD k 0) ∧
      (∀ k, bs.length ≤ k → (numBlocks ns bs cs).getD k 0 = ns.getD k 0) := by
    intro ns bs
    induction bs generalizing ns with
    | nil =>
      intro cs h
      have hc : cs = [] := List.length_eq_zero_iff.1 h.len
      subst hc
      rw [numBlocks_nil]
      exact ⟨fun k hk => by simp at hk, fun k _ => rfl⟩
    | cons b bs ih =>
      intro cs h
      cases cs with
      | nil => have := h.len; simp at this
      | cons c cs =>
        cases ns with
        | nil => have := h.rank; simp at this
        | cons n ns =>
          obtain ⟨h1, h2⟩ := ih ns cs h.tail
          simp only [numBlocks, List.headD_cons, List.tail_cons]
          constructor
          · intro k hk j
            cases k with
            | zero => exact numBlk_iff (h.pos c (by simp))
            | succ k => exact h1 k (by simpa using hk) j
          · intro k hk
            cases k with
            | zero => simp at hk
            | succ k => exact h2 k (by simpa using hk)
  refine ⟨rfl, (hcount _ _ _ hs).1, (hcount _ _ _ hs).2, ?_⟩
  intro pos o hp ho
  refine ⟨place_valid _ _ _ _ _ hs hp ho, ?_⟩
  unfold extractBlocks
  simp only
  rw [reshape_get _ _ _ (o ++ pos) (valid_append ho hp)]
  · simp only [View.nd, asStrided]
    rw [addr_append _ _ _ _ (by
      rw [List.length_take, ho.length_eq]; have := hs.rank; omega),
      addr_place _ _ _ _ _ _ hs hst hp ho]
  · simp only [View.nd, asStrided]
    rw [ravel_append ho, ravel_append ho]
    simp [ravel]

/-! ## Recombination -/

theorem inBlk_place : ∀ (ns bs cs pos p : List ℕ), Sizes ns bs cs → Valid ns p →
    Valid (numBlocks ns bs cs) pos → inBlk bs cs pos p →
    Valid bs (offs bs cs pos p) ∧ place cs pos (offs bs cs pos p) = p := by
  intro ns bs
  induction bs generalizing ns with
  | nil =>
    intro cs pos p hs hp hpos h
    have hc : cs = [] := List.length_eq_zero_iff.1 hs.len
    subst hc
    have h : p = pos := h
    subst h
    exact ⟨List.Forall₂.nil, by simp [offs, place]⟩
  | cons b bs ih =>
    intro cs pos p hs hp hpos h
    cases cs with
    | nil => have := hs.len; simp at this
    | cons c cs =>
      cases ns with
      | nil => have := hs.rank; simp at this
      | cons n ns =>
        simp only [numBlocks, List.headD_cons, List.tail_cons] at hpos
        cases hp with
        | cons hp1 hp2 =>
          cases hpos with
          | cons hq1 hq2 =>
            obtain ⟨h1, h2, h3⟩ := h
            obtain ⟨i1, i2⟩ := ih ns cs _ _ hs.tail hp2 hq2 h3
            simp only [offs, place, i2]
            exact ⟨List.Forall₂.cons (by omega) i1, by rw [Nat.add_sub_cancel' h1]⟩

theorem covered_iff : ∀ (ns bs cs p : List ℕ), Sizes ns bs cs → Valid ns p →
    (Covered ns bs cs p ↔ ∃ pos, Valid (numBlocks ns bs cs) pos ∧ inBlk bs cs pos p) := by
  intro ns bs
  induction bs generalizing ns with
  | nil =>
    intro cs p hs hp
    have hc : cs = [] := List.length_eq_zero_iff.1 hs.len
    subst hc
    rw [numBlocks_nil]
    constructor
    · intro _; exact ⟨p, hp, rfl⟩
    · intro _; cases ns <;> trivial
  | cons b bs ih =>
    intro cs p hs hp
    cases cs with
    | nil => have := hs.len; simp at this
    | cons c cs =>
      cases ns with
      | nil => have := hs.rank; simp at this
      | cons n ns =>
        cases hp with
        | cons hp1 hp2 =>
          simp only [numBlocks, List.headD_cons, List.tail_cons, Covered]
          rw [ih ns cs _ hs.tail hp2]
          have hc := hs.pos c (by simp)
          constructor
          · rintro ⟨⟨a, h1, h2, h3⟩, pos, h4, h5⟩
            exact ⟨a :: pos, List.Forall₂.cons ((numBlk_iff hc).2 h3) h4, h1, h2, h5⟩
          · rintro ⟨pos, h4, h5⟩
            cases h4 with
            | cons h6 h7 =>
              obtain ⟨h1, h2, h3⟩ := h5
              exact ⟨⟨_, h1, h2, (numBlk_iff hc).1 h6⟩, _, h7, h3⟩

/-- A value read from the extracted blocks during recombination. -/
theorem block_value (img : View α) (blksz stpsz : List ℕ) (hs : Sizes img.shape blksz stpsz)
    (hst : img.strides.length = img.shape.length) (pos p : List ℕ) (hp : Valid img.shape p)
    (hpos : Valid (numBlocks img.shape blksz stpsz) pos) (h : inBlk blksz stpsz pos p) :
    (reshape (extractBlocks img blksz stpsz) (blksz ++ numBlocks img.shape blksz stpsz)).get
      (offs blksz stpsz pos p ++ pos) = img.nd.get p := by
  obtain ⟨ho, hpl⟩ := inBlk_place _ _ _ _ _ hs hp hpos h
  obtain ⟨hsh, -, -, hget⟩ := C11_extract img blksz stpsz hs hst
  rw [reshape_get _ _ _ (offs blksz stpsz pos p ++ [ravel (numBlocks img.shape blksz stpsz) pos]),
    (hget pos _ hpos ho).2, hpl]
  · rw [hsh]
    exact valid_append ho (List.Forall₂.cons (ravel_lt _ _ hpos) List.Forall₂.nil)
  · rw [hsh, ravel_append ho, ravel_append ho]
    simp [ravel]

theorem extract_shape (img : View α) (blksz stpsz : List ℕ) :
    (extractBlocks img blksz stpsz).shape.dropLast = blksz := by
  simp [extractBlocks, reshape]

open Classical in
/-- **C11, averaging.** Averaging the blocks extracted from an image gives back the image
wherever a block covers it and NaN elsewhere, for every image, block and step size. -/
theorem C11_average (img : View ℝ) (blksz stpsz : List ℕ) (hs : Sizes img.shape blksz stpsz)
    (hst : img.strides.length = img.shape.length) (p : List ℕ) (hp : Valid img.shape p) :
    (averageBlocks (extractBlocks img blksz stpsz) img.shape stpsz).get p =
      if Covered img.shape blksz stpsz p then some (img.nd.get p) else none := by
  unfold averageBlocks
  simp only [extract_shape]
  set nb := numBlocks img.shape blksz stpsz with hnb
  set B := reshape (extractBlocks img blksz stpsz) (blksz ++ nb) with hB
  have key : ∀ (L : List (List ℕ)) (f g : List ℕ → ℝ), (∀ pos ∈ L, Valid nb pos) →
      let st := L.foldl (fun (st : (List ℕ → ℝ) × (List ℕ → ℝ)) pos =>
        (fun p => if inBlk blksz stpsz pos p then
          st.1 p + B.get (offs blksz stpsz pos p ++ pos) else st.1 p,
          fun p => if inBlk blksz stpsz pos p then st.2 p + 1 else st.2 p)) (f, g)
      st.1 p = f p + (L.countP fun pos => inBlk blksz stpsz pos p) * img.nd.get p ∧
      st.2 p = g p + (L.countP fun pos => inBlk blksz stpsz pos p) := by
    intro L
    induction L with
    | nil => intro f g _; simp
    | cons pos L ih =>
      intro f g hL
      have h := ih (fun p => if inBlk blksz stpsz pos p then
          f p + B.get (offs blksz stpsz pos p ++ pos) else f p)
        (fun p => if inBlk blksz stpsz pos p then g p + 1 else g p)
        (fun q hq => hL q (List.mem_cons_of_mem _ hq))
      simp only [List.foldl_cons] at h ⊢
      by_cases hin : inBlk blksz stpsz pos p
      · have hv := block_value img blksz stpsz hs hst pos p hp (hL pos (by simp)) hin
        rw [h.1, h.2, List.countP_cons_of_pos (by simpa using hin)]
        simp only [if_pos hin]
        rw [hB, hv]
        push_cast
        constructor <;> ring
      · rw [h.1, h.2, List.countP_cons_of_neg (by simpa using hin)]
        simp only [if_neg hin]
        constructor <;> trivial
  obtain ⟨h1, h2⟩ := key (ndindex nb) (fun _ => 0) (fun _ => 0)
    (fun pos hpos => (mem_ndindex nb pos).1 hpos)
  rw [h1, h2]
  simp only [zero_add]
  have hc : Covered img.shape blksz stpsz p ↔
      0 < ((ndindex nb).countP fun pos => inBlk blksz stpsz pos p) := by
    rw [covered_iff _ _ _ _ hs hp, List.countP_pos_iff]
    constructor
    · rintro ⟨pos, h3, h4⟩; exact ⟨pos, (mem_ndindex _ _).2 h3, by simpa using h4⟩
    · rintro ⟨pos, h3, h4⟩; exact ⟨pos, (mem_ndindex _ _).1 h3, by simpa using h4⟩
  by_cases hcov : Covered img.shape blksz stpsz p
  · have hpos := hc.1 hcov
    have hpos' : (0 : ℝ) < ((ndindex nb).countP fun pos => inBlk blksz stpsz pos p : ℕ) := by
      exact_mod_cast hpos
    rw [if_pos hcov, if_pos hpos']
    congr 1
    field_simp
  · have hz : ((ndindex nb).countP fun pos => inBlk blksz stpsz pos p) = 0 := by
      by_contra h; exact hcov (hc.2 (Nat.pos_of_ne_zero h))
    rw [if_neg hcov, if_neg]
    rw [hz]; simp

open Classical in
/-- **C11, combining.** For every function that maps a non-empty list of equal values to that
value, combining the extracted blocks gives back the image wherever a block covers it; the
other entries are the function's value for an empty list. -/
theorem C11_combine (fn : List α → α) (hfn : ∀ n v, fn (List.replicate (n + 1) v) = v)
    (img : View α) (blksz stpsz : List ℕ) (hs : Sizes img.shape blksz stpsz)
    (hst : img.strides.length = img.shape.length) (p : List ℕ) (hp : Valid img.shape p) :
    (combineBlocks fn (extractBlocks img blksz stpsz) img.shape stpsz).get p =
      if Covered img.shape blksz stpsz p then img.nd.get p else fn [] := by
  unfold combineBlocks
  simp only [extract_shape]
  set nb := numBlocks img.shape blksz stpsz with hnb
  set B := reshape (extractBlocks img blksz stpsz) (blksz ++ nb) with hB
  have key : ∀ (L : List (List ℕ)) (f : List ℕ → List α), (∀ pos ∈ L, Valid nb pos) →
      L.foldl (fun (imgs : List ℕ → List α) pos p =>
        if inBlk blksz stpsz pos p then imgs p ++ [B.get (offs blksz stpsz pos p ++ pos)]
        else imgs p) f p =
      f p ++ List.replicate (L.countP fun pos => inBlk blksz stpsz pos p) (img.nd.get p) := by
    intro L
    induction L with
    | nil => intro f _; simp
    | cons pos L ih =>
      intro f hL
      rw [List.foldl_cons, ih _ (fun q hq => hL q (List.mem_cons_of_mem _ hq))]
      by_cases hin : inBlk blksz stpsz pos p
      · have hv := block_value img blksz stpsz hs hst pos p hp (hL pos (by simp)) hin
        rw [List.countP_cons_of_pos (by simpa using hin), if_pos hin, hB, hv,
          List.replicate_succ, List.append_assoc]
        rfl
      · rw [List.countP_cons_of_neg (by simpa using hin), if_neg hin]
  rw [key _ _ (fun pos hpos => (mem_ndindex nb pos).1 hpos), List.nil_append]
  have hc : Covered img.shape blksz stpsz p ↔
      0 < ((ndindex nb).countP fun pos => inBlk blksz stpsz pos p) := by
    rw [covered_iff _ _ _ _ hs hp, List.countP_pos_iff]
    constructor
    · rintro ⟨pos, h3, h4⟩; exact ⟨pos, (mem_ndindex _ _).2 h3, by simpa using h4⟩
    · rintro ⟨pos, h3, h4⟩; exact ⟨pos, (mem_ndindex _ _).1 h3, by simpa using h4⟩
  by_cases hcov : Covered img.shape blksz stpsz p
  · obtain ⟨m, hm⟩ : ∃ m, ((ndindex nb).countP fun pos => inBlk blksz stpsz pos p) = m + 1 :=
      ⟨_, (Nat.succ_pred_eq_of_pos (hc.1 hcov)).symm⟩
    rw [if_pos hcov, hm, hfn]
  · have hz : ((ndindex nb).countP fun pos => inBlk blksz stpsz pos p) = 0 := by
      by_contra h; exact hcov (hc.2 (Nat.pos_of_ne_zero h))
    rw [if_neg hcov, hz, List.replicate_zero]

/-- The median of a list: the middle entry, or the mean of the two middle entries, of the
sorted list (`np.median`, the default `fn` of `combine_blocks`). -/
noncomputable def median (l : List ℝ) : ℝ :=
  let s := l.mergeSort (· ≤ ·)
  if l.length % 2 = 1 then s.getD (l.length / 2) 0
  else (s.getD (l.length / 2 - 1) 0 + s.getD (l.length / 2) 0) / 2

/-- **C11.** The default aggregation of `combine_blocks`, the median, is admissible in
`C11_combine`. -/
theorem C11_median (n : ℕ) (v : ℝ) : median (List.replicate (n + 1) v) = v := by
  have hs : (List.replicate (n + 1) v).mergeSort (· ≤ ·) = List.replicate (n + 1) v := by
    have hp := List.mergeSort_perm (List.replicate (n + 1) v) (· ≤ ·)
    exact List.perm_replicate.1 hp
  have hg : ∀ k, k < n + 1 → (List.replicate (n + 1) v).getD k 0 = v := by
    intro k hk
    rw [List.getD_eq_getElem?_getD, List.getElem?_replicate, if_pos hk]; rfl
  unfold median
  rw [hs, List.length_replicate]
  simp only
  split_ifs
  · exact hg _ (by omega)
  · rw [hg _ (by omega), hg _ (by omega)]; ring

/-- Concrete case: 5 samples of 2-channel data, blocks of length 2 at step 2. The last
sample is not covered. -/
example : Sizes [5, 2] [2] [2] ∧ Covered [5, 2] [2] [2] [3, 1] ∧ ¬ Covered [5, 2] [2] [2] [4, 1] ∧
    numBlocks [5, 2] [2] [2] = [2, 2] := by
  refine ⟨⟨rfl, by decide, by simp, by simp⟩, ⟨⟨1, by decide⟩, trivial⟩, ?_, by decide⟩
  rintro ⟨⟨a, h1, h2, h3⟩, -⟩
  omega

end Sporco.Array
