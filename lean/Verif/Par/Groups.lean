import Mathlib.Data.List.Basic
import Mathlib.Data.List.MinMax
import Mathlib.Data.List.OfFn
import Mathlib.Tactic.Common
import Mathlib.Tactic.Linarith
import Mathlib.Tactic.Ring
import Mathlib.Algebra.Group.Nat.Defs
import Mathlib.Algebra.Module.NatInt
import Mathlib.Algebra.BigOperators.Group.List.Basic
import Mathlib.Algebra.Order.Group.Nat

/-!
# The groups of filters of `ParConvBPDN` (C53)

`admm/parcbpdn.py` 694-697: `mp_grp = [np.min(i) for i in np.array_split(np.array(range(M)), ngrp)] + [M]`.
-/

set_option autoImplicit false

namespace Sporco.Par

/-- Lengths of the sections of `np.array_split` of an array of length `M` into `L` sections. -/
def sizes (M L : ℕ) : List ℕ := List.replicate (M % L) (M / L + 1) ++ List.replicate (L - M % L) (M / L)

/-- Division points of `np.array_split`: cumulative sums of the lengths. -/
def divPoint (M L i : ℕ) : ℕ := ((sizes M L).take i).sum

/-- Sections of `range(M)`. -/
def sections (M L : ℕ) : List (List ℕ) :=
  (List.range L).map fun i => List.range' (divPoint M L i) (divPoint M L (i + 1) - divPoint M L i)

/-- `mp_grp` (`parcbpdn.py` 694-697); `none` is a `ValueError` (no sections, or the minimum of an
empty section). -/
def mpGrp (M L : ℕ) : Option (List ℕ) :=
  if L = 0 then none else ((sections M L).mapM fun s : List ℕ => s.min?).map fun g => g ++ [M]

theorem divPoint_eq (M L i : ℕ) (hL : 0 < L) (hi : i ≤ L) :
    divPoint M L i = i * (M / L) + min i (M % L) := by
  have hr : M % L < L := Nat.mod_lt _ hL
  unfold divPoint sizes
  rw [List.take_append, List.sum_append, List.take_replicate, List.take_replicate, List.sum_replicate,
    List.sum_replicate, List.length_replicate, smul_eq_mul, smul_eq_mul]
  rcases le_total i (M % L) with h | h
  · have h1 : min i (M % L) = i := min_eq_left h
    have h2 : i - M % L = 0 := by omega
    rw [h1, h2]
    simp
    ring
  · have h1 : min i (M % L) = M % L := min_eq_right h
    have h2 : min (i - M % L) (L - M % L) = i - M % L := by omega
    rw [h1, h2]
    obtain ⟨t, rfl⟩ := Nat.exists_eq_add_of_le h
    rw [Nat.add_sub_cancel_left]
    ring

theorem divPoint_last (M L : ℕ) (hL : 0 < L) : divPoint M L L = M := by
  rw [divPoint_eq M L L hL le_rfl, min_eq_right (Nat.mod_lt _ hL).le]
  exact Nat.div_add_mod M L

theorem divPoint_succ (M L i : ℕ) (hL : 0 < L) (hi : i < L) :
    divPoint M L (i + 1) = divPoint M L i + M / L + if i < M % L then 1 else 0 := by
  rw [divPoint_eq M L i hL hi.le, divPoint_eq M L (i + 1) hL hi]
  split_ifs with h
  · rw [min_eq_left h.le, min_eq_left (by omega : i + 1 ≤ M % L)]; ring
  · rw [min_eq_right (by omega : M % L ≤ i), min_eq_right (by omega : M % L ≤ i + 1)]; ring

theorem min?_range' (a n : ℕ) : (List.range' a n).min? = if n = 0 then none else some a := by
  cases n with
  | zero => rfl
  | succ n =>
    rw [if_neg (by omega)]
    refine List.min?_eq_some_iff.2 ⟨?_, ?_⟩
    · simp [List.mem_range'_1]
    · intro b hb
      rw [List.mem_range'_1] at hb
      exact hb.1

theorem mapM_map_some {α β γ : Type*} (f : α → β) (h : β → Option γ) (k : α → γ) (l : List α)
    (hk : ∀ x ∈ l, h (f x) = some (k x)) : (l.map f).mapM h = some (l.map k) := by
  induction l with
  | nil => rfl
  | cons x l ih =>
    rw [List.map_cons, List.mapM_cons, hk x List.mem_cons_self, ih fun y hy => hk y (List.mem_cons_of_mem _ hy)]
    rfl

theorem mapM_none {α β : Type*} (h : α → Option β) (l : List α) (x : α) (hx : x ∈ l) (hn : h x = none) :
    l.mapM h = none := by
  induction l with
  | nil => cases hx
  | cons y l ih =>
    rw [List.mapM_cons]
    rcases List.mem_cons.1 hx with rfl | hx
    · rw [hn]; rfl
    · rw [ih hx]
      cases h y <;> rfl

theorem mpGrp_eq (M L : ℕ) (hL : 0 < L) (hM : L ≤ M) :
    mpGrp M L = some ((List.range (L + 1)).map (divPoint M L)) := by
  unfold mpGrp sections
  have hq : 1 ≤ M / L := (Nat.one_le_div_iff hL).2 hM
  rw [if_neg (by omega), mapM_map_some _ _ (divPoint M L)]
  · rw [Option.map_some, List.range_succ, List.map_append, List.map_singleton, divPoint_last M L hL]
  · intro i hi
    rw [List.mem_range] at hi
    rw [min?_range', if_neg]
    rw [divPoint_succ M L i hL hi]
    omega

/-- **C53, groups.** For at least one and at most `M` groups the boundaries `g` define groups
`{m | g[i] ≤ m < g[i+1]}` such that every filter is in exactly one group, no group is empty, and the
sizes of two groups differ by at most one. -/
theorem C53_groups (M L : ℕ) (hL : 0 < L) (hM : L ≤ M) :
    ∃ g : Fin (L + 1) → ℕ, mpGrp M L = some (List.ofFn g) ∧
      (∀ m < M, ∃! i : Fin L, g i.castSucc ≤ m ∧ m < g i.succ) ∧
      (∀ i : Fin L, g i.castSucc < g i.succ ∧ g i.succ ≤ M) ∧
      (∀ i j : Fin L, g i.succ - g i.castSucc ≤ g j.succ - g j.castSucc + 1) := by
  have hq : 1 ≤ M / L := (Nat.one_le_div_iff hL).2 hM
  have hs : ∀ i : Fin L, divPoint M L (i + 1) = divPoint M L i + M / L + if (i : ℕ) < M % L then 1 else 0 :=
    fun i => divPoint_succ M L i hL i.2
  have hlt : ∀ i : Fin L, divPoint M L i < divPoint M L (i + 1) := by
    intro i; rw [hs i]; omega
  have hmono : ∀ i j, i ≤ j → j ≤ L → divPoint M L i ≤ divPoint M L j := by
    intro i j hij hj
    induction j, hij using Nat.le_induction with
    | base => exact le_rfl
    | succ j _ ih => exact (ih (by omega)).trans (hlt ⟨j, by omega⟩).le
  refine ⟨fun i => divPoint M L i, ?_, ?_, ?_, ?_⟩
  · rw [mpGrp_eq M L hL hM]
    congr 1
    apply List.ext_getElem
    · simp
    · intro i h1 h2
      rw [List.getElem_map, List.getElem_range, List.getElem_ofFn]
  · intro m hm
    have hex : ∃ i, i < L ∧ divPoint M L i ≤ m ∧ m < divPoint M L (i + 1) := by
      have hP : ∃ j, m < divPoint M L j := ⟨L, by rw [divPoint_last M L hL]; exact hm⟩
      have h0 : divPoint M L 0 = 0 := by simp [divPoint]
      obtain ⟨j, hj, hmin⟩ : ∃ j, m < divPoint M L j ∧ ∀ k < j, ¬ m < divPoint M L k :=
        ⟨Nat.find hP, Nat.find_spec hP, fun k hk => Nat.find_min hP hk⟩
      cases j with
      | zero => omega
      | succ j =>
        refine ⟨j, ?_, ?_, hj⟩
        · by_contra hc
          have := hmin L (by omega)
          rw [divPoint_last M L hL] at this
          omega
        · have := hmin j (by omega)
          omega
    obtain ⟨i, hi, h1, h2⟩ := hex
    refine ⟨⟨i, hi⟩, ⟨h1, h2⟩, ?_⟩
    rintro ⟨j, hj⟩ ⟨h3, h4⟩
    simp only [Fin.val_castSucc, Fin.val_succ] at h3 h4
    rcases lt_trichotomy i j with h | h | h
    · have := hmono (i + 1) j h hj.le
      omega
    · exact Fin.ext h.symm
    · have := hmono (j + 1) i h hi.le
      omega
  · intro i
    refine ⟨hlt i, ?_⟩
    have := hmono (i + 1) L i.2 le_rfl
    rw [divPoint_last M L hL] at this
    exact this
  · intro i j
    have h1 := hs i
    have h2 := hs j
    simp only [Fin.val_castSucc, Fin.val_succ]
    rw [h1, h2]
    split_ifs <;> omega

/-- **C53, too many groups.** With more groups than filters, or none, construction raises. -/
theorem C53_groups_raise (M L : ℕ) (h : L = 0 ∨ M < L) : mpGrp M L = none := by
  unfold mpGrp
  rcases h with rfl | h
  · rfl
  · rw [if_neg (by omega), mapM_none _ _ []]
    · rfl
    · unfold sections
      refine List.mem_map.2 ⟨L - 1, List.mem_range.2 (by omega), ?_⟩
      have hL : 0 < L := by omega
      have e : divPoint M L (L - 1 + 1) - divPoint M L (L - 1) = 0 := by
        rw [divPoint_succ M L (L - 1) hL (by omega), Nat.div_eq_of_lt h, Nat.mod_eq_of_lt h, if_neg (by omega)]
        omega
      rw [e]
      rfl
    · rfl

/-- Ten filters in four groups: `array_split` gives sizes 3, 3, 2, 2. -/
example : mpGrp 10 4 = some [0, 3, 6, 8, 10] := by
  rw [mpGrp_eq 10 4 (by omega) (by omega)]; decide

end Sporco.Par
