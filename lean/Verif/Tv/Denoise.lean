import Verif.Tv.Model
import Verif.Tv.Jacobi
import Verif.Linalg.Solve

/-!
# Inner iteration of the TV denoising solvers (C41) and adjointness of their operators (C61)
-/

set_option autoImplicit false
set_option linter.unusedSectionVars false

namespace Sporco.Tv

open Finset Sporco.Signal

variable {D : ℕ} {n : Fin D → ℕ}

/-! ## Specification -/

/-- `q` is the next pixel after `p` along axis `ax`. -/
def IsNext (ax : Fin D) (p q : Pix n) : Prop := (∀ e, e ≠ ax → q e = p e) ∧ (q ax : ℕ) = p ax + 1

/-- Forward difference along an axis, zero at the end. -/
def diff (ax : Fin D) (x : Img n) (p : Pix n) : ℝ :=
  if h : (p ax : ℕ) + 1 < n ax then x (Function.update p ax ⟨p ax + 1, h⟩) - x p else 0

/-- The inner product of two stacks of images. -/
noncomputable def dotStack (a b : List (Img n)) : ℝ :=
  (List.zipWith (fun a b => ∑ p, a p * b p) a b).sum

/-- The function that the x update minimises:
`½ ‖W (x - s)‖² + ρ/2 ∑_k ‖∂_k x - y_k + u_k‖²`. -/
noncomputable def augLag (axes : List (Fin D)) (S : Img n) (Y U : List (Img n)) (ρ : ℝ)
    (W2 : Img n) (x : Img n) : ℝ :=
  (1 / 2) * ∑ p, W2 p * (x p - S p) ^ 2 + (ρ / 2) *
    (List.zipWith (fun ax (c : Img n × Img n) => ∑ p, (diff ax x p - c.1 p + c.2 p) ^ 2)
      axes (Y.zip U)).sum

/-- Every pixel is connected, by steps along the axes, to a pixel with positive weight. -/
def Connected (axes : List (Fin D)) (W2 : Img n) : Prop :=
  ∀ p, ∃ q, Relation.ReflTransGen (fun a b => ∃ ax ∈ axes, IsNext ax a b ∨ IsNext ax b a) p q ∧
    0 < W2 q

/-- The axes are the first ones, in order, and none of them has length 1. -/
def GoodAxes (n : Fin D → ℕ) (axes : List (Fin D)) : Prop :=
  (∀ i (h : i < axes.length), (axes[i] : ℕ) = i) ∧ ∀ ax ∈ axes, 2 ≤ n ax

/-! ## The gradient along an axis -/

theorem split_symm (d : Fin D) (p : Pix n) (i : Fin (n d)) :
    (Equiv.piSplitAt d fun e => Fin (n e)).symm (i, fun e => p e) = Function.update p d i := by
  funext e
  by_cases h : e = d
  · subst h
    simp [Equiv.piSplitAt]
  · simp [Equiv.piSplitAt, h]

theorem along_apply (d : Fin D) (x : Img n) (p : Pix n) (i : Fin (n d)) :
    along d x (fun e => p e) i = x (Function.update p d i) := by
  unfold along
  rw [split_symm]

theorem update_self' (p : Pix n) (d : Fin D) : Function.update p d (p d) = p :=
  Function.update_eq_self d p

theorem gradAx_eq (d : Fin D) (x : Img n) (p : Pix n) : gradAx d x p = diff d x p := by
  unfold gradAx unalong grad diff
  have hp := (p d).2
  by_cases h : (p d : ℕ) + 1 = n d
  · rw [if_pos h, dif_neg (by omega)]
  · rw [if_neg h, dif_pos (by omega), roll_neg_one _ _ _ (by omega), along_apply, along_apply,
      update_self']

theorem sum_split (d : Fin D) (f : Pix n → ℝ) :
    ∑ p, f p = ∑ o : Others n d, ∑ i, f ((Equiv.piSplitAt d fun e => Fin (n e)).symm (i, o)) := by
  rw [← Equiv.sum_comp (Equiv.piSplitAt d fun e => Fin (n e)).symm, Fintype.sum_prod_type, sum_comm]

theorem unalong_symm (d : Fin D) (z : Others n d → Fin (n d) → ℝ) (o : Others n d) (i : Fin (n d)) :
    unalong d z ((Equiv.piSplitAt d fun e => Fin (n e)).symm (i, o)) = z o i := by
  unfold unalong
  have h1 : (Equiv.piSplitAt d fun e => Fin (n e)).symm (i, o) d = i := by simp [Equiv.piSplitAt]
  have h2 : (fun e : {e // e ≠ d} => (Equiv.piSplitAt d fun e => Fin (n e)).symm (i, o) e) = o := by
    funext e
    simp [Equiv.piSplitAt, e.2]
  rw [h1, h2]

/-- The value of `gradT`, when it is defined. -/
def gradTVal (d : Fin D) (y : Img n) : Img n := (gradTAx d y).getD fun _ => 0

theorem gradTAx_eq (d : Fin D) (hd : n d ≠ 1) (y : Img n) : gradTAx d y = some (gradTVal d y) := by
  unfold gradTVal gradTAx gradT
  rw [if_neg hd]
  rfl

theorem gradT_adjoint (d : Fin D) (hd : n d ≠ 1) (x y : Img n) :
    ∑ p, diff d x p * y p = ∑ p, x p * gradTVal d y p := by
  obtain ⟨z, hz, h⟩ := C29_adjoint_partial (R := ℝ) hd (along d x) (along d y)
  have hv : gradTVal d y = unalong d z := by
    unfold gradTVal gradTAx
    rw [hz]
    rfl
  simp only [star_trivial] at h
  rw [sum_split d, sum_split d, hv]
  refine Eq.trans ?_ (h.trans ?_)
  · refine sum_congr rfl fun o _ => sum_congr rfl fun i _ => ?_
    rw [← gradAx_eq, gradAx, unalong_symm]
    rfl
  · refine sum_congr rfl fun o _ => sum_congr rfl fun i _ => ?_
    rw [unalong_symm]
    rfl

/-- The number of neighbours along an axis. -/
def degAx (d : Fin D) (p : Pix n) : ℝ :=
  (if (p d : ℕ) = 0 then 0 else 1) + if (p d : ℕ) + 1 < n d then 1 else 0

theorem gradT_diff (d : Fin D) (hd : 2 ≤ n d) (x : Img n) (p : Pix n) :
    gradTVal d (diff d x) p = degAx d p * x p - (shiftUp d x p + shiftDown d x p) := by
  have hp := (p d).2
  have hval : gradTVal d (diff d x) p =
      if h : (p d : ℕ) + 1 = n d then along d (diff d x) (fun e => p e) ⟨n d - 2, by omega⟩
      else if (p d : ℕ) = 0 then - along d (diff d x) (fun e => p e) (p d)
      else roll 1 (along d (diff d x)) (fun e => p e) (p d) -
        along d (diff d x) (fun e => p e) (p d) := by
    unfold gradTVal gradTAx gradT
    rw [if_neg (by omega)]
    rfl
  rw [hval]
  unfold degAx shiftUp shiftDown
  have hdiff : ∀ (i : Fin (n d)) (h : (i : ℕ) + 1 < n d), diff d x (Function.update p d i) =
      x (Function.update p d ⟨i + 1, h⟩) - x (Function.update p d i) := by
    intro i h
    unfold diff
    simp only [Function.update_self]
    rw [dif_pos h, Function.update_idem]
  by_cases h1 : (p d : ℕ) + 1 = n d
  · rw [dif_pos h1, along_apply, hdiff _ (by simp only; omega), if_neg (by omega),
      if_neg (by omega), dif_neg (by omega), dif_neg (by omega)]
    have e1 : (⟨n d - 2 + 1, by omega⟩ : Fin (n d)) = p d := Fin.ext (by simp only; omega)
    have e2 : (⟨n d - 2, by omega⟩ : Fin (n d)) = ⟨p d - 1, by omega⟩ :=
      Fin.ext (by simp only; omega)
    rw [e1, e2, update_self']
    ring
  · rw [dif_neg h1]
    by_cases h2 : (p d : ℕ) = 0
    · rw [if_pos h2, along_apply, hdiff _ (by omega), if_pos h2, if_pos (by omega), dif_pos h2,
        dif_pos (by omega), update_self']
      ring
    · rw [if_neg h2, roll_one _ _ _ (by omega), along_apply, along_apply,
        hdiff _ (by simp only; omega), hdiff _ (by omega), if_neg h2, if_pos (by omega), dif_neg h2,
        dif_pos (by omega), update_self']
      have e1 : (⟨p d - 1 + 1, by omega⟩ : Fin (n d)) = p d := Fin.ext (by simp only; omega)
      rw [e1, update_self']
      ring

/-! ## The stacks -/

theorem gradTerms_aux (rest : List (Fin D)) (pre yr : List (Img n))
    (hr : ∀ i (h : i < rest.length), (rest[i] : ℕ) = pre.length + i)
    (hn : ∀ ax ∈ rest, n ax ≠ 1) (hl : rest.length ≤ yr.length) :
    (rest.mapM fun ax => ((pre ++ yr)[ax.val]?).bind fun c => gradTAx ax c) =
      some (List.zipWith gradTVal rest yr) := by
  induction rest generalizing pre yr with
  | nil => simp
  | cons ax rest ih =>
    cases yr with
    | nil => simp at hl
    | cons y yr =>
      have h0 : (ax : ℕ) = pre.length := by
        have := hr 0 (by simp)
        simpa using this
      have h1 : (pre ++ y :: yr)[ax.val]? = some y := by
        rw [h0]; simp
      have h2 := ih (pre ++ [y]) yr (fun i h => by
        have := hr (i + 1) (by simp; omega)
        simp only [List.getElem_cons_succ] at this
        rw [this]
        simp
        omega) (fun a ha => hn a (List.mem_cons_of_mem _ ha)) (by simpa using hl)
      rw [List.append_assoc, List.singleton_append] at h2
      rw [List.mapM_cons, h1]
      simp only [Option.bind_some]
      rw [gradTAx_eq ax (hn ax List.mem_cons_self), h2]
      rfl

theorem gradTerms_eq {axes : List (Fin D)} (hax : GoodAxes n axes) (y : List (Img n))
    (hl : axes.length ≤ y.length) :
    gradTerms axes y = some (List.zipWith gradTVal axes y) :=
  gradTerms_aux axes [] y (fun i h => by rw [hax.1 i h]; simp)
    (fun ax h => by have := hax.2 ax h; omega) hl

theorem dotStack_zip (axes : List (Fin D)) (hn : ∀ ax ∈ axes, n ax ≠ 1) (y : List (Img n))
    (x : Img n) : dotStack (axes.map fun ax => diff ax x) y =
      ∑ p, x p * sumImg (List.zipWith gradTVal axes y) p := by
  unfold dotStack sumImg
  induction axes generalizing y with
  | nil => simp
  | cons ax axes ih =>
    cases y with
    | nil => simp
    | cons y ys =>
      simp only [List.map_cons, List.zipWith_cons_cons, List.sum_cons, mul_add, sum_add_distrib]
      rw [ih (fun a ha => hn a (List.mem_cons_of_mem _ ha)),
        gradT_adjoint ax (hn ax List.mem_cons_self)]

theorem cnstA_eq (axes : List (Fin D)) (x : Img n) :
    cnstA axes x = axes.map fun ax => diff ax x := by
  unfold cnstA
  exact List.map_congr_left fun ax _ => funext fun p => gradAx_eq ax x p

/-- **C61, TVL2.** If the axes are the leading ones in order, none of length 1, `cnst_AT` is the
adjoint of `cnst_A`. Missing from the property: other tuples of axes (`C61_order_refuted`,
`C61_missing_refuted`, `C61_tvl1_refuted`) and axes of length 1 (`C41_singleton_refuted`). -/
theorem C61_tvl2_partial (axes : List (Fin D)) (hax : GoodAxes n axes) (y : List (Img n))
    (hl : y.length = axes.length) :
    ∃ z, cnstAT axes y = some z ∧ ∀ x : Img n, dotStack (cnstA axes x) y = ∑ p, x p * z p := by
  refine ⟨_, by unfold cnstAT; rw [gradTerms_eq hax y hl.ge]; rfl, fun x => ?_⟩
  rw [cnstA_eq, dotStack_zip axes (fun ax h => by have := hax.2 ax h; omega)]

theorem dotStack_append (a b : List (Img n)) (c d : Img n) (h : a.length = b.length) :
    dotStack (a ++ [c]) (b ++ [d]) = dotStack a b + ∑ p, c p * d p := by
  unfold dotStack
  rw [List.zipWith_append h]
  simp

/-- **C61, TVL1.** The same for `TVL1Denoise`, whose last component is the image itself. -/
theorem C61_tvl1_partial (axes : List (Fin D)) (hax : GoodAxes n axes) (y : List (Img n))
    (hl : y.length = axes.length + 1) :
    ∃ z, cnstAT1 axes y = some z ∧ ∀ x : Img n, dotStack (cnstA1 axes x) y = ∑ p, x p * z p := by
  rcases List.eq_nil_or_concat y with rfl | ⟨y, c, rfl⟩
  · simp at hl
  have hly : y.length = axes.length := by simpa using hl
  rw [List.concat_eq_append] at *
  have ht : gradTerms axes (y ++ [c]) = some (List.zipWith gradTVal axes y) := by
    rw [gradTerms_eq hax _ (by rw [hl]; omega)]
    congr 1
    have := List.zipWith_append (f := gradTVal) (l₁ := axes) (l₁' := []) (l₂ := y) (l₂' := [c])
      hly.symm
    simpa using this
  refine ⟨_, by unfold cnstAT1; rw [ht]; simp; rfl, fun x => ?_⟩
  unfold cnstA1
  rw [cnstA_eq, dotStack_append _ _ _ _ (by simp [hly]),
    dotStack_zip axes (fun ax h => by have := hax.2 ax h; omega), ← sum_add_distrib]
  refine sum_congr rfl fun p _ => ?_
  unfold sumImg
  simp [mul_add]

/-! ## The step as a Jacobi step -/

theorem isNext_iff (ax : Fin D) (p q : Pix n) :
    IsNext ax p q ↔ ∃ h : (p ax : ℕ) + 1 < n ax, q = Function.update p ax ⟨p ax + 1, h⟩ := by
  constructor
  · rintro ⟨h1, h2⟩
    have := (q ax).2
    refine ⟨by omega, funext fun e => ?_⟩
    by_cases he : e = ax
    · subst he
      simp only [Function.update_self]
      exact Fin.ext h2
    · rw [Function.update_of_ne he]
      exact h1 e he
  · rintro ⟨h, rfl⟩
    exact ⟨fun e he => Function.update_of_ne he _ _, by simp⟩

theorem isNext_iff' (ax : Fin D) (p q : Pix n) :
    IsNext ax q p ↔ (p ax : ℕ) ≠ 0 ∧ q = Function.update p ax
      ⟨p ax - 1, by have := (p ax).2; omega⟩ := by
  constructor
  · rintro ⟨h1, h2⟩
    refine ⟨by omega, funext fun e => ?_⟩
    by_cases he : e = ax
    · subst he
      simp only [Function.update_self]
      exact Fin.ext (by simp only; omega)
    · rw [Function.update_of_ne he]
      exact (h1 e he).symm
  · rintro ⟨h, rfl⟩
    exact ⟨fun e he => (Function.update_of_ne he _ _).symm, by simp; omega⟩

open Classical in
/-- Adjacency of the pixels. -/
noncomputable def adj (axes : List (Fin D)) (p q : Pix n) : ℝ :=
  (axes.map fun ax => (if IsNext ax q p then 1 else 0) + if IsNext ax p q then 1 else 0).sum

theorem list_sum_mul {ι κ : Type*} [Fintype κ] (l : List ι) (f : ι → κ → ℝ) (x : κ → ℝ) :
    ∑ q, (l.map fun a => f a q).sum * x q = (l.map fun a => ∑ q, f a q * x q).sum := by
  induction l with
  | nil => simp
  | cons a l ih => simp only [List.map_cons, List.sum_cons, add_mul, sum_add_distrib, ih]

theorem adj_row (ax : Fin D) (p : Pix n) (x : Img n) :
    open Classical in
    ∑ q, ((if IsNext ax q p then (1 : ℝ) else 0) + if IsNext ax p q then 1 else 0) * x q =
      shiftUp ax x p + shiftDown ax x p := by
  classical
  simp only [add_mul, sum_add_distrib]
  congr 1
  · unfold shiftUp
    by_cases h : (p ax : ℕ) = 0
    · rw [dif_pos h]
      refine sum_eq_zero fun q _ => ?_
      rw [if_neg fun hh => ((isNext_iff' ax p q).1 hh).1 h, zero_mul]
    · rw [dif_neg h, sum_eq_single (Function.update p ax
        ⟨p ax - 1, by have := (p ax).2; omega⟩) ?_ (by simp)]
      · rw [if_pos ((isNext_iff' ax p _).2 ⟨h, rfl⟩), one_mul]
      · intro q _ hq
        rw [if_neg fun hh => hq ((isNext_iff' ax p q).1 hh).2, zero_mul]
  · unfold shiftDown
    by_cases h : (p ax : ℕ) + 1 < n ax
    · rw [dif_pos h, sum_eq_single (Function.update p ax ⟨p ax + 1, h⟩) ?_ (by simp)]
      · rw [if_pos ((isNext_iff ax p _).2 ⟨h, rfl⟩), one_mul]
      · intro q _ hq
        rw [if_neg fun hh => hq ((isNext_iff ax p q).1 hh).2, zero_mul]
    · rw [dif_neg h]
      refine sum_eq_zero fun q _ => ?_
      rw [if_neg fun hh => h ((isNext_iff ax p q).1 hh).1, zero_mul]

theorem foldl_add_map {ι : Type*} (l : List ι) (f : ι → ℝ) (v : ℝ) :
    l.foldl (fun v a => v + f a) v = v + (l.map f).sum := by
  induction l generalizing v with
  | nil => simp
  | cons a l ih => simp only [List.foldl_cons, ih, List.map_cons, List.sum_cons, add_assoc]

theorem xss_eq (axes : List (Fin D)) (x : Img n) (p : Pix n) :
    xss axes x p = ∑ q, adj axes p q * x q := by
  unfold xss adj
  rw [list_sum_mul]
  simp only [adj_row, add_assoc]
  rw [foldl_add_map, zero_add]

theorem degAx_eq (ax : Fin D) (p : Pix n) :
    degAx ax p = shiftUp ax (fun _ => 1) p + shiftDown ax (fun _ => 1) p := by
  unfold degAx shiftUp shiftDown
  by_cases h1 : (p ax : ℕ) = 0 <;> by_cases h2 : (p ax : ℕ) + 1 < n ax <;> simp [h1, h2]

theorem lcw_eq {axes : List (Fin D)} (hn : ∀ ax ∈ axes, 2 ≤ n ax) (p : Pix n) :
    lcw axes p = (axes.map fun ax => degAx ax p).sum := by
  have key : ∀ (l : List (Fin D)) (v : ℝ), (∀ ax ∈ l, 2 ≤ n ax) →
      l.foldl (fun v ax => if (p ax : ℕ) = 0 ∨ (p ax : ℕ) + 1 = n ax then v - 1 else v)
        (v + 2 * l.length) = v + (l.map fun ax => degAx ax p).sum := by
    intro l
    induction l with
    | nil => intro v _; simp
    | cons ax l ih =>
      intro v hl
      have h2 := hl ax List.mem_cons_self
      have hp := (p ax).2
      rw [List.foldl_cons, List.map_cons, List.sum_cons, ← add_assoc,
        ← ih (v + degAx ax p) fun a ha => hl a (List.mem_cons_of_mem _ ha)]
      congr 1
      unfold degAx
      simp only [List.length_cons, Nat.cast_add, Nat.cast_one]
      by_cases h0 : (p ax : ℕ) = 0
      · rw [if_pos (Or.inl h0), if_pos h0, if_pos (by omega)]; ring
      · by_cases h1 : (p ax : ℕ) + 1 = n ax
        · rw [if_pos (Or.inr h1), if_neg h0, if_neg (by omega)]; ring
        · rw [if_neg (by tauto), if_neg h0, if_pos (by omega)]; ring
  have := key axes 0 hn
  simpa [lcw] using this

theorem lcw_row {axes : List (Fin D)} (hn : ∀ ax ∈ axes, 2 ≤ n ax) (p : Pix n) :
    lcw axes p = ∑ q, adj axes p q := by
  have h := xss_eq axes (fun _ => 1) p
  simp only [mul_one] at h
  rw [← h, lcw_eq hn]
  unfold xss
  simp only [add_assoc]
  rw [foldl_add_map, zero_add]
  simp only [degAx_eq]

theorem gsStep_eq {axes : List (Fin D)} (hn : ∀ ax ∈ axes, 2 ≤ n ax) (S X a : Img n) (ρ : ℝ)
    (W2 : Img n) : gsStep axes S X a ρ W2 =
      jac (adj axes) W2 ρ (fun p => ρ * a p + W2 p * S p) X := by
  funext p
  unfold gsStep jac
  rw [xss_eq, lcw_row hn]
  congr 1
  ring

theorem list_sum_nonneg {l : List ℝ} (h : ∀ x ∈ l, 0 ≤ x) : 0 ≤ l.sum := List.sum_nonneg h

theorem adj_nonneg (axes : List (Fin D)) (p q : Pix n) : 0 ≤ adj axes p q := by
  classical
  unfold adj
  refine list_sum_nonneg fun x hx => ?_
  obtain ⟨ax, -, rfl⟩ := List.mem_map.1 hx
  split_ifs <;> norm_num

theorem adj_pos {axes : List (Fin D)} {p q : Pix n} {ax : Fin D} (h : ax ∈ axes)
    (hpq : IsNext ax p q ∨ IsNext ax q p) : 0 < adj axes p q := by
  classical
  unfold adj
  have h1 : (0 : ℝ) < (if IsNext ax q p then 1 else 0) + if IsNext ax p q then 1 else 0 := by
    rcases hpq with h | h
    · rw [if_pos h]; split_ifs <;> norm_num
    · rw [if_pos h]; split_ifs <;> norm_num
  refine lt_of_lt_of_le h1 (List.single_le_sum ?_ _ (List.mem_map.2 ⟨ax, h, rfl⟩))
  intro x hx
  obtain ⟨ax, -, rfl⟩ := List.mem_map.1 hx
  split_ifs <;> norm_num

theorem anchored {axes : List (Fin D)} {W2 : Img n} (h : Connected axes W2) :
    Anchored (adj axes) W2 := by
  intro p
  obtain ⟨q, hq, hw⟩ := h p
  exact ⟨q, Relation.ReflTransGen.mono (fun a b ⟨ax, hax, hab⟩ => adj_pos hax hab) _ _ hq, hw⟩

/-! ## The normal equation -/

theorem sumImg_gradT_diff {axes : List (Fin D)} (hn : ∀ ax ∈ axes, 2 ≤ n ax) (x : Img n)
    (p : Pix n) : sumImg (List.zipWith gradTVal axes (axes.map fun ax => diff ax x)) p =
      lcw axes p * x p - xss axes x p := by
  rw [lcw_eq hn]
  have h1 : xss axes x p = (axes.map fun ax => shiftUp ax x p + shiftDown ax x p).sum := by
    unfold xss
    simp only [add_assoc]
    rw [foldl_add_map, zero_add]
  rw [h1]
  unfold sumImg
  clear h1
  induction axes with
  | nil => simp
  | cons ax axes ih =>
    simp only [List.map_cons, List.zipWith_cons_cons, List.sum_cons]
    rw [ih fun a ha => hn a (List.mem_cons_of_mem _ ha), gradT_diff ax (hn ax List.mem_cons_self)]
    ring

theorem dot_expand (axes : List (Fin D)) (C : List (Img n × Img n))
    (hC : C.length = axes.length) (x h : Img n) :
    (List.zipWith (fun ax (c : Img n × Img n) => ∑ p, (diff ax (fun q => x q + h q) p - c.1 p +
        c.2 p) ^ 2) axes C).sum =
      (List.zipWith (fun ax (c : Img n × Img n) => ∑ p, (diff ax x p - c.1 p + c.2 p) ^ 2)
        axes C).sum +
      2 * (dotStack (axes.map fun ax => diff ax h) (axes.map fun ax => diff ax x) -
        dotStack (axes.map fun ax => diff ax h) (C.map fun c p => c.1 p - c.2 p)) +
      (axes.map fun ax => ∑ p, diff ax h p ^ 2).sum := by
  unfold dotStack
  induction axes generalizing C with
  | nil => simp
  | cons ax axes ih =>
    cases C with
    | nil => simp at hC
    | cons c C =>
      have hd : ∀ p, diff ax (fun q => x q + h q) p = diff ax x p + diff ax h p := by
        intro p
        unfold diff
        split_ifs <;> ring
      have h1 : ∑ p, (diff ax (fun q => x q + h q) p - c.1 p + c.2 p) ^ 2 =
          ∑ p, (diff ax x p - c.1 p + c.2 p) ^ 2 + 2 * (∑ p, diff ax h p * diff ax x p -
            ∑ p, diff ax h p * (c.1 p - c.2 p)) + ∑ p, diff ax h p ^ 2 := by
        rw [← sum_sub_distrib, mul_sum, ← sum_add_distrib, ← sum_add_distrib]
        refine sum_congr rfl fun p _ => ?_
        rw [hd]
        ring
      simp only [List.map_cons, List.zipWith_cons_cons, List.sum_cons]
      rw [ih C (by simpa using hC), h1]
      ring

theorem augLag_expand {axes : List (Fin D)} (hn : ∀ ax ∈ axes, 2 ≤ n ax) (S : Img n)
    (Y U : List (Img n)) (hY : Y.length = axes.length) (hU : U.length = axes.length) (ρ : ℝ)
    (W2 x h : Img n) :
    augLag axes S Y U ρ W2 (fun p => x p + h p) = augLag axes S Y U ρ W2 x +
      ∑ p, h p * (W2 p * x p + ρ * (lcw axes p * x p - xss axes x p) - W2 p * S p -
        ρ * sumImg (List.zipWith gradTVal axes (subStack Y U)) p) +
      ((1 / 2) * ∑ p, W2 p * h p ^ 2 + (ρ / 2) * (axes.map fun ax => ∑ p, diff ax h p ^ 2).sum) := by
  have hn1 : ∀ ax ∈ axes, n ax ≠ 1 := fun ax h => by have := hn ax h; omega
  unfold augLag
  have hsub : subStack Y U = (Y.zip U).map fun c p => c.1 p - c.2 p := by
    unfold subStack
    rw [List.zip, List.map_zipWith]
  rw [dot_expand axes (Y.zip U) (by simp [hY, hU]), dotStack_zip axes hn1, dotStack_zip axes hn1,
    hsub]
  have e1 : ∑ p, h p * (W2 p * x p + ρ * (lcw axes p * x p - xss axes x p) - W2 p * S p -
      ρ * sumImg (List.zipWith gradTVal axes ((Y.zip U).map fun c p => c.1 p - c.2 p)) p) =
      ∑ p, W2 p * (h p * (x p - S p)) + ρ * (∑ p, h p * (lcw axes p * x p - xss axes x p) -
        ∑ p, h p * sumImg (List.zipWith gradTVal axes
          ((Y.zip U).map fun c p => c.1 p - c.2 p)) p) := by
    rw [← sum_sub_distrib, mul_sum, ← sum_add_distrib]
    exact sum_congr rfl fun p _ => by ring
  have e2 : ∑ p, W2 p * (x p + h p - S p) ^ 2 = ∑ p, W2 p * (x p - S p) ^ 2 +
      2 * ∑ p, W2 p * (h p * (x p - S p)) + ∑ p, W2 p * h p ^ 2 := by
    rw [mul_sum, ← sum_add_distrib, ← sum_add_distrib]
    exact sum_congr rfl fun p _ => by ring
  have e3 : ∑ p, h p * sumImg (List.zipWith gradTVal axes (axes.map fun ax => diff ax x)) p =
      ∑ p, h p * (lcw axes p * x p - xss axes x p) :=
    sum_congr rfl fun p _ => by rw [sumImg_gradT_diff hn]
  rw [e1, e2, e3]
  ring

/-- **C41.** For the leading axes, none of length 1, all images, every nonnegative weight such that
each pixel is connected along the axes to one with positive weight, and every `ρ > 0`: the function
that the x update of `TVL2Denoise` is to minimise has exactly one minimiser; this is the only fixed
point of the inner iteration; and the iteration converges to it from every start. -/
theorem C41_tvl2_partial (axes : List (Fin D)) (hax : GoodAxes n axes) (S : Img n)
    (Y U : List (Img n)) (hY : Y.length = axes.length) (hU : U.length = axes.length) (ρ : ℝ)
    (hρ : 0 < ρ) (W2 : Img n) (hW : ∀ p, 0 ≤ W2 p) (hc : Connected axes W2) :
    ∃ a, cnstAT axes (subStack Y U) = some a ∧ ∃ x,
      (∀ x', augLag axes S Y U ρ W2 x ≤ augLag axes S Y U ρ W2 x') ∧
      (∀ x', augLag axes S Y U ρ W2 x' ≤ augLag axes S Y U ρ W2 x → x' = x) ∧
      (∀ x', gsStep axes S x' a ρ W2 = x' ↔ x' = x) ∧
      ∀ x0 p, Filter.Tendsto (fun k => ((fun x => gsStep axes S x a ρ W2)^[k] x0) p)
        Filter.atTop (nhds (x p)) := by
  have hl : axes.length ≤ (subStack Y U).length := by simp [subStack, hY, hU]
  have hD := den_pos (adj_nonneg axes) hW hρ (anchored hc)
  refine ⟨_, by unfold cnstAT; rw [gradTerms_eq hax _ hl]; rfl, ?_⟩
  set a : Img n := sumImg (List.zipWith gradTVal axes (subStack Y U)) with ha
  obtain ⟨x, hx, hu, hlim⟩ := jacobi (adj_nonneg axes) hW hρ (anchored hc)
    (fun p => ρ * a p + W2 p * S p)
  have hstep : (fun x => gsStep axes S x a ρ W2) =
      jac (adj axes) W2 ρ (fun p => ρ * a p + W2 p * S p) :=
    funext fun x => gsStep_eq hax.2 S x a ρ W2
  have hnorm : ∀ p, W2 p * x p + ρ * (lcw axes p * x p - xss axes x p) - W2 p * S p -
      ρ * a p = 0 := by
    intro p
    have h := congrFun hx p
    unfold jac at h
    rw [div_eq_iff (hD p).ne', ← xss_eq, ← lcw_row hax.2] at h
    linarith
  have hexp : ∀ h : Img n, augLag axes S Y U ρ W2 (fun p => x p + h p) =
      augLag axes S Y U ρ W2 x + ((1 / 2) * ∑ p, W2 p * h p ^ 2 + (ρ / 2) *
        (axes.map fun ax => ∑ p, diff ax h p ^ 2).sum) := by
    intro h
    rw [augLag_expand hax.2 S Y U hY hU]
    simp only [← ha, hnorm, mul_zero, sum_const_zero, add_zero]
  have hq1 : ∀ h : Img n, 0 ≤ ∑ p, W2 p * h p ^ 2 := fun h =>
    sum_nonneg fun p _ => mul_nonneg (hW p) (sq_nonneg _)
  have hq2 : ∀ h : Img n, 0 ≤ (axes.map fun ax => ∑ p, diff ax h p ^ 2).sum := fun h => by
    refine list_sum_nonneg fun y hy => ?_
    obtain ⟨ax, -, rfl⟩ := List.mem_map.1 hy
    exact sum_nonneg fun p _ => sq_nonneg _
  have hsub : ∀ x' : Img n, (fun p => x p + (x' p - x p)) = x' := fun x' => by
    funext p; ring
  refine ⟨x, ?_, ?_, ?_, ?_⟩
  · intro x'
    rw [← hsub x', hexp fun p => x' p - x p]
    have := hq1 fun p => x' p - x p
    have := mul_nonneg hρ.le (hq2 fun p => x' p - x p)
    linarith
  · intro x' hle
    set h : Img n := fun p => x' p - x p with hh
    rw [← hsub x', hexp h] at hle
    have h1 := hq1 h
    have h2 := hq2 h
    have h2' := mul_nonneg hρ.le h2
    have z1 : ∑ p, W2 p * h p ^ 2 = 0 := by linarith
    have z2 : (axes.map fun ax => ∑ p, diff ax h p ^ 2).sum = 0 := by
      have : ρ * (axes.map fun ax => ∑ p, diff ax h p ^ 2).sum = 0 := by linarith
      exact (mul_eq_zero.1 this).resolve_left hρ.ne'
    have w1 : ∀ p, W2 p * h p = 0 := by
      intro p
      have := (sum_eq_zero_iff_of_nonneg fun p _ => mul_nonneg (hW p) (sq_nonneg (h p))).1 z1 p
        (mem_univ p)
      rcases mul_eq_zero.1 this with h | h
      · rw [h, zero_mul]
      · rw [pow_eq_zero_iff (by norm_num)] at h; rw [h, mul_zero]
    have w2 : ∀ ax ∈ axes, diff ax h = fun _ => 0 := by
      intro ax hax'
      have h3 : ∑ p, diff ax h p ^ 2 = 0 := by
        refine le_antisymm ?_ (sum_nonneg fun p _ => sq_nonneg _)
        rw [← z2]
        refine List.single_le_sum ?_ _ (List.mem_map.2 ⟨ax, hax', rfl⟩)
        intro y hy
        obtain ⟨ax, -, rfl⟩ := List.mem_map.1 hy
        exact sum_nonneg fun p _ => sq_nonneg _
      funext p
      have := (sum_eq_zero_iff_of_nonneg fun p _ => sq_nonneg (diff ax h p)).1 h3 p (mem_univ p)
      exact pow_eq_zero_iff (by norm_num) |>.1 this
    have w3 : ∀ p, lcw axes p * h p - xss axes h p = 0 := by
      intro p
      rw [lcw_eq hax.2]
      have h1 : xss axes h p = (axes.map fun ax => shiftUp ax h p + shiftDown ax h p).sum := by
        unfold xss
        simp only [add_assoc]
        rw [foldl_add_map, zero_add]
      rw [h1]
      have key : ∀ l : List (Fin D), (∀ ax ∈ l, 2 ≤ n ax ∧ diff ax h = fun _ => 0) →
          (l.map fun ax => degAx ax p).sum * h p -
            (l.map fun ax => shiftUp ax h p + shiftDown ax h p).sum = 0 := by
        intro l
        induction l with
        | nil => simp
        | cons ax l ih =>
          intro hl
          have h4 := gradT_diff ax (hl ax List.mem_cons_self).1 h p
          have h5 : gradTVal ax (diff ax h) p = 0 := by
            rw [(hl ax List.mem_cons_self).2]
            have hz := gradT_adjoint ax (by have := (hl ax List.mem_cons_self).1; omega)
              (fun q => if q = p then 1 else 0) (fun _ => 0 : Img n)
            simp only [mul_zero, sum_const_zero] at hz
            simpa using hz.symm
          have := ih fun a ha => hl a (List.mem_cons_of_mem _ ha)
          simp only [List.map_cons, List.sum_cons]
          linarith
      exact key axes fun ax h => ⟨hax.2 ax h, w2 ax h⟩
    have hfix : jac (adj axes) W2 ρ (fun p => ρ * a p + W2 p * S p) x' = x' := by
      funext p
      have hxp : x' p = x p + h p := by rw [hh]; ring
      have hxs : ∑ q, adj axes p q * x' q = xss axes x p + xss axes h p := by
        rw [xss_eq, xss_eq, ← sum_add_distrib]
        refine sum_congr rfl fun q _ => ?_
        rw [hh]; ring
      unfold jac
      rw [div_eq_iff (hD p).ne', hxs, ← lcw_row hax.2, hxp]
      have := hnorm p
      have := w1 p
      have := w3 p
      have w4 : ρ * (lcw axes p * h p - xss axes h p) = 0 := by rw [this, mul_zero]
      linarith
    exact hu x' hfix
  · intro x'
    rw [gsStep_eq hax.2]
    exact ⟨hu x', fun h => h ▸ hx⟩
  · intro x0 p
    rw [hstep]
    exact hlim x0 p

/-- With weights on the whole image positive the condition on the weights holds. -/
theorem connected_of_pos (axes : List (Fin D)) (W2 : Img n) (h : ∀ p, 0 < W2 p) :
    Connected axes W2 := fun p => ⟨p, .refl, h p⟩

/-- If all axes of the image are used, one positive weight is enough. -/
theorem connected_of_all (axes : List (Fin D)) (hall : ∀ d, d ∈ axes) (W2 : Img n) (q : Pix n)
    (hq : 0 < W2 q) : Connected axes W2 := by
  intro p
  refine ⟨q, ?_, hq⟩
  have key : ∀ (m : ℕ) (p : Pix n), ∑ d, ((p d : ℤ) - q d).natAbs = m →
      Relation.ReflTransGen (fun a b => ∃ ax ∈ axes, IsNext ax a b ∨ IsNext ax b a) p q := by
    intro m
    induction m using Nat.strong_induction_on with
    | _ m ih =>
      intro p hm
      by_cases hpq : p = q
      · rw [hpq]
      obtain ⟨d, hd⟩ : ∃ d, p d ≠ q d := by
        by_contra hcon
        push Not at hcon
        exact hpq (funext hcon)
      have hdn : (p d : ℕ) ≠ q d := fun h => hd (Fin.ext h)
      have hp := (p d).2
      have hq' := (q d).2
      have step : ∀ v : Fin (n d), ((v : ℤ) - q d).natAbs < ((p d : ℤ) - q d).natAbs →
          ∑ e, ((Function.update p d v e : ℤ) - q e).natAbs < m := by
        intro v hv
        rw [← hm]
        refine sum_lt_sum (fun e _ => ?_) ⟨d, mem_univ d, ?_⟩
        · by_cases he : e = d
          · subst he
            simp only [Function.update_self]
            exact hv.le
          · rw [Function.update_of_ne he]
        · simp only [Function.update_self]
          exact hv
      rcases Nat.lt_or_ge (p d : ℕ) (q d) with hlt | hge
      · have h1 : (p d : ℕ) + 1 < n d := by omega
        refine Relation.ReflTransGen.head
          ⟨d, hall d, Or.inl ((isNext_iff d p _).2 ⟨h1, rfl⟩)⟩
          (ih _ (step ⟨p d + 1, h1⟩ ?_) _ rfl)
        simp only [Nat.cast_add, Nat.cast_one]
        omega
      · refine Relation.ReflTransGen.head
          ⟨d, hall d, Or.inr ((isNext_iff' d p _).2 ⟨by omega, rfl⟩)⟩
          (ih _ (step ⟨p d - 1, by omega⟩ ?_) _ rfl)
        simp only
        omega
  exact key _ p rfl

/-- The function that the x update of `TVL1Denoise` minimises, divided by `ρ`. -/
noncomputable def augLag1 (axes : List (Fin D)) (S : Img n) (Y U : List (Img n)) (yl ul : Img n)
    (x : Img n) : ℝ :=
  (1 / 2) * ((List.zipWith (fun ax (c : Img n × Img n) => ∑ p, (diff ax x p - c.1 p + c.2 p) ^ 2)
      axes (Y.zip U)).sum + ∑ p, (x p - S p - yl p + ul p) ^ 2)

/-- **C41, TVL1.** The same for `TVL1Denoise`, whose splitting has the last components `yl`, `ul`
for the constraint `x - s = y`. -/
theorem C41_tvl1_partial (axes : List (Fin D)) (hax : GoodAxes n axes) (S : Img n)
    (Y U : List (Img n)) (yl ul : Img n) (hY : Y.length = axes.length)
    (hU : U.length = axes.length) :
    ∃ (step : Img n → Img n) (x : Img n),
      (∀ x', gsStep1 axes S x' (Y ++ [yl]) (U ++ [ul]) = some (step x')) ∧
      (∀ x', augLag1 axes S Y U yl ul x ≤ augLag1 axes S Y U yl ul x') ∧
      (∀ x', augLag1 axes S Y U yl ul x' ≤ augLag1 axes S Y U yl ul x → x' = x) ∧
      (∀ x', step x' = x' ↔ x' = x) ∧
      ∀ x0 p, Filter.Tendsto (fun k => (step^[k] x0) p) Filter.atTop (nhds (x p)) := by
  obtain ⟨a, ha, x, h1, h2, h3, h4⟩ := C41_tvl2_partial axes hax (fun p => S p + (yl p - ul p)) Y U
    hY hU 1 one_pos (fun _ => 1) (fun _ => zero_le_one) (connected_of_pos _ _ fun _ => one_pos)
  have hobj : ∀ x', augLag axes (fun p => S p + (yl p - ul p)) Y U 1 (fun _ => 1) x' =
      augLag1 axes S Y U yl ul x' := by
    intro x'
    unfold augLag augLag1
    have : ∑ p, (1 : ℝ) * (x' p - (S p + (yl p - ul p))) ^ 2 =
        ∑ p, (x' p - S p - yl p + ul p) ^ 2 := sum_congr rfl fun p _ => by ring
    rw [this]
    ring
  have hsub : subStack (Y ++ [yl]) (U ++ [ul]) = subStack Y U ++ [fun p => yl p - ul p] := by
    unfold subStack
    rw [List.zipWith_append (by rw [hY, hU])]
    rfl
  have hlen : (subStack Y U).length = axes.length := by simp [subStack, hY, hU]
  have ht : gradTerms axes (subStack Y U ++ [fun _ => 0]) =
      some (List.zipWith gradTVal axes (subStack Y U)) := by
    rw [gradTerms_eq hax _ (by simp [hlen])]
    congr 1
    have := List.zipWith_append (f := gradTVal) (l₁ := axes) (l₁' := []) (l₂ := subStack Y U)
      (l₂' := [fun _ => 0]) hlen.symm
    simpa using this
  have ha' : a = sumImg (List.zipWith gradTVal axes (subStack Y U)) := by
    unfold cnstAT at ha
    rw [gradTerms_eq hax _ hlen.ge] at ha
    simpa using ha.symm
  refine ⟨fun x => gsStep axes (fun p => S p + (yl p - ul p)) x a 1 fun _ => 1, x, ?_, ?_, ?_, h3,
    h4⟩
  · intro x'
    unfold gsStep1 cnstAT1
    rw [hsub]
    simp only [List.getLast?_append, List.getLast?_singleton, Option.some_or, Option.bind_some,
      List.dropLast_concat, ht, Option.map_some]
    congr 2
    rw [ha']
    funext p
    simp [sumImg]
  · intro x'
    rw [← hobj, ← hobj]
    exact h1 x'
  · intro x' h
    rw [← hobj, ← hobj] at h
    exact h2 x' h

/-- **C41, the loop.** The x update performs `k` passes of the inner iteration, at most as many as
allowed; if it stops before, the reported relative residual is at most the tolerance; the reported
residual is zero only at the exact minimiser. -/
theorem C41_xstep_partial (axes : List (Fin D)) (hax : GoodAxes n axes) (S X : Img n)
    (Y U : List (Img n)) (hY : Y.length = axes.length) (hU : U.length = axes.length) (ρ : ℝ)
    (hρ : 0 < ρ) (W2 : Img n) (hW : ∀ p, 0 ≤ W2 p) (hc : Connected axes W2) (tol : ℝ)
    (maxIter : ℕ) (hm : 0 < maxIter) :
    ∃ (a X' : Img n) (k : ℕ) (r : ℝ), cnstAT axes (subStack Y U) = some a ∧
      xstep axes S X Y U ρ W2 tol maxIter = some (X', k, some r) ∧ 0 < k ∧ k ≤ maxIter ∧
      X' = (fun x => gsStep axes S x a ρ W2)^[k] X ∧ 0 ≤ r ∧ (k < maxIter → r ≤ tol) ∧
      (r = 0 ↔ ∀ x', augLag axes S Y U ρ W2 X' ≤ augLag axes S Y U ρ W2 x') := by
  obtain ⟨a, ha, x, h1, h2, h3, -⟩ := C41_tvl2_partial axes hax S Y U hY hU ρ hρ W2 hW hc
  have hD := den_pos (adj_nonneg axes) hW hρ (anchored hc)
  have hAA : ∀ X' : Img n, cnstAT axes (cnstA axes X') =
      some fun p => lcw axes p * X' p - xss axes X' p := by
    intro X'
    unfold cnstAT
    rw [cnstA_eq, gradTerms_eq hax _ (by simp)]
    simp only [Option.map_some]
    congr 1
    funext p
    exact sumImg_gradT_diff hax.2 X' p
  let res : Img n → ℝ := fun X' => Linalg.rrs
    (fun p => ρ * (lcw axes p * X' p - xss axes X' p) + W2 p * X' p)
    (fun p => W2 p * S p + ρ * a p)
  have hres0 : ∀ X', res X' = 0 ↔ ∀ x', augLag axes S Y U ρ W2 X' ≤ augLag axes S Y U ρ W2 x' := by
    intro X'
    rw [(Linalg.C58_rrs _ _).2]
    have hmin : (∀ x', augLag axes S Y U ρ W2 X' ≤ augLag axes S Y U ρ W2 x') ↔ X' = x :=
      ⟨fun h => h2 X' (h x), fun h => h ▸ h1⟩
    rw [hmin, ← h3 X', gsStep_eq hax.2, funext_iff, funext_iff]
    refine forall_congr' fun p => ?_
    unfold jac
    rw [div_eq_iff (hD p).ne', ← xss_eq, ← lcw_row hax.2]
    constructor <;> intro h <;> linarith
  have hnn : ∀ X', 0 ≤ res X' := fun X' => (Linalg.C58_rrs _ _).1
  have key : ∀ (fuel : ℕ) (X0 : Img n) (k0 : ℕ) (r0 : Option ℝ),
      (∃ r, r0 = some r ∧ r = res X0) ∨ (r0 = none ∧ 0 < fuel) →
      ∃ j r, xloop axes S Y U ρ W2 tol fuel X0 k0 r0 =
        some ((fun x => gsStep axes S x a ρ W2)^[j] X0, k0 + j, some r) ∧ j ≤ fuel ∧
        (r0 = none → 0 < j) ∧
        r = res ((fun x => gsStep axes S x a ρ W2)^[j] X0) ∧ (j < fuel → r ≤ tol) := by
    intro fuel
    induction fuel with
    | zero =>
      rintro X0 k0 r0 (⟨r, rfl, hr⟩ | ⟨-, h⟩)
      · exact ⟨0, r, rfl, le_rfl, fun h => (by cases h), hr, fun h => absurd h (by omega)⟩
      · omega
    | succ fuel ih =>
      intro X0 k0 r0 hr0
      unfold xloop
      by_cases hcond : ∀ r', r0 = some r' → tol < r'
      · rw [if_pos hcond, ha]
        simp only [Option.bind_some, hAA]
        obtain ⟨j, r, e, hj, -, hr, hs⟩ := ih (gsStep axes S X0 a ρ W2) (k0 + 1)
          (some (res (gsStep axes S X0 a ρ W2))) (Or.inl ⟨_, rfl, rfl⟩)
        refine ⟨j + 1, r, ?_, by omega, fun _ => by omega, by rw [Function.iterate_succ_apply]; exact hr,
          fun h => hs (by omega)⟩
        rw [Function.iterate_succ_apply]
        refine Eq.trans e ?_
        congr 3
        omega
      · rw [if_neg hcond]
        push Not at hcond
        obtain ⟨r', rfl, hr'⟩ := hcond
        obtain ⟨r, hr1, hr2⟩ := hr0.resolve_right (by rintro ⟨h, -⟩; cases h)
        cases hr1
        exact ⟨0, r', rfl, by omega, fun h => (by cases h), hr2, fun _ => hr'⟩
  obtain ⟨j, r, e, hj, hj0, hr, hs⟩ := key maxIter X 0 none (Or.inr ⟨rfl, hm⟩)
  refine ⟨a, _, j, r, ha, ?_, hj0 rfl, hj, rfl, ?_, hs, ?_⟩
  · unfold xstep
    rw [e, Nat.zero_add]
  · rw [hr]; exact hnn _
  · rw [hr]; exact hres0 _

theorem mapM_none {α β : Type*} (f : α → Option β) (l : List α) (a : α) (ha : a ∈ l)
    (h : f a = none) : l.mapM f = none := by
  induction l with
  | nil => simp at ha
  | cons b l ih =>
    rw [List.mapM_cons]
    rcases List.mem_cons.1 ha with rfl | h'
    · rw [h]; rfl
    · rw [ih h']
      cases f b <;> rfl

/-- **C41, C61, refuted for axes of length 1**: whatever the image, the transpose operator raises,
and with it every x update. -/
theorem C41_C61_singleton_refuted (axes : List (Fin D)) (ax : Fin D) (h : ax ∈ axes)
    (h1 : n ax = 1) (S X : Img n) (Y U : List (Img n)) (ρ : ℝ) (W2 : Img n) (tol : ℝ)
    (maxIter : ℕ) (hm : 0 < maxIter) :
    (∀ y : List (Img n), cnstAT axes y = none) ∧ xstep axes S X Y U ρ W2 tol maxIter = none := by
  have hn : ∀ y : List (Img n), cnstAT axes y = none := by
    intro y
    unfold cnstAT gradTerms
    rw [mapM_none _ _ ax h ?_]
    · rfl
    · have : ∀ c : Img n, gradTAx ax c = none := fun c => by
        unfold gradTAx gradT
        rw [if_pos h1]
        rfl
      cases y[ax.val]? with
      | none => rfl
      | some c => exact this c
  refine ⟨hn, ?_⟩
  cases maxIter with
  | zero => omega
  | succ m =>
    unfold xstep xloop
    rw [if_pos (fun r' h => by cases h), hn]
    rfl

/-- **C61, refuted for tuples that skip an axis**: if an axis number is not less than the number of
axes, for instance `axes=(1,)`, `TVL2Denoise.cnst_AT` raises. -/
theorem C61_missing_refuted (axes : List (Fin D)) (ax : Fin D) (h : ax ∈ axes)
    (h1 : axes.length ≤ ax) (y : List (Img n)) (hy : y.length = axes.length) :
    cnstAT axes y = none := by
  unfold cnstAT gradTerms
  rw [mapM_none _ _ ax h ?_]
  · rfl
  · rw [List.getElem?_eq_none (by omega)]
    rfl

/-- The pixel of a two-dimensional image with both indices zero. -/
def origin {n : Fin 2 → ℕ} (hn : ∀ d, 2 ≤ n d) : Pix n := fun d => ⟨0, by have := hn d; omega⟩

theorem diff_coord {n : Fin 2 → ℕ} (hn : ∀ d, 2 ≤ n d) (d e : Fin 2) :
    diff d (fun p : Pix n => ((p e : ℕ) : ℝ)) (origin hn) = if d = e then 1 else 0 := by
  unfold diff
  have h : ((origin hn d : Fin (n d)) : ℕ) + 1 < n d := by
    have := hn d; simp [origin]; omega
  rw [dif_pos h]
  by_cases hde : d = e
  · subst hde
    simp [origin]
  · rw [if_neg hde]
    simp only
    rw [Function.update_of_ne (Ne.symm hde), sub_self]

theorem sum_ite_origin {n : Fin 2 → ℕ} (hn : ∀ d, 2 ≤ n d) (f : Img n) :
    ∑ p, f p * (if p = origin hn then (1 : ℝ) else 0) = f (origin hn) := by
  simp

/-- **C61, refuted for a different order**: with `axes=(1, 0)` and a two-dimensional image of any
size at least 2 × 2, `TVL2Denoise.cnst_AT` applies each transposed gradient to the component that
belongs to the other axis, and is not the adjoint of `cnst_A`. -/
theorem C61_order_refuted {n : Fin 2 → ℕ} (hn : ∀ d, 2 ≤ n d) :
    ∃ (x : Img n) (y : List (Img n)) (z : Img n), y.length = 2 ∧
      cnstAT [1, 0] y = some z ∧ dotStack (cnstA [1, 0] x) y ≠ ∑ p, x p * z p := by
  classical
  have hn1 : ∀ d, n d ≠ 1 := fun d => by have := hn d; omega
  let c : Img n := fun p => if p = origin hn then 1 else 0
  let z0 : Img n := fun _ => 0
  refine ⟨fun p => ((p 0 : ℕ) : ℝ), [z0, c],
    sumImg [gradTVal 1 c, gradTVal 0 z0], rfl, ?_, ?_⟩
  · unfold cnstAT gradTerms
    simp [gradTAx_eq _ (hn1 _)]
  · rw [cnstA_eq]
    have e1 := gradT_adjoint 1 (hn1 1) (fun p => ((p 0 : ℕ) : ℝ)) c
    have e2 := gradT_adjoint 0 (hn1 0) (fun p => ((p 0 : ℕ) : ℝ)) z0
    have e3 := sum_ite_origin hn (diff 1 fun p => ((p 0 : ℕ) : ℝ))
    have e4 := sum_ite_origin hn (diff 0 fun p => ((p 0 : ℕ) : ℝ))
    rw [diff_coord hn] at e3 e4
    simp only [z0, mul_zero, sum_const_zero] at e2
    have hr : ∑ p, ((p 0 : ℕ) : ℝ) * sumImg [gradTVal 1 c, gradTVal 0 z0] p = 0 := by
      simp only [sumImg, List.map_cons, List.map_nil, List.sum_cons, List.sum_nil, add_zero,
        mul_add, sum_add_distrib]
      rw [← e1, ← e2, add_zero]
      exact e3.trans (if_neg (by decide))
    rw [hr]
    simp only [dotStack, List.map_cons, List.map_nil, List.zipWith_cons_cons, List.zipWith_nil_left,
      List.sum_cons, List.sum_nil, add_zero, z0, mul_zero, sum_const_zero, zero_add, c]
    rw [e4]
    simp

/-- **C61, refuted for TVL1 and tuples that skip an axis**: with `axes=(1,)` and a two-dimensional
image of any size at least 2 × 2, `TVL1Denoise.cnst_AT` applies the transposed gradient to the
component of the data fidelity term, and is not the adjoint of `cnst_A`. -/
theorem C61_tvl1_refuted {n : Fin 2 → ℕ} (hn : ∀ d, 2 ≤ n d) :
    ∃ (x : Img n) (y : List (Img n)) (z : Img n), y.length = 2 ∧
      cnstAT1 [1] y = some z ∧ dotStack (cnstA1 [1] x) y ≠ ∑ p, x p * z p := by
  classical
  have hn1 : ∀ d, n d ≠ 1 := fun d => by have := hn d; omega
  let c : Img n := fun p => if p = origin hn then 1 else 0
  let z0 : Img n := fun _ => 0
  refine ⟨fun p => ((p 1 : ℕ) : ℝ), [z0, c], sumImg [gradTVal 1 c, c], rfl, ?_, ?_⟩
  · unfold cnstAT1 gradTerms
    simp [gradTAx_eq _ (hn1 _)]
  · unfold cnstA1
    rw [cnstA_eq]
    have e1 := gradT_adjoint 1 (hn1 1) (fun p => ((p 1 : ℕ) : ℝ)) c
    have e3 := sum_ite_origin hn (diff 1 fun p => ((p 1 : ℕ) : ℝ))
    have e4 := sum_ite_origin hn (fun p => ((p 1 : ℕ) : ℝ))
    rw [diff_coord hn, if_pos rfl] at e3
    have e5 : ∑ p : Pix n, ((p 1 : ℕ) : ℝ) * c p = 0 := by
      refine Eq.trans e4 ?_
      simp [origin]
    have hr : ∑ p, ((p 1 : ℕ) : ℝ) * sumImg [gradTVal 1 c, c] p = 1 := by
      simp only [sumImg, List.map_cons, List.map_nil, List.sum_cons, List.sum_nil, add_zero,
        mul_add, sum_add_distrib]
      rw [← e1, e5, add_zero]
      exact e3
    rw [hr]
    simp only [dotStack, List.map_cons, List.map_nil, List.zipWith_cons_cons, List.zipWith_nil_left,
      List.sum_cons, List.sum_nil, add_zero, z0, mul_zero, sum_const_zero, zero_add,
      List.cons_append, List.nil_append]
    rw [e5]
    norm_num

/-- The default axes of a 3 × 4 image, with one observed pixel, meet the hypotheses. -/
example : GoodAxes (![3, 4] : Fin 2 → ℕ) [0, 1] ∧
    Connected (n := ![3, 4]) [0, 1] (fun p => if (p 0 : ℕ) = 2 ∧ (p 1 : ℕ) = 3 then 1 else 0) := by
  refine ⟨⟨?_, ?_⟩, ?_⟩
  · intro i h
    have h' : i < 2 := h
    interval_cases i <;> rfl
  · intro ax _
    fin_cases ax <;> simp
  · refine connected_of_all _ (fun d => by fin_cases d <;> simp) _
      (fun d => match d with | 0 => (2 : Fin 3) | 1 => (3 : Fin 4)) ?_
    simp

end Sporco.Tv
