import Verif.Par.Layout

/-!
# C102 for `ParConvBPDN` and for the dual variables of the parallel dictionary learning: `np.moveaxis`
-/

set_option autoImplicit false

namespace Sporco.Par.Layout

variable {α : Type*} {r : ℕ}

/-- `np.moveaxis(x, a, 0)`. -/
def moveFront (x : Nd (r + 1) α) (a : Fin (r + 1)) : Nd (r + 1) α :=
  ⟨Fin.cons (x.shape a) (a.removeNth x.shape), fun i => x.get (a.insertNth (i 0) (Fin.tail i))⟩

/-- `np.moveaxis(x, 0, a)`. -/
def moveBack (x : Nd (r + 1) α) (a : Fin (r + 1)) : Nd (r + 1) α :=
  ⟨a.insertNth (x.shape 0) (Fin.tail x.shape), fun i => x.get (Fin.cons (i a) (a.removeNth i))⟩

/-- `x[..., np.newaxis]`. -/
def newaxisEnd (x : Nd r α) : Nd (r + 1) α := ⟨Fin.snoc x.shape 1, fun i => x.get (Fin.init i)⟩

/-- The shared array of `ParConvBPDN` for a variable (`sporco/admm/parcbpdn.py` 641): `init_mpraw(mpv,
np.moveaxis(npv, axisM, mp_axisM))` with `mp_axisM = 0` (line 614). -/
noncomputable def initMprawMove (raw : ℕ → α) (npv : Nd (r + 1) α) (axisM : Fin (r + 1)) : ℕ → α :=
  initMpraw raw (moveFront npv axisM)

/-- `mp_X[lo:hi] = v` and the like, as the workers of `ParConvBPDN` write the maps of their group (`parcbpdn.py` 157, 173, 233,
263): the buffer after it, for an array of shape `s`. -/
noncomputable def setRows (raw : ℕ → α) (s : Fin (r + 1) → ℕ) (lo : ℕ) (v : Nd (r + 1) α) : ℕ → α :=
  assign raw v fun i => off s (Fin.cons (lo + i 0) (Fin.tail i))

/-- What `solve` of `ParConvBPDN` makes of a shared array at the end (`parcbpdn.py` 830-831). -/
def collect (raw : ℕ → α) (s : Fin (r + 1) → ℕ) (axisM : Fin (r + 1)) : Nd (r + 1) α := moveBack (mprawAsNp raw s) axisM

/-- The slice of `x` at index `k` of `axis`, with that axis dropped: `x[..., k, ...]`. -/
def take (x : Nd (r + 1) α) (axis : Fin (r + 1)) (k : ℕ) : Nd r α :=
  ⟨axis.removeNth x.shape, fun i => x.get (axis.insertNth k i)⟩

/-- **C102 for `ParConvBPDN`.** Row `m` of the shared array is map `m` of the array it was initialised with, and there are as many
rows as maps. -/
theorem C102_move_row (raw : ℕ → α) (x : Nd (r + 1) α) (axisM : Fin (r + 1)) :
    (moveFront x axisM).shape 0 = x.shape axisM ∧ ∀ m, m < x.shape axisM →
      Same (row (mprawAsNp (initMprawMove raw x axisM) (moveFront x axisM).shape) m) (take x axisM m) := by
  refine ⟨rfl, fun m hm => ⟨?_, fun i hi => ?_⟩⟩
  · rfl
  · exact (C102_init raw (moveFront x axisM)).2 _ ((inRange_cons _ m i).2 ⟨hm, hi⟩)

/-- **C102 for `ParConvBPDN`.** What the worker of a group writes to rows `lo` to `hi` is what is read there, and all other rows stay
as they are. -/
theorem C102_move_group (raw : ℕ → α) (s : Fin (r + 1) → ℕ) (lo hi : ℕ) (h1 : lo ≤ hi) (h2 : hi ≤ s 0) (v : Nd (r + 1) α)
    (hv : v.shape = Fin.cons (hi - lo) (Fin.tail s)) :
    (∀ m, lo ≤ m → m < hi → Same (row (mprawAsNp (setRows raw s lo v) s) m) (row v (m - lo))) ∧
      ∀ m, m < s 0 → (m < lo ∨ hi ≤ m) → Same (row (mprawAsNp (setRows raw s lo v) s) m) (row (mprawAsNp raw s) m) := by
  have hin : ∀ i, InRange v.shape i → i 0 < hi - lo ∧ InRange (Fin.tail s) (Fin.tail i) := by
    intro i h
    rw [hv, ← Fin.cons_self_tail i, inRange_cons] at h
    exact h
  have hr : ∀ i, InRange v.shape i → InRange s (Fin.cons (lo + i 0) (Fin.tail i)) := by
    intro i h
    obtain ⟨h3, h4⟩ := hin i h
    exact (inRange_cons _ _ _).2 ⟨by omega, h4⟩
  constructor
  · intro m hm1 hm2
    refine ⟨by change Fin.tail s = Fin.tail v.shape; rw [hv, Fin.tail_cons], fun i hi' => ?_⟩
    have hi2 : InRange v.shape (Fin.cons (m - lo) i) := by
      rw [hv]
      exact (inRange_cons _ _ _).2 ⟨by simp only [Fin.cons_zero]; omega, by rw [Fin.tail_cons]; exact hi'⟩
    have h := assign_eq raw v (fun i => off s (Fin.cons (lo + i 0) (Fin.tail i))) (fun i j hi hj h => ?_)
      (Fin.cons (m - lo) i) hi2
    · beta_reduce at h
      rw [Fin.cons_zero, Fin.tail_cons, Nat.add_sub_of_le hm1] at h
      exact h
    · have h5 := Fin.cons_inj.1 (off_inj s _ _ (hr i hi) (hr j hj) h)
      rw [← Fin.cons_self_tail i, ← Fin.cons_self_tail j, h5.2, Nat.add_left_cancel h5.1]
  · intro m hm hne
    refine ⟨rfl, fun i hi' => ?_⟩
    refine assign_ne raw v _ _ fun j hj h => ?_
    have h5 := Fin.cons_inj.1 (off_inj s _ _ (hr j hj) ((inRange_cons s m i).2 ⟨hm, hi'⟩) h)
    have h6 := (hin j hj).1
    have h7 := h5.1
    omega

/-- **C102 for `ParConvBPDN`.** The array `solve` leaves has the shape of the one the shared array was initialised with, and its map
`m` is row `m` of the shared array, whatever that holds by then. -/
theorem C102_move_collect (raw : ℕ → α) (x : Nd (r + 1) α) (axisM : Fin (r + 1)) :
    let s := (moveFront x axisM).shape
    (collect raw s axisM).shape = x.shape ∧ ∀ m, Same (take (collect raw s axisM) axisM m) (row (mprawAsNp raw s) m) := by
  intro s
  have hs : (collect raw s axisM).shape = x.shape := by
    change axisM.insertNth (x.shape axisM) (Fin.tail s) = x.shape
    change axisM.insertNth (x.shape axisM) (axisM.removeNth x.shape) = x.shape
    exact Fin.insertNth_self_removeNth axisM x.shape
  refine ⟨hs, fun m => ⟨?_, fun i _ => ?_⟩⟩
  · change axisM.removeNth (collect raw s axisM).shape = Fin.tail s
    rw [hs]
    rfl
  · change raw (off s (Fin.cons ((axisM.insertNth m i : Fin (r + 1) → ℕ) axisM) (axisM.removeNth (axisM.insertNth m i : Fin (r + 1) → ℕ)))) =
      raw (off s (Fin.cons m i))
    have e : axisM.removeNth (axisM.insertNth m i : Fin (r + 1) → ℕ) = i :=
      funext fun j => Fin.insertNth_apply_succAbove (α := fun _ => ℕ) axisM m i j
    rw [Fin.insertNth_apply_same, e]

/-- **C102 for the auxiliary variable of the dictionary update with a mask** (`prlcnscdl.py` 1051-1057): `np.moveaxis(Y1, -2, 0)[...,
np.newaxis]` for an array whose last axis has length one: row `k` is slice `k` with the axis kept. -/
theorem C102_move_newaxis {n : ℕ} (x : Nd (n + 2) α) (h1 : x.shape (Fin.last (n + 1)) = 1) (k : ℕ) :
    Same (row (newaxisEnd (moveFront x (Fin.last n).castSucc)) k) (slice x (Fin.last n).castSucc k) := by
  have hlast : (Fin.last n).castSucc.succAbove (Fin.last n) = Fin.last (n + 1) := by
    rw [Fin.succAbove_castSucc_self, Fin.succ_last]
  have hcast : ∀ j : Fin n, (Fin.last n).castSucc.succAbove j.castSucc = j.castSucc.castSucc := fun j =>
    Fin.succAbove_of_castSucc_lt _ _ (Fin.castSucc_lt_castSucc_iff.2 (Fin.castSucc_lt_last j))
  have hne : ∀ j : Fin n, j.castSucc.castSucc ≠ (Fin.last n).castSucc := fun j e =>
    (Fin.castSucc_lt_last j).ne (Fin.castSucc_injective _ e)
  have hnl : Fin.last (n + 1) ≠ (Fin.last n).castSucc := (Fin.castSucc_lt_last _).ne'
  have hsh : (row (newaxisEnd (moveFront x (Fin.last n).castSucc)) k).shape = (slice x (Fin.last n).castSucc k).shape := by
    funext j
    change (Fin.snoc (Fin.cons (x.shape (Fin.last n).castSucc) ((Fin.last n).castSucc.removeNth x.shape) : Fin (n + 2) → ℕ) 1 :
      Fin (n + 3) → ℕ) j.succ = Function.update x.shape (Fin.last n).castSucc 1 j
    refine Fin.lastCases ?_ (fun j => ?_) j
    · rw [Fin.succ_last, Function.update_of_ne hnl, h1]
      exact Fin.snoc_last _ _
    · rw [Fin.succ_castSucc]
      refine Eq.trans (Fin.snoc_castSucc _ _ _) ?_
      rw [Fin.cons_succ]
      refine Fin.lastCases ?_ (fun j => ?_) j
      · rw [Function.update_self]
        change x.shape ((Fin.last n).castSucc.succAbove (Fin.last n)) = 1
        rw [hlast, h1]
      · rw [Function.update_of_ne (hne j)]
        change x.shape ((Fin.last n).castSucc.succAbove j.castSucc) = _
        rw [hcast]
  refine ⟨hsh, fun i hi => ?_⟩
  rw [hsh] at hi
  have h3 : i (Fin.last n).castSucc = 0 := by
    have h := hi (Fin.last n).castSucc
    change _ < Function.update x.shape (Fin.last n).castSucc 1 _ at h
    rw [Function.update_self] at h
    omega
  have h4 : i (Fin.last (n + 1)) = 0 := by
    have h := hi (Fin.last (n + 1))
    change _ < Function.update x.shape (Fin.last n).castSucc 1 _ at h
    rw [Function.update_of_ne hnl, h1] at h
    omega
  change x.get ((Fin.last n).castSucc.insertNth k fun j : Fin (n + 1) => i j.castSucc) = x.get (Function.update i (Fin.last n).castSucc k)
  congr 1
  funext j
  refine Fin.lastCases ?_ (fun j => ?_) j
  · rw [Function.update_of_ne hnl, h4, ← hlast, Fin.insertNth_apply_succAbove, h3]
  · refine Fin.lastCases ?_ (fun j => ?_) j
    · rw [Function.update_self, Fin.insertNth_apply_same]
    · rw [Function.update_of_ne (hne j), ← hcast, Fin.insertNth_apply_succAbove]
      rw [hcast]

/-- A case: the maps of an array of shape (3, 2), whose last axis is moved to the front; after the worker of the group of map 1
has written, map 1 is the new one and map 0 the old one. -/
example (raw : ℕ → ℕ) : let x : Nd 2 ℕ := ⟨![3, 2], fun i => 10 * i 0 + i 1⟩
    let v : Nd 2 ℕ := ⟨![1, 3], fun i => 100 + i 1⟩
    let s := (moveFront x 1).shape
    let b := setRows (initMprawMove raw x 1) s 1 v
    (row (mprawAsNp b s) 1).get ![2] = 102 ∧ (row (mprawAsNp b s) 0).get ![2] = 20 := by
  intro x v s b
  have hs : Fin.tail s = ![3] := by
    funext j
    fin_cases j
    rfl
  have h := C102_move_group (initMprawMove raw x 1) s 1 2 (by decide) (by decide) v (by
    rw [hs]
    rfl)
  have hr : InRange (Fin.tail s) ![2] := by
    rw [hs]
    intro j
    fin_cases j
    decide
  refine ⟨((h.1 1 le_rfl (by decide)).2 ![2] hr).trans rfl, ?_⟩
  refine ((h.2 0 (by decide) (Or.inl (by decide))).2 ![2] hr).trans ?_
  exact (((C102_move_row raw x 1).2 0 (by decide)).2 ![2] hr).trans rfl

end Sporco.Par.Layout
