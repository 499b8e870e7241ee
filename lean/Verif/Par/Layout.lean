import Mathlib.Data.Fin.Tuple.Basic
import Mathlib.Logic.Equiv.Basic
import Mathlib.Algebra.BigOperators.Fin
import Mathlib.Tactic.FinCases
import Mathlib.Tactic.Ring
import Mathlib.Tactic.Linarith

/-!
# C102: the shared arrays of the parallel dictionary learning

The arrays of the workers live in shared memory: a flat buffer, viewed as an array in C order, with the axis of the signals
moved to the front.
-/

set_option autoImplicit false

namespace Sporco.Par.Layout

variable {α : Type*} {r : ℕ}

/-- A numpy array of rank `r`: a shape, and an entry for every index (indices outside the shape are not used). -/
structure Nd (r : ℕ) (α : Type*) where
  shape : Fin r → ℕ
  get : (Fin r → ℕ) → α

/-- The index is in range. -/
def InRange (s i : Fin r → ℕ) : Prop := ∀ j, i j < s j

/-- Two arrays have the same shape and the same entries. -/
def Same (x y : Nd r α) : Prop := x.shape = y.shape ∧ ∀ i, InRange x.shape i → x.get i = y.get i

/-- `x[np.newaxis, ...]`. -/
def newaxis (x : Nd r α) : Nd (r + 1) α := ⟨Fin.cons 1 x.shape, fun i => x.get (Fin.tail i)⟩

/-- `np.swapaxes(x, a, b)`. -/
def swapaxes (x : Nd r α) (a b : Fin r) : Nd r α :=
  ⟨fun j => x.shape (Equiv.swap a b j), fun i => x.get fun j => i (Equiv.swap a b j)⟩

/-- `x[k]`. -/
def row (x : Nd (r + 1) α) (k : ℕ) : Nd r α := ⟨Fin.tail x.shape, fun i => x.get (Fin.cons k i)⟩

/-- `swap_axis_to_0` (`sporco/dictlrn/prlcnscdl.py` 93-113); `np.ascontiguousarray` does not change shape or entries. -/
def swapAxisTo0 (x : Nd r α) (axis : Fin r) : Nd (r + 1) α := swapaxes (newaxis x) 0 axis.succ

/-- The number of entries, `np.prod(shape)`. -/
def size : {r : ℕ} → (Fin r → ℕ) → ℕ
  | 0, _ => 1
  | _ + 1, s => s 0 * size (Fin.tail s)

/-- Position of an entry in the buffer: C order, as `np.frombuffer(raw, ...).reshape(shape)` has it. -/
def off : {r : ℕ} → (Fin r → ℕ) → (Fin r → ℕ) → ℕ
  | 0, _, _ => 0
  | _ + 1, s, i => i 0 * size (Fin.tail s) + off (Fin.tail s) (Fin.tail i)

/-- `mpraw_as_np` (`prlcnscdl.py` 69-89): the array of the given shape whose storage is the buffer. Simplified: the buffer is
a sequence of entries rather than bytes. -/
def mprawAsNp (raw : ℕ → α) (shape : Fin r → ℕ) : Nd r α := ⟨shape, fun i => raw (off shape i)⟩

open Classical in
/-- Assignment of the entries of `v` to the positions `f i` of the buffer, for the indices `i` in range. -/
noncomputable def assign (raw : ℕ → α) (v : Nd r α) (f : (Fin r → ℕ) → ℕ) : ℕ → α := fun o =>
  if h : ∃ i, InRange v.shape i ∧ f i = o then v.get h.choose else raw o

/-- `init_mpraw` (`prlcnscdl.py` 117-130; `admm/parcbpdn.py` 115-128 is the same): the buffer after `globals()[mpv][:] = npv`. -/
noncomputable def initMpraw (raw : ℕ → α) (npv : Nd r α) : ℕ → α := assign raw npv (off npv.shape)

/-- `mp_Z_Y[k] = v` and the like, as the workers write their results (`prlcnscdl.py` 153-245): the buffer after it, for an
array of shape `s`. -/
noncomputable def setRow (raw : ℕ → α) (s : Fin (r + 1) → ℕ) (k : ℕ) (v : Nd r α) : ℕ → α :=
  assign raw v fun i => off s (Fin.cons k i)

/-- `init_mpraw_swap` (`prlcnscdl.py` 433-448, 988-1003). -/
noncomputable def initMprawSwap (raw : ℕ → α) (npv : Nd r α) (axisK : Fin r) : ℕ → α :=
  initMpraw raw (swapAxisTo0 npv axisK)

/-- `getcoef` (`prlcnscdl.py` 615-619, 1181-1185): `np.swapaxes(mp, 0, axisK + 1)[0]`. -/
def getcoef (m : Nd (r + 1) α) (axisK : Fin r) : Nd r α := row (swapaxes m 0 axisK.succ) 0

/-! ## Positions in the buffer -/

theorem off_lt : ∀ {r : ℕ} (s i : Fin r → ℕ), InRange s i → off s i < size s
  | 0, _, _, _ => Nat.one_pos
  | r + 1, s, i, h => by
    have h1 := off_lt (Fin.tail s) (Fin.tail i) fun j => h j.succ
    have h2 := h 0
    change i 0 * size (Fin.tail s) + off (Fin.tail s) (Fin.tail i) < s 0 * size (Fin.tail s)
    calc i 0 * size (Fin.tail s) + off (Fin.tail s) (Fin.tail i)
        < i 0 * size (Fin.tail s) + size (Fin.tail s) := by omega
      _ = (i 0 + 1) * size (Fin.tail s) := by ring
      _ ≤ s 0 * size (Fin.tail s) := Nat.mul_le_mul_right _ h2

theorem off_inj : ∀ {r : ℕ} (s i j : Fin r → ℕ), InRange s i → InRange s j → off s i = off s j → i = j
  | 0, _, _, _, _, _, _ => funext fun k => k.elim0
  | r + 1, s, i, j, hi, hj, h => by
    have h1 := off_lt (Fin.tail s) (Fin.tail i) fun k => hi k.succ
    have h2 := off_lt (Fin.tail s) (Fin.tail j) fun k => hj k.succ
    change i 0 * size (Fin.tail s) + off (Fin.tail s) (Fin.tail i) = j 0 * size (Fin.tail s) + off (Fin.tail s) (Fin.tail j) at h
    have h0 : i 0 = j 0 := by
      have e1 := congrArg (· / size (Fin.tail s)) h
      beta_reduce at e1
      have hpos : 0 < size (Fin.tail s) := by omega
      rw [Nat.add_comm, Nat.add_mul_div_right _ _ hpos, Nat.div_eq_of_lt h1, Nat.add_comm (j 0 * _),
        Nat.add_mul_div_right _ _ hpos, Nat.div_eq_of_lt h2] at e1
      omega
    rw [h0] at h
    have h3 := off_inj (Fin.tail s) (Fin.tail i) (Fin.tail j) (fun k => hi k.succ) (fun k => hj k.succ) (by omega)
    rw [← Fin.cons_self_tail i, ← Fin.cons_self_tail j, h0, h3]

theorem assign_eq (raw : ℕ → α) (v : Nd r α) (f : (Fin r → ℕ) → ℕ)
    (hf : ∀ i j, InRange v.shape i → InRange v.shape j → f i = f j → i = j) (i : Fin r → ℕ) (hi : InRange v.shape i) :
    assign raw v f (f i) = v.get i := by
  have h : ∃ j, InRange v.shape j ∧ f j = f i := ⟨i, hi, rfl⟩
  unfold assign
  rw [dif_pos h, hf _ _ h.choose_spec.1 hi h.choose_spec.2]

theorem assign_ne (raw : ℕ → α) (v : Nd r α) (f : (Fin r → ℕ) → ℕ) (o : ℕ) (ho : ∀ i, InRange v.shape i → f i ≠ o) :
    assign raw v f o = raw o := by
  unfold assign
  rw [dif_neg]
  rintro ⟨i, hi, h⟩
  exact ho i hi h

theorem inRange_cons (s : Fin (r + 1) → ℕ) (k : ℕ) (i : Fin r → ℕ) :
    InRange s (Fin.cons k i) ↔ k < s 0 ∧ InRange (Fin.tail s) i := by
  constructor
  · intro h
    refine ⟨by simpa using h 0, fun j => by simpa [Fin.tail] using h j.succ⟩
  · rintro ⟨h0, h⟩ j
    refine Fin.cases ?_ (fun j => ?_) j
    · simpa using h0
    · simpa [Fin.tail] using h j

/-! ## The properties -/

/-- **C102.** The wrapper of the shared buffer holds the array it was initialised with. -/
theorem C102_init (raw : ℕ → α) (x : Nd r α) : Same (mprawAsNp (initMpraw raw x) x.shape) x :=
  ⟨rfl, fun i hi => assign_eq raw x (off x.shape) (fun _ _ => off_inj _ _ _) i hi⟩

/-- **C102.** A buffer of `np.prod(shape)` entries is enough: nothing beyond them is read or written. -/
theorem C102_bounds (raw raw' : ℕ → α) (x : Nd r α) (h : ∀ l, l < size x.shape → raw l = raw' l) :
    Same (mprawAsNp raw x.shape) (mprawAsNp raw' x.shape) ∧ ∀ o, size x.shape ≤ o → initMpraw raw x o = raw o :=
  ⟨⟨rfl, fun i hi => h _ (off_lt _ i hi)⟩, fun _ ho => assign_ne _ _ _ _ fun i hi => ne_of_lt ((off_lt _ i hi).trans_le ho)⟩

/-- **C102.** What the worker for slice `k` writes to its row is what is read there, and every other row stays as it is: the rows
of different workers share no storage. -/
theorem C102_rows (raw : ℕ → α) (s : Fin (r + 1) → ℕ) (k : ℕ) (hk : k < s 0) (v : Nd r α) (hv : v.shape = Fin.tail s) :
    Same (row (mprawAsNp (setRow raw s k v) s) k) v ∧
      ∀ k', k' < s 0 → k' ≠ k → Same (row (mprawAsNp (setRow raw s k v) s) k') (row (mprawAsNp raw s) k') := by
  constructor
  · refine ⟨hv.symm, fun i hi => ?_⟩
    refine assign_eq raw v (fun i => off s (Fin.cons k i)) (fun i j hi hj h => ?_) i (by rw [hv]; exact hi)
    rw [hv] at hi hj
    have := off_inj s _ _ ((inRange_cons s k i).2 ⟨hk, hi⟩) ((inRange_cons s k j).2 ⟨hk, hj⟩) h
    exact (Fin.cons_inj.1 this).2
  · intro k' hk' hne
    refine ⟨rfl, fun i hi => ?_⟩
    refine assign_ne raw v _ _ fun j hj h => hne ?_
    rw [hv] at hj
    have := off_inj s _ _ ((inRange_cons s k j).2 ⟨hk, hj⟩) ((inRange_cons s k' i).2 ⟨hk', hi⟩) h
    exact (Fin.cons_inj.1 this).1.symm

/-- The slice of `x` at index `k` of `axis`, with that axis kept, of length one: `x[..., k:k+1, ...]`. -/
def slice (x : Nd r α) (axis : Fin r) (k : ℕ) : Nd r α :=
  ⟨Function.update x.shape axis 1, fun i => x.get (Function.update i axis k)⟩

theorem swap_cons (axis : Fin r) {β : Type*} (k : β) (i : Fin r → β) (j : Fin (r + 1)) :
    (Fin.cons k i : Fin (r + 1) → β) (Equiv.swap 0 axis.succ j) =
      (Fin.cons (i axis) (Function.update i axis k) : Fin (r + 1) → β) j := by
  refine Fin.cases ?_ (fun j => ?_) j
  · rw [Equiv.swap_apply_left, Fin.cons_succ, Fin.cons_zero]
  · by_cases h : j = axis
    · subst h
      rw [Equiv.swap_apply_right, Fin.cons_zero, Fin.cons_succ, Function.update_self]
    · rw [Equiv.swap_apply_of_ne_of_ne (Fin.succ_ne_zero j) (fun e => h (Fin.succ_injective _ e)), Fin.cons_succ, Fin.cons_succ,
        Function.update_of_ne h]

theorem swapAxisTo0_shape (x : Nd r α) (axis : Fin r) :
    (swapAxisTo0 x axis).shape = Fin.cons (x.shape axis) (Function.update x.shape axis 1) :=
  funext fun j => swap_cons axis 1 x.shape j

/-- **C102.** The documentation of `swap_axis_to_0`: row `k` of the result is slice `k` of the given axis, with that axis of length one,
and there are as many rows as the axis has entries. -/
theorem C102_swap (x : Nd r α) (axis : Fin r) :
    (swapAxisTo0 x axis).shape 0 = x.shape axis ∧ ∀ k, Same (row (swapAxisTo0 x axis) k) (slice x axis k) := by
  refine ⟨by rw [swapAxisTo0_shape]; rfl, fun k => ⟨?_, fun i hi => ?_⟩⟩
  · change Fin.tail (swapAxisTo0 x axis).shape = _
    rw [swapAxisTo0_shape, Fin.tail_cons]
    rfl
  · change x.get (Fin.tail fun j => (Fin.cons k i : Fin (r + 1) → ℕ) (Equiv.swap 0 axis.succ j)) = _
    have h : (fun j => (Fin.cons k i : Fin (r + 1) → ℕ) (Equiv.swap 0 axis.succ j)) =
        Fin.cons (i axis) (Function.update i axis k) := funext fun j => swap_cons axis k i j
    rw [h, Fin.tail_cons]
    rfl

/-- **C102.** The array read by the worker for slice `k`: slice `k` of the array the shared one was initialised with. -/
theorem C102_worker (raw : ℕ → α) (x : Nd r α) (axisK : Fin r) (k : ℕ) (hk : k < x.shape axisK) :
    Same (row (mprawAsNp (initMprawSwap raw x axisK) (swapAxisTo0 x axisK).shape) k) (slice x axisK k) := by
  obtain ⟨h1, h2⟩ := C102_swap x axisK
  have h3 := C102_init raw (swapAxisTo0 x axisK)
  refine ⟨(h2 k).1, fun i hi => ?_⟩
  refine Eq.trans (h3.2 _ ((inRange_cons _ k i).2 ⟨by change k < (swapAxisTo0 x axisK).shape 0; rw [h1]; exact hk, hi⟩)) ((h2 k).2 i hi)

theorem getcoef_shape (raw : ℕ → α) (x : Nd r α) (axisK : Fin r) :
    (getcoef (mprawAsNp raw (swapAxisTo0 x axisK).shape) axisK).shape = x.shape := by
  funext j
  change (swapAxisTo0 x axisK).shape (Equiv.swap 0 axisK.succ j.succ) = _
  rw [swapAxisTo0_shape, swap_cons, Fin.cons_succ, Function.update_idem]
  exact congrFun (Function.update_eq_self axisK x.shape) j

/-- **C102.** `getcoef` undoes the rearrangement: it has the shape of the array the shared one was initialised with, and its slice `k`
is the row of the worker for slice `k`, whatever the buffer holds by then. -/
theorem C102_getcoef (raw : ℕ → α) (x : Nd r α) (axisK : Fin r) :
    let m := mprawAsNp raw (swapAxisTo0 x axisK).shape
    (getcoef m axisK).shape = x.shape ∧ ∀ k, Same (slice (getcoef m axisK) axisK k) (row m k) := by
  intro m
  refine ⟨getcoef_shape raw x axisK, fun k => ⟨?_, fun i hi => ?_⟩⟩
  · change Function.update (getcoef m axisK).shape axisK 1 = Fin.tail (swapAxisTo0 x axisK).shape
    rw [getcoef_shape raw x axisK, swapAxisTo0_shape, Fin.tail_cons]
  · have hi0 : i axisK = 0 := by
      have := hi axisK
      change i axisK < Function.update (getcoef m axisK).shape axisK 1 axisK at this
      rw [Function.update_self] at this
      omega
    change m.get (fun j => (Fin.cons 0 (Function.update i axisK k) : Fin (r + 1) → ℕ) (Equiv.swap 0 axisK.succ j)) =
      m.get (Fin.cons k i)
    have h : (fun j => (Fin.cons 0 (Function.update i axisK k) : Fin (r + 1) → ℕ) (Equiv.swap 0 axisK.succ j)) =
        Fin.cons k i := by
      funext j
      rw [swap_cons, Function.update_self, Function.update_idem, ← hi0, Function.update_eq_self]
    rw [h]

/-- **C102.** Without an iteration `getcoef` gives the initial array back. -/
theorem C102_roundtrip (raw : ℕ → α) (x : Nd r α) (axisK : Fin r) :
    Same (getcoef (mprawAsNp (initMprawSwap raw x axisK) (swapAxisTo0 x axisK).shape) axisK) x := by
  have hs := getcoef_shape (initMprawSwap raw x axisK) x axisK
  refine ⟨hs, fun i hi => ?_⟩
  rw [hs] at hi
  have hw := C102_worker raw x axisK (i axisK) (hi axisK)
  obtain ⟨-, hg⟩ := C102_getcoef (initMprawSwap raw x axisK) x axisK
  have hr : InRange (slice x axisK (i axisK)).shape (Function.update i axisK 0) := by
    intro j
    change Function.update i axisK 0 j < Function.update x.shape axisK 1 j
    by_cases h : j = axisK
    · subst h
      simp
    · rw [Function.update_of_ne h, Function.update_of_ne h]
      exact hi j
  have e1 := hw.2 (Function.update i axisK 0) (by rw [hw.1]; exact hr)
  have e2 := (hg (i axisK)).2 (Function.update i axisK 0) (by rw [(hg (i axisK)).1, hw.1]; exact hr)
  have e3 := e2.trans e1
  unfold slice at e3
  simp only [Function.update_idem, Function.update_eq_self] at e3
  exact e3

/-- `np.roll(l, 1)`. -/
def roll1 (l : List ℕ) : List ℕ := l.drop (l.length - 1) ++ l.take (l.length - 1)

/-- `np.insert(l, -1, 1)`: before the last entry. -/
def insertM1 (l : List ℕ) : List ℕ := l.take (l.length - 1) ++ 1 :: l.drop (l.length - 1)

/-- `shp[[0, -1]] = shp[[-1, 0]]`. -/
def swapEnds (l : List ℕ) : List ℕ := (l.set 0 (l.getD (l.length - 1) 0)).set (l.length - 1) (l.getD 0 0)

/-- The shape computed for the arrays of the spectra of the coefficient maps of the class with a mask (`prlcnscdl.py` 1028-1031):
`shp = np.insert(np.roll(shape, 1), -1, 1)` with the first and last entries swapped. -/
def zfShape (shape : List ℕ) : List ℕ := swapEnds (insertM1 (roll1 shape))

theorem zfShape_eq (l : List ℕ) (k m : ℕ) : zfShape (l ++ [k, m]) = k :: (l ++ [1, m]) := by
  have h1 : roll1 (l ++ [k, m]) = m :: (l ++ [k]) := by
    have e : l ++ [k, m] = (l ++ [k]) ++ [m] := by simp
    unfold roll1
    rw [e, List.length_append, List.length_singleton, Nat.add_sub_cancel, List.drop_left, List.take_left]
    rfl
  have h2 : insertM1 (m :: (l ++ [k])) = m :: (l ++ [1, k]) := by
    have e : m :: (l ++ [k]) = (m :: l) ++ [k] := rfl
    unfold insertM1
    rw [e, List.length_append, List.length_singleton, Nat.add_sub_cancel, List.drop_left, List.take_left]
    simp
  have h3 : swapEnds (m :: (l ++ [1, k])) = k :: (l ++ [1, m]) := by
    unfold swapEnds
    have e : (m :: (l ++ [1, k])).length - 1 = (l.length + 1) + 1 := by simp
    rw [e]
    have e2 : (m :: (l ++ [1, k])).getD (l.length + 1 + 1) 0 = k := by simp
    rw [e2]
    simp
  unfold zfShape
  rw [h1, h2, h3]

/-- **C102.** The shape computed separately for the arrays of spectra agrees with the one the rearrangement of an array with axes
(..., K, M) gives, so each worker's row of them fits the arrays it is computed from. -/
theorem C102_zf_shape {n : ℕ} (x : Nd (n + 2) α) :
    zfShape (List.ofFn x.shape) = List.ofFn (swapAxisTo0 x (Fin.last n).castSucc).shape := by
  have h : ∀ f : Fin (n + 2) → ℕ, List.ofFn f =
      List.ofFn (fun i : Fin n => f i.castSucc.castSucc) ++ [f (Fin.last n).castSucc, f (Fin.last (n + 1))] := by
    intro f
    rw [List.ofFn_succ', List.ofFn_succ', List.concat_eq_append, List.concat_eq_append, List.append_assoc]
    rfl
  rw [h, zfShape_eq, swapAxisTo0_shape, List.ofFn_cons, h (Function.update _ _ _)]
  have h1 : ∀ i : Fin n, i.castSucc.castSucc ≠ (Fin.last n).castSucc := fun i e =>
    (Fin.castSucc_lt_last i).ne (Fin.castSucc_injective _ e)
  have h2 : Fin.last (n + 1) ≠ (Fin.last n).castSucc := (Fin.castSucc_lt_last _).ne'
  simp only [Function.update_of_ne (h1 _), Function.update_of_ne h2, Function.update_self]

/-- A case: an array of shape (2, 3) whose second axis is moved to the front has shape (3, 2, 1), and entry (1, 0) of the
worker for slice 2 is entry (1, 2). -/
example (raw : ℕ → ℕ) : let x : Nd 2 ℕ := ⟨![2, 3], fun i => 10 * i 0 + i 1⟩
    (swapAxisTo0 x 1).shape = ![3, 2, 1] ∧
      (row (mprawAsNp (initMprawSwap raw x 1) (swapAxisTo0 x 1).shape) 2).get ![1, 0] = 12 := by
  intro x
  have h : (swapAxisTo0 x 1).shape = ![3, 2, 1] := by
    rw [swapAxisTo0_shape]
    ext j
    fin_cases j <;> rfl
  refine ⟨h, ?_⟩
  rw [(C102_worker raw x 1 2 (by decide)).2 ![1, 0]]
  · rfl
  · change InRange (Fin.tail (swapAxisTo0 x 1).shape) _
    rw [h]
    intro j
    fin_cases j <;> decide

end Sporco.Par.Layout
