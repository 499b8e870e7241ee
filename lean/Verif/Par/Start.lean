import Verif.Par.ParCbpdn

/-!
# C96: initial values given to `ParConvBPDN`

The constructor of `admm.parcbpdn.ParConvBPDN` assigns the module variables `mp_Y0`, `mp_Y1`, `mp_U0`, `mp_U1` that `solve`
works on, from the options `Y0`, `Y1`, `U0`, `U1`.
-/

set_option autoImplicit false

namespace Sporco.Par.PCbpdn

open Function

variable {M L : ℕ} {grp : Fin M → Fin L} {A S Q : Type*} [AddCommGroup A] [Module ℝ A] [AddCommGroup S]
  [Module ℝ S]

/-- An array of coefficient maps, or of one signal for each group. -/
abbrev Val (M L : ℕ) (A S : Type*) := (Fin M → A) ⊕ (Fin L → S)

/-- The variables of the module; `none` is the value `None` they are defined with (`parcbpdn.py` 59-68), or that there is no
such variable. -/
abbrev Glob (M L : ℕ) (A S : Type*) := String → Option (Val M L A S)

/-- `init_mpraw` (`parcbpdn.py` 115-128): set the variable with this name to a new shared array with this content. -/
def initMpraw (mpv : String) (npv : Val M L A S) (g : Glob M L A S) : Glob M L A S := update g mpv (some npv)

/-- The options with initial values (`parcbpdn.py` 470-476), `none` when not given. -/
structure Start (M L : ℕ) (A S : Type*) where
  Y0 : Option (Fin L → S)
  Y1 : Option (Fin M → A)
  U0 : Option (Fin L → S)
  U1 : Option (Fin M → A)

/-- The statements `if self.opt[..] is not None: init_mpraw(..) else: mp_.. = mpraw_as_np(..)` for one variable
(`parcbpdn.py` 649-654, 658-663, 667-672, 674-679); memory of a `RawArray` is zeroed. -/
def assign (given fresh : String) (o : Option (Val M L A S)) (z : Val M L A S) (g : Glob M L A S) : Glob M L A S :=
  match o with
  | some v => initMpraw given v g
  | none => update g fresh (some z)

/-- The part of the constructor that assigns the variables carried from one iteration to the next (`parcbpdn.py` 645-679).
(When `Y0` is given, `mp_X` and the arrays shaped like it get the shape of that array, line 641; not modelled: all arrays have
the right shape here, as they have for one group per filter.) -/
def construct (o : Start M L A S) (g : Glob M L A S) : Glob M L A S :=
  let g := assign "Y0" "mp_Y0" (o.Y0.map .inr) (.inr 0) g
  let g := assign "Y1" "mp_Y1" (o.Y1.map .inl) (.inl 0) g
  let g := assign "U0" "mp_U0" (o.U0.map .inr) (.inr 0) g
  assign "U1" "mp_U1" (o.U1.map .inl) (.inl 0) g

/-- The arrays `solve` works on; `none`: one of them is `None` and the first iteration raises a `TypeError`
(`parcbpdn.py` 145-147, 770-771). The other arrays are new (`parcbpdn.py` 640-644, 655-656, 664-665, 680-724), `rest` is their
content. -/
def load (rest : Mem M L A S Q) (g : Glob M L A S) : Option (Mem M L A S Q) :=
  match g "mp_Y0", g "mp_Y1", g "mp_U0", g "mp_U1" with
  | some (.inr y0), some (.inl y1), some (.inr u0), some (.inl u1) =>
    some { rest with Y0 := y0, Y1 := y1, U0 := u0, U1 := u1 }
  | _, _, _, _ => none

/-- `solve` stores into the arrays the variables refer to. -/
def store (m : Mem M L A S Q) (g : Glob M L A S) : Glob M L A S :=
  update (update (update (update g "mp_Y0" (some (.inr m.Y0))) "mp_Y1" (some (.inl m.Y1))) "mp_U0" (some (.inr m.U0)))
    "mp_U1" (some (.inl m.U1))

variable (O : Ops grp A S Q)

/-- The arrays after the first `solve` of an object. -/
noncomputable def out (c : Call M L A S Q) (m : Mem M L A S Q) : Mem M L A S Q :=
  (solve O (fun _ => distSeq O) c.comp c.brk (fun _ _ => ([] : List Unit)) c.maxIter (0, m, [])).2.1

/-- Construct an object and call its `solve` with at least one iteration: the module variables afterwards and the array
returned (`parcbpdn.py` 825, 831), `none` for an exception. -/
noncomputable def run (rest : Mem M L A S Q) (o : Start M L A S) (c : Call M L A S Q) (g : Glob M L A S) :
    Glob M L A S × Option (Fin M → A) :=
  let g := construct o g
  match load rest g with
  | none => (g, none)
  | some m => (store (out O c m) g, some (out O c m).Y1)

/-- A program: objects constructed and solved one after the other, the results. -/
noncomputable def program (rest : Mem M L A S Q) :
    List (Start M L A S × Call M L A S Q) → Glob M L A S → List (Option (Fin M → A))
  | [], _ => []
  | (o, c) :: l, g => (run O rest o c g).2 :: program rest l (run O rest o c g).1

/-- **Specification**: the ADMM iterations from the values given, zero where none is given. -/
noncomputable def expected (rest : Mem M L A S Q) (o : Start M L A S) (c : Call M L A S Q) : Fin M → A :=
  (out O c { rest with Y0 := o.Y0.getD 0, Y1 := o.Y1.getD 0, U0 := o.U0.getD 0, U1 := o.U1.getD 0 }).Y1

omit [Module ℝ A] [Module ℝ S] in
/-- What each variable holds after the construction. -/
theorem construct_get (o : Start M L A S) (g : Glob M L A S) :
    construct o g "mp_Y0" = (if o.Y0.isSome then g "mp_Y0" else some (.inr 0)) ∧
    construct o g "mp_Y1" = (if o.Y1.isSome then g "mp_Y1" else some (.inl 0)) ∧
    construct o g "mp_U0" = (if o.U0.isSome then g "mp_U0" else some (.inr 0)) ∧
    construct o g "mp_U1" = (if o.U1.isSome then g "mp_U1" else some (.inl 0)) := by
  obtain ⟨y0, y1, u0, u1⟩ := o
  cases y0 <;> cases y1 <;> cases u0 <;> cases u1 <;>
    simp [construct, assign, initMpraw]

omit [Module ℝ A] [Module ℝ S] in
/-- Variables that have been assigned hold arrays of the right kind. -/
theorem load_default (rest : Mem M L A S Q) (g : Glob M L A S) :
    load rest (construct ⟨none, none, none, none⟩ g) = some { rest with Y0 := 0, Y1 := 0, U0 := 0, U1 := 0 } := by
  obtain ⟨h1, h2, h3, h4⟩ := construct_get ⟨none, none, none, none⟩ g
  unfold load
  rw [h1, h2, h3, h4]
  rfl

/-- **C96, partial.** In a program that gives no initial values every object starts from zero arrays, whatever objects were
used before. -/
theorem C96_default_partial (rest : Mem M L A S Q) (cs : List (Call M L A S Q)) (g : Glob M L A S) :
    program O rest (cs.map fun c => (⟨none, none, none, none⟩, c)) g =
      cs.map fun c => some (expected O rest ⟨none, none, none, none⟩ c) := by
  induction cs generalizing g with
  | nil => rfl
  | cons c cs ih =>
    simp only [List.map_cons, program, ih]
    congr 1

/-- **C96 is false: the values are not used.** Two sets of options that give values for the same variables have the same
result, whatever these values are. -/
theorem C96_values_refuted (rest : Mem M L A S Q) (o o' : Start M L A S) (c : Call M L A S Q) (g : Glob M L A S)
    (h0 : o.Y0.isSome = o'.Y0.isSome) (h1 : o.Y1.isSome = o'.Y1.isSome) (h2 : o.U0.isSome = o'.U0.isSome)
    (h3 : o.U1.isSome = o'.U1.isSome) : (run O rest o c g).2 = (run O rest o' c g).2 := by
  have e : load rest (construct o g) = load rest (construct o' g) := by
    obtain ⟨a1, a2, a3, a4⟩ := construct_get o g
    obtain ⟨b1, b2, b3, b4⟩ := construct_get o' g
    unfold load
    rw [a1, a2, a3, a4, b1, b2, b3, b4, h0, h1, h2, h3]
  unfold run
  simp only [e]
  cases load rest (construct o' g) <;> rfl

/-- **C96 is false: the first object.** If a value is given to the first object of a program, `solve` raises an exception. -/
theorem C96_first_refuted (rest : Mem M L A S Q) (o : Start M L A S) (c : Call M L A S Q)
    (h : o.Y0.isSome ∨ o.Y1.isSome ∨ o.U0.isSome ∨ o.U1.isSome) : (run O rest o c fun _ => none).2 = none := by
  have e : load rest (construct o fun _ => none) = none := by
    obtain ⟨a1, a2, a3, a4⟩ := construct_get o fun _ => none
    unfold load
    rw [a1, a2, a3, a4]
    rcases h with h | h | h | h <;> rw [h]
    · rfl
    · cases o.Y0.isSome <;> rfl
    · cases o.Y0.isSome <;> cases o.Y1.isSome <;> rfl
    · cases o.Y0.isSome <;> cases o.Y1.isSome <;> cases o.U0.isSome <;> rfl
  unfold run
  simp only [e]

/-- No option with an initial value. -/
def noStart : Start 1 1 ℝ ℝ := ⟨none, none, none, none⟩

/-- The option `Y1` with zeros. -/
def zeroY1 : Start 1 1 ℝ ℝ := ⟨none, some 0, none, none⟩

/-- The arrays after one call of `solve` of `n` iterations. -/
theorem out1 (n : ℕ) (hn : 0 < n) (m : Mem 1 1 ℝ ℝ ℝ) : (out ops1 (call1 n) m).core = (admmStep ops1)^[n] m.core := by
  obtain ⟨t, -, -, t0, -, t2, -, -⟩ := loop_core ops1 0 true (fun _ _ => false) (fun _ _ => ([] : List Unit)) n 0 hn
    (0, m, []) (Or.inl rfl)
  rw [t0 fun _ _ => rfl] at t2
  exact t2

theorem out1_one (m : Mem 1 1 ℝ ℝ ℝ) :
    (out ops1 (call1 1) m).Y1 = fun _ => (m.Y0 0 - m.U0 0 + m.Y1 0 - m.U1 0) / 2 + m.U1 0 := by
  have h := congrArg Core.Y1 (out1 1 one_pos m)
  rw [Function.iterate_one] at h
  funext i
  rw [Subsingleton.elim i 0]
  exact (congrFun h 0).trans (step1 m.core).1

theorem out1_two : (out ops1 (call1 2) mem1).Y1 = fun _ => 1 / 2 := by
  have h := congrArg Core.Y1 (out1 2 two_pos mem1)
  funext i
  rw [Subsingleton.elim i 0]
  refine (congrFun h 0).trans ((iter1 1).1.trans ?_)
  norm_num

/-- **C96 is false: the state of another object.** The second object is given zeros for `Y1`, as it has when nothing is given,
but starts with the `Y1` of the first object: it returns 1/4, not 0. -/
theorem C96_leak_refuted :
    program ops1 mem1 [(noStart, call1 2), (zeroY1, call1 1)] (fun _ => none) =
        [some fun _ => 1 / 2, some fun _ => 1 / 4] ∧
      expected ops1 mem1 zeroY1 (call1 1) = (fun _ => 0) ∧
      program ops1 mem1 [(noStart, call1 2), (noStart, call1 1)] (fun _ => none) =
        [some fun _ => 1 / 2, some fun _ => 0] := by
  have hz : ({ mem1 with Y0 := 0, Y1 := 0, U0 := 0, U1 := 0 } : Mem 1 1 ℝ ℝ ℝ) = mem1 := rfl
  have e1 : expected ops1 mem1 noStart (call1 2) = fun _ => 1 / 2 := by
    unfold expected noStart
    simp only [Option.getD_none]
    rw [hz, out1_two]
  have e2 : ∀ o : Start 1 1 ℝ ℝ, o = noStart ∨ o = zeroY1 → expected ops1 mem1 o (call1 1) = fun _ => 0 := by
    intro o ho
    unfold expected
    rw [out1_one]
    rcases ho with rfl | rfl <;> simp [noStart, zeroY1]
  have r1 : run ops1 mem1 noStart (call1 2) (fun _ => none) =
      (store (out ops1 (call1 2) mem1) (construct noStart fun _ => none), some fun _ => 1 / 2) := by
    unfold run noStart
    simp only [load_default]
    rw [hz, out1_two]
  refine ⟨?_, e2 _ (Or.inr rfl), ?_⟩
  · have r2 : load mem1 (construct zeroY1 (store (out ops1 (call1 2) mem1) (construct noStart fun _ => none))) =
        some { mem1 with Y0 := 0, Y1 := fun _ => 1 / 2, U0 := 0, U1 := 0 } := by
      obtain ⟨a1, a2, a3, a4⟩ := construct_get zeroY1 (store (out ops1 (call1 2) mem1) (construct noStart fun _ => none))
      have a5 : store (out ops1 (call1 2) mem1) (construct noStart fun _ => none) "mp_Y1" =
          some (.inl fun _ => 1 / 2) := by
        rw [← out1_two]
        simp [store]
      unfold load
      rw [a1, a2, a3, a4]
      simp only [zeroY1, Option.isSome_none, Option.isSome_some, if_true, a5]
      rfl
    have r3 : (run ops1 mem1 zeroY1 (call1 1) (run ops1 mem1 noStart (call1 2) fun _ => none).1).2 =
        some fun _ => 1 / 4 := by
      rw [r1]
      unfold run
      simp only [r2, out1_one]
      congr 1
      funext i
      norm_num
    simp only [program]
    rw [r3, r1]
  · have h := C96_default_partial ops1 mem1 [call1 2, call1 1] fun _ => none
    refine h.trans ?_
    exact congrArg₂ (fun a b => [some a, some b]) e1 (e2 _ (Or.inl rfl))

end Sporco.Par.PCbpdn
