import Verif.Par.ParExact
import Verif.Conv.Cbpdn

/-!
# C97: functional values recorded by `ParConvBPDN`

`obfn_fvar`, `obfn_gvar`, `obfn_reg`, `obfn_dfd` of `admm/parcbpdn.py` evaluate the functional at the shared arrays `mp_X` or
`mp_Y1` after the phases of an iteration; `mp_X` is by then the relaxed array of the next iteration, except in the last
iteration of a call of `solve`.
-/

set_option autoImplicit false
set_option linter.unusedSectionVars false

namespace Sporco.Par.PCbpdn

open Finset Sporco.Conv Sporco.Prox

section Loop
variable {M L : ℕ} {grp : Fin M → Fin L} {A S Q : Type*} [AddCommGroup A] [Module ℝ A] [AddCommGroup S]
  [Module ℝ S]
variable (O : Ops grp A S Q)

/-- `obfn_gvar` (`parcbpdn.py` 883-888) -/
def gvar (gEvalY : Bool) (m : Mem M L A S Q) : Fin M → A := if gEvalY then m.Y1 else m.X

/-- `obfn_fvar` (`parcbpdn.py` 892-896) -/
def fvar (fEvalX : Bool) (m : Mem M L A S Q) : Fin M → A := if fEvalX then m.X else m.Y1

/-- The fields `ObjFun`, `DFid`, `RegL1` of the record of an iteration (`eval_objfn` of the base class with `obfn_dfd`,
`obfn_reg`, `parcbpdn.py` 900-917); `dfd` and `l1` are those functions of the array evaluated. -/
def record (dfd l1 : (Fin M → A) → ℝ) (lmbda : ℝ) (fEvalX gEvalY : Bool) (m : Mem M L A S Q) : ℝ × ℝ × ℝ :=
  let f := dfd (fvar fEvalX m)
  let g := l1 (gvar gEvalY m)
  (f + lmbda * g, f, g)

/-- What the records of a call of `solve` are evaluated at: Y1 after each iteration, and the X that is in the shared array
then. -/
theorem loop_stats {V : Type*} (first : ℕ) (comp : Bool) (brk : ℕ → Mem M L A S Q → Bool)
    (e : (Fin M → A) → (Fin M → A) → V) (n j : ℕ) (hn : 0 < n) (s : ℕ × Mem M L A S Q × List V)
    (h : same j first = true ∨ Ahead O s.2.1) :
    ∃ t, 0 < t ∧ t ≤ n ∧ ((∀ i m, brk i m = false) → t = n) ∧
      (loop (body O (fun _ => distSeq O) first (j + n - 1) comp) brk (fun _ m => [e m.X m.Y1]) (List.range' j n) s).2.2 =
        s.2.2 ++ (List.range t).map fun i =>
          e (xRel O ((admmStep O)^[if i + 1 = n ∧ j + n ≤ 257 then i else i + 1] s.2.1.core)).1
            ((admmStep O)^[i + 1] s.2.1.core).Y1 := by
  induction n generalizing j s with
  | zero => omega
  | succ n ih =>
    obtain ⟨i, m, st⟩ := s
    obtain ⟨hc, hA, hX⟩ := body_core O first (j + (n + 1) - 1) comp j m h
    have hsame : same j (j + (n + 1) - 1) = true ↔ n = 0 ∧ j + (n + 1) ≤ 257 := by
      simp only [same, Bool.and_eq_true, beq_iff_eq, decide_eq_true_eq]
      omega
    rw [hsame] at hX
    rw [Ne, hsame] at hA
    have hY : (body O (fun _ => distSeq O) first (j + (n + 1) - 1) comp j m).Y1 = (admmStep O m.core).Y1 := by
      rw [← hc]; rfl
    have hXe : (body O (fun _ => distSeq O) first (j + (n + 1) - 1) comp j m).X =
        (xRel O ((admmStep O)^[if 0 + 1 = n + 1 ∧ j + (n + 1) ≤ 257 then 0 else 0 + 1] m.core)).1 := by
      by_cases h0 : n = 0 ∧ j + (n + 1) ≤ 257
      · rw [if_pos ⟨by omega, h0.2⟩]
        exact (hX h0).1
      · rw [if_neg (fun h => h0 ⟨by omega, h.2⟩), (hA h0).1, hc]
        rfl
    rw [List.range'_succ]
    unfold loop
    simp only
    split_ifs with hb
    · refine ⟨1, by omega, by omega, fun hf => ?_, ?_⟩
      · rw [hf] at hb; cases hb
      · rw [List.range_one, List.map_singleton, hXe, hY]
        rfl
    · rcases Nat.eq_zero_or_pos n with rfl | hpos
      · refine ⟨1, by omega, by omega, fun _ => rfl, ?_⟩
        simp only [List.range'_zero, loop]
        rw [List.range_one, List.map_singleton, hXe, hY]
        rfl
      · have hA' := hA (by omega)
        have e1 : j + (n + 1) - 1 = (j + 1) + n - 1 := by omega
        rw [hXe, hY]
        rw [e1] at hA' hc ⊢
        obtain ⟨t, t1, t2, t0, t3⟩ := ih (j + 1) hpos
          (j, body O (fun _ => distSeq O) first (j + 1 + n - 1) comp j m,
            st ++ [e (xRel O ((admmStep O)^[if 0 + 1 = n + 1 ∧ j + (n + 1) ≤ 257 then 0 else 0 + 1] m.core)).1
              (admmStep O m.core).Y1]) (Or.inr hA')
        refine ⟨t + 1, by omega, by omega, fun hf => by rw [t0 hf], ?_⟩
        rw [t3]
        simp only [hc]
        rw [List.range_succ_eq_map, List.map_cons, List.map_map, List.append_assoc, List.singleton_append]
        refine congrArg₂ (· ++ ·) rfl (congrArg₂ List.cons rfl (List.map_congr_left fun i _ => ?_))
        have e2 : (if i + 1 = n ∧ j + 1 + n ≤ 257 then i else i + 1) + 1 =
            if i + 1 + 1 = n + 1 ∧ j + (n + 1) ≤ 257 then i + 1 else i + 1 + 1 := by
          by_cases h3 : i + 1 = n ∧ j + 1 + n ≤ 257
          · rw [if_pos h3, if_pos ⟨by omega, by omega⟩]
          · rw [if_neg h3, if_neg (by omega)]
        simp only [Function.comp_apply, Nat.succ_eq_add_one]
        rw [← e2]
        simp only [Function.iterate_succ_apply]

/-- **C97.** With `AuxVarObj` (`fEvalX` off, `gEvalY` on) the values recorded in a call of `solve` are those of the functional at
the Y1 of the iteration they are recorded for, for every schedule of the worker processes and wherever the call stops. -/
theorem C97_aux (dfd l1 : (Fin M → A) → ℝ) (lmbda : ℝ)
    (sched : ℕ → Phase → List (Fin L × (Mem M L A S Q → Mem M L A S Q)))
    (hs : ∀ j p, Interleaving (prog O p) (sched j p)) (brk : ℕ → Mem M L A S Q → Bool) (n : ℕ) (hn : 0 < n)
    (m : Mem M L A S Q) :
    ∃ t, 0 < t ∧ t ≤ n ∧ ((∀ i m, brk i m = false) → t = n) ∧
      (solve O (fun j p => execL (sched j p)) true brk (fun _ m => [record dfd l1 lmbda false true m]) n (0, m, [])).2.2 =
        (List.range t).map fun i => let y := ((admmStep O)^[i + 1] m.core).Y1
          (dfd y + lmbda * l1 y, dfd y, l1 y) := by
  rw [C53_solve O sched hs]
  obtain ⟨t, t1, t2, t3, t4⟩ := loop_stats O 0 true brk (fun _ y => (dfd y + lmbda * l1 y, dfd y, l1 y)) n 0 hn (0, m, [])
    (Or.inl rfl)
  exact ⟨t, t1, t2, t3, t4⟩

/-- **C97, what is recorded for any `fEvalX`, `gEvalY`**: where X is selected, the relaxed X update of the following iteration, and
in the last of the `n` iterations that of this iteration (if its number is at most 256); where Y is selected, the Y1 of this
iteration. The default is `fEvalX` on, `gEvalY` off. -/
theorem C97_records (dfd l1 : (Fin M → A) → ℝ) (lmbda : ℝ) (fEvalX gEvalY : Bool)
    (sched : ℕ → Phase → List (Fin L × (Mem M L A S Q → Mem M L A S Q)))
    (hs : ∀ j p, Interleaving (prog O p) (sched j p)) (brk : ℕ → Mem M L A S Q → Bool) (n : ℕ) (hn : 0 < n)
    (m : Mem M L A S Q) :
    ∃ t, 0 < t ∧ t ≤ n ∧ ((∀ i m, brk i m = false) → t = n) ∧
      (solve O (fun j p => execL (sched j p)) true brk (fun _ m => [record dfd l1 lmbda fEvalX gEvalY m]) n
        (0, m, [])).2.2 =
        (List.range t).map fun i =>
          let x := (xRel O ((admmStep O)^[if i + 1 = n ∧ n ≤ 257 then i else i + 1] m.core)).1
          let y := ((admmStep O)^[i + 1] m.core).Y1
          let f := dfd (if fEvalX then x else y)
          let g := l1 (if gEvalY then y else x)
          (f + lmbda * g, f, g) := by
  rw [C53_solve O sched hs]
  obtain ⟨t, t1, t2, t3, t4⟩ := loop_stats O 0 true brk (fun x y => (dfd (if fEvalX then x else y) +
    lmbda * l1 (if gEvalY then y else x), dfd (if fEvalX then x else y), l1 (if gEvalY then y else x))) n 0 hn (0, m, [])
    (Or.inl rfl)
  refine ⟨t, t1, t2, t3, t4.trans ?_⟩
  simp only [Nat.zero_add]
  rfl

end Loop

section Exact
variable {d M : ℕ} {N Nd : Fin d → ℕ} [∀ k, NeZero (N k)] {a : Fin d} {K : Type*} [Fintype K]

/-- `obfn_dfd` (`parcbpdn.py` 909-917) at an array, for a dictionary with one channel. -/
noncomputable def dfdF (a : Fin d) (P : Prob d M N Nd K) (X : Fin M → K → Grid N → ℝ) : ℝ :=
  (∑ k, ∑ p, (P.W k p * (irfft N a (fun ξ => ∑ m, dictF a P.D 0 m ξ * rfft N a (X m k) ξ) p - P.S k p)) ^ 2) / 2

/-- The norm in `obfn_reg` (`parcbpdn.py` 904) at an array. -/
noncomputable def l1F (P : Prob d M N Nd K) (X : Fin M → K → Grid N → ℝ) : ℝ :=
  ∑ m, ∑ k, ∑ p, P.w (k, m, p) * |X m k p|

/-- **C97.** The value recorded is that of the documented functional at the array evaluated. -/
theorem C97_value (hN : ∀ n, Nd n ≤ N n) (P : Prob d M N Nd K) (X : Fin M → K → Grid N → ℝ) :
    dfdF a P X + P.lmbda * l1F P X = objMask P fun k m => X m k := by
  have h := C40_reconstruct (a := a) hN P.q P.D (fun _ => P.S) P.rho 0 (join fun k m => X m k)
  have e1 : ∑ m, ∑ k, ∑ p, P.w (k, m, p) * |X m k p| = ∑ k, ∑ m, ∑ p, P.w (k, m, p) * |X m k p| := Finset.sum_comm
  unfold dfdF l1F objMask
  rw [e1]
  have e : ∀ k p, irfft N a (fun ξ => ∑ m, dictF a P.D 0 m ξ * rfft N a (X m k) ξ) p =
      recon P.D (fun k m => X m k) 0 k p := fun k p => congrFun (congrFun (congrFun h 0) k) p
  simp only [e]
  ring

end Exact

/-- **C97 is false for the default options.** One filter 1, one sample 1, no penalty: the functional is `(x - 1)² / 2`. The
value recorded for the second iteration is 1/8 if it is the last one and 1/32 if another one follows. -/
theorem C97_default_refuted :
    let dfd : (Fin 1 → ℝ) → ℝ := fun x => (x 0 - 1) ^ 2 / 2
    let st := fun n : ℕ => (solve ops1 (fun _ => distSeq ops1) true (fun _ _ => false)
      (fun _ m => [record dfd (fun _ => 0) 0 true false m]) n (0, mem1, [])).2.2
    ((st 2)[1]?).map (·.1) = some (1 / 8) ∧ ((st 3)[1]?).map (·.1) = some (1 / 32) := by
  intro dfd st
  have k1 : admmStep ops1 mem1.core = ⟨fun _ => 1 / 2, fun _ => 0, fun _ => -(1 / 2), fun _ => 0⟩ := by
    ext i <;> fin_cases i <;>
    simp [admmStep, yuAll, xRel, xAll, ops1, sl, mem1, Mem.core] <;> norm_num
  have k2 : admmStep ops1 (admmStep ops1 mem1.core) =
      ⟨fun _ => 1 / 2, fun _ => 1 / 2, fun _ => -(1 / 2), fun _ => 0⟩ := by
    rw [k1]
    ext i <;> fin_cases i <;>
    simp [admmStep, yuAll, xRel, xAll, ops1, sl] <;> norm_num
  have hst : ∀ n, 0 < n → st n = (List.range n).map fun i =>
      let x := (xRel ops1 ((admmStep ops1)^[if i + 1 = n ∧ n ≤ 257 then i else i + 1] mem1.core)).1
      (dfd x + 0 * 0, dfd x, 0) := by
    intro n hn
    obtain ⟨t, -, -, t3, t4⟩ := loop_stats ops1 0 true (fun _ _ => false)
      (fun x _ => (dfd x + 0 * (fun _ => (0 : ℝ)) x, dfd x, (fun _ => (0 : ℝ)) x)) n 0 hn (0, mem1, []) (Or.inl rfl)
    rw [t3 fun _ _ => rfl] at t4
    refine t4.trans ?_
    simp only [Nat.zero_add]
    rfl
  rw [hst 2 (by omega), hst 3 (by omega)]
  constructor
  · simp only [List.range_succ, List.range_zero, List.nil_append, List.map_append, List.map_cons, List.map_nil]
    simp only [List.cons_append, List.nil_append, List.getElem?_cons_succ, List.getElem?_cons_zero, Option.map_some]
    rw [if_pos (by norm_num), Function.iterate_one, k1]
    simp [dfd, xRel, xAll, ops1, sl]
    norm_num
  · simp only [List.range_succ, List.range_zero, List.nil_append, List.map_append, List.map_cons, List.map_nil]
    simp only [List.cons_append, List.nil_append, List.getElem?_cons_succ, List.getElem?_cons_zero, Option.map_some]
    rw [if_neg (by norm_num), Function.iterate_succ_apply, Function.iterate_one, k2]
    simp [dfd, xRel, xAll, ops1, sl]
    norm_num

end Sporco.Par.PCbpdn
