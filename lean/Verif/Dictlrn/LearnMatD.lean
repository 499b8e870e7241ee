import Verif.Dictlrn.LearnW
import Verif.Dictlrn.LearnConvD

/-!
# The dictionary updates of `BPDNDictLearn` and `WeightedBPDNDictLearn` (C55)

The version of `Verif.Dictlrn.LearnConvD` for the classes with matrix dictionaries.
-/

set_option autoImplicit false

namespace Sporco.Dictlrn

open Matrix
open Sporco.Admm (Arr mat arr fro2 norm_arr mat_arr arr_mat)

variable {N M K : ℕ}

/-- `solve` of the dictionary update object records the data fidelity for the given coefficients. -/
theorem solveDB (P : PrmB N M K) (hf : P.oD.fastSolve = false) (h1 : 1 ≤ P.oD.maxMainIter)
    (Z : Matrix (Fin M) (Fin K) ℝ) (t : DB N M K) :
    ∃ g, ((dB P).itstat ((dB P).solve ((dB P).setcoef Z t))).getLast? = some g ∧
      g "DFid" = some (1 / 2 * fro2 (mat (if P.fD then ((dB P).solve ((dB P).setcoef Z t)).X else
        ((dB P).solve ((dB P).setcoef Z t)).Y) * Z - P.S)) := by
  obtain ⟨-, st, e1, e2⟩ := Admm.solve_obj (Admm.Cmod.clsCMOD P.S P.zm P.fD P.gD) P.oD hf h1
    (fun s => s.extra.Z = Z) (fun _ _ h => h)
    (fun k s h => by
      obtain ⟨-, -, -, e⟩ := Admm.body_eq (Admm.Cmod.clsCMOD P.S P.zm P.fD P.gD) P.oD k s
      rcases e with e | ⟨rho, e⟩ <;> rw [e] <;> exact h)
    (fun X Y => 1 / 2 * fro2 (mat (if P.fD then X else Y) * Z - P.S))
    (fun s h => by
      have h' : (Admm.steps (Admm.Cmod.clsCMOD P.S P.zm P.fD P.gD) P.oD s).extra.Z = Z := h
      change 1 / 2 * ‖arr (mat _ * (Admm.steps (Admm.Cmod.clsCMOD P.S P.zm P.fD P.gD) P.oD s).extra.Z - P.S)‖ ^ 2 = _
      rw [h', norm_arr]
      rfl)
    ((dB P).setcoef Z t) rfl
  exact ⟨statC st, last_admm e1, congrArg some e2⟩

/-- **C55 for `BPDNDictLearn`: each dictionary update sees the coefficients just computed.**  For every input, option value
(inner solver with at least one iteration and statistics), sequence of `solve` calls and callbacks: the data fidelity
that the dictionary update object records last in iteration `k` is `(1/2)‖D X - S‖²` for the coefficients that sparse
coding returned in this iteration and the variable that `fEvalX` chooses; without `fEvalX` this is the dictionary that the
object returns. -/
theorem C55_bpdndl_update (P : PrmB N M K) (hf : P.oD.fastSolve = false) (h1 : 1 ≤ P.oD.maxMainIter) (clock : ℕ → ℝ)
    (D0 : Matrix (Fin N) (Fin M) ℝ) (x : XB N M K) (d : DB N M K)
    (cs : List (ℕ × (DL (XB N M K) (DB N M K) ℝ → Bool))) :
    ∃ s xs ds, dlRun (envB P clock) cs ⟨xB0 P D0 x, dB0 P D0 x d, 0, []⟩ = some s ∧
      Alternates (envB P clock) (xB0 P D0 x) (dB0 P D0 x d) xs ds ∧
      AtEnd (envB P clock) (xB0 P D0 x) (dB0 P D0 x d) xs ds s.itstat.length s.x s.d ∧
      ∀ k, ∃ g, ((dB P).itstat (ds k)).getLast? = some g ∧
        g "DFid" = some (1 / 2 * fro2
          ((if P.fD then mat (ds k).X else (dB P).getdict (ds k)) * (xB P).getcoef (xs k) - P.S)) := by
  obtain ⟨s, hs⟩ := run_total (rowsOk_B P clock) cs ⟨xB0 P D0 x, dB0 P D0 x d, 0, []⟩
  obtain ⟨xs, ds, n, h3, h4, -, rfl, -⟩ := C55_alternation hs
  refine ⟨s, xs, ds, hs, h3, h4, fun k => ?_⟩
  have e : ∀ t : DB N M K, (if P.fD then mat t.X else (dB P).getdict t) = mat (if P.fD then t.X else t.Y) := by
    intro t; cases P.fD <;> rfl
  rw [e]
  cases k with
  | zero => rw [h3.d_first]; exact solveDB P hf h1 _ _
  | succ k => rw [h3.d_next]; exact solveDB P hf h1 _ _

/-- **C55 for `WeightedBPDNDictLearn`** (inner solver with at least one iteration and statistics and without
`Monotone`): the data fidelity that the dictionary update object records last in iteration `k` is
`(1/2) Σ w (D X - S)²` for the dictionary and the coefficients that the object returns after this iteration. -/
theorem C55_wbpdndl_update (P : PrmW N M K) (hW : ∀ i j, 0 ≤ P.W i j) (hf : P.oD.fastSolve = false)
    (h1 : 1 ≤ P.oD.maxMainIter) (hm : P.oD.monotone = false) (clock : ℕ → ℝ)
    (Pcn : Matrix (Fin N) (Fin M) ℝ → Matrix (Fin N) (Fin M) ℝ) (D0 : Matrix (Fin N) (Fin M) ℝ)
    (x : Pgm.Vars (Arr M K)) (d : Pgm.Vars (Arr N M)) (cs : List (ℕ × (DL (XW N M K) (DW N M K) ℝ → Bool))) :
    ∃ s xs ds, dlRun (envW P Pcn clock) cs ⟨xW0 Pcn D0 x, dW0 Pcn D0 x d, 0, []⟩ = some s ∧
      Alternates (envW P Pcn clock) (xW0 Pcn D0 x) (dW0 Pcn D0 x d) xs ds ∧
      AtEnd (envW P Pcn clock) (xW0 Pcn D0 x) (dW0 Pcn D0 x d) xs ds s.itstat.length s.x s.d ∧
      ∀ k, ∃ g, ((dW P Pcn).itstat (ds k)).getLast? = some g ∧
        g "DFid" = some (wdfd P.W ((dW P Pcn).getdict (ds k)) P.S ((xW P).getcoef (xs k))) := by
  obtain ⟨s, hs⟩ := run_total (rowsOk_W P Pcn clock) cs ⟨xW0 Pcn D0 x, dW0 Pcn D0 x d, 0, []⟩
  obtain ⟨xs, ds, n, h3, h4, -, rfl, -⟩ := C55_alternation hs
  refine ⟨s, xs, ds, hs, h3, h4, fun k => ?_⟩
  have key : ∀ (Z : Matrix (Fin M) (Fin K) ℝ) (t : DW N M K),
      ∃ g, ((dW P Pcn).itstat ((dW P Pcn).solve ((dW P Pcn).setcoef Z t))).getLast? = some g ∧
        g "DFid" = some (wdfd P.W ((dW P Pcn).getdict ((dW P Pcn).solve ((dW P Pcn).setcoef Z t))) P.S Z) := by
    intro Z t
    obtain ⟨j, r, hj⟩ := Pgm.solve_last (Pgm.ops (clsWC P Pcn Z) P.oD) P.oD hf h1 t.1
    refine ⟨statWC _, last_admm hj, ?_⟩
    have hobj : ∀ v, ((Pgm.ops (clsWC P Pcn Z) P.oD).stat j v r).obj = (clsWC P Pcn Z).objfn v.X := by
      intro v
      change (if P.oD.monotone = true then _ else _) = _
      rw [hm]
      rfl
    refine congrArg some ?_
    rw [hobj]
    change 1 / 2 * ‖arr (Pgm.had (Matrix.of fun i j => Real.sqrt (P.W i j)) _)‖ ^ 2 = _
    rw [wdfd_eq P.W hW]
    rfl
  cases k with
  | zero => rw [h3.d_first]; exact key _ _
  | succ k => rw [h3.d_next]; exact key _ _

/-- The options of the hypotheses above: the defaults of the inner solvers. -/
example : ∃ (P : PrmB 2 2 3) (Q : PrmW 2 2 3), (P.oD.fastSolve = false ∧ 1 ≤ P.oD.maxMainIter) ∧
    (∀ i j, 0 ≤ Q.W i j) ∧ Q.oD.fastSolve = false ∧ 1 ≤ Q.oD.maxMainIter ∧ Q.oD.monotone = false := by
  refine ⟨⟨Matrix.of fun i j => i + j, 1, fun _ => 1, false, false, true,
      ⟨false, 1, 0, 0, false, 10, false, false, 1, 1, 2, 10, 1, 1⟩, false, false, true,
      ⟨false, 1, 0, 0, false, 10, false, false, 1, 1, 2, 10, 1, 1⟩, false⟩,
    ⟨Matrix.of fun i j => i + j, 1, Matrix.of fun _ _ => 1, fun _ => 1, false,
      ⟨false, 1, 0, false, 0, false, .nesterov, .none, .none⟩, false, false,
      ⟨false, 1, 0, false, 0, false, .nesterov, .none, .none⟩, false⟩, ⟨rfl, le_rfl⟩, ?_, rfl, le_rfl, rfl⟩
  exact fun i j => zero_le_one

end Sporco.Dictlrn
