import Mathlib.Analysis.InnerProductSpace.PiL2

/-!
# Model of `sporco.prox`

Real (or complex) numbers stand for floats: rounding, overflow and input NaNs
are not modelled.  A NaN *produced* by the code (`0/0`) is modelled by `none`.
Array arguments are functions on a finite index set; an array operated on along
an axis is a function of the slice index and of the index within the slice.
-/

namespace Sporco.Prox

variable {ι σ E : Type*} [Fintype ι] [NormedAddCommGroup E] [NormedSpace ℝ E]

/-- `numpy.sign` for real arguments. -/
noncomputable def npSign (v : ℝ) : ℝ := if 0 < v then 1 else if v < 0 then -1 else 0

/-- `prox_l1`, real array, `numexpr` not installed, one entry
(`sporco/prox/_lp.py:181`). -/
noncomputable def proxL1 (v α : ℝ) : ℝ := npSign v * max (|v| - α) 0

/-- `prox_l1`, real array, `numexpr` installed, one entry
(`sporco/prox/_lp.py:176-179`). -/
noncomputable def proxL1Ne (v α : ℝ) : ℝ :=
  if 0 < |v| - α then (if 0 ≤ v then 1 else -1) * (|v| - α) else 0

/-- `prox_l1`, complex array, one entry (`sporco/prox/_lp.py:183`).  The
quotient `v / abs(v)` is NaN at `v = 0`, and NaN times anything is NaN. -/
noncomputable def proxL1C (v : ℂ) (α : ℝ) : Option ℂ :=
  if v = 0 then none else some ((v / (‖v‖ : ℂ)) * ((max (‖v‖ - α) 0 : ℝ) : ℂ))

/-- `prox_l1` on a real array with an array of thresholds
(`sporco/prox/_lp.py:144-183`); the code is elementwise. -/
noncomputable def proxL1Arr (v α : ι → ℝ) : ι → ℝ := fun i => proxL1 (v i) (α i)

open Classical in
/-- `prox_l0`, one entry (`sporco/prox/_lp.py:106`): a boolean mask times `v`. -/
noncomputable def proxL0 (v : E) (α : ℝ) : E :=
  (if Real.sqrt (2 * α) ≤ ‖v‖ then (1 : ℝ) else 0) • v

/-- `norm_l0` with threshold `eps` (`sporco/prox/_lp.py:60`). -/
noncomputable def normL0 (eps : ℝ) (x : ι → E) : ℕ :=
  open Classical in (Finset.univ.filter fun i => eps < ‖x i‖).card

/-- `norm_l1` (`sporco/prox/_lp.py:110-140`). -/
noncomputable def normL1 (x : ι → E) : ℝ := ∑ i, ‖x i‖

/-- `norm_l2` on one slice (`sporco/prox/_lp.py:187-248`); `sqrt(sum(abs(x)**2))`. -/
noncomputable def normL2 (x : ι → E) : ℝ := Real.sqrt (∑ i, ‖x i‖ ^ 2)

/-- `zdivide` for real numbers (`sporco/array.py:119-136`). -/
noncomputable def zdivide (x y : ℝ) : ℝ := if y ≠ 0 then x / y else 0

/-- `prox_l2` on one slice (`sporco/prox/_lp.py:284-290`). -/
noncomputable def proxL2 (v : ι → E) (α : ℝ) : ι → E :=
  let a := normL2 v
  let b := max 0 (a - α)
  let b := zdivide b a
  fun i => b • v i

/-- `proj_l2` on one slice (`sporco/prox/_lp.py:334-340`): boolean masks times
values. -/
noncomputable def projL2 (v : ι → E) (γ : ℝ) : ι → E :=
  let d := normL2 v
  fun i => (if d ≤ γ then (1 : ℝ) else 0) • v i +
    (if γ < d then (1 : ℝ) else 0) • (γ • ((if d ≠ 0 then 1 / d else 0) • v i))

/-- `linalg.proj_l2ball` (`sporco/linalg.py:1073-1075`): as `proj_l2` with a centre. -/
noncomputable def projL2Ball (b s : ι → ℝ) (r : ℝ) : ι → ℝ :=
  let d := Real.sqrt (∑ i, (b i - s i) ^ 2)
  fun i => (if d ≤ r then (1 : ℝ) else 0) * b i +
    (if r < d then (1 : ℝ) else 0) * (s i + r * zdivide (b i - s i) d)

/-- The thresholds `t = c * (cumsum(vs) - gamma)` with `c = 1/arange(1, N+1)`, at
position `k` of the sorted list (`sporco/prox/_l1proj.py:141-150`). -/
noncomputable def sortT (vs : List ℝ) (γ : ℝ) (k : ℕ) : ℝ :=
  1 / ((k : ℝ) + 1) * ((vs.take (k + 1)).sum - γ)

/-- The final threshold of `_proj_l1_sortsum` from the sorted magnitudes
(`sporco/prox/_l1proj.py:150-153`): `K` counts the entries with `vs >= t`. -/
noncomputable def sortsumThresh (vs : List ℝ) (γ : ℝ) : ℝ :=
  let sel := vs.zipIdx.filter (fun p => decide (sortT vs γ p.2 ≤ p.1))
  max 0 (((sel.map Prod.fst).sum - γ) / (sel.length : ℝ))

/-- Magnitudes sorted in descending order (`np.sort` ascending, then reversed;
`sporco/prox/_l1proj.py:138-149`). -/
noncomputable def sortedMags {n : ℕ} (v : Fin n → ℝ) : List ℝ :=
  ((List.ofFn fun i => |v i|).mergeSort (fun a b => decide (a ≤ b))).reverse

/-- Last line of `_proj_l1_sortsum` (`sporco/prox/_l1proj.py:154`). -/
noncomputable def sortsumOut (v t : ℝ) : ℝ := npSign v * (if t < |v| then |v| - t else 0)

/-- `_proj_l1_sortsum` with an `axis` on one slice (`sporco/prox/_l1proj.py:134-154`,
the early return is taken only for `axis=None`). -/
noncomputable def projL1SortAxis {n : ℕ} (v : Fin n → ℝ) (γ : ℝ) : Fin n → ℝ :=
  let t := sortsumThresh (sortedMags v) γ
  fun i => sortsumOut (v i) t

/-- `_proj_l1_sortsum` with `axis=None` (`sporco/prox/_l1proj.py:132-154`). -/
noncomputable def projL1Sort {n : ℕ} (v : Fin n → ℝ) (γ : ℝ) : Fin n → ℝ :=
  if normL1 v ≤ γ then v else projL1SortAxis v γ

/-- The function whose root `_proj_l1_scalar_root` asks `brentq` for
(`sporco/prox/_l1proj.py:104`). -/
noncomputable def rootFn (v : ι → ℝ) (γ t : ℝ) : ℝ := (∑ i, max 0 (|v i| - t)) - γ

/-- `_proj_l1_scalar_root` (`sporco/prox/_l1proj.py:100-106`), the value returned by
`scipy.optimize.brentq` being the argument `t`. -/
noncomputable def projL1Root (v : ι → ℝ) (γ t : ℝ) : ι → ℝ :=
  if normL1 v ≤ γ then v else fun i => proxL1 (v i) t

/-- `prox_sl1l2` on one slice of a real array (`sporco/prox/_l21.py:51-88`). -/
noncomputable def proxSl1l2 (v : ι → ℝ) (α : ι → ℝ) (β : ℝ) : ι → ℝ :=
  proxL2 (proxL1Arr v α) β

/-- First index attaining the maximum of a list of numbers, as `numpy.argmax`
does (used in `sporco/prox/_dl1l2.py:91,102`). -/
noncomputable def argmaxFin {n : ℕ} (f : Fin (n + 1) → ℝ) : Fin (n + 1) :=
  match n with
  | 0 => 0
  | _ + 1 =>
    let j := argmaxFin (fun i => f i.succ)
    if f j.succ ≤ f 0 then 0 else j.succ

/-- `prox_dl1l2` with `axis=None` (`sporco/prox/_dl1l2.py:81-96`). -/
noncomputable def proxDl1l2 {n : ℕ} (v : Fin (n + 1) → ℝ) (α β : ℝ) : Fin (n + 1) → ℝ :=
  let va := fun i => |v i|
  let vamx := va (argmaxFin va)
  if 0 < vamx then
    if α < vamx then
      let u := fun i => max (va i - α) 0 * npSign (v i)
      fun i => u i * ((normL2 u + α * β) / normL2 u)
    else if (1 - β) * α ≤ vamx then
      let idx := argmaxFin va
      Function.update (fun _ => 0) idx ((va idx + (β - 1) * α) * npSign (v idx))
    else fun _ => 0
  else fun _ => 0

/-- `prox_dl1l2` with an `axis`, on one slice (`sporco/prox/_dl1l2.py:97-108`). -/
noncomputable def proxDl1l2Axis {n : ℕ} (v : Fin (n + 1) → ℝ) (α β : ℝ) : Fin (n + 1) → ℝ :=
  let va := fun i => |v i|
  let vamx := va (argmaxFin va)
  let u1 := fun i => max (va i - α) 0 * npSign (v i)
  let u1l2 := normL2 u1
  let u1' := fun i => u1 i * (1 + (if u1l2 ≠ 0 then α * β / u1l2 else 0))
  let idx := argmaxFin va
  let u2 := Function.update (fun _ => (0 : ℝ)) idx ((vamx + (β - 1) * α) * npSign (v idx))
  fun i => (if α < vamx then (1 : ℝ) else 0) * u1' i +
    (if (1 - β) * α < vamx ∧ vamx ≤ α then (1 : ℝ) else 0) * u2 i

/-- The `NonNegCoef` clip `Y[Y < 0] = 0` (e.g. `sporco/admm/bpdn.py:219-220`,
`sporco/admm/cbpdn.py:306-307`). -/
noncomputable def clip (x : ι → ℝ) : ι → ℝ := fun i => if x i < 0 then 0 else x i

end Sporco.Prox
