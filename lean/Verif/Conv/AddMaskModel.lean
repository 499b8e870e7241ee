import Verif.Conv.CbpdnModel

/-!
# Model of `AddMaskSim` (`sporco/admm/cbpdn.py`)

The wrapper appends impulse filters to the dictionary and replaces the Y update of the wrapped
object.  Filters of the extended dictionary are indexed by `M ⊕ Fin (c + 1)`: those of the user,
then one impulse per channel of the dictionary, which is the order of the concatenation, so that
the slices `[..., 0:-Cd]` and `[..., -Cd:]` are the two summands.  The index of the signals is a
pair (channel of the coefficient array, signal).
-/

set_option autoImplicit false
set_option linter.unusedSectionVars false

namespace Sporco.Conv.Ams

open Finset ComplexConjugate Sporco.Linalg Sporco.Prox Sporco.Admm Sporco.Conv

variable {d c : ℕ} {N Nd : Fin d → ℕ} [∀ k, NeZero (N k)] {a : Fin d} {K M : Type*} [Fintype K]
  [Fintype M]

/-- One impulse filter: zeros with a one at the origin (`cbpdn.py` 2332-2333). -/
def impulse (Nd : Fin d → ℕ) : NArr Nd ℝ := fun p => if ∀ k, (p k).val = 0 then 1 else 0

/-- `self.imp` (`cbpdn.py` 2331-2337): for `Cd > 1`, impulse `j` is in channel `j` only. -/
def imp (Nd : Fin d → ℕ) (i j : Fin (c + 1)) : NArr Nd ℝ := if i = j then impulse Nd else 0

/-- `Di = np.concatenate((D, self.imp), axis=D.ndim-1)` (`cbpdn.py` 2338). -/
def addImp (D : Dict c M Nd) : Dict c (M ⊕ Fin (c + 1)) Nd :=
  fun i => Sum.elim (D i) (imp Nd i)

/-- A mask reshaped by `mskWshape` (`cbpdn.py` 2348-2349): sizes of the spatial axes, the channel
axis and the signal axis (the filter axis has length one), and the entries; only entries inside
the sizes are meaningful. -/
structure MaskArr (d : ℕ) where
  Nw : Fin d → ℕ
  Cw : ℕ
  Kw : ℕ
  val : (Fin d → ℕ) → ℕ → ℕ → ℝ

/-- Index inside the array. -/
def MaskArr.inside (W : MaskArr d) (p : Fin d → ℕ) (ch sg : ℕ) : Prop :=
  (∀ k, p k < W.Nw k) ∧ ch < W.Cw ∧ sg < W.Kw

/-- Whether entry (channel `ch`, signal `sg`, impulse `j`, position `p`) of the additive component
is set to zero by `Yi[np.where(self.W.astype(bool))] = 0.0` (`cbpdn.py` 2390).  `np.where` lists the
indices of the mask array itself, which has one entry along its axes of length one; the channel
axis has been swapped with the filter axis for a multi-channel dictionary and a mask with more than
one channel (2354-2355).  (An index of the mask outside the component raises `IndexError`; here it
is not represented.) -/
def MaskArr.hit (W : MaskArr d) (c ch sg j : ℕ) (p : Fin d → ℕ) : Prop :=
  if 0 < c ∧ 1 < W.Cw then ch = 0 ∧ W.inside p j sg ∧ W.val p j sg ≠ 0
  else j = 0 ∧ W.inside p ch sg ∧ W.val p ch sg ≠ 0

/-- `AddMaskSim.ystep` (`cbpdn.py` 2376-2391) around an inner Y update `ys`; `hit` is the set of
entries of the additive component that are zeroed. -/
noncomputable def amsYstep (hit : K → Fin (c + 1) → Grid N → Prop)
    (ys : ℝ → Coef K (M ⊕ Fin (c + 1)) N → Coef K (M ⊕ Fin (c + 1)) N →
      Coef K (M ⊕ Fin (c + 1)) N → Coef K (M ⊕ Fin (c + 1)) N →
      Attr c K (M ⊕ Fin (c + 1)) Nd N a →
      Coef K (M ⊕ Fin (c + 1)) N × Attr c K (M ⊕ Fin (c + 1)) Nd N a)
    (rho : ℝ) (AX X Y U : Coef K (M ⊕ Fin (c + 1)) N) (h : Attr c K (M ⊕ Fin (c + 1)) Nd N a) :
    Coef K (M ⊕ Fin (c + 1)) N × Attr c K (M ⊕ Fin (c + 1)) Nd N a :=
  open Classical in
  let Yi : K → Fin (c + 1) → Grid N → ℝ := fun k j p =>
    if hit k j p then 0 else part AX k (Sum.inr j) p + part U k (Sum.inr j) p
  let r := ys rho AX X Y U h
  (join fun k => Sum.elim (fun m => part r.1 k (Sum.inl m)) (Yi k), r.2)

/-- `AddMaskSim.obfn_gvar` (`cbpdn.py` 2395-2409) of the inner result. -/
noncomputable def amsGvar (v : Coef K (M ⊕ Fin (c + 1)) N) : Coef K (M ⊕ Fin (c + 1)) N :=
  join fun k => Sum.elim (fun m => part v k (Sum.inl m)) fun _ _ => 0

/-- `[self.index_primary()]` (`cbpdn.py` 2427, 2443-2455), used by `solve` and `getcoef`. -/
noncomputable def primary (v : Coef K (M ⊕ Fin (c + 1)) N) : Coef K M N :=
  join fun k m => part v k (Sum.inl m)

/-- The `ConvBPDN` object inside `AddMaskSim(ConvBPDN, D, S, W, lmbda, opt)` after the constructor
(`cbpdn.py` 2340-2367).  The weights `w` of the `L1Weight` option cover the appended filters. -/
noncomputable def clsAms (hit : K → Fin (c + 1) → Grid N → Prop) (q : COpts) (S : Signal c K N)
    (lmbda : ℝ) (w : K × (M ⊕ Fin (c + 1)) × Grid N → ℝ) (fEvalX gEvalY : Bool) :
    Cls (Coef K (M ⊕ Fin (c + 1)) N) (Coef K (M ⊕ Fin (c + 1)) N) (Coef K (M ⊕ Fin (c + 1)) N)
      (Attr c K (M ⊕ Fin (c + 1)) Nd N a) :=
  Cls.equal xstep (amsYstep hit (ystep q lmbda w)) (rhochange q) fun X Y h =>
    let f := dfd S fEvalX Y h
    let r := regL1 lmbda w (amsGvar (Bpdn.gvar gEvalY X Y))
    (f + r, f, r)

/-- The zeroed entries for a mask array. -/
def hitOf {C Kn : ℕ} (W : MaskArr d) (k : Fin C × Fin Kn) (j : Fin (c + 1)) (p : Grid N) : Prop :=
  W.hit c k.1.val k.2.val j.val fun n => (p n).val

/-- `reconstruct` of the wrapper (`cbpdn.py` 2469-2482): the transform of the user's filters is the
first part of `Df`. -/
noncomputable def amsReconstruct (h : Attr c K (M ⊕ Fin (c + 1)) Nd N a) (X : Coef K M N) :
    Signal c K N :=
  fun i k => irfft N a fun ξ => ∑ m, h.Df i (Sum.inl m) ξ * rfft N a (part X k m) ξ

end Sporco.Conv.Ams
