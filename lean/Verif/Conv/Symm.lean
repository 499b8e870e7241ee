import Verif.Admm.Symm
import Verif.Conv.CbpdnConv

/-!
# Symmetries of convolutional sparse coding (C84)

What happens to a run of `ConvBPDN` or `ConvElasticNet` when the signals are shifted circularly, permuted or negated,
when the filters are permuted or negated, or when the channels are permuted.
-/

set_option autoImplicit false
set_option linter.unusedSectionVars false

namespace Sporco.Conv

open Finset Sporco.Prox Sporco.Admm

variable {d c : ℕ} {N Nd : Fin d → ℕ} [∀ k, NeZero (N k)] {a : Fin d} {K M : Type*} [Fintype K] [Fintype M]

/-! ## Specification -/

/-- A change of the input: permutations of signals, filters and channels, a circular shift of every signal, and
signs for filters and signals. -/
structure Move (c : ℕ) (K M : Type*) {d : ℕ} (N : Fin d → ℕ) [∀ k, NeZero (N k)] where
  sigs : K ≃ K
  filts : M ≃ M
  chans : Fin (c + 1) ≃ Fin (c + 1)
  shift : K → Grid N
  fsign : M → ℝ
  ssign : K → ℝ
  fsign_ok : ∀ m, fsign m = 1 ∨ fsign m = -1
  ssign_ok : ∀ k, ssign k = 1 ∨ ssign k = -1

/-- `D'` is the dictionary with filters and channels permuted and filters negated. -/
def Move.Dict (v : Move c K M N) (D D' : Dict c M Nd) : Prop :=
  ∀ i m j, D' (v.chans i) (v.filts m) j = v.fsign m * D i m j

/-- `S'` is the signal array with signals and channels permuted, signals shifted and negated. -/
def Move.Signal (v : Move c K M N) (S S' : Signal c K N) : Prop :=
  ∀ i k p, S' (v.chans i) (v.sigs k) (p + v.shift k) = v.ssign k * S i k p

/-- `w'` are the weights at the positions the coefficients move to. -/
def Move.Weights (v : Move c K M N) (w w' : K × M × Grid N → ℝ) : Prop :=
  ∀ k m p, w' (v.sigs k, v.filts m, p + v.shift k) = w (k, m, p)

/-- `X'` are the coefficient maps of `X`, permuted, shifted and negated accordingly. -/
def Move.Coefs (v : Move c K M N) (X X' : Coef K M N) : Prop :=
  ∀ k m p, X' (v.sigs k, v.filts m, p + v.shift k) = v.ssign k * v.fsign m * X (k, m, p)

/-- The options allow the change: no negation with `NonNegCoef`, no shift with `NoBndryCross`. -/
def Move.Allowed (v : Move c K M N) (q : COpts) : Prop :=
  (q.nonNeg = true → (∀ m, v.fsign m = 1) ∧ ∀ k, v.ssign k = 1) ∧ (q.noBndry = true → ∀ k, v.shift k = 0)

/-- What it means for two runs to correspond. -/
structure Move.Same (v : Move c K M N)
    (s s' : St (Coef K M N) (Coef K M N) (Coef K M N) (Attr c K M Nd N a)) : Prop where
  X : v.Coefs s.X s'.X
  Y : v.Coefs s.Y s'.Y
  U : v.Coefs s.U s'.U
  rho : s'.rho = s.rho
  k : s'.k = s.k
  itstat : s'.itstat = s.itstat

/-! ## The isometry -/

namespace Move

/-- Where the coefficients go. -/
def idx (v : Move c K M N) : K × M × Grid N ≃ K × M × Grid N where
  toFun i := (v.sigs i.1, v.filts i.2.1, i.2.2 + v.shift i.1)
  invFun i := (v.sigs.symm i.1, v.filts.symm i.2.1, i.2.2 - v.shift (v.sigs.symm i.1))
  left_inv i := by simp
  right_inv i := by simp

/-- The isometry of coefficient arrays. -/
noncomputable def iso (v : Move c K M N) : Coef K M N ≃ₗᵢ[ℝ] Coef K M N :=
  signPerm v.idx (fun i => v.ssign i.1 * v.fsign i.2.1) fun i => by
    rcases v.ssign_ok i.1 with h | h <;> rcases v.fsign_ok i.2.1 with h' | h' <;> rw [h, h'] <;> simp

theorem iso_apply (v : Move c K M N) (x : Coef K M N) (k : K) (m : M) (p : Grid N) :
    v.iso x (v.sigs k, v.filts m, p + v.shift k) = v.ssign k * v.fsign m * x (k, m, p) :=
  signPerm_image v.idx _ _ x (k, m, p)

theorem coefs_iff (v : Move c K M N) (x x' : Coef K M N) : v.Coefs x x' ↔ x' = v.iso x := by
  constructor
  · intro h
    ext i
    obtain ⟨j, rfl⟩ := v.idx.surjective i
    obtain ⟨k, m, p⟩ := j
    exact (h k m p).trans (v.iso_apply x k m p).symm
  · rintro rfl k m p
    exact v.iso_apply x k m p

theorem part_iso (v : Move c K M N) (x : Coef K M N) (k : K) (m : M) (p : Grid N) :
    part (v.iso x) (v.sigs k) (v.filts m) (p + v.shift k) = v.ssign k * v.fsign m * part x k m p := v.iso_apply x k m p

/-- The reconstruction moves with the coefficients. -/
theorem recon_move (v : Move c K M N) {D D' : Conv.Dict c M Nd} (hD : v.Dict D D') (x : Coef K M N) :
    v.Signal (recon D (part x)) (recon D' (part (v.iso x))) := by
  intro i k p
  unfold recon
  rw [← Equiv.sum_comp v.filts, mul_sum]
  refine sum_congr rfl fun m _ => ?_
  unfold filt
  rw [mul_sum]
  refine sum_congr rfl fun j _ => ?_
  rw [hD, show p + v.shift k - (fun n => ((j n).val : ZMod (N n))) =
    p - (fun n => ((j n).val : ZMod (N n))) + v.shift k by abel, part_iso]
  rcases v.fsign_ok m with h | h <;> rw [h] <;> ring

theorem dataTerm_move (v : Move c K M N) {D D' : Conv.Dict c M Nd} (hD : v.Dict D D') {S S' : Conv.Signal c K N}
    (hS : v.Signal S S') (x : Coef K M N) :
    dataTerm D' S' (part (v.iso x)) = dataTerm D S (part x) := by
  unfold dataTerm
  congr 1
  rw [← Equiv.sum_comp v.chans]
  refine sum_congr rfl fun i _ => ?_
  rw [← Equiv.sum_comp v.sigs]
  refine sum_congr rfl fun k _ => ?_
  rw [← Equiv.sum_comp (Equiv.addRight (v.shift k))]
  refine sum_congr rfl fun p _ => ?_
  rw [Equiv.coe_addRight, v.recon_move hD x i k p, hS i k p]
  rcases v.ssign_ok k with h | h <;> rw [h] <;> ring

theorem l1w_move (v : Move c K M N) {w w' : K × M × Grid N → ℝ} (hw : v.Weights w w') (x : Coef K M N) :
    l1w w' (v.iso x).ofLp = l1w w x.ofLp := by
  unfold l1w
  rw [← Equiv.sum_comp v.idx]
  refine sum_congr rfl fun i _ => ?_
  obtain ⟨k, m, p⟩ := i
  have h1 : w' (v.idx (k, m, p)) = w (k, m, p) := hw k m p
  have h2 : (v.iso x).ofLp (v.idx (k, m, p)) = v.ssign k * v.fsign m * x (k, m, p) := v.iso_apply x k m p
  rw [h1, h2]
  congr 1
  rcases v.ssign_ok k with h | h <;> rcases v.fsign_ok m with h' | h' <;> rw [h, h'] <;> simp

theorem regL1_move (v : Move c K M N) {w w' : K × M × Grid N → ℝ} (hw : v.Weights w w') (lmbda : ℝ)
    (x : Coef K M N) : regL1 lmbda w' (v.iso x) = regL1 lmbda w x := by
  unfold regL1 normL1
  congr 1
  rw [← Equiv.sum_comp v.idx]
  refine sum_congr rfl fun i _ => ?_
  obtain ⟨k, m, p⟩ := i
  have h1 : w' (v.idx (k, m, p)) = w (k, m, p) := hw k m p
  have h2 : (v.iso x) (v.idx (k, m, p)) = v.ssign k * v.fsign m * x (k, m, p) := v.iso_apply x k m p
  simp only [h1, h2]
  rcases v.ssign_ok k with h | h <;> rcases v.fsign_ok m with h' | h' <;> rw [h, h'] <;> simp

theorem cset_move (v : Move c K M N) {q : COpts} (hq : v.Allowed q) (x : Coef K M N) :
    v.iso x ∈ (cset q Nd : Set (Coef K M N)) ↔ x ∈ (cset q Nd : Set (Coef K M N)) := by
  constructor
  · rintro ⟨h1, h2⟩
    refine ⟨fun hn k m p => ?_, fun hb k m p hc => ?_⟩
    · have := h1 hn (v.sigs k) (v.filts m) (p + v.shift k)
      rw [part_iso, (hq.1 hn).1, (hq.1 hn).2] at this
      simpa using this
    · have := h2 hb (v.sigs k) (v.filts m) (p + v.shift k) (by rw [hq.2 hb k, add_zero]; exact hc)
      rw [part_iso] at this
      rcases v.ssign_ok k with h | h <;> rcases v.fsign_ok m with h' | h' <;> rw [h, h'] at this <;> simpa using this
  · rintro ⟨h1, h2⟩
    refine ⟨fun hn k' m' p' => ?_, fun hb k' m' p' hc => ?_⟩
    · obtain ⟨⟨k, m, p⟩, e⟩ := v.idx.surjective (k', m', p')
      have e1 : part (v.iso x) k' m' p' = v.iso x (v.idx (k, m, p)) := by rw [e]; rfl
      rw [e1]
      have := v.iso_apply x k m p
      change v.iso x (v.idx (k, m, p)) = _ at this
      have h0 : 0 ≤ x (k, m, p) := h1 hn k m p
      rw [this, (hq.1 hn).1, (hq.1 hn).2]
      simpa using h0
    · obtain ⟨⟨k, m, p⟩, e⟩ := v.idx.surjective (k', m', p')
      have e1 : part (v.iso x) k' m' p' = v.iso x (v.idx (k, m, p)) := by rw [e]; rfl
      have e2 : p' = p := by
        have : p + v.shift k = p' := congrArg (fun i => i.2.2) e
        rw [hq.2 hb k, add_zero] at this
        exact this.symm
      rw [e1]
      have := v.iso_apply x k m p
      change v.iso x (v.idx (k, m, p)) = _ at this
      have h0 : x (k, m, p) = 0 := h2 hb k m p (e2 ▸ hc)
      rw [this, h0, mul_zero]

end Move

/-- The recorded data term of an iteration, in terms of the arrays. -/
theorem dfd_steps (hN : ∀ n, Nd n ≤ N n) (q : COpts) (D : Dict c M Nd) (S : Signal c K N) {mu rho : ℝ}
    (hr : 0 < mu + rho) (fe : Bool) (X0 Y0 U Y : Coef K M N) (h : Attr c K M Nd N a) (hc : Coh q D S (mu + rho) h) :
    dfd S fe Y (xstepEN mu rho X0 Y0 U h).2 =
      dataTerm D S (part (if fe then (xstepEN mu rho X0 Y0 U h).1 else Y)) := by
  cases fe
  · obtain ⟨Xf, rfl⟩ := hc
    exact dfd_eq hN D S Y _ fun _ _ => rfl
  · have hV : ∀ k m, (xstepEN mu rho X0 Y0 U h).2.Xf k m = rfft N a (part (xstepEN mu rho X0 Y0 U h).1 k m) := by
      intro k m
      rw [xstepEN_coh hc]
      funext ξ
      change solveF (mu + rho) rho Y0 U h k m ξ = _
      rw [solveF_coh hc]
      exact (congrFun (rf_xOf D S (mu + rho) rho hr Y0 U k m) ξ.1).symm
    obtain ⟨Xf, rfl⟩ := hc
    exact dfd_eq hN D S (xstepEN mu rho X0 Y0 U _).1 _ hV

theorem xstepEN_zero (rho : ℝ) (X Y U : Coef K M N) (h : Attr c K M Nd N a) :
    xstepEN 0 rho X Y U h = xstep rho X Y U h := by
  unfold xstepEN xstep
  simp

/-- A solver as left by the constructor, `setdict` or earlier `solve` calls: positive penalty parameter, attributes
computed from the dictionary. -/
def Ready (q : COpts) (D : Dict c M Nd) (S : Signal c K N)
    (s : St (Coef K M N) (Coef K M N) (Coef K M N) (Attr c K M Nd N a)) : Prop :=
  0 < s.rho ∧ ∃ Xf, s.extra = setdict q S s.rho D Xf

/-- The same for `ConvElasticNet`. -/
def ReadyEN (q : COpts) (mu : ℝ) (D : Dict c M Nd) (S : Signal c K N)
    (s : St (Coef K M N) (Coef K M N) (Coef K M N) (Attr c K M Nd N a)) : Prop :=
  0 < s.rho ∧ ∃ Xf, s.extra = setdictEN q S mu s.rho D Xf

theorem Move.gvar_move (v : Move c K M N) (ge : Bool) (X Y : Coef K M N) :
    Bpdn.gvar ge (v.iso X) (v.iso Y) = v.iso (Bpdn.gvar ge X Y) := by
  unfold Bpdn.gvar; cases ge <;> rfl

theorem paired_conv (hN : ∀ n, Nd n ≤ N n) (q : COpts) (h2 : q.noBndry = true → ∀ n, 2 ≤ Nd n)
    (v : Move c K M N) (hv : v.Allowed q) {D D' : Dict c M Nd} (hD : v.Dict D D') {S S' : Signal c K N}
    (hS : v.Signal S S') (lmbda : ℝ) (hl : 0 ≤ lmbda) {w w' : K × M × Grid N → ℝ} (hw : ∀ i, 0 ≤ w i)
    (hw' : ∀ i, 0 ≤ w' i) (hW : v.Weights w w') (fe ge : Bool) (o : Opts) :
    Paired (clsConvBPDN q S lmbda w fe ge)
      (lsProblem (convOp (padD N D)) (join S) (fun y : Coef K M N => lmbda * l1w w y.ofLp) (cset q Nd)
        (Bpdn.convex_l1w w hw _ (convex_cset q Nd) lmbda hl)) (Coh (a := a) q D S)
      (clsConvBPDN q S' lmbda w' fe ge)
      (lsProblem (convOp (padD N D')) (join S') (fun y : Coef K M N => lmbda * l1w w' y.ofLp) (cset q Nd)
        (Bpdn.convex_l1w w' hw' _ (convex_cset q Nd) lmbda hl)) (Coh (a := a) q D' S')
      v.iso v.iso v.iso o := by
  refine paired_equal v.iso
    (implements_conv q D S _ _ _ _ (fun _ _ _ _ _ _ => rfl) _ fun rho AX X Y U h hp =>
      ystep_conv_min q h2 hN lmbda hl w hw rho hp AX X Y U h)
    (implements_conv q D' S' _ _ _ _ (fun _ _ _ _ _ _ => rfl) _ fun rho AX X Y U h hp =>
      ystep_conv_min q h2 hN lmbda hl w' hw' rho hp AX X Y U h)
    (fun x => ?_) (fun y => ?_) (fun y => v.cset_move hv y) ?_
  · rw [← dataTerm_eq hN, ← dataTerm_eq hN, v.dataTerm_move hD hS]
  · simp only [v.l1w_move hW]
  · intro s s' hp hI hI' hr hX hY
    have hd : ∀ (S : Signal c K N) (D : Dict c M Nd) (w) (s : St (Coef K M N) (Coef K M N) (Coef K M N) _), 0 < s.rho →
        Coh (a := a) q D S s.rho s.extra →
        dfd S fe (steps (clsConvBPDN q S lmbda w fe ge) o s).Y (steps (clsConvBPDN q S lmbda w fe ge) o s).extra =
        dataTerm D S (part (if fe then (steps (clsConvBPDN q S lmbda w fe ge) o s).X else
          (steps (clsConvBPDN q S lmbda w fe ge) o s).Y)) := by
      intro S D w s hp hI
      have := dfd_steps (a := a) hN q D S (mu := 0) (rho := s.rho) (by linarith) fe s.X s.Y s.U
        (steps (clsConvBPDN q S lmbda w fe ge) o s).Y s.extra (by rw [zero_add]; exact hI)
      rw [xstepEN_zero] at this
      exact this
    have e1 := hd S D w s hp hI
    have e2 := hd S' D' w' s' (by rw [hr]; exact hp) (by rw [hr]; exact hI')
    have e3 : dfd S' fe (steps (clsConvBPDN q S' lmbda w' fe ge) o s').Y
        (steps (clsConvBPDN q S' lmbda w' fe ge) o s').extra =
        dfd S fe (steps (clsConvBPDN q S lmbda w fe ge) o s).Y (steps (clsConvBPDN q S lmbda w fe ge) o s).extra := by
      rw [e1, e2]
      change (steps (clsConvBPDN q S' lmbda w' fe ge) o s').X = _ at hX
      change (steps (clsConvBPDN q S' lmbda w' fe ge) o s').Y = _ at hY
      rw [hX, hY]
      cases fe
      · exact v.dataTerm_move hD hS _
      · exact v.dataTerm_move hD hS _
    have e4 : regL1 lmbda w' (Bpdn.gvar ge (steps (clsConvBPDN q S' lmbda w' fe ge) o s').X
        (steps (clsConvBPDN q S' lmbda w' fe ge) o s').Y) = regL1 lmbda w (Bpdn.gvar ge
        (steps (clsConvBPDN q S lmbda w fe ge) o s).X (steps (clsConvBPDN q S lmbda w fe ge) o s).Y) := by
      change (steps (clsConvBPDN q S' lmbda w' fe ge) o s').X = _ at hX
      change (steps (clsConvBPDN q S' lmbda w' fe ge) o s').Y = _ at hY
      rw [hX, hY, v.gvar_move]
      exact v.regL1_move hW lmbda _
    exact Prod.ext (congrArg₂ (· + ·) e3 e4) (Prod.ext e3 e4)

/-- **C84 for `ConvBPDN`.** Permute the signals, the filters and the channels, shift every signal circularly, negate
signals and filters (no negation with `NonNegCoef`, no shift with `NoBndryCross`), in the input, the weights and the
initial values. Then `solve()` returns, for any options with valid `AutoRho` parameters and any callback that decides
from the statistics, the arrays permuted, shifted and negated in the same way, after the same number of iterations,
with the same statistics, and so does every later call. -/
theorem C84_convbpdn (hN : ∀ n, Nd n ≤ N n) (q : COpts) (h2 : q.noBndry = true → ∀ n, 2 ≤ Nd n)
    (v : Move c K M N) (hv : v.Allowed q) (D D' : Dict c M Nd) (hD : v.Dict D D') (S S' : Signal c K N)
    (hS : v.Signal S S') (lmbda : ℝ) (hl : 0 ≤ lmbda) (w w' : K × M × Grid N → ℝ) (hw : ∀ i, 0 ≤ w i)
    (hW : v.Weights w w') (fe ge : Bool) (o : Opts) (ho : o.autoRho = true → o.RhoOk) (cb cb')
    (hcb : SameCallback cb cb') (s s' : St (Coef K M N) (Coef K M N) (Coef K M N) (Attr c K M Nd N a))
    (h : v.Same s s') (hs : Ready q D S s) (hs' : Ready q D' S' s') :
    v.Same (solve (clsConvBPDN q S lmbda w fe ge) o cb s) (solve (clsConvBPDN q S' lmbda w' fe ge) o cb' s') ∧
      Ready q D S (solve (clsConvBPDN q S lmbda w fe ge) o cb s) ∧
      Ready q D' S' (solve (clsConvBPDN q S' lmbda w' fe ge) o cb' s') ∧
      v.Signal (recon D (part (solve (clsConvBPDN q S lmbda w fe ge) o cb s).Y))
        (recon D' (part (solve (clsConvBPDN q S' lmbda w' fe ge) o cb' s').Y)) := by
  have hw' : ∀ i, 0 ≤ w' i := by
    intro i
    obtain ⟨⟨k, m, p⟩, rfl⟩ := v.idx.surjective i
    have : w' (v.idx (k, m, p)) = w (k, m, p) := hW k m p
    rw [this]; exact hw _
  have hi : Image (Coh (a := a) q D S) (Coh (a := a) q D' S') v.iso v.iso v.iso s s' :=
    ⟨(v.coefs_iff _ _).1 h.X, (v.coefs_iff _ _).1 h.Y, (v.coefs_iff _ _).1 h.U, h.rho, h.k, h.itstat, hs.1, hs.2,
      by have := hs'.2; rw [h.rho] at this; exact this⟩
  have t := solve_image (paired_conv (a := a) hN q h2 v hv hD hS lmbda hl hw hw' hW fe ge o) ho cb cb'
    (hcb.image _ _ _ _ _) hi
  refine ⟨⟨(v.coefs_iff _ _).2 t.X, (v.coefs_iff _ _).2 t.Y, (v.coefs_iff _ _).2 t.U, t.rho, t.k,
    t.itstat⟩, ⟨t.pos, t.inv⟩, ⟨by rw [t.rho]; exact t.pos, ?_⟩, ?_⟩
  · have := t.inv'
    rw [← t.rho] at this
    exact this
  · rw [t.Y]
    exact v.recon_move hD _

theorem paired_conven (hN : ∀ n, Nd n ≤ N n) (q : COpts) (hq : q.caches c = false)
    (h2 : q.noBndry = true → ∀ n, 2 ≤ Nd n)
    (v : Move c K M N) (hv : v.Allowed q) {D D' : Dict c M Nd} (hD : v.Dict D D') {S S' : Signal c K N}
    (hS : v.Signal S S') (lmbda mu : ℝ) (hl : 0 ≤ lmbda) (hm : 0 ≤ mu) {w w' : K × M × Grid N → ℝ}
    (hw : ∀ i, 0 ≤ w i) (hw' : ∀ i, 0 ≤ w' i) (hW : v.Weights w w') (fe ge : Bool) (o : Opts) :
    Paired (clsConvEN q S lmbda mu w fe ge)
      (lsProblem (cenL D mu) (cenB S) (fun y : Coef K M N => lmbda * l1w w y.ofLp) (cset q Nd)
        (Bpdn.convex_l1w w hw _ (convex_cset q Nd) lmbda hl)) (fun rho => Coh (a := a) q D S (mu + rho))
      (clsConvEN q S' lmbda mu w' fe ge)
      (lsProblem (cenL D' mu) (cenB S') (fun y : Coef K M N => lmbda * l1w w' y.ofLp) (cset q Nd)
        (Bpdn.convex_l1w w' hw' _ (convex_cset q Nd) lmbda hl)) (fun rho => Coh (a := a) q D' S' (mu + rho))
      v.iso v.iso v.iso o := by
  refine paired_equal v.iso (implements_conven q hq h2 hN D S lmbda mu hl hm w hw fe ge)
    (implements_conven q hq h2 hN D' S' lmbda mu hl hm w' hw' fe ge)
    (fun x => ?_) (fun y => ?_) (fun y => v.cset_move hv y) ?_
  · rw [cenL_norm D S mu hm, cenL_norm D' S' mu hm, ← dataTerm_eq hN, ← dataTerm_eq hN, v.dataTerm_move hD hS,
      v.iso.norm_map]
  · simp only [v.l1w_move hW]
  · intro s s' hp hI hI' hr hX hY
    have hd : ∀ (S : Signal c K N) (D : Dict c M Nd) (w) (s : St (Coef K M N) (Coef K M N) (Coef K M N) _), 0 < s.rho →
        Coh (a := a) q D S (mu + s.rho) s.extra →
        dfd S fe (steps (clsConvEN q S lmbda mu w fe ge) o s).Y (steps (clsConvEN q S lmbda mu w fe ge) o s).extra =
        dataTerm D S (part (if fe then (steps (clsConvEN q S lmbda mu w fe ge) o s).X else
          (steps (clsConvEN q S lmbda mu w fe ge) o s).Y)) := by
      intro S D w s hp hI
      exact dfd_steps (a := a) hN q D S (mu := mu) (rho := s.rho) (by linarith) fe s.X s.Y s.U
        (steps (clsConvEN q S lmbda mu w fe ge) o s).Y s.extra hI
    have e1 := hd S D w s hp hI
    have e2 := hd S' D' w' s' (by rw [hr]; exact hp) (by rw [hr]; exact hI')
    change (steps (clsConvEN q S' lmbda mu w' fe ge) o s').X = _ at hX
    change (steps (clsConvEN q S' lmbda mu w' fe ge) o s').Y = _ at hY
    have e3 : dfd S' fe (steps (clsConvEN q S' lmbda mu w' fe ge) o s').Y
        (steps (clsConvEN q S' lmbda mu w' fe ge) o s').extra =
        dfd S fe (steps (clsConvEN q S lmbda mu w fe ge) o s).Y
          (steps (clsConvEN q S lmbda mu w fe ge) o s).extra := by
      rw [e1, e2, hX, hY]
      cases fe
      · exact v.dataTerm_move hD hS _
      · exact v.dataTerm_move hD hS _
    have e4 : regL1 lmbda w' (Bpdn.gvar ge (steps (clsConvEN q S' lmbda mu w' fe ge) o s').X
        (steps (clsConvEN q S' lmbda mu w' fe ge) o s').Y) + mu * (1 / 2 * ‖Bpdn.gvar ge
          (steps (clsConvEN q S' lmbda mu w' fe ge) o s').X (steps (clsConvEN q S' lmbda mu w' fe ge) o s').Y‖ ^ 2) =
        regL1 lmbda w (Bpdn.gvar ge (steps (clsConvEN q S lmbda mu w fe ge) o s).X
          (steps (clsConvEN q S lmbda mu w fe ge) o s).Y) + mu * (1 / 2 * ‖Bpdn.gvar ge
          (steps (clsConvEN q S lmbda mu w fe ge) o s).X (steps (clsConvEN q S lmbda mu w fe ge) o s).Y‖ ^ 2) := by
      rw [hX, hY, v.gvar_move, v.iso.norm_map]
      congr 1
      exact v.regL1_move hW lmbda _
    exact Prod.ext (congrArg₂ (· + ·) e3 e4) (Prod.ext e3 e4)

/-- **C84 for `ConvElasticNet`**, when no component of the linear solver is cached. -/
theorem C84_convelasticnet (hN : ∀ n, Nd n ≤ N n) (q : COpts) (hq : q.caches c = false)
    (h2 : q.noBndry = true → ∀ n, 2 ≤ Nd n)
    (v : Move c K M N) (hv : v.Allowed q) (D D' : Dict c M Nd) (hD : v.Dict D D') (S S' : Signal c K N)
    (hS : v.Signal S S') (lmbda mu : ℝ) (hl : 0 ≤ lmbda) (hm : 0 ≤ mu) (w w' : K × M × Grid N → ℝ)
    (hw : ∀ i, 0 ≤ w i) (hW : v.Weights w w') (fe ge : Bool) (o : Opts) (ho : o.autoRho = true → o.RhoOk) (cb cb')
    (hcb : SameCallback cb cb') (s s' : St (Coef K M N) (Coef K M N) (Coef K M N) (Attr c K M Nd N a))
    (h : v.Same s s') (hs : ReadyEN q mu D S s) (hs' : ReadyEN q mu D' S' s') :
    v.Same (solve (clsConvEN q S lmbda mu w fe ge) o cb s) (solve (clsConvEN q S' lmbda mu w' fe ge) o cb' s') ∧
      ReadyEN q mu D S (solve (clsConvEN q S lmbda mu w fe ge) o cb s) ∧
      ReadyEN q mu D' S' (solve (clsConvEN q S' lmbda mu w' fe ge) o cb' s') ∧
      v.Signal (recon D (part (solve (clsConvEN q S lmbda mu w fe ge) o cb s).Y))
        (recon D' (part (solve (clsConvEN q S' lmbda mu w' fe ge) o cb' s').Y)) := by
  have hw' : ∀ i, 0 ≤ w' i := by
    intro i
    obtain ⟨⟨k, m, p⟩, rfl⟩ := v.idx.surjective i
    have : w' (v.idx (k, m, p)) = w (k, m, p) := hW k m p
    rw [this]; exact hw _
  have hi : Image (fun rho => Coh (a := a) q D S (mu + rho)) (fun rho => Coh (a := a) q D' S' (mu + rho)) v.iso v.iso
      v.iso s s' :=
    ⟨(v.coefs_iff _ _).1 h.X, (v.coefs_iff _ _).1 h.Y, (v.coefs_iff _ _).1 h.U, h.rho, h.k, h.itstat, hs.1, hs.2,
      by have := hs'.2; rw [h.rho] at this; exact this⟩
  have t := solve_image (paired_conven (a := a) hN q hq h2 v hv hD hS lmbda mu hl hm hw hw' hW fe ge o) ho cb cb'
    (hcb.image _ _ _ _ _) hi
  refine ⟨⟨(v.coefs_iff _ _).2 t.X, (v.coefs_iff _ _).2 t.Y, (v.coefs_iff _ _).2 t.U, t.rho, t.k,
    t.itstat⟩, ⟨t.pos, t.inv⟩, ⟨by rw [t.rho]; exact t.pos, ?_⟩, ?_⟩
  · have := t.inv'
    rw [← t.rho] at this
    exact this
  · rw [t.Y]
    exact v.recon_move hD _

/-! ## The hypotheses can be met -/

/-- Every change of the input meets the hypotheses for some second problem. -/
theorem move_exists (v : Move c K M N) (D : Dict c M Nd) (S : Signal c K N) (w : K × M × Grid N → ℝ) (X : Coef K M N) :
    ∃ D' S' w' X', v.Dict D D' ∧ v.Signal S S' ∧ v.Weights w w' ∧ v.Coefs X X' :=
  ⟨fun i m j => v.fsign (v.filts.symm m) * D (v.chans.symm i) (v.filts.symm m) j,
    fun i k p => v.ssign (v.sigs.symm k) * S (v.chans.symm i) (v.sigs.symm k) (p - v.shift (v.sigs.symm k)),
    fun j => w (v.idx.symm j), v.iso X, fun i m j => by simp, fun i k p => by simp,
    fun k m p => by
      have : v.idx.symm (v.sigs k, v.filts m, p + v.shift k) = (k, m, p) := v.idx.symm_apply_apply (k, m, p)
      simp only [this], (v.coefs_iff _ _).2 rfl⟩

/-- The circular shift of all signals by `t`. -/
def Move.translate (t : Grid N) : Move c K M N where
  sigs := Equiv.refl _
  filts := Equiv.refl _
  chans := Equiv.refl _
  shift _ := t
  fsign _ := 1
  ssign _ := 1
  fsign_ok _ := Or.inl rfl
  ssign_ok _ := Or.inl rfl

/-- A circular shift is allowed with all options except `NoBndryCross`. -/
theorem translate_allowed (t : Grid N) (q : COpts) (hq : q.noBndry = false) :
    (Move.translate t : Move c K M N).Allowed q :=
  ⟨fun _ => ⟨fun _ => rfl, fun _ => rfl⟩, fun h => by rw [hq] at h; exact absurd h (by simp)⟩

/-- What a circular shift means for signals and coefficient maps. -/
theorem translate_iff (t : Grid N) (S S' : Signal c K N) (X X' : Coef K M N) :
    ((Move.translate t : Move c K M N).Signal S S' ↔ ∀ i k p, S' i k (p + t) = S i k p) ∧
    ((Move.translate t : Move c K M N).Coefs X X' ↔ ∀ k m p, X' (k, m, p + t) = X (k, m, p)) := by
  constructor <;> simp [Move.Signal, Move.Coefs, Move.translate]

end Sporco.Conv
