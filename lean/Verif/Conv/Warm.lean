import Verif.Admm.Warm
import Verif.Admm.Rpca
import Verif.Conv.Ccmod
import Verif.Conv.ProjL1
import Verif.Spline.L1
import Verif.Tv.DeconvConv

/-!
# Warm starts of further classes (C91)
-/

set_option autoImplicit false
set_option linter.unusedSectionVars false

namespace Sporco.Conv

open Sporco.Linalg Sporco.Prox Sporco.Admm Sporco.Conv.Prj Sporco.Conv.Mod

variable {d c κ Nb : ℕ} {N Nd : Fin d → ℕ} [∀ k, NeZero (N k)] {a : Fin d} {A K L M : Type*} [Fintype A] [Fintype K]
  [Fintype L] [Fintype M]

theorem forgets_conv (q : COpts) (D : Dict c M Nd) (S : Signal c K N)
    (ys : ℝ → Coef K M N → Coef K M N → Coef K M N → Coef K M N → Attr c K M Nd N a →
      Coef K M N × Attr c K M Nd N a) (ob) :
    Forgets (Cls.equal xstep ys (rhochange q) ob) (Coh q D S) := by
  rintro rho X X' Y U h h' _ ⟨Xf, rfl⟩ ⟨Xf', rfl⟩
  rfl

/-- **C91 for `ConvBPDN`.** A solver constructed with the options `Y0`, `U0` and `rho` set to the values in another one
continues its run: the variables are those that a further call of `solve()` on the first solver gives, as are the number
of iterations and the records but for the iteration number. Either `AutoRho` is off in the further calls, or the first
solver has stopped at a multiple of its period, which is not 1. (`rho` was given to the constructor of the first
solver also, see C43 for what happens otherwise.) -/
theorem C91_convbpdn (q : COpts) (D : Dict c M Nd) (S : Signal c K N) (lmbda : ℝ) (w : K × M × Grid N → ℝ)
    (fe ge : Bool) (o₁ o₂ : Opts) (h₁ : o₁.autoRho = true → o₁.RhoOk) (h₂ : o₂.autoRho = true → o₂.RhoOk)
    (hm : 1 ≤ o₂.maxMainIter) (x x' ax ax' y u : Coef K M N) (Xf Xf' : Spec K M N a) (rho : ℝ) (hp : 0 < rho) :
    let C : Cls _ _ _ (Attr c K M Nd N a) := clsConvBPDN q S lmbda w fe ge
    let s := solve C o₁ none (construct x ax rho y u (setdict q S rho D Xf))
    let s' := construct x' ax' s.rho s.Y s.U (setdict q S s.rho D Xf')
    InPhase o₂ s.k → Continues s.k s.itstat (solve C o₂ none s) (solve C o₂ none s') := by
  intro C s s' hn
  have hk : Keeps C (Coh q D S) := keeps_conv q D S _ (fun _ _ _ _ _ _ => rfl) _
  obtain ⟨h1, h2⟩ := solve_keeps hk h₁ (construct x ax rho y u (setdict q S rho D Xf)) hp ⟨Xf, rfl⟩
  exact solve_warm hk (forgets_conv q D S _ _) h₂ hm hn h1 h2 _ _ _ ⟨Xf', rfl⟩

/-- **C91 for `ConvBPDNJoint`.** -/
theorem C91_convbpdnjoint (q : COpts) (D : Dict c M Nd) (S : Signal c (L × K) N) (lmbda mu wl21 : ℝ)
    (w : (L × K) × M × Grid N → ℝ) (fe ge : Bool) (o₁ o₂ : Opts) (h₁ : o₁.autoRho = true → o₁.RhoOk)
    (h₂ : o₂.autoRho = true → o₂.RhoOk) (hm : 1 ≤ o₂.maxMainIter) (x x' ax ax' y u : Coef (L × K) M N)
    (Xf Xf' : Spec (L × K) M N a) (rho : ℝ) (hp : 0 < rho) :
    let C : Cls _ _ _ (Attr c (L × K) M Nd N a) := clsConvJnt q S lmbda mu w wl21 fe ge
    let s := solve C o₁ none (construct x ax rho y u (setdict q S rho D Xf))
    let s' := construct x' ax' s.rho s.Y s.U (setdict q S s.rho D Xf')
    InPhase o₂ s.k → Continues s.k s.itstat (solve C o₂ none s) (solve C o₂ none s') := by
  intro C s s' hn
  have hk : Keeps C (Coh q D S) := keeps_conv q D S _ (fun _ _ _ _ _ _ => rfl) _
  obtain ⟨h1, h2⟩ := solve_keeps hk h₁ (construct x ax rho y u (setdict q S rho D Xf)) hp ⟨Xf, rfl⟩
  exact solve_warm hk (forgets_conv q D S _ _) h₂ hm hn h1 h2 _ _ _ ⟨Xf', rfl⟩

/-- **C91 for `ConvBPDNProjL1`.** -/
theorem C91_convbpdnprojl1 {n : ℕ} (e : L × M × Grid N ≃ Fin n) (q : COpts) (D : Dict c M Nd) (S : Signal c (L × K) N)
    (gamma : ℝ) (fe ge : Bool) (o₁ o₂ : Opts) (h₁ : o₁.autoRho = true → o₁.RhoOk)
    (h₂ : o₂.autoRho = true → o₂.RhoOk) (hm : 1 ≤ o₂.maxMainIter) (x x' ax ax' y u : Coef (L × K) M N)
    (Xf Xf' : Spec (L × K) M N a) (rho : ℝ) (hp : 0 < rho) :
    let C : Cls _ _ _ (Attr c (L × K) M Nd N a) := clsConvPrj e q S gamma fe ge
    let s := solve C o₁ none (construct x ax rho y u (setdict q S rho D Xf))
    let s' := construct x' ax' s.rho s.Y s.U (setdict q S s.rho D Xf')
    InPhase o₂ s.k → Continues s.k s.itstat (solve C o₂ none s) (solve C o₂ none s') := by
  intro C s s' hn
  have hk : Keeps C (Coh q D S) := keeps_conv q D S _ (fun _ _ _ _ _ _ => rfl) _
  obtain ⟨h1, h2⟩ := solve_keeps hk h₁ (construct x ax rho y u (setdict q S rho D Xf)) hp ⟨Xf, rfl⟩
  exact solve_warm hk (forgets_conv q D S _ _) h₂ hm hn h1 h2 _ _ _ ⟨Xf', rfl⟩

/-- **C91 for `ConvCnstrMOD_IterSM`.** -/
theorem C91_ccmod_ism (Pcn : Coef A M N → Coef A M N) (S : A → Fin (κ + 1) → Grid N → ℝ)
    (Z : Fin (κ + 1) → M → Grid N → ℝ) (fe ge : Bool) (o₁ o₂ : Opts) (h₁ : o₁.autoRho = true → o₁.RhoOk)
    (h₂ : o₂.autoRho = true → o₂.RhoOk) (hm : 1 ≤ o₂.maxMainIter) (x x' ax ax' y u : Coef A M N)
    (Xf Xf' : Spec A M N a) (rho : ℝ) (hp : 0 < rho) :
    let C : Cls _ _ _ (AttrD A (Fin (κ + 1)) M N a) := clsISM Pcn S fe ge
    let s := solve C o₁ none (construct x ax rho y u (setcoef S Z Xf))
    let s' := construct x' ax' s.rho s.Y s.U (setcoef S Z Xf')
    InPhase o₂ s.k → Continues s.k s.itstat (solve C o₂ none s) (solve C o₂ none s') := by
  intro C s s' hn
  have hk : Keeps C (fun _ h => CohD S Z h) := keeps_ism Pcn S Z fe ge
  obtain ⟨h1, h2⟩ := solve_keeps hk h₁ (construct x ax rho y u (setcoef S Z Xf)) hp ⟨Xf, rfl⟩
  refine solve_warm hk ?_ h₂ hm hn h1 h2 _ _ _ ⟨Xf', rfl⟩
  rintro rho X X' Y U h h' _ ⟨Xf, rfl⟩ ⟨Xf', rfl⟩
  rfl

/-- **C91 for `ConvCnstrMOD_Consensus`.** -/
theorem C91_ccmod_cns (Pcn : Coef A M N → Coef A M N) (S : A → Fin Nb → Grid N → ℝ)
    (Z : Fin Nb → M → Grid N → ℝ) (fe ge : Bool) (o₁ o₂ : Opts) (h₁ : o₁.autoRho = true → o₁.RhoOk)
    (h₂ : o₂.autoRho = true → o₂.RhoOk) (hm : 1 ≤ o₂.maxMainIter) (x x' ax ax' u : Blocks (Coef A M N) Nb)
    (y : Coef A M N) (Xf Xf' : Fin Nb → Spec A M N a) (rho : ℝ) (hp : 0 < rho) :
    let C : Cls _ _ _ (AttrC A Nb M N a) := clsCns Pcn S fe ge
    let s := solve C o₁ none (construct x ax rho y u (setcoefC S Z Xf))
    let s' := construct x' ax' s.rho s.Y s.U (setcoefC S Z Xf')
    InPhase o₂ s.k → Continues s.k s.itstat (solve C o₂ none s) (solve C o₂ none s') := by
  intro C s s' hn
  have hk : Keeps C (fun _ h => CohC S Z h) := keeps_cns Pcn S Z fe ge
  obtain ⟨h1, h2⟩ := solve_keeps hk h₁ (construct x ax rho y u (setcoefC S Z Xf)) hp ⟨Xf, rfl⟩
  refine solve_warm hk ?_ h₂ hm hn h1 h2 _ _ _ ⟨Xf', rfl⟩
  rintro rho X X' Y U h h' _ ⟨Xf, rfl⟩ ⟨Xf', rfl⟩
  rfl

end Sporco.Conv

namespace Sporco.Admm.Rpca

variable {m n : ℕ}

/-- **C91 for `RobustPCA`.** -/
theorem C91_rpca (svd : Svd m n) (S : Arr m n) (lmbda : ℝ) (fe ge : Bool) (o₁ o₂ : Opts)
    (h₁ : o₁.autoRho = true → o₁.RhoOk) (h₂ : o₂.autoRho = true → o₂.RhoOk) (hm : 1 ≤ o₂.maxMainIter)
    (x x' ax ax' y u : Arr m n) (ss ss' : Attr m n) (rho : ℝ) (hp : 0 < rho) :
    let C := cls svd S lmbda fe ge
    let s := solve C o₁ none (construct x ax rho y u ss)
    let s' := construct x' ax' s.rho s.Y s.U ss'
    InPhase o₂ s.k → Continues s.k s.itstat (solve C o₂ none s) (solve C o₂ none s') := by
  intro C s s' hn
  have hk : Keeps C (fun _ _ => True) :=
    ⟨generic_sane _ _ _ _ _ _ _ _, fun _ _ _ _ _ _ _ => trivial, fun _ _ _ _ _ _ _ _ => trivial,
      fun _ _ _ _ _ _ => trivial⟩
  obtain ⟨h1, -⟩ := solve_keeps hk h₁ (construct x ax rho y u ss) hp trivial
  refine solve_warm hk ?_ h₂ hm hn h1 trivial _ _ _ trivial
  intro rho X X' Y U h h' _ _ _
  rfl

end Sporco.Admm.Rpca

namespace Sporco.Spline

open Sporco.Admm

variable {d : ℕ} {n : Fin d → ℕ}

/-- **C91 for `SplineL1`.** -/
theorem C91_splinel1 (axes : List (Fin d)) (S : V n) (lmbda : ℝ) (Wdf : Arr n) (ge : Bool) (o₁ o₂ : Opts)
    (h₁ : o₁.autoRho = true → o₁.RhoOk) (h₂ : o₂.autoRho = true → o₂.RhoOk) (hm : 1 ≤ o₂.maxMainIter)
    (x x' ax ax' y u : V n) (rho : ℝ) (hp : 0 < rho) :
    let C := clsSpline axes S lmbda Wdf ge
    let s := solve C o₁ none (construct x ax rho y u (Gamma axes lmbda rho))
    let s' := construct x' ax' s.rho s.Y s.U (Gamma axes lmbda s.rho)
    InPhase o₂ s.k → Continues s.k s.itstat (solve C o₂ none s) (solve C o₂ none s') := by
  intro C s s' hn
  have hk := keeps_spline axes S lmbda Wdf ge
  obtain ⟨h1, h2⟩ := solve_keeps hk h₁ (construct x ax rho y u (Gamma axes lmbda rho)) hp rfl
  refine solve_warm hk ?_ h₂ hm hn h1 h2 _ _ _ rfl
  rintro rho X X' Y U h h' _ rfl rfl
  rfl

end Sporco.Spline

namespace Sporco.Tv.Dec

open Sporco.Admm Sporco.Conv

variable {d : ℕ} {N Nd : Fin d → ℕ} [∀ k, NeZero (N k)] {a : Fin d} {γ χ : Type*} [Fintype γ] [Fintype χ]

/-- **C91 for `TVL2Deconv`.** -/
theorem C91_tvl2deconv (A : γ × χ → NArr Nd ℝ) (S : γ × χ → Grid N → ℝ) (lmbda : ℝ) (w : γ → Grid N → ℝ) (ge : Bool)
    (o₁ o₂ : Opts) (h₁ : o₁.autoRho = true → o₁.RhoOk) (h₂ : o₂.autoRho = true → o₂.RhoOk) (hm : 1 ≤ o₂.maxMainIter)
    (x x' : ImgD γ χ N) (ax ax' y u : GradD γ χ N) (Xf Xf' : γ × χ → Half N a → ℂ) (rho : ℝ) (hp : 0 < rho) :
    let C : Cls _ _ _ (γ × χ → Half N a → ℂ) := clsL2 A S lmbda w ge
    let s := solve C o₁ none (construct x ax rho y u Xf)
    let s' := construct x' ax' s.rho s.Y s.U Xf'
    InPhase o₂ s.k → Continues s.k s.itstat (solve C o₂ none s) (solve C o₂ none s') := by
  intro C s s' hn
  have hk := keeps_L2 (a := a) A S lmbda w ge
  obtain ⟨h1, h2⟩ := solve_keeps hk h₁ (construct x ax rho y u Xf) hp trivial
  refine solve_warm hk ?_ h₂ hm hn h1 h2 _ _ _ trivial
  intro rho X X' Y U h h' _ _ _
  rfl

end Sporco.Tv.Dec
