import Verif.Dictlrn.Online
import Mathlib.Analysis.Calculus.Deriv.Pow
import Mathlib.Analysis.Calculus.Deriv.Add
import Mathlib.Analysis.Calculus.Deriv.Mul

/-!
# The dictionary update of online dictionary learning (C65)
-/

set_option autoImplicit false

namespace Sporco.Dictlrn

open Finset ComplexConjugate Sporco.Conv Sporco.Cnvrep

variable {d : ℕ}

/-! ## Specification -/

/-- The entry of the mask (one if there is none). -/
def msk (s : Sample d) (c k : ℕ) (p : Grid s.N) : ℝ := match s.W with
  | none => 1
  | some W => W c k p

/-- The data fidelity term of (masked) convolutional sparse coding as a function of the dictionary (filters
extended to the size of the signal): a dictionary with one channel applies to each channel of the signal. -/
noncomputable def fid (Cd M : ℕ) (s : Sample d) (Z : Maps s) (E : ℕ → ℕ → Grid s.N → ℝ) : ℝ :=
  1 / 2 * ∑ c ∈ range s.C, ∑ k ∈ range s.K, ∑ p, (msk s c k p *
    (∑ m ∈ range M, rconv (Z (if Cd = 1 then c else 0) k m) (E (if Cd = 1 then 0 else c) m) p - s.S c k p)) ^ 2

/-- `g` is the gradient of `f` at `D`. -/
def IsGrad {N : Fin d → ℕ} [∀ k, NeZero (N k)] (Cd M : ℕ) (f : (ℕ → ℕ → Grid N → ℝ) → ℝ) (D g : ℕ → ℕ → Grid N → ℝ) : Prop :=
  ∀ E : ℕ → ℕ → Grid N → ℝ, HasDerivAt (fun t : ℝ => f fun i m p => D i m p + t * E i m p)
    (∑ i ∈ range Cd, ∑ m ∈ range M, ∑ p, g i m p * E i m p) 0

/-- The step of projected gradient descent documented for the class: from `st` with step size `eta`, for the
coefficient maps `Z`, to `D`. -/
def ProjGrad (P : Prm d) (D : Arr (d + 2 + 1)) (eta : ℝ) (s : Sample d) (Z : Maps s) (D' : Arr (d + 2 + 1)) : Prop :=
  ∃ g, IsGrad P.Cd P.M (fid P.Cd P.M s Z) (padG D s.N) g ∧
    Pcn (gArr s.N P.Cd P.M fun i m p => padG D s.N i m p - eta * g i m p) P.dsz [] d P.dimC true P.zm = some D'

/-! ## The computed array in the spatial domain -/

/-- Residual, as computed. -/
def res (P : Prm d) (D : Arr (d + 2 + 1)) (s : Sample d) (Kz : ℕ) (Z : ℕ → ℕ → Grid s.N → ℝ) (i k : ℕ) (p : Grid s.N) : ℝ :=
  ∑ m ∈ range P.M, rconv (Z (bidx Kz k) m) (padG D s.N (bidx P.Cd i) m) p - s.S (bidx s.C i) (bidx s.K k) p

/-- Gradient array, as computed. -/
def gtime (P : Prm d) (D : Arr (d + 2 + 1)) (s : Sample d) (Kz Kr : ℕ) (Z : ℕ → ℕ → Grid s.N → ℝ) (i m : ℕ) (p : Grid s.N) : ℝ :=
  ∑ k ∈ range Kr, rcorr (Z (bidx Kz k) m)
    (fun q => msk s (bidx s.C i) (bidx s.K k) q * res P D s Kz Z i k q) p

theorem rf_sub' {N : Fin d → ℕ} [∀ k, NeZero (N k)] {a : Fin d} (x : Grid N → ℝ) (y : Grid N → ℝ) :
    irfft N a (fun ξ => rfft N a x ξ - rfft N a y ξ) = fun p => x p - y p := by
  rw [← irfft_rfft a fun p => x p - y p]
  congr 1
  funext ξ
  exact (rf_sub x y ξ.1).symm

/-- What `gradStep` computes. -/
theorem gradStep_eq {P : Prm d} {a : Fin d} {D : Arr (d + 2 + 1)} {eta : ℝ} {r : Cri d} {s : Sample d} {Kz : ℕ}
    {Z : ℕ → ℕ → Grid s.N → ℝ} {Cr Kr : ℕ} (hC : bshape P.Cd s.C = some Cr) (hK : bshape Kz s.K = some Kr) :
    gradStep P a D eta r s Kz Z = some fun i m p => padG D s.N i m p - eta *
      (if 1 < r.C ∧ P.Cd = 1 then ∑ i ∈ range Cr, gtime P D s Kz Kr Z i m p else gtime P D s Kz Kr Z i m p) := by
  have hR : ∀ i k, (fun ξ => ∑ m ∈ range P.M, rfft s.N a (Z (bidx Kz k) m) ξ * rfft s.N a (padG D s.N (bidx P.Cd i) m) ξ -
      rfft s.N a (s.S (bidx s.C i) (bidx s.K k)) ξ) = rfft s.N a (res P D s Kz Z i k) := by
    intro i k
    funext ξ
    change _ = rf _ ξ.1
    unfold res
    rw [rf_sub, rf_sum]
    simp only [rf_rconv]
    rfl
  have hg : ∀ i m, (fun ξ => ∑ k ∈ range Kr, conj (rfft s.N a (Z (bidx Kz k) m) ξ) * rfft s.N a
      (fun q => msk s (bidx s.C i) (bidx s.K k) q * res P D s Kz Z i k q) ξ) =
      rfft s.N a (gtime P D s Kz Kr Z i m) := by
    intro i m
    funext ξ
    change _ = rf _ ξ.1
    unfold gtime
    rw [rf_sum]
    simp only [rf_rcorr]
    rfl
  have hW : maskF a s (fun i k => rfft s.N a (res P D s Kz Z i k)) =
      fun i k => rfft s.N a (fun q => msk s (bidx s.C i) (bidx s.K k) q * res P D s Kz Z i k q) := by
    funext i k
    unfold msk maskF
    cases s.W with
    | none => simp only [one_mul]
    | some W => simp only [irfft_rfft]
  have key : ∀ (h : ℕ → ℕ → Grid s.N → ℝ) i m, irfft s.N a (fun ξ => rfft s.N a (padG D s.N i m) ξ - eta * rfft s.N a (h i m) ξ) =
      fun p => padG D s.N i m p - eta * h i m p := by
    intro h i m
    rw [← rf_sub' (a := a)]
    congr 1
    funext ξ
    congr 1
    exact (rf_smul eta (h i m) ξ.1).symm
  have hR' : (fun i k ξ => ∑ m ∈ range P.M, rfft s.N a (Z (bidx Kz k) m) ξ * rfft s.N a (padG D s.N (bidx P.Cd i) m) ξ -
      rfft s.N a (s.S (bidx s.C i) (bidx s.K k)) ξ) = fun i k => rfft s.N a (res P D s Kz Z i k) := by
    funext i k
    exact hR i k
  unfold gradStep
  rw [hC, hK]
  dsimp only
  rw [hR', hW]
  split_ifs with hc
  · refine congrArg some ?_
    funext i m
    have e : (fun ξ => ∑ i ∈ range Cr, ∑ k ∈ range Kr, conj (rfft s.N a (Z (bidx Kz k) m) ξ) * rfft s.N a
      (fun q => msk s (bidx s.C i) (bidx s.K k) q * res P D s Kz Z i k q) ξ) =
        rfft s.N a fun p => ∑ i ∈ range Cr, gtime P D s Kz Kr Z i m p := by
      funext ξ
      change _ = rf _ ξ.1
      rw [rf_sum]
      exact sum_congr rfl fun i _ => congrFun (hg i m) ξ
    rw [← key (fun _ m p => ∑ i ∈ range Cr, gtime P D s Kz Kr Z i m p) i m, ← e]
  · refine congrArg some ?_
    funext i m
    rw [← key (gtime P D s Kz Kr Z) i m, ← hg]

/-! ## The gradient -/

theorem rconv_lin {N : Fin d → ℕ} [∀ k, NeZero (N k)] (h x y : Grid N → ℝ) (t : ℝ) (p : Grid N) :
    rconv h (fun p => x p + t * y p) p = rconv h x p + t * rconv h y p := by
  unfold rconv
  rw [mul_sum, ← sum_add_distrib]
  exact sum_congr rfl fun _ _ => by ring

/-- The gradient of the fidelity term if signal and dictionary have the same number of channels. -/
theorem grad_fid {Cd M : ℕ} (s : Sample d) (hC : s.C = Cd) (Z : Maps s) (D : ℕ → ℕ → Grid s.N → ℝ) :
    IsGrad Cd M (fid Cd M s Z) D fun i m p => ∑ k ∈ range s.K, rcorr (Z 0 k m) (fun q => msk s i k q ^ 2 *
      (∑ m ∈ range M, rconv (Z 0 k m) (D i m) q - s.S i k q)) p := by
  subst hC
  intro E
  have hz : ∀ c ∈ range s.C, (if s.C = 1 then c else 0) = 0 ∧ (if s.C = 1 then 0 else c) = c := by
    intro c hc
    rw [mem_range] at hc
    split_ifs with h
    · omega
    · simp
  have hf : (fun t : ℝ => fid s.C M s Z fun i m p => D i m p + t * E i m p) = fun t => 1 / 2 *
      ∑ c ∈ range s.C, ∑ k ∈ range s.K, ∑ p, (msk s c k p * ((∑ m ∈ range M, rconv (Z 0 k m) (D c m) p - s.S c k p) +
        t * ∑ m ∈ range M, rconv (Z 0 k m) (E c m) p)) ^ 2 := by
    funext t
    unfold fid
    congr 1
    refine sum_congr rfl fun c hc => sum_congr rfl fun k _ => sum_congr rfl fun p _ => ?_
    rw [(hz c hc).1, (hz c hc).2]
    simp only [rconv_lin, sum_add_distrib, ← mul_sum]
    ring
  rw [hf]
  have h1 : ∀ c k p, HasDerivAt (fun t : ℝ => (msk s c k p * ((∑ m ∈ range M, rconv (Z 0 k m) (D c m) p - s.S c k p) +
        t * ∑ m ∈ range M, rconv (Z 0 k m) (E c m) p)) ^ 2)
      (2 * (msk s c k p ^ 2 * (∑ m ∈ range M, rconv (Z 0 k m) (D c m) p - s.S c k p) *
        ∑ m ∈ range M, rconv (Z 0 k m) (E c m) p)) 0 := by
    intro c k p
    generalize ∑ m ∈ range M, rconv (Z 0 k m) (D c m) p - s.S c k p = u
    generalize ∑ m ∈ range M, rconv (Z 0 k m) (E c m) p = v
    have h2 : HasDerivAt (fun t : ℝ => msk s c k p * (u + t * v)) (msk s c k p * (1 * v)) 0 :=
      (((hasDerivAt_id (0 : ℝ)).mul_const v).const_add u).const_mul _
    have h3 := h2.fun_pow 2
    refine h3.congr_deriv ?_
    simp
    ring
  have h3 := fun c k => HasDerivAt.fun_sum (u := univ) fun p _ => h1 c k p
  have h4 := fun c => HasDerivAt.fun_sum (u := range s.K) fun k _ => h3 c k
  have h2 := (HasDerivAt.fun_sum (u := range s.C) fun c _ => h4 c).const_mul (1 / 2 : ℝ)
  refine h2.congr_deriv ?_
  rw [mul_sum]
  refine sum_congr rfl fun c _ => ?_
  have e : ∀ m, ∑ p, (∑ k ∈ range s.K, rcorr (Z 0 k m) (fun q => msk s c k q ^ 2 *
      (∑ m ∈ range M, rconv (Z 0 k m) (D c m) q - s.S c k q)) p) * E c m p =
      ∑ k ∈ range s.K, ∑ p, rconv (Z 0 k m) (E c m) p * (msk s c k p ^ 2 *
        (∑ m ∈ range M, rconv (Z 0 k m) (D c m) p - s.S c k p)) := by
    intro m
    simp only [sum_mul]
    rw [sum_comm]
    refine sum_congr rfl fun k _ => ?_
    rw [sum_rconv_mul]
    exact sum_congr rfl fun p _ => mul_comm _ _
  simp only [e]
  rw [mul_sum]
  conv_rhs => rw [sum_comm]
  refine sum_congr rfl fun k _ => ?_
  rw [mul_sum]
  conv_rhs => rw [sum_comm]
  refine sum_congr rfl fun p _ => ?_
  rw [← sum_mul]
  ring

/-- A gradient is determined by the function. -/
theorem IsGrad.unique {N : Fin d → ℕ} [∀ k, NeZero (N k)] {Cd M : ℕ} {f : (ℕ → ℕ → Grid N → ℝ) → ℝ}
    {D g g' : ℕ → ℕ → Grid N → ℝ} (h : IsGrad Cd M f D g) (h' : IsGrad Cd M f D g') (i m : ℕ) (hi : i < Cd)
    (hm : m < M) (p : Grid N) : g i m p = g' i m p := by
  classical
  have e : ∀ g : ℕ → ℕ → Grid N → ℝ, ∑ i' ∈ range Cd, ∑ m' ∈ range M, ∑ p', g i' m' p' *
      (if i' = i then if m' = m then if p' = p then 1 else 0 else 0 else 0 : ℝ) = g i m p := by
    intro g
    simp only [mul_ite, mul_one, mul_zero]
    rw [sum_eq_single_of_mem i (mem_range.2 hi), sum_eq_single_of_mem m (mem_range.2 hm)]
    · simp
    · intro m' _ h1
      simp [h1]
    · intro i' _ h1
      simp [h1]
  have := (h fun i' m' p' => if i' = i then if m' = m then if p' = p then 1 else 0 else 0 else 0).unique (h' _)
  rwa [e, e] at this

/-! ## The step -/

/-- The mask is a mask: zeros and ones. -/
def ZeroOne (s : Sample d) : Prop := ∀ c k p, msk s c k p = 0 ∨ msk s c k p = 1

theorem bidx_of_lt {n i : ℕ} (h : i < n) : bidx n i = i := by
  unfold bidx
  split_ifs
  · omega
  · rfl

theorem IsGrad.congr {N : Fin d → ℕ} [∀ k, NeZero (N k)] {Cd M : ℕ} {f : (ℕ → ℕ → Grid N → ℝ) → ℝ}
    {D g g' : ℕ → ℕ → Grid N → ℝ} (h : IsGrad Cd M f D g) (e : ∀ i < Cd, ∀ m < M, g i m = g' i m) :
    IsGrad Cd M f D g' := by
  intro E
  refine (h E).congr_deriv (sum_congr rfl fun i hi => sum_congr rfl fun m hm => ?_)
  rw [e i (mem_range.1 hi) m (mem_range.1 hm)]

open Classical in
/-- One step, if the shapes known to the object are those of the sample. -/
theorem step_full {P : Prm d} {a : Fin d} {st st' : St d} {s : Sample d} (h : solve P a st s = some st')
    (hC : s.C = P.Cd) (hW : ZeroOne s) (hrC : (initCri st.cri s).C = s.C)
    (hrK : (initCri st.cri s).K = s.K) :
    ∃ g, IsGrad P.Cd P.M (fid P.Cd P.M s (P.code st.D s)) (padG st.D s.N) g ∧
      let X := gArr s.N P.Cd P.M fun i m p => padG st.D s.N i m p - etaOf P st.j * g i m p
      Pcn X P.dsz [] d P.dimC true P.zm = some st'.D ∧ st'.D.sh = st.D.sh ∧
      ∃ e, e.iter = st.j ∧ e.eta = etaOf P st.j ∧ st'.itstat = st.itstat ++ [e] ∧
        e.deltaD = arrNorm st'.D.sh (fun p => st'.D.get p - st.D.get p) ∧
        e.cnstr = arrNorm X.sh (fun p => (if st'.D.In p then st'.D.get p else 0) - X.get p) := by
  obtain ⟨Kz, Z, G, D, -, h1, h2, h3, h4, -, h6, -, -, e, e1, e2, e3, e4, e5⟩ := solve_some h
  have hz : Kz = s.K ∧ ∀ k, k < s.K → Z k = P.code st.D s 0 k := by
    unfold setcoef at h1
    rw [hrC, hrK, hC] at h1
    rw [if_neg (by omega)] at h1
    split_ifs at h1 with h4
    obtain ⟨rfl, rfl⟩ := Prod.mk.inj (Option.some.inj h1)
    refine ⟨rfl, fun k hk => ?_⟩
    beta_reduce
    rw [bidx_of_lt hk]
  obtain ⟨rfl, hz⟩ := hz
  rw [gradStep_eq (Cr := P.Cd) (Kr := s.K) (by simp [bshape, hC]) (by simp [bshape])] at h2
  obtain rfl := Option.some.inj h2
  have hn : ¬(1 < (initCri st.cri s).C ∧ P.Cd = 1) := by omega
  simp only [if_neg hn] at h3 e5
  refine ⟨gtime P st.D s s.K s.K Z, (grad_fid s hC _ _).congr ?_, ?_⟩
  swap
  · rw [h6]
    exact ⟨h3, h4, e, e1, e2, e3, e4, e5⟩
  intro i hi m hm
  funext p
  unfold gtime
  refine sum_congr rfl fun k hk => ?_
  rw [mem_range] at hk
  rw [bidx_of_lt hk, hz k hk]
  congr 1
  funext q
  unfold res
  rw [bidx_of_lt hk, bidx_of_lt hi, bidx_of_lt (hC ▸ hi), hz k hk]
  rcases hW i k q with h0 | h0 <;> rw [h0] <;> simp

theorem step_grad {P : Prm d} {a : Fin d} {st st' : St d} {s : Sample d} (h : solve P a st s = some st')
    (hC : s.C = P.Cd) (hW : ZeroOne s) (hrC : (initCri st.cri s).C = s.C)
    (hrK : (initCri st.cri s).K = s.K) :
    ProjGrad P st.D (etaOf P st.j) s (P.code st.D s) st'.D := by
  obtain ⟨g, h1, h2, -⟩ := step_full h hC hW hrC hrK
  exact ⟨g, h1, h2⟩

theorem run_cri {P : Prm d} {a : Fin d} {C K : ℕ} (l : List (Sample d)) {st st' : St d}
    (hl : ∀ x ∈ l, x.C = C ∧ x.K = K) (hi : ∀ r, st.cri = some r → r.C = C ∧ r.K = K)
    (h : run P a st l = some st') : ∀ r, st'.cri = some r → r.C = C ∧ r.K = K := by
  induction l generalizing st with
  | nil => exact Option.some.inj h ▸ hi
  | cons s l ih =>
    obtain ⟨st1, h1, h2⟩ := Option.bind_eq_some_iff.1 h
    obtain ⟨_, _, _, _, -, -, -, -, -, -, -, -, hc, -⟩ := solve_some h1
    refine ih (fun x hx => hl x (List.mem_cons_of_mem _ hx)) (fun r hr => ?_) h2
    rw [hc] at hr
    obtain rfl := Option.some.inj hr
    unfold initCri
    split
    · exact hl s List.mem_cons_self
    · rename_i r' hr'
      split_ifs
      · exact hi r' hr'
      · exact hl s List.mem_cons_self

/-- **C65, the dictionary update is a projected gradient step** (partial: signals have as many channels as the
dictionary, all calls have had the same number of signals, and the mask has entries 0 and 1).  For any history of
samples of such shapes (of varying spatial sizes) after construction, any sparse coding solver and options: a
further call moves the dictionary by the step size of the call along the negative gradient of the data fidelity
term, at the coefficient maps just computed, and projects the result onto the constraint set. -/
theorem C65_gradient_partial {P : Prm d} {a : Fin d} {D0 : Arr (d + 2 + 1)} {st0 st st' : St d}
    (h0 : create P D0 = some st0) {K : ℕ} (l : List (Sample d)) (hl : ∀ x ∈ l, x.C = P.Cd ∧ x.K = K)
    (h : run P a st0 l = some st) (s : Sample d) (hC : s.C = P.Cd) (hK : s.K = K) (hW : ZeroOne s)
    (hs : solve P a st s = some st') :
    ProjGrad P st.D (P.etaA / (l.length + P.etaB)) s (P.code st.D s) st'.D := by
  obtain ⟨D, -, rfl⟩ := Option.map_eq_some_iff.1 h0
  have hj := (run_itstat l h).1
  have hc := run_cri l hl (fun r hr => by cases hr) h
  have key : (initCri st.cri s).C = s.C ∧ (initCri st.cri s).K = s.K := by
    unfold initCri
    split
    · exact ⟨rfl, rfl⟩
    · rename_i r' hr'
      split_ifs
      · rw [hC, hK]
        exact hc r' hr'
      · exact ⟨rfl, rfl⟩
  have := step_grad hs hC hW key.1 key.2
  unfold etaOf at this
  rw [hj] at this
  simpa using this

open Classical in
/-- **C65, recorded statistics** (partial as `C65_gradient_partial`).  Under the same conditions the call appends one
entry to the statistics: the number of the call, its step size, the Euclidean norm of the change of the dictionary,
and the Euclidean distance between the result of the gradient step and its projection (extended by zeros). -/
theorem C65_statistics_partial {P : Prm d} {a : Fin d} {D0 : Arr (d + 2 + 1)} {st0 st st' : St d}
    (h0 : create P D0 = some st0) {K : ℕ} (l : List (Sample d)) (hl : ∀ x ∈ l, x.C = P.Cd ∧ x.K = K)
    (h : run P a st0 l = some st) (s : Sample d) (hC : s.C = P.Cd) (hK : s.K = K) (hW : ZeroOne s)
    (hs : solve P a st s = some st') :
    ∃ g e, IsGrad P.Cd P.M (fid P.Cd P.M s (P.code st.D s)) (padG st.D s.N) g ∧ st'.itstat = st.itstat ++ [e] ∧
      e.iter = l.length ∧ e.eta = P.etaA / (l.length + P.etaB) ∧
      0 ≤ e.deltaD ∧ e.deltaD ^ 2 = ∑ p ∈ box st.D.sh, (st'.D.get p - st.D.get p) ^ 2 ∧
      0 ≤ e.cnstr ∧ e.cnstr ^ 2 = ∑ p ∈ box (idx s.N P.Cd 1 P.M), ((if st'.D.In p then st'.D.get p else 0) -
        (gArr s.N P.Cd P.M fun i m p => padG st.D s.N i m p - e.eta * g i m p).get p) ^ 2 := by
  obtain ⟨D, -, rfl⟩ := Option.map_eq_some_iff.1 h0
  have hj := (run_itstat l h).1
  have hj : st.j = l.length := by simpa using hj
  have hc := run_cri l hl (fun r hr => by cases hr) h
  have key : (initCri st.cri s).C = s.C ∧ (initCri st.cri s).K = s.K := by
    unfold initCri
    split
    · exact ⟨rfl, rfl⟩
    · rename_i r' hr'
      split_ifs
      · rw [hC, hK]
        exact hc r' hr'
      · exact ⟨rfl, rfl⟩
  obtain ⟨g, h1, -, h3, e, e1, e2, e3, e4, e5⟩ := step_full hs hC hW key.1 key.2
  refine ⟨g, e, h1, e3, e1.trans hj, by rw [e2, etaOf, hj], ?_, ?_, ?_, ?_⟩
  · rw [e4]; exact Real.sqrt_nonneg _
  · rw [e4, h3]; exact Real.sq_sqrt (sum_nonneg fun _ _ => sq_nonneg _)
  · rw [e5]; exact Real.sqrt_nonneg _
  · rw [e5, e2]; exact Real.sq_sqrt (sum_nonneg fun _ _ => sq_nonneg _)

/-! ## Concrete runs: two filters with two samples, all signals and filters zero at the second sample -/

/-- The spatial sizes. -/
abbrev N2 : Fin 1 → ℕ := fun _ => 2

/-- A training array with two samples per channel and signal; the mask is constant. -/
def samp (C K : ℕ) (S : ℕ → ℕ → ℝ) (W : Option ℝ) : Sample 1 where
  N := N2
  pos := fun _ => inferInstance
  C := C
  K := K
  S := fun c k p => if p = 0 then S c k else 0
  W := W.map fun w _ _ _ => w

/-- Unit impulse. -/
def dlt {N : Fin d → ℕ} (p : Grid N) : ℝ := if ∀ k, p k = 0 then 1 else 0

/-- Two filters with two samples; default step options; all coefficient maps are impulses. -/
def P1 : Prm 1 := ⟨.single [2, 2], 1, 2, 0, false, 10, 5, fun _ _ _ _ _ => dlt⟩

/-- Shape of the dictionary. -/
abbrev sh2 : Fin 4 → ℕ := idx N2 1 1 2

/-- Filters with value `v` at the first sample and zero at the second. -/
def Std (D : Arr 4) (v : ℝ) : Prop := D.sh = sh2 ∧ ∀ p, D.In p → D.get p = if p 0 = 0 then v else 0

/-- The dictionary with impulses as filters. -/
def D1 : Arr 4 := ⟨sh2, fun p => if p 0 = 0 then 1 else 0⟩

theorem rconv_dlt {N : Fin d → ℕ} [∀ k, NeZero (N k)] (x : Grid N → ℝ) (p : Grid N) : rconv dlt x p = x p := by
  unfold rconv
  rw [Fintype.sum_eq_single 0]
  · simp [dlt]
  · intro q hq
    have hn : ¬ ∀ k, q k = 0 := fun h => hq (funext h)
    rw [dlt, if_neg hn, zero_mul]

theorem rcorr_dlt {N : Fin d → ℕ} [∀ k, NeZero (N k)] (x : Grid N → ℝ) (p : Grid N) : rcorr dlt x p = x p := by
  unfold rcorr
  rw [Fintype.sum_eq_single 0]
  · simp [dlt]
  · intro q hq
    have hn : ¬ ∀ k, q k = 0 := fun h => hq (funext h)
    rw [dlt, if_neg hn, zero_mul]

theorem sum_fib (p : Fin 4 → ℕ) (hp : ∀ i, p i < sh2 i) (v : ℝ) (f : (Fin 4 → ℕ) → ℝ)
    (hf : ∀ r, (∀ i, r i < sh2 i) → f r = if r 0 = 0 then v else 0) : ∑ r ∈ fib sh2 1 p, f r ^ 2 = v ^ 2 := by
  have hr : ∀ r ∈ fib sh2 1 p, (∀ i, r i < sh2 i) ∧ ∀ i : Fin 4, 1 ≤ i.val → r i = p i := by
    intro r hr
    unfold fib box at hr
    rw [mem_filter, Fintype.mem_piFinset] at hr
    exact ⟨fun i => by simpa using hr.1 i, hr.2⟩
  rw [sum_eq_single (Function.update p 0 0)]
  · rw [hf _ (fun i => ?_), Function.update_self, if_pos rfl]
    by_cases h : i = 0
    · subst h; rw [Function.update_self]; decide
    · rw [Function.update_of_ne h]; exact hp i
  · intro r h1 h2
    rw [hf r (hr r h1).1, if_neg]
    · ring
    · intro h3
      apply h2
      funext i
      by_cases h : i = 0
      · subst h; rw [Function.update_self, h3]
      · rw [Function.update_of_ne h]
        refine (hr r h1).2 i ?_
        have : i.val ≠ 0 := fun e => h (Fin.ext e)
        omega
  · intro h
    exfalso
    apply h
    unfold fib box
    rw [mem_filter, Fintype.mem_piFinset]
    refine ⟨fun i => mem_range.2 ?_, fun i hi => ?_⟩
    · by_cases h : i = 0
      · subst h; rw [Function.update_self]; decide
      · rw [Function.update_of_ne h]; exact hp i
    · rw [Function.update_of_ne]
      rintro rfl
      exact absurd hi (by decide)

theorem Pcn_unit (x : Arr 4) (hx : x.sh = sh2) : ∃ w, Pcn x (.single [2, 2]) [] 1 0 true false = some w ∧
    w.sh = sh2 ∧ (x.get 0 ≠ 0 → ∃ r, 0 < r ∧ w.get 0 = x.get 0 / r) ∧
    (∀ v, v ≠ 0 → Std x v → Std w (v / |v|)) := by
  have hb : (bcrop x (.single [2, 2]) 1).sh = sh2 := by
    funext i
    unfold bcrop
    fin_cases i <;> simp [hx]; decide
  refine ⟨_, rfl, hb, fun h0 => ?_, fun v hv hs => ⟨hb, fun p hp => ?_⟩⟩
  · have hpos : 0 < Real.sqrt (∑ r ∈ fib (bcrop x (.single [2, 2]) 1).sh 1 0, x.get r ^ 2) := by
      apply Real.sqrt_pos.2
      refine sum_pos' (fun _ _ => sq_nonneg _) ⟨0, ?_, by positivity⟩
      unfold fib box
      rw [mem_filter, Fintype.mem_piFinset, hb]
      exact ⟨by decide, fun _ _ => rfl⟩
    refine ⟨_, hpos, ?_⟩
    change x.get 0 / (if Real.sqrt (∑ r ∈ fib (bcrop x (.single [2, 2]) 1).sh 1 0, x.get r ^ 2) = 0 then 1
      else Real.sqrt (∑ r ∈ fib (bcrop x (.single [2, 2]) 1).sh 1 0, x.get r ^ 2)) = _
    rw [if_neg hpos.ne']
  · have hp' : ∀ i, p i < sh2 i := fun i => by
      have h1 : p i < (bcrop x (.single [2, 2]) 1).sh i := hp i
      rw [hb] at h1
      exact h1
    have hxs : ∀ r, (∀ i, r i < sh2 i) → x.get r = if r 0 = 0 then v else 0 := fun r hr =>
      hs.2 r (fun i => by rw [hx]; exact hr i)
    have e : Real.sqrt (∑ r ∈ fib (bcrop x (.single [2, 2]) 1).sh 1 p, x.get r ^ 2) = |v| := by
      rw [hb, sum_fib p hp' v x.get hxs, Real.sqrt_sq_eq_abs]
    change x.get p / (if Real.sqrt (∑ r ∈ fib (bcrop x (.single [2, 2]) 1).sh 1 p, x.get r ^ 2) = 0 then 1
      else Real.sqrt (∑ r ∈ fib (bcrop x (.single [2, 2]) 1).sh 1 p, x.get r ^ 2)) = _
    rw [e, if_neg (abs_ne_zero.2 hv), hxs p hp']
    split_ifs <;> simp

theorem std_D1 : Std D1 1 := ⟨rfl, fun _ _ => rfl⟩

theorem create_unit : ∃ st, create P1 D1 = some st ∧ Std st.D 1 ∧ st.j = 0 ∧ st.cri = none := by
  obtain ⟨w, h1, -, -, h3⟩ := Pcn_unit D1 rfl
  refine ⟨⟨w, 0, none, []⟩, ?_, ?_, rfl, rfl⟩
  · change (Pcn D1 (.single [2, 2]) [] 1 0 true false).map _ = _
    rw [h1]
    rfl
  · simpa using h3 1 one_ne_zero std_D1

theorem padG_unit {D : Arr 4} (hD : Std D 1) {m : ℕ} (hm : m < 2) (p : Grid N2) :
    padG (d := 1) D N2 0 m p = if p = 0 then 1 else 0 := by
  have hp : ∀ k, (p k).val < 2 := fun k => ZMod.val_lt (n := 2) (p k)
  unfold padG
  rw [if_pos (fun k => by
    unfold Arr.sp
    rw [hD.1]
    fin_cases k
    exact hp 0)]
  rw [hD.2 _ (fun i => by
    rw [hD.1]
    fin_cases i
    · exact hp 0
    · exact Nat.one_pos
    · exact Nat.one_pos
    · exact hm)]
  have : (idx (fun k => (p k).val) 0 0 m 0 = 0) ↔ p = 0 := by
    change (p 0).val = 0 ↔ _
    rw [ZMod.val_eq_zero]
    constructor
    · intro h
      funext k
      fin_cases k
      exact h
    · rintro rfl; rfl
  simp only [this]

/-- What the code computes instead of the gradient. -/
noncomputable def gUnit (C K Kr Cr rC : ℕ) (S : ℕ → ℕ → ℝ) (W : Option ℝ) : ℝ :=
  if 1 < rC then ∑ i ∈ range Cr, ∑ k ∈ range Kr, W.getD 1 * (2 - S (bidx C i) (bidx K k))
  else ∑ k ∈ range Kr, W.getD 1 * (2 - S (bidx C 0) (bidx K k))

theorem solve_unit {st : St 1} (hD : Std st.D 1) {C K : ℕ} (S : ℕ → ℕ → ℝ)
    (W : Option ℝ) {Kz Kr Cr : ℕ} (hz : setcoef 1 (initCri st.cri (samp C K S W)) (samp C K S W) (fun _ _ _ => dlt) =
      some (Kz, fun _ _ => dlt)) (hC : bshape 1 C = some Cr) (hK : bshape Kz K = some Kr) {v : ℝ}
    (hv : v = 1 - 10 / (st.j + 5) * gUnit C K Kr Cr (initCri st.cri (samp C K S W)).C S W) (hv0 : v ≠ 0) :
    ∃ st', solve P1 0 st (samp C K S W) = some st' ∧ Std st'.D (v / |v|) ∧
      st'.j = st.j + 1 ∧ st'.cri = some (initCri st.cri (samp C K S W)) := by
  have hg := gradStep_eq (P := P1) (a := 0) (D := st.D) (eta := etaOf P1 st.j) (r := initCri st.cri (samp C K S W))
    (s := samp C K S W) (Z := fun _ _ => dlt) hC hK
  generalize hG : (fun i m p => padG st.D (samp C K S W).N i m p - etaOf P1 st.j *
      (if 1 < (initCri st.cri (samp C K S W)).C ∧ P1.Cd = 1 then
        ∑ i ∈ range Cr, gtime P1 st.D (samp C K S W) Kz Kr (fun _ _ => dlt) i m p
      else gtime P1 st.D (samp C K S W) Kz Kr (fun _ _ => dlt) i m p)) = G at hg
  have ht : ∀ i m p, gtime P1 st.D (samp C K S W) Kz Kr (fun _ _ => dlt) i m p =
      if p = 0 then ∑ k ∈ range Kr, W.getD 1 * (2 - S (bidx C i) (bidx K k)) else 0 := by
    intro i m p
    have hk : ∀ k, rcorr (dlt : Grid (samp C K S W).N → ℝ) (fun q => msk (samp C K S W) (bidx (samp C K S W).C i)
        (bidx (samp C K S W).K k) q * res P1 st.D (samp C K S W) Kz (fun _ _ => dlt) i k q) p =
        if p = 0 then W.getD 1 * (2 - S (bidx C i) (bidx K k)) else 0 := by
      intro k
      rw [rcorr_dlt]
      have hm : msk (samp C K S W) (bidx (samp C K S W).C i) (bidx (samp C K S W).K k) p = W.getD 1 := by
        cases W <;> rfl
      rw [hm]
      have hr : res P1 st.D (samp C K S W) Kz (fun _ _ => dlt) i k p =
          if p = 0 then 2 - S (bidx C i) (bidx K k) else 0 := by
        unfold res
        have hb : bidx P1.Cd i = 0 := rfl
        rw [hb]
        have h2 : ∀ m ∈ range P1.M, rconv (dlt : Grid (samp C K S W).N → ℝ) (padG st.D (samp C K S W).N 0 m) p =
            if p = 0 then 1 else 0 := by
          intro m hm
          rw [rconv_dlt]
          exact padG_unit hD (mem_range.1 hm) p
        rw [sum_congr rfl h2]
        change (∑ _m ∈ range 2, if p = 0 then (1 : ℝ) else 0) - (if p = 0 then S _ _ else 0) = _
        split_ifs
        · rw [sum_const, card_range]; norm_num; rfl
        · simp
      rw [hr]
      split_ifs <;> simp
    unfold gtime
    rw [sum_congr rfl fun k _ => hk k]
    split_ifs <;> simp
  have hGv : ∀ m < 2, ∀ p, G 0 m p = if p = 0 then v else 0 := by
    intro m hm p
    rw [← hG, hv]
    beta_reduce
    have hc : (1 < (initCri st.cri (samp C K S W)).C ∧ P1.Cd = 1) ↔ 1 < (initCri st.cri (samp C K S W)).C := by
      simp [P1]
    simp only [hc, ht]
    have hpd : padG st.D (samp C K S W).N 0 m p = if p = 0 then 1 else 0 := padG_unit hD hm p
    rw [hpd]
    unfold gUnit
    change _ - 10 / ((st.j : ℝ) + 5) * _ = _
    by_cases hp : p = 0
    · simp only [if_pos hp]
    · simp only [if_neg hp]
      split_ifs <;> simp
  obtain ⟨w, h1, h2, -, h3⟩ := Pcn_unit (gArr (d := 1) N2 1 2 G) rfl
  have hGs : Std (gArr (d := 1) N2 1 2 G) v := by
    refine ⟨rfl, fun p hp => ?_⟩
    have hp0 : p 0 < 2 := hp 0
    have hp1 : p 1 < 1 := hp 1
    have hp3 : p 3 < 2 := hp 3
    have e1 : p 1 = 0 := by omega
    refine (congrArg (fun x => G x (p 3) (fun k => ((p ⟨k, by omega⟩ : ℕ) : ZMod 2))) e1).trans ?_
    refine (hGv _ hp3 _).trans ?_
    congr 1
    apply propext
    constructor
    · intro h
      have := congrFun h 0
      have : ((p 0 : ℕ) : ZMod 2) = 0 := this
      rw [ZMod.natCast_eq_zero_iff] at this
      omega
    · intro h
      funext k
      fin_cases k
      change ((p 0 : ℕ) : ZMod 2) = 0
      rw [h]; rfl
  have e1 : setcoef P1.Cd (initCri st.cri (samp C K S W)) (samp C K S W) (P1.code st.D (samp C K S W)) =
      some (Kz, fun _ _ => dlt) := hz
  have e2 : getPcn P1.dsz [] 1 P1.dimC true P1.zm (gArr (samp C K S W).N P1.Cd P1.M G) = some w := by
    rw [C34_getPcn_partial (Or.inl rfl)]
    exact h1
  have hsp : ∀ k, Arr.sp (d := 1) st.D k = 2 := by
    intro k
    unfold Arr.sp
    rw [hD.1]
    fin_cases k
    rfl
  unfold solve
  rw [if_neg (by simp [P1]), if_neg (by
    rintro (⟨k, hk⟩ | hk)
    · rw [hsp k] at hk; omega
    · exact absurd hk (by decide))]
  simp only [e1, Option.bind_some, hg, e2]
  rw [if_pos ⟨by rw [h2, hD.1], fun k => (hsp k).le⟩]
  exact ⟨_, rfl, h3 v hv0 hGs, rfl, rfl⟩

/-- The gradient. -/
theorem grad_unit {D : Arr 4} (hD : Std D 1) {C K : ℕ} (S : ℕ → ℕ → ℝ) (W : Option ℝ)
    {g : ℕ → ℕ → Grid N2 → ℝ}
    (h : IsGrad 1 2 (fid 1 2 (samp C K S W) fun _ _ _ => dlt) (padG (d := 1) D N2) g) :
    g 0 0 0 = ∑ c ∈ range C, ∑ k ∈ range K, W.getD 1 ^ 2 * (2 - S c k) := by
  have h1 := h fun _ m p => if m = 0 ∧ p = 0 then 1 else 0
  have hf : (fun t : ℝ => fid 1 2 (samp C K S W) (fun _ _ _ => dlt) fun i m p => padG (d := 1) D N2 i m p +
      t * (if m = 0 ∧ p = 0 then 1 else 0)) =
      fun t => 1 / 2 * ∑ c ∈ range C, ∑ k ∈ range K, (W.getD 1 * (2 + t * 1 - S c k)) ^ 2 := by
    funext t
    unfold fid
    congr 1
    refine sum_congr rfl fun c _ => sum_congr rfl fun k _ => ?_
    have hm : ∀ p, msk (samp C K S W) c k p = W.getD 1 := by
      intro p
      cases W <;> rfl
    have hp : ∀ p : Grid N2, ∑ m ∈ range 2, rconv (dlt : Grid N2 → ℝ) (fun p => padG (d := 1) D N2 0 m p +
        t * (if m = 0 ∧ p = 0 then 1 else 0)) p = if p = 0 then 2 + t * 1 else 0 := by
      intro p
      rw [sum_range_succ, sum_range_one, rconv_dlt, rconv_dlt, padG_unit hD (by decide), padG_unit hD (by decide)]
      by_cases hp : p = 0
      · simp only [hp, if_true, and_self, one_ne_zero, false_and, if_false]; ring
      · simp only [hp, if_false, and_false]; ring
    have key : ∀ p : Grid N2, (W.getD 1 * ((∑ m ∈ range 2, rconv (dlt : Grid N2 → ℝ) (fun p => padG (d := 1) D N2 0 m p +
        t * (if m = 0 ∧ p = 0 then 1 else 0)) p) - (if p = 0 then S c k else 0))) ^ 2 =
        if p = 0 then (W.getD 1 * (2 + t * 1 - S c k)) ^ 2 else 0 := by
      intro p
      rw [hp p]
      split_ifs <;> ring
    refine (sum_congr rfl fun p _ => ?_).trans ((sum_congr rfl fun p _ => key p).trans ?_)
    · exact congrArg (fun x : ℝ => (x * ((∑ m ∈ range 2, rconv (dlt : Grid N2 → ℝ) (fun p => padG (d := 1) D N2 0 m p +
        t * (if m = 0 ∧ p = 0 then 1 else 0)) p) - (if p = 0 then S c k else 0))) ^ 2) (hm p)
    · exact (sum_ite_eq' (univ : Finset (Grid N2)) 0 fun _ => (W.getD 1 * (2 + t * 1 - S c k)) ^ 2).trans (if_pos (mem_univ _))
  rw [hf] at h1
  have h2 : ∀ c k, HasDerivAt (fun t : ℝ => (W.getD 1 * (2 + t * 1 - S c k)) ^ 2)
      (2 * (W.getD 1 ^ 2 * (2 - S c k))) 0 := by
    intro c k
    have h2 : HasDerivAt (fun t : ℝ => W.getD 1 * (2 + t * 1 - S c k)) (W.getD 1 * (1 * 1)) 0 :=
      ((((hasDerivAt_id (0 : ℝ)).mul_const 1).const_add 2).sub_const _).const_mul _
    refine (h2.fun_pow 2).congr_deriv ?_
    simp
    ring
  have h3 := fun c => HasDerivAt.fun_sum (u := range K) fun k _ => h2 c k
  have h4 := (HasDerivAt.fun_sum (u := range C) fun c _ => h3 c).const_mul (1 / 2 : ℝ)
  have h7 : ∑ i ∈ range 1, ∑ m ∈ range 2, ∑ p : Grid N2, g i m p * (if m = 0 ∧ p = 0 then 1 else 0) = g 0 0 0 := by
    rw [sum_range_one, sum_range_succ, sum_range_one]
    simp
  have h5 := h7.symm.trans (h1.unique h4)
  rw [h5, mul_sum]
  refine sum_congr rfl fun c _ => ?_
  rw [mul_sum]
  exact sum_congr rfl fun k _ => by ring

/-- The documented step from the dictionary of impulses: the sign of the first entry. -/
theorem projGrad_unit {D D' : Arr 4} (hD : Std D 1) {C K : ℕ} (S : ℕ → ℕ → ℝ)
    (W : Option ℝ) {eta v : ℝ} (hv : v = 1 - eta * ∑ c ∈ range C, ∑ k ∈ range K, W.getD 1 ^ 2 * (2 - S c k))
    (hv0 : v ≠ 0) (h : ProjGrad P1 D eta (samp C K S W) (P1.code D (samp C K S W)) D') :
    ∃ r, 0 < r ∧ D'.get 0 = v / r := by
  obtain ⟨g, hg, hP⟩ := h
  have h1 := grad_unit hD S W hg
  obtain ⟨w, h2, -, h3, -⟩ := Pcn_unit (gArr (d := 1) N2 1 2 fun i m p =>
    padG (d := 1) D N2 i m p - eta * g i m p) rfl
  have e : (gArr (d := 1) N2 1 2 fun i m p => padG (d := 1) D N2 i m p - eta * g i m p).get 0 = v := by
    have hz : (fun k : Fin 1 => (((0 : Fin 4 → ℕ) ⟨k, by omega⟩ : ℕ) : ZMod (N2 k))) = 0 := by
      funext k
      exact Nat.cast_zero
    change padG (d := 1) D N2 0 0 _ - eta * g 0 0 _ = v
    rw [hz, padG_unit hD (by decide), if_pos rfl, hv, ← h1]
  rw [e] at h3
  have : some D' = some w := hP.symm.trans h2
  obtain rfl := Option.some.inj this
  exact h3 hv0

theorem std_zero {D : Arr 4} {v : ℝ} (h : Std D v) : D.get 0 = v := by
  rw [h.2 0 (fun i => by rw [h.1]; fin_cases i <;> decide)]
  exact if_pos rfl

/-- **C65 is false of the code for batches of different sizes**: after a call with a batch of two signals, a call
with one signal of the same size uses the shape information of the first, and takes the single signal twice. -/
theorem C65_batch_refuted : ∃ (P : Prm 1) (D0 : Arr 4) (s1 s2 : Sample 1) (st0 st1 st2 : St 1),
    s1.C = 1 ∧ s1.K = 2 ∧ s2.C = 1 ∧ s2.K = 1 ∧ P.Cd = 1 ∧ s1.W = none ∧ s2.W = none ∧
    create P D0 = some st0 ∧ run P 0 st0 [s1] = some st1 ∧ solve P 0 st1 s2 = some st2 ∧
    ¬ ProjGrad P st1.D (etaOf P st1.j) s2 (P.code st1.D s2) st2.D := by
  obtain ⟨st0, h0, hd0, hj0, hc0⟩ := create_unit
  obtain ⟨st1, h1, hd1, hj1, hc1⟩ := solve_unit (C := 1) (K := 2) (v := 1) hd0 (fun _ _ => 2) none
    (Kz := 2) (Kr := 2) (Cr := 1) (by rw [hc0]; simp [setcoef, initCri, samp]) rfl rfl
    (by simp [gUnit]) one_ne_zero
  obtain ⟨st2, h2, hd2, hj2, hc2⟩ := solve_unit (C := 1) (K := 1) (v := -1 / 3) (by simpa using hd1)
    (fun _ _ => 8 / 5) none (Kz := 2) (Kr := 2) (Cr := 1) (by rw [hc1, hc0]; simp [setcoef, initCri, samp]) rfl rfl
    (by rw [hc1, hc0, hj1, hj0]; norm_num [gUnit, initCri, samp, sum_range_succ]) (by norm_num)
  refine ⟨P1, D1, samp 1 2 (fun _ _ => 2) none, samp 1 1 (fun _ _ => 8 / 5) none, st0, st1, st2, rfl, rfl, rfl, rfl, rfl, rfl,
    rfl, h0, ?_, h2, fun h => ?_⟩
  · simp [run, h1]
  · obtain ⟨r, hr, h3⟩ := projGrad_unit (v := 1 / 3) (by simpa using hd1) (fun _ _ => 8 / 5) none
      (by rw [hj1, hj0]; norm_num [etaOf, P1]) (by norm_num) h
    rw [std_zero hd2] at h3
    norm_num [abs_of_pos, abs_of_neg] at h3
    rw [eq_div_iff hr.ne'] at h3
    linarith

/-- **C65 is false of the code for a single-channel dictionary and a multi-channel signal**: the coefficient maps
of the channels are moved to the signal axis but the signal is not, so that every coefficient map is compared with
every channel. -/
theorem C65_channels_refuted : ∃ (P : Prm 1) (D0 : Arr 4) (s : Sample 1) (st0 st1 : St 1),
    s.C = 2 ∧ s.K = 1 ∧ P.Cd = 1 ∧ s.W = none ∧
    create P D0 = some st0 ∧ solve P 0 st0 s = some st1 ∧
    ¬ ProjGrad P st0.D (etaOf P st0.j) s (P.code st0.D s) st1.D := by
  obtain ⟨st0, h0, hd0, hj0, hc0⟩ := create_unit
  obtain ⟨st1, h1, hd1, hj1, hc1⟩ := solve_unit (C := 2) (K := 1) (v := -3 / 5) hd0
    (fun c _ => if c = 0 then 2 else 8 / 5) none
    (Kz := 2) (Kr := 2) (Cr := 2) (by rw [hc0]; simp [setcoef, initCri, samp]) rfl rfl
    (by rw [hj0, hc0]; norm_num [gUnit, initCri, samp, sum_range_succ, bidx]) (by norm_num)
  refine ⟨P1, D1, _, st0, st1, rfl, rfl, rfl, rfl, h0, h1, fun h => ?_⟩
  obtain ⟨r, hr, h3⟩ := projGrad_unit (v := 1 / 5) hd0 (fun c _ => if c = 0 then 2 else 8 / 5) none
    (by rw [hj0]; norm_num [etaOf, P1, sum_range_succ]) (by norm_num) h
  rw [std_zero hd1] at h3
  norm_num [abs_of_pos, abs_of_neg] at h3
  rw [eq_div_iff hr.ne'] at h3
  linarith

/-- **C65 is false of the code for a weighting mask**: the gradient of the masked fidelity term contains the
square of the mask. -/
theorem C65_mask_refuted : ∃ (P : Prm 1) (D0 : Arr 4) (s : Sample 1) (st0 st1 : St 1),
    s.C = 1 ∧ s.K = 1 ∧ P.Cd = 1 ∧ (s.W = some fun _ _ _ => 2) ∧
    create P D0 = some st0 ∧ solve P 0 st0 s = some st1 ∧
    ¬ ProjGrad P st0.D (etaOf P st0.j) s (P.code st0.D s) st1.D := by
  obtain ⟨st0, h0, hd0, hj0, hc0⟩ := create_unit
  obtain ⟨st1, h1, hd1, hj1, hc1⟩ := solve_unit (C := 1) (K := 1) (v := 1 / 5) hd0
    (fun _ _ => 9 / 5) (some 2)
    (Kz := 1) (Kr := 1) (Cr := 1) (by rw [hc0]; simp [setcoef, initCri, samp]) rfl rfl
    (by rw [hj0, hc0]; norm_num [gUnit, initCri, samp, sum_range_succ, bidx]) (by norm_num)
  refine ⟨P1, D1, _, st0, st1, rfl, rfl, rfl, rfl, h0, h1, fun h => ?_⟩
  obtain ⟨r, hr, h3⟩ := projGrad_unit (v := -3 / 5) hd0 (fun _ _ => 9 / 5) (some 2)
    (by rw [hj0]; norm_num [etaOf, P1, sum_range_succ]) (by norm_num) h
  rw [std_zero hd1] at h3
  norm_num [abs_of_pos, abs_of_neg] at h3
  rw [eq_div_iff hr.ne'] at h3
  linarith

/-- The hypotheses of C54 and C65 are met by a run of two calls. -/
example : ∃ (P : Prm 1) (D0 : Arr 4) (s : Sample 1) (st0 st1 st2 : St 1), P.dsz.WF 3 1 ∧ Fits 1 P.dsz D0 ∧
    (∀ i : Fin 4, 1 ≤ i.val → D0.sh i = idx (fun _ : Fin 1 => 0) P.Cd 1 P.M i) ∧ create P D0 = some st0 ∧
    s.C = P.Cd ∧ s.K = 1 ∧ ZeroOne s ∧ solve P 0 st0 s = some st1 ∧ solve P 0 st1 s = some st2 ∧
    st1.D.get 0 = 1 ∧ st2.D.get 0 = 1 ∧ 0 < P.etaA ∧ 0 < P.etaB := by
  obtain ⟨st0, h0, hd0, hj0, hc0⟩ := create_unit
  obtain ⟨st1, h1, hd1, hj1, hc1⟩ := solve_unit (C := 1) (K := 1) (v := 1 / 5) hd0
    (fun _ _ => 8 / 5) none
    (Kz := 1) (Kr := 1) (Cr := 1) (by rw [hc0]; simp [setcoef, initCri, samp]) rfl rfl
    (by rw [hj0, hc0]; norm_num [gUnit, initCri, samp, sum_range_succ, bidx]) (by norm_num)
  have hd1' : Std st1.D 1 := by
    have e : (1 / 5 / |1 / 5| : ℝ) = 1 := by norm_num [abs_of_pos]
    rw [e] at hd1
    exact hd1
  obtain ⟨st2, h2, hd2, hj2, hc2⟩ := solve_unit (C := 1) (K := 1) (v := 1 / 3) hd1'
    (fun _ _ => 8 / 5) none (Kz := 1) (Kr := 1) (Cr := 1) (by rw [hc1, hc0]; simp [setcoef, initCri, samp]) rfl rfl
    (by rw [hc1, hc0, hj1, hj0]; norm_num [gUnit, initCri, samp, sum_range_succ]) (by norm_num)
  refine ⟨P1, D1, _, st0, st1, st2, ⟨by decide, by decide⟩, ?_, ?_, h0, rfl, rfl, fun _ _ _ => Or.inr rfl, h1, h2, std_zero hd1', ?_,
    by norm_num [P1], by norm_num [P1]⟩
  · intro p hs hp i
    obtain ⟨sz, e1, e2⟩ := hs
    obtain rfl := Option.some.inj e1
    by_cases hi : 1 ≤ i.val
    · exact hp i hi
    · have h0 : i = 0 := Fin.ext (by simp; omega)
      subst h0
      have := e2 0 (by decide)
      exact this
  · intro i hi
    fin_cases i <;> first | rfl | simp at hi
  · rw [std_zero hd2]; norm_num [abs_of_pos]

end Sporco.Dictlrn
