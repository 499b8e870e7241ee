import Verif.Dictlrn.LearnW

/-!
# `Monotone` in dictionary learning (C47, C70)

With the option `Monotone` the PGM sparse coding object compares objective values across changes of the dictionary.
-/

set_option autoImplicit false

namespace Sporco.Dictlrn.MonoEx

open Matrix
open Sporco.Admm (Arr mat arr fro2 norm_arr mat_arr arr_mat)

/-- Arrays with one entry. -/
def c (a : ℝ) : Arr 1 1 := arr (Matrix.of fun _ _ => a)

def m (a : ℝ) : Matrix (Fin 1) (Fin 1) ℝ := Matrix.of fun _ _ => a

theorem mat_c (a : ℝ) : mat (c a) = m a := rfl

theorem arr_m (a : ℝ) : arr (m a) = c a := rfl

theorem c_sub (a b : ℝ) : c a - c b = c (a - b) := rfl

theorem c_add (a b : ℝ) : c a + c b = c (a + b) := rfl

theorem c_smul (r a : ℝ) : r • c a = c (r * a) := rfl

theorem m_mul (a b : ℝ) : m a * m b = m (a * b) := by
  ext i j; simp [m, Matrix.mul_apply]

theorem m_sub (a b : ℝ) : m a - m b = m (a - b) := rfl

theorem m_T (a : ℝ) : (m a)ᵀ = m a := rfl

theorem norm_c (a : ℝ) : ‖c a‖ ^ 2 = a ^ 2 := by
  change ‖arr (m a)‖ ^ 2 = _
  rw [norm_arr]; simp [fro2, m]

/-- One training signal with one entry, no sparsity term, the option `Monotone` and a step size parameter that dominates the
Lipschitz constant (one) for sparse coding; one inner iteration. -/
noncomputable def P : PrmW 1 1 1 where
  S := m (-3)
  lmbda := 0
  W := m 1
  wl1 := fun _ => 1
  nonNeg := false
  oX := ⟨false, 1, 0, false, 0, true, .linear 2, .none, .none⟩
  zm := false
  nnc := false
  oD := ⟨false, 1, 0, false, 0, false, .linear 2, .none, .none⟩
  acc := false

noncomputable def Pcn : Matrix (Fin 1) (Fin 1) ℝ → Matrix (Fin 1) (Fin 1) ℝ := Admm.Cmod.normalise

/-- Initial coefficients 4, `L` 2. -/
noncomputable def x0 : Pgm.Vars (Arr 1 1) :=
  ⟨c 4, c 4, c 4, c 4, c 4, 2, 1, (0, 0, 0), (0, 0, 0), none, none, none, c 4, c 4, 0, none⟩

/-- `L` 1/4. -/
noncomputable def d0 : Pgm.Vars (Arr 1 1) :=
  ⟨c 0, c 0, c 0, c 0, c 0, 1 / 4, 1, (0, 0, 0), (0, 0, 0), none, none, none, c 0, c 0, 0, none⟩

/-- The class of the sparse coding object. -/
noncomputable def CX (D : ℝ) : Pgm.Cls (Arr 1 1) := Pgm.clsWBPDN (m D) P.S P.lmbda P.wl1 P.nonNeg P.W

theorem had1 (R : Matrix (Fin 1) (Fin 1) ℝ) : Pgm.had (m 1) R = R := by
  ext i j; simp [Pgm.had, m]

theorem CX_grad (D b : ℝ) : (CX D).gradF (c b) = c (D * (D * b + 3)) := by
  change arr ((m D)ᵀ * Pgm.had (m 1) (m D * mat (c b) - m (-3))) = _
  rw [mat_c, had1, m_T, m_mul, m_sub, m_mul, arr_m, sub_neg_eq_add]

theorem CX_prox (D L w : ℝ) : (CX D).proxG L (c w) = c w := by
  change WithLp.toLp 2 (Admm.Bpdn.gystep false (Prox.proxL1Arr (c w).ofLp fun i => 0 / L * 1)) = _
  ext i
  simp [Admm.Bpdn.gystep, Prox.proxL1Arr, Prox.proxL1, Prox.npSign_mul_abs]

theorem CX_obj (D a : ℝ) : (CX D).objfn (c a) = (1 / 2 * (D * a + 3) ^ 2, 1 / 2 * (D * a + 3) ^ 2, 0) := by
  have h1 : (CX D).obfnF (c a) = 1 / 2 * (D * a + 3) ^ 2 := by
    change 1 / 2 * ‖arr (Pgm.had (Matrix.of fun i j => Real.sqrt (m 1 i j)) (m D * mat (c a) - m (-3)))‖ ^ 2 = _
    rw [show (Matrix.of fun i j => Real.sqrt (m 1 i j)) = m 1 by ext i j; simp [m], had1, mat_c, m_mul, m_sub, arr_m, norm_c,
      sub_neg_eq_add]
  have h2 : (CX D).obfnG (c a) = 0 := by
    change (0 : ℝ) * _ = 0
    rw [zero_mul]
  unfold Pgm.Cls.objfn
  rw [h1, h2, add_zero]

theorem wdfd_c (D a : ℝ) : wdfd P.W (m D) P.S (m a) = 1 / 2 * (D * a + 3) ^ 2 := by
  unfold wdfd
  rw [m_mul]
  change 1 / 2 * ∑ i : Fin 1, ∑ j : Fin 1, (m 1) i j * (m (D * a) - m (-3)) i j ^ 2 = _
  rw [m_sub]
  simp [m]

/-- What one call of `solve` of the sparse coding object does. -/
theorem xsolve (k : ℕ) (l : List Pgm.Stat) (v : Pgm.Vars (Arr 1 1)) (D : ℝ) :
    ∃ r, (xW P).solve (⟨k, l, v⟩, m D) = (⟨k + 1, l ++ [Pgm.statOf (CX D) P.oX k (Pgm.ystep P.oX k (Pgm.xstep (CX D) P.oX k
      (Pgm.onStart (CX D) P.oX k v))) r], Pgm.ystep P.oX k (Pgm.xstep (CX D) P.oX k (Pgm.onStart (CX D) P.oX k v))⟩, m D) := by
  refine ⟨Pgm.rsdl P.oX k (Pgm.ystep P.oX k (Pgm.xstep (CX D) P.oX k (Pgm.onStart (CX D) P.oX k v))), ?_⟩
  change (Pgm.solve (Pgm.ops (CX D) P.oX) P.oX none _, m D) = _
  have hl : Pgm.loop (Pgm.ops (CX D) P.oX) P.oX none [k] ⟨k, l, v⟩ = (Pgm.body (Pgm.ops (CX D) P.oX) P.oX none k ⟨k, l, v⟩).1 := by
    simp only [Pgm.loop, ite_self]
  change (Pgm.St.mk ((Pgm.loop (Pgm.ops (CX D) P.oX) P.oX none [k] ⟨k, l, v⟩).k + 1) (Pgm.loop (Pgm.ops (CX D) P.oX) P.oX none [k] ⟨k, l, v⟩).itstat
    (Pgm.loop (Pgm.ops (CX D) P.oX) P.oX none [k] ⟨k, l, v⟩).v, m D) = _
  rw [hl]
  rfl

/-- The class of the dictionary update object. -/
noncomputable def CD (Z : ℝ) : Pgm.Cls (Arr 1 1) := clsWC P Pcn (m Z)

theorem CD_grad (Z b : ℝ) : (CD Z).gradF (c b) = c ((b * Z + 3) * Z) := by
  change arr (Pgm.had (m 1) (mat (c b) * m Z - m (-3)) * (m Z)ᵀ) = _
  rw [mat_c, had1, m_T, m_mul, m_sub, m_mul, arr_m, sub_neg_eq_add]

theorem Pcn_m (w s : ℝ) (hs : s ≠ 0) (h : Real.sqrt (w ^ 2) = s) : Pcn (m w) = m (w / s) := by
  ext i j
  unfold Pcn
  rw [Admm.Cmod.normalise_apply]
  have : Admm.Cmod.cn (m w) j = s := by
    rw [← h]
    unfold Admm.Cmod.cn
    simp [m]
  rw [this, if_neg hs]
  rfl

theorem dsolve (k : ℕ) (l : List Pgm.Stat) (v : Pgm.Vars (Arr 1 1)) (Z : ℝ) :
    ∃ l', (dW P Pcn).solve (⟨k, l, v⟩, m Z) =
      (⟨k + 1, l', Pgm.ystep P.oD k (Pgm.xstep (CD Z) P.oD k (Pgm.onStart (CD Z) P.oD k v))⟩, m Z) := by
  refine ⟨l ++ [Pgm.statOf (CD Z) P.oD k (Pgm.ystep P.oD k (Pgm.xstep (CD Z) P.oD k (Pgm.onStart (CD Z) P.oD k v)))
    (Pgm.rsdl P.oD k (Pgm.ystep P.oD k (Pgm.xstep (CD Z) P.oD k (Pgm.onStart (CD Z) P.oD k v))))], ?_⟩
  change (Pgm.solve (Pgm.ops (CD Z) P.oD) P.oD none _, m Z) = _
  have hl : Pgm.loop (Pgm.ops (CD Z) P.oD) P.oD none [k] ⟨k, l, v⟩ = (Pgm.body (Pgm.ops (CD Z) P.oD) P.oD none k ⟨k, l, v⟩).1 := by
    simp only [Pgm.loop, ite_self]
  change (Pgm.St.mk ((Pgm.loop (Pgm.ops (CD Z) P.oD) P.oD none [k] ⟨k, l, v⟩).k + 1) (Pgm.loop (Pgm.ops (CD Z) P.oD) P.oD none [k] ⟨k, l, v⟩).itstat
    (Pgm.loop (Pgm.ops (CD Z) P.oD) P.oD none [k] ⟨k, l, v⟩).v, m Z) = _
  rw [hl]
  rfl

/-- One dictionary update. -/
theorem dstep_at (k : ℕ) (v : Pgm.Vars (Arr 1 1)) (Z a b D' s w t' : ℝ) (hX : v.X = c a) (hY : v.Y = c b) (hL : v.L = 1 / 4)
    (ht' : (k + 2 : ℝ) / 2 = t') (hw : b - 4 * ((b * Z + 3) * Z) = w) (hs : s ≠ 0)
    (h : Real.sqrt (w ^ 2) = s) (hD : w / s = D') :
    let v' := Pgm.ystep P.oD k (Pgm.xstep (CD Z) P.oD k (Pgm.onStart (CD Z) P.oD k v))
    v'.X = c D' ∧ v'.Y = c (D' + (v.t - 1) / t' * (D' - a)) ∧ v'.L = 1 / 4 ∧ v'.t = t' := by
  have hp : (CD Z).proxG (1 / 4) (c b - (1 / (1 / 4 : ℝ)) • c ((b * Z + 3) * Z)) = c D' := by
    change arr (Pcn (mat (c b - _))) = _
    rw [c_smul, c_sub, mat_c, show b - 1 / (1 / 4) * ((b * Z + 3) * Z) = w by rw [← hw]; ring, Pcn_m w s hs h, hD]
    rfl
  have hx : (Pgm.xstep (CD Z) P.oD k (Pgm.onStart (CD Z) P.oD k v)).X = c D' := by
    rw [← hp, ← CD_grad, ← hY, ← hL]
    rfl
  have hv : (Pgm.xstep (CD Z) P.oD k (Pgm.onStart (CD Z) P.oD k v)).Xprv = c a := hX
  have ht1 : (P.oD.momentum.next k v.t) = t' := ht'
  refine ⟨hx, ?_, hL, ht1⟩
  change (Pgm.xstep (CD Z) P.oD k (Pgm.onStart (CD Z) P.oD k v)).X + ((v.t - 1) / P.oD.momentum.next k v.t) •
    ((Pgm.xstep (CD Z) P.oD k (Pgm.onStart (CD Z) P.oD k v)).X - (Pgm.xstep (CD Z) P.oD k (Pgm.onStart (CD Z) P.oD k v)).Xprv) = _
  rw [hx, hv, ht1, c_sub, c_smul, c_add]

/-- The first sparse coding step. -/
theorem xstep_first (v : Pgm.Vars (Arr 1 1)) (D a b : ℝ) (hX : v.X = c a) (hY : v.Y = c b) (hL : v.L = 2) (ht : v.t = 1) :
    let v' := Pgm.ystep P.oX 0 (Pgm.xstep (CX D) P.oX 0 (Pgm.onStart (CX D) P.oX 0 v))
    v'.X = c (b - 1 / 2 * (D * (D * b + 3))) ∧ v'.Y = c (b - 1 / 2 * (D * (D * b + 3))) ∧ v'.L = 2 ∧ v'.t = 1 ∧
      v'.objfn = (CX D).objfn (c a) := by
  have hx : (Pgm.xstep (CX D) P.oX 0 (Pgm.onStart (CX D) P.oX 0 v)).X = c (b - 1 / 2 * (D * (D * b + 3))) := by
    change (CX D).proxG v.L (v.Y - (1 / v.L) • (CX D).gradF v.Y) = _
    rw [hY, hL, CX_grad, c_smul, c_sub, CX_prox]
  refine ⟨hx, ?_, hL, ?_, ?_⟩
  · change (Pgm.xstep (CX D) P.oX 0 (Pgm.onStart (CX D) P.oX 0 v)).X + ((v.t - 1) / P.oX.momentum.next 0 v.t) • _ = _
    rw [hx, ht, sub_self, zero_div, zero_smul, add_zero]
  · change ((0 : ℕ) + 2 : ℝ) / 2 = 1
    norm_num
  · change (CX D).objfn v.X = _
    rw [hX]

/-- A later sparse coding step. -/
theorem xstep_later (k : ℕ) (v : Pgm.Vars (Arr 1 1)) (D a b f z t' : ℝ) (hX : v.X = c a) (hY : v.Y = c b)
    (hL : v.L = 2) (ht' : (k + 1 + 2 : ℝ) / 2 = t') (hf : v.objfn.1 = f) (hz : b - 1 / 2 * (D * (D * b + 3)) = z) :
    let v' := Pgm.ystep P.oX (k + 1) (Pgm.xstep (CX D) P.oX (k + 1) (Pgm.onStart (CX D) P.oX (k + 1) v))
    v'.L = 2 ∧ v'.t = t' ∧
    (f < 1 / 2 * (D * z + 3) ^ 2 → v'.X = c a ∧ v'.Y = c (a + v.t / t' * (z - a)) ∧ v'.objfn.1 = f) ∧
    (¬ f < 1 / 2 * (D * z + 3) ^ 2 → v'.X = c z ∧ v'.objfn.1 = 1 / 2 * (D * z + 3) ^ 2) := by
  have hp : (CX D).proxG v.L (v.Y - (1 / v.L) • (CX D).gradF v.Y) = c z := by
    rw [hY, hL, CX_grad, c_smul, c_sub, CX_prox, hz]
  have hsf : Pgm.xstep (CX D) P.oX (k + 1) (Pgm.onStart (CX D) P.oX (k + 1) v) =
      Pgm.safeguard (CX D) P.oX (k + 1) { v with Xprv := v.X, Yprv := v.Y, objfnPrev := v.objfn,
                                                 X := (CX D).proxG v.L (v.Y - (1 / v.L) • (CX D).gradF v.Y) } := rfl
  have hg : P.oX.monotone = true ∧ k + 1 > 0 := ⟨rfl, Nat.succ_pos k⟩
  have ht1 : P.oX.momentum.next (k + 1) v.t = t' := by
    rw [← ht']
    change ((k + 1 : ℕ) + 2 : ℝ) / 2 = _
    push_cast
    rfl
  rw [hp] at hsf
  unfold Pgm.safeguard at hsf
  rw [if_pos hg] at hsf
  dsimp only at hsf
  rw [CX_obj, hf] at hsf
  dsimp only at hsf
  intro v'
  by_cases h : f < 1 / 2 * (D * z + 3) ^ 2
  · rw [if_pos h] at hsf
    have hv' : v' = Pgm.ystep P.oX (k + 1) _ := congrArg (Pgm.ystep P.oX (k + 1)) hsf
    unfold Pgm.ystep at hv'
    rw [if_pos hg] at hv'
    dsimp only at hv'
    refine ⟨by rw [hv']; exact hL, by rw [hv']; exact ht1, fun _ => ⟨by rw [hv']; exact hX, ?_, by rw [hv']; exact hf⟩,
      fun h' => absurd h h'⟩
    rw [hv', ht1]
    dsimp only
    rw [hX, c_sub, c_smul, c_add, c_sub, c_smul, c_add, sub_self, mul_zero, add_zero]
  · rw [if_neg h] at hsf
    have hv' : v' = Pgm.ystep P.oX (k + 1) _ := congrArg (Pgm.ystep P.oX (k + 1)) hsf
    unfold Pgm.ystep at hv'
    rw [if_pos hg] at hv'
    dsimp only at hv'
    exact ⟨by rw [hv']; exact hL, by rw [hv']; exact ht1, fun h' => absurd h' h, fun _ => ⟨by rw [hv'], by rw [hv']⟩⟩

end Sporco.Dictlrn.MonoEx

namespace Sporco.Dictlrn
open MonoEx
open Sporco.Admm (mat arr)

/-- **C47 and C70 fail for dictionary learning with `Monotone` and without `AccurateDFid`.** The sparse coding object
compares the objective at the new coefficients, for the current dictionary, with a value that it computed for an earlier
dictionary, and records that value when it keeps the old coefficients.  One training signal `-3`, initial dictionary `-1`,
initial coefficient 4, step parameter `L = 2` (the Lipschitz constant is 1).  In the second iteration the recorded functional
is 1/2 and its value at the dictionary used and the coefficients returned is 169/8; in the third iteration sparse coding
changes the functional from 1/8 to 25/72. -/
theorem C47_C70_learning_refuted : P.oX.monotone = true ∧ getPcnNN P.zm P.nnc = some Pcn ∧
    ∃ s xs ds, dlRun (envW P Pcn fun _ => 0) [(3, fun _ => false)] ⟨xW0 Pcn (m (-1)) x0, dW0 Pcn (m (-1)) x0 d0, 0, []⟩ = some s ∧
      Alternates (envW P Pcn fun _ => 0) (xW0 Pcn (m (-1)) x0) (dW0 Pcn (m (-1)) x0 d0) xs ds ∧
      (∃ h : 1 < s.itstat.length, (∀ v, ("ObjFun", v) ∈ s.itstat[1] → v = Val.val (1 / 2)) ∧
        wdfd P.W ((dW P Pcn).getdict (ds 0)) P.S ((xW P).getcoef (xs 1)) = 169 / 8) ∧
      wdfd P.W ((dW P Pcn).getdict (ds 1)) P.S ((xW P).getcoef (xs 1)) = 1 / 8 ∧
      wdfd P.W ((dW P Pcn).getdict (ds 1)) P.S ((xW P).getcoef (xs 2)) = 25 / 72 := by
  refine ⟨rfl, rfl, ?_⟩
  obtain ⟨s, hs⟩ := run_total (rowsOk_W P Pcn fun _ => 0) [(3, fun _ => false)]
    ⟨xW0 Pcn (m (-1)) x0, dW0 Pcn (m (-1)) x0 d0, 0, []⟩
  obtain ⟨xs, ds, n, h1, h2, -, hn, num, -, h4⟩ := C55_alternation hs
  have hlen : s.itstat.length = 3 := run_length hs
  -- initial dictionary
  have hP0 : Pcn (m (-1)) = m (-1) := by
    rw [Pcn_m (-1) 1 one_ne_zero (by norm_num)]; norm_num
  have hx0 : xW0 Pcn (m (-1)) x0 = (⟨0, [], x0⟩, m (-1)) := by unfold xW0; rw [hP0]; rfl
  -- first iteration
  obtain ⟨r0, e0⟩ := xsolve 0 [] x0 (-1)
  have hxs0 := h1.x_first
  rw [hx0] at hxs0
  have hxs0' := hxs0.trans e0
  obtain ⟨a1, a2, a3, a4, a5⟩ := xstep_first x0 (-1) 4 4 rfl rfl rfl rfl
  generalize Pgm.ystep P.oX 0 (Pgm.xstep (CX (-1)) P.oX 0 (Pgm.onStart (CX (-1)) P.oX 0 x0)) = v1 at hxs0' a1 a2 a3 a4 a5
  generalize [] ++ [Pgm.statOf (CX (-1)) P.oX 0 v1 r0] = l1 at hxs0'
  have b1 : v1.X = c (7 / 2) := by rw [a1]; norm_num
  have b2 : v1.Y = c (7 / 2) := by rw [a2]; norm_num
  have b5 : v1.objfn.1 = 1 / 2 := by rw [a5, CX_obj]; norm_num
  have hd0 := h1.d_first
  rw [hxs0'] at hd0
  have hd0' : ds 0 = (dW P Pcn).solve (⟨0, [], { d0 with X := c (-1), Y := c (-1) }⟩, m (7 / 2)) := by
    rw [hd0]
    change (dW P Pcn).solve (⟨0, [], { d0 with X := arr (Pcn (m (-1))), Y := arr (Pcn (m (-1))) }⟩, mat v1.X) = _
    rw [hP0, b1]
    rfl
  obtain ⟨l', e1⟩ := dsolve 0 [] { d0 with X := c (-1), Y := c (-1) } (7 / 2)
  have hd0'' := hd0'.trans e1
  obtain ⟨f1, f2, f3, f4⟩ := dstep_at 0 { d0 with X := c (-1), Y := c (-1) } (7 / 2) (-1) (-1) 1 6 6 1 rfl rfl rfl (by norm_num)
    (by norm_num) (by norm_num) (Real.sqrt_sq (by norm_num)) (by norm_num)
  generalize Pgm.ystep P.oD 0 (Pgm.xstep (CD (7 / 2)) P.oD 0
    (Pgm.onStart (CD (7 / 2)) P.oD 0 { d0 with X := c (-1), Y := c (-1) })) = w1 at hd0'' f1 f2 f3 f4
  have f2' : w1.Y = c 1 := by
    rw [f2]
    change c (1 + ((1 : ℝ) - 1) / 1 * (1 - -1)) = _
    norm_num
  have g0 : (dW P Pcn).getdict (ds 0) = m 1 := by
    rw [hd0'']
    change mat w1.X = _
    rw [f1]
    rfl
  -- second iteration
  have hxs1 : xs 1 = (xW P).solve (⟨1, l1, v1⟩, m 1) := by
    rw [h1.x_next 0, hxs0']
    change (xW P).solve (⟨1, l1, v1⟩, (dW P Pcn).getdict (ds 0)) = _
    rw [g0]
  obtain ⟨r1, e2⟩ := xsolve 1 l1 v1 1
  have hxs1' := hxs1.trans e2
  obtain ⟨p1, p2, p3, -⟩ := xstep_later 0 v1 1 (7 / 2) (7 / 2) (1 / 2) (1 / 4) (3 / 2) b1 b2 a3 (by norm_num) b5 (by norm_num)
  rw [zero_add] at p1 p2 p3
  obtain ⟨p4, p5, p6⟩ := p3 (by norm_num)
  generalize Pgm.ystep P.oX 1 (Pgm.xstep (CX 1) P.oX 1 (Pgm.onStart (CX 1) P.oX 1 v1)) = v2 at hxs1' p1 p2 p4 p5 p6
  have p5' : v2.Y = c (4 / 3) := by
    rw [p5, a4]; norm_num
  have hd1 : ds 1 = (dW P Pcn).solve (⟨1, l', w1⟩, m (7 / 2)) := by
    rw [h1.d_next 0, hd0'', hxs1']
    change (dW P Pcn).solve (⟨1, l', w1⟩, mat v2.X) = _
    rw [p4]
    rfl
  obtain ⟨l'', e3⟩ := dsolve 1 l' w1 (7 / 2)
  have hd1' := hd1.trans e3
  obtain ⟨q1, -⟩ := dstep_at 1 w1 (7 / 2) 1 1 (-1) 90 (-90) (3 / 2) f1 f2' f3 (by norm_num)
    (by norm_num) (by norm_num) (by rw [show ((-90 : ℝ)) ^ 2 = 90 ^ 2 by norm_num]; exact Real.sqrt_sq (by norm_num)) (by norm_num)
  have g1 : (dW P Pcn).getdict (ds 1) = m (-1) := by
    rw [hd1']
    change mat (Pgm.ystep P.oD 1 (Pgm.xstep (CD (7 / 2)) P.oD 1 (Pgm.onStart (CD (7 / 2)) P.oD 1 w1))).X = _
    rw [q1]
    rfl
  -- third iteration
  have hxs2 : xs 2 = (xW P).solve (⟨2, l1 ++ [Pgm.statOf (CX 1) P.oX 1 v2 r1], v2⟩, m (-1)) := by
    rw [h1.x_next 1, hxs1']
    change (xW P).solve (⟨2, _, v2⟩, (dW P Pcn).getdict (ds 1)) = _
    rw [g1]
  obtain ⟨r2, e4⟩ := xsolve 2 (l1 ++ [Pgm.statOf (CX 1) P.oX 1 v2 r1]) v2 (-1)
  have hxs2' := hxs2.trans e4
  obtain ⟨-, -, -, t3⟩ := xstep_later 1 v2 (-1) (7 / 2) (4 / 3) (1 / 2) (13 / 6) 2 p4 p5' p1 (by norm_num) p6 (by norm_num)
  obtain ⟨t4, -⟩ := t3 (by norm_num)
  have z1 : (xW P).getcoef (xs 1) = m (7 / 2) := by
    rw [hxs1']
    change mat v2.X = _
    rw [p4]
    rfl
  have z2 : (xW P).getcoef (xs 2) = m (13 / 6) := by
    rw [hxs2']
    change mat (Pgm.ystep P.oX 2 (Pgm.xstep (CX (-1)) P.oX 2 (Pgm.onStart (CX (-1)) P.oX 2 v2))).X = _
    rw [t4]
    rfl
  refine ⟨s, xs, ds, hs, h1, ⟨by omega, fun v hv => ?_, ?_⟩, ?_, ?_⟩
  · have h5 := (C55_fields (h4 1 (by omega))).2 "ObjFun" v hv
    obtain ⟨w, hw1, rfl⟩ := h5.1 "ObjFun" rfl
    change lastStat ((xs 1).1.itstat.map (statWB P.lmbda)) _ _ "ObjFun" = some w at hw1
    rw [hxs1'] at hw1
    unfold lastStat at hw1
    simp only [List.map_append, List.map_cons, List.map_nil, List.getLast?_concat] at hw1
    have hw2 : v2.objfn.1 = w := Option.some.inj hw1
    rw [← hw2, p6]
  · rw [g0, z1, wdfd_c]; norm_num
  · rw [g1, z1, wdfd_c]; norm_num
  · rw [g1, z2, wdfd_c]; norm_num

end Sporco.Dictlrn
