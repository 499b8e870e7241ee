import Mathlib.Data.Nat.Digits.Lemmas
import Mathlib.Data.Real.Basic
import Mathlib.Algebra.Order.Archimedean.Real.Basic
import Mathlib.Data.Int.Log
import Mathlib.Tactic.Linarith
import Mathlib.Tactic.FieldSimp
import Mathlib.Tactic.NormNum
import Mathlib.Tactic.IntervalCases
import Mathlib.Tactic.Positivity

/-!
# The status table (C87): `common.solve_status_str` and the formatting of a row
-/

set_option autoImplicit false

namespace Sporco.Util.Display

/-- A string. -/
abbrev Text := List Char

/-! ## Decimal numerals -/

/-- The decimal numeral of a natural number (`str(n)` in Python). -/
def dec (n : ℕ) : Text := if n = 0 then ['0'] else (Nat.digits 10 n).reverse.map Nat.digitChar

/-- The number a string of decimal digits stands for. -/
def value (t : Text) : ℕ := t.foldl (fun a c => 10 * a + (c.toNat - 48)) 0

/-- The numeral of `n`, filled with zeros on the left to `p` digits. -/
def decPad (p n : ℕ) : Text := List.replicate (p - (dec n).length) '0' ++ dec n

theorem digitChar_toNat (d : ℕ) (h : d < 10) : (Nat.digitChar d).toNat - 48 = d := by
  interval_cases d <;> decide

theorem digitChar_isDigit (d : ℕ) (h : d < 10) : (Nat.digitChar d).isDigit = true := by
  interval_cases d <;> decide

theorem value_dec (n : ℕ) : value (dec n) = n := by
  unfold dec value
  split_ifs with h
  · subst h; decide
  rw [List.foldl_map, List.foldl_reverse]
  have : ∀ l : List ℕ, (∀ d ∈ l, d < 10) →
      l.foldr (fun d a => 10 * a + ((Nat.digitChar d).toNat - 48)) 0 = Nat.ofDigits 10 l := by
    intro l
    induction l with
    | nil => intro _; rfl
    | cons d l ih =>
      intro hl
      rw [List.foldr_cons, ih fun e he => hl e (List.mem_cons_of_mem _ he),
        digitChar_toNat d (hl d List.mem_cons_self), Nat.ofDigits_cons]
      omega
  rw [this _ fun d hd => Nat.digits_lt_base (by norm_num) hd, Nat.ofDigits_digits]

theorem dec_digit (n : ℕ) : ∀ c ∈ dec n, c.isDigit = true := by
  intro c hc
  unfold dec at hc
  split_ifs at hc
  · rw [List.mem_singleton.mp hc]; decide
  · obtain ⟨d, hd, rfl⟩ := List.mem_map.mp hc
    exact digitChar_isDigit d (Nat.digits_lt_base (by norm_num) (List.mem_reverse.mp hd))

theorem dec_ne_nil (n : ℕ) : dec n ≠ [] := by
  unfold dec
  split_ifs with h
  · exact List.cons_ne_nil _ _
  · simpa using Nat.digits_ne_nil_iff_ne_zero.mpr h

theorem dec_length (n w : ℕ) (hw : 0 < w) (h : n < 10 ^ w) : (dec n).length ≤ w := by
  unfold dec
  split_ifs with h0
  · exact hw
  · rw [List.length_map, List.length_reverse]
    exact (Nat.digits_length_le_iff (by norm_num) n).mpr h

theorem decPad_length (p n : ℕ) (hp : 0 < p) (h : n < 10 ^ p) : (decPad p n).length = p := by
  have := dec_length n p hp h
  unfold decPad
  rw [List.length_append, List.length_replicate]
  omega

theorem value_zeros (k : ℕ) (t : Text) : value (List.replicate k '0' ++ t) = value t := by
  unfold value
  rw [List.foldl_append]
  congr 1
  induction k with
  | zero => rfl
  | succ k ih => rw [List.replicate_succ, List.foldl_cons]; exact ih

theorem value_decPad (p n : ℕ) : value (decPad p n) = n := by
  unfold decPad
  rw [value_zeros, value_dec]

/-! ## Values and the `%` operator -/

/-- A value of an iteration statistics tuple; `none` is Python's `None`. -/
inductive Val where
  | int : ℤ → Val
  | real : ℝ → Val
  | none : Val

/-- How the C library prints a number with `p` digits after the point in scientific notation: the digits as a natural
number `mant` and the exponent, of which it is only assumed that the number printed is nearest to `x`. -/
structure Sci where
  mant : ℕ → ℝ → ℕ
  expo : ℕ → ℝ → ℤ
  zero : ∀ p, mant p 0 = 0 ∧ expo p 0 = 0
  lo : ∀ p x, x ≠ 0 → 10 ^ p ≤ mant p x
  hi : ∀ p x, mant p x < 10 ^ (p + 1)
  near : ∀ p x, |(|x| - mant p x * (10 : ℝ) ^ (expo p x - p))| ≤ (10 : ℝ) ^ (expo p x - p) / 2

/-- The contract of `Sci` can be met. -/
theorem sci_exists : Nonempty Sci := by
  classical
  have key : ∀ (p : ℕ) (x : ℝ), ∃ m : ℕ, ∃ e : ℤ, (x = 0 → m = 0 ∧ e = 0) ∧ (x ≠ 0 → 10 ^ p ≤ m) ∧ m < 10 ^ (p + 1) ∧
      |(|x| - m * (10 : ℝ) ^ (e - p))| ≤ (10 : ℝ) ^ (e - p) / 2 := by
    intro p x
    rcases eq_or_ne x 0 with rfl | hx
    · refine ⟨0, 0, fun _ => ⟨rfl, rfl⟩, fun h => absurd rfl h, Nat.pow_pos (by norm_num), ?_⟩
      simp only [abs_zero, Nat.cast_zero, zero_mul, sub_zero]
      exact (half_pos (zpow_pos (by norm_num) _)).le
    · have hp : 0 < |x| := abs_pos.mpr hx
      set e := Int.log 10 |x| with he
      have h1 : (10 : ℝ) ^ e ≤ |x| := by
        have := Int.zpow_log_le_self (R := ℝ) (b := 10) (by norm_num) hp
        exact_mod_cast this
      have h2 : |x| < (10 : ℝ) ^ (e + 1) := by
        have := Int.lt_zpow_succ_log_self (R := ℝ) (b := 10) (by norm_num) |x|
        exact_mod_cast this
      have hu : (0 : ℝ) < (10 : ℝ) ^ (e - p) := zpow_pos (by norm_num) _
      set y := |x| / (10 : ℝ) ^ (e - p) with hy
      have hxy : |x| = y * (10 : ℝ) ^ (e - p) := by rw [hy]; field_simp
      have e1 : (10 : ℝ) ^ e = (10 : ℝ) ^ p * (10 : ℝ) ^ (e - p) := by
        rw [← zpow_natCast, ← zpow_add₀ (by norm_num)]; congr 1; ring
      have e2 : (10 : ℝ) ^ (e + 1) = (10 : ℝ) ^ (p + 1) * (10 : ℝ) ^ (e - p) := by
        rw [← zpow_natCast, ← zpow_add₀ (by norm_num)]; congr 1; push_cast; ring
      have hy1 : (10 : ℝ) ^ p ≤ y := by
        rw [e1, hxy] at h1; exact le_of_mul_le_mul_right h1 hu
      have hy2 : y < (10 : ℝ) ^ (p + 1) := by
        rw [e2, hxy] at h2; exact lt_of_mul_lt_mul_right h2 hu.le
      have hr := abs_sub_round y
      have hr1 : (10 : ℤ) ^ p ≤ round y := by
        have : ((10 : ℤ) ^ p : ℤ) = round (((10 : ℤ) ^ p : ℤ) : ℝ) := (round_intCast _).symm
        rw [this, round_eq, round_eq]
        apply Int.floor_le_floor
        push_cast
        linarith
      have hr2 : round y ≤ (10 : ℤ) ^ (p + 1) := by
        have : ((10 : ℤ) ^ (p + 1) : ℤ) = round (((10 : ℤ) ^ (p + 1) : ℤ) : ℝ) := (round_intCast _).symm
        rw [this, round_eq, round_eq]
        apply Int.floor_le_floor
        push_cast
        linarith
      obtain ⟨m, hm⟩ := Int.eq_ofNat_of_zero_le (le_trans (by positivity) hr1)
      have hmr : ((round y : ℤ) : ℝ) = m := by rw [hm]; simp
      rw [hmr] at hr
      rw [hm] at hr1 hr2
      have hm1 : 10 ^ p ≤ m := by exact_mod_cast hr1
      have hm2 : m ≤ 10 ^ (p + 1) := by exact_mod_cast hr2
      have hn : |(|x| - m * (10 : ℝ) ^ (e - p))| ≤ (10 : ℝ) ^ (e - p) / 2 := by
        rw [hxy, ← sub_mul, abs_mul, abs_of_pos hu]
        calc |y - m| * (10 : ℝ) ^ (e - p) ≤ 1 / 2 * (10 : ℝ) ^ (e - p) := by gcongr
          _ = _ := by ring
      rcases hm2.lt_or_eq with hlt | heq
      · exact ⟨m, e, fun h => absurd h hx, fun _ => hm1, hlt, hn⟩
      · refine ⟨10 ^ p, e + 1, fun h => absurd h hx, fun _ => le_rfl, by rw [pow_succ]; have : 0 < 10 ^ p := by positivity
                                                                         omega, ?_⟩
        have e3 : (10 : ℝ) ^ (e + 1 - p) = 10 * (10 : ℝ) ^ (e - p) := by
          rw [show e + 1 - (p : ℤ) = 1 + (e - p) by ring, zpow_add₀ (by norm_num), zpow_one]
        have e4 : (((10 ^ p : ℕ) : ℝ)) * (10 : ℝ) ^ (e + 1 - p) = m * (10 : ℝ) ^ (e - p) := by
          rw [e3, heq]; push_cast; rw [pow_succ]; ring
        rw [e4, e3]
        linarith
  choose m e h using key
  exact ⟨⟨m, e, fun p => (h p 0).1 rfl, fun p x => (h p x).2.1, fun p x => (h p x).2.2.1, fun p x => (h p x).2.2.2⟩⟩

/-- `'%.<p>e' % x`; negative zero, infinities and nan are not modelled, and `p` is positive. -/
noncomputable def rendE (S : Sci) (p : ℕ) (x : ℝ) : Text :=
  (if x < 0 then ['-'] else []) ++ dec (S.mant p x / 10 ^ p) ++ '.' :: decPad p (S.mant p x % 10 ^ p) ++
    'e' :: (if S.expo p x < 0 then '-' else '+') :: decPad 2 (S.expo p x).natAbs

/-- `'%d' % n` -/
def rendD (n : ℤ) : Text := (if n < 0 then ['-'] else []) ++ dec n.natAbs

/-- Filling with spaces on the left (`'%<w>...'`). -/
def padL (w : ℕ) (t : Text) : Text := List.replicate (w - t.length) ' ' ++ t

/-- Filling with spaces on the right (`'%-<w>s'`). -/
def padR (w : ℕ) (t : Text) : Text := t ++ List.replicate (w - t.length) ' '

/-- A conversion specifier that has been read in part: the flag `-`, the width and the precision. -/
structure Mode where
  left : Bool
  wid : Text
  prec : Option Text

/-- One conversion; `none` is a `TypeError` or `ValueError`. Only `d` and `e` are modelled; a real number given to `d`
is truncated. -/
noncomputable def convert (S : Sci) (m : Mode) (c : Char) (v : Val) : Option Text :=
  let pad := fun t => if m.left then padR (value m.wid) t else padL (value m.wid) t
  if c = 'd' then
    match v with
    | .int n => some (pad (rendD n))
    | .real x => some (pad (rendD (if x < 0 then ⌈x⌉ else ⌊x⌋)))
    | .none => none
  else if c = 'e' then
    match v with
    | .int n => some (pad (rendE S ((m.prec.map value).getD 6) n))
    | .real x => some (pad (rendE S ((m.prec.map value).getD 6) x))
    | .none => none
  else none

/-- The operator `%` of Python strings with a tuple on the right, reading the format from left to right; the first
argument is the specifier being read, if any. The flags `0`, `+`, space and `#` and `%%` are not modelled. -/
noncomputable def fmtGo (S : Sci) : Option Mode → Text → List Val → Option Text
  | none, [], [] => some []
  | none, [], _ :: _ => none
  | some _, [], _ => none
  | none, c :: r, vs =>
    if c = '%' then fmtGo S (some ⟨false, [], none⟩) r vs else (fmtGo S none r vs).map (c :: ·)
  | some m, c :: r, vs =>
    if c = '-' ∧ m.wid = [] ∧ m.prec = none then fmtGo S (some { m with left := true }) r vs
    else if c = '.' ∧ m.prec = none then fmtGo S (some { m with prec := some [] }) r vs
    else if c.isDigit then
      match m.prec with
      | none => fmtGo S (some { m with wid := m.wid ++ [c] }) r vs
      | some q => fmtGo S (some { m with prec := some (q ++ [c]) }) r vs
    else
      match vs with
      | [] => none
      | v :: vs => (convert S m c v).bind fun t => (fmtGo S none r vs).map (t ++ ·)

/-- `fmtstr % tuple` -/
noncomputable def pyFormat (S : Sci) (fmt : Text) (vs : List Val) : Option Text := fmtGo S none fmt vs

/-- `('  ').join(l)` -/
def joinT : List Text → Text
  | [] => []
  | [t] => t
  | t :: u :: l => t ++ ' ' :: ' ' :: joinT (u :: l)

/-! ## `solve_status_str` -/

/-- The optional `-` of the regular expression (`common.py` 279). -/
def skipMinus : Text → Text
  | '-' :: r => r
  | r => r

/-- The regular expression `%-?(\d+)` matched at the start of a field format (`common.py` 279, 282). -/
def fldWidth : Text → Option ℕ
  | '%' :: r =>
    let d := (skipMinus r).takeWhile Char.isDigit
    if d = [] then none else some (value d)
  | _ => none

/-- `('%%%dd' % w)` (`common.py` 272) -/
def fmtD (w : ℕ) : Text := '%' :: dec w ++ ['d']

/-- `('%%%d.%de' % (w, p))` (`common.py` 273) -/
def fmtE (w p : ℕ) : Text := '%' :: dec w ++ '.' :: dec p ++ ['e']

/-- The format of a field (`common.py` 271-273). -/
def fldFmt (fmtmap : List (Text × Text)) (fwdth0 fwdthdlt fprec : ℕ) (first : Bool) (lbl : Text) : Text :=
  match fmtmap.lookup lbl with
  | some f => f
  | none => if first then fmtD fwdth0 else fmtE (fprec + fwdthdlt) fprec

/-- The formats of all fields (`common.py` 271-274). -/
def fldFmts (fmtmap : List (Text × Text)) (fwdth0 fwdthdlt fprec : ℕ) : List Text → List Text
  | [] => []
  | l :: ls => fldFmt fmtmap fwdth0 fwdthdlt fprec true l :: ls.map (fldFmt fmtmap fwdth0 fwdthdlt fprec false)

/-- `solve_status_str` (`common.py` 230-296): header string, format string and length of the separator; `none` is the
`ValueError`. -/
def statusStr (hdrlbl : List Text) (fmtmap : List (Text × Text)) (fwdth0 fwdthdlt fprec : ℕ) :
    Option (Text × Text × ℕ) :=
  let fldfmt := fldFmts fmtmap fwdth0 fwdthdlt fprec hdrlbl
  (fldfmt.mapM fldWidth).map fun fldwid =>
    let hdrstr := joinT (List.zipWith padR fldwid hdrlbl)
    (hdrstr, joinT fldfmt, hdrstr.length)

/-! ## Specification -/

/-- What a column holds: a count of at most `w` digits, or a number with `p` digits after the point. -/
inductive Kind where
  | count (w : ℕ)
  | sci (w p : ℕ)

/-- The width of a column. -/
def Kind.width : Kind → ℕ
  | .count w => w
  | .sci w _ => w

/-- The text of a value in a column. -/
noncomputable def Kind.show (S : Sci) : Kind → Val → Option Text
  | .count _, .int n => some (rendD n)
  | .count _, .real x => some (rendD (if x < 0 then ⌈x⌉ else ⌊x⌋))
  | .sci _ p, .int n => some (rendE S p n)
  | .sci _ p, .real x => some (rendE S p x)
  | _, .none => none

/-- The part of a line below the title of column `i`, where `ws` are the widths of the columns and two spaces are left
between columns. -/
def column (ws : List ℕ) (i : ℕ) (t : Text) : Text :=
  (t.drop ((ws.take i).map (· + 2)).sum).take (ws[i]?.getD 0)

/-- The format of a column. -/
def Kind.fmt : Kind → Text
  | .count w => fmtD w
  | .sci w p => fmtE w p

theorem fldWidth_digits (w : ℕ) (c : Char) (r : Text) (hc : c.isDigit = false) :
    fldWidth ('%' :: (dec w ++ c :: r)) = some w := by
  have hne := dec_ne_nil w
  have hd := dec_digit w
  have ht : (dec w ++ c :: r).takeWhile Char.isDigit = dec w := by
    rw [List.takeWhile_append_of_pos hd, List.takeWhile_cons_of_neg (by simp [hc]), List.append_nil]
  unfold fldWidth
  have hm : skipMinus (dec w ++ c :: r) = dec w ++ c :: r := by
    unfold skipMinus
    cases hh : dec w with
    | nil => exact absurd hh hne
    | cons a l =>
      have ha : a.isDigit = true := hd a (hh ▸ List.mem_cons_self)
      rw [List.cons_append]
      split
      · rename_i heq
        have : a = '-' := (List.cons.inj heq).1
        rw [this] at ha
        exact absurd ha (by decide)
      · rfl
  simp only [hm, ht, if_neg hne, value_dec]

theorem fldWidth_fmt (k : Kind) : fldWidth k.fmt = some k.width := by
  cases k with
  | count w => exact fldWidth_digits w 'd' [] (by decide)
  | sci w p =>
    have := fldWidth_digits w '.' (dec p ++ ['e']) (by decide)
    simpa [Kind.fmt, fmtE, Kind.width] using this

theorem not_isDigit_ne {c : Char} (h : c.isDigit = true) : c ≠ '-' ∧ c ≠ '.' := by
  constructor <;> rintro rfl <;> exact absurd h (by decide)

theorem fmtGo_minus_or (S : Sci) (m : Mode) (c : Char) (r : Text) (vs : List Val) :
    fmtGo S (some m) (c :: r) vs =
    if c = '-' ∧ m.wid = [] ∧ m.prec = none then fmtGo S (some { m with left := true }) r vs
    else if c = '.' ∧ m.prec = none then fmtGo S (some { m with prec := some [] }) r vs
    else if c.isDigit then
      match m.prec with
      | none => fmtGo S (some { m with wid := m.wid ++ [c] }) r vs
      | some q => fmtGo S (some { m with prec := some (q ++ [c]) }) r vs
    else
      match vs with
      | [] => none
      | v :: vs => (convert S m c v).bind fun t => (fmtGo S none r vs).map (t ++ ·) := by
  cases vs <;> rw [fmtGo]

theorem fmtGo_lit (S : Sci) (c : Char) (r : Text) (vs : List Val) :
    fmtGo S none (c :: r) vs =
      if c = '%' then fmtGo S (some ⟨false, [], none⟩) r vs else (fmtGo S none r vs).map (c :: ·) := by
  cases vs <;> rw [fmtGo]

theorem fmtGo_wid (S : Sci) (l : Bool) (d r : Text) (w : Text) (vs : List Val) (hd : ∀ c ∈ d, c.isDigit = true) :
    fmtGo S (some ⟨l, w, none⟩) (d ++ r) vs = fmtGo S (some ⟨l, w ++ d, none⟩) r vs := by
  induction d generalizing w with
  | nil => simp
  | cons c d ih =>
    have hc := hd c List.mem_cons_self
    obtain ⟨h1, h2⟩ := not_isDigit_ne hc
    rw [List.cons_append, fmtGo_minus_or]
    rw [if_neg (fun h => h1 h.1), if_neg (fun h => h2 h.1), if_pos hc]
    change fmtGo S (some ⟨l, w ++ [c], none⟩) (d ++ r) vs = _
    rw [ih _ fun e he => hd e (List.mem_cons_of_mem _ he)]
    simp

theorem fmtGo_prec (S : Sci) (l : Bool) (d r : Text) (w q : Text) (vs : List Val) (hd : ∀ c ∈ d, c.isDigit = true) :
    fmtGo S (some ⟨l, w, some q⟩) (d ++ r) vs = fmtGo S (some ⟨l, w, some (q ++ d)⟩) r vs := by
  induction d generalizing q with
  | nil => simp
  | cons c d ih =>
    have hc := hd c List.mem_cons_self
    rw [List.cons_append, fmtGo_minus_or]
    rw [if_neg (fun h => by cases h.2.2), if_neg (fun h => by cases h.2), if_pos hc]
    change fmtGo S (some ⟨l, w, some (q ++ [c])⟩) (d ++ r) vs = _
    rw [ih _ fun e he => hd e (List.mem_cons_of_mem _ he)]
    simp

/-- A field of the format string consumes one value. -/
theorem fmtGo_field (S : Sci) (k : Kind) (r : Text) (v : Val) (vs : List Val) :
    fmtGo S none (k.fmt ++ r) (v :: vs) =
      ((k.show S v).map (padL k.width)).bind fun t => (fmtGo S none r vs).map (t ++ ·) := by
  cases k with
  | count w =>
    have e : Kind.fmt (.count w) ++ r = '%' :: (dec w ++ 'd' :: r) := by simp [Kind.fmt, fmtD]
    rw [e, fmtGo_lit, if_pos rfl, fmtGo_wid S false _ _ _ _ (dec_digit w), List.nil_append, fmtGo_minus_or]
    rw [if_neg (fun h => absurd h.1 (by decide)), if_neg (fun h => absurd h.1 (by decide)), if_neg (by decide)]
    cases v <;> simp [convert, Kind.show, Kind.width, value_dec]
  | sci w p =>
    have e : Kind.fmt (.sci w p) ++ r = '%' :: (dec w ++ '.' :: (dec p ++ 'e' :: r)) := by simp [Kind.fmt, fmtE]
    rw [e, fmtGo_lit, if_pos rfl, fmtGo_wid S false _ _ _ _ (dec_digit w), List.nil_append, fmtGo_minus_or]
    rw [if_neg (fun h => absurd h.1 (by decide)), if_pos ⟨rfl, rfl⟩]
    change fmtGo S (some ⟨false, dec w, some []⟩) _ _ = _
    rw [fmtGo_prec S false _ _ _ _ _ (dec_digit p), List.nil_append, fmtGo_minus_or]
    rw [if_neg (fun h => absurd h.1 (by decide)), if_neg (fun h => absurd h.1 (by decide)), if_neg (by decide)]
    cases v <;> simp [convert, Kind.show, Kind.width, value_dec]

theorem fmtGo_field_nil (S : Sci) (k : Kind) (r : Text) : fmtGo S none (k.fmt ++ r) [] = none := by
  cases k with
  | count w =>
    have e : Kind.fmt (.count w) ++ r = '%' :: (dec w ++ 'd' :: r) := by simp [Kind.fmt, fmtD]
    rw [e, fmtGo_lit, if_pos rfl, fmtGo_wid S false _ _ _ _ (dec_digit w), List.nil_append, fmtGo_minus_or]
    rw [if_neg (fun h => absurd h.1 (by decide)), if_neg (fun h => absurd h.1 (by decide)), if_neg (by decide)]
  | sci w p =>
    have e : Kind.fmt (.sci w p) ++ r = '%' :: (dec w ++ '.' :: (dec p ++ 'e' :: r)) := by simp [Kind.fmt, fmtE]
    rw [e, fmtGo_lit, if_pos rfl, fmtGo_wid S false _ _ _ _ (dec_digit w), List.nil_append, fmtGo_minus_or]
    rw [if_neg (fun h => absurd h.1 (by decide)), if_pos ⟨rfl, rfl⟩]
    change fmtGo S (some ⟨false, dec w, some []⟩) _ _ = _
    rw [fmtGo_prec S false _ _ _ _ _ (dec_digit p), List.nil_append, fmtGo_minus_or]
    rw [if_neg (fun h => absurd h.1 (by decide)), if_neg (fun h => absurd h.1 (by decide)), if_neg (by decide)]

/-- The cells of a row: as many values as columns, none of them `None`, each filled on the left. -/
noncomputable def cells (S : Sci) : List Kind → List Val → Option (List Text)
  | [], [] => some []
  | k :: ks, v :: vs => (k.show S v).bind fun t => (cells S ks vs).map (padL k.width t :: ·)
  | _, _ => none

/-- The row for a format string with given columns. -/
theorem pyFormat_row (S : Sci) : ∀ (ks : List Kind) (vs : List Val),
    pyFormat S (joinT (ks.map Kind.fmt)) vs = (cells S ks vs).map joinT
  | [], [] => rfl
  | [], _ :: _ => rfl
  | [k], [] => by
    have := fmtGo_field_nil S k []
    rwa [List.append_nil] at this
  | [k], v :: vs => by
    have := fmtGo_field S k [] v vs
    rw [List.append_nil] at this
    change fmtGo S none k.fmt (v :: vs) = _
    rw [this]
    cases h : k.show S v <;> cases vs <;> simp [fmtGo, joinT, h, cells]
  | k :: k' :: ks, [] => fmtGo_field_nil S k _
  | k :: k' :: ks, v :: vs => by
    have ih := pyFormat_row S (k' :: ks) vs
    have e : joinT ((k :: k' :: ks).map Kind.fmt) = k.fmt ++ (' ' :: ' ' :: joinT ((k' :: ks).map Kind.fmt)) := rfl
    unfold pyFormat at ih ⊢
    rw [e, fmtGo_field, fmtGo_lit, if_neg (by decide), fmtGo_lit, if_neg (by decide), ih, cells]
    cases k.show S v with
    | none => rfl
    | some t =>
      cases hc : cells S (k' :: ks) vs with
      | none => rfl
      | some l =>
        cases l with
        | nil =>
          cases vs with
          | nil => cases hc
          | cons v' vs =>
            rw [cells] at hc
            cases h1 : k'.show S v' <;> cases h2 : cells S ks vs <;> simp [h1, h2] at hc
        | cons u l => simp [joinT]

/-! ## Columns -/

theorem joinT_cons (t : Text) (l : List Text) (h : l ≠ []) : joinT (t :: l) = t ++ ' ' :: ' ' :: joinT l := by
  cases l with
  | nil => exact absurd rfl h
  | cons u l => rfl

/-- When every piece has the width of its column, the pieces are found in their columns. -/
theorem column_joinT : ∀ (l : List Text) (i : ℕ) (h : i < l.length),
    column (l.map List.length) i (joinT l) = l[i]
  | [t], i, h => by
    have : i = 0 := by simpa using h
    subst this
    simp [column, joinT]
  | t :: u :: l, 0, _ => by simp [column, joinT]
  | t :: u :: l, i + 1, h => by
    have ih := column_joinT (u :: l) i (by simpa using h)
    rw [List.getElem_cons_succ, ← ih]
    unfold column
    rw [joinT_cons _ _ (List.cons_ne_nil _ _)]
    have e : (((t :: u :: l).map List.length).take (i + 1)).map (· + 2) =
        (t.length + 2) :: ((((u :: l).map List.length).take i).map (· + 2)) := by simp
    rw [e, List.sum_cons, ← List.drop_drop]
    have e2 : List.drop (t.length + 2) (t ++ ' ' :: ' ' :: joinT (u :: l)) = joinT (u :: l) := by
      rw [← List.drop_drop, List.drop_left]; rfl
    rw [e2]
    rfl

theorem length_joinT : ∀ l m : List Text, l.map List.length = m.map List.length →
    (joinT l).length = (joinT m).length
  | [], [], _ => rfl
  | [], _ :: _, h => by simp at h
  | _ :: _, [], h => by simp at h
  | [t], [u], h => by simpa [joinT] using h
  | [t], u :: v :: m, h => by simp at h
  | t :: u :: l, [v], h => by simp at h
  | t :: u :: l, v :: w :: m, h => by
    have h1 : t.length = v.length := by simp at h; exact h.1
    have ih := length_joinT (u :: l) (w :: m) (by simp at h ⊢; exact h.2)
    rw [joinT_cons _ _ (List.cons_ne_nil _ _), joinT_cons _ _ (List.cons_ne_nil _ _)]
    simp only [List.length_append, List.length_cons, h1, ih]

theorem padL_length (w : ℕ) (t : Text) (h : t.length ≤ w) : (padL w t).length = w := by
  unfold padL; rw [List.length_append, List.length_replicate]; omega

theorem padR_length (w : ℕ) (t : Text) (h : t.length ≤ w) : (padR w t).length = w := by
  unfold padR; rw [List.length_append, List.length_replicate]; omega

/-- The columns of a table (`common.py` 271-274): the first holds the iteration count, those in `counts` are counts of
the given width, the others hold numbers. -/
def kinds (counts : List (Text × ℕ)) (fwdth0 fwdthdlt fprec : ℕ) : List Text → List Kind
  | [] => []
  | l :: ls => kindOf true l :: ls.map (kindOf false)
where
  /-- the column with title `lbl` -/
  kindOf (first : Bool) (lbl : Text) : Kind :=
    match counts.lookup lbl with
    | some w => .count w
    | none => if first then .count fwdth0 else .sci (fprec + fwdthdlt) fprec

theorem lookup_fmt (counts : List (Text × ℕ)) (lbl : Text) :
    (counts.map fun q => (q.1, fmtD q.2)).lookup lbl = (counts.lookup lbl).map fmtD := by
  induction counts with
  | nil => rfl
  | cons q l ih =>
    rw [List.map_cons, List.lookup_cons, List.lookup_cons]
    cases lbl == q.1
    · exact ih
    · rfl

theorem fldFmts_kinds (counts : List (Text × ℕ)) (w0 dlt p : ℕ) (ls : List Text) :
    fldFmts (counts.map fun q => (q.1, fmtD q.2)) w0 dlt p ls = (kinds counts w0 dlt p ls).map Kind.fmt := by
  have key : ∀ b l, fldFmt (counts.map fun q => (q.1, fmtD q.2)) w0 dlt p b l =
      (kinds.kindOf counts w0 dlt p b l).fmt := by
    intro b l
    unfold fldFmt kinds.kindOf
    rw [lookup_fmt]
    cases counts.lookup l with
    | some w => rfl
    | none => cases b <;> rfl
  cases ls with
  | nil => rfl
  | cons l ls =>
    simp only [fldFmts, kinds, List.map_cons, List.map_map, key]
    congr 1
    exact List.map_congr_left fun x _ => key false x

theorem mapM_width (ks : List Kind) : (ks.map Kind.fmt).mapM fldWidth = some (ks.map Kind.width) := by
  induction ks with
  | nil => rfl
  | cons k ks ih => simp [fldWidth_fmt, ih]

/-- What `solve_status_str` returns. -/
theorem statusStr_eq (counts : List (Text × ℕ)) (w0 dlt p : ℕ) (ls : List Text) :
    statusStr ls (counts.map fun q => (q.1, fmtD q.2)) w0 dlt p =
      some (joinT (List.zipWith padR ((kinds counts w0 dlt p ls).map Kind.width) ls),
        joinT ((kinds counts w0 dlt p ls).map Kind.fmt),
        (joinT (List.zipWith padR ((kinds counts w0 dlt p ls).map Kind.width) ls)).length) := by
  unfold statusStr
  rw [fldFmts_kinds]
  simp only [mapM_width, Option.map_some]

/-- The text of a value fits into its column. -/
def Fits (S : Sci) (k : Kind) (v : Val) : Prop := ∃ t, k.show S v = some t ∧ t.length ≤ k.width

/-- A number that is not negative and whose exponent has two digits fits into the columns of `solve_status_str` with
the default `fwdthdlt`. -/
theorem fits_sci (S : Sci) (p : ℕ) (hp : 0 < p) (x : ℝ) (hx : 0 ≤ x) (he : (S.expo p x).natAbs < 100) :
    Fits S (.sci (p + 6) p) (.real x) ∧ (rendE S p x).length = p + 6 := by
  have h1 : (S.mant p x / 10 ^ p) < 10 ^ 1 := by
    rw [Nat.div_lt_iff_lt_mul (Nat.pow_pos (by norm_num)), ← pow_add, add_comm 1 p]
    exact S.hi p x
  have hd := dec_length _ 1 (by norm_num) h1
  have hd' : 0 < (dec (S.mant p x / 10 ^ p)).length := List.length_pos_of_ne_nil (dec_ne_nil _)
  have hl : (rendE S p x).length = p + 6 := by
    unfold rendE
    rw [if_neg (not_lt.mpr hx)]
    simp only [List.nil_append, List.length_append, List.length_cons,
      decPad_length p _ hp (Nat.mod_lt _ (Nat.pow_pos (by norm_num))), decPad_length 2 _ (by norm_num) (by simpa using he)]
    omega
  exact ⟨⟨_, rfl, hl.le⟩, hl⟩

/-- A count below `10 ^ w` fits. -/
theorem fits_count (S : Sci) (w n : ℕ) (hw : 0 < w) (h : n < 10 ^ w) : Fits S (.count w) (.int n) := by
  refine ⟨_, rfl, ?_⟩
  unfold rendD
  rw [if_neg (by omega)]
  simpa [Kind.width] using dec_length n w hw h

/-- **C87, numbers.** The text in a column of numbers is a decimal numeral of a number nearest to the value: sign, one
digit, point, `p` digits, exponent. -/
theorem C87_number (S : Sci) (p : ℕ) (hp : 0 < p) (x : ℝ) :
    ∃ sgn d fr esgn ex, rendE S p x = sgn ++ d ++ '.' :: fr ++ 'e' :: esgn :: ex ∧
      d.length = 1 ∧ fr.length = p ∧ 2 ≤ ex.length ∧ (sgn = ['-'] ∧ x < 0 ∨ sgn = [] ∧ 0 ≤ x) ∧
      ∃ e : ℤ, (esgn = '-' ∧ e = -(value ex : ℤ) ∨ esgn = '+' ∧ e = value ex) ∧
        |(|x| - (value d + value fr / (10 : ℝ) ^ p) * (10 : ℝ) ^ e)| ≤ (10 : ℝ) ^ (e - p) / 2 := by
  have h1 : (S.mant p x / 10 ^ p) < 10 ^ 1 := by
    rw [Nat.div_lt_iff_lt_mul (Nat.pow_pos (by norm_num)), ← pow_add, add_comm 1 p]
    exact S.hi p x
  have hd := dec_length _ 1 (by norm_num) h1
  have hd' : 0 < (dec (S.mant p x / 10 ^ p)).length := List.length_pos_of_ne_nil (dec_ne_nil _)
  refine ⟨_, _, _, _, _, rfl, by omega, decPad_length p _ hp (Nat.mod_lt _ (Nat.pow_pos (by norm_num))), ?_, ?_, ?_⟩
  · unfold decPad; rw [List.length_append, List.length_replicate]; omega
  · by_cases hx : x < 0
    · left; exact ⟨if_pos hx, hx⟩
    · right; exact ⟨if_neg hx, not_lt.mp hx⟩
  · refine ⟨S.expo p x, ?_, ?_⟩
    · rw [value_decPad]
      by_cases he : S.expo p x < 0
      · left; rw [if_pos he]; exact ⟨rfl, by omega⟩
      · right; rw [if_neg he]; exact ⟨rfl, by omega⟩
    · rw [value_dec, value_decPad]
      have h10 : ((10 : ℝ) ^ p) ≠ 0 := by positivity
      have e1 : (((S.mant p x / 10 ^ p : ℕ) : ℝ) + ((S.mant p x % 10 ^ p : ℕ) : ℝ) / (10 : ℝ) ^ p) =
          S.mant p x / (10 : ℝ) ^ p := by
        have := Nat.div_add_mod (S.mant p x) (10 ^ p)
        have h2 : ((10 ^ p : ℕ) : ℝ) * ((S.mant p x / 10 ^ p : ℕ) : ℝ) + ((S.mant p x % 10 ^ p : ℕ) : ℝ) = S.mant p x := by
          exact_mod_cast this
        rw [← h2]
        push_cast
        field_simp
      have e2 : (S.mant p x : ℝ) / (10 : ℝ) ^ p * (10 : ℝ) ^ S.expo p x = S.mant p x * (10 : ℝ) ^ (S.expo p x - p) := by
        rw [zpow_sub₀ (by norm_num), zpow_natCast]
        ring
      rw [e1, e2]
      exact S.near p x

/-- **C87, the table.** For any titles (and `fmtmap` giving some columns an integer format) the strings of
`solve_status_str` line up: if titles and values fit into their columns then header, row and separator have the same
length, the title is found at the left of its column and the value at the right of the same column. A row is printed
exactly when there are as many values as columns and none is `None`. -/
theorem C87_table (S : Sci) (counts : List (Text × ℕ)) (w0 dlt p : ℕ) (ls : List Text) :
    ∃ hdr fmt nsep, statusStr ls (counts.map fun q => (q.1, fmtD q.2)) w0 dlt p = some (hdr, fmt, nsep) ∧
      hdr.length = nsep ∧
      (∀ vs, (∃ row, pyFormat S fmt vs = some row) ↔
        vs.length = ls.length ∧ ∀ v ∈ vs, v ≠ Val.none) ∧
      ∀ vs row, pyFormat S fmt vs = some row →
        (∀ i (h : i < ls.length), ls[i].length ≤ ((kinds counts w0 dlt p ls)[i]?.map Kind.width).getD 0) →
        (∀ (i : ℕ) (k : Kind) (v : Val), (kinds counts w0 dlt p ls)[i]? = some k → vs[i]? = some v → Fits S k v) →
        row.length = nsep ∧
        ∀ (i : ℕ) (k : Kind) (v : Val) (l t : Text), (kinds counts w0 dlt p ls)[i]? = some k → vs[i]? = some v → ls[i]? = some l → k.show S v = some t →
          column ((kinds counts w0 dlt p ls).map Kind.width) i hdr = padR k.width l ∧
          column ((kinds counts w0 dlt p ls).map Kind.width) i row = padL k.width t := by
  set ks := kinds counts w0 dlt p ls with hks
  have hlen : ks.length = ls.length := by
    rw [hks]; cases ls <;> simp [kinds]
  refine ⟨_, _, _, statusStr_eq counts w0 dlt p ls, rfl, ?_, ?_⟩
  · intro vs
    rw [pyFormat_row, ← hks, ← hlen]
    have key : ∀ (ks : List Kind) (vs : List Val), (∃ l, cells S ks vs = some l) ↔
        vs.length = ks.length ∧ ∀ v ∈ vs, v ≠ Val.none := by
      intro ks
      induction ks with
      | nil => intro vs; cases vs <;> simp [cells]
      | cons k ks ih =>
        intro vs
        cases vs with
        | nil => simp [cells]
        | cons v vs =>
          rw [cells]
          have hk : (∃ t, k.show S v = some t) ↔ v ≠ Val.none := by
            cases k <;> cases v <;> simp [Kind.show]
          have := ih vs
          simp only [List.length_cons, List.mem_cons, forall_eq_or_imp, Nat.add_right_cancel_iff]
          rw [← hk]
          constructor
          · rintro ⟨l, hl⟩
            cases h1 : k.show S v with
            | none => simp [h1] at hl
            | some t =>
              cases h2 : cells S ks vs with
              | none => simp [h1, h2] at hl
              | some m => exact ⟨(this.mp ⟨m, h2⟩).1, ⟨t, rfl⟩, (this.mp ⟨m, h2⟩).2⟩
          · rintro ⟨h1, ⟨t, ht⟩, h3⟩
            obtain ⟨m, hm⟩ := this.mpr ⟨h1, h3⟩
            exact ⟨padL k.width t :: m, by simp [ht, hm]⟩
    rw [← key]
    constructor
    · rintro ⟨row, h⟩
      obtain ⟨l, hl, -⟩ := Option.map_eq_some_iff.mp h
      exact ⟨l, hl⟩
    · rintro ⟨l, hl⟩
      exact ⟨joinT l, by rw [hl]; rfl⟩
  · intro vs row hrow htit hfit
    rw [pyFormat_row, ← hks] at hrow
    obtain ⟨cs, hcs, rfl⟩ := Option.map_eq_some_iff.mp hrow
    have key : ∀ (ks : List Kind) (vs : List Val) (cs : List Text), cells S ks vs = some cs →
        (∀ (i : ℕ) (k : Kind) (v : Val), ks[i]? = some k → vs[i]? = some v → Fits S k v) →
        cs.map List.length = ks.map Kind.width ∧
        ∀ (i : ℕ) (k : Kind) (v : Val) (t : Text), ks[i]? = some k → vs[i]? = some v → k.show S v = some t → cs[i]? = some (padL k.width t) := by
      intro ks
      induction ks with
      | nil =>
        intro vs cs h _
        cases vs with
        | nil => cases h; exact ⟨rfl, fun i k v t h => by simp at h⟩
        | cons v vs => cases h
      | cons k ks ih =>
        intro vs cs h hf
        cases vs with
        | nil => cases h
        | cons v vs =>
          rw [cells] at h
          obtain ⟨t, ht, h'⟩ := Option.bind_eq_some_iff.mp h
          obtain ⟨cs', hc, rfl⟩ := Option.map_eq_some_iff.mp h'
          obtain ⟨i1, i2⟩ := ih vs cs' hc fun i k v h1 h2 => hf (i + 1) k v (by simpa using h1) (by simpa using h2)
          obtain ⟨t', ht', hl⟩ := hf 0 k v rfl rfl
          rw [ht] at ht'
          cases ht'
          refine ⟨by simp [padL_length _ _ hl, i1], ?_⟩
          intro i k0 v0 t0 h1 h2 h3
          cases i with
          | zero =>
            simp at h1 h2
            subst h1 h2
            rw [ht] at h3
            cases h3
            rfl
          | succ i => simpa using i2 i k0 v0 t0 (by simpa using h1) (by simpa using h2) h3
    obtain ⟨k1, k2⟩ := key ks vs cs hcs hfit
    have hh : (List.zipWith padR (ks.map Kind.width) ls).map List.length = ks.map Kind.width := by
      apply List.ext_getElem
      · simp [hlen]
      · intro i h1 h2
        have hi : i < ks.length := by simpa using h2
        have := htit i (by omega)
        rw [List.getElem?_eq_getElem hi] at this
        simp only [List.getElem_map, List.getElem_zipWith]
        exact padR_length _ _ (by simpa using this)
    refine ⟨length_joinT _ _ (by rw [k1, hh]), ?_⟩
    intro i k v l t h1 h2 h3 h4
    have hi : i < ks.length := (List.getElem?_eq_some_iff.mp h1).1
    constructor
    · have := column_joinT (List.zipWith padR (ks.map Kind.width) ls) i (by simp [hlen]; omega)
      rw [hh] at this
      rw [this]
      have h1' := (List.getElem?_eq_some_iff.mp h1).2
      have h3' := (List.getElem?_eq_some_iff.mp h3).2
      simp only [List.getElem_zipWith, List.getElem_map, h1', h3']
    · have hc := k2 i k v t h1 h2 h4
      obtain ⟨hc1, hc2⟩ := List.getElem?_eq_some_iff.mp hc
      have := column_joinT cs i hc1
      rw [k1] at this
      rw [this, hc2]

end Sporco.Util.Display
