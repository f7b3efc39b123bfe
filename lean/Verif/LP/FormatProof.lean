/-
Lemmas about the printed numbers.
-/
import Verif.LP.Format
import Verif.LP.FormatSpec
import Mathlib.Tactic.FieldSimp
import Mathlib.Tactic.Positivity
import Mathlib.Algebra.Order.Floor.Ring

namespace Pytimize
namespace Props
open LinProg

/-- The value of a word of digits. -/
def digitsVal (s : List Char) : ℕ := s.foldl (fun a c => 10 * a + (c.toNat - 48)) 0

theorem foldl_digits (s : List Char) (a : ℕ) :
    s.foldl (fun a c => 10 * a + (c.toNat - 48)) a = a * 10 ^ s.length + digitsVal s := by
  induction s generalizing a with
  | nil => simp [digitsVal]
  | cons c s ih =>
    unfold digitsVal
    rw [List.foldl_cons, ih, List.foldl_cons, ih (10 * 0 + _), List.length_cons]
    ring

theorem digitsVal_append (s t : List Char) : digitsVal (s ++ t) = digitsVal s * 10 ^ t.length + digitsVal t := by
  conv_lhs => unfold digitsVal
  rw [List.foldl_append, foldl_digits]; rfl

theorem readDigits_of {s : List Char} (h : ∀ c ∈ s, c.isDigit = true) : readDigits s = some (digitsVal s) := by
  unfold readDigits
  rw [if_pos (List.all_eq_true.mpr h)]; rfl

theorem natChars_digit {k : ℕ} : ∀ c ∈ natChars k, c.isDigit = true :=
  fun _ hc => Nat.isDigit_of_mem_toDigits (by decide) (by decide) hc

theorem natChars_ne_nil {k : ℕ} : natChars k ≠ [] := Nat.toDigits_ne_nil

theorem digitsVal_natChars (k : ℕ) : digitsVal (natChars k) = k := by
  conv_rhs => rw [← Nat.ofDigitChars_ten_toDigits (n := k), Nat.ofDigitChars_eq_foldl]
  rfl

theorem digitsVal_replicate (k : ℕ) : digitsVal (List.replicate k '0') = 0 := by
  induction k with
  | zero => rfl
  | succ k ih =>
    rw [List.replicate_succ', digitsVal_append, ih]; rfl

theorem padDigits_digit {w k : ℕ} : ∀ c ∈ padDigits w k, c.isDigit = true := by
  intro c hc
  unfold padDigits List.leftpad at hc
  rcases List.mem_append.mp hc with h | h
  · rw [(List.mem_replicate.mp h).2]; decide
  · exact natChars_digit c h

theorem digitsVal_padDigits (w k : ℕ) : digitsVal (padDigits w k) = k := by
  unfold padDigits List.leftpad
  rw [digitsVal_append, digitsVal_replicate, digitsVal_natChars]; simp

theorem padDigits_length {w k : ℕ} (hw : 0 < w) (hk : k < 10 ^ w) : (padDigits w k).length = w := by
  have := (Nat.length_toDigits_le_iff (b := 10) (n := k) (by norm_num) hw).mpr hk
  unfold padDigits natChars
  rw [List.length_leftpad]
  omega

theorem padDigits_ne_nil {w k : ℕ} : padDigits w k ≠ [] := by
  unfold padDigits List.leftpad
  simp [natChars_ne_nil]

/-- The fraction that a word of digits after the point stands for. -/
def fracVal (s : List Char) : ℚ := digitsVal s / 10 ^ s.length

theorem fracVal_concat_zero (s : List Char) : fracVal (s ++ ['0']) = fracVal s := by
  unfold fracVal
  rw [digitsVal_append, List.length_append]
  have h0 : digitsVal ['0'] = 0 := rfl
  rw [h0]
  push_cast
  rw [List.length_singleton, pow_succ]
  field_simp
  ring

theorem fracVal_rdrop (s : List Char) : fracVal (s.rdropWhile (· == '0')) = fracVal s := by
  induction s using List.reverseRecOn with
  | nil => simp
  | append_singleton s c ih =>
    by_cases h : c = '0'
    · subst h
      rw [List.rdropWhile_concat_pos _ _ _ (by rfl), ih, fracVal_concat_zero]
    · rw [List.rdropWhile_concat_neg _ _ _ (by simpa using h)]

theorem fracChars_digit {p k : ℕ} : ∀ c ∈ fracChars p k, c.isDigit = true := by
  intro c hc
  unfold fracChars at hc
  simp only at hc
  split at hc
  · rw [List.mem_singleton.mp hc]; decide
  · exact padDigits_digit c ((List.rdropWhile_prefix _ _).subset hc)

theorem fracVal_fracChars {p k : ℕ} (hp : 0 < p) (hk : k < 10 ^ p) : fracVal (fracChars p k) = k / 10 ^ p := by
  have h : fracVal ((padDigits p k).rdropWhile (· == '0')) = k / 10 ^ p := by
    rw [fracVal_rdrop, fracVal, digitsVal_padDigits, padDigits_length hp hk]
  unfold fracChars
  simp only
  split
  · rename_i h0
    rw [h0] at h
    rw [← h]
    simp [fracVal, digitsVal]
  · exact h

theorem digit_ne {c d : Char} (hc : c.isDigit = true) (hd : d.isDigit = false) : c ≠ d := by
  rintro rfl; rw [hc] at hd; exact Bool.noConfusion hd

theorem not_mem_digits {s : List Char} {d : Char} (h : ∀ c ∈ s, c.isDigit = true) (hd : d.isDigit = false) : d ∉ s :=
  fun hm => digit_ne (h d hm) hd rfl

theorem readMantissa_of {a d : List Char} (ha : ∀ c ∈ a, c.isDigit = true) (h0 : a ≠ [])
    (hd : ∀ c ∈ d, c.isDigit = true) : readMantissa (a ++ '.' :: d) = some (digitsVal a + fracVal d) := by
  unfold readMantissa
  rw [List.splitOn_append_cons_self_of_not_mem (not_mem_digits ha (by decide)),
    List.splitOn_eq_singleton (not_mem_digits hd (by decide))]
  simp only [if_neg h0, readDigits_of ha, readDigits_of hd]
  rfl

/-- A decimal numeral: digits, a point, digits and perhaps an exponent, with its value. -/
structure Numeral (s : List Char) (v : ℚ) : Prop where
  shape : ∃ a d, s = a ++ '.' :: d ∧ a ≠ [] ∧ (∀ c ∈ a, c.isDigit = true) ∧
    ∀ c ∈ d, c.isDigit = true ∨ c = 'e' ∨ c = '+' ∨ c = '-'
  value : readUnsigned s = some v

theorem numeral_plain {a d : List Char} (ha : ∀ c ∈ a, c.isDigit = true) (h0 : a ≠ [])
    (hd : ∀ c ∈ d, c.isDigit = true) : Numeral (a ++ '.' :: d) (digitsVal a + fracVal d) := by
  refine ⟨⟨a, d, rfl, h0, ha, fun c hc => Or.inl (hd c hc)⟩, ?_⟩
  unfold readUnsigned
  have he : 'e' ∉ a ++ '.' :: d := by
    simp only [List.mem_append, List.mem_cons, not_or]
    exact ⟨not_mem_digits ha (by decide), by decide, not_mem_digits hd (by decide)⟩
  rw [List.splitOn_eq_singleton he]
  exact readMantissa_of ha h0 hd

theorem numeral_sci {a d : List Char} (ha : ∀ c ∈ a, c.isDigit = true) (h0 : a ≠ [])
    (hd : ∀ c ∈ d, c.isDigit = true) (e : ℤ) :
    Numeral (a ++ '.' :: (d ++ 'e' :: expChars e)) ((digitsVal a + fracVal d) * 10 ^ e) := by
  have hx : readExp (expChars e) = some e := by
    unfold expChars
    split
    · rename_i he
      unfold readExp
      simp only [if_neg padDigits_ne_nil, readDigits_of padDigits_digit, digitsVal_padDigits]
      exact congrArg some (by beta_reduce; omega)
    · rename_i he
      unfold readExp
      simp only [if_neg padDigits_ne_nil, readDigits_of padDigits_digit, digitsVal_padDigits]
      exact congrArg some (by beta_reduce; omega)
  refine ⟨⟨a, d ++ 'e' :: expChars e, rfl, h0, ha, ?_⟩, ?_⟩
  · intro c hc
    simp only [List.mem_append, List.mem_cons, expChars] at hc
    rcases hc with hc | hc | hc | hc
    · exact Or.inl (hd c hc)
    · exact Or.inr (Or.inl hc)
    · split at hc
      · exact Or.inr (Or.inr (Or.inl hc))
      · exact Or.inr (Or.inr (Or.inr hc))
    · exact Or.inl (padDigits_digit c hc)
  · unfold readUnsigned
    have he : 'e' ∉ a ++ '.' :: d := by
      simp only [List.mem_append, List.mem_cons, not_or]
      exact ⟨not_mem_digits ha (by decide), by decide, not_mem_digits hd (by decide)⟩
    have hx' : 'e' ∉ expChars e := by
      unfold expChars
      simp only [List.mem_cons, not_or]
      exact ⟨by split <;> decide, not_mem_digits padDigits_digit (by decide)⟩
    have hs : a ++ '.' :: (d ++ 'e' :: expChars e) = (a ++ '.' :: d) ++ 'e' :: expChars e := by simp
    rw [hs, List.splitOn_append_cons_self_of_not_mem he, List.splitOn_eq_singleton hx']
    simp only [readMantissa_of ha h0 hd, hx]
    rfl

theorem numeral_strDecimal {p k : ℕ} (hp : 0 < p) : Numeral (strDecimal p k) (k / 10 ^ p) := by
  have h := numeral_plain (a := natChars (k / 10 ^ p)) (d := fracChars p (k % 10 ^ p)) natChars_digit
    natChars_ne_nil fracChars_digit
  have hk : k % 10 ^ p < 10 ^ p := Nat.mod_lt _ (by positivity)
  rw [digitsVal_natChars, fracVal_fracChars hp hk] at h
  have hv : (((k / 10 ^ p : ℕ) : ℚ) + ((k % 10 ^ p : ℕ) : ℚ) / 10 ^ p) = k / 10 ^ p := by
    have := Nat.div_add_mod k (10 ^ p)
    have hq : (k : ℚ) = 10 ^ p * ((k / 10 ^ p : ℕ) : ℚ) + ((k % 10 ^ p : ℕ) : ℚ) := by exact_mod_cast this.symm
    field_simp
    rw [mul_comm]
    exact hq.symm
  rw [hv] at h
  exact h

/-! ### Rounding -/

theorem roundEven_le (q : ℚ) : |(roundEven q : ℚ) - q| ≤ 1 / 2 := by
  have h1 := Int.floor_le q
  have h2 := Int.lt_floor_add_one q
  unfold roundEven
  simp only
  split_ifs with h h' h'' <;> push_cast <;> rw [abs_le] <;> constructor <;> linarith

theorem roundEven_int (k : ℤ) : roundEven k = k := by
  unfold roundEven
  simp only
  simp

theorem roundEven_nonneg {q : ℚ} (h : 0 ≤ q) : 0 ≤ roundEven q := by
  have h1 := (abs_le.mp (roundEven_le q)).1
  have : (-1 : ℚ) < roundEven q := by linarith
  have : (-1 : ℤ) < roundEven q := by exact_mod_cast this
  omega

theorem roundEven_bounds {q : ℚ} {a b : ℤ} (ha : (a : ℚ) ≤ q) (hb : q ≤ b) : a ≤ roundEven q ∧ roundEven q ≤ b := by
  have h := abs_le.mp (roundEven_le q)
  have h1 : (a : ℚ) - 1 < roundEven q := by linarith
  have h2 : (roundEven q : ℚ) < b + 1 := by linarith
  have h1 : a - 1 < roundEven q := by exact_mod_cast h1
  have h2 : roundEven q < b + 1 := by exact_mod_cast h2
  omega

theorem roundTo_le {q : ℚ} (h : 0 ≤ q) (p : ℕ) : |(roundTo p q : ℚ) / 10 ^ p - q| ≤ 1 / 2 / 10 ^ p := by
  have hp : (0 : ℚ) < 10 ^ p := by positivity
  have h0 := roundEven_nonneg (q := q * 10 ^ p) (by positivity)
  have hc : (roundTo p q : ℚ) = (roundEven (q * 10 ^ p) : ℚ) := by
    unfold roundTo
    exact_mod_cast Int.toNat_of_nonneg h0
  have h1 := roundEven_le (q * 10 ^ p)
  rw [hc]
  have : (roundEven (q * 10 ^ p) : ℚ) / 10 ^ p - q = ((roundEven (q * 10 ^ p) : ℚ) - q * 10 ^ p) / 10 ^ p := by
    field_simp
  rw [this, abs_div, abs_of_pos hp]
  exact div_le_div_of_nonneg_right h1 hp.le

/-- The four digits that `"{:.3e}"` prints. -/
theorem sci_digits {q : ℚ} (hq : 0 < q) :
    1000 ≤ roundEven (q / 10 ^ (Int.log 10 q - 3)) ∧ roundEven (q / 10 ^ (Int.log 10 q - 3)) ≤ 10000 := by
  have h1 : (10 : ℚ) ^ Int.log 10 q ≤ q := by
    have := Int.zpow_log_le_self (b := 10) (by norm_num) hq
    exact_mod_cast this
  have h2 : q < (10 : ℚ) ^ (Int.log 10 q + 1) := by
    have := Int.lt_zpow_succ_log_self (b := 10) (by norm_num) q
    exact_mod_cast this
  set e := Int.log 10 q
  have hpos : (0 : ℚ) < 10 ^ (e - 3) := zpow_pos (by norm_num) _
  apply roundEven_bounds
  · rw [le_div_iff₀ hpos]
    calc ((1000 : ℤ) : ℚ) * 10 ^ (e - 3) = 10 ^ (3 : ℤ) * 10 ^ (e - 3) := by norm_num
      _ = 10 ^ e := by rw [← zpow_add₀ (by norm_num)]; congr 1; omega
      _ ≤ q := h1
  · rw [div_le_iff₀ hpos]
    calc q ≤ 10 ^ (e + 1) := h2.le
      _ = 10 ^ (4 : ℤ) * 10 ^ (e - 3) := by rw [← zpow_add₀ (by norm_num)]; congr 1; omega
      _ = ((10000 : ℤ) : ℚ) * 10 ^ (e - 3) := by norm_num

theorem numeral_sciChars {q : ℚ} (hq : 0 < q) :
    Numeral (sciChars q) (roundEven (q / 10 ^ (Int.log 10 q - 3)) * 10 ^ (Int.log 10 q - 3)) := by
  obtain ⟨h1, h2⟩ := sci_digits hq
  unfold sciChars
  simp only
  set e := Int.log 10 q
  set r := roundEven (q / 10 ^ (e - 3))
  obtain ⟨k, hk⟩ : ∃ k : ℕ, r = k := ⟨r.toNat, by omega⟩
  rw [hk, Int.toNat_natCast]
  have hk1 : 1000 ≤ k := by omega
  have hk2 : k ≤ 10000 := by omega
  generalize hk' : (if k = 10000 then 1000 else k) = k'
  generalize he' : (if k = 10000 then e + 1 else e) = e'
  have hd := numeral_sci (a := natChars (k' / 1000)) (d := padDigits 3 (k' % 1000)) natChars_digit
    natChars_ne_nil padDigits_digit e'
  have hv : (((digitsVal (natChars (k' / 1000)) : ℕ) : ℚ) + fracVal (padDigits 3 (k' % 1000))) * 10 ^ e'
      = (k : ℤ) * 10 ^ (e - 3) := by
    rw [digitsVal_natChars, fracVal, digitsVal_padDigits, padDigits_length (w := 3) (by norm_num) (show k' % 1000 < 10 ^ 3 by omega)]
    have hdm : (k' : ℚ) = 1000 * ((k' / 1000 : ℕ) : ℚ) + ((k' % 1000 : ℕ) : ℚ) := by
      exact_mod_cast (Nat.div_add_mod k' 1000).symm
    have h3 : (((k' / 1000 : ℕ) : ℚ) + ((k' % 1000 : ℕ) : ℚ) / 10 ^ 3) = k' / 1000 := by
      rw [hdm]; ring
    rw [h3]
    by_cases hc : k = 10000
    · rw [if_pos hc] at hk' he'
      rw [← hk', ← he', hc, zpow_add₀ (by norm_num), zpow_sub₀ (by norm_num)]
      norm_num
      ring
    · rw [if_neg hc] at hk' he'
      rw [← hk', ← he', zpow_sub₀ (by norm_num)]
      norm_num
      ring
  rw [hv] at hd
  exact hd

/-- Four significant digits. -/
theorem sci_close {q : ℚ} (hq : 0 < q) :
    |(roundEven (q / 10 ^ (Int.log 10 q - 3)) : ℚ) * 10 ^ (Int.log 10 q - 3) - q| ≤ 5 / 10 ^ 4 * q := by
  have h1 : (10 : ℚ) ^ Int.log 10 q ≤ q := by
    have := Int.zpow_log_le_self (b := 10) (by norm_num) hq
    exact_mod_cast this
  set e := Int.log 10 q
  have hpos : (0 : ℚ) < 10 ^ (e - 3) := zpow_pos (by norm_num) _
  have hr := roundEven_le (q / 10 ^ (e - 3))
  have heq : (roundEven (q / 10 ^ (e - 3)) : ℚ) * 10 ^ (e - 3) - q =
      ((roundEven (q / 10 ^ (e - 3)) : ℚ) - q / 10 ^ (e - 3)) * 10 ^ (e - 3) := by
    field_simp
  rw [heq, abs_mul, abs_of_pos hpos]
  have h3 : (10 : ℚ) ^ (e - 3) = 10 ^ e / 1000 := by rw [zpow_sub₀ (by norm_num)]; norm_num
  calc _ ≤ 1 / 2 * (10 : ℚ) ^ (e - 3) := mul_le_mul_of_nonneg_right hr hpos.le
    _ = 5 / 10 ^ 4 * 10 ^ e := by rw [h3]; ring
    _ ≤ _ := by linarith

/-- A number that already has four significant digits. -/
theorem sci_exact {p k : ℕ} (h1 : 1000 ≤ k) (h2 : k ≤ 10000) :
    (roundEven ((k : ℚ) / 10 ^ p / 10 ^ (Int.log 10 ((k : ℚ) / 10 ^ p) - 3)) : ℚ) *
      10 ^ (Int.log 10 ((k : ℚ) / 10 ^ p) - 3) = k / 10 ^ p := by
  have hk : (0 : ℚ) < k / 10 ^ p := by
    have : (0 : ℚ) < k := by exact_mod_cast (by omega : 0 < k)
    positivity
  have hz : (k : ℚ) / 10 ^ p = k * 10 ^ (-(p : ℤ)) := by
    rw [zpow_neg, zpow_natCast]; rfl
  have h1' : (1000 : ℚ) ≤ k := by exact_mod_cast h1
  have hup : ∀ t : ℤ, (10 : ℚ) ^ (-(p : ℤ)) * 10 ^ t = 10 ^ (t - p) := fun t => by
    rw [← zpow_add₀ (by norm_num)]; congr 1; omega
  by_cases hc : k = 10000
  · have hv : (k : ℚ) / 10 ^ p = ((10 : ℕ) : ℚ) ^ ((4 : ℤ) - p) := by
      rw [hz, hc, show ((10 : ℕ) : ℚ) = 10 by norm_num, ← hup]
      norm_num
      ring
    have hl : Int.log 10 ((k : ℚ) / 10 ^ p) = 4 - p := by rw [hv]; exact Int.log_zpow (by norm_num) _
    have hq : (k : ℚ) / 10 ^ p / 10 ^ ((4 : ℤ) - p - 3) = ((1000 : ℤ) : ℚ) := by
      rw [hv, Nat.cast_ofNat, ← zpow_sub₀ (by norm_num), show (4 : ℤ) - p - (4 - p - 3) = 3 by ring]
      norm_num
    rw [hl, hq, roundEven_int, ← hq]
    field_simp
  · have hlt : (k : ℚ) < 10000 := by exact_mod_cast (by omega : k < 10000)
    have hl : Int.log 10 ((k : ℚ) / 10 ^ p) = 3 - p := by
      have ha : ((10 : ℕ) : ℚ) ^ ((3 : ℤ) - p) ≤ k / 10 ^ p := by
        rw [Nat.cast_ofNat, hz, ← hup, mul_comm]
        refine mul_le_mul_of_nonneg_right ?_ (zpow_pos (by norm_num) _).le
        norm_num; exact h1
      have hb : (k : ℚ) / 10 ^ p < ((10 : ℕ) : ℚ) ^ ((4 : ℤ) - p) := by
        rw [Nat.cast_ofNat, hz, ← hup, mul_comm]
        refine mul_lt_mul_of_pos_left ?_ (zpow_pos (by norm_num) _)
        norm_num; omega
      have h3 := (Int.zpow_le_iff_le_log (by norm_num) hk).mp ha
      have h4 := (Int.lt_zpow_iff_log_lt (by norm_num) hk).mp hb
      omega
    have hq : (k : ℚ) / 10 ^ p / 10 ^ ((3 : ℤ) - p - 3) = ((k : ℤ) : ℚ) := by
      rw [show (3 : ℤ) - p - 3 = -(p : ℤ) by ring, zpow_neg, zpow_natCast]
      field_simp
      simp
    rw [hl, hq, roundEven_int, ← hq]
    field_simp

/-! ### `_format_number` -/

/-- The text without the sign. -/
def magnitudeText (magnitude : ℚ) : List Char :=
  if Comparator.isCloseToZero magnitude then ['0', '.']
  else if magnitude > 10 ^ 10 then sciChars magnitude
  else if Comparator.isInteger magnitude then natChars (roundEven magnitude).toNat ++ ['.']
  else if magnitude < 1 then
    let precision := (Int.log 10 magnitude).natAbs + 3
    if magnitude < 1 / 10 ^ 4 then sciChars (roundTo precision magnitude / 10 ^ precision)
    else strDecimal precision (roundTo precision magnitude)
  else strDecimal 3 (roundTo 3 magnitude)

theorem numberText_eq (q : ℚ) :
    numberText q = if Comparator.isNegative q then '-' :: magnitudeText |q| else magnitudeText |q| := rfl

/-- An integral number and the printed integer. -/
theorem isInteger_close {q : ℚ} (hq : 0 ≤ q) (h : Comparator.isInteger q = true) :
    |(roundEven q : ℚ) - q| < 1 / 10 ^ 10 := by
  unfold Comparator.isInteger at h
  simp only [abs_of_nonneg hq] at h
  have h1 := Int.floor_le q
  have h2 := Int.lt_floor_add_one q
  unfold roundEven
  simp only
  split at h
  · rename_i hr
    have hr : 1 / 2 < q - ⌊q⌋ := hr
    rw [Comparator.isCloseToZero_iff, Comparator.tol] at h
    rw [if_neg (by linarith), if_pos hr]
    push_cast
    convert h using 2; ring
  · rename_i hr
    have hr : q - ⌊q⌋ ≤ 1 / 2 := by push Not at hr; exact hr
    rw [Comparator.isCloseToZero_iff, Comparator.tol, abs_of_nonneg (by linarith)] at h
    rw [if_pos (by norm_num at h ⊢; linarith), abs_sub_comm, abs_of_nonneg (by linarith)]
    exact h

/-- The text of a nonnegative number: a numeral whose value is close to the number. -/
theorem magnitudeText_spec {q : ℚ} (hq : 0 ≤ q) :
    ∃ v, Numeral (magnitudeText q) v ∧ Shows v q := by
  unfold magnitudeText
  have hbig : ¬ Comparator.isCloseToZero q = true → ¬ |q| < 1 / 10 ^ 10 := fun h hc =>
    h (Comparator.isCloseToZero_iff.mpr hc)
  have hrel : ∀ v, ¬ Comparator.isCloseToZero q = true → |v - q| ≤ 5 / 10 ^ 4 * q → Shows v q := by
    intro v h hv
    unfold Shows
    rw [if_neg (hbig h), abs_of_nonneg hq]
    exact hv
  split_ifs with h1 h2 h3 h4 h5
  · refine ⟨0, ?_, ?_⟩
    · have := numeral_plain (a := ['0']) (d := []) (by decide) (by decide) (by simp)
      simpa [digitsVal, fracVal] using this
    · rw [Comparator.isCloseToZero_iff, Comparator.tol] at h1
      unfold Shows
      rw [if_pos h1]
  · have h0 : 0 < q := lt_trans (by norm_num) h2
    exact ⟨_, numeral_sciChars h0, hrel _ h1 (sci_close h0)⟩
  · have hclose := isInteger_close hq h3
    have hpos : 1 ≤ roundEven q := by
      rcases (roundEven_nonneg hq).lt_or_eq with h | h
      · omega
      · rw [← h] at hclose
        push_cast at hclose
        rw [zero_sub, abs_neg] at hclose
        exact absurd hclose (hbig h1)
    have hpos' : (1 : ℚ) ≤ roundEven q := by exact_mod_cast hpos
    have hab := abs_lt.mp hclose
    refine ⟨roundEven q, ?_, hrel _ h1 ?_⟩
    swap
    · refine hclose.le.trans ?_
      norm_num at hab ⊢
      linarith
    have := numeral_plain (a := natChars (roundEven q).toNat) (d := []) natChars_digit natChars_ne_nil (by simp)
    rw [digitsVal_natChars] at this
    have hc : (((roundEven q).toNat : ℕ) : ℚ) = roundEven q := by
      exact_mod_cast Int.toNat_of_nonneg (roundEven_nonneg hq)
    rw [hc] at this
    simpa [fracVal, digitsVal] using this
  · have h0 : 0 < q := by
      rcases hq.lt_or_eq with h | h
      · exact h
      · rw [← h] at h1
        exact absurd (Comparator.isCloseToZero_iff.mpr (by rw [abs_zero]; exact Comparator.tol_pos)) h1
    have hlog : (10 : ℚ) ^ Int.log 10 q ≤ q := by
      have := Int.zpow_log_le_self (b := 10) (by norm_num) h0
      exact_mod_cast this
    have hlog2 : q < (10 : ℚ) ^ (Int.log 10 q + 1) := by
      have := Int.lt_zpow_succ_log_self (b := 10) (by norm_num) q
      exact_mod_cast this
    have hneg : Int.log 10 q < 0 := by
      refine (Int.lt_zpow_iff_log_lt (by norm_num) h0).mp ?_
      simpa using h4
    generalize hp : (Int.log 10 q).natAbs + 3 = p
    have hl : Int.log 10 q = 3 - p := by omega
    rw [hl] at hlog hlog2
    have hpp : (10 : ℚ) ^ ((3 : ℤ) - p) = 1000 / 10 ^ p := by
      rw [zpow_sub₀ (by norm_num), zpow_natCast]; norm_num
    have hpp2 : (10 : ℚ) ^ ((3 : ℤ) - p + 1) = 10000 / 10 ^ p := by
      rw [show (3 : ℤ) - p + 1 = 4 - p by ring, zpow_sub₀ (by norm_num), zpow_natCast]; norm_num
    have hp10 : (0 : ℚ) < 10 ^ p := by positivity
    rw [hpp, div_le_iff₀ hp10] at hlog
    rw [hpp2, lt_div_iff₀ hp10] at hlog2
    have hb := roundEven_bounds (q := q * 10 ^ p) (a := 1000) (b := 10000) (by exact_mod_cast hlog)
      (by exact_mod_cast hlog2.le)
    have hk1 : 1000 ≤ roundTo p q := by unfold roundTo; omega
    have hk2 : roundTo p q ≤ 10000 := by unfold roundTo; omega
    have hkpos : (0 : ℚ) < roundTo p q / 10 ^ p := by
      have : (0 : ℚ) < roundTo p q := by exact_mod_cast (by omega : 0 < roundTo p q)
      positivity
    refine ⟨roundTo p q / 10 ^ p, ?_, hrel _ h1 ?_⟩
    · have := numeral_sciChars hkpos
      rw [sci_exact hk1 hk2] at this
      exact this
    · refine (roundTo_le hq p).trans ?_
      rw [div_le_iff₀ hp10]
      linarith
  · have h0 : 0 < q := lt_of_lt_of_le (by norm_num) (not_lt.mp h5)
    have hlog : (10 : ℚ) ^ Int.log 10 q ≤ q := by
      have := Int.zpow_log_le_self (b := 10) (by norm_num) h0
      exact_mod_cast this
    have hneg : Int.log 10 q < 0 := by
      refine (Int.lt_zpow_iff_log_lt (by norm_num) h0).mp ?_
      simpa using h4
    generalize hp : (Int.log 10 q).natAbs + 3 = p
    have hl : Int.log 10 q = 3 - p := by omega
    rw [hl] at hlog
    have hpp : (10 : ℚ) ^ ((3 : ℤ) - p) = 1000 / 10 ^ p := by
      rw [zpow_sub₀ (by norm_num), zpow_natCast]; norm_num
    have hp10 : (0 : ℚ) < 10 ^ p := by positivity
    rw [hpp, div_le_iff₀ hp10] at hlog
    refine ⟨_, numeral_strDecimal (by omega), hrel _ h1 ?_⟩
    refine (roundTo_le hq p).trans ?_
    rw [div_le_iff₀ hp10]
    linarith
  · refine ⟨_, numeral_strDecimal (by norm_num), hrel _ h1 ?_⟩
    refine (roundTo_le hq 3).trans ?_
    have h4 : 1 ≤ q := not_lt.mp h4
    linarith

theorem roundTo_exact {q : ℚ} {k p : ℕ} (hk : q * 1000 = k) (hp : 3 ≤ p) : (roundTo p q : ℚ) / 10 ^ p = q := by
  obtain ⟨t, rfl⟩ := Nat.exists_eq_add_of_le hp
  have h : q * 10 ^ (3 + t) = ((k * 10 ^ t : ℕ) : ℤ) := by
    rw [pow_add]
    push_cast
    rw [← hk]; ring
  unfold roundTo
  rw [h, roundEven_int, Int.toNat_natCast]
  push_cast
  rw [← hk, pow_add]
  field_simp
  norm_num

/-- A number with at most three decimals is printed exactly. -/
theorem magnitudeText_exact {q : ℚ} {k : ℕ} (hk : q * 1000 = k) (hle : q ≤ 10 ^ 10) :
    Numeral (magnitudeText q) q := by
  have hq : 0 ≤ q := by
    have : (0 : ℚ) ≤ k := Nat.cast_nonneg _
    linarith
  have hzero : q < 1 / 1000 → q = 0 := by
    intro h
    have : (k : ℚ) < 1 := by rw [← hk]; linarith
    have : k = 0 := by have : k < 1 := by exact_mod_cast this
                       omega
    rw [this] at hk
    push_cast at hk
    linarith
  have h0 : Comparator.isCloseToZero 0 = true := Comparator.isCloseToZero_iff.mpr (by simpa using Comparator.tol_pos)
  unfold magnitudeText
  split_ifs with h1 h2 h3 h4 h5
  · rw [Comparator.isCloseToZero_iff, Comparator.tol, abs_of_nonneg hq] at h1
    have := hzero (h1.trans (by norm_num))
    rw [this]
    have := numeral_plain (a := ['0']) (d := []) (by decide) (by decide) (by simp)
    simpa [digitsVal, fracVal] using this
  · exact absurd h2 (not_lt.mpr hle)
  · have hc := isInteger_close hq h3
    have he : (roundEven q : ℚ) = q := by
      have h1 : |((roundEven q * 1000 - k : ℤ) : ℚ)| < 1 := by
        push_cast
        rw [← hk, show (roundEven q : ℚ) * 1000 - q * 1000 = ((roundEven q : ℚ) - q) * 1000 by ring, abs_mul]
        norm_num at hc ⊢
        linarith
      have h2 : |roundEven q * 1000 - k| < 1 := by exact_mod_cast h1
      have h3 : roundEven q * 1000 - k = 0 := Int.abs_lt_one_iff.mp h2
      have h4 : (roundEven q : ℚ) * 1000 = k := by exact_mod_cast sub_eq_zero.mp h3
      linarith
    have := numeral_plain (a := natChars (roundEven q).toNat) (d := []) natChars_digit natChars_ne_nil (by simp)
    rw [digitsVal_natChars] at this
    have hn : (((roundEven q).toNat : ℕ) : ℚ) = roundEven q := by
      exact_mod_cast Int.toNat_of_nonneg (roundEven_nonneg hq)
    rw [hn, he] at this
    simpa [fracVal, digitsVal] using this
  · have := hzero (h5.trans (by norm_num))
    rw [this] at h1
    exact absurd h0 h1
  · have := numeral_strDecimal (p := (Int.log 10 q).natAbs + 3) (k := roundTo ((Int.log 10 q).natAbs + 3) q) (by omega)
    rw [roundTo_exact hk (by omega)] at this
    exact this
  · have := numeral_strDecimal (p := 3) (k := roundTo 3 q) (by omega)
    rw [roundTo_exact hk (by omega)] at this
    exact this

/-- The characters of a printed number. -/
def NumChar (c : Char) : Prop := c.isDigit = true ∨ c = '-' ∨ c = 'e' ∨ c = '+'

theorem numberText_spec (q : ℚ) :
    ∃ v a d, numberText q = a ++ '.' :: d ∧ a ≠ [] ∧ (∀ c ∈ a ++ d, NumChar c) ∧
      readNum (numberText q) = some v ∧ Shows v q := by
  obtain ⟨v, hv, hc⟩ := magnitudeText_spec (abs_nonneg q)
  obtain ⟨a, d, hs, h0, ha, hd⟩ := hv.shape
  have hchars : ∀ c ∈ a ++ d, NumChar c := by
    intro c hc
    rcases List.mem_append.mp hc with h | h
    · exact Or.inl (ha c h)
    · rcases hd c h with h | h | h | h
      · exact Or.inl h
      · exact Or.inr (Or.inr (Or.inl h))
      · exact Or.inr (Or.inr (Or.inr h))
      · exact Or.inr (Or.inl h)
  rw [numberText_eq]
  by_cases hn : Comparator.isNegative q = true
  · rw [if_pos hn]
    refine ⟨-v, '-' :: a, d, by rw [hs]; rfl, by simp, ?_, ?_, ?_⟩
    · intro c hc
      rw [List.cons_append] at hc
      rcases List.mem_cons.mp hc with h | h
      · exact Or.inr (Or.inl h)
      · exact hchars c h
    · show (readUnsigned (magnitudeText |q|)).map _ = _
      rw [hv.value]; rfl
    · have hq : q < 0 := by
        unfold Comparator.isNegative Comparator.pyCmp at hn
        simp only [Bool.and_eq_true, decide_eq_true_eq] at hn
        exact hn.2
      unfold Shows at hc ⊢
      rw [abs_abs] at hc
      split_ifs at hc ⊢ with h1
      · rw [hc, neg_zero]
      · rw [← abs_neg]
        have e : -(-v - q) = v - |q| := by rw [abs_of_neg hq]; ring
        rw [e]
        exact hc
  · rw [if_neg hn]
    refine ⟨v, a, d, hs, h0, hchars, ?_, ?_⟩
    · rw [← hv.value, hs]
      cases a with
      | nil => exact absurd rfl h0
      | cons x a =>
        have hx := ha x (by simp)
        rw [List.cons_append]
        unfold readNum
        split
        · rename_i heq
          simp only [List.cons.injEq] at heq
          rw [heq.1] at hx
          exact absurd hx (by decide)
        · rfl
    · unfold Comparator.isNegative Comparator.pyCmp at hn
      simp only [Bool.and_eq_true, decide_eq_true_eq, not_and, not_lt, Bool.not_eq_true'] at hn
      by_cases hq : 0 ≤ q
      · rw [abs_of_nonneg hq] at hc
        exact hc
      · have hz : Comparator.closeTo q 0 = true := by
          by_contra h
          exact hq (hn (by simpa using h))
        have hz' : Comparator.isCloseToZero q = true := by simpa [Comparator.closeTo] using hz
        have hlt := Comparator.isCloseToZero_iff.mp hz'
        have ht : magnitudeText |q| = ['0', '.'] := by
          unfold magnitudeText
          rw [if_pos (Comparator.isCloseToZero_iff.mpr (by rw [abs_abs]; exact hlt))]
        have h0' := numeral_plain (a := ['0']) (d := []) (by decide) (by decide) (by simp)
        have hv0 : v = 0 := by
          have h1 := hv.value
          rw [ht, show ['0', '.'] = ['0'] ++ '.' :: [] from rfl, h0'.value] at h1
          rw [← Option.some.inj h1]
          simp [digitsVal, fracVal]
        unfold Shows
        rw [if_pos (by rw [Comparator.tol] at hlt; exact hlt)]
        exact hv0

/-- Reading a text without a leading minus sign. -/
theorem readNum_unsigned {s : List Char} {v : ℚ} (h : Numeral s v) : readNum s = some v := by
  obtain ⟨a, d, hs, h0, ha, -⟩ := h.shape
  rw [← h.value, hs]
  cases a with
  | nil => exact absurd rfl h0
  | cons x a =>
    have hx := ha x (by simp)
    rw [List.cons_append]
    unfold readNum
    split
    · rename_i heq
      simp only [List.cons.injEq] at heq
      rw [heq.1] at hx
      exact absurd hx (by decide)
    · rfl

theorem isNegative_iff {q : ℚ} : Comparator.isNegative q = true ↔ q ≤ -(1 / 10 ^ 10) := by
  unfold Comparator.isNegative Comparator.pyCmp
  simp only [Bool.and_eq_true, decide_eq_true_eq, Bool.not_eq_true', Comparator.closeTo, if_pos]
  constructor
  · rintro ⟨h1, h2⟩
    by_contra hc
    have : Comparator.isCloseToZero q = true := by
      rw [Comparator.isCloseToZero_iff, Comparator.tol, abs_of_neg h2]
      linarith
    rw [h1] at this
    exact Bool.noConfusion this
  · intro h
    have h2 : q < 0 := lt_of_le_of_lt h (by norm_num)
    refine ⟨?_, h2⟩
    rw [← Bool.not_eq_true, Comparator.isCloseToZero_iff, Comparator.tol, abs_of_neg h2]
    linarith

theorem numberText_exact {q : ℚ} {k : ℤ} (hk : q * 1000 = k) (hle : |q| ≤ 10 ^ 10) :
    readNum (numberText q) = some q := by
  have hk' : |q| * 1000 = k.natAbs := by
    have : |q| * 1000 = |q * 1000| := by rw [abs_mul]; norm_num
    rw [this, hk]
    rw [Nat.cast_natAbs, Int.cast_abs]
  have hn := magnitudeText_exact hk' hle
  rw [numberText_eq]
  by_cases h : Comparator.isNegative q = true
  · rw [if_pos h]
    show (readUnsigned (magnitudeText |q|)).map _ = _
    rw [hn.value]
    have hq : q < 0 := lt_of_le_of_lt (isNegative_iff.mp h) (by norm_num)
    simp only [Option.map_some, abs_of_neg hq, neg_neg]
  · rw [if_neg h, readNum_unsigned hn]
    have hq : 0 ≤ q := by
      rw [isNegative_iff] at h
      by_contra hc
      have h1 : -(1 / 10 ^ 10) < q := not_le.mp h
      have h3 : k = 0 := by
        have h4 : (-1 : ℚ) < k := by rw [← hk]; norm_num at h1 ⊢; linarith
        have h5 : (k : ℚ) < 1 := by rw [← hk]; linarith [not_le.mp hc]
        have h4 : (-1 : ℤ) < k := by exact_mod_cast h4
        have h5 : k < 1 := by exact_mod_cast h5
        omega
      rw [h3] at hk
      push_cast at hk
      linarith
    rw [abs_of_nonneg hq]

end Props
end Pytimize
