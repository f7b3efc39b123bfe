/-
Floating-point arithmetic. The other modules compute with exact rationals. Here every operation is followed by a
rounding, about which only what the IEEE standard promises is assumed; `binary64` shows that the format of NumPy's floats
(without overflow) is of this kind.
-/
import Mathlib.Data.Int.Log
import Mathlib.Algebra.Order.Field.Power
import Mathlib.Tactic.FieldSimp
import Mathlib.Tactic.Ring
import Verif.LP.Extra

namespace Pytimize
namespace Floating
open LinProg

/-- A rounding: the float that stands for the exact result of an operation. Not modelled: overflow, infinities, NaN. -/
structure Rounding where
  rd : ℚ → ℚ
  /-- relative error -/
  u : ℚ
  /-- absolute error, in case of underflow -/
  tiny : ℚ
  u_nonneg : 0 ≤ u
  tiny_nonneg : 0 ≤ tiny
  mono : ∀ {x y}, x ≤ y → rd x ≤ rd y
  idem : ∀ x, rd (rd x) = rd x
  odd : ∀ x, rd (-x) = -rd x
  err : ∀ x, |rd x - x| ≤ u * |x| + tiny

/-- A number that is a float. -/
def Rounding.Rep (R : Rounding) (x : ℚ) : Prop := R.rd x = x

/-- Exact arithmetic. -/
def exact : Rounding where
  rd := id
  u := 0
  tiny := 0
  u_nonneg := le_refl _
  tiny_nonneg := le_refl _
  mono := id
  idem _ := rfl
  odd _ := rfl
  err x := by simp

namespace Rounding
variable (R : Rounding)

theorem rd_zero : R.rd 0 = 0 := by
  have := R.odd 0
  rw [neg_zero] at this
  linarith

variable {R}

theorem rd_nonneg {x : ℚ} (h : 0 ≤ x) : 0 ≤ R.rd x := R.rd_zero ▸ R.mono h

theorem rd_nonpos {x : ℚ} (h : x ≤ 0) : R.rd x ≤ 0 := R.rd_zero ▸ R.mono h

theorem rd_abs (x : ℚ) : R.rd |x| = |R.rd x| := by
  rcases le_total 0 x with h | h
  · rw [abs_of_nonneg h, abs_of_nonneg (rd_nonneg h)]
  · rw [abs_of_nonpos h, R.odd, abs_of_nonpos (rd_nonpos h)]

theorem rep_rd (x : ℚ) : R.Rep (R.rd x) := R.idem x

theorem Rep.neg {x : ℚ} (h : R.Rep x) : R.Rep (-x) := by
  unfold Rep at *
  rw [R.odd, h]

theorem rd_le {x y : ℚ} (hy : R.Rep y) (h : x ≤ y) : R.rd x ≤ y := hy ▸ R.mono h

theorem le_rd {x y : ℚ} (hy : R.Rep y) (h : y ≤ x) : y ≤ R.rd x := by
  have := R.mono h
  rwa [hy] at this

end Rounding

/-! ### binary64 -/

theorem roundEven_mono {x y : ℚ} (h : x ≤ y) : roundEven x ≤ roundEven y := by
  have hf : ⌊x⌋ ≤ ⌊y⌋ := Int.floor_le_floor h
  have h1 := Int.floor_le x
  have h2 := Int.lt_floor_add_one x
  have h3 := Int.floor_le y
  have h4 := Int.lt_floor_add_one y
  unfold roundEven
  rcases hf.lt_or_eq with hf | hf
  · simp only
    split_ifs <;> omega
  · simp only [hf] at *
    split_ifs <;> first | omega | (exfalso; linarith)

theorem roundEven_near (q : ℚ) : |(roundEven q : ℚ) - q| ≤ 1 / 2 := by
  have h1 := Int.floor_le q
  have h2 := Int.lt_floor_add_one q
  unfold roundEven
  simp only
  split_ifs <;> rw [abs_le] <;> push_cast <;> constructor <;> linarith

theorem roundEven_cast (k : ℤ) : roundEven k = k := by
  unfold roundEven
  simp

theorem roundEven_neg (q : ℚ) : roundEven (-q) = -roundEven q := by
  by_cases hq : (⌊q⌋ : ℚ) = q
  · rw [← hq]
    have := roundEven_cast (-⌊q⌋)
    push_cast at this
    rw [this, roundEven_cast]
  · have h1 := Int.floor_le q
    have h2 := Int.lt_floor_add_one q
    have h1' : (⌊q⌋ : ℚ) < q := lt_of_le_of_ne h1 hq
    have hn : ⌊-q⌋ = -⌊q⌋ - 1 := by
      rw [Int.floor_eq_iff]
      push_cast
      constructor <;> linarith
    unfold roundEven
    simp only [hn]
    push_cast
    split_ifs <;> first | omega | (exfalso; linarith)

/-- The exponent of the last bit of a double near `x`. -/
def lastBit (x : ℚ) : ℤ := max (Int.log 2 |x| - 52) (-1074)

/-- Rounding to the nearest double, ties to even, as if there were no largest one. -/
def toDouble (x : ℚ) : ℚ := roundEven (x / 2 ^ lastBit x) * 2 ^ lastBit x

theorem two_pos' (e : ℤ) : (0 : ℚ) < 2 ^ e := by positivity

theorem lastBit_neg (x : ℚ) : lastBit (-x) = lastBit x := by unfold lastBit; rw [abs_neg]

theorem toDouble_neg (x : ℚ) : toDouble (-x) = -toDouble x := by
  unfold toDouble
  rw [lastBit_neg, neg_div, roundEven_neg]
  push_cast
  ring

theorem toDouble_zero : toDouble 0 = 0 := by
  have := toDouble_neg 0
  rw [neg_zero] at this
  linarith

theorem toDouble_near (x : ℚ) : |toDouble x - x| ≤ 2 ^ lastBit x / 2 := by
  have hp := two_pos' (lastBit x)
  have h := roundEven_near (x / 2 ^ lastBit x)
  have : toDouble x - x = ((roundEven (x / 2 ^ lastBit x) : ℚ) - x / 2 ^ lastBit x) * 2 ^ lastBit x := by
    unfold toDouble
    field_simp
  rw [this, abs_mul, abs_of_pos hp]
  calc _ ≤ 1 / 2 * 2 ^ lastBit x := mul_le_mul_of_nonneg_right h hp.le
    _ = _ := by ring

theorem toDouble_err (x : ℚ) : |toDouble x - x| ≤ 1 / 2 ^ 53 * |x| + 1 / 2 ^ 1075 := by
  by_cases hx : x = 0
  · subst hx; rw [toDouble_zero]; simp
  have hx' : 0 < |x| := abs_pos.mpr hx
  refine (toDouble_near x).trans ?_
  have h1 : (2 : ℚ) ^ Int.log 2 |x| ≤ |x| := by
    have := Int.zpow_log_le_self (b := 2) (r := |x|) (by norm_num) hx'
    simpa using this
  have h2 : (2 : ℚ) ^ (Int.log 2 |x| - 52) = 2 ^ Int.log 2 |x| / 2 ^ 52 := by
    rw [zpow_sub₀ (by norm_num)]; norm_cast
  have h3 : (2 : ℚ) ^ (-1074 : ℤ) = 1 / 2 ^ 1074 := by
    rw [zpow_neg, one_div]; norm_cast
  unfold lastBit
  rcases max_choice (Int.log 2 |x| - 52) (-1074) with h | h <;> rw [h]
  · rw [h2]
    have h0 : (0 : ℚ) ≤ 1 / 2 ^ 1075 := by positivity
    have : (2 : ℚ) ^ Int.log 2 |x| / 2 ^ 52 / 2 = 1 / 2 ^ 53 * 2 ^ Int.log 2 |x| := by
      rw [show (2 : ℚ) ^ 53 = 2 ^ 52 * 2 by norm_num]; field_simp
    rw [this]
    exact (mul_le_mul_of_nonneg_left h1 (show (0 : ℚ) ≤ 1 / 2 ^ 53 by positivity)).trans (le_add_of_nonneg_right h0)
  · rw [h3]
    have : (0 : ℚ) ≤ 1 / 2 ^ 53 * |x| := by positivity
    have h4 : (1 : ℚ) / 2 ^ 1074 / 2 = 1 / 2 ^ 1075 := by
      rw [show (2 : ℚ) ^ 1075 = 2 ^ 1074 * 2 from pow_succ _ _, div_div]
    rw [h4]
    exact le_add_of_nonneg_left this

/-- The doubles: at most 53 bits, the last of which is not below `2 ^ -1074`. -/
def IsDouble (x : ℚ) : Prop := ∃ k e : ℤ, x = k * 2 ^ e ∧ |k| ≤ 2 ^ 53 ∧ -1074 ≤ e

theorem lastBit_ge (x : ℚ) : -1074 ≤ lastBit x := le_max_right _ _

theorem abs_lt_lastBit (x : ℚ) : |x| < 2 ^ (lastBit x + 53) := by
  have h : |x| < 2 ^ (Int.log 2 |x| + 1) := by
    have := Int.lt_zpow_succ_log_self (b := 2) (by norm_num) |x|
    simpa using this
  refine h.trans_le (zpow_le_zpow_right₀ (by norm_num) ?_)
  have := le_max_left (Int.log 2 |x| - 52) (-1074)
  unfold lastBit
  omega

theorem isDouble_toDouble (x : ℚ) : IsDouble (toDouble x) := by
  refine ⟨roundEven (x / 2 ^ lastBit x), lastBit x, rfl, ?_, lastBit_ge x⟩
  have hp := two_pos' (lastBit x)
  have h := abs_lt_lastBit x
  rw [zpow_add₀ (by norm_num)] at h
  have h53 : (2 : ℚ) ^ (53 : ℤ) = ((2 ^ 53 : ℤ) : ℚ) := by norm_num
  rw [h53, mul_comm] at h
  have h2 := abs_lt.mp h
  have hl : (((-2 ^ 53 : ℤ)) : ℚ) ≤ x / 2 ^ lastBit x := by
    rw [le_div_iff₀ hp]; push_cast at *; linarith
  have hu : x / 2 ^ lastBit x ≤ ((2 ^ 53 : ℤ) : ℚ) := by
    rw [div_le_iff₀ hp]; exact h2.2.le
  have a := roundEven_mono hl
  have b := roundEven_mono hu
  rw [roundEven_cast] at a b
  exact abs_le.mpr ⟨a, b⟩

theorem toDouble_of_mul {x : ℚ} {k : ℤ} (h : x = k * 2 ^ lastBit x) : toDouble x = x := by
  have hp := two_pos' (lastBit x)
  unfold toDouble
  have : x / 2 ^ lastBit x = k := by rw [div_eq_iff hp.ne']; exact h
  rw [this, roundEven_cast, ← h]

/-- Doubles are not changed. -/
theorem toDouble_of_isDouble {x : ℚ} (h : IsDouble x) : toDouble x = x := by
  obtain ⟨k, e, rfl, hk, he⟩ := h
  by_cases h0 : k = 0
  · subst h0; simp [toDouble_zero]
  set x : ℚ := k * 2 ^ e with hx
  have hx0 : 0 < |x| := by
    rw [hx]; exact abs_pos.mpr (mul_ne_zero (by exact_mod_cast h0) (two_pos' e).ne')
  by_cases hle : lastBit x ≤ e
  · refine toDouble_of_mul (k := k * 2 ^ (e - lastBit x).toNat) ?_
    push_cast
    rw [mul_assoc, ← zpow_natCast, ← zpow_add₀ (by norm_num), Int.toNat_of_nonneg (by omega), sub_add_cancel]
  · push Not at hle
    have hl : lastBit x = Int.log 2 |x| - 52 := by
      unfold lastBit at hle ⊢
      rcases max_choice (Int.log 2 |x| - 52) (-1074) with h | h
      · exact h
      · rw [h] at hle; omega
    have hlow : (2 : ℚ) ^ Int.log 2 |x| ≤ |x| := by
      have := Int.zpow_log_le_self (b := 2) (r := |x|) (by norm_num) hx0
      simpa using this
    have habs : |x| = |k| * 2 ^ e := by rw [hx, abs_mul, abs_of_pos (two_pos' e)]; push_cast; rfl
    have hk' : ((|k| : ℤ) : ℚ) ≤ 2 ^ (53 : ℤ) := by
      have : ((|k| : ℤ) : ℚ) ≤ ((2 ^ 53 : ℤ) : ℚ) := by exact_mod_cast hk
      rw [show ((2 : ℚ) ^ (53 : ℤ)) = ((2 ^ 53 : ℤ) : ℚ) by norm_num]
      exact this
    have hup : |x| ≤ 2 ^ (53 + e) := by
      rw [zpow_add₀ (by norm_num), habs]
      exact mul_le_mul_of_nonneg_right hk' (two_pos' e).le
    have hlog : Int.log 2 |x| ≤ 53 + e :=
      (zpow_le_zpow_iff_right₀ (by norm_num : (1 : ℚ) < 2)).mp (hlow.trans hup)
    have hlog' : Int.log 2 |x| = 53 + e := by omega
    have hxe : |x| = 2 ^ (53 + e) := le_antisymm hup (hlog' ▸ hlow)
    have hl' : lastBit x = e + 1 := by omega
    have hpow : (2 : ℚ) ^ (53 + e) = ((2 ^ 52 : ℤ) : ℚ) * 2 ^ lastBit x := by
      rw [hl', show (53 + e : ℤ) = 52 + (e + 1) by ring, zpow_add₀ (by norm_num)]
      norm_num
    rcases abs_choice x with h | h
    · exact toDouble_of_mul (k := 2 ^ 52) (by rw [← hpow, ← hxe, h])
    · refine toDouble_of_mul (k := -2 ^ 52) ?_
      have : x = -|x| := by rw [h, neg_neg]
      rw [Int.cast_neg, neg_mul, ← hpow, ← hxe]
      exact this

/-- Integers with at most 53 bits are doubles. -/
theorem isDouble_int {k : ℤ} (h : |k| ≤ 2 ^ 53) : IsDouble k := ⟨k, 0, by simp, h, by norm_num⟩

theorem toDouble_le_of_pos {x y : ℚ} (hx : 0 ≤ x) (h : x ≤ y) : toDouble x ≤ toDouble y := by
  by_cases h0 : x = 0
  · subst h0
    rw [toDouble_zero]
    unfold toDouble
    refine mul_nonneg ?_ (two_pos' _).le
    have := roundEven_mono (show ((0 : ℤ) : ℚ) ≤ y / 2 ^ lastBit y by
      push_cast; exact div_nonneg h (two_pos' _).le)
    rw [roundEven_cast] at this
    exact_mod_cast this
  have hx' : 0 < x := lt_of_le_of_ne hx (Ne.symm h0)
  have hy' : 0 < y := hx'.trans_le h
  have hlog : Int.log 2 |x| ≤ Int.log 2 |y| := by
    rw [abs_of_pos hx', abs_of_pos hy']; exact Int.log_mono_right hx' h
  have hbit : lastBit x ≤ lastBit y := by
    unfold lastBit
    exact max_le_max (by omega) le_rfl
  rcases hbit.lt_or_eq with hb | hb
  · -- a power of two lies between
    have hl : lastBit y = Int.log 2 |y| - 52 := by
      have h1 := lastBit_ge x
      unfold lastBit at h1 hb ⊢
      rcases max_choice (Int.log 2 |y| - 52) (-1074) with h | h
      · exact h
      · rw [h] at hb; omega
    have hmid : (2 : ℚ) ^ Int.log 2 |y| ≤ y := by
      have := Int.zpow_log_le_self (b := 2) (r := |y|) (by norm_num) (abs_pos.mpr hy'.ne')
      rw [abs_of_pos hy'] at this ⊢
      simpa using this
    have hxm : x ≤ 2 ^ Int.log 2 |y| := by
      have := abs_lt_lastBit x
      rw [abs_of_pos hx'] at this
      refine this.le.trans (zpow_le_zpow_right₀ (by norm_num) ?_)
      omega
    have key : ∀ e : ℤ, e ≤ Int.log 2 |y| → (2 : ℚ) ^ Int.log 2 |y| / 2 ^ e = ((2 ^ (Int.log 2 |y| - e).toNat : ℤ) : ℚ) := by
      intro e he
      rw [← zpow_sub₀ (by norm_num)]
      push_cast
      rw [← zpow_natCast, Int.toNat_of_nonneg (by omega)]
    have a : toDouble x ≤ 2 ^ Int.log 2 |y| := by
      have h1 := roundEven_mono (div_le_div_of_nonneg_right hxm (two_pos' (lastBit x)).le)
      rw [key _ (by omega), roundEven_cast] at h1
      unfold toDouble
      have h2 : ((roundEven (x / 2 ^ lastBit x) : ℤ) : ℚ) ≤ 2 ^ Int.log 2 |y| / 2 ^ lastBit x := by
        rw [key _ (by omega)]; exact_mod_cast h1
      rwa [le_div_iff₀ (two_pos' _)] at h2
    have b : 2 ^ Int.log 2 |y| ≤ toDouble y := by
      have h1 := roundEven_mono (div_le_div_of_nonneg_right hmid (two_pos' (lastBit y)).le)
      rw [key _ (by omega), roundEven_cast] at h1
      unfold toDouble
      have h2 : (2 : ℚ) ^ Int.log 2 |y| / 2 ^ lastBit y ≤ ((roundEven (y / 2 ^ lastBit y) : ℤ) : ℚ) := by
        rw [key _ (by omega)]; exact_mod_cast h1
      rwa [div_le_iff₀ (two_pos' _)] at h2
    exact a.trans b
  · unfold toDouble
    rw [hb]
    refine mul_le_mul_of_nonneg_right ?_ (two_pos' _).le
    exact_mod_cast roundEven_mono (div_le_div_of_nonneg_right h (two_pos' _).le)

theorem toDouble_mono {x y : ℚ} (h : x ≤ y) : toDouble x ≤ toDouble y := by
  rcases le_total 0 x with hx | hx
  · exact toDouble_le_of_pos hx h
  · rcases le_total 0 y with hy | hy
    · have a := toDouble_le_of_pos le_rfl (show 0 ≤ -x by linarith)
      have b := toDouble_le_of_pos le_rfl hy
      rw [toDouble_zero] at a b
      rw [toDouble_neg] at a
      linarith
    · have := toDouble_le_of_pos (show 0 ≤ -y by linarith) (show -y ≤ -x by linarith)
      rw [toDouble_neg, toDouble_neg] at this
      linarith

/-- IEEE 754 binary64 with rounding to nearest, ties to even, apart from overflow. -/
def binary64 : Rounding where
  rd := toDouble
  u := 1 / 2 ^ 53
  tiny := 1 / 2 ^ 1075
  u_nonneg := by positivity
  tiny_nonneg := by positivity
  mono := toDouble_mono
  idem x := toDouble_of_isDouble (isDouble_toDouble x)
  odd := toDouble_neg
  err := toDouble_err

/-- The floats of `binary64` are the doubles. -/
theorem binary64_rep {x : ℚ} : binary64.Rep x ↔ IsDouble x :=
  ⟨fun h => h ▸ isDouble_toDouble x, toDouble_of_isDouble⟩

end Floating
end Pytimize
