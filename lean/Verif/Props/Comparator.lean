/-
Properties C01, C02, C03: `Comparator`.
-/
import Verif.Comparator
import Mathlib.Algebra.Order.Floor.Ring

namespace Pytimize
namespace Props
open Comparator

/-! ### C01 -/

/-- C01: for every number exactly one of `is_negative`, `is_close_to_zero`, `is_positive` holds. -/
theorem C01_trichotomy (v : ℚ) :
    (isNegative v = true ∧ isCloseToZero v = false ∧ isPositive v = false) ∨
    (isNegative v = false ∧ isCloseToZero v = true ∧ isPositive v = false) ∨
    (isNegative v = false ∧ isCloseToZero v = false ∧ isPositive v = true) := by
  have ht := tol_pos
  have hN : isNegative v = false ↔ ¬ v ≤ -tol := by rw [← isNegative_iff]; simp
  have hP : isPositive v = false ↔ ¬ tol ≤ v := by rw [← isPositive_iff]; simp
  have hZ : isCloseToZero v = false ↔ ¬ |v| < tol := by rw [← isCloseToZero_iff]; simp
  rw [isNegative_iff, isPositive_iff, isCloseToZero_iff, hN, hP, hZ]
  by_cases h1 : v ≤ -tol
  · left
    refine ⟨h1, ?_, ?_⟩
    · rw [not_lt, abs_of_neg (by linarith)]; linarith
    · linarith
  · by_cases h2 : tol ≤ v
    · right; right
      refine ⟨h1, ?_, h2⟩
      rw [not_lt, abs_of_pos (by linarith)]; exact h2
    · right; left
      refine ⟨h1, ?_, h2⟩
      rw [abs_lt]; constructor <;> linarith

/-- C01: a number is negative iff its opposite is positive. -/
theorem C01_neg_swap (v : ℚ) : isNegative v = isPositive (-v) := by
  rw [Bool.eq_iff_iff, isNegative_iff, isPositive_iff]
  constructor <;> intro h <;> linarith

/-- C01: on numbers, `<=` is the negation of `>` and `>=` the negation of `<`; on arrays each of
the four operators answers `True` exactly when it does on every entry; every other operator
string raises `ValueError`. -/
theorem C01_complement (v t : ℚ) :
    (∃ a, isCloseCompare v "<=" t = .ok a ∧ isCloseCompare v ">" t = .ok (!a)) ∧
    (∃ a, isCloseCompare v ">=" t = .ok a ∧ isCloseCompare v "<" t = .ok (!a)) := by
  refine ⟨⟨pyCmp v .le t, rfl, ?_⟩, ⟨pyCmp v .ge t, rfl, ?_⟩⟩
  · show Except.ok (pyCmp v .gt t) = _
    congr 1
    simp only [pyCmp, Bool.not_or]
    rw [show decide (v > t) = !decide (v ≤ t) by rw [← decide_not]; congr 1; simp]
  · show Except.ok (pyCmp v .lt t) = _
    congr 1
    simp only [pyCmp, Bool.not_or]
    rw [show decide (v < t) = !decide (v ≥ t) by rw [← decide_not]; congr 1; simp]

theorem C01_array (vs : List ℚ) (op : String) (t : ℚ) :
    (op ∈ [">=", ">", "<=", "<"] →
      ∃ a, isCloseCompareArr vs op t = .ok a ∧
        (a = true ↔ ∀ v ∈ vs, isCloseCompare v op t = .ok true)) ∧
    (op ∉ [">=", ">", "<=", "<"] →
      isCloseCompareArr vs op t = .error .valueError ∧
      ∀ v, isCloseCompare v op t = .error .valueError) := by
  constructor
  · intro h
    have : ∃ o, Op.parse op = some o := by
      simp only [List.mem_cons, List.not_mem_nil, or_false] at h
      rcases h with rfl | rfl | rfl | rfl <;> exact ⟨_, rfl⟩
    obtain ⟨o, ho⟩ := this
    refine ⟨vs.all fun a => pyCmp a o t, by simp only [isCloseCompareArr, ho], ?_⟩
    simp [isCloseCompare, ho, List.all_eq_true]
  · intro h
    have : Op.parse op = none := by
      simp only [List.mem_cons, List.not_mem_nil, or_false, not_or] at h
      simp [Op.parse, h]
    simp [isCloseCompareArr, isCloseCompare, this]

example : isNegative (-1) = true ∧ isPositive (1 / 10 ^ 10) = true ∧
    isCloseToZero (1 / 10 ^ 11) = true := by decide +kernel

/-! ### C02 -/

/-- The tolerance band around the test value, as documented: `|v| < 1e-10` around zero, NumPy's
`isclose` default band around anything else. -/
def InBand (v t : ℚ) : Prop :=
  (t = 0 ∧ |v| < 1 / 10 ^ 10) ∨ (t ≠ 0 ∧ |v - t| ≤ 1 / 10 ^ 8 + 1 / 10 ^ 5 * |t|)

/-- The exact comparison denoted by an operator string. -/
def exactOp : String → Option (ℚ → ℚ → Prop)
  | ">=" => some (fun a b => b ≤ a)
  | ">" => some (fun a b => b < a)
  | "<=" => some (fun a b => a ≤ b)
  | "<" => some (fun a b => a < b)
  | _ => none

/-- C02: outside the band `is_close_compare` is the exact comparison; inside the band the
non-strict operators answer `True` and the strict ones `False`. -/
theorem C02_band (v t : ℚ) :
    (¬ InBand v t → ∀ op R, exactOp op = some R →
      ∃ a, isCloseCompare v op t = .ok a ∧ (a = true ↔ R v t)) ∧
    (InBand v t →
      isCloseCompare v ">=" t = .ok true ∧ isCloseCompare v "<=" t = .ok true ∧
      isCloseCompare v ">" t = .ok false ∧ isCloseCompare v "<" t = .ok false) := by
  have hb : closeTo v t = true ↔ InBand v t := by
    unfold closeTo InBand
    split
    · rename_i h; simp [h, isCloseToZero, tol]
    · rename_i h; simp [h, npIsClose]
  constructor
  · intro h op R hR
    have hc : closeTo v t = false := by
      rw [← Bool.not_eq_true, hb]; exact h
    unfold exactOp at hR
    split at hR
    all_goals first
      | (obtain rfl := Option.some.inj hR
         refine ⟨_, rfl, ?_⟩
         simp [pyCmp, hc])
      | cases hR
  · intro h
    have hc : closeTo v t = true := hb.mpr h
    refine ⟨?_, ?_, ?_, ?_⟩ <;> simp [isCloseCompare, Op.parse, pyCmp, hc]

/-- C02: an exactly true non-strict comparison is never rejected, an exactly false strict one
never accepted. -/
theorem C02_safe (v t : ℚ) :
    (t ≤ v → isCloseCompare v ">=" t = .ok true) ∧ (v ≤ t → isCloseCompare v "<=" t = .ok true) ∧
    (isCloseCompare v ">" t = .ok true → t < v) ∧ (isCloseCompare v "<" t = .ok true → v < t) := by
  refine ⟨?_, ?_, ?_, ?_⟩ <;> intro h
  · simp [isCloseCompare, Op.parse, pyCmp, h]
  · simp [isCloseCompare, Op.parse, pyCmp, h]
  · simp [isCloseCompare, Op.parse, pyCmp] at h; exact h.2
  · simp [isCloseCompare, Op.parse, pyCmp] at h; exact h.2

example : InBand 100000 100001 ∧ ¬ InBand 2 1 := by
  constructor
  · right; constructor <;> norm_num [abs_le, abs_of_pos]
  · rintro (⟨h, -⟩ | ⟨-, h⟩)
    · norm_num at h
    · norm_num at h

/-! ### C03 -/

/-- C03: `is_integer(v)` iff `v` is within `1e-10` of an integer. -/
theorem C03_isInteger_iff (v : ℚ) :
    isInteger v = true ↔ ∃ k : ℤ, |v - k| < 1 / 10 ^ 10 := by
  have key : ∀ a : ℚ, 0 ≤ a →
      (((let r := a - (⌊a⌋ : ℤ); if r > 1 / 2 then isCloseToZero (1 - r) else isCloseToZero r)
        = true) ↔ ∃ k : ℤ, |a - k| < 1 / 10 ^ 10) := by
    intro a _
    have h0 : (0 : ℚ) ≤ a - (⌊a⌋ : ℤ) := by have := Int.floor_le a; linarith
    have h1 : a - (⌊a⌋ : ℤ) < 1 := by have := Int.lt_floor_add_one a; linarith
    set r := a - (⌊a⌋ : ℤ) with hr
    show (if r > 1 / 2 then isCloseToZero (1 - r) else isCloseToZero r) = true ↔ _
    split
    · rename_i hgt
      rw [isCloseToZero_iff, tol]
      constructor
      · intro h
        refine ⟨⌊a⌋ + 1, ?_⟩
        push_cast
        rw [show a - ((⌊a⌋ : ℚ) + 1) = -(1 - r) by rw [hr]; ring, abs_neg]
        exact h
      · rintro ⟨k, hk⟩
        rw [abs_of_pos (by linarith)]
        by_cases hk1 : k ≤ ⌊a⌋
        · have : (k : ℚ) ≤ ⌊a⌋ := by exact_mod_cast hk1
          have : a - k ≥ r := by rw [hr]; linarith
          have := (abs_lt.mp hk).2
          have h4 : r < 1 / 10 ^ 10 := by linarith
          norm_num at h4
          linarith
        · push Not at hk1
          have : (⌊a⌋ : ℚ) + 1 ≤ k := by exact_mod_cast hk1
          have := (abs_lt.mp hk).1
          rw [hr]; linarith
    · rename_i hle
      rw [isCloseToZero_iff, tol]
      constructor
      · intro h
        exact ⟨⌊a⌋, h⟩
      · rintro ⟨k, hk⟩
        rw [abs_of_nonneg h0]
        by_cases hk1 : k ≤ ⌊a⌋
        · have : (k : ℚ) ≤ ⌊a⌋ := by exact_mod_cast hk1
          have := (abs_lt.mp hk).2
          rw [hr]; linarith
        · push Not at hk1
          have : (⌊a⌋ : ℚ) + 1 ≤ k := by exact_mod_cast hk1
          have h3 := (abs_lt.mp hk).1
          have h4 : 1 - r < 1 / 10 ^ 10 := by rw [hr]; linarith
          norm_num at h4 hle
          linarith
  have h := key |v| (abs_nonneg v)
  unfold isInteger
  rw [h]
  rcases abs_cases v with ⟨hv, _⟩ | ⟨hv, _⟩
  · rw [hv]
  · rw [hv]
    constructor
    · rintro ⟨k, hk⟩
      refine ⟨-k, ?_⟩
      rw [← abs_neg]; push_cast; rw [show -(v - -(k : ℚ)) = -v - k by ring]; exact hk
    · rintro ⟨k, hk⟩
      refine ⟨-k, ?_⟩
      rw [← abs_neg]; push_cast; rw [show -(-v - -(k : ℚ)) = v - k by ring]; exact hk

/-- C03: the array form. -/
theorem C03_isIntegerArr_iff (vs : List ℚ) :
    isIntegerArr vs = true ↔ ∀ v ∈ vs, ∃ k : ℤ, |v - k| < 1 / 10 ^ 10 := by
  induction vs with
  | nil => simp [isIntegerArr]
  | cons v vs ih =>
    unfold isIntegerArr
    split
    · rename_i h
      rw [ih]
      simp only [List.mem_cons, forall_eq_or_imp]
      exact ⟨fun h' => ⟨(C03_isInteger_iff v).mp h, h'⟩, fun h' => h'.2⟩
    · rename_i h
      simp only [Bool.false_eq_true, List.mem_cons, forall_eq_or_imp, false_iff, not_and]
      intro h'
      exact absurd ((C03_isInteger_iff v).mpr h') h

/-- C03: invariance under negation and integer translation. -/
theorem C03_invariance (v : ℚ) (k : ℤ) :
    isInteger (-v) = isInteger v ∧ isInteger (v + k) = isInteger v := by
  constructor
  · rw [Bool.eq_iff_iff, C03_isInteger_iff, C03_isInteger_iff]
    constructor
    · rintro ⟨j, hj⟩; refine ⟨-j, ?_⟩
      rw [← abs_neg]; push_cast; rw [show -(v - -(j : ℚ)) = -v - j by ring]; exact hj
    · rintro ⟨j, hj⟩; refine ⟨-j, ?_⟩
      rw [← abs_neg]; push_cast; rw [show -(-v - -(j : ℚ)) = v - j by ring]; exact hj
  · rw [Bool.eq_iff_iff, C03_isInteger_iff, C03_isInteger_iff]
    constructor
    · rintro ⟨j, hj⟩; refine ⟨j - k, ?_⟩
      push_cast; rw [show v - ((j : ℚ) - k) = v + k - j by ring]; exact hj
    · rintro ⟨j, hj⟩; refine ⟨j + k, ?_⟩
      push_cast; rw [show v + k - ((j : ℚ) + k) = v - j by ring]; exact hj

example : isInteger (-3 + 1 / 10 ^ 11) = true ∧ isInteger (5 / 2) = false := by decide +kernel

end Props
end Pytimize
