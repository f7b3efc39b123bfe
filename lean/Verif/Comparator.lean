/-
Model of `pytimize/utilities/_comparator.py` over exact rationals, with the code's tolerances.
-/
import Mathlib.Data.Rat.Floor
import Mathlib.Tactic.Linarith
import Mathlib.Tactic.NormNum
import Verif.Py

namespace Pytimize
namespace Comparator

/-- The literal `1.0e-10` of `_comparator.py:26` (as an exact rational). -/
def tol : ℚ := 1 / 10 ^ 10

/-- `Comparator.is_close_to_zero`, `_comparator.py:8-26`, on a number. -/
def isCloseToZero (v : ℚ) : Bool := decide (|v| < tol)

/-- `np.isclose(a, b)` with NumPy's defaults `rtol=1e-05, atol=1e-08`
(used in `_comparator.py:55`): `|a - b| <= atol + rtol * |b|`. -/
def npIsClose (a b : ℚ) : Bool := decide (|a - b| ≤ 1 / 10 ^ 8 + 1 / 10 ^ 5 * |b|)

/-- `math.isclose(a, b)` with Python's defaults `rel_tol=1e-09, abs_tol=0`. -/
def mathIsClose (a b : ℚ) : Bool := decide (|a - b| ≤ 1 / 10 ^ 9 * max |a| |b|)

/-- `_comparator.py:54-56`: the closeness test chosen by `test == 0`. -/
def closeTo (v t : ℚ) : Bool := if t = 0 then isCloseToZero v else npIsClose v t

/-- The comparison operators accepted by `is_close_compare`. -/
inductive Op | ge | gt | le | lt
  deriving DecidableEq, Repr

/-- The `comparison` string as given by the caller; anything else is `none`. -/
def Op.parse (s : String) : Option Op :=
  if s = ">=" then some .ge else if s = ">" then some .gt
  else if s = "<=" then some .le else if s = "<" then some .lt else none

/-- One entry of `is_close_compare`, `_comparator.py:59-66` (scalar `value`). -/
def pyCmp (v : ℚ) (op : Op) (t : ℚ) : Bool :=
  match op with
  | .ge => closeTo v t || decide (v ≥ t)
  | .gt => !closeTo v t && decide (v > t)
  | .le => closeTo v t || decide (v ≤ t)
  | .lt => !closeTo v t && decide (v < t)

/-- `Comparator.is_close_compare`, `_comparator.py:28-70`, scalar `value`, with the operator
given as a string. -/
def isCloseCompare (v : ℚ) (op : String) (t : ℚ) : Except PyErr Bool :=
  match Op.parse op with
  | some o => .ok (pyCmp v o t)
  | none => .error .valueError

/-- `Comparator.is_close_compare` on an array, `_comparator.py:59-70`: elementwise, then
`result.all()`. -/
def isCloseCompareArr (v : List ℚ) (op : String) (t : ℚ) : Except PyErr Bool :=
  match Op.parse op with
  | some o => .ok (v.all fun a => pyCmp a o t)
  | none => .error .valueError

/-- `Comparator.is_integer`, scalar branch, `_comparator.py:95-100`. `int(value)` truncates
toward zero, which is `floor` for the nonnegative `abs(value)`. -/
def isInteger (v : ℚ) : Bool :=
  let a := |v|
  let r := a - (⌊a⌋ : ℤ)
  if r > 1 / 2 then isCloseToZero (1 - r) else isCloseToZero r

/-- `Comparator.is_integer`, array branch, `_comparator.py:89-94`: `False` at the first entry
that is not integral. -/
def isIntegerArr : List ℚ → Bool
  | [] => true
  | v :: vs => if isInteger v then isIntegerArr vs else false

/-- `Comparator.is_negative`, `_comparator.py:102-119`. -/
def isNegative (v : ℚ) : Bool := pyCmp v .lt 0

/-- `Comparator.is_positive`, `_comparator.py:121-138`. -/
def isPositive (v : ℚ) : Bool := pyCmp v .gt 0

theorem tol_pos : 0 < tol := by unfold tol; norm_num

theorem isCloseToZero_iff {v : ℚ} : isCloseToZero v = true ↔ |v| < tol := by simp [isCloseToZero]

@[simp] theorem isCloseToZero_zero : isCloseToZero 0 = true := by
  simp [isCloseToZero_iff, tol_pos]

theorem closeTo_self (t : ℚ) : closeTo t t = true := by
  unfold closeTo
  split
  · rename_i h; subst h; exact isCloseToZero_zero
  · simp only [npIsClose, sub_self, abs_zero, decide_eq_true_eq]
    have := abs_nonneg t
    positivity

theorem isPositive_iff {v : ℚ} : isPositive v = true ↔ tol ≤ v := by
  simp only [isPositive, pyCmp, closeTo, if_true, isCloseToZero, Bool.and_eq_true,
    Bool.not_eq_true', decide_eq_false_iff_not, decide_eq_true_eq, not_lt, gt_iff_lt]
  constructor
  · rintro ⟨h1, h2⟩; rwa [abs_of_pos h2] at h1
  · intro h
    have : 0 < v := lt_of_lt_of_le tol_pos h
    exact ⟨by rwa [abs_of_pos this], this⟩

theorem isNegative_iff {v : ℚ} : isNegative v = true ↔ v ≤ -tol := by
  simp only [isNegative, pyCmp, closeTo, if_true, isCloseToZero, Bool.and_eq_true,
    Bool.not_eq_true', decide_eq_false_iff_not, decide_eq_true_eq, not_lt]
  constructor
  · rintro ⟨h1, h2⟩; rw [abs_of_neg h2] at h1; linarith
  · intro h
    have : v < 0 := by have := tol_pos; linarith
    exact ⟨by rw [abs_of_neg this]; linarith, this⟩

theorem pyCmp_le_zero_iff {v : ℚ} : pyCmp v .le 0 = true ↔ v < tol := by
  simp only [pyCmp, closeTo, if_true, isCloseToZero, Bool.or_eq_true, decide_eq_true_eq]
  constructor
  · rintro (h | h)
    · exact (abs_lt.mp h).2
    · exact lt_of_le_of_lt h tol_pos
  · intro h
    by_cases h0 : v ≤ 0
    · exact Or.inr h0
    · push Not at h0; left; rwa [abs_of_pos h0]

theorem pyCmp_ge_zero_iff {v : ℚ} : pyCmp v .ge 0 = true ↔ -tol < v := by
  simp only [pyCmp, closeTo, if_true, isCloseToZero, Bool.or_eq_true, decide_eq_true_eq]
  constructor
  · rintro (h | h)
    · exact (abs_lt.mp h).1
    · have := tol_pos; linarith
  · intro h
    by_cases h0 : 0 ≤ v
    · exact Or.inr h0
    · push Not at h0; left; rw [abs_of_neg h0]; linarith

end Comparator
end Pytimize
