/-
Python's arithmetic satisfies the assumptions of `Verif/Float/EquationBound.lean`.
-/
import Verif.Float.EquationBound

namespace Pytimize
namespace Floating
open Formulation

theorem toFloat_near (R : Rounding) (a : PyNum) : |a.toFloat R - a.val| ≤ (R.u + R.tiny) * |a.val| := by
  cases a with
  | int k =>
    simp only [PyNum.toFloat, PyNum.val]
    by_cases hk : k = 0
    · subst hk; simp [R.rd_zero]
    · have h1 := R.err k
      have h2 : (1 : ℚ) ≤ |(k : ℚ)| := by
        rw [← Int.cast_abs]
        exact_mod_cast Int.one_le_abs hk
      have h3 := mul_le_mul_of_nonneg_left h2 R.tiny_nonneg
      rw [add_mul]
      linarith
  | float q =>
    simp only [PyNum.toFloat, PyNum.val, sub_self, abs_zero]
    exact mul_nonneg (add_nonneg R.u_nonneg R.tiny_nonneg) (abs_nonneg _)

theorem float_add (R : Rounding) {s : ℚ} (hs : R.tiny ≤ R.tiny * s) (a b : PyNum) :
    |R.rd (a.toFloat R + b.toFloat R) - (a.val + b.val)| ≤ ((1 + (R.u + R.tiny)) ^ 3 - 1) * max (|a.val| + |b.val|) s := by
  set v := R.u + R.tiny with hv
  have hu := R.u_nonneg
  have ht := R.tiny_nonneg
  have hv0 : 0 ≤ v := add_nonneg hu ht
  set S := |a.val| + |b.val| with hS
  set M := max S s with hM
  have hS0 : 0 ≤ S := by positivity
  have hSM : S ≤ M := le_max_left _ _
  have hM0 : 0 ≤ M := hS0.trans hSM
  have htM : R.tiny ≤ R.tiny * M := hs.trans (mul_le_mul_of_nonneg_left (le_max_right _ _) ht)
  have ha := toFloat_near R a
  have hb := toFloat_near R b
  have h1 := R.err (a.toFloat R + b.toFloat R)
  have h2 : |a.toFloat R + b.toFloat R - (a.val + b.val)| ≤ v * S := by
    have := abs_add_le (a.toFloat R - a.val) (b.toFloat R - b.val)
    rw [show a.toFloat R + b.toFloat R - (a.val + b.val) = (a.toFloat R - a.val) + (b.toFloat R - b.val) by ring, hS, mul_add]
    linarith
  have h3 : |a.toFloat R + b.toFloat R| ≤ (1 + v) * S := by
    have h4 := abs_sub_abs_le_abs_sub (a.toFloat R + b.toFloat R) (a.val + b.val)
    have h5 := abs_add_le a.val b.val
    linarith
  have h4 : |R.rd (a.toFloat R + b.toFloat R) - (a.val + b.val)| ≤ R.u * ((1 + v) * S) + R.tiny + v * S := by
    have h5 := abs_add_le (R.rd (a.toFloat R + b.toFloat R) - (a.toFloat R + b.toFloat R))
      (a.toFloat R + b.toFloat R - (a.val + b.val))
    rw [sub_add_sub_cancel] at h5
    have h6 := mul_le_mul_of_nonneg_left h3 hu
    linarith
  have h5 : R.u * ((1 + v) * S) ≤ R.u * ((1 + v) * M) :=
    mul_le_mul_of_nonneg_left (mul_le_mul_of_nonneg_left hSM (by linarith)) hu
  have h6 : v * S ≤ v * M := mul_le_mul_of_nonneg_left hSM hv0
  have h7 : (R.u * (1 + v) + R.tiny + v) * M ≤ ((1 + v) ^ 3 - 1) * M := by
    refine mul_le_mul_of_nonneg_right ?_ hM0
    have : R.u * v ≤ v * v := mul_le_mul_of_nonneg_right (by linarith) hv0
    nlinarith [mul_nonneg hv0 hv0, mul_nonneg hv0 (mul_nonneg hv0 hv0)]
  linarith

theorem float_mul (R : Rounding) {s : ℚ} (hs : R.tiny ≤ R.tiny * s) (a b : PyNum) :
    |R.rd (a.toFloat R * b.toFloat R) - a.val * b.val| ≤ ((1 + (R.u + R.tiny)) ^ 3 - 1) * max |a.val * b.val| s := by
  set v := R.u + R.tiny with hv
  have hu := R.u_nonneg
  have ht := R.tiny_nonneg
  have hv0 : 0 ≤ v := add_nonneg hu ht
  set S := |a.val * b.val| with hS
  set M := max S s with hM
  have hS0 : 0 ≤ S := abs_nonneg _
  have hSM : S ≤ M := le_max_left _ _
  have hM0 : 0 ≤ M := hS0.trans hSM
  have htM : R.tiny ≤ R.tiny * M := hs.trans (mul_le_mul_of_nonneg_left (le_max_right _ _) ht)
  have ha := toFloat_near R a
  have hb := toFloat_near R b
  have h1 := R.err (a.toFloat R * b.toFloat R)
  have hb' : |b.toFloat R| ≤ (1 + v) * |b.val| := by
    have := abs_sub_abs_le_abs_sub (b.toFloat R) b.val
    linarith
  have h2 : |a.toFloat R * b.toFloat R - a.val * b.val| ≤ (v * (1 + v) + v) * S := by
    have e : a.toFloat R * b.toFloat R - a.val * b.val =
        (a.toFloat R - a.val) * b.toFloat R + a.val * (b.toFloat R - b.val) := by ring
    have p1 : |(a.toFloat R - a.val) * b.toFloat R| ≤ (v * |a.val|) * ((1 + v) * |b.val|) := by
      rw [abs_mul]; exact mul_le_mul ha hb' (abs_nonneg _) (by positivity)
    have p2 : |a.val * (b.toFloat R - b.val)| ≤ |a.val| * (v * |b.val|) := by
      rw [abs_mul]; exact mul_le_mul_of_nonneg_left hb (abs_nonneg _)
    rw [e]
    refine (abs_add_le _ _).trans ((add_le_add p1 p2).trans (le_of_eq ?_))
    rw [hS, abs_mul]; ring
  have h3 : |a.toFloat R * b.toFloat R| ≤ (v * (1 + v) + v + 1) * S := by
    have h4 := abs_sub_abs_le_abs_sub (a.toFloat R * b.toFloat R) (a.val * b.val)
    linarith
  have h4 : |R.rd (a.toFloat R * b.toFloat R) - a.val * b.val| ≤
      R.u * ((v * (1 + v) + v + 1) * S) + R.tiny + (v * (1 + v) + v) * S := by
    have h5 := abs_add_le (R.rd (a.toFloat R * b.toFloat R) - a.toFloat R * b.toFloat R)
      (a.toFloat R * b.toFloat R - a.val * b.val)
    rw [sub_add_sub_cancel] at h5
    have h6 := mul_le_mul_of_nonneg_left h3 hu
    linarith
  have hc : 0 ≤ v * (1 + v) + v := by positivity
  have h5 : R.u * ((v * (1 + v) + v + 1) * S) ≤ R.u * ((v * (1 + v) + v + 1) * M) :=
    mul_le_mul_of_nonneg_left (mul_le_mul_of_nonneg_left hSM (by linarith)) hu
  have h6 : (v * (1 + v) + v) * S ≤ (v * (1 + v) + v) * M := mul_le_mul_of_nonneg_left hSM hc
  have h7 : (R.u * (v * (1 + v) + v + 1) + R.tiny + (v * (1 + v) + v)) * M ≤ ((1 + v) ^ 3 - 1) * M := by
    refine mul_le_mul_of_nonneg_right ?_ hM0
    have : R.u * (v * (1 + v) + v) ≤ v * (v * (1 + v) + v) := mul_le_mul_of_nonneg_right (by linarith) hc
    nlinarith
  linarith

/-- Python's arithmetic. With `s = 0` there must be no underflow. -/
theorem pyOps_lawful (R : Rounding) {g s : ℚ} (hg : (1 + (R.u + R.tiny)) ^ 3 ≤ g)
    (hs : s = 1 ∨ s = 0 ∧ R.tiny = 0) : Lawful (pyOps R) PyNum.val g s := by
  have hv0 : 0 ≤ R.u + R.tiny := add_nonneg R.u_nonneg R.tiny_nonneg
  have h1 : 1 ≤ g := (one_le_pow₀ (by linarith)).trans hg
  have hts : R.tiny ≤ R.tiny * s := by
    rcases hs with rfl | ⟨rfl, h⟩
    · simp
    · simp [h]
  have hs0 : 0 ≤ s := by rcases hs with rfl | ⟨rfl, -⟩ <;> norm_num
  have int : ∀ M : ℚ, 0 ≤ M → 0 ≤ (g - 1) * M := fun M hM => mul_nonneg (sub_nonneg.mpr h1) hM
  refine ⟨h1, hs0, ?_, ?_, ?_, ?_, ?_, ?_, ?_⟩
  · rcases hs with rfl | ⟨rfl, -⟩ <;> norm_num
  · rcases hs with rfl | ⟨rfl, -⟩ <;> norm_num
  · simp [pyOps, PyNum.val]
  · simp [pyOps, PyNum.val]
  · intro a; cases a <;> simp [pyOps, PyNum.val]
  · intro a b
    have key := (float_add R hts a b).trans (mul_le_mul_of_nonneg_right (sub_le_sub_right hg 1)
      ((by positivity : 0 ≤ |a.val| + |b.val|).trans (le_max_left _ s)))
    cases a <;> cases b
    · simp only [pyOps, PyNum.val, Int.cast_add, sub_self, abs_zero]
      exact int _ (hs0.trans (le_max_right _ _))
    all_goals exact key
  · intro a b
    have key := (float_mul R hts a b).trans (mul_le_mul_of_nonneg_right (sub_le_sub_right hg 1)
      ((abs_nonneg (a.val * b.val)).trans (le_max_left _ s)))
    cases a <;> cases b
    · simp only [pyOps, PyNum.val, Int.cast_mul, sub_self, abs_zero]
      exact int _ (hs0.trans (le_max_right _ _))
    all_goals exact key

/-- Doubles: every operation is right up to the relative error `2 ^ -51`. -/
theorem double_lawful : Lawful (pyOps binary64) PyNum.val (1 + 1 / 2 ^ 51) 1 := by
  refine pyOps_lawful binary64 ?_ (Or.inl rfl)
  have h : binary64.u + binary64.tiny ≤ 5 / 4 * (1 / 2 ^ 53) := by
    have ht : (1 : ℚ) / 2 ^ 1075 ≤ 1 / 2 ^ 55 :=
      one_div_le_one_div_of_le (by positivity) (pow_le_pow_right₀ (by norm_num) (by norm_num))
    have hu : (1 : ℚ) / 2 ^ 53 + 1 / 2 ^ 55 = 5 / 4 * (1 / 2 ^ 53) := by norm_num
    exact (add_le_add_right ht (1 / 2 ^ 53)).trans (le_of_eq hu)
  have h0 : 0 ≤ binary64.u + binary64.tiny := add_nonneg binary64.u_nonneg binary64.tiny_nonneg
  refine (pow_le_pow_left₀ (by linarith) (add_le_add_right h 1) 3).trans ?_
  norm_num

end Floating
end Pytimize
