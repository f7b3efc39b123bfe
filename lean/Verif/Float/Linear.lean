/-
The comparisons of `Comparator`, `is_feasible`, `evaluate` and the certificate checks in floating point.
-/
import Mathlib.Tactic.IntervalCases
import Verif.Float.Dot
import Verif.LP.Verify

namespace Pytimize
namespace Floating
open LinProg Comparator

variable {m n : ℕ}

/-! ### Comparisons -/

/-- The literal `1.0e-10` of `_comparator.py:26`. -/
def zeroTol (R : Rounding) : ℚ := R.rd (1 / 10 ^ 10)

/-- `Comparator.is_close_to_zero`, `_comparator.py:8-26`. -/
def closeToZero (R : Rounding) (v : ℚ) : Bool := decide (|v| < zeroTol R)

/-- `np.isclose(a, b)`: `abs(a - b) <= atol + rtol * abs(b)` with every operation rounded. -/
def npClose (R : Rounding) (a b : ℚ) : Bool :=
  decide (|R.rd (a - b)| ≤ R.rd (R.rd (1 / 10 ^ 8) + R.rd (R.rd (1 / 10 ^ 5) * |b|)))

/-- `math.isclose(a, b)`: equal, or `abs(b - a)` at most `rel_tol * abs(b)` or `rel_tol * abs(a)`. -/
def mathClose (R : Rounding) (a b : ℚ) : Bool :=
  decide (a = b) || decide (|R.rd (b - a)| ≤ |R.rd (R.rd (1 / 10 ^ 9) * b)|) ||
    decide (|R.rd (b - a)| ≤ |R.rd (R.rd (1 / 10 ^ 9) * a)|)

/-- `_comparator.py:54-56`. -/
def close (R : Rounding) (v t : ℚ) : Bool := if t = 0 then closeToZero R v else npClose R v t

/-- One entry of `is_close_compare`, `_comparator.py:59-66`. -/
def cmpTol (R : Rounding) (v : ℚ) (op : Op) (t : ℚ) : Bool :=
  match op with
  | .ge => close R v t || decide (v ≥ t)
  | .gt => !close R v t && decide (v > t)
  | .le => close R v t || decide (v ≤ t)
  | .lt => !close R v t && decide (v < t)

/-- `Comparator.is_negative`, `_comparator.py:102-119`. -/
def negative (R : Rounding) (v : ℚ) : Bool := cmpTol R v .lt 0

/-- `Comparator.is_positive`, `_comparator.py:121-138`. -/
def positive (R : Rounding) (v : ℚ) : Bool := cmpTol R v .gt 0

/-- `Comparator.is_integer`, scalar branch, `_comparator.py:95-100`; `int` is exact. -/
def integral (R : Rounding) (v : ℚ) : Bool :=
  let a := |v|
  let r := R.rd (a - (⌊a⌋ : ℤ))
  if r > 1 / 2 then closeToZero R (R.rd (1 - r)) else closeToZero R r

/-! ### Linear programs -/

/-- The comparison of one row in the last loop of `is_feasible`, `_linear.py:1353-1367`. -/
def rowTest (R : Rounding) : Ineq → ℚ → ℚ → Bool
  | .le, v, b => !decide (v > b)
  | .ge, v, b => !decide (v < b)
  | .eq, v, b => mathClose R v b

/-- `is_feasible`, `_linear.py:1299-1369`, with `v` for the computed `A @ x`. -/
def feasTest (R : Rounding) (P : LP m n) (x : Fin n → ℚ) (v : Fin m → ℚ) : Bool :=
  if P.isSef then decide (∀ j, cmpTol R (x j) .ge 0 = true) && decide (∀ i, npClose R (v i) (P.b i) = true)
  else
    decide (∀ j : Fin n, if (j : ℕ) ∈ P.neg then x j ≤ 0 else if (j : ℕ) ∉ P.free then x j ≥ 0 else True) &&
    decide (∀ i, rowTest R (P.ineq i) (v i) (P.b i) = true)

/-- A possible answer of `is_feasible` to a vector of the right size. -/
def FeasAnswer (R : Rounding) (P : LP m n) (x : Fin n → ℚ) (ans : Bool) : Prop :=
  ∃ v : Fin m → ℚ, (∀ i, DotVal R (P.A i) x (v i)) ∧ ans = feasTest R P x v

/-- A possible result of `evaluate`, `_linear.py:1492-1512`. -/
def EvalAnswer (R : Rounding) (P : LP m n) (x : Fin n → ℚ) (r : ℚ) : Prop :=
  ∃ v, DotVal R P.c x v ∧ r = R.rd (v + P.z)

/-- A possible answer of `verify_infeasibility`, `_linear.py:1220-1224`, for a program in SEF. -/
def InfeasAnswer (R : Rounding) (P : LP m n) (y : Fin m → ℚ) (ans : Bool) : Prop :=
  ∃ (v : Fin n → ℚ) (w : ℚ), (∀ j, DotVal R y (fun i => P.A i j) (v j)) ∧ DotVal R y P.b w ∧
    ans = (decide (∀ j, cmpTol R (v j) .ge 0 = true) && negative R w)

/-- A possible answer of `verify_unboundedness`, `_linear.py:1256-1268`, for a program in SEF. -/
def UnboundedAnswer (R : Rounding) (P : LP m n) (x d : Fin n → ℚ) (ans : Bool) : Prop :=
  ∃ (feasible : Bool) (v : Fin m → ℚ) (w : ℚ), FeasAnswer R P x feasible ∧ (∀ i, DotVal R (P.A i) d (v i)) ∧
    DotVal R P.c d w ∧
    ans = if !feasible then false else if cmpTol R w .le 0 then false
      else if !decide (∀ i, npClose R (v i) 0 = true) then false else decide (∀ j, cmpTol R (d j) .ge 0 = true)

/-- A possible answer of `verify_optimality`, `_linear.py:1294-1297`, for a program in SEF. -/
def OptimalAnswer (R : Rounding) (P : LP m n) (y : Fin m → ℚ) (ans : Bool) : Prop :=
  ∃ v : Fin n → ℚ, (∀ j, DotVal R y (fun i => P.A i j) (v j)) ∧
    ans = decide (∀ j, cmpTol R (R.rd (P.c j - v j)) .le 0 = true)

/-! ### What the comparisons say -/

/-- The rounding errors are small compared to the tolerances. -/
structure Fine (R : Rounding) : Prop where
  u_le : R.u ≤ 1 / 10 ^ 6
  tiny_le : R.tiny ≤ 1 / 10 ^ 30

theorem fine_binary64 : Fine binary64 := by
  refine ⟨?_, ?_⟩
  · show (1 : ℚ) / 2 ^ 53 ≤ 1 / 10 ^ 6
    norm_num
  · show (1 : ℚ) / 2 ^ 1075 ≤ 1 / 10 ^ 30
    refine one_div_le_one_div_of_le (by positivity) ?_
    calc (10 : ℚ) ^ 30 ≤ 2 ^ 100 := by norm_num
      _ ≤ 2 ^ 1075 := pow_le_pow_right₀ (by norm_num) (by norm_num)

theorem fine_exact : Fine exact := ⟨by show (0 : ℚ) ≤ _; positivity, by show (0 : ℚ) ≤ _; positivity⟩

variable {R : Rounding}

theorem rd_bounds (hR : Fine R) {x : ℚ} (hx : 0 ≤ x) :
    x - x / 10 ^ 6 - R.tiny ≤ R.rd x ∧ R.rd x ≤ x + x / 10 ^ 6 + R.tiny := by
  have h := abs_le.mp (R.err x)
  rw [abs_of_nonneg hx] at h
  have := mul_le_mul_of_nonneg_right hR.u_le hx
  constructor <;> linarith [h.1, h.2]

theorem zeroTol_bounds (hR : Fine R) : 99 / 100 / 10 ^ 10 ≤ zeroTol R ∧ zeroTol R ≤ 101 / 100 / 10 ^ 10 := by
  obtain ⟨h1, h2⟩ := rd_bounds hR (x := 1 / 10 ^ 10) (by positivity)
  have := hR.tiny_le
  unfold zeroTol
  constructor
  · refine le_trans ?_ h1; norm_num at *; linarith
  · refine h2.trans ?_; norm_num at *; linarith

theorem zeroTol_pos (hR : Fine R) : 0 < zeroTol R := lt_of_lt_of_le (by norm_num) (zeroTol_bounds hR).1

theorem cmp_ge (hR : Fine R) {v : ℚ} : cmpTol R v .ge 0 = true ↔ -zeroTol R < v := by
  have h0 := zeroTol_pos hR
  simp only [cmpTol, close, if_true, closeToZero, Bool.or_eq_true, decide_eq_true_eq]
  constructor
  · rintro (h | h)
    · exact (abs_lt.mp h).1
    · linarith
  · intro h
    by_cases hv : 0 ≤ v
    · exact Or.inr hv
    · push Not at hv; left; rw [abs_of_neg hv]; linarith

theorem cmp_le (hR : Fine R) {v : ℚ} : cmpTol R v .le 0 = true ↔ v < zeroTol R := by
  have h0 := zeroTol_pos hR
  simp only [cmpTol, close, if_true, closeToZero, Bool.or_eq_true, decide_eq_true_eq]
  constructor
  · rintro (h | h)
    · exact (abs_lt.mp h).2
    · exact lt_of_le_of_lt h h0
  · intro h
    by_cases hv : v ≤ 0
    · exact Or.inr hv
    · push Not at hv; left; rwa [abs_of_pos hv]

theorem negative_iff (hR : Fine R) {v : ℚ} : negative R v = true ↔ v ≤ -zeroTol R := by
  have h0 := zeroTol_pos hR
  simp only [negative, cmpTol, close, if_true, closeToZero, Bool.and_eq_true, Bool.not_eq_true', decide_eq_false_iff_not,
    decide_eq_true_eq, not_lt]
  constructor
  · rintro ⟨h1, h2⟩; rw [abs_of_neg h2] at h1; linarith
  · intro h
    have : v < 0 := by linarith
    exact ⟨by rw [abs_of_neg this]; linarith, this⟩

theorem positive_iff (hR : Fine R) {v : ℚ} : positive R v = true ↔ zeroTol R ≤ v := by
  have h0 := zeroTol_pos hR
  simp only [positive, cmpTol, close, if_true, closeToZero, Bool.and_eq_true, Bool.not_eq_true', decide_eq_false_iff_not,
    decide_eq_true_eq, not_lt, gt_iff_lt]
  constructor
  · rintro ⟨h1, h2⟩; rwa [abs_of_pos h2] at h1
  · intro h
    have : 0 < v := by linarith
    exact ⟨by rwa [abs_of_pos this], this⟩

/-- The tolerance of `np.isclose`, as computed. -/
theorem npTol_bounds (hR : Fine R) (b : ℚ) :
    999 / 1000 / 10 ^ 8 + 999 / 1000 / 10 ^ 5 * |b| ≤ R.rd (R.rd (1 / 10 ^ 8) + R.rd (R.rd (1 / 10 ^ 5) * |b|)) ∧
    R.rd (R.rd (1 / 10 ^ 8) + R.rd (R.rd (1 / 10 ^ 5) * |b|)) ≤ 1001 / 1000 / 10 ^ 8 + 1001 / 1000 / 10 ^ 5 * |b| := by
  have hb := abs_nonneg b
  have ht := hR.tiny_le
  have ht0 := R.tiny_nonneg
  obtain ⟨a1, a2⟩ := rd_bounds hR (x := 1 / 10 ^ 8) (by positivity)
  obtain ⟨c1, c2⟩ := rd_bounds hR (x := 1 / 10 ^ 5) (by positivity)
  have c0 : 0 ≤ R.rd (1 / 10 ^ 5) := Rounding.rd_nonneg (by positivity)
  have a0 : 0 ≤ R.rd (1 / 10 ^ 8) := Rounding.rd_nonneg (by positivity)
  set p := R.rd (1 / 10 ^ 5) * |b| with hp
  have p0 : 0 ≤ p := mul_nonneg c0 hb
  have pl : (9999 / 10000 / 10 ^ 5) * |b| ≤ p := by
    refine mul_le_mul_of_nonneg_right ?_ hb
    norm_num at *; linarith
  have pu : p ≤ (10001 / 10000 / 10 ^ 5) * |b| := by
    refine mul_le_mul_of_nonneg_right ?_ hb
    norm_num at *; linarith
  obtain ⟨d1, d2⟩ := rd_bounds hR p0
  have d0 : 0 ≤ R.rd p := Rounding.rd_nonneg p0
  obtain ⟨e1, e2⟩ := rd_bounds hR (x := R.rd (1 / 10 ^ 8) + R.rd p) (by linarith)
  constructor
  · refine le_trans ?_ e1
    norm_num at *; linarith
  · refine e2.trans ?_
    norm_num at *; linarith

theorem npClose_sound (hR : Fine R) {a b : ℚ} (h : npClose R a b = true) :
    |a - b| ≤ 101 / 100 / 10 ^ 8 + 101 / 100 / 10 ^ 5 * |b| := by
  simp only [npClose, decide_eq_true_eq] at h
  rw [← Rounding.rd_abs] at h
  have h1 := (rd_bounds hR (abs_nonneg (a - b))).1
  have h2 := (npTol_bounds hR b).2
  have ht := hR.tiny_le
  have hb := abs_nonneg b
  norm_num at h h1 h2 ht ⊢
  linarith

theorem npClose_complete (hR : Fine R) {a b : ℚ} (h : |a - b| ≤ 99 / 100 / 10 ^ 8 + 99 / 100 / 10 ^ 5 * |b|) :
    npClose R a b = true := by
  simp only [npClose, decide_eq_true_eq]
  rw [← Rounding.rd_abs]
  have h1 := (rd_bounds hR (abs_nonneg (a - b))).2
  have h2 := (npTol_bounds hR b).1
  have ht := hR.tiny_le
  have hb := abs_nonneg b
  norm_num at h h1 h2 ht ⊢
  linarith

theorem mathClose_sound (hR : Fine R) {a b : ℚ} (h : mathClose R a b = true) :
    |a - b| ≤ 101 / 100 / 10 ^ 9 * max |a| |b| + 3 * R.tiny := by
  have ht := hR.tiny_le
  have ht0 := R.tiny_nonneg
  have hm0 : 0 ≤ max |a| |b| := le_max_of_le_left (abs_nonneg a)
  obtain ⟨c1, c2⟩ := rd_bounds hR (x := 1 / 10 ^ 9) (by positivity)
  have c0 : 0 ≤ R.rd (1 / 10 ^ 9) := Rounding.rd_nonneg (by positivity)
  have key : ∀ t, |t| ≤ max |a| |b| → |R.rd (b - a)| ≤ |R.rd (R.rd (1 / 10 ^ 9) * t)| →
      |a - b| ≤ 101 / 100 / 10 ^ 9 * max |a| |b| + 3 * R.tiny := by
    intro t htm hle
    rw [← Rounding.rd_abs, ← Rounding.rd_abs, abs_mul, abs_of_nonneg c0, abs_sub_comm] at hle
    have h1 := (rd_bounds hR (abs_nonneg (a - b))).1
    have p0 : 0 ≤ R.rd (1 / 10 ^ 9) * |t| := mul_nonneg c0 (abs_nonneg t)
    have pu : R.rd (1 / 10 ^ 9) * |t| ≤ (1001 / 1000 / 10 ^ 9) * max |a| |b| :=
      mul_le_mul (by norm_num at *; linarith) htm (abs_nonneg t) (by positivity)
    have h2 := (rd_bounds hR p0).2
    norm_num at *
    linarith
  simp only [mathClose, Bool.or_eq_true, decide_eq_true_eq] at h
  rcases h with (rfl | h) | h
  · rw [sub_self, abs_zero]; positivity
  · exact key b (le_max_right _ _) h
  · exact key a (le_max_left _ _) h

theorem mathClose_near (hR : Fine R) {a b : ℚ} (h : |a - b| + 3 * R.tiny ≤ 99 / 100 / 10 ^ 9 * max |a| |b|) :
    mathClose R a b = true := by
  have ht := hR.tiny_le
  have ht0 := R.tiny_nonneg
  obtain ⟨c1, c2⟩ := rd_bounds hR (x := 1 / 10 ^ 9) (by positivity)
  have c0 : 0 ≤ R.rd (1 / 10 ^ 9) := Rounding.rd_nonneg (by positivity)
  have key : ∀ t, |a - b| + 3 * R.tiny ≤ 99 / 100 / 10 ^ 9 * |t| → |R.rd (b - a)| ≤ |R.rd (R.rd (1 / 10 ^ 9) * t)| := by
    intro t hle
    rw [← Rounding.rd_abs, ← Rounding.rd_abs, abs_mul, abs_of_nonneg c0, abs_sub_comm]
    have h1 := (rd_bounds hR (abs_nonneg (a - b))).2
    have p0 : 0 ≤ R.rd (1 / 10 ^ 9) * |t| := mul_nonneg c0 (abs_nonneg t)
    have pl : (999 / 1000 / 10 ^ 9) * |t| ≤ R.rd (1 / 10 ^ 9) * |t| :=
      mul_le_mul_of_nonneg_right (by norm_num at c1 ht ⊢; linarith) (abs_nonneg t)
    have h2 := (rd_bounds hR p0).1
    have h3 := abs_nonneg t
    norm_num at hle h1 pl h2 ⊢
    linarith
  simp only [mathClose, Bool.or_eq_true, decide_eq_true_eq]
  rcases max_choice |a| |b| with hm | hm <;> rw [hm] at h
  · exact Or.inr (key a h)
  · exact Or.inl (Or.inr (key b h))

theorem mathClose_complete {a b : ℚ} (h : a = b) : mathClose R a b = true := by
  simp [mathClose, h]

/-- The fractional part of a double is a double. -/
theorem isDouble_fract {a : ℚ} (h : IsDouble a) (ha : 0 ≤ a) : IsDouble (a - (⌊a⌋ : ℤ)) := by
  obtain ⟨k, e, rfl, hk, he⟩ := h
  have hp := two_pos' e
  have hk0 : 0 ≤ k := by
    by_contra hneg
    push Not at hneg
    have : (k : ℚ) < 0 := by exact_mod_cast hneg
    nlinarith
  rw [abs_of_nonneg hk0] at hk
  rcases le_or_gt 0 e with h0 | h0
  · have : (k : ℚ) * 2 ^ e = ((k * 2 ^ e.toNat : ℤ) : ℚ) := by
      push_cast
      rw [← zpow_natCast, Int.toNat_of_nonneg h0]
    rw [this, Int.floor_intCast, sub_self]
    exact ⟨0, 0, by simp, by norm_num, by norm_num⟩
  · set f := ⌊(k : ℚ) * 2 ^ e⌋ with hf
    set q : ℤ := 2 ^ (-e).toNat with hq
    have hqe : (q : ℚ) * 2 ^ e = 1 := by
      rw [hq]
      push_cast
      rw [← zpow_natCast, Int.toNat_of_nonneg (by omega), ← zpow_add₀ (by norm_num)]
      simp
    have f0 : 0 ≤ f := Int.floor_nonneg.mpr ha
    have q0 : 0 < q := by rw [hq]; positivity
    have hle : (f : ℚ) ≤ k * 2 ^ e := Int.floor_le _
    refine ⟨k - f * q, e, ?_, ?_, he⟩
    · push_cast
      rw [sub_mul, mul_assoc, hqe, mul_one]
    · have h1 : (f : ℚ) * q ≤ k := by
        have h2 : (f : ℚ) * q * 2 ^ e ≤ k * 2 ^ e := by rw [mul_assoc, hqe, mul_one]; exact hle
        exact le_of_mul_le_mul_right h2 hp
      have h1 : f * q ≤ k := by exact_mod_cast h1
      have h3 : 0 ≤ f * q := mul_nonneg f0 q0.le
      rw [abs_of_nonneg (by omega)]
      omega

/-- The distance of a double in `(1/2, 1]` to one is a double. -/
theorem isDouble_one_sub {r : ℚ} (h : IsDouble r) (h1 : 1 / 2 < r) (h2 : r ≤ 1) : IsDouble (1 - r) := by
  obtain ⟨k, e, rfl, hk, he⟩ := h
  have hp := two_pos' e
  have hk0 : 0 < k := by
    by_contra hneg
    push Not at hneg
    have : (k : ℚ) ≤ 0 := by exact_mod_cast hneg
    nlinarith
  rw [abs_of_pos hk0] at hk
  have h0 : e ≤ 0 := by
    by_contra hpos
    push Not at hpos
    have a1 : (2 : ℚ) ≤ 2 ^ e := by
      calc (2 : ℚ) = 2 ^ (1 : ℤ) := by norm_num
        _ ≤ 2 ^ e := zpow_le_zpow_right₀ (by norm_num) (by omega)
    have a2 : (1 : ℚ) ≤ k := by exact_mod_cast hk0
    nlinarith
  set q : ℤ := 2 ^ (-e).toNat with hq
  have hqe : (q : ℚ) * 2 ^ e = 1 := by
    rw [hq]
    push_cast
    rw [← zpow_natCast, Int.toNat_of_nonneg (by omega), ← zpow_add₀ (by norm_num)]
    simp
  have b1 : (q : ℚ) < 2 * k := by
    have : (q : ℚ) * 2 ^ e < 2 * k * 2 ^ e := by rw [hqe]; linarith
    exact lt_of_mul_lt_mul_right this hp.le
  have b2 : (k : ℚ) ≤ q := by
    have : (k : ℚ) * 2 ^ e ≤ q * 2 ^ e := by rw [hqe]; exact h2
    exact le_of_mul_le_mul_right this hp
  have b1 : q < 2 * k := by exact_mod_cast b1
  have b2 : k ≤ q := by exact_mod_cast b2
  refine ⟨q - k, e, ?_, ?_, he⟩
  · push_cast
    rw [sub_mul, hqe]
  · rw [abs_of_nonneg (by omega)]
    omega

end Floating
end Pytimize
