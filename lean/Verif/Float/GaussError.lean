/-
Rounding errors of Gaussian elimination with partial pivoting: the factors, and the systems solved with them.
-/
import Mathlib.Algebra.Order.BigOperators.Group.Finset
import Mathlib.Algebra.Field.GeomSum
import Mathlib.Tactic.Positivity
import Verif.Float.Gauss

namespace Pytimize
namespace Floating
open LinProg Matrix

variable {n : ℕ} {R : Rounding}

/-- The relative error of elimination with numbers up to `μ`. Without underflow it is `(1 + u)^(n+2) - 1`. -/
def relErr (R : Rounding) (n : ℕ) (μ : ℚ) : ℚ := (1 + R.u) ^ (n + 2) * (1 + μ * R.tiny) - 1

/-- The absolute error, due to underflow. -/
def absErr (R : Rounding) (n : ℕ) (μ : ℚ) : ℚ := ((1 + R.u) ^ (n + 2) * (1 + μ * R.tiny) * (2 * n) + μ) * R.tiny

/-- `np.linalg.solve`, or a column of `np.linalg.inv` (`_linear.py:803, 1034, 1100, 1706`): `x` is a possible answer to
`M x = b`. -/
def SolveVal (R : Rounding) (M : Matrix (Fin n) (Fin n) ℚ) (π : Equiv.Perm (Fin n)) (l u : Matrix (Fin n) (Fin n) ℚ)
    (b x : Fin n → ℚ) : Prop :=
  Factored R M π l u ∧ (∀ i, u i i ≠ 0) ∧ ∃ y : Fin n → ℚ,
    (∀ i, Reduced R (b (π i)) (fun k => decide (k < i)) (l i) y (y i)) ∧
    ∀ i, ∃ s, Reduced R (y i) (fun k => decide (i < k)) (u i) x s ∧ Quotient R s (u i i) (x i)

theorem InvVal.solve {M T : Matrix (Fin n) (Fin n) ℚ} (h : InvVal R M T) :
    ∃ π l u, Factored R M π l u ∧ ∀ c, SolveVal R M π l u (fun i => if i = c then 1 else 0) fun i => T i c := by
  obtain ⟨π, l, u, h1, h2, y, h3, h4⟩ := h
  exact ⟨π, l, u, h1, fun c => ⟨h1, h2, fun i => y i c, fun i => h3 i c, fun i => h4 i c⟩⟩

/-! ### One number -/

theorem relErr_nonneg {μ : ℚ} (hμ : 0 ≤ μ) : 0 ≤ relErr R n μ := by
  have h1 := one_le_pow_u (R := R) (n + 2)
  have h2 : 0 ≤ μ * R.tiny := mul_nonneg hμ R.tiny_nonneg
  unfold relErr
  nlinarith

theorem absErr_nonneg {μ : ℚ} (hμ : 0 ≤ μ) : 0 ≤ absErr R n μ := by
  have h2 := R.tiny_nonneg
  have h3 := R.u_nonneg
  unfold absErr
  positivity

theorem reduced_error {a : ℚ} {S : Fin n → Bool} {p q : Fin n → ℚ} {s : ℚ} (h : Reduced R a S p q s)
    {i : Fin n} (hi : S i = false) :
    |s - (a - ∑ k, if S k = true then p k * q k else 0)| ≤
      ((1 + R.u) ^ n - 1) * (|a| + ∑ k, if S k = true then |p k * q k| else 0) + 2 * n * (1 + R.u) ^ n * R.tiny := by
  have e1 : ∀ l : List (Fin n), total ((l.filter S).map fun k => (-p k, q k)) =
      -(l.map fun k => if S k = true then p k * q k else 0).sum := by
    intro l
    induction l with
    | nil => simp [total]
    | cons k l ih =>
      by_cases hk : S k = true
      · simp only [total, List.filter_cons_of_pos hk, List.map_cons, List.sum_cons, if_pos hk] at ih ⊢
        rw [ih]; ring
      · simp only [total, List.filter_cons_of_neg hk, List.map_cons, List.sum_cons, if_neg hk] at ih ⊢
        rw [ih]; ring
  have e2 : ∀ l : List (Fin n), size ((l.filter S).map fun k => (-p k, q k)) =
      (l.map fun k => if S k = true then |p k * q k| else 0).sum := by
    intro l
    induction l with
    | nil => simp [size]
    | cons k l ih =>
      by_cases hk : S k = true
      · simp only [size, List.filter_cons_of_pos hk, List.map_cons, List.sum_cons, if_pos hk] at ih ⊢
        rw [ih, neg_mul, abs_neg]
      · simp only [size, List.filter_cons_of_neg hk, List.map_cons, List.sum_cons, if_neg hk] at ih ⊢
        rw [ih]; ring
  have hT : total ((a, 1) :: ((List.finRange n).filter S).map fun k => (-p k, q k)) =
      a - ∑ k, if S k = true then p k * q k else 0 := by
    have : total ((a, 1) :: ((List.finRange n).filter S).map fun k => (-p k, q k)) =
        a * 1 + total (((List.finRange n).filter S).map fun k => (-p k, q k)) := by simp [total]
    rw [this, e1, mul_one, ← List.ofFn_eq_map, List.sum_ofFn]
    ring
  have hS : size ((a, 1) :: ((List.finRange n).filter S).map fun k => (-p k, q k)) =
      |a| + ∑ k, if S k = true then |p k * q k| else 0 := by
    have : size ((a, 1) :: ((List.finRange n).filter S).map fun k => (-p k, q k)) =
        |a * 1| + size (((List.finRange n).filter S).map fun k => (-p k, q k)) := by simp [size]
    rw [this, e2, mul_one, ← List.ofFn_eq_map, List.sum_ofFn]
  have hl : ((a, 1) :: ((List.finRange n).filter S).map fun k => (-p k, q k)).length ≤ n := by
    rw [List.length_cons, List.length_map]
    have : ((List.finRange n).filter S).length < (List.finRange n).length :=
      List.length_filter_lt_length_iff_exists.mpr ⟨i, List.mem_finRange i, by simp [hi]⟩
    rw [List.length_finRange] at this
    omega
  have key := h.error
  rw [hT, hS] at key
  generalize hN : ((a, (1 : ℚ)) :: ((List.finRange n).filter S).map fun k => (-p k, q k)).length = N at key hl
  have hu := R.u_nonneg
  have ht := R.tiny_nonneg
  have hp : (1 + R.u) ^ N ≤ (1 + R.u) ^ n := pow_le_pow_right₀ (by linarith) hl
  have hz : 0 ≤ |a| + ∑ k, if S k = true then |p k * q k| else 0 :=
    add_nonneg (abs_nonneg _) (Finset.sum_nonneg fun k _ => by split <;> positivity)
  refine key.trans (add_le_add (mul_le_mul_of_nonneg_right (by linarith) hz) ?_)
  have hc : (N : ℚ) ≤ n := by exact_mod_cast hl
  have h1 : (2 * (N : ℚ) - 1) * (1 + R.u) ^ N ≤ 2 * n * (1 + R.u) ^ n := by
    have : 0 ≤ (1 + R.u) ^ N := by positivity
    calc (2 * (N : ℚ) - 1) * (1 + R.u) ^ N ≤ 2 * N * (1 + R.u) ^ N := by nlinarith
      _ ≤ 2 * n * (1 + R.u) ^ n := mul_le_mul (by linarith) hp this (by positivity)
  exact mul_le_mul_of_nonneg_right h1 ht

theorem quotient_error {s b q μ : ℚ} (h : Quotient R s b q) (hb : b ≠ 0) (hμ : |b| ≤ μ) :
    |q * b - s| ≤ ((1 + R.u) ^ 2 * (1 + μ * R.tiny) - 1) * |s| + μ * R.tiny := by
  have hu := R.u_nonneg
  have ht := R.tiny_nonneg
  have hb0 : 0 < |b| := abs_pos.mpr hb
  have hs := abs_nonneg s
  have hμt : |b| * R.tiny ≤ μ * R.tiny := mul_le_mul_of_nonneg_right hμ ht
  have hμ0 : 0 ≤ μ * R.tiny := le_trans (by positivity) hμt
  rcases h with rfl | rfl
  · have h1 := R.err (s / b)
    have e : |R.rd (s / b) * b - s| = |R.rd (s / b) - s / b| * |b| := by
      rw [← abs_mul, sub_mul, div_mul_cancel₀ _ hb]
    rw [e]
    have h2 : |R.rd (s / b) - s / b| * |b| ≤ (R.u * |s / b| + R.tiny) * |b| := mul_le_mul_of_nonneg_right h1 hb0.le
    have h3 : |s / b| * |b| = |s| := by rw [← abs_mul, div_mul_cancel₀ _ hb]
    have h4 : (R.u * |s / b| + R.tiny) * |b| = R.u * |s| + |b| * R.tiny := by rw [← h3]; ring
    rw [h4] at h2
    have h5 : R.u ≤ (1 + R.u) ^ 2 * (1 + μ * R.tiny) - 1 := by nlinarith [mul_nonneg (sq_nonneg (1 + R.u)) hμ0]
    have := mul_le_mul_of_nonneg_right h5 hs
    linarith
  · set r := R.rd (1 / b) with hr
    have h1 := R.err (1 / b)
    have h2 := R.err (s * r)
    have h3 : |1 / b| * |b| = 1 := by rw [← abs_mul, div_mul_cancel₀ _ hb, abs_one]
    have h4 : |r * b - 1| ≤ R.u + |b| * R.tiny := by
      have e : |r * b - 1| = |r - 1 / b| * |b| := by rw [← abs_mul, sub_mul, div_mul_cancel₀ _ hb]
      rw [e]
      have := mul_le_mul_of_nonneg_right h1 hb0.le
      calc _ ≤ _ := this
        _ = R.u * (|1 / b| * |b|) + |b| * R.tiny := by ring
        _ = _ := by rw [h3, mul_one]
    have h5 : |r * b| ≤ 1 + R.u + |b| * R.tiny := by
      have : |r * b| ≤ |r * b - 1| + |(1 : ℚ)| := by
        have := abs_add_le (r * b - 1) 1
        rwa [sub_add_cancel] at this
      rw [abs_one] at this
      linarith
    have h6 : |R.rd (s * r) * b - s| ≤ |R.rd (s * r) - s * r| * |b| + |s| * |r * b - 1| := by
      rw [← abs_mul, ← abs_mul]
      have e : R.rd (s * r) * b - s = (R.rd (s * r) - s * r) * b + s * (r * b - 1) := by ring
      rw [e]
      exact abs_add_le _ _
    have h7 : |R.rd (s * r) - s * r| * |b| ≤ R.u * (|s| * |r * b|) + |b| * R.tiny := by
      have := mul_le_mul_of_nonneg_right h2 hb0.le
      rw [abs_mul s r] at this
      rw [abs_mul r b]
      linarith
    have h8 : |s| * |r * b| ≤ |s| * (1 + R.u + μ * R.tiny) := mul_le_mul_of_nonneg_left (by linarith) hs
    have h9 : |s| * |r * b - 1| ≤ |s| * (R.u + μ * R.tiny) := mul_le_mul_of_nonneg_left (by linarith) hs
    have h10 := mul_le_mul_of_nonneg_left h8 hu
    have h11 : 0 ≤ |s| * (R.u * (μ * R.tiny)) := by positivity
    have h12 : 0 ≤ |s| * (R.u ^ 2 * (μ * R.tiny)) := by positivity
    nlinarith

/-- A reduced number, then a quotient. -/
theorem quotient_reduced {A g h τ ε s t v : ℚ} (h1 : |s - t| ≤ g * A + τ) (h2 : |t| ≤ A)
    (h3 : |v - s| ≤ h * |s| + ε) (hh : 0 ≤ h) : |v - t| ≤ ((1 + g) * (1 + h) - 1) * A + ((1 + h) * τ + ε) := by
  have h4 : |v - t| ≤ |v - s| + |s - t| := by
    have := abs_add_le (v - s) (s - t)
    rwa [sub_add_sub_cancel] at this
  have h5 : |s| ≤ |s - t| + |t| := by
    have := abs_add_le (s - t) t
    rwa [sub_add_cancel] at this
  have h6 : h * |s| ≤ h * (g * A + τ + A) := mul_le_mul_of_nonneg_left (by linarith) hh
  nlinarith

theorem abs_sub_masked {a : ℚ} {S : Fin n → Bool} {p q : Fin n → ℚ} :
    |a - ∑ k, if S k = true then p k * q k else 0| ≤ |a| + ∑ k, if S k = true then |p k * q k| else 0 := by
  refine (abs_sub _ _).trans (add_le_add_right ((Finset.abs_sum_le_sum_abs _ _).trans (Finset.sum_le_sum fun k _ => ?_)) _)
  split <;> simp

/-- The error of a reduced number, in the constants of this file. -/
theorem reduced_error' {a μ : ℚ} (hμ : 0 ≤ μ) {S : Fin n → Bool} {p q : Fin n → ℚ} {s : ℚ} (h : Reduced R a S p q s)
    {i : Fin n} (hi : S i = false) :
    |s - (a - ∑ k, if S k = true then p k * q k else 0)| ≤
      relErr R n μ * (|a| + ∑ k, if S k = true then |p k * q k| else 0) + absErr R n μ := by
  have hu := R.u_nonneg
  have ht := R.tiny_nonneg
  have hμt := mul_nonneg hμ ht
  have hz : 0 ≤ |a| + ∑ k, if S k = true then |p k * q k| else 0 :=
    add_nonneg (abs_nonneg _) (Finset.sum_nonneg fun k _ => by split <;> positivity)
  have h1 : (1 + R.u) ^ n ≤ (1 + R.u) ^ (n + 2) * (1 + μ * R.tiny) := by
    have h2 : (1 + R.u) ^ n ≤ (1 + R.u) ^ (n + 2) := pow_le_pow_right₀ (by linarith) (by omega)
    have h3 : 0 ≤ (1 + R.u) ^ (n + 2) := by positivity
    nlinarith
  refine (reduced_error h hi).trans (add_le_add (mul_le_mul_of_nonneg_right ?_ hz) ?_)
  · unfold relErr
    linarith
  · unfold absErr
    refine mul_le_mul_of_nonneg_right ?_ ht
    have : (1 + R.u) ^ n * (2 * n) ≤ (1 + R.u) ^ (n + 2) * (1 + μ * R.tiny) * (2 * n) :=
      mul_le_mul_of_nonneg_right h1 (by positivity)
    linarith

/-- The error of a reduced number divided by a pivot. -/
theorem divided_error {a b x μ : ℚ} (hb : b ≠ 0) (hμ : |b| ≤ μ) {S : Fin n → Bool} {p q : Fin n → ℚ} {s : ℚ}
    (h : Reduced R a S p q s) {i : Fin n} (hi : S i = false) (hq : Quotient R s b x) :
    |x * b - (a - ∑ k, if S k = true then p k * q k else 0)| ≤
      relErr R n μ * (|a| + ∑ k, if S k = true then |p k * q k| else 0) + absErr R n μ := by
  have hu := R.u_nonneg
  have ht := R.tiny_nonneg
  have hμ0 : 0 ≤ μ := (abs_nonneg b).trans hμ
  have hμt := mul_nonneg hμ0 ht
  have hh : 0 ≤ (1 + R.u) ^ 2 * (1 + μ * R.tiny) - 1 := by nlinarith [mul_nonneg (sq_nonneg (1 + R.u)) hμt]
  refine (quotient_reduced (reduced_error h hi) abs_sub_masked (quotient_error hq hb hμ) hh).trans (le_of_eq ?_)
  unfold relErr absErr
  ring

/-! ### The factors -/

/-- The factor with ones on the diagonal. -/
def unitLower (l : Matrix (Fin n) (Fin n) ℚ) : Matrix (Fin n) (Fin n) ℚ :=
  fun i k => if k < i then l i k else if k = i then 1 else 0

/-- The factor with the pivots on the diagonal. -/
def upperPart (u : Matrix (Fin n) (Fin n) ℚ) : Matrix (Fin n) (Fin n) ℚ := fun i j => if i ≤ j then u i j else 0

theorem sum_masked_add {f : Fin n → ℚ} {S : Fin n → Bool} {i : Fin n} {v : ℚ} (hi : S i = false)
    (h2 : f i = v) (h3 : ∀ k, S k = false → k ≠ i → f k = 0) :
    ∑ k, f k = (∑ k, if S k = true then f k else 0) + v := by
  have e : ∀ k, f k = (if S k = true then f k else 0) + if k = i then v else 0 := by
    intro k
    by_cases hk : k = i
    · subst hk
      simp [hi, h2]
    · cases hS : S k with
      | true => simp [hk]
      | false => simp [hk, h3 k hS hk]
  rw [Finset.sum_congr rfl fun k _ => e k, Finset.sum_add_distrib]
  simp

/-- The masked sums of a reduced number and the sums of products with a triangular factor. -/
theorem masked_bound {f : Fin n → ℚ} {S : Fin n → Bool} {i : Fin n} {a v g τ : ℚ} (hg : 0 ≤ g) (hi : S i = false)
    (h2 : f i = v) (h3 : ∀ k, S k = false → k ≠ i → f k = 0)
    (h : |v - (a - ∑ k, if S k = true then f k else 0)| ≤
      g * (|a| + ∑ k, if S k = true then |f k| else 0) + τ) :
    |∑ k, f k - a| ≤ g * (|a| + ∑ k, |f k|) + τ := by
  rw [sum_masked_add hi h2 h3]
  have e : (∑ k, if S k = true then f k else 0) + v - a = v - (a - ∑ k, if S k = true then f k else 0) := by ring
  rw [e]
  refine h.trans (add_le_add_left (mul_le_mul_of_nonneg_left (add_le_add_right (Finset.sum_le_sum fun k _ => ?_) _) hg) _)
  split
  · exact le_rfl
  · exact abs_nonneg _

variable {M : Matrix (Fin n) (Fin n) ℚ} {π : Equiv.Perm (Fin n)} {l u : Matrix (Fin n) (Fin n) ℚ} {μ : ℚ}

theorem factored_error_at (h : Factored R M π l u) (hμ0 : 0 ≤ μ) (i j : Fin n) (hμ : j < i → |u j j| ≤ μ) :
    |∑ k, unitLower l i k * upperPart u k j - M (π i) j| ≤
      relErr R n μ * (|M (π i) j| + ∑ k, |unitLower l i k * upperPart u k j|) + absErr R n μ := by
  have hg : 0 ≤ relErr R n μ := relErr_nonneg hμ0
  rcases le_or_gt i j with hij | hij
  · refine masked_bound (S := fun k => decide (k < i)) (i := i) (v := u i j) hg (by simp) ?_ ?_ ?_
    · simp [unitLower, upperPart, hij]
    · intro k h1 h2
      have : ¬ k < i := by simpa using h1
      simp [unitLower, this, h2]
    · have key := reduced_error' hμ0 (h.upper i j hij) (i := i) (by simp)
      have e : ∀ k : Fin n, k < i → unitLower l i k * upperPart u k j = l i k * u k j := by
        intro k hk
        simp [unitLower, upperPart, hk, hk.le.trans hij]
      have e1 : ∀ k : Fin n, (if decide (k < i) = true then unitLower l i k * upperPart u k j else 0) =
          if decide (k < i) = true then l i k * u k j else 0 := by
        intro k
        by_cases hk : k < i <;> simp [hk, e]
      have e2 : ∀ k : Fin n, (if decide (k < i) = true then |unitLower l i k * upperPart u k j| else 0) =
          if decide (k < i) = true then |l i k * u k j| else 0 := by
        intro k
        by_cases hk : k < i
        · simp only [hk, decide_true, if_true, e]
        · simp [hk]
      rw [Finset.sum_congr rfl fun k _ => e1 k, Finset.sum_congr rfl fun k _ => e2 k]
      exact key
  · obtain ⟨s, h1, hs, h2⟩ := h.lower i j hij
    refine masked_bound (S := fun k => decide (k < j)) (i := j) (v := l i j * u j j) hg (by simp) ?_ ?_ ?_
    · simp [unitLower, upperPart, hij]
    · intro k h1 h2
      have : ¬ k ≤ j := by
        have : ¬ k < j := by simpa using h1
        omega
      simp [upperPart, this]
    · have key : |l i j * u j j - (M (π i) j - ∑ k, if decide (k < j) = true then l i k * u k j else 0)| ≤
          relErr R n μ * (|M (π i) j| + ∑ k, if decide (k < j) = true then |l i k * u k j| else 0) + absErr R n μ := by
        by_cases h0 : u j j = 0
        · have := reduced_error' hμ0 h1 (i := j) (by simp)
          rw [h0, abs_zero] at hs
          rw [abs_eq_zero.mp (le_antisymm hs (abs_nonneg s))] at this
          rwa [h0, mul_zero]
        · exact divided_error h0 (hμ hij) h1 (i := j) (by simp) (h2 h0)
      have e : ∀ k : Fin n, k < j → unitLower l i k * upperPart u k j = l i k * u k j := by
        intro k hk
        simp [unitLower, upperPart, hk.trans hij, hk.le]
      have e1 : ∀ k : Fin n, (if decide (k < j) = true then unitLower l i k * upperPart u k j else 0) =
          if decide (k < j) = true then l i k * u k j else 0 := by
        intro k
        by_cases hk : k < j <;> simp [hk, e]
      have e2 : ∀ k : Fin n, (if decide (k < j) = true then |unitLower l i k * upperPart u k j| else 0) =
          if decide (k < j) = true then |l i k * u k j| else 0 := by
        intro k
        by_cases hk : k < j
        · simp only [hk, decide_true, if_true, e]
        · simp [hk]
      rw [Finset.sum_congr rfl fun k _ => e1 k, Finset.sum_congr rfl fun k _ => e2 k]
      exact key

/-! ### The systems -/

theorem forward_error {y : Fin n → ℚ} {b : ℚ} (hμ0 : 0 ≤ μ) {i : Fin n}
    (h : Reduced R b (fun k => decide (k < i)) (l i) y (y i)) :
    |∑ k, unitLower l i k * y k - b| ≤ relErr R n μ * (|b| + ∑ k, |unitLower l i k * y k|) + absErr R n μ := by
  refine masked_bound (S := fun k => decide (k < i)) (i := i) (v := y i) (relErr_nonneg hμ0) (by simp) ?_ ?_ ?_
  · simp [unitLower]
  · intro k h1 h2
    have : ¬ k < i := by simpa using h1
    simp [unitLower, this, h2]
  · have key := reduced_error' hμ0 h (i := i) (by simp)
    have e1 : ∀ k : Fin n, (if decide (k < i) = true then unitLower l i k * y k else 0) =
        if decide (k < i) = true then l i k * y k else 0 := by
      intro k
      by_cases hk : k < i <;> simp [hk, unitLower]
    have e2 : ∀ k : Fin n, (if decide (k < i) = true then |unitLower l i k * y k| else 0) =
        if decide (k < i) = true then |l i k * y k| else 0 := by
      intro k
      by_cases hk : k < i <;> simp [hk, unitLower]
    rw [Finset.sum_congr rfl fun k _ => e1 k, Finset.sum_congr rfl fun k _ => e2 k]
    exact key

theorem back_error {x : Fin n → ℚ} {y s : ℚ} {i : Fin n} (h0 : u i i ≠ 0) (hμ : |u i i| ≤ μ)
    (h : Reduced R y (fun k => decide (i < k)) (u i) x s) (hq : Quotient R s (u i i) (x i)) :
    |∑ k, upperPart u i k * x k - y| ≤ relErr R n μ * (|y| + ∑ k, |upperPart u i k * x k|) + absErr R n μ := by
  refine masked_bound (S := fun k => decide (i < k)) (i := i) (v := x i * u i i)
    (relErr_nonneg ((abs_nonneg _).trans hμ)) (by simp) ?_ ?_ ?_
  · simp [upperPart, mul_comm]
  · intro k h1 h2
    have : ¬ i ≤ k := by
      have : ¬ i < k := by simpa using h1
      omega
    simp [upperPart, this]
  · have key := divided_error h0 hμ h (i := i) (by simp) hq
    have e1 : ∀ k : Fin n, (if decide (i < k) = true then upperPart u i k * x k else 0) =
        if decide (i < k) = true then u i k * x k else 0 := by
      intro k
      by_cases hk : i < k
      · simp [hk, hk.le, upperPart]
      · simp [hk]
    have e2 : ∀ k : Fin n, (if decide (i < k) = true then |upperPart u i k * x k| else 0) =
        if decide (i < k) = true then |u i k * x k| else 0 := by
      intro k
      by_cases hk : i < k
      · simp [hk, hk.le, upperPart]
      · simp [hk]
    rw [Finset.sum_congr rfl fun k _ => e1 k, Finset.sum_congr rfl fun k _ => e2 k]
    exact key

/-- The residual of a system, in the numbers that have been computed. -/
theorem residual {b x y : Fin n → ℚ} (hμ0 : 0 ≤ μ) (hμ : ∀ i, |u i i| ≤ μ) (hF : Factored R M π l u)
    (h0 : ∀ i, u i i ≠ 0) (hy : ∀ i, Reduced R (b (π i)) (fun k => decide (k < i)) (l i) y (y i))
    (hx : ∀ i, ∃ s, Reduced R (y i) (fun k => decide (i < k)) (u i) x s ∧ Quotient R s (u i i) (x i)) (i : Fin n) :
    |∑ j, M (π i) j * x j - b (π i)| ≤
      relErr R n μ * (∑ j, |M (π i) j| * |x j| + |b (π i)| +
        2 * ∑ k, |unitLower l i k| * (|y k| + ∑ j, |upperPart u k j| * |x j|)) +
      absErr R n μ * (∑ j, |x j| + ∑ k, |unitLower l i k| + 1) := by
  set g := relErr R n μ with hg
  set τ := absErr R n μ with hτ
  have hg0 : 0 ≤ g := relErr_nonneg hμ0
  have hτ0 : 0 ≤ τ := absErr_nonneg hμ0
  set Lo := unitLower l with hLo
  set Up := upperPart u with hUp
  have e : ∑ j, M (π i) j * x j - b (π i) =
      (-∑ j, (∑ k, Lo i k * Up k j - M (π i) j) * x j) + (∑ k, Lo i k * (∑ j, Up k j * x j - y k)) +
        (∑ k, Lo i k * y k - b (π i)) := by
    have e1 : ∑ j, (∑ k, Lo i k * Up k j - M (π i) j) * x j =
        ∑ k, Lo i k * ∑ j, Up k j * x j - ∑ j, M (π i) j * x j := by
      simp only [sub_mul, Finset.sum_sub_distrib, Finset.sum_mul, Finset.mul_sum]
      rw [Finset.sum_comm]
      simp only [mul_assoc]
    have e2 : ∑ k, Lo i k * (∑ j, Up k j * x j - y k) = ∑ k, Lo i k * ∑ j, Up k j * x j - ∑ k, Lo i k * y k := by
      simp only [mul_sub, Finset.sum_sub_distrib]
    rw [e1, e2]
    ring
  have b1 : |∑ j, (∑ k, Lo i k * Up k j - M (π i) j) * x j| ≤
      g * (∑ j, |M (π i) j| * |x j| + ∑ k, |Lo i k| * ∑ j, |Up k j| * |x j|) + τ * ∑ j, |x j| := by
    have : ∀ j, |(∑ k, Lo i k * Up k j - M (π i) j) * x j| ≤
        g * (|M (π i) j| * |x j| + ∑ k, |Lo i k| * (|Up k j| * |x j|)) + τ * |x j| := by
      intro j
      rw [abs_mul]
      refine (mul_le_mul_of_nonneg_right (factored_error_at hF hμ0 i j fun _ => hμ j) (abs_nonneg _)).trans (le_of_eq ?_)
      simp only [abs_mul, ← mul_assoc, ← Finset.sum_mul]
      ring
    refine (Finset.abs_sum_le_sum_abs _ _).trans ((Finset.sum_le_sum fun j _ => this j).trans (le_of_eq ?_))
    rw [Finset.sum_add_distrib, ← Finset.mul_sum, ← Finset.mul_sum, Finset.sum_add_distrib, Finset.sum_comm]
    simp only [Finset.mul_sum]
  have b2 : |∑ k, Lo i k * (∑ j, Up k j * x j - y k)| ≤
      g * ∑ k, |Lo i k| * (|y k| + ∑ j, |Up k j| * |x j|) + τ * ∑ k, |Lo i k| := by
    have : ∀ k, |Lo i k * (∑ j, Up k j * x j - y k)| ≤
        g * (|Lo i k| * (|y k| + ∑ j, |Up k j| * |x j|)) + τ * |Lo i k| := by
      intro k
      obtain ⟨s, h1, h2⟩ := hx k
      rw [abs_mul]
      refine (mul_le_mul_of_nonneg_left (back_error (h0 k) (hμ k) h1 h2) (abs_nonneg _)).trans (le_of_eq ?_)
      simp only [abs_mul]
      ring
    refine (Finset.abs_sum_le_sum_abs _ _).trans ((Finset.sum_le_sum fun j _ => this j).trans (le_of_eq ?_))
    rw [Finset.sum_add_distrib, ← Finset.mul_sum, ← Finset.mul_sum]
  have b3 := forward_error hμ0 (hy i)
  simp only [abs_mul] at b3
  rw [e]
  have t1 := abs_add_le ((-∑ j, (∑ k, Lo i k * Up k j - M (π i) j) * x j) + (∑ k, Lo i k * (∑ j, Up k j * x j - y k)))
    (∑ k, Lo i k * y k - b (π i))
  have t2 := abs_add_le (-∑ j, (∑ k, Lo i k * Up k j - M (π i) j) * x j) (∑ k, Lo i k * (∑ j, Up k j * x j - y k))
  rw [abs_neg] at t2
  have e3 : ∑ k, |Lo i k| * (|y k| + ∑ j, |Up k j| * |x j|) =
      ∑ k, |Lo i k| * |y k| + ∑ k, |Lo i k| * ∑ j, |Up k j| * |x j| := by
    simp only [mul_add, Finset.sum_add_distrib]
  rw [e3] at b2 ⊢
  refine (t1.trans (add_le_add (t2.trans (add_le_add b1 b2)) b3)).trans (le_of_eq ?_)
  ring

/-! ### Sizes -/

theorem sum_le_card {f : Fin n → ℚ} {c : ℚ} (h : ∀ k, f k ≤ c) : ∑ k, f k ≤ n * c := by
  refine (Finset.sum_le_sum fun k _ => h k).trans (le_of_eq ?_)
  rw [Finset.sum_const, Finset.card_univ, Fintype.card_fin, nsmul_eq_mul]

/-- Partial pivoting keeps the multipliers small. -/
theorem multiplier_le {s b q : ℚ} (hb : b ≠ 0) (hμ : |b| ≤ μ) (hs : |s| ≤ |b|) (h : Quotient R s b q)
    (hg : relErr R n μ ≤ 1 / 2) (ht : R.tiny ≤ 1 / 2) : |q| ≤ 2 := by
  have hu := R.u_nonneg
  have ht0 := R.tiny_nonneg
  have hb0 : 0 < |b| := abs_pos.mpr hb
  have hμ0 : 0 ≤ μ := hb0.le.trans hμ
  have hμt := mul_nonneg hμ0 ht0
  have h1 : (1 + R.u) ^ 2 * (1 + μ * R.tiny) ≤ 3 / 2 := by
    have : (1 + R.u) ^ 2 ≤ (1 + R.u) ^ (n + 2) := pow_le_pow_right₀ (by linarith) (by omega)
    have := mul_le_mul_of_nonneg_right this (show 0 ≤ 1 + μ * R.tiny by linarith)
    unfold relErr at hg
    linarith
  have hd : |s / b| ≤ 1 := by rw [abs_div]; exact (div_le_one hb0).mpr hs
  have step : ∀ x : ℚ, |R.rd x| ≤ (1 + R.u) * |x| + R.tiny := by
    intro x
    have h2 := R.err x
    have h3 := abs_add_le (R.rd x - x) x
    rw [sub_add_cancel] at h3
    linarith
  rcases h with rfl | rfl
  · have := step (s / b)
    have h4 : 1 + R.u ≤ 3 / 2 := by nlinarith [mul_nonneg (sq_nonneg (1 + R.u)) hμt]
    nlinarith
  · have h5 := step (1 / b)
    have h6 := step (s * R.rd (1 / b))
    have h7 : |s * R.rd (1 / b)| ≤ (1 + R.u) + μ * R.tiny := by
      rw [abs_mul]
      calc |s| * |R.rd (1 / b)| ≤ |b| * ((1 + R.u) * |1 / b| + R.tiny) :=
            mul_le_mul hs h5 (abs_nonneg _) hb0.le
        _ = (1 + R.u) * (|b| * |1 / b|) + |b| * R.tiny := by ring
        _ ≤ (1 + R.u) + μ * R.tiny := by
            rw [← abs_mul, mul_one_div_cancel hb, abs_one, mul_one]
            linarith [mul_le_mul_of_nonneg_right hμ ht0]
    have h8 : (1 + R.u) * |s * R.rd (1 / b)| ≤ (1 + R.u) * ((1 + R.u) + μ * R.tiny) :=
      mul_le_mul_of_nonneg_left h7 (by linarith)
    have h9 : 0 ≤ (1 + R.u) * R.u * (μ * R.tiny) := by positivity
    nlinarith

theorem unitLower_le (hF : Factored R M π l u) {i k : Fin n} (h0 : u k k ≠ 0) (hμ : |u k k| ≤ μ)
    (hg : relErr R n μ ≤ 1 / 2) (ht : R.tiny ≤ 1 / 2) : |unitLower l i k| ≤ 2 := by
  unfold unitLower
  split
  · next h =>
    obtain ⟨s, -, h2, h3⟩ := hF.lower i k h
    exact multiplier_le h0 hμ h2 (h3 h0) hg ht
  · split <;> norm_num

/-- The residual of a system in terms of bounds on the matrix, the upper factor and the solution. -/
theorem residual_le {b x : Fin n → ℚ} {a t β : ℚ} (hS : SolveVal R M π l u b x) (hg : relErr R n μ ≤ 1 / 2)
    (ht : R.tiny ≤ 1 / 2) (ha : ∀ i j, |M i j| ≤ a) (hμ : ∀ i j, i ≤ j → |u i j| ≤ μ) (hμ0 : 0 ≤ μ)
    (hx : ∀ i, |x i| ≤ t) (hb : ∀ i, |b i| ≤ β) (i : Fin n) :
    |∑ j, M i j * x j - b i| ≤
      relErr R n μ * (β + n * a * t + 16 * n ^ 2 * μ * t) + absErr R n μ * (n * t + 6 * n + 1) := by
  obtain ⟨hF, h0, y, hy, hxy⟩ := hS
  have hμd : ∀ i, |u i i| ≤ μ := fun i => hμ i i le_rfl
  have hL : ∀ i k, |unitLower l i k| ≤ 2 := fun i k => unitLower_le hF (h0 k) (hμd k) hg ht
  have hg0 : 0 ≤ relErr R n μ := relErr_nonneg hμ0
  have hτ0 : 0 ≤ absErr R n μ := absErr_nonneg hμ0
  have ht0 : 0 ≤ t := (abs_nonneg _).trans (hx i)
  have ha0 : 0 ≤ a := (abs_nonneg _).trans (ha i i)
  have hU : ∀ k j, |upperPart u k j| ≤ μ := by
    intro k j
    unfold upperPart
    split
    · next h => exact hμ k j h
    · simpa using hμ0
  have hn0 : (0 : ℚ) ≤ n := Nat.cast_nonneg n
  have cs : ∀ f : Fin n → ℚ, ∀ c : ℚ, (∀ k, f k ≤ c) → ∑ k, f k ≤ n * c := fun _ _ h => sum_le_card h
  have hUx : ∀ k, ∑ j, |upperPart u k j| * |x j| ≤ n * (μ * t) := fun k =>
    cs _ _ fun j => mul_le_mul (hU k j) (hx j) (abs_nonneg _) hμ0
  have hyb : ∀ k, |y k| ≤ 3 * (n * (μ * t)) + 2 * absErr R n μ := by
    intro k
    obtain ⟨s, h1, h2⟩ := hxy k
    have h3 := back_error (h0 k) (hμd k) h1 h2
    simp only [abs_mul] at h3
    have h4 : |∑ j, upperPart u k j * x j| ≤ ∑ j, |upperPart u k j| * |x j| := by
      simpa only [abs_mul] using Finset.abs_sum_le_sum_abs (fun j => upperPart u k j * x j) Finset.univ
    have h5 : |y k| ≤ |∑ j, upperPart u k j * x j| + |∑ j, upperPart u k j * x j - y k| := by
      have := abs_sub (∑ j, upperPart u k j * x j) (∑ j, upperPart u k j * x j - y k)
      rwa [sub_sub_cancel] at this
    have h6 := hUx k
    have h7 : relErr R n μ * (|y k| + ∑ j, |upperPart u k j| * |x j|) ≤
        1 / 2 * (|y k| + ∑ j, |upperPart u k j| * |x j|) :=
      mul_le_mul_of_nonneg_right hg (add_nonneg (abs_nonneg _) (Finset.sum_nonneg fun j _ => by positivity))
    linarith
  obtain ⟨i, rfl⟩ := π.surjective i
  have key := residual hμ0 hμd hF h0 hy hxy i
  have b1 : ∑ j, |M (π i) j| * |x j| ≤ n * (a * t) :=
    cs _ _ fun j => mul_le_mul (ha _ j) (hx j) (abs_nonneg _) ha0
  have b2 : ∑ k, |unitLower l i k| * (|y k| + ∑ j, |upperPart u k j| * |x j|) ≤
      n * (2 * (4 * (n * (μ * t)) + 2 * absErr R n μ)) :=
    cs _ _ fun k => mul_le_mul (hL i k) (by linarith [hyb k, hUx k])
      (add_nonneg (abs_nonneg _) (Finset.sum_nonneg fun j _ => by positivity)) (by norm_num)
  have b3 : ∑ j, |x j| ≤ n * t := cs _ _ hx
  have b4 : ∑ k, |unitLower l i k| ≤ n * 2 := cs _ _ (hL i)
  have k1 := mul_le_mul_of_nonneg_left
    (show ∑ j, |M (π i) j| * |x j| + |b (π i)| +
        2 * ∑ k, |unitLower l i k| * (|y k| + ∑ j, |upperPart u k j| * |x j|) ≤
      (β + n * a * t + 16 * n ^ 2 * μ * t) + 8 * n * absErr R n μ by
        have := hb (π i)
        nlinarith) hg0
  have k2 := mul_le_mul_of_nonneg_left (show ∑ j, |x j| + ∑ k, |unitLower l i k| + 1 ≤ n * t + n * 2 + 1 by linarith) hτ0
  have k3 : relErr R n μ * (8 * n * absErr R n μ) ≤ 1 / 2 * (8 * n * absErr R n μ) :=
    mul_le_mul_of_nonneg_right hg (by positivity)
  nlinarith

/-- Pivoting limits the growth of the entries. -/
theorem growth (hF : Factored R M π l u) {a : ℚ} (ha : ∀ i j, |M i j| ≤ a) (ht : R.tiny ≤ 1 / 2)
    (hg : relErr R n (4 ^ n * (2 * a + n * R.tiny * 4)) ≤ 1 / 2) (i j : Fin n) (hij : i ≤ j)
    (h0 : ∀ k < i, u k k ≠ 0) : |u i j| ≤ 4 ^ n * (2 * a + n * R.tiny * 4) := by
  set c := 2 * a + n * R.tiny * 4 with hc
  have hu := R.u_nonneg
  have ht0 := R.tiny_nonneg
  have ha0 : 0 ≤ a := (abs_nonneg _).trans (ha i i)
  have hn0 : (0 : ℚ) ≤ n := Nat.cast_nonneg n
  have hc0 : 0 ≤ c := by positivity
  have hpow : ∀ k : Fin n, (4 : ℚ) ^ (k : ℕ) * c ≤ 4 ^ n * c := fun k =>
    mul_le_mul_of_nonneg_right (pow_le_pow_right₀ (by norm_num) k.isLt.le) hc0
  have hp : (1 + R.u) ^ n ≤ 3 / 2 := by
    have h1 : (1 + R.u) ^ n ≤ (1 + R.u) ^ (n + 2) := pow_le_pow_right₀ (by linarith) (by omega)
    have h2 : 0 ≤ (1 + R.u) ^ (n + 2) * (4 ^ n * c * R.tiny) := by positivity
    unfold relErr at hg
    nlinarith
  have main : ∀ N : ℕ, ∀ i j : Fin n, (i : ℕ) = N → i ≤ j → (∀ k < i, u k k ≠ 0) → |u i j| ≤ 4 ^ (i : ℕ) * c := by
    intro N
    induction N using Nat.strong_induction_on with
    | _ N ih =>
      intro i j hi hij h0
      have key := reduced_error (hF.upper i j hij) (i := i) (by simp)
      have hl : ∀ k : Fin n, k < i → |l i k| ≤ 2 := by
        intro k hk
        obtain ⟨s, -, h2, h3⟩ := hF.lower i k hk
        have h4 := (ih k (by omega) k k rfl le_rfl fun k' hk' => h0 k' (hk'.trans hk)).trans (hpow k)
        exact multiplier_le (h0 k hk) h4 h2 (h3 (h0 k hk)) hg ht
      have hs : (∑ k : Fin n, if decide (k < i) = true then |l i k * u k j| else 0) ≤
          ∑ k ∈ Finset.range (i : ℕ), 2 * (4 ^ k * c) := by
        have e : ∑ k ∈ Finset.range (i : ℕ), 2 * ((4 : ℚ) ^ k * c) =
            ∑ k : Fin n, if decide (k < i) = true then 2 * ((4 : ℚ) ^ (k : ℕ) * c) else 0 := by
          refine Eq.trans ?_ (Fin.sum_univ_eq_sum_range
            (fun k => if decide (k < (i : ℕ)) = true then 2 * ((4 : ℚ) ^ k * c) else 0) n).symm
          rw [← Finset.sum_filter]
          refine Finset.sum_congr (Finset.ext fun k => ?_) fun _ _ => rfl
          simp only [Finset.mem_range, Finset.mem_filter, decide_eq_true_eq]
          omega
        rw [e]
        refine Finset.sum_le_sum fun k _ => ?_
        by_cases hk : k < i
        · simp only [hk, decide_true, if_true, abs_mul]
          exact mul_le_mul (hl k hk) (ih k (by omega) k j rfl (hk.le.trans hij) fun k' hk' => h0 k' (hk'.trans hk)) (abs_nonneg _) (by norm_num)
        · simp [hk]
      have hgeo : ∑ k ∈ Finset.range (i : ℕ), 2 * ((4 : ℚ) ^ k * c) = 2 / 3 * (4 ^ (i : ℕ) - 1) * c := by
        rw [← Finset.mul_sum, ← Finset.sum_mul, geom_sum_eq (by norm_num)]
        ring
      rw [hgeo] at hs
      have h5 := abs_sub_masked (a := M (π i) j) (S := fun k => decide (k < i)) (p := l i) (q := fun k => u k j)
      have h6 : |u i j| ≤ |u i j - (M (π i) j - ∑ k, if decide (k < i) = true then l i k * u k j else 0)| +
          |M (π i) j - ∑ k, if decide (k < i) = true then l i k * u k j else 0| := by
        have := abs_add_le (u i j - (M (π i) j - ∑ k, if decide (k < i) = true then l i k * u k j else 0))
          (M (π i) j - ∑ k, if decide (k < i) = true then l i k * u k j else 0)
        rwa [sub_add_cancel] at this
      have hA := ha (π i) j
      have hz : 0 ≤ |M (π i) j| + ∑ k : Fin n, if decide (k < i) = true then |l i k * u k j| else 0 :=
        add_nonneg (abs_nonneg _) (Finset.sum_nonneg fun k _ => by split <;> positivity)
      have h7 : ((1 + R.u) ^ n - 1) *
          (|M (π i) j| + ∑ k : Fin n, if decide (k < i) = true then |l i k * u k j| else 0) ≤
          1 / 2 * (|M (π i) j| + ∑ k : Fin n, if decide (k < i) = true then |l i k * u k j| else 0) :=
        mul_le_mul_of_nonneg_right (by linarith) hz
      have h8 : 2 * (n : ℚ) * (1 + R.u) ^ n * R.tiny ≤ 3 * (n * R.tiny) := by
        have : 0 ≤ (n : ℚ) * R.tiny := by positivity
        nlinarith
      have h9 : (n : ℚ) * R.tiny * 4 = 4 * (n * R.tiny) := by ring
      have h10 : 0 ≤ (n : ℚ) * R.tiny := by positivity
      nlinarith
  exact (main i i j rfl hij h0).trans (hpow i)

/-! ### A zero pivot -/

/-- With a zero on the diagonal of the upper factor, some vector that ends there is in its kernel. -/
theorem exists_kernel {i0 : Fin n} (h : u i0 i0 = 0) :
    ∃ v : Fin n → ℚ, v ≠ 0 ∧ (∀ j, i0 < j → v j = 0) ∧ ∀ i, ∑ j, upperPart u i j * v j = 0 := by
  let W : Matrix (Fin n) (Fin n) ℚ := fun i j => if j ≤ i0 then upperPart u i j else if i = j then 1 else 0
  have hW : W.BlockTriangular id := by
    intro i j hij
    have hij : j < i := hij
    simp only [W, upperPart]
    split
    · exact if_neg (not_le.mpr hij)
    · exact if_neg hij.ne'
  have hdet : W.det = 0 := by
    rw [det_of_isUpperTriangular hW]
    refine Finset.prod_eq_zero (Finset.mem_univ i0) ?_
    simp [W, upperPart, h]
  obtain ⟨v, hv, hWv⟩ := exists_mulVec_eq_zero_iff.mpr hdet
  have hrow : ∀ i, ∑ j, W i j * v j = 0 := fun i => congrFun hWv i
  have hz : ∀ j, i0 < j → v j = 0 := by
    intro j hj
    have h1 := hrow j
    rw [Finset.sum_eq_single j] at h1
    · simpa [W, not_le.mpr hj] using h1
    · intro k _ hk
      simp only [W, upperPart]
      split
      · next h2 => rw [if_neg (not_le.mpr (lt_of_le_of_lt h2 hj)), zero_mul]
      · rw [if_neg (Ne.symm hk), zero_mul]
    · simp
  refine ⟨v, hv, hz, fun i => ?_⟩
  rw [← hrow i]
  refine Finset.sum_congr rfl fun j _ => ?_
  by_cases hj : j ≤ i0
  · simp [W, hj]
  · rw [hz j (not_le.mp hj), mul_zero, mul_zero]

/-- With a zero pivot the matrix makes some vector small. -/
theorem near_kernel (hF : Factored R M π l u) (hz : ∃ i, u i i = 0) {a : ℚ} (ha : ∀ i j, |M i j| ≤ a)
    (hg : relErr R n μ ≤ 1 / 2) (ht : R.tiny ≤ 1 / 2) (hμ0 : 0 ≤ μ)
    (hμ : ∀ i j, i ≤ j → (∀ k < i, u k k ≠ 0) → |u i j| ≤ μ) :
    ∃ (v : Fin n → ℚ) (im : Fin n), 0 < |v im| ∧ (∀ j, |v j| ≤ |v im|) ∧
      ∀ i, |∑ j, M i j * v j| ≤ n * ((relErr R n μ * (a + 2 * n * μ) + absErr R n μ) * |v im|) := by
  classical
  obtain ⟨i0, h0, hmin⟩ : ∃ i0, u i0 i0 = 0 ∧ ∀ k < i0, u k k ≠ 0 := by
    have hne : (Finset.univ.filter fun i => u i i = 0).Nonempty := by
      obtain ⟨i, hi⟩ := hz
      exact ⟨i, by simp [hi]⟩
    refine ⟨Finset.min' _ hne, (Finset.mem_filter.mp (Finset.min'_mem _ hne)).2, fun k hk hk0 => ?_⟩
    exact absurd (Finset.min'_le _ k (by simp [hk0])) (not_le.mpr hk)
  obtain ⟨v, hv, hv0, hUv⟩ := exists_kernel h0
  have : Nonempty (Fin n) := ⟨i0⟩
  obtain ⟨im, him⟩ := Finite.exists_max fun i => |v i|
  have hV : 0 < |v im| := by
    obtain ⟨j, hj⟩ := Function.ne_iff.mp hv
    exact lt_of_lt_of_le (abs_pos.mpr hj) (him j)
  have hg0 : 0 ≤ relErr R n μ := relErr_nonneg hμ0
  have hτ0 : 0 ≤ absErr R n μ := absErr_nonneg hμ0
  have ha0 : 0 ≤ a := (abs_nonneg _).trans (ha i0 i0)
  set E := relErr R n μ * (a + 2 * n * μ) + absErr R n μ with hE
  have hE0 : 0 ≤ E := by positivity
  have hdiag : ∀ i j, j ≤ i0 → |∑ k, unitLower l i k * upperPart u k j - M (π i) j| ≤ E := by
    intro i j hj
    have key : |∑ k, unitLower l i k * upperPart u k j - M (π i) j| ≤
        relErr R n μ * (|M (π i) j| + ∑ k, |unitLower l i k * upperPart u k j|) + absErr R n μ :=
      factored_error_at hF hμ0 i j (fun _ => hμ j j le_rfl fun k hk => hmin k (lt_of_lt_of_le hk hj))
    have hs : ∑ k, |unitLower l i k * upperPart u k j| ≤ n * (2 * μ) := by
      refine sum_le_card fun k => ?_
      rcases lt_or_ge k i0 with hk | hk
      · rw [abs_mul]
        refine mul_le_mul (unitLower_le hF (hmin k hk) (hμ k k le_rfl fun k' hk' => hmin k' (hk'.trans hk)) hg ht) ?_
          (abs_nonneg _) (by norm_num)
        unfold upperPart
        split
        · next h => exact hμ k j h fun k' hk' => hmin k' (hk'.trans hk)
        · simpa using hμ0
      · have : upperPart u k j = 0 := by
          unfold upperPart
          split
          · next h =>
            have e1 : k = i0 := le_antisymm (h.trans hj) hk
            have e2 : j = i0 := le_antisymm hj (hk.trans h)
            rw [e1, e2, h0]
          · rfl
        rw [this, mul_zero, abs_zero]
        linarith
    refine key.trans (add_le_add_left (mul_le_mul_of_nonneg_left ?_ hg0) _)
    linarith [ha (π i) j]
  have hMv : ∀ i, |∑ j, M i j * v j| ≤ n * (E * |v im|) := by
    intro i
    obtain ⟨i, rfl⟩ := π.surjective i
    have e : ∑ j, M (π i) j * v j = -∑ j, (∑ k, unitLower l i k * upperPart u k j - M (π i) j) * v j := by
      have e1 : ∑ j, (∑ k, unitLower l i k * upperPart u k j) * v j = 0 := by
        simp only [Finset.sum_mul]
        rw [Finset.sum_comm]
        refine Finset.sum_eq_zero fun k _ => ?_
        simp only [mul_assoc]
        rw [← Finset.mul_sum, hUv k, mul_zero]
      simp only [sub_mul, Finset.sum_sub_distrib]
      rw [e1]
      ring
    rw [e, abs_neg]
    refine (Finset.abs_sum_le_sum_abs _ _).trans (sum_le_card fun j => ?_)
    rw [abs_mul]
    rcases le_or_gt j i0 with hj | hj
    · exact mul_le_mul (hdiag i j hj) (him j) (abs_nonneg _) hE0
    · rw [hv0 j hj, abs_zero, mul_zero]
      positivity
  exact ⟨v, im, hV, him, hMv⟩

/-- A zero pivot means that the matrix is nearly singular. -/
theorem zero_pivot (hF : Factored R M π l u) (hz : ∃ i, u i i = 0) {a t : ℚ} (ha : ∀ i j, |M i j| ≤ a)
    (hg : relErr R n μ ≤ 1 / 2) (ht : R.tiny ≤ 1 / 2) (hμ0 : 0 ≤ μ)
    (hμ : ∀ i j, i ≤ j → (∀ k < i, u k k ≠ 0) → |u i j| ≤ μ)
    {N : Matrix (Fin n) (Fin n) ℚ} (hN : N * M = 1) (hNt : ∀ i j, |N i j| ≤ t) :
    1 ≤ n ^ 2 * t * (relErr R n μ * (a + 2 * n * μ) + absErr R n μ) := by
  obtain ⟨v, im, hV, him, hMv⟩ := near_kernel hF hz ha hg ht hμ0 hμ
  have hg0 : 0 ≤ relErr R n μ := relErr_nonneg hμ0
  have hτ0 : 0 ≤ absErr R n μ := absErr_nonneg hμ0
  have ha0 : 0 ≤ a := (abs_nonneg _).trans (ha im im)
  have ht0 : 0 ≤ t := (abs_nonneg _).trans (hNt im im)
  set E := relErr R n μ * (a + 2 * n * μ) + absErr R n μ with hE
  have hE0 : 0 ≤ E := by positivity
  have hvN : v = N.mulVec (M.mulVec v) := by rw [mulVec_mulVec, hN, one_mulVec]
  have h1 : |v im| ≤ n * (t * (n * (E * |v im|))) := by
    have : |v im| = |∑ k, N im k * ∑ j, M k j * v j| := by
      conv_lhs => rw [hvN]
      rfl
    conv_lhs => rw [this]
    refine (Finset.abs_sum_le_sum_abs _ _).trans (sum_le_card fun k => ?_)
    rw [abs_mul]
    exact mul_le_mul (hNt im k) (hMv k) (abs_nonneg _) ht0
  by_contra hlt
  push Not at hlt
  have := mul_lt_mul_of_pos_right hlt hV
  linarith

end Floating
end Pytimize
