/-
Sums of products in floating point, in any order.
-/
import Mathlib.Algebra.BigOperators.Group.List.Basic
import Mathlib.Algebra.Order.BigOperators.Group.List
import Verif.Float.Rounding

namespace Pytimize
namespace Floating

variable {R : Rounding}

/-- `Dots R l r`: `r` is a possible result for the sum of the products of the pairs in the nonempty list `l`. NumPy and
the library behind `@` may sum in any order, in parts, with or without fused multiply-add; adding to a zero that an
accumulator starts with changes nothing. -/
inductive Dots (R : Rounding) : List (ℚ × ℚ) → ℚ → Prop
  | prod (u v : ℚ) : Dots R [(u, v)] (R.rd (u * v))
  | add {l m : List (ℚ × ℚ)} {r s : ℚ} : Dots R l r → Dots R m s → Dots R (l ++ m) (R.rd (r + s))
  | fma {l : List (ℚ × ℚ)} {r : ℚ} (u v : ℚ) : Dots R l r → Dots R ((u, v) :: l) (R.rd (u * v + r))
  | perm {l m : List (ℚ × ℚ)} {r : ℚ} : l.Perm m → Dots R l r → Dots R m r

/-- The pairs of a product `u @ v` of vectors. -/
def pairs {n : ℕ} (u v : Fin n → ℚ) : List (ℚ × ℚ) := List.ofFn fun i => (u i, v i)

/-- `r` is a possible result of `u @ v`; the empty sum is zero. -/
def DotVal (R : Rounding) {n : ℕ} (u v : Fin n → ℚ) (r : ℚ) : Prop :=
  (n = 0 ∧ r = 0) ∨ Dots R (pairs u v) r

/-- The exact sum. -/
def total (l : List (ℚ × ℚ)) : ℚ := (l.map fun p => p.1 * p.2).sum

/-- The sum of the absolute values. -/
def size (l : List (ℚ × ℚ)) : ℚ := (l.map fun p => |p.1 * p.2|).sum

theorem size_nonneg (l : List (ℚ × ℚ)) : 0 ≤ size l :=
  List.sum_nonneg (by simp only [List.mem_map]; rintro _ ⟨p, -, rfl⟩; exact abs_nonneg _)

theorem total_le_size (l : List (ℚ × ℚ)) : |total l| ≤ size l := by
  induction l with
  | nil => simp [total, size]
  | cons p l ih =>
    simp only [total, size, List.map_cons, List.sum_cons] at *
    exact (abs_add_le _ _).trans (by linarith)

/-- What rounding can do to a sum of `n` products with absolute values adding up to `s`. -/
def Rounding.slack (R : Rounding) (n : ℕ) (s : ℚ) : ℚ := ((1 + R.u) ^ n - 1) * s + 2 * n * (1 + R.u) ^ n * R.tiny

theorem one_le_pow_u (n : ℕ) : 1 ≤ (1 + R.u) ^ n := one_le_pow₀ (by linarith [R.u_nonneg])

theorem Rounding.slack_nonneg (n : ℕ) {s : ℚ} (hs : 0 ≤ s) : 0 ≤ R.slack n s := by
  have := one_le_pow_u (R := R) n
  have h1 := R.tiny_nonneg
  unfold Rounding.slack
  have : 0 ≤ ((1 + R.u) ^ n - 1) * s := mul_nonneg (by linarith) hs
  have : 0 ≤ 2 * (n : ℚ) * (1 + R.u) ^ n * R.tiny := by positivity
  linarith

theorem Dots.ne_nil {l : List (ℚ × ℚ)} {r : ℚ} (h : Dots R l r) : 0 < l.length := by
  induction h with
  | prod => simp
  | add _ _ h1 h2 => simp; omega
  | fma => simp
  | perm hp _ ih => rwa [← hp.length_eq]

theorem round_step {x s S e : ℚ} (hx : |x - s| ≤ e) (hs : |s| ≤ S) :
    |R.rd x - s| ≤ R.u * S + R.tiny + (1 + R.u) * e := by
  have h1 := R.err x
  have h2 : |x| ≤ S + e := by
    have := abs_add_le (x - s) s
    rw [sub_add_cancel] at this
    linarith
  have h3 := abs_add_le (R.rd x - x) (x - s)
  rw [sub_add_sub_cancel] at h3
  have h4 := mul_le_mul_of_nonneg_left h2 R.u_nonneg
  nlinarith

/-- The error of a floating-point sum of products. -/
theorem Dots.error {l : List (ℚ × ℚ)} {r : ℚ} (h : Dots R l r) :
    |r - total l| ≤ ((1 + R.u) ^ l.length - 1) * size l + (2 * l.length - 1) * (1 + R.u) ^ l.length * R.tiny := by
  have hu := R.u_nonneg
  have ht := R.tiny_nonneg
  induction h with
  | prod a b =>
    have := R.err (a * b)
    simp only [total, size, List.map_cons, List.map_nil, List.sum_cons, List.sum_nil, add_zero, List.length_cons,
      List.length_nil, zero_add, pow_one, Nat.cast_one]
    nlinarith
  | @add l m r s h1 h2 e1 e2 =>
    have l1 := h1.ne_nil
    have l2 := h2.ne_nil
    have hT : total (l ++ m) = total l + total m := by simp [total]
    have hS : size (l ++ m) = size l + size m := by simp [size]
    have n1 := size_nonneg l
    have n2 := size_nonneg m
    set n := l.length + m.length - 1 with hn
    have hlen : (l ++ m).length = n + 1 := by simp; omega
    have p0 := one_le_pow_u (R := R) n
    have p1 : (1 + R.u) ^ l.length ≤ (1 + R.u) ^ n := pow_le_pow_right₀ (by linarith) (by omega)
    have p2 : (1 + R.u) ^ m.length ≤ (1 + R.u) ^ n := pow_le_pow_right₀ (by linarith) (by omega)
    have c1 : (1 : ℚ) ≤ l.length := by exact_mod_cast l1
    have c2 : (1 : ℚ) ≤ m.length := by exact_mod_cast l2
    have cn : ((n : ℕ) : ℚ) = l.length + m.length - 1 := by
      rw [hn, Nat.cast_sub (by omega)]; push_cast; ring
    have he : |(r + s) - (total l + total m)| ≤
        ((1 + R.u) ^ n - 1) * (size l + size m) + (2 * n) * (1 + R.u) ^ n * R.tiny := by
      have a := abs_add_le (r - total l) (s - total m)
      have e : r - total l + (s - total m) = r + s - (total l + total m) := by ring
      rw [e] at a
      have b1 : ((1 + R.u) ^ l.length - 1) * size l ≤ ((1 + R.u) ^ n - 1) * size l :=
        mul_le_mul_of_nonneg_right (by linarith) n1
      have b2 : ((1 + R.u) ^ m.length - 1) * size m ≤ ((1 + R.u) ^ n - 1) * size m :=
        mul_le_mul_of_nonneg_right (by linarith) n2
      have d1 : (2 * (l.length : ℚ) - 1) * (1 + R.u) ^ l.length * R.tiny ≤ (2 * l.length - 1) * (1 + R.u) ^ n * R.tiny :=
        mul_le_mul_of_nonneg_right (mul_le_mul_of_nonneg_left p1 (by linarith)) ht
      have d2 : (2 * (m.length : ℚ) - 1) * (1 + R.u) ^ m.length * R.tiny ≤ (2 * m.length - 1) * (1 + R.u) ^ n * R.tiny :=
        mul_le_mul_of_nonneg_right (mul_le_mul_of_nonneg_left p2 (by linarith)) ht
      have f : (2 * (n : ℚ)) * (1 + R.u) ^ n * R.tiny =
          (2 * l.length - 1) * (1 + R.u) ^ n * R.tiny + (2 * m.length - 1) * (1 + R.u) ^ n * R.tiny := by
        rw [cn]; ring
      rw [f]
      linarith
    have hs : |total l + total m| ≤ size l + size m :=
      (abs_add_le _ _).trans (add_le_add (total_le_size l) (total_le_size m))
    have := round_step (R := R) he hs
    rw [hT, hS, hlen, pow_succ]
    push_cast
    have q : R.tiny ≤ (1 + R.u) ^ n * (1 + R.u) * R.tiny := by
      have : 1 ≤ (1 + R.u) ^ n * (1 + R.u) := by nlinarith
      nlinarith
    nlinarith
  | @fma l r a b h1 e1 =>
    have l1 := h1.ne_nil
    have hT : total ((a, b) :: l) = a * b + total l := by simp [total]
    have hS : size ((a, b) :: l) = |a * b| + size l := by simp [size]
    have n1 := size_nonneg l
    have p0 := one_le_pow_u (R := R) l.length
    have c1 : (1 : ℚ) ≤ l.length := by exact_mod_cast l1
    have he : |(a * b + r) - (a * b + total l)| ≤
        ((1 + R.u) ^ l.length - 1) * size l + (2 * l.length - 1) * (1 + R.u) ^ l.length * R.tiny := by
      rw [add_sub_add_left_eq_sub]; exact e1
    have hs : |a * b + total l| ≤ |a * b| + size l := (abs_add_le _ _).trans (by linarith [total_le_size l])
    have := round_step (R := R) he hs
    rw [hT, hS, List.length_cons, pow_succ]
    push_cast
    have q : R.tiny ≤ (1 + R.u) ^ l.length * (1 + R.u) * R.tiny := by
      have : 1 ≤ (1 + R.u) ^ l.length * (1 + R.u) := by nlinarith
      nlinarith
    have q2 : 0 ≤ ((1 + R.u) ^ l.length - 1) * (1 + R.u) * |a * b| :=
      mul_nonneg (mul_nonneg (by linarith) (by linarith)) (abs_nonneg _)
    have q3 : 0 ≤ (1 + R.u) ^ l.length * (1 + R.u) * R.tiny := by positivity
    nlinarith
  | @perm l m r hp _ ih =>
    have hT : total l = total m := (hp.map _).sum_eq
    have hS : size l = size m := (hp.map _).sum_eq
    rwa [hT, hS, hp.length_eq] at ih

theorem total_pairs {n : ℕ} (u v : Fin n → ℚ) : total (pairs u v) = ∑ i, u i * v i := by
  simp [total, pairs, List.map_ofFn, List.sum_ofFn]

theorem size_pairs {n : ℕ} (u v : Fin n → ℚ) : size (pairs u v) = ∑ i, |u i * v i| := by
  simp [size, pairs, List.map_ofFn, List.sum_ofFn]

/-- The error of `u @ v`. -/
theorem DotVal.error {n : ℕ} {u v : Fin n → ℚ} {r : ℚ} (h : DotVal R u v r) :
    |r - ∑ i, u i * v i| ≤ R.slack n (∑ i, |u i * v i|) := by
  rcases h with ⟨rfl, rfl⟩ | h
  · simp [Rounding.slack]
  · have he := h.error
    have hl : (pairs u v).length = n := by simp [pairs]
    rw [total_pairs, size_pairs, hl] at he
    refine he.trans ?_
    unfold Rounding.slack
    have := R.tiny_nonneg
    have h1 := one_le_pow_u (R := R) n
    have : (2 * (n : ℚ) - 1) * (1 + R.u) ^ n * R.tiny ≤ 2 * n * (1 + R.u) ^ n * R.tiny :=
      mul_le_mul_of_nonneg_right (mul_le_mul_of_nonneg_right (by linarith) (by linarith)) (by assumption)
    linarith

/-- Products that are not positive have a sum that is not positive. -/
theorem Dots.nonpos {l : List (ℚ × ℚ)} {r : ℚ} (h : Dots R l r) (hl : ∀ p ∈ l, p.1 * p.2 ≤ 0) : r ≤ 0 := by
  induction h with
  | prod a b => exact Rounding.rd_nonpos (hl (a, b) (by simp))
  | add _ _ e1 e2 =>
    have a := e1 fun p hp => hl p (by simp [hp])
    have b := e2 fun p hp => hl p (by simp [hp])
    exact Rounding.rd_nonpos (by linarith)
  | fma a b _ e =>
    have h1 := hl (a, b) (by simp)
    have h2 := e fun p hp => hl p (by simp [hp])
    exact Rounding.rd_nonpos (by simp only at h1; linarith)
  | perm hp _ ih => exact ih fun p h => hl p (hp.mem_iff.mp h)

theorem DotVal.nonpos {n : ℕ} {u v : Fin n → ℚ} {r : ℚ} (h : DotVal R u v r) (hl : ∀ i, u i * v i ≤ 0) : r ≤ 0 := by
  rcases h with ⟨-, rfl⟩ | h
  · exact le_rfl
  · refine h.nonpos fun p hp => ?_
    simp only [pairs, List.mem_ofFn] at hp
    obtain ⟨i, rfl⟩ := hp
    exact hl i

/-- There always is a result: the sum from right to left. -/
theorem exists_dotVal (R : Rounding) {n : ℕ} (u v : Fin n → ℚ) : ∃ r, DotVal R u v r := by
  have : ∀ l : List (ℚ × ℚ), l ≠ [] → ∃ r, Dots R l r := by
    intro l
    induction l with
    | nil => intro h; exact absurd rfl h
    | cons p l ih =>
      intro _
      by_cases hl : l = []
      · subst hl; exact ⟨_, .prod p.1 p.2⟩
      · obtain ⟨r, hr⟩ := ih hl
        exact ⟨_, .fma p.1 p.2 hr⟩
  rcases Nat.eq_zero_or_pos n with h | h
  · exact ⟨0, .inl ⟨h, rfl⟩⟩
  · obtain ⟨r, hr⟩ := this (pairs u v) (by
      intro h0
      have := congrArg List.length h0
      simp [pairs] at this
      omega)
    exact ⟨r, .inr hr⟩

/-- Exact arithmetic has one result, the sum. -/
theorem dotVal_exact {n : ℕ} {u v : Fin n → ℚ} {r : ℚ} : DotVal exact u v r ↔ r = ∑ i, u i * v i := by
  have key : ∀ {r}, DotVal exact u v r → r = ∑ i, u i * v i := by
    intro r h
    have he := h.error
    have h0 : exact.slack n (∑ i, |u i * v i|) = 0 := by simp [Rounding.slack, exact]
    rw [h0] at he
    have := abs_nonpos_iff.mp he
    linarith
  refine ⟨key, fun h => ?_⟩
  obtain ⟨s, hs⟩ := exists_dotVal exact u v
  rw [h, ← key hs]
  exact hs

/-! ### Integers -/

/-- A list of pairs of integers. -/
def IntPairs (l : List (ℚ × ℚ)) : Prop := ∀ p ∈ l, ∃ a b : ℤ, p = ((a : ℚ), (b : ℚ))

theorem Dots.int {l : List (ℚ × ℚ)} {r : ℚ} (h : Dots binary64 l r) (hi : IntPairs l) (hs : size l ≤ 2 ^ 53) :
    r = total l ∧ ∃ k : ℤ, r = k := by
  have rep : ∀ k : ℤ, |(k : ℚ)| ≤ 2 ^ 53 → binary64.rd k = k := fun k hk =>
    binary64_rep.mpr (isDouble_int (by exact_mod_cast hk))
  induction h with
  | prod a b =>
    obtain ⟨c, d, he⟩ := hi _ (List.mem_singleton.mpr rfl)
    obtain ⟨rfl, rfl⟩ := Prod.mk.inj he
    simp only [size, total, List.map_cons, List.map_nil, List.sum_cons, List.sum_nil, add_zero] at hs ⊢
    have := rep (c * d) (by push_cast; exact hs)
    push_cast at this
    exact ⟨this, c * d, by push_cast; exact this⟩
  | @add l m r s _ _ e1 e2 =>
    have hT : total (l ++ m) = total l + total m := by simp [total]
    have hS : size (l ++ m) = size l + size m := by simp [size]
    have n1 := size_nonneg l
    have n2 := size_nonneg m
    rw [hS] at hs
    obtain ⟨h1, k1, h1'⟩ := e1 (fun p hp => hi p (by simp [hp])) (by linarith)
    obtain ⟨h2, k2, h2'⟩ := e2 (fun p hp => hi p (by simp [hp])) (by linarith)
    have := rep (k1 + k2) (by
      push_cast
      rw [← h1', ← h2', h1, h2]
      exact (abs_add_le _ _).trans ((add_le_add (total_le_size l) (total_le_size m)).trans hs))
    push_cast at this
    rw [← h1', ← h2'] at this
    exact ⟨by rw [this, hT, h1, h2], k1 + k2, by rw [this, h1', h2']; push_cast; ring⟩
  | @fma l r a b _ e1 =>
    have hT : total ((a, b) :: l) = a * b + total l := by simp [total]
    have hS : size ((a, b) :: l) = |a * b| + size l := by simp [size]
    have n1 := size_nonneg l
    rw [hS] at hs
    obtain ⟨c, d, he⟩ := hi (a, b) (by simp)
    obtain ⟨rfl, rfl⟩ := Prod.mk.inj he
    have n2 := abs_nonneg ((c : ℚ) * d)
    obtain ⟨h1, k1, h1'⟩ := e1 (fun p hp => hi p (by simp [hp])) (by linarith)
    have := rep (c * d + k1) (by
      push_cast
      rw [← h1', h1]
      exact (abs_add_le _ _).trans ((add_le_add le_rfl (total_le_size l)).trans hs))
    push_cast at this
    rw [← h1'] at this
    exact ⟨by rw [this, hT, h1], c * d + k1, by rw [this, h1']; push_cast; ring⟩
  | @perm l m r hp _ ih =>
    have hT : total l = total m := (hp.map _).sum_eq
    have hS : size l = size m := (hp.map _).sum_eq
    rw [← hT]
    exact ih (fun p h => hi p (hp.mem_iff.mp h)) (hS ▸ hs)

/-- Products of integer vectors are exact as long as they stay within 53 bits. -/
theorem DotVal.int {n : ℕ} {u v : Fin n → ℚ} {r : ℚ} (h : DotVal binary64 u v r) (hu : ∀ i, ∃ k : ℤ, u i = k)
    (hv : ∀ i, ∃ k : ℤ, v i = k) (hs : ∑ i, |u i * v i| ≤ 2 ^ 53) : r = ∑ i, u i * v i := by
  rcases h with ⟨rfl, rfl⟩ | h
  · simp
  · rw [← total_pairs]
    refine (h.int (fun p hp => ?_) (by rw [size_pairs]; exact hs)).1
    simp only [pairs, List.mem_ofFn] at hp
    obtain ⟨i, rfl⟩ := hp
    obtain ⟨a, ha⟩ := hu i
    obtain ⟨b, hb⟩ := hv i
    exact ⟨a, b, by rw [ha, hb]⟩

end Floating
end Pytimize
