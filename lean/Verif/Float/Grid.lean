/-
Multiples of a power of two and powers of two: exact in double precision, and compared as if without tolerances.
-/
import Verif.Float.Unimodular

namespace Pytimize
namespace Floating
open LinProg Comparator Matrix

variable {m n s t : ℕ} {A B q : ℚ}

/-! ### Multiples of a power of two -/

/-- A multiple of `2⁻ˢ` of absolute value at most `A`. -/
def Grid (s : ℕ) (A q : ℚ) : Prop := (∃ k : ℤ, q * 2 ^ s = k) ∧ |q| ≤ A

theorem Grid.nonneg (h : Grid s A q) : 0 ≤ A := (abs_nonneg q).trans h.2

theorem Grid.mono (h : Grid s A q) (hs : s ≤ t) (hA : A ≤ B) : Grid t B q := by
  obtain ⟨⟨k, hk⟩, ha⟩ := h
  refine ⟨⟨k * 2 ^ (t - s), ?_⟩, ha.trans hA⟩
  push_cast
  rw [← hk, mul_assoc, ← pow_add, Nat.add_sub_cancel' hs]

theorem Grid.zero (hA : 0 ≤ A) : Grid s A 0 := ⟨⟨0, by simp⟩, by rwa [abs_zero]⟩

theorem Grid.neg (h : Grid s A q) : Grid s A (-q) := by
  obtain ⟨⟨k, hk⟩, ha⟩ := h
  exact ⟨⟨-k, by rw [neg_mul, hk]; push_cast; rfl⟩, by rwa [abs_neg]⟩

theorem Grid.add {a b : ℚ} (ha : Grid s A a) (hb : Grid s B b) : Grid s (A + B) (a + b) := by
  obtain ⟨⟨k, hk⟩, ha⟩ := ha
  obtain ⟨⟨l, hl⟩, hb⟩ := hb
  exact ⟨⟨k + l, by rw [add_mul, hk, hl]; push_cast; rfl⟩, (abs_add_le a b).trans (add_le_add ha hb)⟩

theorem Grid.sub {a b : ℚ} (ha : Grid s A a) (hb : Grid s B b) : Grid s (A + B) (a - b) := by
  rw [sub_eq_add_neg]; exact ha.add hb.neg

theorem Grid.mul {a b : ℚ} (ha : Grid s A a) (hb : Grid t B b) : Grid (s + t) (A * B) (a * b) := by
  have h0 := ha.nonneg
  obtain ⟨⟨k, hk⟩, ha⟩ := ha
  obtain ⟨⟨l, hl⟩, hb⟩ := hb
  refine ⟨⟨k * l, ?_⟩, by rw [abs_mul]; exact mul_le_mul ha hb (abs_nonneg _) h0⟩
  push_cast
  rw [← hk, ← hl, pow_add]
  ring

theorem Grid.sum {f : Fin m → ℚ} (h : ∀ i, Grid s A (f i)) : Grid s (m * A) (∑ i, f i) := by
  choose k hk using fun i => (h i).1
  refine ⟨⟨∑ i, k i, by rw [Finset.sum_mul, Int.cast_sum]; exact Finset.sum_congr rfl fun i _ => hk i⟩, ?_⟩
  refine (Finset.abs_sum_le_sum_abs _ _).trans ((Finset.sum_le_sum fun i _ => (h i).2).trans ?_)
  simp

theorem IntUpTo.grid {C : ℤ} (h : IntUpTo C q) : Grid 0 C q := by
  refine ⟨?_, h.abs_le⟩
  obtain ⟨k, hk⟩ := h.int
  exact ⟨k, by rw [pow_zero, mul_one, hk]⟩

theorem rd_of_mul (h : ∃ k : ℤ, q * 2 ^ s = k) (hq : |q| * 2 ^ s ≤ 2 ^ 53) (hs : s ≤ 1000) : binary64.rd q = q := by
  obtain ⟨k, hk⟩ := h
  have hp : (0 : ℚ) < 2 ^ s := by positivity
  refine binary64_rep.mpr ⟨k, -(s : ℤ), ?_, ?_, by omega⟩
  · rw [← hk, zpow_neg, zpow_natCast, mul_assoc, mul_inv_cancel₀ hp.ne', mul_one]
  · have : |(k : ℚ)| ≤ 2 ^ 53 := by rwa [← hk, abs_mul, abs_of_pos hp]
    exact_mod_cast this

theorem Grid.rd_eq (h : Grid s A q) (hA : A * 2 ^ s ≤ 2 ^ 53) (hs : s ≤ 1000) : binary64.rd q = q :=
  rd_of_mul h.1 ((mul_le_mul_of_nonneg_right h.2 (by positivity)).trans hA) hs

/-- Sums of multiples of a power of two are exact, in any order. -/
theorem Dots.grid {l : List (ℚ × ℚ)} {r : ℚ} (h : Dots binary64 l r) (hi : ∀ p ∈ l, ∃ k : ℤ, p.1 * p.2 * 2 ^ s = k)
    (hl : size l * 2 ^ s ≤ 2 ^ 53) (hs : s ≤ 1000) : r = total l ∧ ∃ k : ℤ, r * 2 ^ s = k := by
  have hp : (0 : ℚ) < 2 ^ s := by positivity
  have rep : ∀ q S : ℚ, (∃ k : ℤ, q * 2 ^ s = k) → |q| ≤ S → S * 2 ^ s ≤ 2 ^ 53 → binary64.rd q = q :=
    fun q S h1 h2 h3 => Grid.rd_eq ⟨h1, h2⟩ h3 hs
  induction h with
  | prod a b =>
    have h1 := hi _ (List.mem_singleton.mpr rfl)
    simp only [size, total, List.map_cons, List.map_nil, List.sum_cons, List.sum_nil, add_zero] at hl ⊢
    have := rep (a * b) _ h1 le_rfl hl
    rw [this]
    exact ⟨rfl, h1⟩
  | @add l m r s' _ _ e1 e2 =>
    have hT : total (l ++ m) = total l + total m := by simp [total]
    have hS : size (l ++ m) = size l + size m := by simp [size]
    have n1 := mul_nonneg (size_nonneg l) hp.le
    have n2 := mul_nonneg (size_nonneg m) hp.le
    rw [hS] at hl
    obtain ⟨h1, k1, h1'⟩ := e1 (fun p hp => hi p (by simp [hp])) (by linarith)
    obtain ⟨h2, k2, h2'⟩ := e2 (fun p hp => hi p (by simp [hp])) (by linarith)
    have hk : ∃ k : ℤ, (r + s') * 2 ^ s = k := ⟨k1 + k2, by rw [add_mul, h1', h2']; push_cast; rfl⟩
    have := rep (r + s') _ hk (by
      rw [h1, h2]
      exact (abs_add_le _ _).trans (add_le_add (total_le_size l) (total_le_size m))) hl
    rw [this, hT]
    exact ⟨by rw [h1, h2], hk⟩
  | @fma l r a b _ e1 =>
    have hT : total ((a, b) :: l) = a * b + total l := by simp [total]
    have hS : size ((a, b) :: l) = |a * b| + size l := by simp [size]
    rw [hS] at hl
    obtain ⟨k2, h2'⟩ := hi (a, b) (by simp)
    have n2 := mul_nonneg (abs_nonneg (a * b)) hp.le
    obtain ⟨h1, k1, h1'⟩ := e1 (fun p hp => hi p (by simp [hp])) (by linarith)
    have hk : ∃ k : ℤ, (a * b + r) * 2 ^ s = k := ⟨k2 + k1, by rw [add_mul, h1', h2']; push_cast; rfl⟩
    have := rep (a * b + r) _ hk (by
      rw [h1]
      exact (abs_add_le _ _).trans (add_le_add le_rfl (total_le_size l))) hl
    rw [this, hT]
    exact ⟨by rw [h1], hk⟩
  | @perm l m r hp _ ih =>
    have hT : total l = total m := (hp.map _).sum_eq
    have hS : size l = size m := (hp.map _).sum_eq
    rw [← hT]
    exact ih (fun p h => hi p (hp.mem_iff.mp h)) (hS ▸ hl)

/-- Products of vectors of such numbers are exact. -/
theorem DotVal.grid {u v : Fin m → ℚ} {r : ℚ} (h : DotVal binary64 u v r) (hu : ∀ i, Grid s A (u i))
    (hv : ∀ i, Grid t B (v i)) (hb : m * (A * B) * 2 ^ (s + t) ≤ 2 ^ 53) (hs : s + t ≤ 1000) :
    r = ∑ i, u i * v i ∧ Grid (s + t) (m * (A * B)) r := by
  have e : r = ∑ i, u i * v i := by
    rcases h with ⟨rfl, rfl⟩ | h
    · simp
    · rw [← total_pairs]
      refine (h.grid (s := s + t) (fun p hp => ?_) ?_ hs).1
      · simp only [pairs, List.mem_ofFn] at hp
        obtain ⟨i, rfl⟩ := hp
        exact ((hu i).mul (hv i)).1
      · rw [size_pairs]
        refine (mul_le_mul_of_nonneg_right (Finset.sum_le_sum fun i _ => ((hu i).mul (hv i)).2) (by positivity)).trans ?_
        simpa using hb
  refine ⟨e, ?_⟩
  rw [e]
  exact Grid.sum fun i => (hu i).mul (hv i)

/-! ### Comparisons -/

theorem grid_small (h : ∃ k : ℤ, q * 2 ^ s = k) (hs : s ≤ 32) : q = 0 ∨ 2 / 10 ^ 10 ≤ |q| := by
  obtain ⟨k, hk⟩ := h
  have hp : (0 : ℚ) < 2 ^ s := by positivity
  by_cases h0 : k = 0
  · left
    rw [h0, Int.cast_zero] at hk
    exact (mul_eq_zero.mp hk).resolve_right hp.ne'
  · right
    have h1 : (1 : ℚ) ≤ |(k : ℚ)| := by exact_mod_cast Int.one_le_abs h0
    rw [← hk, abs_mul, abs_of_pos hp] at h1
    have h2 : (2 : ℚ) ^ s ≤ 2 ^ 32 := pow_le_pow_right₀ (by norm_num) hs
    have h3 : |q| * 2 ^ s ≤ |q| * 2 ^ 32 := mul_le_mul_of_nonneg_left h2 (abs_nonneg q)
    norm_num at h3 ⊢
    linarith

theorem closeToZero_grid (h : ∃ k : ℤ, q * 2 ^ s = k) (hs : s ≤ 32) : closeToZero binary64 q = isCloseToZero q := by
  have hb := zeroTol_bounds fine_binary64
  unfold closeToZero isCloseToZero tol
  rw [decide_eq_decide]
  rcases grid_small h hs with rfl | h1
  · simp only [abs_zero]
    exact ⟨fun _ => by norm_num, fun _ => zeroTol_pos fine_binary64⟩
  · constructor
    · intro h; norm_num at hb h1; linarith
    · intro h; norm_num at h h1; linarith

theorem cmp_zero_grid (h : ∃ k : ℤ, q * 2 ^ s = k) (hs : s ≤ 32) (op : Op) :
    cmpTol binary64 q op 0 = pyCmp q op 0 := by
  have := closeToZero_grid h hs
  cases op <;> simp [cmpTol, pyCmp, close, closeTo, this]

theorem positive_grid (h : ∃ k : ℤ, q * 2 ^ s = k) (hs : s ≤ 32) : positive binary64 q = isPositive q :=
  cmp_zero_grid h hs .gt

theorem negative_grid (h : ∃ k : ℤ, q * 2 ^ s = k) (hs : s ≤ 32) : negative binary64 q = isNegative q :=
  cmp_zero_grid h hs .lt

theorem nonneg_of_grid (h : ∃ k : ℤ, q * 2 ^ s = k) (hs : s ≤ 32) (h1 : -tol < q) : 0 ≤ q := by
  rcases grid_small h hs with rfl | h2
  · exact le_rfl
  · by_contra h3
    push Not at h3
    rw [abs_of_neg h3] at h2
    unfold tol at h1
    norm_num at h1 h2
    linarith

/-- Five does not divide a power of two: the tolerance of `np.isclose` is never hit exactly. -/
theorem no_tie (D Q : ℤ) (s : ℕ) : 10 ^ 8 * D ≠ 2 ^ s + 10 ^ 3 * Q := by
  intro h
  have h1 : ∀ s : ℕ, (2 : ℤ) ^ s % 5 ≠ 0 := by
    intro s
    induction s with
    | zero => norm_num
    | succ s ih => rw [pow_succ]; omega
  have := h1 s
  omega

/-- The tolerance of `np.isclose` never decides between such numbers in another way. -/
theorem npClose_grid {a b : ℚ} (ha : Grid s A a) (hb : Grid s A b) (hA : A * 2 ^ s ≤ 2 ^ 40) (hs : s ≤ 32) :
    npClose binary64 a b = npIsClose a b := by
  have hp : (0 : ℚ) < 2 ^ s := by positivity
  have hr : binary64.rd (a - b) = a - b := (ha.sub hb).rd_eq (by rw [add_mul]; norm_num at hA ⊢; linarith) (by omega)
  have hB0 := abs_nonneg b
  have hd : ∃ d : ℤ, |a - b| * 2 ^ s = d := by
    obtain ⟨k, hk⟩ := (ha.sub hb).1
    exact ⟨|k|, by push_cast; rw [← hk, abs_mul, abs_of_pos hp]⟩
  have hβ : ∃ q : ℤ, |b| * 2 ^ s = q := by
    obtain ⟨k, hk⟩ := hb.1
    exact ⟨|k|, by push_cast; rw [← hk, abs_mul, abs_of_pos hp]⟩
  have hB := hb.2
  unfold npClose npIsClose
  rw [hr, decide_eq_decide]
  obtain ⟨D, hD⟩ := hd
  obtain ⟨Q, hQ⟩ := hβ
  generalize |a - b| = d at *
  generalize |b| = q at *
  obtain ⟨ε, hε⟩ : ∃ ε : ℚ, ε = 1 / 2 ^ s := ⟨_, rfl⟩
  have hε0 : 0 < ε := by rw [hε]; positivity
  have hε1 : 1 / 2 ^ 32 ≤ ε := by
    rw [hε]
    exact one_div_le_one_div_of_le hp (pow_le_pow_right₀ (by norm_num) hs)
  have e1 : ε * 2 ^ s = 1 := by rw [hε]; field_simp
  have hqε : q ≤ 2 ^ 40 * ε := by
    have : q * 2 ^ s * ε ≤ 2 ^ 40 * ε :=
      mul_le_mul_of_nonneg_right ((mul_le_mul_of_nonneg_right hB hp.le).trans hA) hε0.le
    calc q = q * 2 ^ s * ε := by rw [mul_assoc, mul_comm _ ε, e1, mul_one]
      _ ≤ _ := this
  have hdD : d = D * ε := by rw [← hD, mul_assoc, mul_comm _ ε, e1, mul_one]
  have hqQ : q = Q * ε := by rw [← hQ, mul_assoc, mul_comm _ ε, e1, mul_one]
  have e1 := abs_le.mp (rd_err (x := 1 / 10 ^ 8))
  have e2 := abs_le.mp (rd_err (x := 1 / 10 ^ 5))
  generalize binary64.rd (1 / 10 ^ 8) = s' at *
  generalize binary64.rd (1 / 10 ^ 5) = t at *
  rw [abs_of_nonneg (by norm_num : (0 : ℚ) ≤ 1 / 10 ^ 8)] at e1
  rw [abs_of_nonneg (by norm_num : (0 : ℚ) ≤ 1 / 10 ^ 5)] at e2
  have t0 : 0 ≤ t := by norm_num at e2 ⊢; linarith [e2.1]
  have p1 : |t * q - 1 / 10 ^ 5 * q| ≤ 13 / 10 ^ 10 * ε := by
    rw [← sub_mul, abs_mul, abs_of_nonneg hB0]
    have : |t - 1 / 10 ^ 5| ≤ 1 / 2 ^ 53 * (1 / 10 ^ 5) + 1 / 10 ^ 30 := abs_le.mpr e2
    refine (mul_le_mul this hqε hB0 (by norm_num)).trans ?_
    rw [← mul_assoc]
    exact mul_le_mul_of_nonneg_right (by norm_num) hε0.le
  have p1' := abs_le.mp p1
  have e3 := abs_le.mp (rd_err (x := t * q))
  rw [abs_of_nonneg (mul_nonneg t0 hB0)] at e3
  generalize binary64.rd (t * q) = w at *
  have w1 : |w - t * q| ≤ 13 / 10 ^ 10 * ε := by
    rw [abs_le]
    norm_num at *
    constructor <;> linarith [e3.1, e3.2, p1'.1, p1'.2]
  have w1' := abs_le.mp w1
  have x0 : 0 ≤ s' + w := by
    norm_num at *
    linarith [e1.1, w1'.1, p1'.1, e3.1, mul_nonneg t0 hB0]
  have e4 := abs_le.mp (rd_err (x := s' + w))
  rw [abs_of_nonneg x0] at e4
  generalize binary64.rd (s' + w) = v at *
  have v1 : |v - (s' + w)| ≤ 14 / 10 ^ 10 * ε := by
    rw [abs_le]
    norm_num at *
    constructor <;> linarith [e4.1, e4.2, w1'.1, w1'.2, p1'.1, p1'.2, e1.1, e1.2]
  have v1' := abs_le.mp v1
  have s1 : |s' - 1 / 10 ^ 8| ≤ 1 / 10 ^ 10 * ε := by
    rw [abs_le]
    norm_num at *
    constructor <;> linarith [e1.1, e1.2]
  have s1' := abs_le.mp s1
  have hcmp : ∀ {x y : ℤ}, x ≤ y → (x : ℚ) * ε ≤ y * ε := fun h =>
    mul_le_mul_of_nonneg_right (by exact_mod_cast h) hε0.le
  have e5 : (2 : ℚ) ^ s * ε = 1 := by rw [hε]; field_simp
  rcases lt_or_gt_of_ne (no_tie D Q s) with h | h
  · have := hcmp (show 10 ^ 8 * D + 1 ≤ 2 ^ s + 10 ^ 3 * Q from h)
    push_cast at this
    have h' : 10 ^ 8 * d + ε ≤ 1 + 10 ^ 3 * q := by rw [hdD, hqQ]; linarith
    constructor <;> intro _ <;> norm_num at * <;> linarith [v1'.1, w1'.1, p1'.1, s1'.1]
  · have := hcmp (show 2 ^ s + 10 ^ 3 * Q + 1 ≤ 10 ^ 8 * D from h)
    push_cast at this
    have h' : 1 + 10 ^ 3 * q + ε ≤ 10 ^ 8 * d := by rw [hdD, hqQ]; linarith
    constructor <;> intro _ <;> norm_num at * <;> linarith [v1'.1, v1'.2, w1'.2, p1'.2, s1'.2]

theorem cmp_grid {a b : ℚ} (ha : Grid s A a) (hb : Grid s A b) (hA : A * 2 ^ s ≤ 2 ^ 40) (hs : s ≤ 32) (op : Op) :
    cmpTol binary64 a op b = pyCmp a op b := by
  have h : close binary64 a b = closeTo a b := by
    unfold close closeTo
    split
    · exact closeToZero_grid ha.1 hs
    · exact npClose_grid ha hb hA hs
  cases op <;> simp [cmpTol, pyCmp, h]

end Floating
end Pytimize
