/-
Lemmas about `steepest_descent`.
-/
import Mathlib.Algebra.Order.Archimedean.Basic
import Mathlib.Tactic.Linarith
import Mathlib.Tactic.Positivity
import Mathlib.Tactic.Ring
import Verif.Unconstrained.Model

namespace Pytimize
namespace Unconstrained

variable {K : Type} [Field K] [LinearOrder K] {n : ℕ}

/-- One step along the negative of the callback's vector with length factor `a`. -/
def stepFrom (df : Vec K n → Vec K n) (x : Vec K n) (a : K) : Vec K n := fun i => x i - a * df x i

/-- A sequence of steps, each satisfying the sufficient-decrease condition with a length factor from
`alpha, alpha * p, alpha * p ^ 2, ...`. -/
inductive Steps (f : Vec K n → K) (df : Vec K n → Vec K n) (P : Params K) : Vec K n → Vec K n → ℕ → Prop
  | refl (x : Vec K n) : Steps f df P x x 0
  | step {x z : Vec K n} {j m : ℕ}
      (hdec : f (stepFrom df x (P.alpha * P.p ^ m)) ≤ f x - P.c * (P.alpha * P.p ^ m) * ∑ i, df x i ^ 2)
      (h : Steps f df P (stepFrom df x (P.alpha * P.p ^ m)) z j) : Steps f df P x z (j + 1)

theorem step_eq (df : Vec K n → Vec K n) (x : Vec K n) (a : K) : x + a • -df x = stepFrom df x a := by
  funext i
  simp [stepFrom, sub_eq_add_neg]

theorem dot_neg (g : Vec K n) : dot g (-g) = -∑ i, g i ^ 2 := by
  unfold dot
  rw [← Finset.sum_neg_distrib]
  refine Finset.sum_congr rfl fun i _ => ?_
  simp only [Pi.neg_apply]
  ring

theorem dot_self (g : Vec K n) : dot g g = ∑ i, g i ^ 2 := by
  unfold dot
  exact Finset.sum_congr rfl fun i _ => by ring

theorem backtrack_some {f : Vec K n → K} {P : Params K} {x d g : Vec K n} {fuel : ℕ} {a b : K}
    (h : backtrack f P x d g fuel a = some b) :
    (∃ m, b = a * P.p ^ m ∧ ∀ i < m, f (x + (a * P.p ^ i) • d) > f x + P.c * (a * P.p ^ i) * dot g d) ∧
    ¬ f (x + b • d) > f x + P.c * b * dot g d := by
  induction fuel generalizing a with
  | zero => cases h
  | succ fuel ih =>
    simp only [backtrack] at h
    split at h
    · rename_i h0
      obtain ⟨⟨m, h1, h2⟩, h3⟩ := ih h
      refine ⟨⟨m + 1, by rw [h1, pow_succ']; ring, ?_⟩, h3⟩
      intro i hi
      cases i with
      | zero => simpa using h0
      | succ i =>
        have := h2 i (by omega)
        rwa [show a * P.p * P.p ^ i = a * P.p ^ (i + 1) by rw [pow_succ']; ring] at this
    · rename_i h0
      cases h
      exact ⟨⟨0, by simp, fun i hi => by omega⟩, h0⟩

/-- More rounds do not change the answer. -/
theorem backtrack_mono {f : Vec K n → K} {P : Params K} {x d g : Vec K n} {fuel fuel' : ℕ} {a b : K}
    (h : backtrack f P x d g fuel a = some b) (hf : fuel ≤ fuel') : backtrack f P x d g fuel' a = some b := by
  induction fuel generalizing a fuel' with
  | zero => cases h
  | succ fuel ih =>
    obtain ⟨m, rfl⟩ : ∃ m, fuel' = m + 1 := ⟨fuel' - 1, by omega⟩
    simp only [backtrack] at h ⊢
    split at h
    · rename_i h0
      rw [if_pos h0]
      exact ih h (by omega)
    · rename_i h0
      rw [if_neg h0]
      exact h

/-- The loop ends as soon as one of the factors is accepted. -/
theorem backtrack_ends {f : Vec K n → K} {P : Params K} {x d g : Vec K n} {a : K} (m : ℕ)
    (h : ¬ f (x + (a * P.p ^ m) • d) > f x + P.c * (a * P.p ^ m) * dot g d) {fuel : ℕ} (hf : m < fuel) :
    ∃ b, backtrack f P x d g fuel a = some b := by
  induction m generalizing a fuel with
  | zero =>
    cases fuel with
    | zero => omega
    | succ fuel =>
      simp only [pow_zero, mul_one] at h
      exact ⟨a, by rw [backtrack, if_neg h]⟩
  | succ m ih =>
    cases fuel with
    | zero => omega
    | succ fuel =>
      simp only [backtrack]
      split
      · refine ih ?_ (by omega)
        rwa [show a * P.p * P.p ^ m = a * P.p ^ (m + 1) by rw [pow_succ']; ring]
      · exact ⟨a, rfl⟩

theorem descend_spec {f : Vec K n → K} {df : Vec K n → Vec K n} {P : Params K} {fuel k : ℕ} {x y : Vec K n} {j : ℕ}
    (h : descend f df P fuel k x = some (y, j)) :
    Steps f df P x y j ∧ j ≤ k ∧ (j < k → normLe (df y) P.tolerance) := by
  induction k generalizing x j with
  | zero =>
    cases h
    exact ⟨.refl _, le_rfl, fun h => by omega⟩
  | succ k ih =>
    simp only [descend] at h
    generalize hb : backtrack f P x (-df x) (df x) fuel P.alpha = r at h
    cases r with
    | none => cases h
    | some a =>
      obtain ⟨⟨m, rfl, -⟩, hle⟩ := backtrack_some hb
      rw [not_lt, dot_neg] at hle
      simp only [step_eq] at h hle
      have hdec : f (stepFrom df x (P.alpha * P.p ^ m)) ≤
          f x - P.c * (P.alpha * P.p ^ m) * ∑ i, df x i ^ 2 := by
        rw [mul_neg, ← sub_eq_add_neg] at hle
        exact hle
      by_cases hn : normLe (df (stepFrom df x (P.alpha * P.p ^ m))) P.tolerance
      · rw [if_pos hn] at h
        cases h
        exact ⟨.step hdec (.refl _), by omega, fun _ => hn⟩
      · rw [if_neg hn] at h
        generalize hr : descend f df P fuel k (stepFrom df x (P.alpha * P.p ^ m)) = r at h
        rcases r with _ | ⟨y', j'⟩
        · cases h
        · cases h
          obtain ⟨h1, h2, h3⟩ := ih hr
          exact ⟨.step hdec h1, by omega, fun h => h3 (by omega)⟩

variable [IsStrictOrderedRing K]

theorem Steps.le {f : Vec K n → K} {df : Vec K n → Vec K n} {P : Params K} (ha : 0 ≤ P.alpha) (hc : 0 ≤ P.c)
    (hp : 0 ≤ P.p) {x y : Vec K n} {j : ℕ} (h : Steps f df P x y j) : f y ≤ f x := by
  induction h with
  | refl x => exact le_rfl
  | @step x z j m hdec h ih =>
    have h1 : 0 ≤ P.c * (P.alpha * P.p ^ m) * ∑ i, df x i ^ 2 :=
      mul_nonneg (mul_nonneg hc (mul_nonneg ha (pow_nonneg hp m))) (Finset.sum_nonneg fun i _ => sq_nonneg _)
    linarith

/-! ### Smooth functions -/

/-- The function lies below the quadratic with curvature `L` that touches it at each point. Functions whose gradient
is Lipschitz with constant `L`, and quadratics, satisfy this. -/
def Smooth (f : Vec K n → K) (df : Vec K n → Vec K n) (L : K) : Prop :=
  ∀ x y : Vec K n, f y ≤ f x + ∑ i, df x i * (y i - x i) + L / 2 * ∑ i, (y i - x i) ^ 2

theorem smooth_accepts {f : Vec K n → K} {df : Vec K n → Vec K n} {L : K} (hs : Smooth f df L) {P : Params K}
    (x : Vec K n) {a : K} (ha : 0 ≤ a) (hL : a * L ≤ 2 * (1 - P.c)) :
    ¬ f (x + a • -df x) > f x + P.c * a * dot (df x) (-df x) := by
  rw [not_lt, dot_neg, step_eq]
  have h := hs x (stepFrom df x a)
  have e1 : ∑ i, df x i * (stepFrom df x a i - x i) = -(a * ∑ i, df x i ^ 2) := by
    rw [Finset.mul_sum, ← Finset.sum_neg_distrib]
    refine Finset.sum_congr rfl fun i _ => ?_
    unfold stepFrom
    ring
  have e2 : ∑ i, (stepFrom df x a i - x i) ^ 2 = a ^ 2 * ∑ i, df x i ^ 2 := by
    rw [Finset.mul_sum]
    refine Finset.sum_congr rfl fun i _ => ?_
    unfold stepFrom
    ring
  rw [e1, e2] at h
  have h0 : 0 ≤ ∑ i, df x i ^ 2 := Finset.sum_nonneg fun i _ => sq_nonneg _
  nlinarith [mul_nonneg (mul_nonneg ha h0) (sub_nonneg.mpr hL)]

/-- The length factor found is not too small. -/
theorem smooth_factor {f : Vec K n → K} {df : Vec K n → Vec K n} {L : K} (hL : 0 < L) (hs : Smooth f df L)
    {P : Params K} (ha : 0 < P.alpha) (hp : 0 < P.p) (x : Vec K n) {fuel : ℕ} {b : K}
    (h : backtrack f P x (-df x) (df x) fuel P.alpha = some b) :
    min P.alpha (P.p * (2 * (1 - P.c) / L)) ≤ b := by
  obtain ⟨⟨m, rfl, hm⟩, -⟩ := backtrack_some h
  cases m with
  | zero => rw [pow_zero, mul_one]; exact min_le_left _ _
  | succ m =>
    refine le_trans (min_le_right _ _) ?_
    have h1 := hm m (by omega)
    have hpos : 0 < P.alpha * P.p ^ m := mul_pos ha (pow_pos hp m)
    have h2 : 2 * (1 - P.c) / L < P.alpha * P.p ^ m := by
      by_contra h0
      rw [not_lt, le_div_iff₀ hL] at h0
      exact smooth_accepts hs x hpos.le h0 h1
    calc P.p * (2 * (1 - P.c) / L) ≤ P.p * (P.alpha * P.p ^ m) := mul_le_mul_of_nonneg_left h2.le hp.le
      _ = P.alpha * P.p ^ (m + 1) := by rw [pow_succ]; ring

theorem smooth_fuel [Archimedean K] {L : K} (hL : 0 < L) {P : Params K} (ha : 0 < P.alpha) (hp : 0 < P.p)
    (hp1 : P.p < 1) (hc1 : P.c < 1) : ∃ F : ℕ, ∀ (f : Vec K n → K) (df : Vec K n → Vec K n), Smooth f df L →
      ∀ x, ∀ fuel ≥ F, ∃ b, backtrack f P x (-df x) (df x) fuel P.alpha = some b := by
  have hpos : 0 < 2 * (1 - P.c) / L / P.alpha := by
    have : 0 < 1 - P.c := by linarith
    positivity
  obtain ⟨m, hm⟩ := exists_pow_lt_of_lt_one hpos hp1
  refine ⟨m + 1, fun f df hs x fuel hf => backtrack_ends m ?_ (by omega)⟩
  refine smooth_accepts hs x (mul_pos ha (pow_pos hp m)).le ?_
  rw [lt_div_iff₀ ha, lt_div_iff₀ hL] at hm
  linarith

theorem factor_pos {L : K} (hL : 0 < L) {P : Params K} (ha : 0 < P.alpha) (hp : 0 < P.p) (hc1 : P.c < 1) :
    0 < min P.alpha (P.p * (2 * (1 - P.c) / L)) := by
  have : 0 < 1 - P.c := by linarith
  exact lt_min ha (by positivity)

/-- While the callback's vector is long, the function decreases by a fixed amount. -/
theorem descend_long {f : Vec K n → K} {df : Vec K n → Vec K n} {L low : K} (hL : 0 < L)
    (hs : Smooth f df L) (hlow : ∀ x, low ≤ f x) {P : Params K} (ha : 0 < P.alpha) (hp : 0 < P.p)
    (hc : 0 < P.c) (hc1 : P.c < 1) (ht : 0 < P.tolerance) {fuel : ℕ}
    (hf : ∀ x, ∃ b, backtrack f P x (-df x) (df x) fuel P.alpha = some b) (k : ℕ) (x : Vec K n)
    (hx : ¬ normLe (df x) P.tolerance)
    (hk : f x - low < (k : K) * (P.c * min P.alpha (P.p * (2 * (1 - P.c) / L)) * P.tolerance ^ 2)) :
    ∃ y j, descend f df P fuel k x = some (y, j) ∧ normLe (df y) P.tolerance := by
  have hmin := factor_pos hL ha hp hc1 (P := P)
  induction k generalizing x with
  | zero =>
    have := hlow x
    simp only [Nat.cast_zero, zero_mul] at hk
    linarith
  | succ k ih =>
    obtain ⟨b, hb⟩ := hf x
    have hfac := smooth_factor hL hs ha hp x hb
    have hdec := (backtrack_some hb).2
    rw [not_lt, dot_neg, step_eq] at hdec
    rw [descend]
    simp only [hb, step_eq]
    by_cases hn : normLe (df (stepFrom df x b)) P.tolerance
    · rw [if_pos hn]; exact ⟨_, _, rfl, hn⟩
    · rw [if_neg hn]
      have hg : P.tolerance ^ 2 < ∑ i, df x i ^ 2 := by
        rw [← dot_self]
        by_contra h0
        exact hx ⟨ht.le, not_lt.mp h0⟩
      have h1 : P.c * min P.alpha (P.p * (2 * (1 - P.c) / L)) * P.tolerance ^ 2 ≤ P.c * b * ∑ i, df x i ^ 2 :=
        mul_le_mul (mul_le_mul_of_nonneg_left hfac hc.le) hg.le (by positivity)
          (mul_nonneg hc.le (hmin.le.trans hfac))
      push_cast at hk
      obtain ⟨y, j, h2, h3⟩ := ih _ hn (by linarith)
      exact ⟨y, j + 1, by rw [h2], h3⟩

theorem descend_converges {f : Vec K n → K} {df : Vec K n → Vec K n} {L low : K} (hL : 0 < L)
    (hs : Smooth f df L) (hlow : ∀ x, low ≤ f x) {P : Params K} (ha : 0 < P.alpha) (hp : 0 < P.p)
    (hc : 0 < P.c) (hc1 : P.c < 1) (ht : 0 < P.tolerance) {fuel : ℕ}
    (hf : ∀ x, ∃ b, backtrack f P x (-df x) (df x) fuel P.alpha = some b) (k : ℕ) (x : Vec K n)
    (hk : f x - low < (k : K) * (P.c * min P.alpha (P.p * (2 * (1 - P.c) / L)) * P.tolerance ^ 2)) :
    ∃ y j, descend f df P fuel (k + 1) x = some (y, j) ∧ normLe (df y) P.tolerance := by
  obtain ⟨b, hb⟩ := hf x
  have hfac := smooth_factor hL hs ha hp x hb
  have hmin := factor_pos hL ha hp hc1 (P := P)
  have hdec := (backtrack_some hb).2
  rw [not_lt, dot_neg, step_eq] at hdec
  rw [descend]
  simp only [hb, step_eq]
  by_cases hn : normLe (df (stepFrom df x b)) P.tolerance
  · rw [if_pos hn]; exact ⟨_, _, rfl, hn⟩
  · rw [if_neg hn]
    have h1 : 0 ≤ P.c * b * ∑ i, df x i ^ 2 :=
      mul_nonneg (mul_nonneg hc.le (hmin.le.trans hfac)) (Finset.sum_nonneg fun i _ => sq_nonneg _)
    obtain ⟨y, j, h2, h3⟩ := descend_long hL hs hlow ha hp hc hc1 ht hf k _ hn (by linarith)
    exact ⟨y, j + 1, by rw [h2], h3⟩

end Unconstrained
end Pytimize
