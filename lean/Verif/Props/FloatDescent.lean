/-
Properties C100, C101: `steepest_descent` in floating point.
-/
import Verif.Float.Descent

namespace Pytimize
namespace Props
open Unconstrained Floating

variable {n : ℕ}

/-! ### C100 -/

/-- C100: in floating-point arithmetic, with any rounding and any order of summation, the objective at the returned point
is at most that at the start, if it returns floats and the parameters are not negative. If fewer than `max_iteration`
iterations were made, the computed norm of the callback's vector at the returned point is at most the tolerance. -/
theorem C100_decrease (R : Rounding) (norm : Vec ℚ n → ℚ) {f : Vec ℚ n → ℚ} (hf : ∀ x, R.rd (f x) = f x)
    {df : Vec ℚ n → Vec ℚ n} {P : Params ℚ} (ha : 0 ≤ P.alpha) (hc : 0 ≤ P.c) (hp : 0 ≤ P.p) {x : Vec ℚ n}
    {maxIter fuel : ℕ} {o : Outcome ℚ n}
    (h : DescentResult R norm (construct f "min") x df P maxIter fuel (some o)) :
    f o.result ≤ f x ∧ o.iterations ≤ maxIter ∧ (o.iterations < maxIter → norm (df o.result) ≤ P.tolerance) := by
  obtain ⟨s, hs, ho⟩ := h
  rcases s with _ | ⟨z, j⟩
  · cases ho
  · cases ho
    exact hs.spec hf ha hc hp z j rfl

/-- C100: the exact norm of the vector where the method stops early, in terms of the rounding errors. -/
theorem C100_stationary (R : Rounding) {norm : Vec ℚ n → ℚ} (hn : NormNear R norm) {f : Vec ℚ n → ℚ}
    (hf : ∀ x, R.rd (f x) = f x) {df : Vec ℚ n → Vec ℚ n} {P : Params ℚ} (ha : 0 ≤ P.alpha) (hc : 0 ≤ P.c)
    (hp : 0 ≤ P.p) {x : Vec ℚ n} {maxIter fuel : ℕ} {o : Outcome ℚ n}
    (h : DescentResult R norm (construct f "min") x df P maxIter fuel (some o)) (hlt : o.iterations < maxIter) :
    (1 - R.u) ^ 2 * (∑ i, df o.result i ^ 2 - ((1 + R.u) ^ n - 1) * ∑ i, df o.result i ^ 2
      - 2 * n * (1 + R.u) ^ n * R.tiny) ≤ (P.tolerance + R.tiny) ^ 2 := by
  have h1 := (C100_decrease R norm hf ha hc hp h).2.2 hlt
  obtain ⟨h0, s, hs, hle⟩ := hn (df o.result)
  have he := (abs_le.mp hs.error).1
  have e1 : ∑ i, df o.result i * df o.result i = ∑ i, df o.result i ^ 2 :=
    Finset.sum_congr rfl fun i _ => by ring
  have e2 : ∑ i, |df o.result i * df o.result i| = ∑ i, df o.result i ^ 2 :=
    Finset.sum_congr rfl fun i _ => by rw [abs_of_nonneg (mul_self_nonneg _)]; ring
  rw [e1, e2] at he
  unfold Rounding.slack at he
  have ht := R.tiny_nonneg
  have h2 : (norm (df o.result) + R.tiny) ^ 2 ≤ (P.tolerance + R.tiny) ^ 2 :=
    pow_le_pow_left₀ (by linarith) (by linarith) 2
  refine le_trans ?_ (hle.trans h2)
  exact mul_le_mul_of_nonneg_left (by linarith) (sq_nonneg _)

/-- A bound for the rounding errors in `f(x) + c * a * g @ d` with `d = -g`. -/
def targetSlack (R : Rounding) (c a fx : ℚ) (g : Vec ℚ n) : ℚ :=
  let s := c * a * ∑ i, g i ^ 2
  let e := ((1 + R.u) ^ 2 - 1) * s + (1 + R.u) * R.tiny * ∑ i, g i ^ 2 + R.tiny * ∑ i, |g i|
  (1 + R.u) * (R.slack n (s + e) + e) + R.u * (|fx| + s) + R.tiny

/-- One iteration from `x` to `y`: the step length is the first of `alpha`, `alpha * p`, `alpha * p * p`, ... (rounded)
with sufficient decrease, up to rounding. -/
def FloatStep (R : Rounding) (f : Vec ℚ n → ℚ) (df : Vec ℚ n → Vec ℚ n) (P : Params ℚ) (x y : Vec ℚ n) : Prop :=
  let len := fun k : ℕ => (fun a => R.rd (a * P.p))^[k] P.alpha
  let point := fun k i => R.rd (x i - R.rd (len k * df x i))
  ∃ k, y = point k ∧ f y ≤ f x - P.c * len k * ∑ i, df x i ^ 2 + targetSlack R P.c (len k) (f x) (df x) ∧
    ∀ j < k, f x - P.c * len j * ∑ i, df x i ^ 2 - targetSlack R P.c (len j) (f x) (df x) < f (point j)

theorem target_near {R : Rounding} {c a fx t : ℚ} {g : Vec ℚ n} (hc : 0 ≤ c) (ha : 0 ≤ a)
    (h : Target R c fx a g (-g) t) : |t - (fx - c * a * ∑ i, g i ^ 2)| ≤ targetSlack R c a fx g := by
  obtain ⟨s, hs, rfl⟩ := h
  have hu := R.u_nonneg
  have ht := R.tiny_nonneg
  have hca : 0 ≤ c * a := mul_nonneg hc ha
  have hw : ∀ i, |R.rd (R.rd (c * a) * g i) * (-g) i - -(c * a * g i ^ 2)| ≤
      ((1 + R.u) ^ 2 - 1) * (c * a * g i ^ 2) + (1 + R.u) * R.tiny * g i ^ 2 + R.tiny * |g i| := by
    intro i
    have h1 := R.err (c * a)
    rw [abs_of_nonneg hca] at h1
    have h2 := R.err (R.rd (c * a) * g i)
    have hg := abs_nonneg (g i)
    have h3 : |R.rd (c * a)| ≤ (1 + R.u) * (c * a) + R.tiny := by
      have := abs_add_le (R.rd (c * a) - c * a) (c * a)
      rw [sub_add_cancel, abs_of_nonneg hca] at this
      linarith
    have h4 : |R.rd (R.rd (c * a) * g i) - c * a * g i| ≤
        (((1 + R.u) ^ 2 - 1) * (c * a) + (1 + R.u) * R.tiny) * |g i| + R.tiny := by
      have e1 := abs_add_le (R.rd (R.rd (c * a) * g i) - R.rd (c * a) * g i) ((R.rd (c * a) - c * a) * g i)
      rw [show R.rd (R.rd (c * a) * g i) - R.rd (c * a) * g i + (R.rd (c * a) - c * a) * g i =
        R.rd (R.rd (c * a) * g i) - c * a * g i by ring, abs_mul] at e1
      rw [abs_mul] at h2
      have e2 := mul_le_mul_of_nonneg_right h1 hg
      have e3 := mul_le_mul_of_nonneg_left (mul_le_mul_of_nonneg_right h3 hg) hu
      nlinarith
    have e : R.rd (R.rd (c * a) * g i) * (-g) i - -(c * a * g i ^ 2) =
        -((R.rd (R.rd (c * a) * g i) - c * a * g i) * g i) := by simp only [Pi.neg_apply]; ring
    rw [e, abs_neg, abs_mul]
    have e5 := mul_le_mul_of_nonneg_right h4 hg
    have e6 : |g i| * |g i| = g i ^ 2 := by rw [← sq, sq_abs]
    refine e5.trans (le_of_eq ?_)
    rw [add_mul, mul_assoc, e6]
    ring
  set G := ∑ i, g i ^ 2 with hG
  have hG0 : 0 ≤ G := Finset.sum_nonneg fun i _ => sq_nonneg _
  have hs0 : 0 ≤ c * a * G := mul_nonneg hca hG0
  have hdist : ∑ i, (((1 + R.u) ^ 2 - 1) * (c * a * g i ^ 2) + (1 + R.u) * R.tiny * g i ^ 2 + R.tiny * |g i|) =
      ((1 + R.u) ^ 2 - 1) * (c * a * G) + (1 + R.u) * R.tiny * G + R.tiny * ∑ i, |g i| := by
    rw [Finset.sum_add_distrib, Finset.sum_add_distrib, ← Finset.mul_sum, ← Finset.mul_sum, ← Finset.mul_sum,
      ← Finset.mul_sum]
  set e := ((1 + R.u) ^ 2 - 1) * (c * a * G) + (1 + R.u) * R.tiny * G + R.tiny * ∑ i, |g i| with he
  have hneg : ∑ i, -(c * a * g i ^ 2) = -(c * a * G) := by rw [Finset.sum_neg_distrib, ← Finset.mul_sum]
  have h1 : |∑ i, R.rd (R.rd (c * a) * g i) * (-g) i - -(c * a * G)| ≤ e := by
    rw [← hneg, ← Finset.sum_sub_distrib]
    exact (Finset.abs_sum_le_sum_abs _ _).trans ((Finset.sum_le_sum fun i _ => hw i).trans hdist.le)
  have h2 : ∑ i, |R.rd (R.rd (c * a) * g i) * (-g) i| ≤ c * a * G + e := by
    have : ∀ i, |R.rd (R.rd (c * a) * g i) * (-g) i| ≤ c * a * g i ^ 2 +
        (((1 + R.u) ^ 2 - 1) * (c * a * g i ^ 2) + (1 + R.u) * R.tiny * g i ^ 2 + R.tiny * |g i|) := by
      intro i
      have h3 := abs_add_le (R.rd (R.rd (c * a) * g i) * (-g) i - -(c * a * g i ^ 2)) (-(c * a * g i ^ 2))
      rw [sub_add_cancel, abs_neg, abs_of_nonneg (mul_nonneg hca (sq_nonneg (g i)))] at h3
      linarith [hw i]
    refine (Finset.sum_le_sum fun i _ => this i).trans ?_
    rw [Finset.sum_add_distrib, hdist, ← Finset.mul_sum]
  have h3 := hs.error
  have h4 : R.slack n (∑ i, |R.rd (R.rd (c * a) * g i) * (-g) i|) ≤ R.slack n (c * a * G + e) := by
    unfold Rounding.slack
    have := mul_le_mul_of_nonneg_left h2 (sub_nonneg.mpr (one_le_pow_u (R := R) n))
    linarith
  have h5 : |(fx + s) - (fx - c * a * G)| ≤ R.slack n (c * a * G + e) + e := by
    have h6 := abs_add_le (s - ∑ i, R.rd (R.rd (c * a) * g i) * (-g) i)
      (∑ i, R.rd (R.rd (c * a) * g i) * (-g) i - -(c * a * G))
    rw [sub_add_sub_cancel] at h6
    rw [show (fx + s) - (fx - c * a * G) = s - -(c * a * G) by ring]
    linarith
  have h6 : |fx - c * a * G| ≤ |fx| + c * a * G := by
    have := abs_sub fx (c * a * G)
    rwa [abs_of_nonneg hs0] at this
  have h7 := round_step (R := R) h5 h6
  refine h7.trans (le_of_eq ?_)
  simp only [targetSlack, ← hG, ← he]
  ring

theorem back_step {R : Rounding} {f : Vec ℚ n → ℚ} {P : Params ℚ} {x g : Vec ℚ n} (hc : 0 ≤ P.c) (hp : 0 ≤ P.p) {m : ℕ}
    {a : ℚ} (ha : 0 ≤ a) {r : Option ℚ} (h : Back R f P x (-g) g m a r) : ∀ b, r = some b →
    ∃ k, b = (fun a => R.rd (a * P.p))^[k] a ∧
      f (stepTo R x b (-g)) ≤ f x - P.c * b * ∑ i, g i ^ 2 + targetSlack R P.c b (f x) g ∧
      ∀ j < k, f x - P.c * (fun a => R.rd (a * P.p))^[j] a * ∑ i, g i ^ 2 -
        targetSlack R P.c ((fun a => R.rd (a * P.p))^[j] a) (f x) g <
          f (stepTo R x ((fun a => R.rd (a * P.p))^[j] a) (-g)) := by
  induction h with
  | out => intro b hb; cases hb
  | stop ht hf =>
    intro b hb
    obtain rfl := Option.some.inj hb
    have := abs_le.mp (target_near hc ha ht)
    exact ⟨0, rfl, by push Not at hf; linarith [this.2], by simp⟩
  | shrink ht hf _ ih =>
    intro b hb
    obtain ⟨k, h1, h2, h3⟩ := ih (Rounding.rd_nonneg (mul_nonneg ha hp)) b hb
    refine ⟨k + 1, h1, h2, fun j hj => ?_⟩
    cases j with
    | zero =>
      have := abs_le.mp (target_near hc ha ht)
      simp only [Function.iterate_zero, id_eq]
      linarith [this.1]
    | succ j => exact h3 j (by omega)

theorem stepTo_neg (R : Rounding) (x g : Vec ℚ n) (a : ℚ) :
    stepTo R x a (-g) = fun i => R.rd (x i - R.rd (a * g i)) := by
  funext i
  simp only [stepTo, Pi.neg_apply, mul_neg, R.odd, sub_eq_add_neg]

/-- C100: the run is a chain of steps, each with sufficient decrease up to rounding, none of them after a point where the
computed norm was small. -/
theorem C100_steps (R : Rounding) (norm : Vec ℚ n → ℚ) {f : Vec ℚ n → ℚ} {df : Vec ℚ n → Vec ℚ n} {P : Params ℚ}
    (ha : 0 ≤ P.alpha) (hc : 0 ≤ P.c) (hp : 0 ≤ P.p) {x : Vec ℚ n} {maxIter fuel : ℕ} {o : Outcome ℚ n}
    (h : DescentResult R norm (construct f "min") x df P maxIter fuel (some o)) :
    ∃ y : ℕ → Vec ℚ n, y 0 = x ∧ y o.iterations = o.result ∧
      (∀ k < o.iterations, FloatStep R f df P (y k) (y (k + 1))) ∧
      ∀ k, 0 < k → k < o.iterations → P.tolerance < norm (df (y k)) := by
  have key : ∀ {x : Vec ℚ n} {a : ℚ}, Back R f P x (-df x) (df x) fuel P.alpha (some a) →
      FloatStep R f df P x (stepTo R x a (-df x)) := by
    intro x a hb
    obtain ⟨k, h1, h2, h3⟩ := back_step hc hp ha hb a rfl
    refine ⟨k, by rw [stepTo_neg, h1], ?_, fun j hj => ?_⟩
    · show f _ ≤ f x - P.c * (fun a => R.rd (a * P.p))^[k] P.alpha * _ +
        targetSlack R P.c ((fun a => R.rd (a * P.p))^[k] P.alpha) _ _
      rw [← h1]
      exact h2
    have := h3 j hj
    rwa [stepTo_neg] at this
  obtain ⟨s, hs, ho⟩ := h
  rcases s with _ | ⟨z, i⟩
  · cases ho
  · cases ho
    show ∃ y : ℕ → Vec ℚ n, y 0 = x ∧ y i = z ∧ (∀ k < i, FloatStep R f df P (y k) (y (k + 1))) ∧
      ∀ k, 0 < k → k < i → P.tolerance < norm (df (y k))
    have hs' : Descent R norm f df P fuel maxIter x (some (z, i)) := hs
    clear hs
    generalize hr : some (z, i) = r at hs'
    induction hs' generalizing z i with
    | done x => cases hr; exact ⟨fun _ => x, rfl, rfl, by simp, by omega⟩
    | stuck => cases hr
    | @last k x a hb hn =>
      cases hr
      refine ⟨fun k => if k = 0 then x else stepTo R x a (-df x), rfl, rfl, fun k hk => ?_, by omega⟩
      obtain rfl : k = 0 := by omega
      exact key hb
    | more => cases hr
    | @next k x z' a j hb hn _ ih =>
      cases hr
      obtain ⟨y, h0, h1, h2, h3⟩ := ih _ _ rfl
      refine ⟨fun k => if k = 0 then x else y (k - 1), rfl, h1, fun k hk => ?_, fun k hk0 hk => ?_⟩
      · rcases Nat.eq_zero_or_pos k with rfl | hpos
        · have := key hb
          rw [← h0] at this
          exact this
        · have := h2 (k - 1) (by omega)
          rw [show k - 1 + 1 = k by omega] at this
          simp only [show k ≠ 0 by omega, if_false, show k + 1 ≠ 0 by omega, Nat.add_sub_cancel]
          exact this
      · simp only [show k ≠ 0 by omega, if_false]
        rcases Nat.lt_or_ge 1 k with h | h
        · exact h3 (k - 1) (by omega) (by omega)
        · obtain rfl : k = 1 := by omega
          simp only [Nat.sub_self, h0]
          exact not_le.mp hn

/-- Without rounding there is no slack. -/
example (c a fx : ℚ) (g : Vec ℚ n) : targetSlack exact c a fx g = 0 := by
  simp [targetSlack, exact, Rounding.slack]

/-- A run meeting the hypotheses, in double arithmetic: one step on `f x = x` from 1 with `alpha = 1`, `c = 1/2`. -/
example : ∃ (o : Outcome ℚ 1), DescentResult binary64 (fun g => |g 0|) (construct (fun x => toDouble (x 0)) "min")
      (fun _ => 1) (fun _ _ => 1) ⟨1, 1 / 2, 1 / 2, 1 / 10⟩ 1 1 (some o) ∧ o.result = fun _ => 0 := by
  have d0 : toDouble 0 = 0 := toDouble_zero
  have dint : ∀ k : ℤ, |k| ≤ 2 ^ 53 → toDouble k = k := fun k hk => toDouble_of_isDouble (isDouble_int hk)
  have d1 : toDouble 1 = 1 := by have := dint 1 (by norm_num); push_cast at this; exact this
  have dn1 : toDouble (-1) = -1 := by rw [toDouble_neg, d1]
  have dh : toDouble (1 / 2) = 1 / 2 := toDouble_of_isDouble ⟨1, -1, by norm_num, by norm_num, by norm_num⟩
  have dnh : toDouble (-(1 / 2)) = -(1 / 2) := by rw [toDouble_neg, dh]
  have rd : ∀ q, binary64.rd q = toDouble q := fun _ => rfl
  have hst : stepTo binary64 (fun _ : Fin 1 => 1) 1 (-fun _ => 1) = fun _ => 0 := by
    funext i
    simp only [stepTo, rd, Pi.neg_apply, one_mul, dn1]
    rw [show (1 : ℚ) + -1 = 0 by norm_num, d0]
  have hb : Back binary64 (fun x : Vec ℚ 1 => toDouble (x 0)) ⟨1, 1 / 2, 1 / 2, 1 / 10⟩ (fun _ => 1) (-fun _ => 1)
      (fun _ => 1) 1 1 (some 1) := by
    refine .stop (t := 1 / 2) ⟨-(1 / 2), .inr ?_, ?_⟩ ?_
    · have := Dots.prod (R := binary64) (binary64.rd (binary64.rd (1 / 2 * 1) * 1)) (-1)
      simp only [rd, mul_one, dh, mul_neg, dnh] at this
      simp only [pairs, rd, mul_one, dh]
      exact this
    · simp only [rd, d1]
      rw [show (1 : ℚ) + -(1 / 2) = 1 / 2 by norm_num, dh]
    · rw [hst]
      simp only [d0]
      norm_num
  refine ⟨⟨fun _ => 0, fun _ => 0, 1⟩, ⟨some (fun _ => 0, 1), ?_, rfl⟩, rfl⟩
  have := Descent.next (norm := fun g => |g 0|) (df := fun _ _ => 1) (k := 0) (j := 0) hb
    (by simp only [abs_one]; norm_num) (z := fun _ => 0) (by rw [hst]; exact .done _)
  exact this

/-! ### C101 -/

/-- C101: in double arithmetic with a factor `p` of at most one half (the default), `steepest_descent` returns, whatever
the callbacks: the step length becomes zero at the latest when it underflows, and a step of length zero is accepted. -/
theorem C101_terminates (norm : Vec ℚ n → ℚ) {f : Vec ℚ n → ℚ} (hf : ∀ x, IsDouble (f x)) (df : Vec ℚ n → Vec ℚ n)
    {P : Params ℚ} (hd : IsDouble P.alpha) (ha : 0 ≤ P.alpha) (hp : 0 ≤ P.p) (hp2 : P.p ≤ 1 / 2) (objective : String) :
    ∃ F, ∀ fuel ≥ F, ∀ (x : Vec ℚ n), (∀ i, IsDouble (x i)) → ∀ maxIter,
      (∃ r, DescentResult binary64 norm (construct f objective) x df P maxIter fuel r) ∧
      ∀ r, DescentResult binary64 norm (construct f objective) x df P maxIter fuel r → ∃ o, r = some o := by
  obtain ⟨N, hN⟩ := exists_bound hd
  refine ⟨N + 1, fun fuel hfu x hx maxIter => ⟨?_, ?_⟩⟩
  · obtain ⟨s, hs⟩ := exists_descent binary64 norm f df P fuel maxIter x
    exact ⟨_, s, hs, rfl⟩
  · rintro r ⟨s, hs, rfl⟩
    have := hs.ends (fun x => binary64_rep.mpr (hf x)) hp hp2 hd ha hN hfu fun i => binary64_rep.mpr (hx i)
    cases s with
    | none => exact absurd rfl this
    | some p => exact ⟨_, rfl⟩

/-- The default parameters meet the hypotheses. -/
example : IsDouble (1 : ℚ) ∧ (0 : ℚ) ≤ 1 ∧ (0 : ℚ) ≤ 1 / 2 ∧ (1 / 2 : ℚ) ≤ 1 / 2 :=
  ⟨⟨1, 0, by norm_num, by norm_num, by norm_num⟩, by norm_num, by norm_num, le_rfl⟩

theorem three_quarters {a : ℚ} (h : IsDouble a) (ha : 0 < a) : 0 < toDouble (a * (3 / 4)) := by
  obtain ⟨k, hk⟩ := isDouble_mul h
  have hp := two_pos' (-1074)
  have hk1 : (1 : ℚ) ≤ k := by
    have : (0 : ℚ) < k := by
      by_contra hneg
      push Not at hneg
      have := mul_nonpos_of_nonpos_of_nonneg hneg hp.le
      rw [← hk] at this
      linarith
    have : 0 < k := by exact_mod_cast this
    exact_mod_cast this
  have hle : 2 ^ (-1074 : ℤ) * (3 / 4) ≤ a * (3 / 4) := by
    rw [hk]
    refine mul_le_mul_of_nonneg_right ?_ (by norm_num)
    calc (2 : ℚ) ^ (-1074 : ℤ) = 1 * 2 ^ (-1074 : ℤ) := (one_mul _).symm
      _ ≤ _ := mul_le_mul_of_nonneg_right hk1 hp.le
  refine lt_of_lt_of_le ?_ (toDouble_mono hle)
  have hq : (0 : ℚ) < 2 ^ (-1074 : ℤ) * (3 / 4) := mul_pos hp (by norm_num)
  have hl : lastBit (2 ^ (-1074 : ℤ) * (3 / 4)) = -1074 := by
    unfold lastBit
    refine max_eq_right ?_
    rw [abs_of_pos hq]
    have h1 : (2 : ℚ) ^ (Int.log 2 ((2 : ℚ) ^ (-1074 : ℤ) * (3 / 4))) ≤ 2 ^ (-1074 : ℤ) * (3 / 4) := by
      have := Int.zpow_log_le_self (b := 2) (by norm_num) hq
      simpa using this
    have h2 : (2 : ℚ) ^ (-1074 : ℤ) * (3 / 4) ≤ 2 ^ (-1074 : ℤ) := by
      calc _ ≤ (2 : ℚ) ^ (-1074 : ℤ) * 1 := mul_le_mul_of_nonneg_left (by norm_num) hp.le
        _ = _ := mul_one _
    have := (zpow_le_zpow_iff_right₀ (by norm_num : (1 : ℚ) < 2)).mp (h1.trans h2)
    omega
  unfold toDouble
  rw [hl]
  refine mul_pos ?_ hp
  have : (2 : ℚ) ^ (-1074 : ℤ) * (3 / 4) / 2 ^ (-1074 : ℤ) = 3 / 4 := by field_simp
  rw [this]
  have : LinProg.roundEven (3 / 4) = 1 := by decide +kernel
  rw [this]
  norm_num

/-- C101, why the factor must be at most one half: with `p = 3/4` the step length never becomes zero, and the loop can run
forever. -/
theorem C101_larger_factor (norm : Vec ℚ 1 → ℚ) : ∃ (f : Vec ℚ 1 → ℚ) (df : Vec ℚ 1 → Vec ℚ 1) (x : Vec ℚ 1),
    (∀ x, IsDouble (f x)) ∧ (∀ i, IsDouble (x i)) ∧ ∀ fuel r,
      DescentResult binary64 norm (construct f "min") x df ⟨1, 7 / 10, 3 / 4, 1 / 10000⟩ 1 fuel r → r = none := by
  classical
  have i0 : IsDouble 0 := ⟨0, 0, by norm_num, by norm_num, by norm_num⟩
  have i1 : IsDouble 1 := ⟨1, 0, by norm_num, by norm_num, by norm_num⟩
  refine ⟨fun x => if x 0 = 0 then 0 else 1, fun _ _ => 1, fun _ => 0, fun x => ?_, fun _ => i0, ?_⟩
  · dsimp only
    split
    · exact i0
    · exact i1
  have key : ∀ fuel a, IsDouble a → 0 < a → ∀ r, Back binary64 (fun x : Vec ℚ 1 => if x 0 = 0 then (0 : ℚ) else 1)
      ⟨1, 7 / 10, 3 / 4, 1 / 10000⟩ (fun _ => 0) (-fun _ => 1) (fun _ => 1) fuel a r → r = none := by
    intro fuel
    induction fuel with
    | zero => intro a _ _ r h; cases h; rfl
    | succ fuel ih =>
      intro a hd ha r h
      cases h with
      | @stop _ _ t ht hle =>
        exfalso
        have h1 := ht.le (by norm_num) ha.le (by simp only [if_true]; exact Rounding.rd_zero binary64)
        simp only [if_true] at h1
        apply hle
        have hne : stepTo binary64 (fun _ : Fin 1 => (0 : ℚ)) a (-fun _ => 1) 0 ≠ 0 := by
          simp only [stepTo, Pi.neg_apply, mul_neg, mul_one, zero_add]
          have e : binary64.rd (-a) = -a := toDouble_of_isDouble (binary64_rep.mp (binary64_rep.mpr hd).neg)
          rw [e, e]
          linarith
        simp only [if_neg hne]
        linarith
      | shrink _ _ hr => exact ih _ (isDouble_toDouble _) (three_quarters hd ha) r hr
  rintro fuel r ⟨s, hs, rfl⟩
  cases hs with
  | stuck => rfl
  | last hb _ => cases key fuel 1 i1 one_pos _ hb
  | more _ _ h => cases h
  | next hb _ _ => cases key fuel 1 i1 one_pos _ hb

end Props
end Pytimize
