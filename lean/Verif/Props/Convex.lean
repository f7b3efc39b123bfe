/-
Properties C116 and C117: `steepest_descent` and `newton_method` on convex functions.
-/
import Verif.Props.Unconstrained
import Verif.Props.Newton

namespace Pytimize
namespace Props
open Unconstrained

variable {K : Type} [Field K] [LinearOrder K] [IsStrictOrderedRing K] {n : ℕ}

/-- The square of the Euclidean distance. -/
def distSq (x y : Vec K n) : K := ∑ i, (x i - y i) ^ 2

/-- The function lies above the quadratic with curvature `μ` that touches it at each point; convexity for
`μ = 0`. -/
def ConvexBy (f : Vec K n → K) (df : Vec K n → Vec K n) (μ : K) : Prop :=
  ∀ x y : Vec K n, f x + ∑ i, df x i * (y i - x i) + μ / 2 * distSq y x ≤ f y

theorem distSq_nonneg (x y : Vec K n) : 0 ≤ distSq x y := Finset.sum_nonneg fun _ _ => sq_nonneg _

omit [LinearOrder K] [IsStrictOrderedRing K] in
theorem distSq_comm (x y : Vec K n) : distSq x y = distSq y x :=
  Finset.sum_congr rfl fun i _ => by ring

/-- A stationary point of a convex function minimises it. -/
theorem ConvexBy.minimum {f : Vec K n → K} {df : Vec K n → Vec K n} {μ : K} (h : ConvexBy f df μ) (hμ : 0 ≤ μ)
    {p : Vec K n} (hp : df p = 0) (y : Vec K n) : f p + μ / 2 * distSq y p ≤ f y ∧ f p ≤ f y := by
  have h1 := h p y
  rw [hp] at h1
  simp only [Pi.zero_apply, zero_mul, Finset.sum_const_zero, add_zero] at h1
  refine ⟨h1, le_trans ?_ h1⟩
  have := mul_nonneg hμ (distSq_nonneg y p)
  linarith

/-- The gap to any other value is bounded by the gradient. -/
theorem ConvexBy.gap {f : Vec K n → K} {df : Vec K n → Vec K n} {μ : K} (h : ConvexBy f df μ) (hμ : 0 < μ)
    (x y : Vec K n) : 2 * μ * (f x - f y) ≤ ∑ i, df x i ^ 2 := by
  have h1 := h x y
  have h2 : 0 ≤ ∑ i, (df x i + μ * (y i - x i)) ^ 2 := Finset.sum_nonneg fun _ _ => sq_nonneg _
  have h3 : ∑ i, (df x i + μ * (y i - x i)) ^ 2 =
      ∑ i, df x i ^ 2 + 2 * μ * ∑ i, df x i * (y i - x i) + μ ^ 2 * distSq y x := by
    rw [distSq, Finset.mul_sum, Finset.mul_sum, ← Finset.sum_add_distrib, ← Finset.sum_add_distrib]
    exact Finset.sum_congr rfl fun i _ => by ring
  rw [h3] at h2
  have h4 := mul_le_mul_of_nonneg_left h1 (show (0 : K) ≤ 2 * μ by linarith)
  nlinarith

/-- The distance to a stationary point is bounded by the gradient. -/
theorem ConvexBy.distance {f : Vec K n → K} {df : Vec K n → Vec K n} {μ : K} (h : ConvexBy f df μ) (hμ : 0 < μ)
    {p : Vec K n} (hp : df p = 0) (x : Vec K n) : μ ^ 2 * distSq x p ≤ ∑ i, df x i ^ 2 := by
  have h1 := h x p
  have h2 := (h.minimum hμ.le hp x).1
  have h3 : 0 ≤ ∑ i, (df x i + μ * (p i - x i)) ^ 2 := Finset.sum_nonneg fun _ _ => sq_nonneg _
  have h4 : ∑ i, (df x i + μ * (p i - x i)) ^ 2 =
      ∑ i, df x i ^ 2 + 2 * μ * ∑ i, df x i * (p i - x i) + μ ^ 2 * distSq p x := by
    rw [distSq, Finset.mul_sum, Finset.mul_sum, ← Finset.sum_add_distrib, ← Finset.sum_add_distrib]
    exact Finset.sum_congr rfl fun i _ => by ring
  rw [h4] at h3
  rw [distSq_comm p x] at h1 h3
  have h5 : ∑ i, df x i * (p i - x i) + μ * distSq x p ≤ 0 := by linarith
  have h6 := mul_le_mul_of_nonneg_left h5 (show (0 : K) ≤ 2 * μ by linarith)
  nlinarith

/-! ### C116 -/

/-- C116: if `steepest_descent` stops before `max_iteration` on a strongly convex function, the point returned is
within `tolerance / μ` of the minimum, and its value within `tolerance ^ 2 / (2 μ)`. No other assumption on callbacks
and parameters. -/
theorem C116_descent {f : Vec K n → K} {df : Vec K n → Vec K n} {μ : K} (hμ : 0 < μ) (hf : ConvexBy f df μ)
    {p : Vec K n} (hp : df p = 0) {P : Params K} {x : Vec K n} {maxIter fuel : ℕ} {o : Outcome K n}
    (h : steepestDescent (construct f "min") x df P maxIter fuel = some o) (hi : o.iterations < maxIter) :
    distSq o.result p ≤ (P.tolerance / μ) ^ 2 ∧ f o.result - f p ≤ P.tolerance ^ 2 / (2 * μ) ∧ ∀ y, f p ≤ f y := by
  obtain ⟨-, h2⟩ := (C71_steps h).2.2 hi
  refine ⟨?_, ?_, fun y => (hf.minimum hμ.le hp y).2⟩
  · rw [div_pow, le_div_iff₀ (by positivity), mul_comm]
    exact (hf.distance hμ hp _).trans h2
  · rw [le_div_iff₀ (by positivity), mul_comm]
    exact (hf.gap hμ _ _).trans h2

/-- C116: the same for `newton_method`. -/
theorem C116_newton {f : Vec K n → K} {df : Vec K n → Vec K n} {d2f : Vec K n → Matrix (Fin n) (Fin n) K} {μ : K}
    (hμ : 0 < μ) (hf : ConvexBy f df μ) {p : Vec K n} (hp : df p = 0) {t : K} {x : Vec K n} {maxIter : ℕ}
    {o : Outcome K n} (h : newtonMethod (construct f "min") x df d2f t maxIter = .ok o)
    (hi : o.iterations < maxIter) :
    distSq o.result p ≤ (t / μ) ^ 2 ∧ f o.result - f p ≤ t ^ 2 / (2 * μ) ∧ ∀ y, f p ≤ f y := by
  obtain ⟨-, h2⟩ := (C112_returns h).2.2.1 hi
  refine ⟨?_, ?_, fun y => (hf.minimum hμ.le hp y).2⟩
  · rw [div_pow, le_div_iff₀ (by positivity), mul_comm]
    exact (hf.distance hμ hp _).trans h2
  · rw [le_div_iff₀ (by positivity), mul_comm]
    exact (hf.gap hμ _ _).trans h2

/-- The smallest length factor of a run on a function with curvature at most `L`. -/
def minFactor (P : Params K) (L : K) : K := min P.alpha (P.p * (2 * (1 - P.c) / L))

/-- What one iteration does on a smooth function. -/
theorem descend_induction {f : Vec K n → K} {df : Vec K n → Vec K n} {L : K} (hL : 0 < L) (hs : Smooth f df L)
    {P : Params K} (ha : 0 < P.alpha) (hp : 0 < P.p) (hc1 : P.c < 1) {fuel : ℕ}
    {Q : Vec K n → Vec K n → ℕ → Prop} (base : ∀ x, Q x x 0)
    (step : ∀ x y a j, 0 < a → minFactor P L ≤ a → f (stepFrom df x a) ≤ f x - P.c * a * ∑ i, df x i ^ 2 →
      Q (stepFrom df x a) y j → Q x y (j + 1)) :
    ∀ {k : ℕ} {x y : Vec K n} {j : ℕ}, descend f df P fuel k x = some (y, j) → Q x y j
  | 0, x, y, j, h => by cases h; exact base x
  | k + 1, x, y, j, h => by
    rw [descend] at h
    dsimp only at h
    generalize hb : backtrack f P x (-df x) (df x) fuel P.alpha = r at h
    rcases r with _ | a
    · cases h
    · have hfac := smooth_factor hL hs ha hp x hb
      have hpos := lt_of_lt_of_le (factor_pos hL ha hp hc1 (P := P)) hfac
      have hdec := (backtrack_some hb).2
      rw [not_lt, dot_neg, step_eq, mul_neg, ← sub_eq_add_neg] at hdec
      simp only [step_eq] at h
      by_cases hn : normLe (df (stepFrom df x a)) P.tolerance
      · rw [if_pos hn] at h
        cases h
        exact step x _ a 0 hpos hfac hdec (base _)
      · rw [if_neg hn] at h
        generalize hr : descend f df P fuel k (stepFrom df x a) = r at h
        rcases r with _ | ⟨y', j'⟩
        · cases h
        · cases h
          exact step x _ a _ hpos hfac hdec (descend_induction hL hs ha hp hc1 base step hr)

/-- C116: on a smooth strongly convex function the gap to the minimum falls at least geometrically. -/
theorem C116_rate {f : Vec K n → K} {df : Vec K n → Vec K n} {L μ : K} (hL : 0 < L) (hs : Smooth f df L)
    (hμ : 0 < μ) (hf : ConvexBy f df μ) {p : Vec K n} (hp : df p = 0) {P : Params K} (ha : 0 < P.alpha)
    (hP : 0 < P.p) (hc : 0 < P.c) (hc1 : P.c < 1) {x : Vec K n} {maxIter fuel : ℕ} {o : Outcome K n}
    (h : steepestDescent (construct f "min") x df P maxIter fuel = some o) :
    f o.result - f p ≤ (1 - 2 * μ * P.c * minFactor P L) ^ o.iterations * (f x - f p) := by
  unfold steepestDescent at h
  generalize hr : descend (construct f "min").f df P fuel maxIter x = r at h
  rcases r with _ | ⟨y, j⟩
  · cases h
  · cases h
    show f y - f p ≤ _ ^ j * _
    refine descend_induction hL hs ha hP hc1
      (Q := fun x y j => f y - f p ≤ (1 - 2 * μ * P.c * minFactor P L) ^ j * (f x - f p)) ?_ ?_ hr
    · intro x; simp
    · intro x y a j hpos hfac hdec ih
      have hmin : ∀ y, 0 ≤ f y - f p := fun y => sub_nonneg.mpr (hf.minimum hμ.le hp y).2
      have hgap := hf.gap hμ x p
      have hstep : f (stepFrom df x a) - f p ≤ (1 - 2 * μ * P.c * minFactor P L) * (f x - f p) := by
        have h1 : P.c * a * (2 * μ * (f x - f p)) ≤ P.c * a * ∑ i, df x i ^ 2 :=
          mul_le_mul_of_nonneg_left hgap (mul_pos hc hpos).le
        have h2 : P.c * minFactor P L * (2 * μ * (f x - f p)) ≤ P.c * a * (2 * μ * (f x - f p)) := by
          refine mul_le_mul_of_nonneg_right (mul_le_mul_of_nonneg_left hfac hc.le) ?_
          exact mul_nonneg (by linarith) (hmin x)
        nlinarith
      rcases (hmin x).eq_or_lt with h0 | h0
      · have hz : f (stepFrom df x a) - f p = 0 := le_antisymm (by rw [← h0] at hstep; simpa using hstep) (hmin _)
        rw [hz, mul_zero] at ih
        rw [← h0, mul_zero]
        exact ih
      · have hq : 0 ≤ 1 - 2 * μ * P.c * minFactor P L := by
          by_contra hneg
          rw [not_le] at hneg
          have := mul_neg_of_neg_of_pos hneg h0
          linarith [hmin (stepFrom df x a)]
        calc f y - f p ≤ (1 - 2 * μ * P.c * minFactor P L) ^ j * (f (stepFrom df x a) - f p) := ih
          _ ≤ (1 - 2 * μ * P.c * minFactor P L) ^ j * ((1 - 2 * μ * P.c * minFactor P L) * (f x - f p)) :=
            mul_le_mul_of_nonneg_left hstep (pow_nonneg hq j)
          _ = _ := by rw [pow_succ]; ring

/-- C116: total correctness on smooth strongly convex functions. With a number of iterations that depends only on the
parameters, `L` and how far the start's value is above the minimum, `steepest_descent` returns a point within
`tolerance / μ` of the minimum. -/
theorem C116_total [Archimedean K] {L : K} (hL : 0 < L) {P : Params K} (ha : 0 < P.alpha)
    (hp : 0 < P.p) (hp1 : P.p < 1) (hc : 0 < P.c) (hc1 : P.c < 1) (ht : 0 < P.tolerance) :
    ∃ F : ℕ, ∀ (f : Vec K n → K) (df : Vec K n → Vec K n) (μ : K) (p : Vec K n), Smooth f df L → 0 < μ →
      ConvexBy f df μ → df p = 0 → ∀ (x : Vec K n) (N : ℕ),
        f x - f p < (N : K) * (P.c * minFactor P L * P.tolerance ^ 2) →
      ∀ maxIter > N, ∀ fuel ≥ F, ∃ o, steepestDescent (construct f "min") x df P maxIter fuel = some o ∧
        distSq o.result p ≤ (P.tolerance / μ) ^ 2 ∧ f o.result - f p ≤ P.tolerance ^ 2 / (2 * μ) := by
  obtain ⟨F, hF⟩ := C79_converges (n := n) hL ha hp hp1 hc hc1 ht
  refine ⟨F, fun f df μ p hs hμ hf hst x N hN maxIter hm fuel hfu => ?_⟩
  obtain ⟨o, h1, h2⟩ := hF f df (f p) hs (fun y => (hf.minimum hμ.le hst y).2) x N hN maxIter hm fuel hfu
  refine ⟨o, h1, ?_, ?_⟩
  · rw [div_pow, le_div_iff₀ (by positivity), mul_comm]
    exact (hf.distance hμ hst _).trans h2
  · rw [le_div_iff₀ (by positivity), mul_comm]
    exact (hf.gap hμ _ _).trans h2

/-- The function `x ^ 2 + 3 y ^ 2` meets the hypotheses, with `μ = 2` and `L = 6`. -/
example : Smooth (fun x : Vec ℚ 2 => x 0 ^ 2 + 3 * x 1 ^ 2) (fun x => ![2 * x 0, 6 * x 1]) 6 ∧
    ConvexBy (fun x : Vec ℚ 2 => x 0 ^ 2 + 3 * x 1 ^ 2) (fun x => ![2 * x 0, 6 * x 1]) 2 ∧
    (fun x : Vec ℚ 2 => ![2 * x 0, 6 * x 1]) 0 = 0 := by
  refine ⟨fun x y => ?_, fun x y => ?_, ?_⟩
  · simp only [Fin.sum_univ_two, Matrix.cons_val_zero, Matrix.cons_val_one]
    nlinarith [sq_nonneg (y 0 - x 0), sq_nonneg (y 1 - x 1)]
  · simp only [distSq, Fin.sum_univ_two, Matrix.cons_val_zero, Matrix.cons_val_one]
    nlinarith [sq_nonneg (y 0 - x 0), sq_nonneg (y 1 - x 1)]
  · funext i; fin_cases i <;> simp

/-! ### C117 -/

/-- One step with `c ≥ 1 / 2` on a convex function. -/
theorem convex_step {f : Vec K n → K} {df : Vec K n → Vec K n} (hf : ConvexBy f df 0) (p x : Vec K n) {c a : K}
    (hc : 1 / 2 ≤ c) (ha : 0 < a) (hdec : f (stepFrom df x a) ≤ f x - c * a * ∑ i, df x i ^ 2) :
    2 * a * (f (stepFrom df x a) - f p) ≤ distSq x p - distSq (stepFrom df x a) p := by
  have h1 := hf x p
  have h2 : distSq (stepFrom df x a) p =
      distSq x p + 2 * a * ∑ i, df x i * (p i - x i) + a ^ 2 * ∑ i, df x i ^ 2 := by
    rw [distSq, distSq, Finset.mul_sum, Finset.mul_sum, ← Finset.sum_add_distrib, ← Finset.sum_add_distrib]
    exact Finset.sum_congr rfl fun i _ => by unfold stepFrom; ring
  have h3 : 0 ≤ ∑ i, df x i ^ 2 := Finset.sum_nonneg fun _ _ => sq_nonneg _
  have h4 : 1 / 2 * a * ∑ i, df x i ^ 2 ≤ c * a * ∑ i, df x i ^ 2 :=
    mul_le_mul_of_nonneg_right (mul_le_mul_of_nonneg_right hc ha.le) h3
  have h5 : f (stepFrom df x a) - f p ≤ -(∑ i, df x i * (p i - x i)) - 1 / 2 * a * ∑ i, df x i ^ 2 := by
    simp only [zero_div, zero_mul, add_zero] at h1
    linarith
  have h6 := mul_le_mul_of_nonneg_left h5 (show (0 : K) ≤ 2 * a by linarith)
  rw [h2]
  nlinarith

/-- C117: on a convex function with `c ≥ 1 / 2` (the default is 0.7) the point returned is not farther from any
minimum than the start. -/
theorem C117_distance {f : Vec K n → K} {df : Vec K n → Vec K n} (hf : ConvexBy f df 0) {p : Vec K n}
    (hp : ∀ y, f p ≤ f y) {P : Params K} (ha : 0 < P.alpha) (hP : 0 < P.p) (hc : 1 / 2 ≤ P.c) {x : Vec K n}
    {maxIter fuel : ℕ} {o : Outcome K n} (h : steepestDescent (construct f "min") x df P maxIter fuel = some o) :
    distSq o.result p ≤ distSq x p := by
  have hsteps := (C71_steps h).1
  clear h
  generalize o.result = y at hsteps
  generalize o.iterations = j at hsteps
  induction hsteps with
  | refl x => exact le_rfl
  | @step x z j m hdec _ ih =>
    have hpos : 0 < P.alpha * P.p ^ m := mul_pos ha (pow_pos hP m)
    have h1 := convex_step hf p x hc hpos hdec
    have h2 := hp (stepFrom df x (P.alpha * P.p ^ m))
    have h3 : 0 ≤ 2 * (P.alpha * P.p ^ m) * (f (stepFrom df x (P.alpha * P.p ^ m)) - f p) :=
      mul_nonneg (by linarith) (by linarith)
    linarith

/-- C117: on a smooth convex function with `c ≥ 1 / 2` the gap to any value falls like the inverse of the number of
iterations. -/
theorem C117_rate {f : Vec K n → K} {df : Vec K n → Vec K n} {L : K} (hL : 0 < L) (hs : Smooth f df L)
    (hf : ConvexBy f df 0) (p : Vec K n) {P : Params K} (ha : 0 < P.alpha) (hP : 0 < P.p) (hc : 1 / 2 ≤ P.c)
    (hc1 : P.c < 1) {x : Vec K n} {maxIter fuel : ℕ} {o : Outcome K n}
    (h : steepestDescent (construct f "min") x df P maxIter fuel = some o) (hi : 0 < o.iterations)
    (hp : ∀ y, f p ≤ f y) :
    f o.result - f p ≤ distSq x p / (2 * minFactor P L * o.iterations) := by
  have hmf : 0 < minFactor P L := factor_pos hL ha hP hc1 (P := P)
  have key : ∀ {y : Vec K n} {j : ℕ}, descend f df P fuel maxIter x = some (y, j) →
      2 * minFactor P L * j * (f y - f p) ≤ distSq x p := by
    intro y j hr
    have hmono : f y ≤ f x ∧ 2 * minFactor P L * j * (f y - f p) ≤ distSq x p - distSq y p := by
      refine descend_induction hL hs ha hP hc1
        (Q := fun x y j => f y ≤ f x ∧ 2 * minFactor P L * j * (f y - f p) ≤ distSq x p - distSq y p) ?_ ?_ hr
      · intro x; simp
      · rintro x y a j hpos hfac hdec ⟨ih1, ih2⟩
        have h3 : 0 ≤ ∑ i, df x i ^ 2 := Finset.sum_nonneg fun _ _ => sq_nonneg _
        have h4 : 0 ≤ P.c * a * ∑ i, df x i ^ 2 := mul_nonneg (mul_nonneg (by linarith) hpos.le) h3
        have h1 := convex_step hf p x hc hpos hdec
        have h5 : 0 ≤ f y - f p := sub_nonneg.mpr (hp y)
        have h6 : 2 * minFactor P L * (f y - f p) ≤ 2 * a * (f (stepFrom df x a) - f p) :=
          mul_le_mul (by linarith) (by linarith) h5 (by linarith)
        refine ⟨by linarith, ?_⟩
        push_cast
        nlinarith
    have := distSq_nonneg y p
    linarith [hmono.2]
  unfold steepestDescent at h
  generalize hr : descend (construct f "min").f df P fuel maxIter x = r at h
  rcases r with _ | ⟨y, j⟩
  · cases h
  · cases h
    have hj : (0 : K) < j := by exact_mod_cast hi
    show f y - f p ≤ distSq x p / (2 * minFactor P L * j)
    rw [le_div_iff₀ (by positivity), mul_comm]
    exact key hr

/-- The square of the first variable is convex and smooth and has many minima. -/
example : Smooth (fun x : Vec ℚ 2 => x 0 ^ 2) (fun x => ![2 * x 0, 0]) 2 ∧
    ConvexBy (fun x : Vec ℚ 2 => x 0 ^ 2) (fun x => ![2 * x 0, 0]) 0 ∧
    ∀ t : ℚ, ∀ y : Vec ℚ 2, (fun x : Vec ℚ 2 => x 0 ^ 2) ![0, t] ≤ y 0 ^ 2 := by
  refine ⟨fun x y => ?_, fun x y => ?_, fun t y => ?_⟩
  · simp only [Fin.sum_univ_two, Matrix.cons_val_zero, Matrix.cons_val_one]
    nlinarith [sq_nonneg (y 0 - x 0), sq_nonneg (y 1 - x 1)]
  · simp only [distSq, Fin.sum_univ_two, Matrix.cons_val_zero, Matrix.cons_val_one]
    nlinarith [sq_nonneg (y 0 - x 0), sq_nonneg (y 1 - x 1)]
  · simpa using sq_nonneg (y 0)

end Props
end Pytimize
