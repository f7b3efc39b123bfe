/-
`steepest_descent` in floating point.
-/
import Mathlib.Algebra.Order.BigOperators.Group.Finset
import Verif.Float.Dot
import Verif.Unconstrained.Proof

namespace Pytimize
namespace Floating
open Unconstrained LinProg

variable {R : Rounding} {n : ℕ}

/-- `x + a * d`, `_unconstrained.py:72` and `75`: the product and the sum are rounded. -/
def stepTo (R : Rounding) (x : Vec ℚ n) (a : ℚ) (d : Vec ℚ n) : Vec ℚ n := fun i => R.rd (x i + R.rd (a * d i))

/-- The right side of the test in `_unconstrained.py:72`, `f(x) + c * a * df(x) @ d`, which is read as
`f(x) + (((c * a) * df(x)) @ d)`. -/
def Target (R : Rounding) (c : ℚ) (fx : ℚ) (a : ℚ) (g d : Vec ℚ n) (t : ℚ) : Prop :=
  ∃ s, DotVal R (fun i => R.rd (R.rd (c * a) * g i)) d s ∧ t = R.rd (fx + s)

/-- The backtracking loop, `_unconstrained.py:72-73`; `none` if it has not ended after the given number of rounds. A
relation, since `@` may sum in any order. -/
inductive Back (R : Rounding) (f : Vec ℚ n → ℚ) (P : Params ℚ) (x d g : Vec ℚ n) : ℕ → ℚ → Option ℚ → Prop
  | out (a : ℚ) : Back R f P x d g 0 a none
  | stop {m : ℕ} {a t : ℚ} : Target R P.c (f x) a g d t → ¬ f (stepTo R x a d) > t → Back R f P x d g (m + 1) a (some a)
  | shrink {m : ℕ} {a t : ℚ} {r : Option ℚ} : Target R P.c (f x) a g d t → f (stepTo R x a d) > t →
      Back R f P x d g m (R.rd (a * P.p)) r → Back R f P x d g (m + 1) a r

/-- The loop of `steepest_descent`, `_unconstrained.py:68-78`, with `norm` for `np.linalg.norm`: the content of `x` at
the end and the number of iterations. -/
inductive Descent (R : Rounding) (norm : Vec ℚ n → ℚ) (f : Vec ℚ n → ℚ) (df : Vec ℚ n → Vec ℚ n) (P : Params ℚ)
    (fuel : ℕ) : ℕ → Vec ℚ n → Option (Vec ℚ n × ℕ) → Prop
  | done (x : Vec ℚ n) : Descent R norm f df P fuel 0 x (some (x, 0))
  | stuck {k : ℕ} {x : Vec ℚ n} : Back R f P x (-df x) (df x) fuel P.alpha none → Descent R norm f df P fuel (k + 1) x none
  | last {k : ℕ} {x : Vec ℚ n} {a : ℚ} : Back R f P x (-df x) (df x) fuel P.alpha (some a) →
      norm (df (stepTo R x a (-df x))) ≤ P.tolerance →
      Descent R norm f df P fuel (k + 1) x (some (stepTo R x a (-df x), 1))
  | more {k : ℕ} {x : Vec ℚ n} {a : ℚ} : Back R f P x (-df x) (df x) fuel P.alpha (some a) →
      ¬ norm (df (stepTo R x a (-df x))) ≤ P.tolerance →
      Descent R norm f df P fuel k (stepTo R x a (-df x)) none → Descent R norm f df P fuel (k + 1) x none
  | next {k : ℕ} {x z : Vec ℚ n} {a : ℚ} {j : ℕ} : Back R f P x (-df x) (df x) fuel P.alpha (some a) →
      ¬ norm (df (stepTo R x a (-df x))) ≤ P.tolerance →
      Descent R norm f df P fuel k (stepTo R x a (-df x)) (some (z, j)) →
      Descent R norm f df P fuel (k + 1) x (some (z, j + 1))

/-- `steepest_descent`, `_unconstrained.py:30-80`, in floating point. -/
def DescentResult (R : Rounding) (norm : Vec ℚ n → ℚ) (M : Program ℚ n) (x : Vec ℚ n) (df : Vec ℚ n → Vec ℚ n)
    (P : Params ℚ) (maxIter fuel : ℕ) (r : Option (Outcome ℚ n)) : Prop :=
  ∃ s, Descent R norm M.f df P fuel maxIter x s ∧ r = s.map fun p => finish M p.1 p.2

/-- A vector of floats. -/
def RepVec (R : Rounding) (x : Vec ℚ n) : Prop := ∀ i, R.Rep (x i)

/-- What is assumed of `np.linalg.norm`: it is not negative and, up to rounding, the square root of `g @ g`. -/
def NormNear (R : Rounding) (norm : Vec ℚ n → ℚ) : Prop :=
  ∀ g, 0 ≤ norm g ∧ ∃ s, DotVal R g g s ∧ (1 - R.u) ^ 2 * s ≤ (norm g + R.tiny) ^ 2

theorem repVec_stepTo (x : Vec ℚ n) (a : ℚ) (d : Vec ℚ n) : RepVec R (stepTo R x a d) := fun _ => R.idem _

theorem sign_of_rd {a b : ℚ} (ha : 0 ≤ a) : R.rd (a * b) * -b ≤ 0 := by
  rcases le_total 0 b with h | h
  · have := Rounding.rd_nonneg (R := R) (mul_nonneg ha h)
    nlinarith
  · have := Rounding.rd_nonpos (R := R) (mul_nonpos_of_nonneg_of_nonpos ha h)
    nlinarith

/-- The target is never above the present value. -/
theorem Target.le {c fx a t : ℚ} {g : Vec ℚ n} (hc : 0 ≤ c) (ha : 0 ≤ a) (hf : R.Rep fx)
    (h : Target R c fx a g (-g) t) : t ≤ fx := by
  obtain ⟨s, hs, rfl⟩ := h
  refine Rounding.rd_le hf ?_
  have := hs.nonpos fun i => sign_of_rd (Rounding.rd_nonneg (mul_nonneg hc ha))
  linarith

theorem Back.some_spec {f : Vec ℚ n → ℚ} {P : Params ℚ} {x d g : Vec ℚ n} (hp : 0 ≤ P.p) {m : ℕ} {a : ℚ} (ha : 0 ≤ a)
    {r : Option ℚ} (h : Back R f P x d g m a r) :
    ∀ b, r = some b → 0 ≤ b ∧ ∃ t, Target R P.c (f x) b g d t ∧ f (stepTo R x b d) ≤ t := by
  induction h with
  | out => intro b hb; cases hb
  | stop ht hf =>
    intro b hb
    obtain rfl := Option.some.inj hb
    exact ⟨ha, _, ht, not_lt.mp hf⟩
  | shrink _ _ _ ih => exact ih (Rounding.rd_nonneg (mul_nonneg ha hp))

theorem Descent.spec {norm : Vec ℚ n → ℚ} {f : Vec ℚ n → ℚ} {df : Vec ℚ n → Vec ℚ n} {P : Params ℚ} {fuel k : ℕ}
    (hf : ∀ x, R.Rep (f x)) (ha : 0 ≤ P.alpha) (hc : 0 ≤ P.c) (hp : 0 ≤ P.p) {x : Vec ℚ n}
    {r : Option (Vec ℚ n × ℕ)} (h : Descent R norm f df P fuel k x r) :
    ∀ z j, r = some (z, j) → f z ≤ f x ∧ j ≤ k ∧ (j < k → norm (df z) ≤ P.tolerance) := by
  have key : ∀ {x : Vec ℚ n} {a : ℚ}, Back R f P x (-df x) (df x) fuel P.alpha (some a) →
      f (stepTo R x a (-df x)) ≤ f x := by
    intro x a hb
    obtain ⟨h0, t, ht, hle⟩ := hb.some_spec hp ha a rfl
    exact hle.trans (ht.le hc h0 (hf x))
  induction h with
  | done x => rintro z j h; cases h; exact ⟨le_rfl, le_rfl, fun h => by omega⟩
  | stuck => rintro z j h; cases h
  | last hb hn => rintro z j h; cases h; exact ⟨key hb, by omega, fun _ => hn⟩
  | more => rintro z j h; cases h
  | next hb hn _ ih =>
    rintro z j h
    cases h
    obtain ⟨h1, h2, h3⟩ := ih _ _ rfl
    exact ⟨h1.trans (key hb), by omega, fun h => h3 (by omega)⟩

/-! ### Termination -/

theorem Dots.zero {l : List (ℚ × ℚ)} {r : ℚ} (h : Dots R l r) (hl : ∀ p ∈ l, p.1 * p.2 = 0) : r = 0 := by
  induction h with
  | prod a b => rw [hl (a, b) (by simp), R.rd_zero]
  | add _ _ e1 e2 =>
    rw [e1 fun p hp => hl p (by simp [hp]), e2 fun p hp => hl p (by simp [hp]), add_zero, R.rd_zero]
  | fma a b _ e =>
    have h1 := hl (a, b) (by simp)
    simp only at h1
    rw [h1, e fun p hp => hl p (by simp [hp]), add_zero, R.rd_zero]
  | perm hp _ ih => exact ih fun p h => hl p (hp.mem_iff.mp h)

theorem DotVal.zero {u v : Fin n → ℚ} {r : ℚ} (h : DotVal R u v r) (hl : ∀ i, u i * v i = 0) : r = 0 := by
  rcases h with ⟨-, rfl⟩ | h
  · rfl
  · refine h.zero fun p hp => ?_
    simp only [pairs, List.mem_ofFn] at hp
    obtain ⟨i, rfl⟩ := hp
    exact hl i

theorem stepTo_zero {x : Vec ℚ n} (hx : RepVec R x) (d : Vec ℚ n) : stepTo R x 0 d = x := by
  funext i
  simp only [stepTo, zero_mul, R.rd_zero, add_zero]
  exact hx i

theorem exists_target (R : Rounding) (c fx a : ℚ) (g d : Vec ℚ n) : ∃ t, Target R c fx a g d t := by
  obtain ⟨s, hs⟩ := exists_dotVal R (fun i => R.rd (R.rd (c * a) * g i)) d
  exact ⟨_, s, hs, rfl⟩

theorem exists_back (R : Rounding) (f : Vec ℚ n → ℚ) (P : Params ℚ) (x d g : Vec ℚ n) (m : ℕ) (a : ℚ) :
    ∃ r, Back R f P x d g m a r := by
  induction m generalizing a with
  | zero => exact ⟨_, .out a⟩
  | succ m ih =>
    obtain ⟨t, ht⟩ := exists_target R P.c (f x) a g d
    by_cases h : f (stepTo R x a d) > t
    · obtain ⟨r, hr⟩ := ih (R.rd (a * P.p))
      exact ⟨r, .shrink ht h hr⟩
    · exact ⟨_, .stop ht h⟩

theorem exists_descent (R : Rounding) (norm : Vec ℚ n → ℚ) (f : Vec ℚ n → ℚ) (df : Vec ℚ n → Vec ℚ n) (P : Params ℚ)
    (fuel k : ℕ) (x : Vec ℚ n) : ∃ r, Descent R norm f df P fuel k x r := by
  induction k generalizing x with
  | zero => exact ⟨_, .done x⟩
  | succ k ih =>
    obtain ⟨r, hr⟩ := exists_back R f P x (-df x) (df x) fuel P.alpha
    cases r with
    | none => exact ⟨_, .stuck hr⟩
    | some a =>
      by_cases hn : norm (df (stepTo R x a (-df x))) ≤ P.tolerance
      · exact ⟨_, .last hr hn⟩
      · obtain ⟨r, hr'⟩ := ih (stepTo R x a (-df x))
        cases r with
        | none => exact ⟨_, .more hr hn hr'⟩
        | some p => exact ⟨_, .next hr hn hr'⟩

/-- A step of length zero is accepted. -/
theorem Back.zero {f : Vec ℚ n → ℚ} {P : Params ℚ} {x d g : Vec ℚ n} (hf : R.Rep (f x)) (hx : RepVec R x) {m : ℕ}
    {r : Option ℚ} (h : Back R f P x d g (m + 1) 0 r) : r = some 0 := by
  have key : ∀ {t}, Target R P.c (f x) 0 g d t → ¬ f (stepTo R x 0 d) > t := by
    rintro t ⟨s, hs, rfl⟩
    have hs0 : s = 0 := hs.zero fun i => by simp [R.rd_zero]
    rw [stepTo_zero hx, hs0, add_zero, hf]
    exact lt_irrefl _
  cases h with
  | stop => rfl
  | shrink ht hgt _ => exact absurd hgt (key ht)

/-- The doubles are multiples of the smallest one. -/
theorem isDouble_mul {a : ℚ} (h : IsDouble a) : ∃ k : ℤ, a = k * 2 ^ (-1074 : ℤ) := by
  obtain ⟨k, e, rfl, -, he⟩ := h
  refine ⟨k * 2 ^ (e + 1074).toNat, ?_⟩
  push_cast
  rw [mul_assoc, ← zpow_natCast, Int.toNat_of_nonneg (by omega), ← zpow_add₀ (by norm_num)]
  congr 2
  omega

/-- Half of a positive double is rounded to a smaller one. -/
theorem toDouble_half_lt {a : ℚ} (h : IsDouble a) (ha : 0 < a) : toDouble (a / 2) < a := by
  have hle : toDouble (a / 2) ≤ a := by
    have := toDouble_mono (show a / 2 ≤ a by linarith)
    rwa [toDouble_of_isDouble h] at this
  refine lt_of_le_of_ne hle fun heq => ?_
  have hn := toDouble_near (a / 2)
  rw [heq, show a - a / 2 = a / 2 by ring, abs_of_pos (by linarith)] at hn
  have hn' : a ≤ 2 ^ lastBit (a / 2) := by linarith
  have hpos : 0 < |a / 2| := abs_pos.mpr (by linarith)
  rcases max_choice (Int.log 2 |a / 2| - 52) (-1074) with hm | hm
  · have hl : lastBit (a / 2) = Int.log 2 |a / 2| - 52 := hm
    have h1 : (2 : ℚ) ^ Int.log 2 |a / 2| ≤ |a / 2| := by
      have := Int.zpow_log_le_self (b := 2) (r := |a / 2|) (by norm_num) hpos
      simpa using this
    rw [abs_of_pos (by linarith : 0 < a / 2)] at h1 hl
    have h2 : (2 : ℚ) ^ lastBit (a / 2) ≤ 2 ^ Int.log 2 (a / 2) := by
      rw [hl]; exact zpow_le_zpow_right₀ (by norm_num) (by omega)
    linarith
  · have hl : lastBit (a / 2) = -1074 := hm
    obtain ⟨k, hk⟩ := isDouble_mul h
    have hp := two_pos' (-1074)
    rw [hl] at hn'
    have hk1 : k = 1 := by
      have a1 : (0 : ℚ) < k := by
        by_contra hneg
        push Not at hneg
        have := mul_nonpos_of_nonpos_of_nonneg hneg hp.le
        rw [← hk] at this
        linarith
      have a2 : (k : ℚ) ≤ 1 := by
        rw [hk] at hn'
        by_contra hgt
        push Not at hgt
        have := mul_lt_mul_of_pos_right hgt hp
        rw [one_mul] at this
        exact absurd hn' (not_le.mpr this)
      have a1 : 0 < k := by exact_mod_cast a1
      have a2 : k ≤ 1 := by exact_mod_cast a2
      omega
    have hz : toDouble (a / 2) = 0 := by
      unfold toDouble
      rw [hl, hk, hk1]
      have : ((1 : ℤ) : ℚ) * 2 ^ (-1074 : ℤ) / 2 / 2 ^ (-1074 : ℤ) = 1 / 2 := by
        field_simp
        norm_num
      rw [this]
      have : roundEven (1 / 2) = 0 := by decide +kernel
      rw [this]
      simp
    rw [hz] at heq
    linarith

/-- The backtracking loop ends in binary64 if the factor is at most one half, whatever the callbacks. -/
theorem Back.ends {f : Vec ℚ n → ℚ} {P : Params ℚ} {x d g : Vec ℚ n} (hf : binary64.Rep (f x)) (hx : RepVec binary64 x)
    (hp : 0 ≤ P.p) (hp2 : P.p ≤ 1 / 2) (N : ℕ) :
    ∀ (m : ℕ) (a : ℚ), IsDouble a → 0 ≤ a → a ≤ N * 2 ^ (-1074 : ℤ) → N < m → ∀ r, Back binary64 f P x d g m a r →
      r ≠ none := by
  have hq := two_pos' (-1074)
  induction N with
  | zero =>
    intro m a hd h0 ha hm r hr
    obtain rfl : a = 0 := by
      have : a ≤ 0 := by simpa using ha
      linarith
    obtain ⟨m, rfl⟩ : ∃ k, m = k + 1 := ⟨m - 1, by omega⟩
    rw [hr.zero hf hx]
    exact Option.some_ne_none _
  | succ N ih =>
    intro m a hd h0 ha hm r hr
    cases hr with
    | out => omega
    | stop => exact Option.some_ne_none _
    | @shrink m _ t _ ht hgt hr =>
      have h2 : IsDouble (binary64.rd (a * P.p)) := isDouble_toDouble _
      refine ih m _ h2 (Rounding.rd_nonneg (mul_nonneg h0 hp)) ?_ (by omega) r hr
      rcases h0.lt_or_eq with hpos | hzero
      · have hlt : binary64.rd (a * P.p) < a := by
          refine lt_of_le_of_lt (toDouble_mono ?_) (toDouble_half_lt hd hpos)
          nlinarith
        obtain ⟨k, hk⟩ := isDouble_mul h2
        have h3 : binary64.rd (a * P.p) < ((N + 1 : ℕ) : ℚ) * 2 ^ (-1074 : ℤ) := lt_of_lt_of_le hlt ha
        rw [hk] at h3 ⊢
        have h4 : (k : ℚ) < ((N + 1 : ℕ) : ℚ) := lt_of_mul_lt_mul_right h3 hq.le
        have h5 : k < (N + 1 : ℕ) := by exact_mod_cast h4
        have h6 : k ≤ N := by push_cast at h5; omega
        exact mul_le_mul_of_nonneg_right (by exact_mod_cast h6) hq.le
      · rw [← hzero, zero_mul, Rounding.rd_zero]
        positivity

theorem exists_bound {a : ℚ} (h : IsDouble a) : ∃ N : ℕ, a ≤ N * 2 ^ (-1074 : ℤ) := by
  obtain ⟨k, hk⟩ := isDouble_mul h
  refine ⟨k.toNat, ?_⟩
  conv_lhs => rw [hk]
  refine mul_le_mul_of_nonneg_right ?_ (two_pos' _).le
  exact_mod_cast Int.self_le_toNat k

theorem Descent.ends {norm : Vec ℚ n → ℚ} {f : Vec ℚ n → ℚ} {df : Vec ℚ n → Vec ℚ n} {P : Params ℚ}
    (hf : ∀ x, binary64.Rep (f x)) (hp : 0 ≤ P.p) (hp2 : P.p ≤ 1 / 2) (hd : IsDouble P.alpha) (ha : 0 ≤ P.alpha)
    {N fuel : ℕ} (hN : P.alpha ≤ N * 2 ^ (-1074 : ℤ)) (hfu : N < fuel) {k : ℕ} {x : Vec ℚ n} {r : Option (Vec ℚ n × ℕ)}
    (h : Descent binary64 norm f df P fuel k x r) : RepVec binary64 x → r ≠ none := by
  induction h with
  | done => intro _; exact Option.some_ne_none _
  | stuck hb => intro hx; exact absurd rfl (Back.ends (hf _) hx hp hp2 N fuel _ hd ha hN hfu _ hb)
  | last => intro _; exact Option.some_ne_none _
  | more _ _ _ ih => intro _; exact ih (repVec_stepTo _ _ _)
  | next => intro _; exact Option.some_ne_none _

/-! ### Exact arithmetic -/

theorem target_exact {c fx a t : ℚ} {g d : Vec ℚ n} :
    Target exact c fx a g d t ↔ t = fx + c * a * dot g d := by
  have e : ∑ i, exact.rd (exact.rd (c * a) * g i) * d i = c * a * dot g d := by
    unfold dot
    rw [Finset.mul_sum]
    exact Finset.sum_congr rfl fun i _ => by simp [exact]; ring
  unfold Target
  constructor
  · rintro ⟨s, hs, rfl⟩
    rw [dotVal_exact.mp hs, e]
    rfl
  · rintro rfl
    exact ⟨_, dotVal_exact.mpr rfl, by rw [e]; rfl⟩

theorem back_exact {f : Vec ℚ n → ℚ} {P : Params ℚ} {x d g : Vec ℚ n} {m : ℕ} {a : ℚ} {r : Option ℚ} :
    Back exact f P x d g m a r ↔ backtrack f P x d g m a = r := by
  have hs : ∀ a, stepTo exact x a d = x + a • d := fun a => rfl
  constructor
  · intro h
    induction h with
    | out => rfl
    | stop ht hle =>
      rw [target_exact.mp ht, hs] at hle
      simp only [backtrack]
      rw [if_neg hle]
    | shrink ht hgt _ ih =>
      rw [target_exact.mp ht, hs] at hgt
      simp only [backtrack]
      rw [if_pos hgt]
      exact ih
  · intro h
    induction m generalizing a with
    | zero => simp only [backtrack] at h; subst h; exact .out a
    | succ m ih =>
      simp only [backtrack] at h
      split at h
      · rename_i hgt
        exact .shrink (target_exact.mpr rfl) (by rw [hs]; exact hgt) (ih h)
      · rename_i hle
        subst h
        exact .stop (target_exact.mpr rfl) (by rw [hs]; exact hle)

/-- With exact arithmetic and an exact norm this is the model of `Verif/Unconstrained/Model.lean`. -/
theorem descent_exact {norm : Vec ℚ n → ℚ} {f : Vec ℚ n → ℚ} {df : Vec ℚ n → Vec ℚ n} {P : Params ℚ}
    (hn : ∀ g, norm g ≤ P.tolerance ↔ normLe g P.tolerance) {fuel k : ℕ} {x : Vec ℚ n} {r : Option (Vec ℚ n × ℕ)} :
    Descent exact norm f df P fuel k x r ↔ descend f df P fuel k x = r := by
  have hs : ∀ (x d : Vec ℚ n) a, stepTo exact x a d = x + a • d := fun x d a => rfl
  constructor
  · intro h
    induction h with
    | done => rfl
    | stuck hb => simp only [descend, back_exact.mp hb]
    | last hb hle =>
      rw [hn, hs] at hle
      simp only [descend, back_exact.mp hb, hs]
      rw [if_pos hle]
    | more hb hle _ ih =>
      rw [hn, hs] at hle
      rw [hs] at ih
      simp only [descend, back_exact.mp hb]
      rw [if_neg hle, ih]
    | next hb hle _ ih =>
      rw [hn, hs] at hle
      rw [hs] at ih
      simp only [descend, back_exact.mp hb]
      rw [if_neg hle, ih]
  · intro h
    induction k generalizing x r with
    | zero => simp only [descend] at h; subst h; exact .done x
    | succ k ih =>
      simp only [descend] at h
      generalize hb : backtrack f P x (-df x) (df x) fuel P.alpha = b at h
      have hb' := back_exact.mpr hb
      cases b with
      | none => simp only at h; subst h; exact .stuck hb'
      | some a =>
        simp only at h
        split at h
        · rename_i hle
          subst h
          exact .last hb' (by rw [hn, hs]; exact hle)
        · rename_i hle
          generalize hr : descend f df P fuel k (x + a • -df x) = q at h
          have hq := ih hr
          cases q with
          | none => simp only at h; subst h; exact .more hb' (by rw [hn, hs]; exact hle) hq
          | some p => simp only at h; subst h; exact .next hb' (by rw [hn, hs]; exact hle) hq

end Floating
end Pytimize
