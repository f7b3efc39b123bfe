/-
Property C153: `newton_method` in floating point.
-/
import Mathlib.NumberTheory.Real.Irrational
import Verif.Float.Newton
import Verif.Props.NewtonLocal

namespace Pytimize
namespace Props
open Unconstrained Floating LinProg Metric

variable {n : ℕ}

/-- The points `xs 0, …, xs k` of a run: every step adds, with rounding, what the solver gives for the Newton equation,
and only the last point may have a gradient of (computed) norm at most the tolerance; the norm at the start is not looked
at. -/
structure FloatNewtonRun (R : Rounding) (norm : Vec ℚ n → ℚ)
    (solve : Matrix (Fin n) (Fin n) ℚ → Vec ℚ n → Option (Vec ℚ n)) (df : Vec ℚ n → Vec ℚ n)
    (d2f : Vec ℚ n → Matrix (Fin n) (Fin n) ℚ) (t : ℚ) (xs : ℕ → Vec ℚ n) (k : ℕ) : Prop where
  step : ∀ i < k, ∃ d, solve (d2f (xs i)) (-df (xs i)) = some d ∧ ∀ s, xs (i + 1) s = R.rd (xs i s + d s)
  running : ∀ i, 0 < i → i < k → t < norm (df (xs i))

section loop
variable {R : Rounding} {norm : Vec ℚ n → ℚ} {solve : Matrix (Fin n) (Fin n) ℚ → Vec ℚ n → Option (Vec ℚ n)}
  {df : Vec ℚ n → Vec ℚ n} {d2f : Vec ℚ n → Matrix (Fin n) (Fin n) ℚ} {t : ℚ}

theorem FloatNewtonRun.nil (xs : ℕ → Vec ℚ n) : FloatNewtonRun R norm solve df d2f t xs 0 := by
  constructor <;> intro i <;> omega

theorem FloatNewtonRun.cons {x d : Vec ℚ n} (hd : solve (d2f x) (-df x) = some d) {ys : ℕ → Vec ℚ n} {k : ℕ}
    (hy : ys 0 = addTo R x d) (hn : 0 < k → t < norm (df (ys 0))) (h : FloatNewtonRun R norm solve df d2f t ys k) :
    FloatNewtonRun R norm solve df d2f t (fun i => Nat.casesOn i x ys) (k + 1) := by
  refine ⟨?_, ?_⟩
  · intro i hi
    cases i with
    | zero => exact ⟨d, hd, fun s => congrFun hy s⟩
    | succ i => exact h.step i (by omega)
  · intro i h0 hi
    rcases i with _ | _ | i
    · omega
    · exact hn (by omega)
    · exact h.running (i + 1) (by omega) (by omega)

theorem FloatNewtonRun.tail {xs : ℕ → Vec ℚ n} {k : ℕ} (h : FloatNewtonRun R norm solve df d2f t xs (k + 1)) :
    FloatNewtonRun R norm solve df d2f t (fun i => xs (i + 1)) k :=
  ⟨fun i hi => h.step (i + 1) (by omega), fun i _ hi => h.running (i + 1) (by omega) (by omega)⟩

theorem fnewtonLoop_ok : ∀ {k : ℕ} {x y : Vec ℚ n} {j : ℕ}, fnewtonLoop R norm solve df d2f t k x = .ok (y, j) ↔
    j ≤ k ∧ (0 < k → 0 < j) ∧ (j < k → norm (df y) ≤ t) ∧
      ∃ xs : ℕ → Vec ℚ n, xs 0 = x ∧ xs j = y ∧ FloatNewtonRun R norm solve df d2f t xs j
  | 0, x, y, j => by
    rw [fnewtonLoop]
    constructor
    · intro h
      cases h
      exact ⟨le_rfl, id, fun h => absurd h (lt_irrefl _), fun _ => x, rfl, rfl, .nil _⟩
    · rintro ⟨h1, -, -, xs, rfl, rfl, -⟩
      obtain rfl : j = 0 := by omega
      rfl
  | k + 1, x, y, j => by
    rw [fnewtonLoop]
    cases hd : solve (d2f x) (-df x) with
    | none =>
      refine ⟨(fun h => by cases h), ?_⟩
      rintro ⟨-, h2, -, xs, rfl, rfl, h⟩
      obtain ⟨d, h3, -⟩ := h.step 0 (h2 (by omega))
      rw [hd] at h3
      cases h3
    | some d =>
      dsimp only
      have hone : ∀ {xs : ℕ → Vec ℚ n}, xs 0 = x → 0 < j → FloatNewtonRun R norm solve df d2f t xs j →
          xs 1 = addTo R x d := by
        rintro xs rfl hj h
        obtain ⟨d', h3, h4⟩ := h.step 0 hj
        rw [hd] at h3
        cases h3
        exact funext h4
      by_cases hn : norm (df (addTo R x d)) ≤ t
      · rw [if_pos hn]
        constructor
        · intro h
          cases h
          exact ⟨by omega, fun _ => by omega, fun _ => hn, fun i => Nat.casesOn i x fun _ => addTo R x d, rfl, rfl,
            FloatNewtonRun.cons hd rfl (fun h => by omega) (.nil _)⟩
        · rintro ⟨-, h2, -, xs, h3, h4, h⟩
          have h1 := hone h3 (h2 (by omega)) h
          obtain rfl : j = 1 := by
            by_contra hj
            have h5 := h.running 1 (by omega) (by have := h2 (by omega); omega)
            rw [h1] at h5
            exact absurd hn (not_le.mpr h5)
          rw [← h4, h1]
      · rw [if_neg hn]
        have ih : ∀ {y j}, _ := fun {y j} => fnewtonLoop_ok (k := k) (x := addTo R x d) (y := y) (j := j)
        generalize fnewtonLoop R norm solve df d2f t k (addTo R x d) = r at ih
        constructor
        · intro h
          rcases r with e | ⟨y', j'⟩
          · cases h
          · cases h
            obtain ⟨h1, h2, h3, xs, h4, h5, h6⟩ := ih.mp rfl
            exact ⟨by omega, fun _ => by omega, fun h => h3 (by omega), _, rfl, h5,
              h6.cons hd h4 fun _ => by rw [h4]; exact not_le.mp hn⟩
        · rintro ⟨h1, h2, h3, xs, h4, h5, h⟩
          obtain ⟨j, rfl⟩ : ∃ i, j = i + 1 := ⟨j - 1, by have := h2 (by omega); omega⟩
          have h6 := hone h4 (by omega) h
          have : r = .ok (y, j) := by
            refine ih.mpr ⟨by omega, fun hk => ?_, fun h => h3 (by omega), _, h6, h5, h.tail⟩
            rcases Nat.eq_zero_or_pos j with rfl | hj
            · exfalso
              have := h3 (by omega)
              rw [← h5] at this
              exact hn (h6 ▸ this)
            · exact hj
          rw [this]

theorem fnewtonLoop_error : ∀ {k : ℕ} {x : Vec ℚ n} {e : PyErr}, fnewtonLoop R norm solve df d2f t k x = .error e ↔
    e = .linAlgError ∧ ∃ (xs : ℕ → Vec ℚ n) (j : ℕ), j < k ∧ xs 0 = x ∧ FloatNewtonRun R norm solve df d2f t xs j ∧
      (0 < j → t < norm (df (xs j))) ∧ solve (d2f (xs j)) (-df (xs j)) = none
  | 0, x, e => ⟨(fun h => by cases h), fun ⟨_, _, _, h, _⟩ => by omega⟩
  | k + 1, x, e => by
    rw [fnewtonLoop]
    cases hd : solve (d2f x) (-df x) with
    | none =>
      constructor
      · intro h
        cases h
        exact ⟨rfl, fun _ => x, 0, by omega, rfl, .nil _, fun h => by omega, hd⟩
      · rintro ⟨rfl, -⟩
        rfl
    | some d =>
      dsimp only
      have hone : ∀ {xs : ℕ → Vec ℚ n} {j : ℕ}, xs 0 = x → FloatNewtonRun R norm solve df d2f t xs (j + 1) →
          xs 1 = addTo R x d := by
        rintro xs j rfl h
        obtain ⟨d', h3, h4⟩ := h.step 0 (by omega)
        rw [hd] at h3
        cases h3
        exact funext h4
      by_cases hn : norm (df (addTo R x d)) ≤ t
      · rw [if_pos hn]
        refine ⟨(fun h => by cases h), ?_⟩
        rintro ⟨-, xs, j, h1, h2, h3, h4, h5⟩
        exfalso
        rcases j with _ | j
        · rw [h2, hd] at h5; cases h5
        · have h6 := hone h2 h3
          have h7 : t < norm (df (xs 1)) := by
            rcases j with _ | j
            · exact h4 (by omega)
            · exact h3.running 1 (by omega) (by omega)
          rw [h6] at h7
          exact absurd hn (not_le.mpr h7)
      · rw [if_neg hn]
        have ih : ∀ {e}, _ := fun {e} => fnewtonLoop_error (k := k) (x := addTo R x d) (e := e)
        generalize fnewtonLoop R norm solve df d2f t k (addTo R x d) = r at ih
        constructor
        · intro h
          rcases r with e' | ⟨y', j'⟩
          · cases h
            obtain ⟨rfl, xs, j, h1, h2, h3, h4, h5⟩ := ih.mp rfl
            refine ⟨rfl, _, j + 1, by omega, rfl, h3.cons hd h2 fun _ => by rw [h2]; exact not_le.mp hn, fun _ => ?_, h5⟩
            show t < norm (df (xs j))
            rcases Nat.eq_zero_or_pos j with rfl | hj
            · rw [h2]; exact not_le.mp hn
            · exact h4 hj
          · cases h
        · rintro ⟨rfl, xs, j, h1, h2, h3, h4, h5⟩
          rcases j with _ | j
          · rw [h2, hd] at h5; cases h5
          · have : r = .error .linAlgError :=
              ih.mpr ⟨rfl, fun i => xs (i + 1), j, by omega, hone h2 h3, h3.tail, fun _ => h4 (by omega), h5⟩
            rw [this]

/-- C153: `newton_method` returns with `j` iterations exactly if there is a run of `j` steps from the start, at most
`max_iteration` and at least one if any is allowed, such that the computed norm is at most the tolerance at its end
unless `j` is `max_iteration`. The array of the caller then holds the end of the run, and so does the result for a
function to minimise; for one to maximise the result is its negative. -/
theorem C153_returns (f : Vec ℚ n → ℚ) (objective : String) (x : Vec ℚ n) (maxIter : ℕ) (o : Outcome ℚ n) :
    fnewtonMethod R norm solve (construct f objective) x df d2f t maxIter = .ok o ↔
      o.iterations ≤ maxIter ∧ (0 < maxIter → 0 < o.iterations) ∧
      (o.iterations < maxIter → norm (df o.start) ≤ t) ∧
      (o.result = if objective = "min" then o.start else -o.start) ∧
      ∃ xs : ℕ → Vec ℚ n, xs 0 = x ∧ xs o.iterations = o.start ∧
        FloatNewtonRun R norm solve df d2f t xs o.iterations := by
  unfold fnewtonMethod
  have hl : ∀ {y j}, _ := fun {y j} => fnewtonLoop_ok (R := R) (norm := norm) (solve := solve) (df := df) (d2f := d2f)
    (t := t) (k := maxIter) (x := x) (y := y) (j := j)
  generalize fnewtonLoop R norm solve df d2f t maxIter x = r at hl
  obtain ⟨res, st, it⟩ := o
  constructor
  · intro h
    rcases r with e | ⟨y, j⟩
    · cases h
    · obtain ⟨h1, h2, h3, h4⟩ := hl.mp rfl
      cases h
      refine ⟨h1, h2, h3, ?_, h4⟩
      by_cases ho : objective = "min" <;> simp [construct, ho]
  · rintro ⟨h1, h2, h3, h4, h5⟩
    dsimp only at h1 h2 h3 h4 h5
    rw [hl.mpr ⟨h1, h2, h3, h5⟩, h4]
    by_cases ho : objective = "min" <;> simp [construct, finish, ho]

/-- C153: it raises exactly if fewer than `max_iteration` steps lead to a point at which the solver raises before the
tolerance is met, and then it raises `LinAlgError`. -/
theorem C153_raises (f : Vec ℚ n → ℚ) (objective : String) (x : Vec ℚ n) (maxIter : ℕ) (e : PyErr) :
    fnewtonMethod R norm solve (construct f objective) x df d2f t maxIter = .error e ↔
      e = .linAlgError ∧ ∃ (xs : ℕ → Vec ℚ n) (j : ℕ), j < maxIter ∧ xs 0 = x ∧
        FloatNewtonRun R norm solve df d2f t xs j ∧ (0 < j → t < norm (df (xs j))) ∧
        solve (d2f (xs j)) (-df (xs j)) = none := by
  rw [← fnewtonLoop_error]
  unfold fnewtonMethod
  generalize fnewtonLoop R norm solve df d2f t maxIter x = r
  rcases r with e' | ⟨y, j⟩
  · exact ⟨(fun h => by cases h; rfl), (fun h => by cases h; rfl)⟩
  · exact ⟨(fun h => by cases h), (fun h => by cases h)⟩

/-- C153: with exact sums, an exact solver and an exact norm this is the method of C112. -/
theorem C153_exact (hs : ∀ A b, solve A b = if A.det = 0 then none else some (A⁻¹.mulVec b))
    (hn : ∀ g, norm g ≤ t ↔ 0 ≤ t ∧ ∑ s, g s ^ 2 ≤ t ^ 2) (P : Program ℚ n) (x : Vec ℚ n) (maxIter : ℕ) :
    fnewtonMethod exact norm solve P x df d2f t maxIter = newtonMethod P x df d2f t maxIter := by
  have : ∀ k x, fnewtonLoop exact norm solve df d2f t k x = newtonLoop df d2f t k x := by
    intro k
    induction k with
    | zero => intro x; rfl
    | succ k ih =>
      intro x
      rw [fnewtonLoop, newtonLoop, hs]
      by_cases hd : (d2f x).det = 0
      · rw [if_pos hd, if_pos hd]
      · rw [if_neg hd, if_neg hd]
        dsimp only
        have e : addTo exact x ((d2f x)⁻¹.mulVec (-df x)) = x + (d2f x)⁻¹.mulVec (-df x) := rfl
        rw [e, ih]
        by_cases hc : normLe (df (x + (d2f x)⁻¹.mulVec (-df x))) t
        · rw [if_pos hc, if_pos ((hn _).mpr (normLe_iff.mp hc))]
        · rw [if_neg hc, if_neg fun h => hc (normLe_iff.mpr ((hn _).mp h))]
          generalize newtonLoop df d2f t k _ = r
          rcases r with e | ⟨y, j⟩ <;> rfl
  unfold fnewtonMethod newtonMethod
  rw [this]
  generalize newtonLoop df d2f t maxIter x = r
  rcases r with e | ⟨y, j⟩ <;> rfl

end loop

/-! ### Local convergence -/

/-- The real vector of a vector of floats. -/
def toReal (x : Vec ℚ n) : Vec ℝ n := fun i => (x i : ℝ)

/-- At the floats of the ball: the errors of the computed gradient and Hessian, and the residual of the solver, which does
not raise. -/
structure NewtonNoise (R : Rounding) (solve : Matrix (Fin n) (Fin n) ℚ → Vec ℚ n → Option (Vec ℚ n))
    (cdf : Vec ℚ n → Vec ℚ n) (cd2f : Vec ℚ n → Matrix (Fin n) (Fin n) ℚ) (df : Vec ℝ n → Vec ℝ n)
    (d2f : Vec ℝ n → Matrix (Fin n) (Fin n) ℝ) (p : Vec ℝ n) (r εg εh εs : ℝ) : Prop where
  gradient : ∀ x, RepVec R x → ‖toReal x - p‖ ≤ r → ‖toReal (cdf x) - df (toReal x)‖ ≤ εg
  hessian : ∀ x, RepVec R x → ‖toReal x - p‖ ≤ r → ∀ v : Vec ℝ n,
    ‖((cd2f x).map fun q => (q : ℝ)).mulVec v - (d2f (toReal x)).mulVec v‖ ≤ εh * ‖v‖
  solver : ∀ x, RepVec R x → ‖toReal x - p‖ ≤ r → ∃ d, solve (cd2f x) (-cdf x) = some d ∧
    ‖((cd2f x).map fun q => (q : ℝ)).mulVec (toReal d) + toReal (cdf x)‖ ≤ εs

variable {R : Rounding} {norm : Vec ℚ n → ℚ} {solve : Matrix (Fin n) (Fin n) ℚ → Vec ℚ n → Option (Vec ℚ n)}
  {cdf : Vec ℚ n → Vec ℚ n} {cd2f : Vec ℚ n → Matrix (Fin n) (Fin n) ℚ} {t : ℚ}
  {df : Vec ℝ n → Vec ℝ n} {d2f : Vec ℝ n → Matrix (Fin n) (Fin n) ℝ} {p : Vec ℝ n} {r M β εg εh εs : ℝ}

/-- What rounding leaves of the error: the distance to the stationary point cannot be expected to become smaller. -/
noncomputable def newtonFloor (R : Rounding) (p : Vec ℝ n) (β εg εs : ℝ) : ℝ :=
  6 / 5 * (β * (εs + εg)) + R.u * ‖p‖ + R.tiny

/-- C153: one step. In the ball of C113, if the Hessian is not too inexact, the new error is at most a constant times the
square of the old one, plus what the inexact Hessian makes of the old error, plus the floor. -/
theorem C153_step (hB : NewtonBall df d2f p r M β) (hN : NewtonNoise R solve cdf cd2f df d2f p r εg εh εs)
    (hu : R.u ≤ 1 / 20) (hh : β * εh ≤ 1 / 8) (hh0 : 0 ≤ εh) {x d : Vec ℚ n} (hx : RepVec R x)
    (hr : ‖toReal x - p‖ ≤ r) (hd : solve (cd2f x) (-cdf x) = some d) :
    ‖toReal (addTo R x d) - p‖ ≤
      6 / 5 * (β * M * ‖toReal x - p‖ ^ 2 + β * εh * ‖toReal x - p‖) + newtonFloor R p β εg εs := by
  have hxb : toReal x ∈ closedBall p r := mem_closedBall_iff_norm.mpr hr
  set X := toReal x with hX
  set D := toReal d with hD
  set w := ‖X + D - p‖ with hw
  set e := ‖X - p‖ with he
  have h1 := hN.gradient x hx hr
  have h2 := hN.hessian x hx hr D
  obtain ⟨d', hd', h3⟩ := hN.solver x hx hr
  rw [hd] at hd'
  cases hd'
  have hDn : ‖D‖ ≤ w + e := by
    have : D = (X + D - p) - (X - p) := by abel
    calc ‖D‖ = ‖(X + D - p) - (X - p)‖ := by rw [← this]
      _ ≤ w + e := norm_sub_le _ _
  have h4 : ‖(d2f X).mulVec D + df X‖ ≤ εs + εh * (w + e) + εg := by
    have e1 : (d2f X).mulVec D + df X = (((cd2f x).map fun q => (q : ℝ)).mulVec D + toReal (cdf x)) -
        (((cd2f x).map fun q => (q : ℝ)).mulVec D - (d2f X).mulVec D) - (toReal (cdf x) - df X) := by abel
    rw [e1]
    have h5 := norm_sub_le ((((cd2f x).map fun q => (q : ℝ)).mulVec D + toReal (cdf x)) -
        (((cd2f x).map fun q => (q : ℝ)).mulVec D - (d2f X).mulVec D)) (toReal (cdf x) - df X)
    have h6 := norm_sub_le (((cd2f x).map fun q => (q : ℝ)).mulVec D + toReal (cdf x))
        (((cd2f x).map fun q => (q : ℝ)).mulVec D - (d2f X).mulVec D)
    have h7 : εh * ‖D‖ ≤ εh * (w + e) := mul_le_mul_of_nonneg_left hDn hh0
    linarith
  have h5 : w ≤ β * (M * e ^ 2 + (εs + εh * (w + e) + εg)) := by
    refine (hB.regular X hxb (X + D - p)).trans ?_
    have e1 : (d2f X).mulVec (X + D - p) = ((d2f X).mulVec D + df X) - (df X + (d2f X).mulVec (p - X)) := by
      rw [Matrix.mulVec_sub, Matrix.mulVec_sub, Matrix.mulVec_add]
      abel
    rw [e1]
    refine mul_le_mul_of_nonneg_left ?_ hB.regular_nonneg
    refine (norm_sub_le _ _).trans ?_
    linarith [hB.taylor hxb]
  have hw0 : 0 ≤ w := norm_nonneg _
  have he0 : 0 ≤ e := norm_nonneg _
  have h6 : w ≤ 8 / 7 * (β * M * e ^ 2 + β * εh * e + β * (εs + εg)) := by
    have : β * εh * w ≤ 1 / 8 * w := mul_le_mul_of_nonneg_right hh hw0
    nlinarith
  have hu0 : (0 : ℝ) ≤ R.u := by exact_mod_cast R.u_nonneg
  have ht0 : (0 : ℝ) ≤ R.tiny := by exact_mod_cast R.tiny_nonneg
  have hu' : (R.u : ℝ) ≤ 1 / 20 := by
    have : ((R.u : ℚ) : ℝ) ≤ ((1 / 20 : ℚ) : ℝ) := by exact_mod_cast hu
    simpa using this
  have h7 : ‖toReal (addTo R x d) - (X + D)‖ ≤ R.u * (w + ‖p‖) + R.tiny := by
    refine (pi_norm_le_iff_of_nonneg (by positivity)).mpr fun i => ?_
    have h8 := R.err (x i + d i)
    have h9 : |(R.rd (x i + d i) : ℝ) - ((x i : ℝ) + d i)| ≤ R.u * |(x i : ℝ) + d i| + R.tiny := by exact_mod_cast h8
    have h10 : |(x i : ℝ) + d i| ≤ w + ‖p‖ := by
      have h11 := norm_le_pi_norm (X + D) i
      have h12 : ‖X + D‖ ≤ w + ‖p‖ := by
        have := norm_add_le (X + D - p) p
        simpa using this
      rw [Real.norm_eq_abs] at h11
      exact h11.trans h12
    rw [Real.norm_eq_abs]
    refine h9.trans ?_
    gcongr
  have h8 : ‖toReal (addTo R x d) - p‖ ≤ ‖toReal (addTo R x d) - (X + D)‖ + w := by
    have := norm_add_le (toReal (addTo R x d) - (X + D)) (X + D - p)
    rwa [sub_add_sub_cancel] at this
  unfold newtonFloor
  have h9 : (1 + (R.u : ℝ)) * w ≤ 21 / 20 * w := mul_le_mul_of_nonneg_right (by linarith) hw0
  nlinarith

theorem floatNewton_le (hB : NewtonBall df d2f p r M β) (hN : NewtonNoise R solve cdf cd2f df d2f p r εg εh εs)
    (hu : R.u ≤ 1 / 20) (hh : β * εh ≤ 1 / 8) (hh0 : 0 ≤ εh) {x d : Vec ℚ n} (hx : RepVec R x)
    (hr : ‖toReal x - p‖ ≤ r) (hd : solve (cd2f x) (-cdf x) = some d) :
    ‖toReal (addTo R x d) - p‖ ≤ 3 / 4 * ‖toReal x - p‖ + newtonFloor R p β εg εs := by
  have h1 := C153_step hB hN hu hh hh0 hx hr hd
  have he0 : 0 ≤ ‖toReal x - p‖ := norm_nonneg _
  have h2 : β * M * ‖toReal x - p‖ ^ 2 ≤ 1 / 2 * ‖toReal x - p‖ := by
    have h3 : β * M * ‖toReal x - p‖ ≤ β * M * r :=
      mul_le_mul_of_nonneg_left hr (mul_nonneg hB.regular_nonneg hB.lipschitz_nonneg)
    have h4 := hB.small
    nlinarith
  have h3 : β * εh * ‖toReal x - p‖ ≤ 1 / 8 * ‖toReal x - p‖ := mul_le_mul_of_nonneg_right hh he0
  linarith

theorem floatNewton_run (hB : NewtonBall df d2f p r M β) (hN : NewtonNoise R solve cdf cd2f df d2f p r εg εh εs)
    (hu : R.u ≤ 1 / 20) (hh : β * εh ≤ 1 / 8) (hh0 : 0 ≤ εh) (hf : 4 * newtonFloor R p β εg εs ≤ r)
    {xs : ℕ → Vec ℚ n} {k : ℕ} (h : FloatNewtonRun R norm solve cdf cd2f t xs k) (h0 : RepVec R (xs 0))
    (hr : ‖toReal (xs 0) - p‖ ≤ r) : ∀ i ≤ k, RepVec R (xs i) ∧ ‖toReal (xs i) - p‖ ≤ r ∧
      ‖toReal (xs i) - p‖ ≤ (3 / 4) ^ i * r + 4 * newtonFloor R p β εg εs
  | 0, _ => ⟨h0, hr, by
      have : 0 ≤ newtonFloor R p β εg εs := by
        obtain ⟨d, hd, h1⟩ := hN.solver _ h0 hr
        have h2 := hN.gradient _ h0 hr
        have hs := (norm_nonneg _).trans h1
        have hg := (norm_nonneg _).trans h2
        have hu0 : (0 : ℝ) ≤ R.u := by exact_mod_cast R.u_nonneg
        have ht0 : (0 : ℝ) ≤ R.tiny := by exact_mod_cast R.tiny_nonneg
        have := hB.regular_nonneg
        unfold newtonFloor
        positivity
      simp only [pow_zero, one_mul]
      linarith⟩
  | i + 1, hk => by
    obtain ⟨h1, h2, h3⟩ := floatNewton_run hB hN hu hh hh0 hf h h0 hr i (by omega)
    obtain ⟨d, hd, hs⟩ := h.step i (by omega)
    have e : xs (i + 1) = addTo R (xs i) d := funext hs
    have h4 := floatNewton_le hB hN hu hh hh0 h1 h2 hd
    rw [e]
    refine ⟨fun s => R.idem _, by linarith, ?_⟩
    rw [pow_succ]
    linarith

/-- C153: from every start in the ball `newton_method` raises nothing, and after `k` iterations the distance to the
stationary point is at most `(3/4) ^ k` times the radius plus four times the floor. -/
theorem C153_near (hB : NewtonBall df d2f p r M β) (hN : NewtonNoise R solve cdf cd2f df d2f p r εg εh εs)
    (hu : R.u ≤ 1 / 20) (hh : β * εh ≤ 1 / 8) (hh0 : 0 ≤ εh) (hf : 4 * newtonFloor R p β εg εs ≤ r)
    (f : Vec ℚ n → ℚ) {x : Vec ℚ n} (hx : RepVec R x) (hr : ‖toReal x - p‖ ≤ r) (maxIter : ℕ) :
    ∃ o, fnewtonMethod R norm solve (construct f "min") x cdf cd2f t maxIter = .ok o ∧
      ‖toReal o.result - p‖ ≤ r ∧
      ‖toReal o.result - p‖ ≤ (3 / 4) ^ o.iterations * r + 4 * newtonFloor R p β εg εs := by
  generalize hq : fnewtonMethod R norm solve (construct f "min") x cdf cd2f t maxIter = q
  cases q with
  | error e =>
    exfalso
    obtain ⟨-, xs, j, -, h2, h3, -, h5⟩ := (C153_raises f "min" x maxIter e).mp hq
    rw [← h2] at hx hr
    obtain ⟨g1, g2, -⟩ := floatNewton_run hB hN hu hh hh0 hf h3 hx hr j le_rfl
    obtain ⟨d, hd, -⟩ := hN.solver _ g1 g2
    rw [h5] at hd
    cases hd
  | ok o =>
    obtain ⟨-, -, -, h4, xs, h5, h6, h7⟩ := (C153_returns f "min" x maxIter o).mp hq
    rw [if_pos rfl] at h4
    rw [← h5] at hx hr
    obtain ⟨-, g2, g3⟩ := floatNewton_run hB hN hu hh hh0 hf h7 hx hr _ le_rfl
    rw [h6, ← h4] at g2 g3
    exact ⟨o, rfl, g2, g3⟩

/-- C153: if the tolerance is above what the computed norm can be at the floor, the method stops there: there is a number
of iterations, the same for all starts in the ball, after which the computed norm of the computed gradient is at most the
tolerance. -/
theorem C153_stops (hB : NewtonBall df d2f p r M β) (hN : NewtonNoise R solve cdf cd2f df d2f p r εg εh εs)
    (hu : R.u ≤ 1 / 20) (hh : β * εh ≤ 1 / 8) (hh0 : 0 ≤ εh) (hf : 4 * newtonFloor R p β εg εs ≤ r)
    {B ν : ℝ} (hB0 : 0 ≤ B) (hg : ∀ y, ‖y - p‖ ≤ r → ‖df y‖ ≤ B * ‖y - p‖) (hν : 0 ≤ ν)
    (hn : ∀ g, (norm g : ℝ) ≤ ν * ‖toReal g‖) (ht : ν * (B * (4 * newtonFloor R p β εg εs) + εg) < t)
    (f : Vec ℚ n → ℚ) :
    ∃ N, ∀ x, RepVec R x → ‖toReal x - p‖ ≤ r → ∀ maxIter ≥ N,
      ∃ o, fnewtonMethod R norm solve (construct f "min") x cdf cd2f t maxIter = .ok o ∧ o.iterations ≤ N ∧
        norm (cdf o.result) ≤ t := by
  have hr0 := hB.radius_pos
  obtain ⟨N, hN'⟩ := exists_pow_lt_of_lt_one (y := (3 : ℝ) / 4)
    (show 0 < ((t : ℝ) - ν * (B * (4 * newtonFloor R p β εg εs) + εg)) / (ν * B * r + 1) from
      div_pos (by linarith) (by positivity)) (by norm_num)
  rw [lt_div_iff₀ (by positivity)] at hN'
  have hbound : ∀ i ≥ N, ∀ y, RepVec R y → ‖toReal y - p‖ ≤ r →
      ‖toReal y - p‖ ≤ (3 / 4) ^ i * r + 4 * newtonFloor R p β εg εs → norm (cdf y) ≤ t := by
    intro i hi y hy hyr hd
    have h1 : ((3 : ℝ) / 4) ^ i ≤ (3 / 4) ^ N := pow_le_pow_of_le_one (by norm_num) (by norm_num) hi
    have h2 : ‖toReal (cdf y)‖ ≤ B * ((3 / 4) ^ N * r + 4 * newtonFloor R p β εg εs) + εg := by
      have h3 := hN.gradient y hy hyr
      have h4 := hg _ hyr
      have h5 : ‖toReal (cdf y)‖ ≤ ‖toReal (cdf y) - df (toReal y)‖ + ‖df (toReal y)‖ := by
        simpa using norm_add_le (toReal (cdf y) - df (toReal y)) (df (toReal y))
      have h6 : ‖toReal y - p‖ ≤ (3 / 4) ^ N * r + 4 * newtonFloor R p β εg εs := by
        refine hd.trans ?_
        gcongr
      have := mul_le_mul_of_nonneg_left h6 hB0
      linarith
    have h3 : (norm (cdf y) : ℝ) ≤ ν * (B * ((3 / 4) ^ N * r + 4 * newtonFloor R p β εg εs) + εg) :=
      (hn _).trans (mul_le_mul_of_nonneg_left h2 hν)
    have h4 : (0 : ℝ) < (3 / 4) ^ N := by positivity
    have h5 : (norm (cdf y) : ℝ) ≤ t := by nlinarith
    exact_mod_cast h5
  refine ⟨N + 1, fun x hx hr maxIter hm => ?_⟩
  obtain ⟨o, h1, -, -⟩ := C153_near (norm := norm) (t := t) hB hN hu hh hh0 hf f hx hr maxIter
  obtain ⟨g1, -, g3, g4, xs, g5, g6, g7⟩ := (C153_returns f "min" x maxIter o).mp h1
  rw [if_pos rfl] at g4
  rw [← g5] at hx hr
  have hrun := floatNewton_run hB hN hu hh hh0 hf g7 hx hr
  have hit : o.iterations ≤ N + 1 := by
    by_contra hcon
    obtain ⟨k1, k2, k3⟩ := hrun (N + 1) (by omega)
    exact absurd (hbound (N + 1) (by omega) _ k1 k2 k3) (not_le.mpr (g7.running (N + 1) (by omega) (by omega)))
  refine ⟨o, h1, hit, ?_⟩
  rcases lt_or_ge o.iterations maxIter with hlt | hge
  · rw [g4]; exact g3 hlt
  · obtain ⟨k1, k2, k3⟩ := hrun o.iterations le_rfl
    have := hbound o.iterations (by omega) _ k1 k2 k3
    rwa [g6, ← g4] at this

/-- C153: what the stopping rule guarantees. If the method, started in the ball, ends before `max_iteration`, the
distance of the result from the stationary point is at most `2 β` times the tolerance and the error of the gradient. -/
theorem C153_accuracy (hB : NewtonBall df d2f p r M β) (hN : NewtonNoise R solve cdf cd2f df d2f p r εg εh εs)
    (hu : R.u ≤ 1 / 20) (hh : β * εh ≤ 1 / 8) (hh0 : 0 ≤ εh) (hf : 4 * newtonFloor R p β εg εs ≤ r)
    {μ : ℝ} (hμ : 0 ≤ μ) (hn : ∀ g, ‖toReal g‖ ≤ μ * norm g) (f : Vec ℚ n → ℚ) {x : Vec ℚ n} (hx : RepVec R x)
    (hr : ‖toReal x - p‖ ≤ r) {maxIter : ℕ} {o : Outcome ℚ n}
    (ho : fnewtonMethod R norm solve (construct f "min") x cdf cd2f t maxIter = .ok o) (hlt : o.iterations < maxIter) :
    ‖toReal o.result - p‖ ≤ 2 * β * (μ * t + εg) := by
  obtain ⟨-, -, g3, g4, xs, g5, g6, g7⟩ := (C153_returns f "min" x maxIter o).mp ho
  rw [if_pos rfl] at g4
  rw [← g5] at hx hr
  obtain ⟨k1, k2, -⟩ := floatNewton_run hB hN hu hh hh0 hf g7 hx hr _ le_rfl
  rw [g6, ← g4] at k1 k2
  have h1 := g3 hlt
  rw [← g4] at h1
  have h2 := hN.gradient _ k1 k2
  have h3 : ‖toReal (cdf o.result)‖ ≤ μ * t :=
    (hn _).trans (mul_le_mul_of_nonneg_left (by exact_mod_cast h1) hμ)
  have h4 : ‖df (toReal o.result)‖ ≤ μ * t + εg := by
    have := norm_sub_le (toReal (cdf o.result)) (toReal (cdf o.result) - df (toReal o.result))
    rw [sub_sub_cancel] at this
    linarith
  have hxb : toReal o.result ∈ closedBall p r := mem_closedBall_iff_norm.mpr k2
  set X := toReal o.result
  have h5 := hB.regular X hxb (X - p)
  have h6 : ‖(d2f X).mulVec (X - p)‖ ≤ ‖df X‖ + M * ‖X - p‖ ^ 2 := by
    have e1 : (d2f X).mulVec (X - p) = df X - (df X + (d2f X).mulVec (p - X)) := by
      rw [Matrix.mulVec_sub, Matrix.mulVec_sub]
      abel
    rw [e1]
    exact (norm_sub_le _ _).trans (by linarith [hB.taylor hxb])
  have h7 := mul_le_mul_of_nonneg_left (h6.trans (add_le_add_left h4 _)) hB.regular_nonneg
  have h8 : β * M * ‖X - p‖ ^ 2 ≤ 1 / 2 * ‖X - p‖ := by
    have h3 : β * M * ‖X - p‖ ≤ β * M * r :=
      mul_le_mul_of_nonneg_left k2 (mul_nonneg hB.regular_nonneg hB.lipschitz_nonneg)
    have h4 := hB.small
    have := norm_nonneg (X - p)
    nlinarith
  linarith

/-- C153: below the floor the method need not stop early. For the derivative `x² - 2`, even computed without error, the
tolerance 0 is never met, whatever the solver and the rounding. -/
theorem C153_floor {norm : Vec ℚ 1 → ℚ} {solve : Matrix (Fin 1) (Fin 1) ℚ → Vec ℚ 1 → Option (Vec ℚ 1)}
    (hn : ∀ g, norm g ≤ 0 → g = 0) (f : Vec ℚ 1 → ℚ) (d2f : Vec ℚ 1 → Matrix (Fin 1) (Fin 1) ℚ) (x : Vec ℚ 1)
    (maxIter : ℕ) {o : Outcome ℚ 1}
    (h : fnewtonMethod R norm solve (construct f "min") x (fun x _ => x 0 ^ 2 - 2) d2f 0 maxIter = .ok o) :
    o.iterations = maxIter := by
  obtain ⟨h1, -, h3, -⟩ := (C153_returns f "min" x maxIter o).mp h
  rcases lt_or_eq_of_le h1 with hlt | heq
  · exfalso
    have h4 := congrFun (hn _ (h3 hlt)) 0
    have h5 : o.start 0 ^ 2 = 2 := by
      have : o.start 0 ^ 2 - 2 = 0 := h4
      linarith
    have h6 : (((o.start 0 : ℚ) : ℝ)) ^ 2 = 2 := by exact_mod_cast h5
    have h7 : |((o.start 0 : ℚ) : ℝ)| = Real.sqrt 2 := by rw [← h6, Real.sqrt_sq_eq_abs]
    exact irrational_sqrt_two ⟨|o.start 0|, by rw [← h7]; push_cast; rfl⟩
  · exact heq

/-- The double-precision callbacks for `x ^ 3 / 3 - x`: `[x[0] ** 2 - 1]` and `[[2 * x[0]]]`, and a solver for 1 × 1 systems. -/
def cubeDf (x : Vec ℚ 1) : Vec ℚ 1 := fun _ => binary64.rd (binary64.rd (x 0 ^ 2) - 1)

def cubeSolve (A : Matrix (Fin 1) (Fin 1) ℚ) (b : Vec ℚ 1) : Option (Vec ℚ 1) :=
  if A 0 0 = 0 then none else some fun _ => binary64.rd (b 0 / A 0 0)

theorem cube_ball : NewtonBall (n := 1) (fun x _ => x 0 ^ 2 - 1) (fun x => !![2 * x 0]) (fun _ => 1) (1 / 4) 2 (2 / 3) where
  stationary := by funext s; simp
  hessian := by
    intro x _
    rw [hasFDerivAt_pi']
    intro i
    have h1 : HasFDerivAt (fun x : Vec ℝ 1 => x 0) (ContinuousLinearMap.proj (R := ℝ) 0) x :=
      hasFDerivAt_apply 0 x
    refine ((h1.pow 2).sub_const 1).congr_fderiv ?_
    ext v
    fin_cases i
    simp [hessMap_apply, dotProduct]
  lipschitz := by
    intro x _ y _ v
    have e : (!![2 * x 0] : Matrix (Fin 1) (Fin 1) ℝ).mulVec v - (!![2 * y 0] : Matrix (Fin 1) (Fin 1) ℝ).mulVec v =
        (2 * (x 0 - y 0)) • v := by
      funext i
      fin_cases i
      simp [dotProduct]
      ring
    rw [e, norm_smul, norm_mul]
    have := norm_le_pi_norm (x - y) 0
    gcongr
    · simp
    · exact this
  regular := by
    intro x hx v
    have e : (!![2 * x 0] : Matrix (Fin 1) (Fin 1) ℝ).mulVec v = (2 * x 0) • v := by
      funext i
      fin_cases i
      simp [dotProduct]
    have h1 := norm_le_pi_norm (x - fun _ => 1) 0
    have h2 := h1.trans (mem_closedBall_iff_norm.mp hx)
    rw [Real.norm_eq_abs, abs_le] at h2
    have h3 : (3 : ℝ) / 4 ≤ x 0 := by
      have : -(1 / 4 : ℝ) ≤ x 0 - 1 := h2.1
      linarith
    rw [e, norm_smul, Real.norm_eq_abs, abs_of_nonneg (by linarith)]
    nlinarith [norm_nonneg v]
  lipschitz_nonneg := by norm_num
  regular_nonneg := by norm_num
  radius_pos := by norm_num
  small := by norm_num

theorem binary64_u : binary64.u ≤ 1 / 10 ^ 15 / 8 := by show ((1 : ℚ) / 2 ^ 53) ≤ _; norm_num

theorem binary64_tiny : binary64.tiny ≤ 1 / 10 ^ 15 / 1000 := by
  show ((1 : ℚ) / 2 ^ 1075) ≤ _
  have : ((2 : ℚ) ^ 60) ≤ 2 ^ 1075 := pow_le_pow_right₀ (by norm_num) (by norm_num)
  exact (one_div_le_one_div_of_le (by positivity) this).trans (by norm_num)

theorem binary64_err (x : ℚ) : |binary64.rd x - x| ≤ 1 / 10 ^ 15 / 8 * |x| + 1 / 10 ^ 15 / 1000 := by
  refine (binary64.err x).trans ?_
  gcongr
  · exact binary64_u
  · exact binary64_tiny

theorem cube_noise : NewtonNoise (n := 1) binary64 cubeSolve cubeDf (fun x => !![2 * x 0]) (fun x _ => x 0 ^ 2 - 1)
    (fun x => !![2 * x 0]) (fun _ => 1) (1 / 4) (1 / 10 ^ 15) 0 (1 / 10 ^ 15) := by
  have hx0 : ∀ x : Vec ℚ 1, ‖toReal x - fun _ => 1‖ ≤ 1 / 4 → 3 / 4 ≤ x 0 ∧ x 0 ≤ 5 / 4 := by
    intro x hx
    have h1 := (norm_le_pi_norm (toReal x - fun _ => 1) 0).trans hx
    rw [Real.norm_eq_abs] at h1
    have h2 : |(x 0 : ℝ) - 1| ≤ 1 / 4 := h1
    have h3 : |x 0 - 1| ≤ 1 / 4 := by
      have : ((|x 0 - 1| : ℚ) : ℝ) ≤ ((1 / 4 : ℚ) : ℝ) := by push_cast; linarith
      exact_mod_cast this
    rw [abs_le] at h3
    constructor <;> linarith
  have hg : ∀ x : Vec ℚ 1, 3 / 4 ≤ x 0 → x 0 ≤ 5 / 4 → |cubeDf x 0 - (x 0 ^ 2 - 1)| ≤ 1 / 10 ^ 15 / 2 := by
    intro x h1 h2
    have h3 := binary64_err (x 0 ^ 2)
    have h4 := binary64_err (binary64.rd (x 0 ^ 2) - 1)
    have h5 : |x 0 ^ 2| ≤ 25 / 16 := by rw [abs_of_nonneg (by positivity)]; nlinarith
    have h6 : |x 0 ^ 2 - 1| ≤ 9 / 16 := by rw [abs_le]; constructor <;> nlinarith
    have h7 : |binary64.rd (x 0 ^ 2) - 1| ≤ |binary64.rd (x 0 ^ 2) - x 0 ^ 2| + |x 0 ^ 2 - 1| := abs_sub_le _ _ _
    have h8 : |cubeDf x 0 - (x 0 ^ 2 - 1)| ≤
        |cubeDf x 0 - (binary64.rd (x 0 ^ 2) - 1)| + |binary64.rd (x 0 ^ 2) - 1 - (x 0 ^ 2 - 1)| := abs_sub_le _ _ _
    rw [show binary64.rd (x 0 ^ 2) - 1 - (x 0 ^ 2 - 1) = binary64.rd (x 0 ^ 2) - x 0 ^ 2 by ring] at h8
    have h9 : |cubeDf x 0 - (binary64.rd (x 0 ^ 2) - 1)| ≤
        1 / 10 ^ 15 / 8 * |binary64.rd (x 0 ^ 2) - 1| + 1 / 10 ^ 15 / 1000 := h4
    norm_num at *
    linarith
  refine ⟨?_, ?_, ?_⟩
  · intro x _ hx
    obtain ⟨h1, h2⟩ := hx0 x hx
    have h3 := hg x h1 h2
    refine (pi_norm_le_iff_of_nonneg (by positivity)).mpr fun i => ?_
    rw [Real.norm_eq_abs]
    have h4 : |(cubeDf x 0 : ℝ) - ((x 0 : ℝ) ^ 2 - 1)| ≤ 1 / 10 ^ 15 / 2 := by
      have : ((|cubeDf x 0 - (x 0 ^ 2 - 1)| : ℚ) : ℝ) ≤ ((1 / 10 ^ 15 / 2 : ℚ) : ℝ) := by exact_mod_cast h3
      push_cast at this
      exact this
    fin_cases i
    refine h4.trans ?_
    norm_num
  · intro x _ hx v
    rw [zero_mul]
    refine le_of_eq (norm_eq_zero.mpr ?_)
    funext i
    fin_cases i
    simp [toReal, Matrix.mulVec, dotProduct]
  · intro x _ hx
    obtain ⟨h1, h2⟩ := hx0 x hx
    have hne : 2 * x 0 ≠ 0 := by intro h; linarith
    refine ⟨fun _ => binary64.rd (-cubeDf x 0 / (2 * x 0)), ?_, ?_⟩
    · show (if 2 * x 0 = 0 then none else _) = _
      rw [if_neg hne]
      rfl
    · have h3 := binary64_err (-cubeDf x 0 / (2 * x 0))
      have h4 := hg x h1 h2
      have h6 : |x 0 ^ 2 - 1| ≤ 9 / 16 := by rw [abs_le]; constructor <;> nlinarith
      have h7 : |cubeDf x 0| ≤ |cubeDf x 0 - (x 0 ^ 2 - 1)| + |x 0 ^ 2 - 1| := by
        have := abs_add_le (cubeDf x 0 - (x 0 ^ 2 - 1)) (x 0 ^ 2 - 1)
        rwa [sub_add_cancel] at this
      set q := binary64.rd (-cubeDf x 0 / (2 * x 0)) with hq
      have hpos : 0 < 2 * x 0 := by linarith
      have h8 : 2 * x 0 * q + cubeDf x 0 = 2 * x 0 * (q - -cubeDf x 0 / (2 * x 0)) := by field_simp; ring
      have h9 : |2 * x 0 * q + cubeDf x 0| ≤ 1 / 10 ^ 15 := by
        rw [h8, abs_mul, abs_of_pos hpos]
        rw [abs_div, abs_neg, abs_of_pos hpos] at h3
        have h10 := mul_le_mul_of_nonneg_left h3 hpos.le
        rw [mul_add, show 2 * x 0 * (1 / 10 ^ 15 / 8 * (|cubeDf x 0| / (2 * x 0))) = 1 / 10 ^ 15 / 8 * |cubeDf x 0| by
          field_simp] at h10
        refine h10.trans ?_
        clear_value q
        clear h8 h10 h3 hq
        nlinarith
      refine (pi_norm_le_iff_of_nonneg (by positivity)).mpr fun i => ?_
      have h11 : |2 * (x 0 : ℝ) * q + cubeDf x 0| ≤ 1 / 10 ^ 15 := by
        have : ((|2 * x 0 * q + cubeDf x 0| : ℚ) : ℝ) ≤ ((1 / 10 ^ 15 : ℚ) : ℝ) := by exact_mod_cast h9
        push_cast at this
        exact this
      fin_cases i
      rw [Real.norm_eq_abs]
      simpa [toReal, Matrix.mulVec, dotProduct] using h11

/-- The hypotheses hold in double precision for `x ^ 3 / 3 - x` at its local minimum 1: from every double within 1/4 the
method comes as near as 1e-14. -/
example {norm : Vec ℚ 1 → ℚ} {t : ℚ} {x : Vec ℚ 1} (hx : RepVec binary64 x) (hr : ‖toReal x - fun _ => 1‖ ≤ 1 / 4)
    (maxIter : ℕ) :
    ∃ o, fnewtonMethod binary64 norm cubeSolve (construct (fun x => x 0 ^ 3 / 3 - x 0) "min") x cubeDf
        (fun x => !![2 * x 0]) t maxIter = .ok o ∧
      ‖toReal o.result - fun _ => 1‖ ≤ (3 / 4) ^ o.iterations * (1 / 4) + 1 / 10 ^ 14 := by
  have hu := binary64_u
  have ht := binary64_tiny
  have hp : ‖(fun _ => 1 : Vec ℝ 1)‖ = 1 := by simp [Pi.norm_def]
  have hfl : 4 * newtonFloor binary64 (fun _ => 1 : Vec ℝ 1) (2 / 3) (1 / 10 ^ 15) (1 / 10 ^ 15) ≤ 1 / 10 ^ 14 := by
    have hu' : ((binary64.u : ℚ) : ℝ) ≤ 1 / 10 ^ 15 / 8 := by
      have : ((binary64.u : ℚ) : ℝ) ≤ ((1 / 10 ^ 15 / 8 : ℚ) : ℝ) := by exact_mod_cast hu
      push_cast at this; exact this
    have ht' : ((binary64.tiny : ℚ) : ℝ) ≤ 1 / 10 ^ 15 / 1000 := by
      have : ((binary64.tiny : ℚ) : ℝ) ≤ ((1 / 10 ^ 15 / 1000 : ℚ) : ℝ) := by exact_mod_cast ht
      push_cast at this; exact this
    unfold newtonFloor
    rw [hp]
    linarith
  obtain ⟨o, h1, -, h2⟩ := C153_near (norm := norm) (t := t) cube_ball cube_noise
    (hu.trans (by norm_num)) (by norm_num) le_rfl (hfl.trans (by norm_num)) (fun x => x 0 ^ 3 / 3 - x 0) hx hr maxIter
  exact ⟨o, h1, h2.trans (by linarith)⟩

end Props
end Pytimize
