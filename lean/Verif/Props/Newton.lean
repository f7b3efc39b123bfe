/-
Property C112: the steps, the stopping rule and the errors of `newton_method`.
-/
import Mathlib.Tactic.IntervalCases
import Verif.Unconstrained.Proof

namespace Pytimize
namespace Props
open Unconstrained

variable {K : Type} [Field K] [LinearOrder K] {n : ℕ}

/-- The points `x 0, …, x k` of a run of Newton's method: every step solves the Newton equation, for which the
Hessian is invertible, and only the last point may have a gradient of norm at most the tolerance (the norm at the
start is not looked at). -/
structure NewtonRun (df : Vec K n → Vec K n) (d2f : Vec K n → Matrix (Fin n) (Fin n) K) (t : K)
    (x : ℕ → Vec K n) (k : ℕ) : Prop where
  regular : ∀ i < k, (d2f (x i)).det ≠ 0
  step : ∀ i < k, ∀ r, ∑ s, d2f (x i) r s * (x (i + 1) s - x i s) = -df (x i) r
  running : ∀ i, 0 < i → i < k → ¬ (0 ≤ t ∧ ∑ s, df (x i) s ^ 2 ≤ t ^ 2)

theorem normLe_iff {g : Vec K n} {t : K} : normLe g t ↔ 0 ≤ t ∧ ∑ s, g s ^ 2 ≤ t ^ 2 := by
  rw [normLe, dot_self]

omit [LinearOrder K] in
theorem newton_equation {H : Matrix (Fin n) (Fin n) K} (hH : H.det ≠ 0) (x g : Vec K n) (r : Fin n) :
    ∑ s, H r s * ((x + H⁻¹.mulVec (-g)) s - x s) = -g r := by
  have hu : IsUnit H.det := isUnit_iff_ne_zero.mpr hH
  have : H.mulVec (H⁻¹.mulVec (-g)) = -g := by
    rw [Matrix.mulVec_mulVec, Matrix.mul_nonsing_inv H hu, Matrix.one_mulVec]
  have h := congrFun this r
  rw [Pi.neg_apply] at h
  rw [← h]
  simp [Matrix.mulVec, dotProduct]

/-- A point in front of a run. -/
theorem NewtonRun.cons {df : Vec K n → Vec K n} {d2f : Vec K n → Matrix (Fin n) (Fin n) K} {t : K} {x : Vec K n}
    (hx : (d2f x).det ≠ 0) {y : ℕ → Vec K n} {k : ℕ} (hy : y 0 = x + (d2f x)⁻¹.mulVec (-df x))
    (hn : 0 < k → ¬ normLe (df (y 0)) t) (h : NewtonRun df d2f t y k) :
    NewtonRun df d2f t (fun i => Nat.casesOn i x y) (k + 1) := by
  refine ⟨?_, ?_, ?_⟩
  · intro i hi
    cases i with
    | zero => exact hx
    | succ i => exact h.regular i (by omega)
  · intro i hi r
    cases i with
    | zero =>
      show ∑ s, d2f x r s * (y 0 s - x s) = _
      rw [hy]
      exact newton_equation hx x (df x) r
    | succ i => exact h.step i (by omega) r
  · intro i h0 hi
    cases i with
    | zero => omega
    | succ i =>
      rw [← normLe_iff]
      cases i with
      | zero => exact hn (by omega)
      | succ i =>
        rw [normLe_iff]
        exact h.running (i + 1) (by omega) (by omega)

theorem newtonLoop_ok {df : Vec K n → Vec K n} {d2f : Vec K n → Matrix (Fin n) (Fin n) K} {t : K} :
    ∀ {k : ℕ} {x y : Vec K n} {j : ℕ}, newtonLoop df d2f t k x = .ok (y, j) →
      j ≤ k ∧ (j < k → normLe (df y) t) ∧ (0 < k → 0 < j) ∧
      ∃ xs : ℕ → Vec K n, xs 0 = x ∧ xs j = y ∧ NewtonRun df d2f t xs j
  | 0, x, y, j, h => by
    cases h
    exact ⟨le_rfl, fun h => absurd h (lt_irrefl _), id, fun _ => x, rfl, rfl, by
      constructor <;> intro i <;> omega⟩
  | k + 1, x, y, j, h => by
    rw [newtonLoop] at h
    by_cases hd : (d2f x).det = 0
    · rw [if_pos hd] at h; cases h
    · rw [if_neg hd] at h
      dsimp only at h
      by_cases hn : normLe (df (x + (d2f x)⁻¹.mulVec (-df x))) t
      · rw [if_pos hn] at h
        cases h
        refine ⟨by omega, fun _ => hn, fun _ => by omega, _, rfl, ?_,
          NewtonRun.cons hd (y := fun _ => x + (d2f x)⁻¹.mulVec (-df x)) (k := 0) rfl (fun h => by omega) ?_⟩
        · rfl
        · constructor <;> intro i <;> omega
      · rw [if_neg hn] at h
        generalize hr : newtonLoop df d2f t k (x + (d2f x)⁻¹.mulVec (-df x)) = r at h
        rcases r with e | ⟨y', j'⟩
        · cases h
        · cases h
          obtain ⟨h1, h2, -, xs, h3, h4, h5⟩ := newtonLoop_ok hr
          exact ⟨by omega, fun h => h2 (by omega), fun _ => by omega, _, rfl, h4,
            h5.cons hd h3 fun _ => by rw [h3]; exact hn⟩

theorem newtonLoop_error {df : Vec K n → Vec K n} {d2f : Vec K n → Matrix (Fin n) (Fin n) K} {t : K} :
    ∀ {k : ℕ} {x : Vec K n} {e : PyErr}, newtonLoop df d2f t k x = .error e →
      e = .linAlgError ∧ ∃ (xs : ℕ → Vec K n) (j : ℕ), j < k ∧ xs 0 = x ∧ NewtonRun df d2f t xs j ∧
        (0 < j → ¬ normLe (df (xs j)) t) ∧ (d2f (xs j)).det = 0
  | 0, _, _, h => by cases h
  | k + 1, x, e, h => by
    rw [newtonLoop] at h
    by_cases hd : (d2f x).det = 0
    · rw [if_pos hd] at h
      cases h
      exact ⟨rfl, fun _ => x, 0, by omega, rfl, by constructor <;> intro i <;> omega, fun h => by omega, hd⟩
    · rw [if_neg hd] at h
      dsimp only at h
      by_cases hn : normLe (df (x + (d2f x)⁻¹.mulVec (-df x))) t
      · rw [if_pos hn] at h; cases h
      · rw [if_neg hn] at h
        generalize hr : newtonLoop df d2f t k (x + (d2f x)⁻¹.mulVec (-df x)) = r at h
        rcases r with e' | ⟨y', j'⟩
        · cases h
          obtain ⟨rfl, xs, j, h1, h2, h3, h4, h5⟩ := newtonLoop_error hr
          refine ⟨rfl, _, j + 1, by omega, rfl, h3.cons hd h2 fun _ => by rw [h2]; exact hn, fun _ => ?_, h5⟩
          show ¬ normLe (df (xs j)) t
          rcases Nat.eq_zero_or_pos j with rfl | hj
          · rw [h2]; exact hn
          · exact h4 hj
        · cases h

theorem newtonMethod_loop (M : Program K n) {df : Vec K n → Vec K n} {d2f : Vec K n → Matrix (Fin n) (Fin n) K}
    {t : K} {x : Vec K n} {k : ℕ} : newtonMethod M x df d2f t k =
      (newtonLoop df d2f t k x).map fun r => finish M r.1 r.2 := by
  unfold newtonMethod
  generalize newtonLoop df d2f t k x = r
  rcases r with e | ⟨y, j⟩ <;> rfl

/-- Two runs from the same start agree. -/
theorem NewtonRun.unique {df : Vec K n → Vec K n} {d2f : Vec K n → Matrix (Fin n) (Fin n) K} {t : K}
    {x y : ℕ → Vec K n} {k l : ℕ} (hx : NewtonRun df d2f t x k) (hy : NewtonRun df d2f t y l) (h0 : x 0 = y 0) :
    ∀ i ≤ k, i ≤ l → x i = y i
  | 0, _, _ => h0
  | i + 1, hk, hl => by
    have ih := hx.unique hy h0 i (by omega) (by omega)
    have hd := hx.regular i (by omega)
    have hu : IsUnit (d2f (x i)).det := isUnit_iff_ne_zero.mpr hd
    have h1 : (d2f (x i)).mulVec (x (i + 1) - x i) = -df (x i) := by
      funext r; simpa [Matrix.mulVec, dotProduct] using hx.step i (by omega) r
    have h2 : (d2f (y i)).mulVec (y (i + 1) - y i) = -df (y i) := by
      funext r; simpa [Matrix.mulVec, dotProduct] using hy.step i (by omega) r
    rw [← ih] at h2
    have h3 := congrArg ((d2f (x i))⁻¹.mulVec) (h1.trans h2.symm)
    rw [Matrix.mulVec_mulVec, Matrix.mulVec_mulVec, Matrix.nonsing_inv_mul _ hu, Matrix.one_mulVec,
      Matrix.one_mulVec] at h3
    exact sub_left_inj.mp h3

/-- C112: if `newton_method` returns, it has made at least one step if it may make any and at most `max_iteration`;
every step solves the Newton equation with an invertible Hessian; the norm of the gradient was above the tolerance at
every point between start and result; and if fewer than `max_iteration` steps were made, it is at most the tolerance
at the result. -/
theorem C112_returns {f : Vec K n → K} {df : Vec K n → Vec K n} {d2f : Vec K n → Matrix (Fin n) (Fin n) K} {t : K}
    {x : Vec K n} {maxIter : ℕ} {o : Outcome K n}
    (h : newtonMethod (construct f "min") x df d2f t maxIter = .ok o) :
    o.iterations ≤ maxIter ∧ (0 < maxIter → 0 < o.iterations) ∧
    (o.iterations < maxIter → 0 ≤ t ∧ ∑ s, df o.result s ^ 2 ≤ t ^ 2) ∧
    ∃ xs : ℕ → Vec K n, xs 0 = x ∧ xs o.iterations = o.result ∧ NewtonRun df d2f t xs o.iterations := by
  rw [newtonMethod_loop] at h
  generalize hr : newtonLoop df d2f t maxIter x = r at h
  rcases r with e | ⟨y, j⟩
  · cases h
  · cases h
    obtain ⟨h1, h2, h3, h4⟩ := newtonLoop_ok hr
    exact ⟨h1, h3, fun h => normLe_iff.mp (h2 h), h4⟩

/-- C112: `newton_method` raises exactly if fewer than `max_iteration` steps lead to a point with singular Hessian
before the tolerance is met, and then it raises `LinAlgError`. -/
theorem C112_raises (f : Vec K n → K) (df : Vec K n → Vec K n) (d2f : Vec K n → Matrix (Fin n) (Fin n) K) (t : K)
    (x : Vec K n) (maxIter : ℕ) (objective : String) (e : PyErr) :
    newtonMethod (construct f objective) x df d2f t maxIter = .error e ↔
      e = .linAlgError ∧ ∃ (xs : ℕ → Vec K n) (j : ℕ), j < maxIter ∧ xs 0 = x ∧ NewtonRun df d2f t xs j ∧
        (0 < j → ¬ (0 ≤ t ∧ ∑ s, df (xs j) s ^ 2 ≤ t ^ 2)) ∧ (d2f (xs j)).det = 0 := by
  rw [newtonMethod_loop]
  constructor
  · intro h
    generalize hr : newtonLoop df d2f t maxIter x = r at h
    rcases r with e' | ⟨y, j⟩
    · cases h
      simpa only [normLe_iff] using newtonLoop_error hr
    · cases h
  · rintro ⟨rfl, xs, j, h1, h2, h3, h4, h5⟩
    generalize hr : newtonLoop df d2f t maxIter x = r
    rcases r with e' | ⟨y, j'⟩
    · obtain ⟨rfl, -⟩ := newtonLoop_error hr
      rfl
    · exfalso
      obtain ⟨g1, g2, g3, ys, g4, g5, g6⟩ := newtonLoop_ok hr
      have hag := h3.unique g6 (h2.trans g4.symm)
      rcases lt_trichotomy j j' with hlt | rfl | hgt
      · have := hag j le_rfl hlt.le
        rw [this] at h5
        exact g6.regular j hlt h5
      · have hj : j < maxIter := h1
        have h0 := g3 (by omega)
        refine h4 h0 (normLe_iff.mp ?_)
        rw [hag j le_rfl le_rfl, g5]
        exact g2 hj
      · have h0 := g3 (by omega)
        have := hag j' hgt.le le_rfl
        refine h3.running j' h0 hgt (normLe_iff.mp ?_)
        rw [this, g5]
        exact g2 (by omega)

/-- C112: the norm at the start is not looked at, so that a stationary start with singular Hessian raises. -/
theorem C112_start (f : Vec K n → K) {df : Vec K n → Vec K n} {d2f : Vec K n → Matrix (Fin n) (Fin n) K} {x : Vec K n}
    (hx : df x = 0) (t : K) (maxIter : ℕ) :
    ((d2f x).det = 0 → newtonMethod (construct f "min") x df d2f t (maxIter + 1) = .error .linAlgError) ∧
    ((d2f x).det ≠ 0 → ∃ o, newtonMethod (construct f "min") x df d2f t (maxIter + 1) = .ok o ∧ o.result = x) := by
  have hfix : x + (d2f x)⁻¹.mulVec (-df x) = x := by rw [hx]; simp
  constructor
  · intro hd
    simp [newtonMethod, newtonLoop, hd]
  · intro hd
    have key : ∀ k, ∃ j, newtonLoop df d2f t k x = .ok (x, j) := by
      intro k
      induction k with
      | zero => exact ⟨0, rfl⟩
      | succ k ih =>
        obtain ⟨j, hj⟩ := ih
        rw [newtonLoop, if_neg hd]
        dsimp only
        rw [hfix, hj]
        split
        · exact ⟨_, rfl⟩
        · exact ⟨_, rfl⟩
    obtain ⟨j, hj⟩ := key (maxIter + 1)
    exact ⟨_, by rw [newtonMethod_loop, hj]; rfl, rfl⟩

/-- A run of two steps on `x ^ 4` (over the rationals, gradient `4 x ^ 3`, second derivative `12 x ^ 2`): from 3 over
2 to 4/3. -/
example : NewtonRun (fun x : Vec ℚ 1 => fun _ => 4 * x 0 ^ 3) (fun x => !![12 * x 0 ^ 2]) (1 / 10000)
    (fun i _ => 3 * (2 / 3) ^ i) 2 := by
  refine ⟨?_, ?_, ?_⟩
  · intro i hi
    rw [Matrix.det_fin_one]
    simp
  · intro i hi r
    interval_cases i <;> norm_num
  · intro i h0 hi
    interval_cases i
    norm_num

end Props
end Pytimize
