/-
C150: how the function of an `UnconstrainedProgram` is written does not matter (`pytimize/programs/_unconstrained.py:30-119`):
a shift of the origin, a rotation or reordering of the variables, other units for the variables and for the values.
-/
import Verif.Unconstrained.Model
import Mathlib.Tactic.LinearCombination
import Mathlib.Tactic.FieldSimp
import Mathlib.Tactic.Positivity
import Mathlib.LinearAlgebra.Matrix.Notation
import Mathlib.Tactic.FinCases
import Mathlib.Analysis.Calculus.LineDeriv.Basic
import Mathlib.Analysis.Calculus.Deriv.Mul
import Mathlib.Analysis.Calculus.Deriv.Add

namespace Pytimize
namespace Props
open Unconstrained

variable {K : Type} [Field K] [LinearOrder K] {n : ℕ}

/-- The function in other coordinates and units: `x` stands for `M x + p`, and values are multiplied by `s` and then
increased by `e`. -/
def rewritten (f : Vec K n → K) (M : Matrix (Fin n) (Fin n) K) (p : Vec K n) (s e : K) : Vec K n → K :=
  fun x => s * f (M.mulVec x + p) + e

/-- Its gradient. -/
def rewrittenGradient (df : Vec K n → Vec K n) (M : Matrix (Fin n) (Fin n) K) (p : Vec K n) (s : K) : Vec K n → Vec K n :=
  fun x => s • M.transpose.mulVec (df (M.mulVec x + p))

/-- Its second derivative. -/
def rewrittenHessian (d2f : Vec K n → Matrix (Fin n) (Fin n) K) (M : Matrix (Fin n) (Fin n) K) (p : Vec K n) (s : K) :
    Vec K n → Matrix (Fin n) (Fin n) K :=
  fun x => s • (M.transpose * d2f (M.mulVec x + p) * M)

omit [LinearOrder K] in
theorem dot_dotProduct (u v : Vec K n) : dot u v = u ⬝ᵥ v := rfl

omit [LinearOrder K] in
theorem dot_transpose {M : Matrix (Fin n) (Fin n) K} {t : K} (hM : M * M.transpose = t ^ 2 • (1 : Matrix _ _ K))
    (u v : Vec K n) : dot (M.transpose.mulVec u) (M.transpose.mulVec v) = t ^ 2 * dot u v := by
  rw [dot_dotProduct, dot_dotProduct, Matrix.mulVec_transpose, ← Matrix.dotProduct_mulVec, Matrix.mulVec_mulVec, hM,
    Matrix.smul_mulVec, Matrix.one_mulVec, dotProduct_smul, smul_eq_mul]

variable [IsStrictOrderedRing K]

theorem normLe_rewritten {M : Matrix (Fin n) (Fin n) K} {s t : K} (hs : 0 < s) (ht : 0 < t)
    (hM : M * M.transpose = t ^ 2 • (1 : Matrix _ _ K)) (g : Vec K n) (tol : K) :
    normLe (s • M.transpose.mulVec g) (s * t * tol) ↔ normLe g tol := by
  have hst : 0 < s * t := mul_pos hs ht
  have e : dot (s • M.transpose.mulVec g) (s • M.transpose.mulVec g) = (s * t) ^ 2 * dot g g := by
    have := dot_transpose hM g g
    rw [dot_dotProduct] at this ⊢
    rw [smul_dotProduct, dotProduct_smul, this, smul_eq_mul, smul_eq_mul]
    ring
  unfold normLe
  rw [e, mul_pow (s * t) tol 2, mul_le_mul_iff_right₀ (by positivity), mul_nonneg_iff_of_pos_left hst]

omit [IsStrictOrderedRing K] in
theorem step_rewritten {M : Matrix (Fin n) (Fin n) K} {s t : K} (hs : 0 < s) (ht : 0 < t)
    (hM : M * M.transpose = t ^ 2 • (1 : Matrix _ _ K)) (x p g : Vec K n) (a : K) :
    M.mulVec (x + (a / (s * t ^ 2)) • -(s • M.transpose.mulVec g)) + p = M.mulVec x + p + a • -g := by
  rw [Matrix.mulVec_add, Matrix.mulVec_smul, Matrix.mulVec_neg, Matrix.mulVec_smul, Matrix.mulVec_mulVec, hM,
    Matrix.smul_mulVec, Matrix.one_mulVec]
  funext i
  have h1 := hs.ne'
  have h2 := ht.ne'
  simp only [Pi.add_apply, Pi.smul_apply, Pi.neg_apply, smul_eq_mul]
  field_simp
  ring

theorem backtrack_rewritten {M : Matrix (Fin n) (Fin n) K} {s t : K} (hs : 0 < s) (ht : 0 < t)
    (hM : M * M.transpose = t ^ 2 • (1 : Matrix _ _ K)) (f : Vec K n → K) (P P' : Params K) (hc : P'.c = P.c)
    (hp : P'.p = P.p) (x p g : Vec K n) (e : K) (k : ℕ) (a : K) :
    backtrack (rewritten f M p s e) P' x (-(s • M.transpose.mulVec g)) (s • M.transpose.mulVec g) k (a / (s * t ^ 2)) =
      (backtrack f P (M.mulVec x + p) (-g) g k a).map fun a => a / (s * t ^ 2) := by
  induction k generalizing a with
  | zero => rfl
  | succ k ih =>
    have hd : P'.c * (a / (s * t ^ 2)) * dot (s • M.transpose.mulVec g) (-(s • M.transpose.mulVec g)) =
        s * (P.c * a * dot g (-g)) := by
      have := dot_transpose hM g g
      have h1 := hs.ne'
      have h2 := ht.ne'
      rw [dot_dotProduct] at this
      rw [dot_dotProduct, dot_dotProduct, dotProduct_neg, dotProduct_neg, smul_dotProduct, dotProduct_smul, this, hc, dot_dotProduct, smul_eq_mul,
        smul_eq_mul]
      field_simp
    have hif : (rewritten f M p s e (x + (a / (s * t ^ 2)) • -(s • M.transpose.mulVec g)) >
        rewritten f M p s e x + P'.c * (a / (s * t ^ 2)) * dot (s • M.transpose.mulVec g) (-(s • M.transpose.mulVec g))) ↔
        f (M.mulVec x + p + a • -g) > f (M.mulVec x + p) + P.c * a * dot g (-g) := by
      rw [hd]
      unfold rewritten
      rw [step_rewritten hs ht hM]
      constructor
      · intro h
        exact lt_of_mul_lt_mul_left (by linarith) hs.le
      · intro h
        have := mul_lt_mul_of_pos_left h hs
        linarith
    have hn : a / (s * t ^ 2) * P'.p = a * P.p / (s * t ^ 2) := by rw [hp]; ring
    unfold backtrack
    by_cases h : f (M.mulVec x + p + a • -g) > f (M.mulVec x + p) + P.c * a * dot g (-g)
    · rw [if_pos h, if_pos (hif.mpr h), hn, ih]
    · rw [if_neg h, if_neg fun hh => h (hif.mp hh)]
      rfl

theorem descend_rewritten {M : Matrix (Fin n) (Fin n) K} {s t : K} (hs : 0 < s) (ht : 0 < t)
    (hM : M * M.transpose = t ^ 2 • (1 : Matrix _ _ K)) (f : Vec K n → K) (df : Vec K n → Vec K n) (P : Params K)
    (p : Vec K n) (e : K) (fuel k : ℕ) (x : Vec K n) :
    (descend (rewritten f M p s e) (rewrittenGradient df M p s) ⟨P.alpha / (s * t ^ 2), P.c, P.p, s * t * P.tolerance⟩
        fuel k x).map (fun r => (M.mulVec r.1 + p, r.2)) = descend f df P fuel k (M.mulVec x + p) := by
  induction k generalizing x with
  | zero => rfl
  | succ k ih =>
    unfold descend
    simp only
    rw [show rewrittenGradient df M p s x = s • M.transpose.mulVec (df (M.mulVec x + p)) from rfl,
      backtrack_rewritten hs ht hM f P ⟨P.alpha / (s * t ^ 2), P.c, P.p, s * t * P.tolerance⟩ rfl rfl]
    generalize hb : backtrack f P (M.mulVec x + p) (-df (M.mulVec x + p)) (df (M.mulVec x + p)) fuel P.alpha = r
    cases r with
    | none => rfl
    | some a =>
      simp only [Option.map_some]
      have hx := step_rewritten hs ht hM x p (df (M.mulVec x + p)) a
      have hg : rewrittenGradient df M p s (x + (a / (s * t ^ 2)) • -(s • M.transpose.mulVec (df (M.mulVec x + p)))) =
          s • M.transpose.mulVec (df (M.mulVec x + p + a • -df (M.mulVec x + p))) := by
        unfold rewrittenGradient
        rw [hx]
      rw [hg]
      by_cases hn : normLe (df (M.mulVec x + p + a • -df (M.mulVec x + p))) P.tolerance
      · rw [if_pos hn, if_pos ((normLe_rewritten hs ht hM _ _).mpr hn), Option.map_some, hx]
      · rw [if_neg hn, if_neg fun h => hn ((normLe_rewritten hs ht hM _ _).mp h), ← hx, ← ih]
        cases descend (rewritten f M p s e) (rewrittenGradient df M p s)
          ⟨P.alpha / (s * t ^ 2), P.c, P.p, s * t * P.tolerance⟩ fuel k
          (x + (a / (s * t ^ 2)) • -(s • M.transpose.mulVec (df (M.mulVec x + p)))) <;> rfl

/-- C150, `steepest_descent`: with the function in other coordinates (any shift, rotation, reordering or reflection `M`,
lengths multiplied by `t`) and other units (values multiplied by `s` and increased by `e`), and the step length and
tolerance in these units, the answer is the same point after the same number of iterations. -/
theorem C150_descent {M : Matrix (Fin n) (Fin n) K} {s t : K} (hs : 0 < s) (ht : 0 < t)
    (hM : M * M.transpose = t ^ 2 • (1 : Matrix _ _ K)) (f : Vec K n → K) (df : Vec K n → Vec K n) (P : Params K)
    (p : Vec K n) (e : K) (x : Vec K n) (maxIter fuel : ℕ) :
    (steepestDescent (construct (rewritten f M p s e) "min") x (rewrittenGradient df M p s)
        ⟨P.alpha / (s * t ^ 2), P.c, P.p, s * t * P.tolerance⟩ maxIter fuel).map
        (fun o => (M.mulVec o.result + p, o.iterations)) =
      (steepestDescent (construct f "min") (M.mulVec x + p) df P maxIter fuel).map fun o => (o.result, o.iterations) := by
  have h := descend_rewritten hs ht hM f df P p e fuel maxIter x
  unfold steepestDescent
  simp only [construct]
  rw [← h]
  cases descend (rewritten f M p s e) (rewrittenGradient df M p s) ⟨P.alpha / (s * t ^ 2), P.c, P.p, s * t * P.tolerance⟩
    fuel maxIter x <;> simp [finish]

omit [LinearOrder K] [IsStrictOrderedRing K] in
theorem newton_step_rewritten {M H : Matrix (Fin n) (Fin n) K} {s : K} (hs : s ≠ 0) (hM : M.det ≠ 0) (hH : H.det ≠ 0)
    (x p g : Vec K n) :
    M.mulVec (x + (s • (M.transpose * H * M))⁻¹.mulVec (-(s • M.transpose.mulVec g))) + p =
      M.mulVec x + p + H⁻¹.mulVec (-g) := by
  have hdet : (s • (M.transpose * H * M)).det ≠ 0 := by
    rw [Matrix.det_smul, Matrix.det_mul, Matrix.det_mul, Matrix.det_transpose]
    exact mul_ne_zero (pow_ne_zero _ hs) (mul_ne_zero (mul_ne_zero hM hH) hM)
  have hu : IsUnit (s • (M.transpose * H * M)).det := isUnit_iff_ne_zero.mpr hdet
  have hMu : IsUnit M.det := isUnit_iff_ne_zero.mpr hM
  have hHu : IsUnit H.det := isUnit_iff_ne_zero.mpr hH
  have key : (s • (M.transpose * H * M))⁻¹.mulVec (-(s • M.transpose.mulVec g)) = M⁻¹.mulVec (H⁻¹.mulVec (-g)) := by
    have e1 : (s • (M.transpose * H * M)).mulVec (M⁻¹.mulVec (H⁻¹.mulVec (-g))) = -(s • M.transpose.mulVec g) := by
      rw [Matrix.smul_mulVec, Matrix.mulVec_mulVec, Matrix.mul_assoc, Matrix.mul_nonsing_inv _ hMu, Matrix.mul_one,
        Matrix.mulVec_mulVec, Matrix.mul_assoc, Matrix.mul_nonsing_inv _ hHu, Matrix.mul_one, Matrix.mulVec_neg, smul_neg]
    rw [← e1, Matrix.mulVec_mulVec, Matrix.nonsing_inv_mul _ hu, Matrix.one_mulVec]
  rw [key, Matrix.mulVec_add, Matrix.mulVec_mulVec, Matrix.mul_nonsing_inv _ hMu, Matrix.one_mulVec]
  abel

/-- The coordinates are such that both stopping tests agree: lengths are multiplied by `t`, or nothing stops the loop
before `max_iteration` because the tolerances are negative. -/
def SameTest (M : Matrix (Fin n) (Fin n) K) (s tol tol' : K) : Prop :=
  (∃ t, 0 < s ∧ 0 < t ∧ M * M.transpose = t ^ 2 • (1 : Matrix _ _ K) ∧ tol' = s * t * tol) ∨ (tol < 0 ∧ tol' < 0)

theorem SameTest.normLe {M : Matrix (Fin n) (Fin n) K} {s tol tol' : K} (h : SameTest M s tol tol') (g : Vec K n) :
    normLe (s • M.transpose.mulVec g) tol' ↔ normLe g tol := by
  rcases h with ⟨t, hs, ht, hM, rfl⟩ | ⟨h1, h2⟩
  · exact normLe_rewritten hs ht hM g tol
  · unfold Unconstrained.normLe
    constructor
    · exact fun h => absurd h.1 (not_le.mpr h2)
    · exact fun h => absurd h.1 (not_le.mpr h1)

theorem newton_rewritten {M : Matrix (Fin n) (Fin n) K} {s : K} (hs : s ≠ 0) (hM : M.det ≠ 0) {tol tol' : K}
    (ht : SameTest M s tol tol') (df : Vec K n → Vec K n) (d2f : Vec K n → Matrix (Fin n) (Fin n) K) (p : Vec K n) (k : ℕ)
    (x : Vec K n) :
    (newtonLoop (rewrittenGradient df M p s) (rewrittenHessian d2f M p s) tol' k x).map (fun r => (M.mulVec r.1 + p, r.2)) =
      newtonLoop df d2f tol k (M.mulVec x + p) := by
  induction k generalizing x with
  | zero => rfl
  | succ k ih =>
    unfold newtonLoop
    have hdet : (rewrittenHessian d2f M p s x).det = 0 ↔ (d2f (M.mulVec x + p)).det = 0 := by
      unfold rewrittenHessian
      rw [Matrix.det_smul, Matrix.det_mul, Matrix.det_mul, Matrix.det_transpose]
      simp [hs, hM]
    by_cases h : (d2f (M.mulVec x + p)).det = 0
    · rw [if_pos h, if_pos (hdet.mpr h)]; rfl
    · rw [if_neg h, if_neg fun hh => h (hdet.mp hh)]
      have hx := newton_step_rewritten (p := p) hs hM h x (g := df (M.mulVec x + p))
      have hg : rewrittenGradient df M p s
          (x + (rewrittenHessian d2f M p s x)⁻¹.mulVec (-rewrittenGradient df M p s x)) =
          s • M.transpose.mulVec (df (M.mulVec x + p + (d2f (M.mulVec x + p))⁻¹.mulVec (-df (M.mulVec x + p)))) := by
        rw [← hx]; rfl
      simp only
      rw [hg]
      by_cases hn : normLe (df (M.mulVec x + p + (d2f (M.mulVec x + p))⁻¹.mulVec (-df (M.mulVec x + p)))) tol
      · rw [if_pos hn, if_pos ((ht.normLe _).mpr hn), ← hx]; rfl
      · rw [if_neg hn, if_neg fun hh => hn ((ht.normLe _).mp hh), ← hx]
        have := ih (x + (rewrittenHessian d2f M p s x)⁻¹.mulVec (-rewrittenGradient df M p s x))
        rw [show M.mulVec (x + (s • (M.transpose * d2f (M.mulVec x + p) * M))⁻¹.mulVec
          (-(s • M.transpose.mulVec (df (M.mulVec x + p))))) + p = M.mulVec (x + (rewrittenHessian d2f M p s x)⁻¹.mulVec
            (-rewrittenGradient df M p s x)) + p from rfl, ← this]
        cases newtonLoop (rewrittenGradient df M p s) (rewrittenHessian d2f M p s) tol' k
          (x + (rewrittenHessian d2f M p s x)⁻¹.mulVec (-rewrittenGradient df M p s x)) <;> rfl

/-- C150, `newton_method`: the same, for shifts, rotations, reorderings, reflections and other units; and for *any*
invertible change of coordinates as long as the tolerance does not end the loop. Singular second derivatives raise
`LinAlgError` in both. -/
theorem C150_newton {M : Matrix (Fin n) (Fin n) K} {s : K} (hs : s ≠ 0) (hM : M.det ≠ 0) {tol tol' : K}
    (ht : SameTest M s tol tol') (f : Vec K n → K) (df : Vec K n → Vec K n) (d2f : Vec K n → Matrix (Fin n) (Fin n) K)
    (p : Vec K n) (e : K) (x : Vec K n) (maxIter : ℕ) :
    (newtonMethod (construct (rewritten f M p s e) "min") x (rewrittenGradient df M p s) (rewrittenHessian d2f M p s) tol'
        maxIter).map (fun o => (M.mulVec o.result + p, o.iterations)) =
      (newtonMethod (construct f "min") (M.mulVec x + p) df d2f tol maxIter).map fun o => (o.result, o.iterations) := by
  have h := newton_rewritten hs hM ht df d2f p maxIter x
  unfold newtonMethod
  simp only [construct]
  rw [← h]
  cases newtonLoop (rewrittenGradient df M p s) (rewrittenHessian d2f M p s) tol' maxIter x <;>
    simp [finish, Except.map]

/-- C150: `rewrittenGradient` is the gradient of the rewritten function: its products with directions are the directional
derivatives. -/
theorem C150_gradient (f : Vec ℝ n → ℝ) (df : Vec ℝ n → Vec ℝ n) (M : Matrix (Fin n) (Fin n) ℝ) (p : Vec ℝ n) (s e : ℝ)
    (h : ∀ x v, HasLineDerivAt ℝ f (df x ⬝ᵥ v) x v) (x v : Vec ℝ n) :
    HasLineDerivAt ℝ (rewritten f M p s e) (rewrittenGradient df M p s x ⬝ᵥ v) x v := by
  have h1 := h (M.mulVec x + p) (M.mulVec v)
  unfold HasLineDerivAt at h1 ⊢
  have h2 := (h1.const_mul s).add_const e
  have e1 : (fun t : ℝ => rewritten f M p s e (x + t • v)) =
      fun t : ℝ => s * f (M.mulVec x + p + t • M.mulVec v) + e := by
    funext t
    unfold rewritten
    rw [Matrix.mulVec_add, Matrix.mulVec_smul, add_right_comm]
  have e2 : rewrittenGradient df M p s x ⬝ᵥ v = s * (df (M.mulVec x + p) ⬝ᵥ M.mulVec v) := by
    unfold rewrittenGradient
    rw [smul_dotProduct, Matrix.mulVec_transpose, ← Matrix.dotProduct_mulVec, smul_eq_mul]
  rw [e1, e2]
  exact h2

/-- `(x - 3)²`. -/
def bowl : Vec ℚ 1 → ℚ := fun x => (x 0 - 3) ^ 2

/-- C150: not so for `"max"`: the answer is the negated point, so that a shift of the origin by one moves it by one in the
wrong direction. -/
theorem C150_maximum_wrong :
    ((steepestDescent (construct bowl "max") (fun _ => 4) (fun x _ => 2 * (x 0 - 3)) ⟨1 / 2, 1 / 2, 1 / 2, 0⟩ 5 5).map
        fun o => o.result 0) = some (-3) ∧
      ((steepestDescent (construct (rewritten bowl 1 (fun _ => 1) 1 0) "max") (fun _ => 3)
        (rewrittenGradient (fun x _ => 2 * (x 0 - 3)) 1 (fun _ => 1) 1) ⟨1 / 2, 1 / 2, 1 / 2, 0⟩ 5 5).map
        fun o => o.result 0 + 1) = some (-1) := by
  constructor <;> decide +kernel

/-- A rotation with lengths multiplied by five. -/
def rotation5 : Matrix (Fin 2) (Fin 2) ℚ := !![3, -4; 4, 3]

/-- The hypotheses of `C150_descent` and `C150_newton` hold for it. -/
example : rotation5 * rotation5.transpose = (5 : ℚ) ^ 2 • (1 : Matrix _ _ ℚ) ∧ rotation5.det ≠ 0 := by
  constructor <;> decide +kernel

/-- ... and a call where more than one step is made and the loop ends by the tolerance. -/
example :
    ((steepestDescent (construct (rewritten (fun x => x 0 ^ 2 + x 1 ^ 2 / 2) rotation5 (fun _ => 1) 2 7) "min") ![1, 0]
        (rewrittenGradient (fun x => ![2 * x 0, x 1]) rotation5 (fun _ => 1) 2)
        ⟨1 / (2 * 5 ^ 2), 1 / 2, 1 / 2, 2 * 5 * 1⟩ 50 50).map
        fun o => (rotation5.mulVec o.result 0 + 1, rotation5.mulVec o.result 1 + 1, o.iterations)) = some (0, 0, 2) := by
  decide +kernel

end Props
end Pytimize
