/-
Property C155: the accuracy of `np.linalg.solve`, and Newton's method with it.
-/
import Verif.Float.GaussSolve
import Verif.Props.FloatInverse
import Verif.Props.FloatNewton

namespace Pytimize
namespace Props
open LinProg Floating Matrix Unconstrained

variable {n : ℕ} {solve : Matrix (Fin n) (Fin n) ℚ → Vec ℚ n → Option (Vec ℚ n)}

/-- What may be left of a system in double precision. -/
def solveSlack (n : ℕ) (a t β : ℚ) : ℚ := 2 * inverseAccuracy n a t * β + 1 / 2 ^ 480

/-- C155. In double precision, if the matrix has an inverse with entries that are not too large, `np.linalg.solve` raises
nothing; the residual and the distance to the exact solution are small. -/
theorem C155_solve (hS : GaussianSolver binary64 solve) {M N : Matrix (Fin n) (Fin n) ℚ} {b : Vec ℚ n} {a t β : ℚ}
    (hs : Moderate n a) (ha : ∀ i j, |M i j| ≤ a) (hN : N * M = 1) (hNt : ∀ i j, |N i j| ≤ t)
    (hδ : inverseAccuracy n a t ≤ 1) (hb : ∀ i, |b i| ≤ β) :
    ∃ x, solve M b = some x ∧ (∀ i, |M.mulVec x i - b i| ≤ solveSlack n a t β) ∧
      ∀ i, |x i - N.mulVec b i| ≤ n * (t * solveSlack n a t β) := by
  obtain ⟨c1, c2, c3, c4⟩ := double_constants hs
  have hn : (n : ℚ) ≤ 100 := by exact_mod_cast hs.size
  have hn1 : (1 : ℚ) ≤ n := by exact_mod_cast hs.pos
  have h1 := one_le_size hs.pos ha hN hNt
  have hu := unit_le_accuracy hs.pos h1
  have ha0 : 0 ≤ a := (abs_nonneg _).trans (ha ⟨0, hs.pos⟩ ⟨0, hs.pos⟩)
  have ht0 : 0 ≤ t := (abs_nonneg _).trans (hNt ⟨0, hs.pos⟩ ⟨0, hs.pos⟩)
  have hβ0 : 0 ≤ β := (abs_nonneg _).trans (hb ⟨0, hs.pos⟩)
  have hμ0 := growthBound_nonneg (R := binary64) (n := n) ha0
  have hg0 : 0 ≤ relErr binary64 n (growthBound binary64 n a) := relErr_nonneg hμ0
  have hτ0 : 0 ≤ absErr binary64 n (growthBound binary64 n a) := absErr_nonneg hμ0
  have hκ := double_condition hs ht0
  have hg : relErr binary64 n (growthBound binary64 n a) ≤ 1 / 2 := by linarith
  rcases hS M b with ⟨x, hx, π, l, u, hV⟩ | ⟨-, π, l, u, hF, hz⟩
  · have res : ∀ i, |M.mulVec x i - b i| ≤ solveSlack n a t β := by
      intro i
      refine (solve_residual hV hg c1 ha (fun i j hij => growth hV.1 ha c1 hg i j hij fun k _ => hV.2.1 k) hμ0 hN hNt hb
        hκ (by linarith) i).trans ?_
      have h2 : absErr binary64 n (growthBound binary64 n a) * (6 * n + 1) ≤ 1 / 2 ^ 500 * 601 :=
        mul_le_mul c4 (by linarith) (by positivity) (by positivity)
      have h3 : (2 : ℚ) * (1 / 2 ^ 500 * 601) ≤ 1 / 2 ^ 480 := by decide +kernel
      have h4 : relErr binary64 n (growthBound binary64 n a) * β ≤ inverseAccuracy n a t / 100 * β :=
        mul_le_mul_of_nonneg_right (by linarith) hβ0
      have hδ0 : 0 ≤ inverseAccuracy n a t := by unfold inverseAccuracy; positivity
      have h5 : 0 ≤ inverseAccuracy n a t * β := mul_nonneg hδ0 hβ0
      unfold solveSlack
      clear c4
      generalize (1 : ℚ) / 2 ^ 500 * 601 = η at *
      generalize (1 : ℚ) / 2 ^ 480 = θ at *
      linarith
    refine ⟨x, hx, res, fun i => ?_⟩
    have e : x i - N.mulVec b i = ∑ k, N i k * (M.mulVec x k - b k) := by
      have : x - N.mulVec b = N.mulVec (M.mulVec x - b) := by rw [mulVec_sub, mulVec_mulVec, hN, one_mulVec]
      exact congrFun this i
    rw [e]
    refine (Finset.abs_sum_le_sum_abs _ _).trans (sum_le_card fun k => ?_)
    rw [abs_mul]
    exact mul_le_mul (hNt i k) (res k) (abs_nonneg _) ht0
  · exfalso
    have h2 := zero_pivot hF hz ha hg c1 hμ0 (fun i j hij h => growth hF ha c1 hg i j hij h) hN hNt
    have h3 : n ^ 2 * t * (relErr binary64 n (growthBound binary64 n a) * (a + 2 * n * growthBound binary64 n a) +
        absErr binary64 n (growthBound binary64 n a)) ≤
        n ^ 2 * t * (relErr binary64 n (growthBound binary64 n a) * (a + 16 * n * growthBound binary64 n a) +
        absErr binary64 n (growthBound binary64 n a)) := by
      refine mul_le_mul_of_nonneg_left (add_le_add_left (mul_le_mul_of_nonneg_left ?_ hg0) _) (by positivity)
      have : 0 ≤ n * growthBound binary64 n a := by positivity
      linarith
    linarith

/-! ### Newton's method -/

theorem toReal_mulVec (H : Matrix (Fin n) (Fin n) ℚ) (v : Vec ℚ n) :
    (H.map fun q => (q : ℝ)).mulVec (toReal v) = toReal (H.mulVec v) := by
  funext i
  simp [toReal, mulVec, dotProduct]

variable {norm : Vec ℚ n → ℚ} {cdf : Vec ℚ n → Vec ℚ n} {cd2f : Vec ℚ n → Matrix (Fin n) (Fin n) ℚ} {τ : ℚ}
  {df : Vec ℝ n → Vec ℝ n} {d2f : Vec ℝ n → Matrix (Fin n) (Fin n) ℝ} {p : Vec ℝ n} {r M β εg εh : ℝ}

/-- The callbacks at the floats of the ball: their errors, and how large the numbers are. -/
structure NewtonCallbacks (cdf : Vec ℚ n → Vec ℚ n) (cd2f : Vec ℚ n → Matrix (Fin n) (Fin n) ℚ)
    (df : Vec ℝ n → Vec ℝ n) (d2f : Vec ℝ n → Matrix (Fin n) (Fin n) ℝ) (p : Vec ℝ n) (r εg εh : ℝ) (a G : ℚ) : Prop where
  gradient : ∀ x, RepVec binary64 x → ‖toReal x - p‖ ≤ r → ‖toReal (cdf x) - df (toReal x)‖ ≤ εg
  hessian : ∀ x, RepVec binary64 x → ‖toReal x - p‖ ≤ r → ∀ v : Vec ℝ n,
    ‖((cd2f x).map fun q => (q : ℝ)).mulVec v - (d2f (toReal x)).mulVec v‖ ≤ εh * ‖v‖
  entries : ∀ x, RepVec binary64 x → ‖toReal x - p‖ ≤ r → ∀ i j, |cd2f x i j| ≤ a
  size : ∀ x, RepVec binary64 x → ‖toReal x - p‖ ≤ r → ∀ i, |cdf x i| ≤ G

/-- C155. What C153 assumes of the solver holds for Gaussian elimination in double precision. -/
theorem C155_noise (hS : GaussianSolver binary64 solve) (hB : NewtonBall df d2f p r M β) {a t G : ℚ}
    (hC : NewtonCallbacks cdf cd2f df d2f p r εg εh a G) (hh : β * εh ≤ 1 / 8) (ht : 8 / 7 * β ≤ t)
    (hs : Moderate n a) (hδ : inverseAccuracy n a t ≤ 1) :
    NewtonNoise binary64 solve cdf cd2f df d2f p r εg εh (solveSlack n a t G : ℚ) where
  gradient := hC.gradient
  hessian := hC.hessian
  solver := by
    intro x hx hr
    set H := cd2f x with hH
    have hxb : toReal x ∈ Metric.closedBall p r := mem_closedBall_iff_norm.mpr hr
    have reg : ∀ v : Vec ℝ n, ‖v‖ ≤ t * ‖(H.map fun q => (q : ℝ)).mulVec v‖ := by
      intro v
      have h1 := hB.regular _ hxb v
      have h2 := hC.hessian x hx hr v
      have h3 : ‖(d2f (toReal x)).mulVec v‖ ≤ ‖(H.map fun q => (q : ℝ)).mulVec v‖ + εh * ‖v‖ := by
        have := norm_sub_le ((H.map fun q => (q : ℝ)).mulVec v)
          ((H.map fun q => (q : ℝ)).mulVec v - (d2f (toReal x)).mulVec v)
        rw [sub_sub_cancel] at this
        linarith
      have h4 := mul_le_mul_of_nonneg_left h3 hB.regular_nonneg
      have h5 : β * εh * ‖v‖ ≤ 1 / 8 * ‖v‖ := mul_le_mul_of_nonneg_right hh (norm_nonneg _)
      have h6 := mul_le_mul_of_nonneg_right ht (norm_nonneg ((H.map fun q => (q : ℝ)).mulVec v))
      linarith
    have hdet : H.det ≠ 0 := by
      intro h
      obtain ⟨v, hv, hv0⟩ := exists_mulVec_eq_zero_iff.mpr h
      have h1 := reg (toReal v)
      rw [toReal_mulVec, hv0] at h1
      have h2 : toReal (0 : Vec ℚ n) = 0 := by funext i; simp [toReal]
      rw [h2, norm_zero, mul_zero] at h1
      apply hv
      funext i
      have h3 := congrFun (norm_le_zero_iff.mp h1) i
      have h4 : ((v i : ℚ) : ℝ) = 0 := h3
      exact_mod_cast h4
    have hunit : IsUnit H.det := isUnit_iff_ne_zero.mpr hdet
    have hN : H⁻¹ * H = 1 := nonsing_inv_mul H hunit
    have hN' : H * H⁻¹ = 1 := mul_nonsing_inv H hunit
    have hNt : ∀ i j, |H⁻¹ i j| ≤ t := by
      intro i j
      have h1 := reg (toReal fun k => H⁻¹ k j)
      have e : H.mulVec (fun k => H⁻¹ k j) = fun i => (1 : Matrix (Fin n) (Fin n) ℚ) i j := by
        funext i
        rw [← hN']
        rfl
      rw [toReal_mulVec, e] at h1
      have h2 : ‖toReal fun i => (1 : Matrix (Fin n) (Fin n) ℚ) i j‖ ≤ 1 := by
        refine (pi_norm_le_iff_of_nonneg zero_le_one).mpr fun i => ?_
        by_cases hij : i = j
        · subst hij
          simp [toReal]
        · simp [toReal, hij]
      have ht0 : (0 : ℝ) ≤ t := le_trans (mul_nonneg (by norm_num) hB.regular_nonneg) ht
      have h3 := (norm_le_pi_norm (toReal fun k => H⁻¹ k j) i).trans (h1.trans (mul_le_mul_of_nonneg_left h2 ht0))
      rw [Real.norm_eq_abs, mul_one] at h3
      have h4 : ((|H⁻¹ i j| : ℚ) : ℝ) ≤ (t : ℝ) := by
        rw [Rat.cast_abs]
        exact h3
      exact_mod_cast h4
    obtain ⟨d, hd, hres, -⟩ := C155_solve hS hs (hC.entries x hx hr) hN hNt hδ (b := -cdf x) (β := G)
      (fun i => by
        rw [Pi.neg_apply, abs_neg]
        exact hC.size x hx hr i)
    refine ⟨d, hd, ?_⟩
    have h0 : (0 : ℚ) ≤ solveSlack n a t G := (abs_nonneg _).trans (hres ⟨0, hs.pos⟩)
    rw [toReal_mulVec]
    refine (pi_norm_le_iff_of_nonneg (by exact_mod_cast h0)).mpr fun i => ?_
    rw [Real.norm_eq_abs]
    have h1 := hres i
    rw [Pi.neg_apply, sub_neg_eq_add] at h1
    have h2 : ((|H.mulVec d i + cdf x i| : ℚ) : ℝ) ≤ ((solveSlack n a t G : ℚ) : ℝ) := by exact_mod_cast h1
    rw [Rat.cast_abs, Rat.cast_add] at h2
    exact h2

/-- C155. `newton_method` in double precision with elimination, from any double in the ball of C113: no error is raised,
and the distance to the stationary point shrinks by a quarter with every step until it is four times the floor, which
depends on the errors of the callbacks, the size of the numbers and the precision only. -/
theorem C155_near (hS : GaussianSolver binary64 solve) (hB : NewtonBall df d2f p r M β) {a t G : ℚ}
    (hC : NewtonCallbacks cdf cd2f df d2f p r εg εh a G) (hh : β * εh ≤ 1 / 8) (hh0 : 0 ≤ εh) (ht : 8 / 7 * β ≤ t)
    (hs : Moderate n a) (hδ : inverseAccuracy n a t ≤ 1)
    (hf : 4 * newtonFloor binary64 p β εg (solveSlack n a t G : ℚ) ≤ r) (f : Vec ℚ n → ℚ) {x : Vec ℚ n}
    (hx : RepVec binary64 x) (hr : ‖toReal x - p‖ ≤ r) (maxIter : ℕ) :
    ∃ o, fnewtonMethod binary64 norm solve (construct f "min") x cdf cd2f τ maxIter = .ok o ∧
      ‖toReal o.result - p‖ ≤ r ∧
      ‖toReal o.result - p‖ ≤
        (3 / 4) ^ o.iterations * r + 4 * newtonFloor binary64 p β εg (solveSlack n a t G : ℚ) :=
  C153_near hB (C155_noise hS hB hC hh ht hs hδ) (binary64_u.trans (by norm_num)) hh hh0 hf f hx hr maxIter

/-! ### A case -/

example : GaussianSolver (n := 1) binary64 (eliminatingSolver binary64) := eliminatingSolver_gaussian

theorem cube_callbacks : NewtonCallbacks (n := 1) cubeDf (fun x => !![2 * x 0]) (fun x _ => x 0 ^ 2 - 1)
    (fun x => !![2 * x 0]) (fun _ => 1) (1 / 4) (1 / 10 ^ 15) 0 (5 / 2) 1 where
  gradient := cube_noise.gradient
  hessian := cube_noise.hessian
  entries := by
    intro x hx hr i j
    have h1 := (norm_le_pi_norm (toReal x - fun _ => 1) 0).trans hr
    rw [Real.norm_eq_abs] at h1
    have h2 : |(x 0 : ℝ) - 1| ≤ 1 / 4 := h1
    have h3 : |x 0 - 1| ≤ 1 / 4 := by
      have : ((|x 0 - 1| : ℚ) : ℝ) ≤ ((1 / 4 : ℚ) : ℝ) := by push_cast; linarith
      exact_mod_cast this
    rw [abs_le] at h3
    fin_cases i
    fin_cases j
    show |2 * x 0| ≤ 5 / 2
    rw [abs_le]
    constructor <;> linarith
  size := by
    intro x hx hr i
    have h0 := cube_noise.gradient x hx hr
    have h1 := (norm_le_pi_norm (toReal x - fun _ => 1) 0).trans hr
    have h2 := (norm_le_pi_norm _ 0).trans h0
    rw [Real.norm_eq_abs] at h1 h2
    have h3 : |(x 0 : ℝ) - 1| ≤ 1 / 4 := h1
    have h4 : |(cubeDf x 0 : ℝ) - ((x 0 : ℝ) ^ 2 - 1)| ≤ 1 / 10 ^ 15 := h2
    have h5 : |(cubeDf x 0 : ℝ)| ≤ 1 := by
      rw [abs_le] at h3 h4 ⊢
      norm_num at h4
      constructor <;> nlinarith
    fin_cases i
    have h6 : ((|cubeDf x 0| : ℚ) : ℝ) ≤ ((1 : ℚ) : ℝ) := by
      rw [Rat.cast_abs, Rat.cast_one]
      exact h5
    exact_mod_cast h6

/-- Near the local minimum of `x ^ 3 / 3 - x`, whatever variant of the elimination is used. -/
example {solve : Matrix (Fin 1) (Fin 1) ℚ → Vec ℚ 1 → Option (Vec ℚ 1)} (hS : GaussianSolver binary64 solve)
    {norm : Vec ℚ 1 → ℚ} {τ : ℚ} {x : Vec ℚ 1} (hx : RepVec binary64 x) (hr : ‖toReal x - fun _ => 1‖ ≤ 1 / 4)
    (maxIter : ℕ) :
    ∃ o, fnewtonMethod binary64 norm solve (construct (fun x => x 0 ^ 3 / 3 - x 0) "min") x cubeDf
        (fun x => !![2 * x 0]) τ maxIter = .ok o ∧
      ‖toReal o.result - fun _ => 1‖ ≤ (3 / 4) ^ o.iterations * (1 / 4) + 1 / 10 ^ 11 := by
  have hu := binary64_u
  have ht := binary64_tiny
  have hp : ‖(fun _ => 1 : Vec ℝ 1)‖ = 1 := by simp [Pi.norm_def]
  have hsl : solveSlack 1 (5 / 2) 1 1 ≤ 1 / 10 ^ 12 * 2 := by decide +kernel
  have hfl : 4 * newtonFloor binary64 (fun _ => 1 : Vec ℝ 1) (2 / 3) (1 / 10 ^ 15) (solveSlack 1 (5 / 2) 1 1 : ℚ) ≤
      1 / 10 ^ 11 := by
    have hu' : ((binary64.u : ℚ) : ℝ) ≤ 1 / 10 ^ 15 / 8 := by
      have : ((binary64.u : ℚ) : ℝ) ≤ ((1 / 10 ^ 15 / 8 : ℚ) : ℝ) := by exact_mod_cast hu
      push_cast at this; exact this
    have ht' : ((binary64.tiny : ℚ) : ℝ) ≤ 1 / 10 ^ 15 / 1000 := by
      have : ((binary64.tiny : ℚ) : ℝ) ≤ ((1 / 10 ^ 15 / 1000 : ℚ) : ℝ) := by exact_mod_cast ht
      push_cast at this; exact this
    have hsl' : ((solveSlack 1 (5 / 2) 1 1 : ℚ) : ℝ) ≤ 1 / 10 ^ 12 * 2 := by
      have : ((solveSlack 1 (5 / 2) 1 1 : ℚ) : ℝ) ≤ ((1 / 10 ^ 12 * 2 : ℚ) : ℝ) := by exact_mod_cast hsl
      push_cast at this; exact this
    unfold newtonFloor
    rw [hp]
    linarith
  obtain ⟨o, h1, -, h2⟩ := C155_near (norm := norm) (τ := τ) (t := 1) hS cube_ball cube_callbacks (by norm_num) le_rfl
    (by norm_num) ⟨le_rfl, by norm_num, by decide +kernel, by decide +kernel⟩ (by decide +kernel)
    (hfl.trans (by norm_num)) (fun x => x 0 ^ 3 / 3 - x 0) hx hr maxIter
  exact ⟨o, h1, h2.trans (by linarith)⟩

end Props
end Pytimize
