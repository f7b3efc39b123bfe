/-
Property C113: local convergence of `newton_method`.
-/
import Mathlib.Analysis.Calculus.MeanValue
import Mathlib.Analysis.Calculus.FDeriv.Pow
import Mathlib.Analysis.Matrix.Normed
import Mathlib.Topology.Algebra.Module.FiniteDimension
import Mathlib.Analysis.SpecificLimits.Basic
import Verif.Props.Newton

namespace Pytimize
namespace Props
open Unconstrained Metric

variable {n : ℕ}

/-- The linear map of a matrix. -/
noncomputable def hessMap (H : Matrix (Fin n) (Fin n) ℝ) : Vec ℝ n →L[ℝ] Vec ℝ n :=
  LinearMap.toContinuousLinearMap H.mulVecLin

theorem hessMap_apply (H : Matrix (Fin n) (Fin n) ℝ) (v : Vec ℝ n) : hessMap H v = H.mulVec v := rfl

/-- `p` is a stationary point, and on the closed ball (in the maximum norm) of radius `r` around `p` the matrix
`d2f x` is the derivative of `df`, Lipschitz with constant `M`, and stretches every vector at least by `1 / β`. -/
structure NewtonBall (df : Vec ℝ n → Vec ℝ n) (d2f : Vec ℝ n → Matrix (Fin n) (Fin n) ℝ) (p : Vec ℝ n)
    (r M β : ℝ) : Prop where
  stationary : df p = 0
  hessian : ∀ x ∈ closedBall p r, HasFDerivAt df (hessMap (d2f x)) x
  lipschitz : ∀ x ∈ closedBall p r, ∀ y ∈ closedBall p r, ∀ v,
    ‖(d2f x).mulVec v - (d2f y).mulVec v‖ ≤ M * ‖x - y‖ * ‖v‖
  regular : ∀ x ∈ closedBall p r, ∀ v, ‖v‖ ≤ β * ‖(d2f x).mulVec v‖
  lipschitz_nonneg : 0 ≤ M
  regular_nonneg : 0 ≤ β
  radius_pos : 0 < r
  small : β * M * r ≤ 1 / 2

variable {df : Vec ℝ n → Vec ℝ n} {d2f : Vec ℝ n → Matrix (Fin n) (Fin n) ℝ} {p : Vec ℝ n} {r M β : ℝ}

theorem NewtonBall.det (hB : NewtonBall df d2f p r M β) {x : Vec ℝ n} (hx : x ∈ closedBall p r) :
    (d2f x).det ≠ 0 := by
  intro h
  obtain ⟨v, hv, hv0⟩ := Matrix.exists_mulVec_eq_zero_iff.mpr h
  have := hB.regular x hx v
  rw [hv0, norm_zero, mul_zero] at this
  exact hv (norm_le_zero_iff.mp this)

/-- The linear approximation of the gradient at `x` nearly vanishes at `p`. -/
theorem NewtonBall.taylor (hB : NewtonBall df d2f p r M β) {x : Vec ℝ n} (hx : x ∈ closedBall p r) :
    ‖df x + (d2f x).mulVec (p - x)‖ ≤ M * ‖x - p‖ ^ 2 := by
  have hp : p ∈ closedBall p r := mem_closedBall_self hB.radius_pos.le
  have hxs : x ∈ segment ℝ x p := left_mem_segment ℝ x p
  have hps : p ∈ segment ℝ x p := right_mem_segment ℝ x p
  have hseg : segment ℝ x p ⊆ closedBall p r := (convex_closedBall p r).segment_subset hx hp
  have hmv := Convex.norm_image_sub_le_of_norm_hasFDerivWithin_le' (f := df) (f' := fun z => hessMap (d2f z))
    (φ := hessMap (d2f x)) (C := M * ‖x - p‖) (s := segment ℝ x p) (x := x) (y := p)
    (fun z hz => (hB.hessian z (hseg hz)).hasFDerivWithinAt)
    (fun z hz => by
      refine ContinuousLinearMap.opNorm_le_bound _ (mul_nonneg hB.lipschitz_nonneg (norm_nonneg _)) fun v => ?_
      rw [sub_apply, hessMap_apply, hessMap_apply]
      refine (hB.lipschitz z (hseg hz) x hx v).trans ?_
      gcongr
      · exact hB.lipschitz_nonneg
      · obtain ⟨a, b, ha, hb, hab, rfl⟩ := hz
        have : a • x + b • p - x = b • (p - x) := by
          have : a = 1 - b := by linarith
          subst this
          module
        rw [this, norm_smul, Real.norm_eq_abs, abs_of_nonneg hb, ← norm_neg, neg_sub]
        nlinarith [norm_nonneg (x - p)])
    (convex_segment x p) hxs hps
  rw [hB.stationary, hessMap_apply, norm_sub_rev p x] at hmv
  calc ‖df x + (d2f x).mulVec (p - x)‖ = ‖0 - df x - (d2f x).mulVec (p - x)‖ := by
        rw [zero_sub, ← neg_add', norm_neg]
    _ ≤ M * ‖x - p‖ * ‖x - p‖ := hmv
    _ = M * ‖x - p‖ ^ 2 := by ring

/-- One step of Newton's method squares the error. -/
theorem NewtonBall.step (hB : NewtonBall df d2f p r M β) {x y : Vec ℝ n} (hx : x ∈ closedBall p r)
    (hy : (d2f x).mulVec (y - x) = -df x) : ‖y - p‖ ≤ β * M * ‖x - p‖ ^ 2 := by
  have key : (d2f x).mulVec (y - p) = -(df x + (d2f x).mulVec (p - x)) := by
    rw [neg_add, ← hy, ← sub_eq_add_neg, ← Matrix.mulVec_sub]
    congr 1
    abel
  have h1 := hB.regular x hx (y - p)
  rw [key, norm_neg] at h1
  refine h1.trans ?_
  rw [mul_assoc]
  exact mul_le_mul_of_nonneg_left (hB.taylor hx) hB.regular_nonneg

theorem NewtonBall.run (hB : NewtonBall df d2f p r M β) {t : ℝ} {xs : ℕ → Vec ℝ n} {k : ℕ}
    (h : NewtonRun df d2f t xs k) (h0 : xs 0 ∈ closedBall p r) :
    ∀ i ≤ k, ‖xs i - p‖ ≤ r * (1 / 2) ^ (2 ^ i - 1) ∧ xs i ∈ closedBall p r ∧
      (i < k → ‖xs (i + 1) - p‖ ≤ β * M * ‖xs i - p‖ ^ 2) := by
  have hball : ∀ {y : Vec ℝ n} {i : ℕ}, ‖y - p‖ ≤ r * (1 / 2) ^ (2 ^ i - 1) → y ∈ closedBall p r := by
    intro y i hy
    rw [mem_closedBall_iff_norm]
    have : ((1 : ℝ) / 2) ^ (2 ^ i - 1) ≤ 1 := pow_le_one₀ (by norm_num) (by norm_num)
    nlinarith [hB.radius_pos]
  have hstep : ∀ i < k, xs i ∈ closedBall p r → ‖xs (i + 1) - p‖ ≤ β * M * ‖xs i - p‖ ^ 2 := by
    intro i hi hm
    refine hB.step hm ?_
    funext s
    simpa [Matrix.mulVec, dotProduct] using h.step i hi s
  intro i
  induction i with
  | zero =>
    intro _
    refine ⟨?_, h0, fun hk => hstep 0 hk h0⟩
    simpa using mem_closedBall_iff_norm.mp h0
  | succ i ih =>
    intro hk
    obtain ⟨h1, h2, h3⟩ := ih (by omega)
    have h4 := h3 (by omega)
    have h5 : ‖xs (i + 1) - p‖ ≤ r * (1 / 2) ^ (2 ^ (i + 1) - 1) := by
      refine h4.trans ?_
      have e : (2 : ℕ) ^ (i + 1) - 1 = 1 + ((2 ^ i - 1) + (2 ^ i - 1)) := by
        have : 1 ≤ 2 ^ i := Nat.one_le_two_pow
        rw [pow_succ]; omega
      rw [e, pow_add, pow_add, pow_one]
      have hsq : ‖xs i - p‖ ^ 2 ≤ (r * (1 / 2) ^ (2 ^ i - 1)) ^ 2 := by gcongr
      calc β * M * ‖xs i - p‖ ^ 2 ≤ β * M * (r * (1 / 2) ^ (2 ^ i - 1)) ^ 2 := by
            gcongr
            exact mul_nonneg hB.regular_nonneg hB.lipschitz_nonneg
        _ = (β * M * r) * (r * ((1 / 2) ^ (2 ^ i - 1) * (1 / 2) ^ (2 ^ i - 1))) := by ring
        _ ≤ 1 / 2 * (r * ((1 / 2) ^ (2 ^ i - 1) * (1 / 2) ^ (2 ^ i - 1))) := by
            gcongr
            · exact mul_nonneg hB.radius_pos.le (by positivity)
            · exact hB.small
        _ = _ := by ring
    exact ⟨h5, hball h5, fun hk' => hstep _ hk' (hball h5)⟩

/-- C113: from every start in the ball `newton_method` returns, whatever `max_iteration` and tolerance; every step at
least squares the error up to a constant, and after `k` steps the distance to the stationary point is at most
`r / 2 ^ (2 ^ k - 1)`. -/
theorem C113_quadratic (hB : NewtonBall df d2f p r M β) (f : Vec ℝ n → ℝ) {x : Vec ℝ n} (hx : ‖x - p‖ ≤ r) (t : ℝ)
    (maxIter : ℕ) :
    ∃ o, newtonMethod (construct f "min") x df d2f t maxIter = .ok o ∧
      ‖o.result - p‖ ≤ r * (1 / 2) ^ (2 ^ o.iterations - 1) ∧
      ∃ xs : ℕ → Vec ℝ n, xs 0 = x ∧ xs o.iterations = o.result ∧ NewtonRun df d2f t xs o.iterations ∧
        ∀ i < o.iterations, ‖xs (i + 1) - p‖ ≤ β * M * ‖xs i - p‖ ^ 2 := by
  rw [← mem_closedBall_iff_norm] at hx
  generalize hr : newtonMethod (construct f "min") x df d2f t maxIter = q
  cases q with
  | error e =>
    exfalso
    obtain ⟨-, xs, j, -, h2, h3, -, h5⟩ := (C112_raises f df d2f t x maxIter "min" e).mp hr
    rw [← h2] at hx
    exact hB.det (hB.run h3 hx j le_rfl).2.1 h5
  | ok o =>
    obtain ⟨-, -, -, xs, h4, h5, h6⟩ := C112_returns hr
    rw [← h4] at hx
    have := hB.run h6 hx
    refine ⟨o, rfl, ?_, xs, h4, h5, h6, fun i hi => (this i hi.le).2.2 hi⟩
    have := (this _ le_rfl).1
    rwa [h5] at this

theorem NewtonBall.gradient (hB : NewtonBall df d2f p r M β) :
    ∃ B, 0 ≤ B ∧ ∀ x ∈ closedBall p r, ‖df x‖ ≤ B * ‖x - p‖ := by
  have hp : p ∈ closedBall p r := mem_closedBall_self hB.radius_pos.le
  refine ⟨‖hessMap (d2f p)‖ + M * r, add_nonneg (norm_nonneg _) (mul_nonneg hB.lipschitz_nonneg hB.radius_pos.le),
    fun x hx => ?_⟩
  have := Convex.norm_image_sub_le_of_norm_hasFDerivWithin_le (f := df) (f' := fun z => hessMap (d2f z))
    (C := ‖hessMap (d2f p)‖ + M * r) (s := closedBall p r)
    (fun z hz => (hB.hessian z hz).hasFDerivWithinAt)
    (fun z hz => by
      refine ContinuousLinearMap.opNorm_le_bound _
        (add_nonneg (norm_nonneg _) (mul_nonneg hB.lipschitz_nonneg hB.radius_pos.le)) fun v => ?_
      have h1 := hB.lipschitz z hz p hp v
      have h2 := (hessMap (d2f p)).le_opNorm v
      rw [hessMap_apply] at h2 ⊢
      have h3 : ‖z - p‖ ≤ r := by rwa [← mem_closedBall_iff_norm]
      have h4 : ‖(d2f z).mulVec v‖ ≤ ‖(d2f z).mulVec v - (d2f p).mulVec v‖ + ‖(d2f p).mulVec v‖ := by
        simpa using norm_add_le ((d2f z).mulVec v - (d2f p).mulVec v) ((d2f p).mulVec v)
      have h5 : M * ‖z - p‖ * ‖v‖ ≤ M * r * ‖v‖ := by
        gcongr
        exact hB.lipschitz_nonneg
      linarith)
    (convex_closedBall p r) hp hx
  rwa [hB.stationary, sub_zero] at this

/-- The square of the Euclidean norm against the maximum norm. -/
theorem sum_sq_le (g : Vec ℝ n) : ∑ s, g s ^ 2 ≤ n * ‖g‖ ^ 2 := by
  have : ∀ s ∈ Finset.univ, g s ^ 2 ≤ ‖g‖ ^ 2 := by
    intro s _
    have := norm_le_pi_norm g s
    rw [Real.norm_eq_abs] at this
    rw [← sq_abs]
    gcongr
  simpa using Finset.sum_le_card_nsmul Finset.univ _ _ this

/-- C113: for every positive tolerance there is a number of iterations, the same for all starts in the ball, after
which `newton_method` has stopped at a point where the gradient has norm at most the tolerance. -/
theorem C113_converges (hB : NewtonBall df d2f p r M β) (f : Vec ℝ n → ℝ) {t : ℝ} (ht : 0 < t) :
    ∃ N, ∀ x, ‖x - p‖ ≤ r → ∀ maxIter ≥ N,
      ∃ o, newtonMethod (construct f "min") x df d2f t maxIter = .ok o ∧ o.iterations ≤ N ∧
        ∑ s, df o.result s ^ 2 ≤ t ^ 2 := by
  obtain ⟨B, hB0, hgrad⟩ := hB.gradient
  have hr := hB.radius_pos
  obtain ⟨N, hN⟩ := exists_pow_lt_of_lt_one (y := (1 : ℝ) / 4)
    (show 0 < t ^ 2 / (n * (B * r) ^ 2 + 1) by positivity) (by norm_num)
  have hbound : ∀ i ≥ N, ∀ y ∈ closedBall p r, ‖y - p‖ ≤ r * (1 / 2) ^ (2 ^ i - 1) →
      ∑ s, df y s ^ 2 ≤ t ^ 2 := by
    intro i hi y hy hd
    have h1 : ((1 : ℝ) / 2) ^ (2 ^ i - 1) ≤ (1 / 2) ^ N := by
      apply pow_le_pow_of_le_one (by norm_num) (by norm_num)
      have : i < 2 ^ i := Nat.lt_two_pow_self
      omega
    have h2 : ‖df y‖ ≤ B * (r * (1 / 2) ^ N) := by
      refine (hgrad y hy).trans ?_
      gcongr
      exact hd.trans (by gcongr)
    have h3 : ‖df y‖ ^ 2 ≤ (B * r) ^ 2 * (1 / 4) ^ N := by
      calc ‖df y‖ ^ 2 ≤ (B * (r * (1 / 2) ^ N)) ^ 2 := by gcongr
        _ = (B * r) ^ 2 * ((1 / 2) ^ 2) ^ N := by rw [← pow_mul, mul_comm 2 N, pow_mul]; ring
        _ = _ := by norm_num
    rw [lt_div_iff₀ (by positivity)] at hN
    have h4 : (0 : ℝ) < (1 / 4) ^ N := by positivity
    calc ∑ s, df y s ^ 2 ≤ n * ‖df y‖ ^ 2 := sum_sq_le _
      _ ≤ n * ((B * r) ^ 2 * (1 / 4) ^ N) := by gcongr
      _ ≤ t ^ 2 := by nlinarith
  refine ⟨N + 1, fun x hx maxIter hm => ?_⟩
  obtain ⟨o, h1, h2, xs, h3, h4, h5, -⟩ := C113_quadratic hB f hx t maxIter
  have hrun := hB.run h5 (by rw [h3]; rwa [mem_closedBall_iff_norm])
  obtain ⟨g1, -, g3, -⟩ := C112_returns h1
  have hit : o.iterations ≤ N + 1 := by
    by_contra hcon
    obtain ⟨h6, h7, -⟩ := hrun (N + 1) (by omega)
    exact h5.running (N + 1) (by omega) (by omega) ⟨ht.le, hbound (N + 1) (by omega) _ h7 h6⟩
  refine ⟨o, h1, hit, ?_⟩
  rcases lt_or_ge o.iterations maxIter with hlt | hge
  · exact (g3 hlt).2
  · obtain ⟨h6, h7, -⟩ := hrun o.iterations le_rfl
    have := hbound o.iterations (by omega) _ h7 h6
    rwa [h4] at this

/-- A neighbourhood of a stationary point with invertible Hessian contains a ball as above. -/
theorem newtonBall_exists {R : ℝ} (hR : 0 < R) (hM : 0 ≤ M) (hp : df p = 0)
    (hd : ∀ x ∈ closedBall p R, HasFDerivAt df (hessMap (d2f x)) x)
    (hl : ∀ x ∈ closedBall p R, ∀ y ∈ closedBall p R, ∀ v,
      ‖(d2f x).mulVec v - (d2f y).mulVec v‖ ≤ M * ‖x - y‖ * ‖v‖)
    (hdet : (d2f p).det ≠ 0) : ∃ r β, 0 < r ∧ r ≤ R ∧ NewtonBall df d2f p r M β := by
  have hu : IsUnit (d2f p).det := isUnit_iff_ne_zero.mpr hdet
  set β₀ := ‖hessMap (d2f p)⁻¹‖ with hβ
  have hβ0 : 0 ≤ β₀ := norm_nonneg _
  have hinv : ∀ v, ‖v‖ ≤ β₀ * ‖(d2f p).mulVec v‖ := by
    intro v
    have := (hessMap (d2f p)⁻¹).le_opNorm ((d2f p).mulVec v)
    rwa [hessMap_apply, Matrix.mulVec_mulVec, Matrix.nonsing_inv_mul _ hu, Matrix.one_mulVec] at this
  set r := min R (1 / (4 * (β₀ * M + 1))) with hrdef
  have hpos : 0 < 4 * (β₀ * M + 1) := by
    have := mul_nonneg hβ0 hM
    linarith
  have hr : 0 < r := lt_min hR (by positivity)
  have hrR : r ≤ R := min_le_left _ _
  have hsmall : β₀ * M * r ≤ 1 / 4 := by
    have h1 : r ≤ 1 / (4 * (β₀ * M + 1)) := min_le_right _ _
    rw [le_div_iff₀ hpos] at h1
    nlinarith
  have hsub : closedBall p r ⊆ closedBall p R := closedBall_subset_closedBall hrR
  have hpR : p ∈ closedBall p R := mem_closedBall_self hR.le
  refine ⟨r, 2 * β₀, hr, hrR, hp, fun x hx => hd x (hsub hx), fun x hx y hy => hl x (hsub hx) y (hsub hy), ?_, hM,
    by positivity, hr, by linarith⟩
  intro x hx v
  have h1 := hinv v
  have h2 := hl p hpR x (hsub hx) v
  have h3 : ‖p - x‖ ≤ r := by
    rw [norm_sub_rev]
    rwa [← mem_closedBall_iff_norm]
  have h4 : ‖(d2f p).mulVec v‖ ≤ ‖(d2f p).mulVec v - (d2f x).mulVec v‖ + ‖(d2f x).mulVec v‖ := by
    simpa using norm_add_le ((d2f p).mulVec v - (d2f x).mulVec v) ((d2f x).mulVec v)
  have h5 : M * ‖p - x‖ * ‖v‖ ≤ M * r * ‖v‖ := by gcongr
  have h6 : β₀ * ‖(d2f p).mulVec v‖ ≤ β₀ * (M * r * ‖v‖ + ‖(d2f x).mulVec v‖) := by
    gcongr
    linarith
  have h7 : β₀ * M * r * ‖v‖ ≤ 1 / 4 * ‖v‖ := by gcongr
  have h8 : 0 ≤ β₀ * ‖(d2f x).mulVec v‖ := by positivity
  nlinarith [norm_nonneg v]

/-- C113: let `p` be a stationary point with invertible Hessian, and let `d2f` be the derivative of `df` and Lipschitz
near `p`. Then from every start close enough to `p`, `newton_method` raises nothing, ends after a number of iterations
that depends on the tolerance only, at a point where the gradient has norm at most the tolerance, and that is within
`r / 2 ^ (2 ^ k - 1)` of `p` after `k` iterations. -/
theorem C113_local {R : ℝ} (hR : 0 < R) (hM : 0 ≤ M) (hp : df p = 0)
    (hd : ∀ x ∈ closedBall p R, HasFDerivAt df (hessMap (d2f x)) x)
    (hl : ∀ x ∈ closedBall p R, ∀ y ∈ closedBall p R, ∀ v,
      ‖(d2f x).mulVec v - (d2f y).mulVec v‖ ≤ M * ‖x - y‖ * ‖v‖)
    (hdet : (d2f p).det ≠ 0) (f : Vec ℝ n → ℝ) :
    ∃ r > 0, ∀ t > 0, ∃ N, ∀ x, ‖x - p‖ ≤ r → ∀ maxIter ≥ N,
      ∃ o, newtonMethod (construct f "min") x df d2f t maxIter = .ok o ∧ o.iterations ≤ N ∧
        ∑ s, df o.result s ^ 2 ≤ t ^ 2 ∧ ‖o.result - p‖ ≤ r * (1 / 2) ^ (2 ^ o.iterations - 1) := by
  obtain ⟨r, β, hr, -, hB⟩ := newtonBall_exists hR hM hp hd hl hdet
  refine ⟨r, hr, fun t ht => ?_⟩
  obtain ⟨N, hN⟩ := C113_converges hB f ht
  refine ⟨N, fun x hx maxIter hm => ?_⟩
  obtain ⟨o, h1, h2, h3⟩ := hN x hx maxIter hm
  obtain ⟨o', h1', h2', -⟩ := C113_quadratic hB f hx t maxIter
  rw [h1] at h1'
  cases h1'
  exact ⟨o, h1, h2, h3, h2'⟩

/-- The hypotheses of `C113_local` hold for `f = x ^ 3 / 3 - x` at its local minimum 1. -/
example : ∃ r > 0, ∀ t > 0, ∃ N, ∀ x : Vec ℝ 1, ‖x - fun _ => 1‖ ≤ r → ∀ maxIter ≥ N,
    ∃ o, newtonMethod (construct (fun x => x 0 ^ 3 / 3 - x 0) "min") x (fun x _ => x 0 ^ 2 - 1)
      (fun x => !![2 * x 0]) t maxIter = .ok o ∧ o.iterations ≤ N ∧
      ∑ s : Fin 1, ((fun x _ => x 0 ^ 2 - 1 : Vec ℝ 1 → Vec ℝ 1) o.result) s ^ 2 ≤ t ^ 2 ∧
      ‖o.result - fun _ => 1‖ ≤ r * (1 / 2) ^ (2 ^ o.iterations - 1) := by
  refine C113_local (R := 1) (M := 2) one_pos (by norm_num) (by funext s; simp) ?_ ?_ (by simp) _
  · intro x _
    rw [hasFDerivAt_pi']
    intro i
    have h1 : HasFDerivAt (fun x : Vec ℝ 1 => x 0) (ContinuousLinearMap.proj (R := ℝ) 0) x :=
      hasFDerivAt_apply 0 x
    refine ((h1.pow 2).sub_const 1).congr_fderiv ?_
    ext v
    fin_cases i
    simp [hessMap_apply, dotProduct]
  · intro x _ y _ v
    have e : (!![2 * x 0] : Matrix (Fin 1) (Fin 1) ℝ).mulVec v - (!![2 * y 0] : Matrix (Fin 1) (Fin 1) ℝ).mulVec v =
        (2 * (x 0 - y 0)) • v := by
      funext i
      fin_cases i
      simp [dotProduct]
      ring
    rw [e, norm_smul, norm_mul]
    have := norm_le_pi_norm (x - y) 0
    gcongr
    · simp
    · exact this

end Props
end Pytimize
