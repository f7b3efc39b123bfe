/-
`np.linalg.solve` by Gaussian elimination with partial pivoting, in floating point.
-/
import Verif.Float.GaussError

namespace Pytimize
namespace Floating
open LinProg Matrix

variable {n : ℕ} {R : Rounding}

/-- `np.linalg.solve`, `_unconstrained.py:113`, for systems of size `n`: the answer is one that elimination can give, and
`LinAlgError` (`none`) is raised if a pivot is zero. -/
def GaussianSolver (R : Rounding) (solve : Matrix (Fin n) (Fin n) ℚ → (Fin n → ℚ) → Option (Fin n → ℚ)) : Prop :=
  ∀ M b, (∃ x, solve M b = some x ∧ ∃ π l u, SolveVal R M π l u b x) ∨ (solve M b = none ∧ InvFails R M)

theorem exists_solveVal (R : Rounding) (M : Matrix (Fin n) (Fin n) ℚ) (b : Fin n → ℚ) :
    (∃ x π l u, SolveVal R M π l u b x) ∨ InvFails R M := by
  obtain ⟨π, l, u, h⟩ := exists_factored R M
  by_cases h0 : ∃ i, u i i = 0
  · exact .inr ⟨π, l, u, h, h0⟩
  · have hy : ∃ y : Fin n → ℚ, ∀ i, Reduced R (b (π i)) (fun k => decide (k < i)) (l i) y (y i) := by
      obtain ⟨v, hv⟩ := exists_sequence (n := n) (r := fun a b => a < b) wellFounded_lt fun i w =>
        (exists_reduced R (b (π i)) (fun k => decide (k < i)) (l i) w).choose
      refine ⟨v, fun i => ?_⟩
      obtain ⟨w, hw, e⟩ := hv i
      rw [e]
      exact (exists_reduced R (b (π i)) (fun k => decide (k < i)) (l i) w).choose_spec.congr
        (fun _ => rfl) (fun _ _ => rfl) fun k hk => hw k (by simpa using hk)
    obtain ⟨y, hy⟩ := hy
    have hx : ∃ x : Fin n → ℚ, ∀ i, ∃ s,
        Reduced R (y i) (fun k => decide (i < k)) (u i) x s ∧ Quotient R s (u i i) (x i) := by
      obtain ⟨v, hv⟩ := exists_sequence (n := n) (r := fun a b => b < a) wellFounded_gt fun i w =>
        R.rd ((exists_reduced R (y i) (fun k => decide (i < k)) (u i) w).choose / u i i)
      refine ⟨v, fun i => ?_⟩
      obtain ⟨w, hw, e⟩ := hv i
      exact ⟨_, (exists_reduced R (y i) (fun k => decide (i < k)) (u i) w).choose_spec.congr (fun _ => rfl)
        (fun _ _ => rfl) fun k hk => hw k (by simpa using hk), .inl e⟩
    obtain ⟨x, hx⟩ := hx
    exact .inl ⟨x, π, l, u, h, not_exists.mp h0, y, hy, hx⟩

open Classical in
/-- A solver that eliminates. -/
noncomputable def eliminatingSolver (R : Rounding) (M : Matrix (Fin n) (Fin n) ℚ) (b : Fin n → ℚ) :
    Option (Fin n → ℚ) :=
  if h : ∃ x π l u, SolveVal R M π l u b x then some h.choose else none

theorem eliminatingSolver_gaussian : GaussianSolver (n := n) R (eliminatingSolver R) := by
  intro M b
  by_cases h : ∃ x π l u, SolveVal R M π l u b x
  · exact .inl ⟨h.choose, dif_pos h, h.choose_spec⟩
  · exact .inr ⟨dif_neg h, (exists_solveVal R M b).resolve_left h⟩

/-- The residual of a system whose matrix has an inverse with entries up to `t`, without a bound on the solution. -/
theorem solve_residual {M N : Matrix (Fin n) (Fin n) ℚ} {π : Equiv.Perm (Fin n)} {l u : Matrix (Fin n) (Fin n) ℚ}
    {b x : Fin n → ℚ} {a t β μ : ℚ} (hS : SolveVal R M π l u b x) (hg : relErr R n μ ≤ 1 / 2)
    (ht : R.tiny ≤ 1 / 2) (ha : ∀ i j, |M i j| ≤ a) (hμ : ∀ i j, i ≤ j → |u i j| ≤ μ) (hμ0 : 0 ≤ μ)
    (hN : N * M = 1) (hNt : ∀ i j, |N i j| ≤ t) (hb : ∀ i, |b i| ≤ β) {κ : ℚ}
    (hκ : n ^ 2 * t * (relErr R n μ * (a + 16 * n * μ) + absErr R n μ) ≤ κ) (hκ1 : κ ≤ 1 / 2) (i : Fin n) :
    |∑ j, M i j * x j - b i| ≤ 2 * (relErr R n μ * β + absErr R n μ * (6 * n + 1)) + 2 * κ * β := by
  have : Nonempty (Fin n) := ⟨i⟩
  obtain ⟨im, him⟩ := Finite.exists_max fun i => |x i|
  set s := |x im| with hs
  have ha0 : 0 ≤ a := (abs_nonneg _).trans (ha i i)
  have ht0 : 0 ≤ t := (abs_nonneg _).trans (hNt i i)
  have hβ0 : 0 ≤ β := (abs_nonneg _).trans (hb i)
  have hn0 : (0 : ℚ) ≤ n := Nat.cast_nonneg n
  have res := residual_le hS hg ht ha hμ hμ0 him hb
  have hg0 : 0 ≤ relErr R n μ := relErr_nonneg hμ0
  have hτ0 : 0 ≤ absErr R n μ := absErr_nonneg hμ0
  generalize relErr R n μ = g at *
  generalize absErr R n μ = τ at *
  set P := g * β + τ * (6 * n + 1) with hP
  set Q := g * (n * a + 16 * n ^ 2 * μ) + τ * n with hQ
  have hP0 : 0 ≤ P := by positivity
  have hQ0 : 0 ≤ Q := by positivity
  have eQ : g * (β + n * a * s + 16 * n ^ 2 * μ * s) + τ * (n * s + 6 * n + 1) = P + Q * s := by
    rw [hP, hQ]; ring
  rw [eQ] at res
  have hk : n * t * Q ≤ κ := le_trans (le_of_eq (by rw [hQ]; ring)) hκ
  have hs0 : 0 ≤ s := abs_nonneg _
  have h1 : s ≤ n * (t * (β + (P + Q * s))) := by
    have e : x = N.mulVec (M.mulVec x) := by rw [mulVec_mulVec, hN, one_mulVec]
    have e2 : s = |∑ k, N im k * ∑ j, M k j * x j| := by
      rw [hs]
      conv_lhs => rw [e]
      rfl
    conv_lhs => rw [e2]
    refine (Finset.abs_sum_le_sum_abs _ _).trans (sum_le_card fun k => ?_)
    rw [abs_mul]
    refine mul_le_mul (hNt im k) ?_ (abs_nonneg _) ht0
    have h2 := abs_add_le (∑ j, M k j * x j - b k) (b k)
    rw [sub_add_cancel] at h2
    linarith [res k, hb k]
  refine (res i).trans ?_
  have h3 : n * t * Q * s ≤ 1 / 2 * s := mul_le_mul_of_nonneg_right (hk.trans hκ1) hs0
  have h4 : s ≤ 2 * (n * t * (β + P)) := by nlinarith
  have h5 : Q * s ≤ Q * (2 * (n * t * (β + P))) := mul_le_mul_of_nonneg_left h4 hQ0
  have h6 : n * t * Q * β ≤ κ * β := mul_le_mul_of_nonneg_right hk hβ0
  have h7 : n * t * Q * P ≤ 1 / 2 * P := mul_le_mul_of_nonneg_right (hk.trans hκ1) hP0
  nlinarith

end Floating
end Pytimize
