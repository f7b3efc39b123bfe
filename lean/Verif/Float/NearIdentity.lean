/-
Matrices near the identity, and quotients of nearly equal numbers.
-/
import Verif.Float.Rounding
import Mathlib.LinearAlgebra.Matrix.ToLinearEquiv
import Mathlib.LinearAlgebra.Matrix.NonsingularInverse

namespace Pytimize
namespace Floating
open Matrix

variable {m : ℕ}

/-- A matrix near the identity has an inverse near the identity. -/
theorem near_identity {M : Matrix (Fin m) (Fin m) ℚ} {ε : ℚ} (hM : ∀ i j, |M i j - (1 : Matrix (Fin m) (Fin m) ℚ) i j| ≤ ε)
    (hε : m * ε ≤ 1 / 2) :
    ∃ N, N * M = 1 ∧ ∀ i j, |N i j - (1 : Matrix (Fin m) (Fin m) ℚ) i j| ≤ 2 * ε := by
  set E : Matrix (Fin m) (Fin m) ℚ := M - 1 with hE
  have hEe : ∀ i j, |E i j| ≤ ε := fun i j => by rw [hE, Matrix.sub_apply]; exact hM i j
  have sum_le : ∀ {f : Fin m → ℚ} {c : ℚ}, (∀ k, |f k| ≤ c) → |∑ k, f k| ≤ m * c := by
    intro f c h
    refine (Finset.abs_sum_le_sum_abs _ _).trans ((Finset.sum_le_sum fun k _ => h k).trans ?_)
    rw [Finset.sum_const, Finset.card_univ, Fintype.card_fin, nsmul_eq_mul]
  have hdet : M.det ≠ 0 := by
    intro h0
    obtain ⟨v, hv, hz⟩ := Matrix.exists_mulVec_eq_zero_iff.mpr h0
    obtain ⟨j, hj⟩ : ∃ j, v j ≠ 0 := by
      by_contra h
      push Not at h
      exact hv (funext h)
    obtain ⟨i, -, hi⟩ := Finset.exists_max_image Finset.univ (fun k => |v k|) ⟨j, Finset.mem_univ j⟩
    have hpos : 0 < |v i| := lt_of_lt_of_le (abs_pos.mpr hj) (hi j (Finset.mem_univ j))
    have e1 : v i = -∑ k, E i k * v k := by
      have := congrFun hz i
      have hME : M = 1 + E := by rw [hE]; abel
      rw [hME, Matrix.add_mulVec, Matrix.one_mulVec, Pi.add_apply, Pi.zero_apply] at this
      have e2 : E.mulVec v i = ∑ k, E i k * v k := rfl
      linarith
    have e3 : |v i| ≤ m * (ε * |v i|) := by
      conv_lhs => rw [e1, abs_neg]
      refine sum_le fun k => ?_
      rw [abs_mul]
      exact mul_le_mul (hEe i k) (hi k (Finset.mem_univ k)) (abs_nonneg _) ((abs_nonneg _).trans (hEe i k))
    have e4 := mul_le_mul_of_nonneg_right hε hpos.le
    linarith
  refine ⟨M⁻¹, Matrix.nonsing_inv_mul _ (isUnit_iff_ne_zero.mpr hdet), ?_⟩
  set D : Matrix (Fin m) (Fin m) ℚ := M⁻¹ - 1 with hD
  have hDE : D = -(D * E) - E := by
    have h1 : M⁻¹ * M = 1 := Matrix.nonsing_inv_mul _ (isUnit_iff_ne_zero.mpr hdet)
    have hME : M = 1 + E := by rw [hE]; abel
    have h2 : M⁻¹ = 1 + D := by rw [hD]; abel
    rw [h2] at h1
    nth_rewrite 1 [hME] at h1
    rw [Matrix.mul_add, Matrix.mul_one, Matrix.add_mul, Matrix.one_mul] at h1
    have h3 : D + (E + D * E) = 0 := by
      have : (1 : Matrix (Fin m) (Fin m) ℚ) + (D + (E + D * E)) = 1 + 0 := by rw [add_zero, ← add_assoc]; exact h1
      exact add_left_cancel this
    have h4 := eq_neg_of_add_eq_zero_left h3
    rw [neg_add] at h4
    rw [sub_eq_add_neg, add_comm]
    exact h4
  intro i j
  obtain ⟨p, -, hp⟩ := Finset.exists_max_image Finset.univ (fun p : Fin m × Fin m => |D p.1 p.2|) ⟨(i, j), Finset.mem_univ _⟩
  have hμ : |D p.1 p.2| ≤ m * (|D p.1 p.2| * ε) + ε := by
    have e1 : D p.1 p.2 = -(∑ k, D p.1 k * E k p.2) - E p.1 p.2 := by
      conv_lhs => rw [hDE]
      rw [Matrix.sub_apply, Matrix.neg_apply, Matrix.mul_apply]
    have e2 : |∑ k, D p.1 k * E k p.2| ≤ m * (|D p.1 p.2| * ε) := by
      refine sum_le fun k => ?_
      rw [abs_mul]
      exact mul_le_mul (hp (p.1, k) (Finset.mem_univ _)) (hEe _ _) (abs_nonneg _) (abs_nonneg _)
    conv_lhs => rw [e1]
    have e3 := abs_sub (-(∑ k, D p.1 k * E k p.2)) (E p.1 p.2)
    rw [abs_neg] at e3
    linarith [hEe p.1 p.2]
  have h1 := mul_le_mul_of_nonneg_left hε (abs_nonneg (D p.1 p.2))
  have h2 : |D i j| ≤ |D p.1 p.2| := hp (i, j) (Finset.mem_univ _)
  have h3 : M⁻¹ i j - (1 : Matrix (Fin m) (Fin m) ℚ) i j = D i j := by rw [hD, Matrix.sub_apply]
  rw [h3]
  linarith

/-- The quotient of two numbers known up to `ε`. -/
theorem quotient_near {b a b' a' ε α σ : ℚ} (hb : |b' - b| ≤ ε) (ha : |a' - a| ≤ ε) (hα0 : 0 < α) (hα : α ≤ a)
    (h2 : 2 * ε ≤ α) (h1 : α ≤ 1) (hσ : |b| ≤ σ) (hε : 1 / 2 ^ 52 ≤ ε) :
    |binary64.rd (b' / a') - b / a| ≤ 4 * ε * (1 / α + σ / α ^ 2) := by
  have hu : binary64.u = 1 / 2 ^ 53 := rfl
  have htiny : binary64.tiny ≤ 1 / 2 ^ 500 := by
    show (1 : ℚ) / 2 ^ 1075 ≤ _
    decide +kernel
  have hσ0 : 0 ≤ σ := (abs_nonneg _).trans hσ
  have hε0 : 0 < ε := lt_of_lt_of_le (by norm_num) hε
  have ha0 : 0 < a := lt_of_lt_of_le hα0 hα
  have ha' : α / 2 ≤ a' := by
    have := (abs_le.mp ha).1
    linarith
  have ha'0 : 0 < a' := lt_of_lt_of_le (by linarith) ha'
  have e1 : b' / a' - b / a = (b' - b) / a' + b / a * ((a - a') / a') := by
    field_simp
    ring
  have e2 : |b / a| ≤ σ / α := by
    rw [abs_div, abs_of_pos ha0]
    exact div_le_div₀ hσ0 hσ hα0 hα
  have e3 : |(b' - b) / a'| ≤ ε / (α / 2) := by
    rw [abs_div, abs_of_pos ha'0]
    exact div_le_div₀ hε0.le hb (by linarith) ha'
  have e4 : |(a - a') / a'| ≤ ε / (α / 2) := by
    rw [abs_div, abs_of_pos ha'0, abs_sub_comm]
    exact div_le_div₀ hε0.le ha (by linarith) ha'
  have e5 : |b' / a' - b / a| ≤ ε / (α / 2) + σ / α * (ε / (α / 2)) := by
    rw [e1]
    refine (abs_add_le _ _).trans (add_le_add e3 ?_)
    rw [abs_mul]
    exact mul_le_mul e2 e4 (abs_nonneg _) (by positivity)
  have e6 : ε / (α / 2) + σ / α * (ε / (α / 2)) = 2 * ε * (1 / α + σ / α ^ 2) := by
    field_simp
  rw [e6] at e5
  have e7 := binary64.err (b' / a')
  rw [hu] at e7
  have e8 : |b' / a'| ≤ |b' / a' - b / a| + |b / a| := by
    have := abs_add_le (b' / a' - b / a) (b / a)
    rwa [sub_add_cancel] at this
  have e9 : |binary64.rd (b' / a') - b / a| ≤ |binary64.rd (b' / a') - b' / a'| + |b' / a' - b / a| := by
    have := abs_add_le (binary64.rd (b' / a') - b' / a') (b' / a' - b / a)
    rwa [sub_add_sub_cancel] at this
  have f1 : (1 : ℚ) ≤ 1 / α := by rw [le_div_iff₀ hα0]; linarith
  have f2 : σ / α ≤ σ / α ^ 2 := by
    rw [pow_two, ← div_div]
    exact le_div_self (by positivity) hα0 h1
  have f3 : 0 ≤ σ / α := by positivity
  set K := 1 / α + σ / α ^ 2 with hK
  have f4 : 1 + σ / α ≤ K := by rw [hK]; linarith
  have f5 : |b' / a'| ≤ 2 * ε * K + K := by linarith
  have f6 : ε ≤ 1 / 2 := by linarith
  have f7 : 2 * ε * K ≤ K := by nlinarith
  have f8 : (1 : ℚ) / 2 ^ 53 * |b' / a'| ≤ ε * K := by
    have g1 : |b' / a'| ≤ 2 * K := by linarith
    have g2 := mul_le_mul_of_nonneg_left g1 (show (0 : ℚ) ≤ 1 / 2 ^ 53 by positivity)
    have g3 := mul_le_mul_of_nonneg_right hε (show 0 ≤ K by linarith)
    norm_num at g2 g3 ⊢
    linarith
  have f9 : (1 : ℚ) / 2 ^ 500 ≤ ε * K := by
    have g1 : (1 : ℚ) / 2 ^ 500 ≤ 1 / 2 ^ 52 := by decide +kernel
    have g3 := mul_le_mul_of_nonneg_left (show 1 ≤ K by linarith) hε0.le
    rw [mul_one] at g3
    exact g1.trans (hε.trans g3)
  generalize (1 : ℚ) / 2 ^ 500 = τ at htiny f9
  have : 4 * ε * K = ε * K + ε * K + 2 * ε * K := by ring
  rw [this]
  linarith

end Floating
end Pytimize
