/-
Programs with integer data and moderate subdeterminants stay clear of the tolerances.
-/
import Mathlib.Data.Int.Cast.Lemmas
import Mathlib.Tactic.GCongr
import Verif.LP.Bland

namespace Pytimize
namespace LinProg
open Matrix Comparator

variable {m n : ℕ}

theorem npInv_mulVec (N : Matrix (Fin m) (Fin m) ℚ) (v : Fin m → ℚ) (i : Fin m) :
    (npInv N).mulVec v i = (N.det)⁻¹ * (N.updateCol i v).det := by
  rw [npInv, Matrix.smul_mulVec, Pi.smul_apply, smul_eq_mul, ← Matrix.cramer_eq_adjugate_mulVec,
    Matrix.cramer_apply]

theorem canon_A_cramer (P : LP m n) (B : Fin m → Fin n) (i : Fin m) (j : Fin n) :
    (canon P B).A i j = ((colSel P.A B).det)⁻¹ * ((colSel P.A B).updateCol i fun i => P.A i j).det := by
  rw [← npInv_mulVec]; rfl

theorem canon_b_cramer (P : LP m n) (B : Fin m → Fin n) (i : Fin m) :
    (canon P B).b i = ((colSel P.A B).det)⁻¹ * ((colSel P.A B).updateCol i P.b).det := by
  rw [← npInv_mulVec]; rfl

theorem canon_c_sum (P : LP m n) (B : Fin m → Fin n) (j : Fin n) :
    (canon P B).c j = P.c j - ∑ i, P.c (B i) * (canon P B).A i j := by
  rw [canon_c, Pi.sub_apply, mult, Matrix.mulVec_transpose, Matrix.vecMul_vecMul]
  rfl

theorem det_cast (N : Matrix (Fin m) (Fin m) ℤ) : (N.map ((↑) : ℤ → ℚ)).det = (N.det : ℚ) := by
  have := (Int.castRingHom ℚ).map_det N
  simp only [eq_intCast] at this
  rw [this]
  rfl

/-- `P` has integer data, its `m × m` subdeterminants are at most `K` and those with the right-hand side
at most `L` in absolute value. -/
structure IntData (P : LP m n) (K L : ℕ) : Prop where
  data : ∃ (M : Matrix (Fin m) (Fin n) ℤ) (b : Fin m → ℤ) (c : Fin n → ℤ),
    (P.A = fun i j => (M i j : ℚ)) ∧ (P.b = fun i => (b i : ℚ)) ∧ (P.c = fun j => (c j : ℚ))
  detK : ∀ B : Fin m → Fin n, |(P.A.submatrix id B).det| ≤ K
  detL : ∀ (B : Fin m → Fin n) (i : Fin m), |((P.A.submatrix id B).updateCol i P.b).det| ≤ L

theorem int_frac {z d : ℤ} {K : ℕ} (hd : d ≠ 0) (hK : |(d : ℚ)| ≤ K) (h : 0 < (d : ℚ)⁻¹ * z) :
    1 / (K : ℚ) ≤ (d : ℚ)⁻¹ * z := by
  have hd' : (d : ℚ) ≠ 0 := by exact_mod_cast hd
  have hz : z ≠ 0 := by rintro rfl; simp at h
  have h1 : (1 : ℚ) ≤ |(z : ℚ)| := by
    have := Int.one_le_abs hz
    exact_mod_cast this
  have h2 : 0 < |(d : ℚ)| := abs_pos.mpr hd'
  rw [← abs_of_pos h, abs_mul, abs_inv, ← div_eq_inv_mul]
  exact div_le_div₀ (abs_nonneg _) h1 h2 hK

theorem exact_of_int {P : LP m n} {K L : ℕ} (h : IntData P K L)
    (hKL : (K : ℚ) * K / 10 ^ 8 + (K : ℚ) * L / 10 ^ 5 < 1) : Exact P := by
  obtain ⟨M, b, c, hA, hb, hc⟩ := h.data
  have hK4 : (K : ℚ) ≤ 10 ^ 10 := by
    by_contra hlt
    push Not at hlt
    have h0 : (0 : ℚ) ≤ (K : ℚ) * L / 10 ^ 5 := by positivity
    have h1 : (10 : ℚ) ^ 10 * 10 ^ 10 ≤ (K : ℚ) * K := by gcongr
    have h2 : (10 : ℚ) ^ 10 * 10 ^ 10 / 10 ^ 8 ≤ (K : ℚ) * K / 10 ^ 8 := by gcongr
    norm_num at h2 h0 hKL
    linarith
  -- everything as integers over the determinant
  have hcol : ∀ B : Fin m → Fin n, colSel P.A B = (M.submatrix id B).map ((↑) : ℤ → ℚ) := by
    intro B; rw [hA]; rfl
  have hdet : ∀ B : Fin m → Fin n, (colSel P.A B).det = ((M.submatrix id B).det : ℚ) := by
    intro B; rw [hcol, det_cast]
  have hup : ∀ (B : Fin m → Fin n) (i : Fin m) (v : Fin m → ℤ),
      ((colSel P.A B).updateCol i fun i => (v i : ℚ)).det = (((M.submatrix id B).updateCol i v).det : ℚ) := by
    intro B i v
    rw [← det_cast, Matrix.map_updateCol, hcol]
    rfl
  have hAe : ∀ B i j, (canon P B).A i j =
      ((M.submatrix id B).det : ℚ)⁻¹ * (((M.submatrix id B).updateCol i fun i => M i j).det : ℚ) := by
    intro B i j
    rw [canon_A_cramer, hdet, ← hup]
    rw [hA]
  have hbe : ∀ B i, (canon P B).b i =
      ((M.submatrix id B).det : ℚ)⁻¹ * (((M.submatrix id B).updateCol i b).det : ℚ) := by
    intro B i
    rw [canon_b_cramer, hdet, ← hup, hb]
  have hD : ∀ B, Nonsing P B → (M.submatrix id B).det ≠ 0 := by
    intro B hB h0
    apply hB
    rw [hdet, h0]
    simp
  have hKd : ∀ B : Fin m → Fin n, |((M.submatrix id B).det : ℚ)| ≤ K := by
    intro B
    have := h.detK B
    rwa [show P.A.submatrix id B = colSel P.A B from rfl, hdet] at this
  have hLd : ∀ (B : Fin m → Fin n) i, |(((M.submatrix id B).updateCol i b).det : ℚ)| ≤ L := by
    intro B i
    have := h.detL B i
    rwa [show P.A.submatrix id B = colSel P.A B from rfl, hb, hup] at this
  have hKp : ∀ (B : Fin m → Fin n) i j,
      |(((M.submatrix id B).updateCol i fun i => M i j).det : ℚ)| ≤ K := by
    intro B i j
    have e : (M.submatrix id B).updateCol i (fun i => M i j) = M.submatrix id (Function.update B i j) := by
      ext a k
      by_cases hk : k = i
      · subst hk; simp
      · simp [Matrix.updateCol_ne hk, Function.update_of_ne hk]
    rw [e]
    exact hKd _
  have htol : ∀ B, Nonsing P B → tol ≤ 1 / (K : ℚ) := by
    intro B hB
    have h1 : (1 : ℚ) ≤ K := by
      refine le_trans ?_ (hKd B)
      have := Int.one_le_abs (hD B hB)
      exact_mod_cast this
    unfold tol
    exact one_div_le_one_div_of_le (by linarith) hK4
  have hfrac : ∀ B, Nonsing P B → ∀ z : ℤ, 0 < ((M.submatrix id B).det : ℚ)⁻¹ * z →
      tol ≤ ((M.submatrix id B).det : ℚ)⁻¹ * z := fun B hB z hz =>
    le_trans (htol B hB) (int_frac (hD B hB) (hKd B) hz)
  refine ⟨fun B hB => ?_, fun B hB j => ?_, fun B hB i j => ?_, fun B hB i => ?_, fun B hB i => ?_,
    fun B hB hf k hk => ?_⟩
  · rw [hdet]
    have h1 := Int.one_le_abs (hD B hB)
    have h2 : (1 : ℚ) ≤ |((M.submatrix id B).det : ℚ)| := by exact_mod_cast h1
    have h3 : tol ≤ 1 := by unfold tol; norm_num
    linarith
  · have hce : (canon P B).c j = ((M.submatrix id B).det : ℚ)⁻¹ *
        ((((M.submatrix id B).det * c j -
          ∑ i, c (B i) * ((M.submatrix id B).updateCol i fun i => M i j).det) : ℤ) : ℚ) := by
      have hd : ((M.submatrix id B).det : ℚ) ≠ 0 := by exact_mod_cast hD B hB
      rw [canon_c_sum, hc]
      rw [Int.cast_sub, Int.cast_mul, Int.cast_sum]
      rw [mul_sub, ← mul_assoc, inv_mul_cancel₀ hd, one_mul, Finset.mul_sum]
      congr 1
      refine Finset.sum_congr rfl fun i _ => ?_
      rw [hAe, Int.cast_mul]
      ring
    by_cases h0 : (canon P B).c j ≤ 0
    · exact Or.inl h0
    · right
      rw [hce] at h0 ⊢
      exact hfrac B hB _ (not_le.mp h0)
  · by_cases h0 : (canon P B).A i j ≤ 0
    · exact Or.inl h0
    · right
      rw [hAe] at h0 ⊢
      exact hfrac B hB _ (not_le.mp h0)
  · by_cases h0 : 0 ≤ (canon P B).b i
    · exact Or.inl h0
    · right
      rw [hbe] at h0 ⊢
      have h1 := hfrac B hB (-((M.submatrix id B).updateCol i b).det) (by rw [Int.cast_neg]; linarith)
      rw [Int.cast_neg] at h1
      linarith
  · by_cases h0 : (canon P B).b i ≤ 0
    · exact Or.inl h0
    · right
      rw [hbe] at h0 ⊢
      exact hfrac B hB _ (not_le.mp h0)
  · intro i i' hi hi' hlt
    have hd : (0 : ℚ) < |((M.submatrix id B).det : ℚ)| := abs_pos.mpr (by exact_mod_cast hD B hB)
    -- the ratios as quotients of integers
    have hrat : ∀ i, tol ≤ (canon P B).A i k → (canon P B).b i / (canon P B).A i k =
        |(((M.submatrix id B).updateCol i b).det : ℚ)| /
          |(((M.submatrix id B).updateCol i fun i => M i k).det : ℚ)| ∧
        0 < |(((M.submatrix id B).updateCol i fun i => M i k).det : ℚ)| := by
      intro i hi
      have hp : 0 < (canon P B).A i k := lt_of_lt_of_le tol_pos hi
      have e1 : (canon P B).A i k = |((M.submatrix id B).det : ℚ)|⁻¹ *
          |(((M.submatrix id B).updateCol i fun i => M i k).det : ℚ)| := by
        rw [← abs_of_pos hp, hAe, abs_mul, abs_inv]
      have e2 : (canon P B).b i = |((M.submatrix id B).det : ℚ)|⁻¹ *
          |(((M.submatrix id B).updateCol i b).det : ℚ)| := by
        rw [← abs_of_nonneg (hf i), hbe, abs_mul, abs_inv]
      have hp2 : 0 < |(((M.submatrix id B).updateCol i fun i => M i k).det : ℚ)| := by
        rw [e1] at hp
        exact (mul_pos_iff_of_pos_left (inv_pos.mpr hd)).mp hp
      refine ⟨?_, hp2⟩
      rw [e1, e2]
      field_simp
    obtain ⟨e1, p1⟩ := hrat i hi
    obtain ⟨e2, p2⟩ := hrat i' hi'
    rw [e1, e2] at hlt ⊢
    have g1 : |(((M.submatrix id B).updateCol i fun i => M i k).det : ℚ)| ≤ K := hKp B i k
    have g2 : |(((M.submatrix id B).updateCol i' fun i => M i k).det : ℚ)| ≤ K := hKp B i' k
    have g3 : |(((M.submatrix id B).updateCol i' b).det : ℚ)| ≤ L := hLd B i'
    rw [div_lt_div_iff₀ p1 p2] at hlt
    have hint : |(((M.submatrix id B).updateCol i b).det : ℚ)| *
          |(((M.submatrix id B).updateCol i' fun i => M i k).det : ℚ)| + 1 ≤
        |(((M.submatrix id B).updateCol i' b).det : ℚ)| *
          |(((M.submatrix id B).updateCol i fun i => M i k).det : ℚ)| := by
      have : |((M.submatrix id B).updateCol i b).det| *
          |((M.submatrix id B).updateCol i' fun i => M i k).det| + 1 ≤
          |((M.submatrix id B).updateCol i' b).det| *
          |((M.submatrix id B).updateCol i fun i => M i k).det| := by
        have h5 : |((M.submatrix id B).updateCol i b).det| *
          |((M.submatrix id B).updateCol i' fun i => M i k).det| <
          |((M.submatrix id B).updateCol i' b).det| *
          |((M.submatrix id B).updateCol i fun i => M i k).det| := by exact_mod_cast hlt
        omega
      exact_mod_cast this
    generalize |(((M.submatrix id B).updateCol i b).det : ℚ)| = u1 at *
    generalize |(((M.submatrix id B).updateCol i fun i => M i k).det : ℚ)| = v1 at *
    generalize hu2 : |(((M.submatrix id B).updateCol i' b).det : ℚ)| = u2 at *
    generalize |(((M.submatrix id B).updateCol i' fun i => M i k).det : ℚ)| = v2 at *
    have hu2n : 0 ≤ u2 := hu2 ▸ abs_nonneg _
    have hdiff : u1 / v1 - u2 / v2 ≤ -(1 / (v1 * v2)) := by
      rw [div_sub_div _ _ p1.ne' p2.ne', ← neg_div, div_le_div_iff_of_pos_right (mul_pos p1 p2)]
      linarith
    have hbound : 1 / 10 ^ 8 + 1 / 10 ^ 5 * (u2 / v2) < 1 / (v1 * v2) := by
      rw [lt_div_iff₀ (mul_pos p1 p2)]
      have e : (1 / 10 ^ 8 + 1 / 10 ^ 5 * (u2 / v2)) * (v1 * v2) = v1 * v2 / 10 ^ 8 + v1 * u2 / 10 ^ 5 := by
        field_simp
      rw [e]
      refine lt_of_le_of_lt ?_ hKL
      have := p1.le
      have := p2.le
      have hKn : (0 : ℚ) ≤ K := Nat.cast_nonneg _
      gcongr
    have hr2 : u2 / v2 ≠ 0 := by
      intro h0
      rcases div_eq_zero_iff.mp h0 with h6 | h6
      · rw [h6, zero_mul] at hint
        have : 0 ≤ u1 := by
          by_contra hc
          push Not at hc
          have h7 : u1 / v1 < 0 := div_neg_of_neg_of_pos hc p1
          have h8 : 0 ≤ (canon P B).b i / (canon P B).A i k :=
            div_nonneg (hf i) (le_trans tol_pos.le hi)
          rw [e1] at h8
          linarith
        nlinarith [mul_nonneg this p2.le]
      · exact p2.ne' h6
    unfold closeTo
    rw [if_neg hr2]
    unfold npIsClose
    rw [decide_eq_false_iff_not, not_le]
    have hr2p : 0 ≤ u2 / v2 := div_nonneg hu2n p2.le
    rw [abs_of_nonneg hr2p]
    refine lt_of_lt_of_le hbound ?_
    rw [abs_sub_comm]
    refine le_trans ?_ (le_abs_self _)
    linarith

end LinProg
end Pytimize
