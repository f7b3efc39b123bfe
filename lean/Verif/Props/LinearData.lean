/-
C37 to C40, C42 to C45, C50 and C52 with conditions on the numbers the user supplies (`Decimal`) instead of
conditions on the tableaus that arise, and a bound for the subdeterminants that can be read off the rows.
-/
import Verif.Props.IntegerBox

namespace Pytimize
namespace Props

open Comparator LinProg Matrix

variable {m n : ℕ}

/-! ### Subdeterminants from row sums -/

theorem abs_det_le_rows {k : ℕ} (X : Matrix (Fin k) (Fin k) ℚ) : |X.det| ≤ ∏ i, ∑ j, |X i j| := by
  classical
  rw [← det_transpose, det_apply']
  refine le_trans (Finset.abs_sum_le_sum_abs _ _) ?_
  rw [Finset.prod_univ_sum]
  have h1 : ∀ σ : Equiv.Perm (Fin k), |((Equiv.Perm.sign σ : ℤ) : ℚ) * ∏ i, Xᵀ (σ i) i| = ∏ i, |X i (σ i)| := by
    intro σ
    rw [abs_mul, Finset.abs_prod]
    have : |((Equiv.Perm.sign σ : ℤ) : ℚ)| = 1 := by
      rcases Int.units_eq_one_or (Equiv.Perm.sign σ) with h | h <;> simp [h]
    rw [this, one_mul]
    rfl
  simp only [h1]
  have h2 : ∑ σ : Equiv.Perm (Fin k), ∏ i, |X i (σ i)| =
      ∑ f ∈ (Finset.univ : Finset (Equiv.Perm (Fin k))).map
          (⟨fun σ => ⇑σ, DFunLike.coe_injective⟩ : Equiv.Perm (Fin k) ↪ (Fin k → Fin k)),
        ∏ i, |X i (f i)| := by
    rw [Finset.sum_map]
    rfl
  rw [h2]
  refine Finset.sum_le_sum_of_subset_of_nonneg (fun f _ => ?_) fun f _ _ => Finset.prod_nonneg fun i _ => abs_nonneg _
  simp [Fintype.mem_piFinset]

/-- The product of the row sums bounds all subdeterminants. -/
theorem subdet_of_rows {A : Matrix (Fin m) (Fin n) ℚ} (ρ : Fin m → ℕ) (h1 : ∀ i, 1 ≤ ρ i)
    (h : ∀ i, ∑ j, |A i j| ≤ ρ i) : SubdetLe (∏ i, ρ i) A := by
  intro k r s
  have h0 : (0 : ℚ) ≤ ((∏ i, ρ i : ℕ) : ℚ) := Nat.cast_nonneg _
  by_cases hr : Function.Injective r
  · by_cases hs : Function.Injective s
    · refine le_trans (abs_det_le_rows _) ?_
      have h2 : ∀ i, ∑ j, |A.submatrix r s i j| ≤ ρ (r i) := by
        intro i
        refine le_trans ?_ (h (r i))
        have : ∑ j, |A.submatrix r s i j| = ∑ j ∈ Finset.univ.map ⟨s, hs⟩, |A (r i) j| := by
          rw [Finset.sum_map]; rfl
        rw [this]
        exact Finset.sum_le_sum_of_subset_of_nonneg (Finset.subset_univ _) fun _ _ _ => abs_nonneg _
      refine le_trans (Finset.prod_le_prod (fun i _ => Finset.sum_nonneg fun j _ => abs_nonneg _)
        fun i _ => h2 i) ?_
      have h3 : ∏ i, ρ (r i) ≤ ∏ i, ρ i := by
        have : ∏ i, ρ (r i) = ∏ i ∈ Finset.univ.map ⟨r, hr⟩, ρ i := by rw [Finset.prod_map]; rfl
        rw [this]
        exact Finset.prod_le_prod_of_subset_of_one_le' (Finset.subset_univ _) fun i _ _ => h1 i
      have h4 : ((∏ i, ρ (r i) : ℕ) : ℚ) ≤ ((∏ i, ρ i : ℕ) : ℚ) := by exact_mod_cast h3
      refine le_trans (le_of_eq ?_) h4
      push_cast
      rfl
    · obtain ⟨a, b, hab, hne⟩ := Function.not_injective_iff.mp hs
      rw [det_zero_of_column_eq hne (by intro c; simp [hab]), abs_zero]
      exact h0
  · obtain ⟨a, b, hab, hne⟩ := Function.not_injective_iff.mp hr
    rw [det_zero_of_row_eq hne (by funext c; simp [hab]), abs_zero]
    exact h0

/-! ### Programs in SEF -/

theorem toSef_of_sef {P : LP m n} (hs : P.isSef = true) : toSef P = ⟨n, P, none⟩ := by simp [toSef, hs]

theorem Decimal.exact {P : LP m n} {r : Fin m → ℕ} {N K β : ℕ} (h : Decimal P r N K β) (hs : P.isSef = true) :
    Exact P := by
  have := h.exactSef
  rwa [toSef_of_sef hs] at this

theorem Decimal.aux {P : LP m n} {r : Fin m → ℕ} {N K β : ℕ} (h : Decimal P r N K β) (hs : P.isSef = true) :
    Exact (auxSef P) := by
  have := h.exactAux
  rwa [toSef_of_sef hs] at this

/-- C37 for data with bounded denominators, subdeterminants and right-hand sides (see `Decimal`). Missing: larger
numbers (`C37_near_tie_wrong`). -/
theorem C37_data_partial (P : LP m n) (hP : WF P) (hs : P.isSef = true) (r : Fin m → ℕ) (N K β : ℕ)
    (h : Decimal P r N K β) (basis : List ℤ) (hb : isBasisFeasible P basis = .ok true) :
    ∃ s, simplexIteration P basis = .ok s ∧ GoodIter P basis s :=
  C37_iteration_partial P hP hs (Decimal.exact h hs) basis hb

/-- C38, C39, C40 and C50 together for such data: from a feasible basis `simplex` ends within `n ^ m` iterations,
with an optimal solution and a dual certificate, or with a point and a ray of unbounded value; the certificate
passes the verification. -/
theorem C40_data_partial (P : LP m n) (hP : WF P) (hs : P.isSef = true) (r : Fin m → ℕ) (N K β : ℕ)
    (h : Decimal P r N K β) (basis : List ℤ) (hb : isBasisFeasible P basis = .ok true) (fuel : ℕ)
    (hf : n ^ m ≤ fuel) :
    ∃ a, (simplex fuel P basis).1 = .ok a ∧ Correct P a ∧ passes P a = .ok true := by
  have he := Decimal.exact h hs
  rcases C40_terminates_partial P hs he basis hb fuel hf with ⟨x, l, y, h1⟩ | ⟨x, d, h1⟩
  · exact ⟨_, h1, C38_exact_partial fuel P hP he basis l x y h1, C50_simplex_partial fuel P hP he basis hb _ h1⟩
  · exact ⟨_, h1, C39_exact_partial fuel P hP he basis hb x d h1, C50_simplex_partial fuel P hP he basis hb _ h1⟩

/-- C42, C43 and C50 for such data: `two_phase_simplex` gives an answer exactly if the rows are independent or the
program is infeasible; every answer is correct and its certificate passes the verification. Missing: feasible
programs with redundant rows (`C43_redundant_wrong`), larger numbers (`C42_tiny_wrong`). -/
theorem C42_data_partial (P : LP m n) (hP : WF P) (hs : P.isSef = true) (hm : 0 < m) (r : Fin m → ℕ) (N K β : ℕ)
    (h : Decimal P r N K β) (fuel : ℕ) (hf : (n + m) ^ m ≤ fuel) :
    ((∃ a, (twoPhase fuel P).1 = .ok a) ↔ (FullRank P ∨ ¬ ∃ x, Feas P x)) ∧
      ∀ a, (twoPhase fuel P).1 = .ok a → Correct P a ∧ passes P a = .ok true := by
  have he := Decimal.exact h hs
  have he' := Decimal.aux h hs
  exact ⟨C43_answers_partial P hP hs hm he he' fuel (le_trans (Nat.pow_le_pow_left (by omega) m) hf) hf,
    fun a ha => ⟨C42_correct_partial fuel P hP he he' a ha, C50_two_phase_partial fuel P hP he he' a ha⟩⟩

/-- C52 for such data. -/
theorem C52_data_partial (fuel : ℕ) (P : LP m n) (hP : WF P) (r : Fin m → ℕ) (N K β : ℕ)
    (h : Decimal P r N K β) (basis l : List ℤ) (x : Fin n → ℚ) (y : Fin m → ℚ)
    (ho : (simplex fuel P basis).1 = .ok (.optimal x l y)) :
    Feas (dual P) y ∧ objVal (dual P) y = objVal P x - P.z := by
  obtain ⟨_, hs, _⟩ := simplex_optimal ho
  exact C52_strong_partial fuel P hP (Decimal.exact h hs) basis l x y ho

/-! ### `optimal_value` -/

/-- C44 for `optimal_value`, on data with bounded denominators: a returned number is the optimal value. -/
theorem C44_value_data_partial (fuel : ℕ) (P : LP m n) (hP : WF P) (r : Fin m → ℕ) (N K β : ℕ)
    (h : Decimal P r N K β) (q : ℚ) (hq : optimalValue fuel P = .ok (some q)) :
    ∃ x : Fin n → ℚ, Optimal P x ∧ objVal P x = q :=
  C44_optimal_value_partial fuel P hP h.exactSef q hq

/-- C45 for `optimal_value`: a program with inequalities only that has an optimal solution gets its value. Missing:
see `C45_data_partial`. -/
theorem C45_value_data_partial (P : LP m n) (hP : WF P) (hm : 0 < m) (hq : ∀ i, P.ineq i ≠ .eq)
    (r : Fin m → ℕ) (N K β : ℕ) (h : Decimal P r N K β) (hshape : n + P.free.length ≠ m ∨ Feas P 0) (fuel : ℕ)
    (hf : (n + P.free.length + 2 * m) ^ m ≤ fuel) (x : Fin n → ℚ) (hx : Optimal P x) :
    optimalValue fuel P = .ok (some (objVal P x)) := by
  obtain ⟨y, h1, h2⟩ := C45_data_partial P hP hm hq r N K β h hshape fuel hf ⟨x, hx⟩
  unfold optimalValue
  simp only [h1, evaluate, toVec_ofFn]
  have e : objVal P y = objVal P x := by
    cases ho : P.objective with
    | max => exact le_antisymm ((hx.2 y h2.1).1 ho) ((h2.2 x hx.1).1 ho)
    | min => exact le_antisymm ((h2.2 x hx.1).2 ho) ((hx.2 y h2.1).2 ho)
  rw [← e]
  rfl

/-! ### The hypotheses are satisfiable -/

/-- `max 0.35 x + 0.2 y` subject to `0.5 x + y + s = 4`, `2 x + 0.25 y + t = 6`, in SEF. -/
def decimalSample : LP 2 4 :=
  ⟨!![1 / 2, 1, 1, 0; 2, 1 / 4, 0, 1], ![4, 6], ![7 / 20, 1 / 5, 0, 0], 0, .max, fun _ => .eq, [], [], true⟩

theorem decimalSample_data : Decimal decimalSample ![2, 4] 20 4 6 where
  rpos i := by fin_cases i <;> simp
  npos := by norm_num
  isInt := by
    refine ⟨fun i j => ?_, fun i => ?_, fun j => ?_⟩
    · exact ⟨(!![1, 2, 2, 0; 8, 1, 0, 4] : Matrix (Fin 2) (Fin 4) ℤ) i j, by
        fin_cases i <;> fin_cases j <;> norm_num [decimalSample, scaled]⟩
    · exact ⟨(![8, 24] : Fin 2 → ℤ) i, by fin_cases i <;> norm_num [decimalSample, scaled]⟩
    · exact ⟨(![7, 4, 0, 0] : Fin 4 → ℤ) j, by fin_cases j <;> norm_num [decimalSample, scaled]⟩
  subdet := by
    have h : SubdetLe 2 decimalSample.Aᵀ := subdet_of_le (by decide +kernel)
    intro k r s
    exact le_trans (h.transpose k r s) (by norm_num)
  rhs := by decide +kernel
  costs := by simp
  small := by simp; norm_num

/-- The conditions of the theorems above hold for a program with fractions. -/
example : WF decimalSample ∧ Decimal decimalSample ![2, 4] 20 4 6 ∧ decimalSample.isSef = true ∧
    isBasisFeasible decimalSample [3, 4] = .ok true ∧ FullRank decimalSample :=
  ⟨⟨by decide, by decide, by decide, by decide, by decide, by decide⟩, decimalSample_data, rfl, by decide +kernel,
    ⟨![2, 3], by unfold Nonsing; decide +kernel⟩⟩

/-- The bound from the rows, on a matrix with fractions. -/
example : SubdetLe 6 (!![3 / 2, -1 / 2; 1, 2] : Matrix (Fin 2) (Fin 2) ℚ) :=
  subdet_of_rows ![2, 3] (by decide) (by intro i; fin_cases i <;> norm_num [Fin.sum_univ_two, abs_of_pos, abs_of_neg])

end Props
end Pytimize
