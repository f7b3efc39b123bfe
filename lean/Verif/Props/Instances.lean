/-
Concrete cases that meet the hypotheses of the theorems on `simplex`, `two_phase_simplex`, `to_rref` and
`branch_and_bound` (files `Simplex`, `TwoPhase`, `Rref`, `Integer`), for each kind of answer.
-/
import Verif.Props.Solve
import Verif.Props.Rref
import Verif.Props.IntegerBox

namespace Pytimize
namespace Props
open LinProg Comparator

/-! ### C39: an unbounded program -/

/-- `max x₁` subject to `x₁ - x₂ + x₃ = 1`. -/
def raySample : LP 1 3 := ⟨!![1, -1, 1], ![1], ![1, 0, 0], 0, .max, fun _ => .eq, [], [], true⟩

theorem raySample_wf : WF raySample := ⟨by decide, by decide, by decide, by decide, by decide, by decide⟩

theorem raySample_int : IntData raySample 1 1 where
  data := ⟨!![1, -1, 1], ![1], ![1, 0, 0],
    by ext i j; fin_cases i; fin_cases j <;> simp [raySample], by funext i; revert i; decide +kernel,
    by funext j; revert j; decide +kernel⟩
  detK := by decide +kernel
  detL := by decide +kernel

theorem raySample_simplex : (simplex 3 raySample [3]).1 = .ok (.unbounded ![1, 0, 0] ![1, 1, 0]) :=
  unbOf_some (by decide +kernel)

example : ∀ M : ℚ, ∃ T : ℚ, ∀ t, T ≤ t → M < objVal raySample (![1, 0, 0] + t • ![1, 1, 0]) :=
  (C39_exact_partial 3 raySample raySample_wf (exact_of_int raySample_int (by norm_num)) [3] (by decide +kernel) _ _
    raySample_simplex).2

theorem raySample_aux_int : IntData (auxSef raySample) 1 1 where
  data := ⟨!![1, -1, 1, 1], ![1], ![0, 0, 0, -1],
    by ext i j; fin_cases i; fin_cases j <;>
        (norm_num [raySample, auxSef, auxLp, negRows, Fin.append, Fin.addCases]; try rfl),
    by funext i; revert i; decide +kernel, by funext j; revert j; decide +kernel⟩
  detK := by decide +kernel
  detL := by decide +kernel

/-- C42 for an unbounded program. -/
example : ∃ x d, (twoPhase 10 raySample).1 = .ok (.unbounded x d) ∧ Correct raySample (.unbounded x d) := by
  have h : (twoPhase 10 raySample).1 = .ok (.unbounded ![1, 0, 0] ![1, 1, 0]) := unbOf_some (by decide +kernel)
  exact ⟨_, _, h, C42_integer_partial 10 raySample raySample_wf 1 1 1 1 raySample_int (by norm_num)
    raySample_aux_int (by norm_num) _ h⟩

/-! ### C42: an infeasible program -/

/-- `max x₁` subject to `x₁ + x₂ = 1`, `x₁ + x₂ + x₃ = -1`. -/
def voidSample : LP 2 3 := ⟨!![1, 1, 0; 1, 1, 1], ![1, -1], ![1, 0, 0], 0, .max, fun _ => .eq, [], [], true⟩

theorem voidSample_wf : WF voidSample := ⟨by decide, by decide, by decide, by decide, by decide, by decide⟩

theorem voidSample_int : IntData voidSample 1 2 where
  data := ⟨!![1, 1, 0; 1, 1, 1], ![1, -1], ![1, 0, 0],
    by ext i j; fin_cases i <;> fin_cases j <;> simp [voidSample], by funext i; revert i; decide +kernel,
    by funext j; revert j; decide +kernel⟩
  detK := by decide +kernel
  detL := by decide +kernel

theorem voidSample_aux_int : IntData (auxSef voidSample) 2 2 where
  data := ⟨!![1, 1, 0, 1, 0; -1, -1, -1, 0, 1], ![1, 1], ![0, 0, 0, -1, -1],
    by ext i j; fin_cases i <;> fin_cases j <;>
        (norm_num [voidSample, auxSef, auxLp, negRows, Fin.append, Fin.addCases]; try rfl),
    by funext i; revert i; decide +kernel, by funext j; revert j; decide +kernel⟩
  detK := by decide +kernel
  detL := by decide +kernel

/-- The certificate of an infeasible answer. -/
def infOf {m n : ℕ} : Except PyErr (Answer m n) → Option (List ℚ)
  | .ok (.infeasible y) => some (List.ofFn y)
  | _ => none

theorem infOf_some {m n : ℕ} {r : Except PyErr (Answer m n)} {y : Fin m → ℚ} (h : infOf r = some (List.ofFn y)) :
    r = .ok (.infeasible y) := by
  unfold infOf at h
  split at h
  · rename_i z
    rw [List.ofFn_injective (Option.some.inj h)]
  · cases h

/-- C42 for an infeasible program, and C43 for it: there is an answer. -/
example : ∃ y, (twoPhase 25 voidSample).1 = .ok (.infeasible y) ∧ ¬ ∃ x, Feas voidSample x := by
  have h : (twoPhase 25 voidSample).1 = .ok (.infeasible ![-1, 1]) := infOf_some (by decide +kernel)
  exact ⟨_, h, (C42_integer_partial 25 voidSample voidSample_wf 1 2 2 2 voidSample_int (by norm_num)
    voidSample_aux_int (by norm_num) _ h).2.2⟩

/-! ### C43: dependent rows -/

theorem redundant_int : IntData redundant 0 0 where
  data := ⟨!![1, 1; 1, 1], ![1, 1], ![1, 0],
    by ext i j; fin_cases i <;> fin_cases j <;> simp [redundant], by funext i; revert i; decide +kernel,
    by funext j; revert j; decide +kernel⟩
  detK := by decide +kernel
  detL := by decide +kernel

theorem redundant_aux_int : IntData (auxSef redundant) 1 1 where
  data := ⟨!![1, 1, 1, 0; 1, 1, 0, 1], ![1, 1], ![0, 0, -1, -1],
    by ext i j; fin_cases i <;> fin_cases j <;>
        (norm_num [redundant, auxSef, auxLp, negRows, Fin.append, Fin.addCases]; try rfl),
    by funext i; revert i; decide +kernel, by funext j; revert j; decide +kernel⟩
  detK := by decide +kernel
  detL := by decide +kernel

/-- The program of `C43_redundant_wrong` meets the conditions of `C43_dependent_wrong`, so no amount of fuel gives an
answer. -/
example (fuel : ℕ) (a : Answer 2 2) : (twoPhase fuel redundant).1 ≠ .ok a :=
  C43_dependent_wrong redundant redundant_wf (exact_of_int redundant_int (by norm_num))
    (exact_of_int redundant_aux_int (by norm_num)) fuel
    (fun ⟨B, hB⟩ => hB (by
      have := redundant_int.detK B
      simpa [colSel] using this)) ⟨_, C43_redundant_wrong.2.1⟩ a

/-! ### C59, C60: a program that has to branch -/

/-- Every node of the tree of `boxSample` is clear of the tolerances, as `C59_partial` and `C60_partial` demand. -/
theorem boxSample_nodes (R : Prog) (h : Visits 100000000 none ⟨2, 1, boxSample⟩ R) : NodeClear 100000000 R.lp := by
  have hG := detClass boxSample_bounded.npos boxSample_bounded.costs boxSample_bounded.small
  obtain ⟨hn, D, hD⟩ := boxSample_bounded.node.visits (P := ⟨2, 1, boxSample⟩) hG h
  exact hD.clear hG (by rw [hn]; norm_num)

example (v : List ℚ) (fuel : ℕ) (h : branchAndBound 100000000 fuel ⟨⟨2, 1, boxSample⟩, none⟩ = .ok (some v)) :
    ∃ x : Fin 1 → ℚ, v = List.ofFn x ∧ BestIntegral boxSample none x :=
  (C60_partial 100000000 fuel ⟨⟨2, 1, boxSample⟩, none⟩ boxSample_bounded.wf rfl ⟨rfl, rfl⟩ boxSample_nodes).1 v h

/-! ### C55 -/

/-- A matrix in the form `to_rref` returns, with a zero row and a column without leading entry. -/
def rrefSample : Matrix (Fin 3) (Fin 3) ℚ := !![1, 3, 0; 0, 0, 1; 0, 0, 0]

instance leadAtDecidable {m n : ℕ} (M : Matrix (Fin m) (Fin n) ℚ) (i : Fin m) (j : Fin n) : Decidable (LeadAt M i j) :=
  inferInstanceAs (Decidable (M i j ≠ 0 ∧ ∀ j', j' < j → M i j' = 0))

theorem rrefSample_leads : ∀ i j, LeadAt rrefSample i j → rrefSample i j = 1 := by
  intro i j; fin_cases i <;> fin_cases j <;> decide +kernel

theorem rrefSample_stairs : ∀ i k j j', i < k → LeadAt rrefSample i j → LeadAt rrefSample k j' → j < j' := by
  decide +kernel

example : IsRref rrefSample :=
  C55_accepted_partial rrefSample (by decide +kernel) rrefSample_stairs fun i j h _ => rrefSample_leads i j h

/-- The form `to_rref` returns is reached from another matrix. -/
example : (toRref 100 !![2, 6, 1; 1, 3, 1; 3, 9, 2]).toOption.map (fun R => List.ofFn fun i => List.ofFn (R i)) =
    some (List.ofFn fun i => List.ofFn (rrefSample i)) := by decide +kernel

end Props
end Pytimize
