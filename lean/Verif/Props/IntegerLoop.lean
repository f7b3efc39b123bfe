/-
C74: bounded integer programs on which `branch_and_bound` never returns or raises.
-/
import Verif.Props.Integer
import Verif.Props.SolveExact

namespace Pytimize
namespace Props

open LinProg Comparator Matrix

/-- `max -3 x₁ + 3 x₂ + 2 x₃ + 4 x₄` subject to `-4 x₁ + 2 x₂ - 4 x₄ <= -2`, `3 x₁ + 3 x₂ + 5 x₃ - x₄ <= -2`,
`x₁ + x₂ + 2 x₃ + 2 x₄ <= 4`, `2 x₁ - 5 x₂ - 3 x₃ - 3 x₄ <= 1`. -/
def boundedLoop : LP 4 4 :=
  ⟨![![-4, 2, 0, -4], ![3, 3, 5, -1], ![1, 1, 2, 2], ![2, -5, -3, -3]], ![-2, -2, 4, 1], ![-3, 3, 2, 4], 0, .max,
    fun _ => .le, [], [], false⟩

theorem boundedLoop_wf : WF boundedLoop := ⟨by decide, by decide, by decide, by decide, by decide, by decide⟩

/-- The integer program with these data, all variables integral. -/
def boundedLoopInt : IntProgram := ⟨⟨4, 4, boundedLoop⟩, none⟩

/-- The SEF as `simplex` sees it. -/
def boundedSef : LP 4 (toSef boundedLoop).n := flipRows (negRows (toSef boundedLoop).lp) (toSef boundedLoop).lp

/-- The bases visited; from the last `simplex` goes back to the third. -/
def boundedBases : List (List ℤ) :=
  [[5, 6, 7, 8], [2, 6, 7, 8], [1, 2, 7, 8], [1, 2, 3, 7], [1, 3, 4, 7], [1, 4, 5, 7], [1, 5, 6, 7], [1, 6, 7, 8]]

theorem bounded_step (l : List ℤ) (h : l ∈ boundedBases) :
    ∃ l' ∈ boundedBases, nextOf (simplexIteration boundedSef l) = some l' := by
  simp only [boundedBases, List.mem_cons, List.not_mem_nil, or_false] at h
  rcases h with rfl | rfl | rfl | rfl | rfl | rfl | rfl | rfl
  · exact ⟨[2, 6, 7, 8], by decide, by decide +kernel⟩
  · exact ⟨[1, 2, 7, 8], by decide, by decide +kernel⟩
  · exact ⟨[1, 2, 3, 7], by decide, by decide +kernel⟩
  · exact ⟨[1, 3, 4, 7], by decide, by decide +kernel⟩
  · exact ⟨[1, 4, 5, 7], by decide, by decide +kernel⟩
  · exact ⟨[1, 5, 6, 7], by decide, by decide +kernel⟩
  · exact ⟨[1, 6, 7, 8], by decide, by decide +kernel⟩
  · exact ⟨[1, 2, 7, 8], by decide, by decide +kernel⟩

theorem bounded_forever (fuel : ℕ) : ∀ l ∈ boundedBases, simplexLoop fuel boundedSef l = .error .notTerminated := by
  induction fuel with
  | zero => intro l _; rfl
  | succ f ih =>
    intro l hl
    obtain ⟨l', hl', h⟩ := bounded_step l hl
    obtain ⟨C, hC⟩ := nextOf_some h
    unfold simplexLoop
    simp only [hC]
    exact ih l' hl'

theorem boundedLoop_solve (fuel : ℕ) : solve fuel boundedLoop = .error .notTerminated := by
  have hb : isBasis (toSef boundedLoop).lp [5, 6, 7, 8] = .ok true := by decide +kernel
  have ht : ((List.range ((toSef boundedLoop).n - 4)).map fun i : ℕ => ((4 : ℕ) : ℤ) + i + 1) = [5, 6, 7, 8] := by
    decide +kernel
  have hl : (simplex fuel (toSef boundedLoop).lp [5, 6, 7, 8]).1 = .error .notTerminated := by
    have h := bounded_forever fuel [5, 6, 7, 8] (by decide)
    unfold simplex
    simp only [toSef_isSef, Bool.not_true, Bool.false_eq_true, if_false]
    unfold simplexBody
    unfold boundedSef at h
    simp only [h]
  unfold solve
  rw [if_neg (by decide)]
  unfold solveSef
  simp only [ht, hb, hl]
  rw [if_pos (by decide +kernel)]

/-- C74 is false: an integer program with four inequalities in four nonnegative variables, none of which exceeds `4` on
the feasible region, that has an integral feasible point and on which `branch_and_bound` never returns: the first call
of `solve` does not. -/
theorem C74_loops_wrong :
    (∃ A b c, intCtor A b c 0 "max" (some ["<=", "<=", "<=", "<="]) none none none = .ok boundedLoopInt) ∧
    (∀ x, Feas boundedLoop x → ∀ j, 0 ≤ x j ∧ x j ≤ 4) ∧
    (Feas boundedLoop ![0, 0, 0, 2] ∧ Integral none ![(0 : ℚ), 0, 0, 2]) ∧
    ∀ sf fuel, branchAndBound sf fuel boundedLoopInt = .error .notTerminated := by
  refine ⟨?_, fun x hx j => ?_, ⟨⟨fun i => ?_, fun j hj => ?_, fun j _ _ => ?_⟩, fun j _ => ?_⟩, fun sf fuel => ?_⟩
  · refine ⟨.nd2 4 4 boundedLoop.A, .nd1 (List.ofFn boundedLoop.b), .nd1 (List.ofFn boundedLoop.c), ?_⟩
    have h := C58_wf boundedLoopInt boundedLoop_wf
    unfold relax at h
    unfold intCtor
    simp only [boundedLoopInt] at h ⊢
    have h' : ctor (.nd2 4 4 boundedLoop.A) (.nd1 (List.ofFn boundedLoop.b)) (.nd1 (List.ofFn boundedLoop.c)) 0 "max"
        (some ["<=", "<=", "<=", "<="]) none none = .ok ⟨4, 4, boundedLoop⟩ := by
      rw [← h]; rfl
    rw [h']
  · have p : ∀ j, 0 ≤ x j := fun j => hx.poss j (by simp [boundedLoop]) (by simp [boundedLoop])
    have h2 := hx.rows 2
    have p0 := p 0
    have p1 := p 1
    have p2 := p 2
    have p3 := p 3
    simp [boundedLoop, rowHolds, mulVec, dotProduct, Fin.sum_univ_four] at h2
    refine ⟨p j, ?_⟩
    fin_cases j
    · show x 0 ≤ 4; linarith
    · show x 1 ≤ 4; linarith
    · show x 2 ≤ 4; linarith
    · show x 3 ≤ 4; linarith
  · have : ∀ i, rowHolds .le (boundedLoop.A.mulVec ![0, 0, 0, 2] i) (boundedLoop.b i) := by
      unfold rowHolds
      decide +kernel
    exact this i
  · simp [boundedLoop] at hj
  · revert j; decide +kernel
  · fin_cases j
    · exact ⟨0, by simp⟩
    · exact ⟨0, by simp⟩
    · exact ⟨0, by simp⟩
    · exact ⟨2, by simp⟩
  · unfold branchAndBound
    rw [C58_wf boundedLoopInt boundedLoop_wf]
    have : branch sf none fuel ⟨4, 4, boundedLoop⟩ = .error .notTerminated := by
      cases fuel with
      | zero => rfl
      | succ f =>
        unfold branch
        simp only [boundedLoop_solve]
    show (match branch sf none fuel ⟨4, 4, boundedLoop⟩ with
      | .error e => .error e
      | .ok r => .ok (r.map Prod.fst) : Except PyErr (Option (List ℚ))) = _
    rw [this]

/-- C74 is false in a second way: `ValueError` for the bounded integer program `max x₁` subject to `x₁ + x₂ = 1` twice. -/
theorem C74_raises_wrong : (∀ x, Feas redundant x → ∀ j, 0 ≤ x j ∧ x j ≤ 1) ∧
    (Feas redundant ![1, 0] ∧ Integral none ![(1 : ℚ), 0]) ∧
    branchAndBound 10 10 ⟨⟨2, 2, redundant⟩, none⟩ = .error .valueError := by
  refine ⟨fun x hx j => ?_, ⟨C43_redundant_wrong.2.1, fun j _ => ?_⟩, ?_⟩
  · have p : ∀ j, 0 ≤ x j := fun j => hx.poss j (by simp [redundant]) (by simp [redundant])
    have h := hx.rows 0
    have p0 := p 0
    have p1 := p 1
    simp [redundant, rowHolds, mulVec, dotProduct, Fin.sum_univ_two] at h
    refine ⟨p j, ?_⟩
    fin_cases j
    · show x 0 ≤ 1; linarith
    · show x 1 ≤ 1; linarith
  · fin_cases j
    · exact ⟨1, by simp⟩
    · exact ⟨0, by simp⟩
  · unfold branchAndBound
    rw [C58_wf ⟨⟨2, 2, redundant⟩, none⟩ redundant_wf]
    show (match branch 10 none 10 ⟨2, 2, redundant⟩ with
      | .error e => .error e
      | .ok r => .ok (r.map Prod.fst) : Except PyErr (Option (List ℚ))) = _
    unfold branch
    simp only [C45_redundant_wrong.1]

end Props
end Pytimize
