/-
Model of the certificate checkers of `_linear.py`.
-/
import Verif.LP.BasicLemmas

namespace Pytimize
namespace LinProg
open Comparator

variable {m n : ℕ}

/-- `verify_infeasibility`, `_linear.py:1196-1224`. A certificate of the wrong length is rejected by `@`
with `ValueError`. -/
def verifyInfeasibility (P : LP m n) (y : List ℚ) : Except PyErr Bool :=
  if !P.isSef then .error .arithmeticError
  else
    match toVec m y with
    | none => .error .valueError
    | some y =>
      .ok (decide (∀ j, pyCmp ((P.A.vecMul y) j) .ge 0 = true) && isNegative (y ⬝ᵥ P.b))

/-- `verify_unboundedness`, `_linear.py:1226-1268`. -/
def verifyUnboundedness (P : LP m n) (x d : List ℚ) : Except PyErr Bool :=
  if !P.isSef then .error .arithmeticError
  else
    match isFeasible P x with
    | .error e => .error e
    | .ok false => .ok false
    | .ok true =>
      match toVec n d with
      | none => .error .valueError
      | some d =>
        if pyCmp (P.c ⬝ᵥ d) .le 0 then .ok false
        else if !decide (∀ i, npIsClose ((P.A.mulVec d) i) 0 = true) then .ok false
        else .ok (decide (∀ j, pyCmp (d j) .ge 0 = true))

/-- `verify_optimality`, `_linear.py:1270-1297`. -/
def verifyOptimality (P : LP m n) (y : List ℚ) : Except PyErr Bool :=
  if !P.isSef then .error .arithmeticError
  else
    match toVec m y with
    | none => .error .valueError
    | some y => .ok (decide (∀ j, pyCmp (P.c j - (P.A.vecMul y) j) .le 0 = true))

/-! ### Specification vocabulary -/

/-- The objective is unbounded above on the feasible set. -/
def Unbounded (P : LP m n) : Prop := ∀ M : ℚ, ∃ x, Feas P x ∧ M < objVal P x

theorem npIsClose_iff {a b : ℚ} : npIsClose a b = true ↔ |a - b| ≤ 1 / 10 ^ 8 + 1 / 10 ^ 5 * |b| := by
  simp [npIsClose]

theorem npIsClose_self (a : ℚ) : npIsClose a a = true := by
  rw [npIsClose_iff, sub_self, abs_zero]
  have := abs_nonneg a
  positivity

theorem Feas.eqs {P : LP m n} (hP : WF P) (hs : P.isSef = true) {x : Fin n → ℚ} (h : Feas P x) :
    P.A.mulVec x = P.b := by
  funext i
  have := h.rows i
  rwa [(hP.isSef_iff.mp hs).1 i] at this

theorem Feas.nonneg {P : LP m n} (hP : WF P) (hs : P.isSef = true) {x : Fin n → ℚ} (h : Feas P x)
    (j : Fin n) : 0 ≤ x j :=
  h.poss j (by rw [(hP.isSef_iff.mp hs).2.2.1]; simp) (by rw [(hP.isSef_iff.mp hs).2.1]; simp)

theorem feas_sef_iff {P : LP m n} (hP : WF P) (hs : P.isSef = true) {x : Fin n → ℚ} :
    Feas P x ↔ P.A.mulVec x = P.b ∧ ∀ j, 0 ≤ x j := by
  refine ⟨fun h => ⟨h.eqs hP hs, h.nonneg hP hs⟩, fun h => ⟨fun i => ?_, fun j hj => ?_, fun j _ _ => h.2 j⟩⟩
  · rw [(hP.isSef_iff.mp hs).1 i]
    exact congrFun h.1 i
  · rw [(hP.isSef_iff.mp hs).2.2.1] at hj
    simp at hj

end LinProg
end Pytimize
