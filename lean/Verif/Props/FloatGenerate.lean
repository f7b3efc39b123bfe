/-
Property C124: the compiled arrays of a formulation written with Python's numbers.
-/
import Verif.Float.GenerateProgram

namespace Pytimize
namespace Props
open Formulation Floating
open LinProg (Ineq Obj)

/-- C124, part 1: a formulation written with Python integers compiles to the exact program, exceptions included, while
the size of each of its expressions is at most `2 ^ 51`. -/
theorem C124_int (pk : Package) (o : Obj) {obj : GExpr ℤ} {cons : List (Ineq × GExpr ℤ × GExpr ℤ)}
    (ho : Simple (ratExpr obj)) (wo : weight obj ≤ 2 ^ 51)
    (hc : ∀ t ∈ cons, (Simple (ratExpr t.2.1) ∧ weight t.2.1 ≤ 2 ^ 51) ∧
      (Simple (ratExpr t.2.2) ∧ weight t.2.2 ≤ 2 ^ 51)) :
    fformulate binary64 pk o [] (obj.map PyNum.int)
        (cons.map fun t => (t.1, t.2.1.map PyNum.int, t.2.2.map PyNum.int)) =
      formulate pk o [] (ratExpr obj) (cons.map fun t => (t.1, ratExpr t.2.1, ratExpr t.2.2)) :=
  formulate_int pk o ⟨ho, wo⟩ fun t ht => ⟨⟨(hc t ht).1.1, (hc t ht).1.2⟩, ⟨(hc t ht).2.1, (hc t ht).2.2⟩⟩

/-- C124, part 2: in a compiled formulation written with Python numbers, each coefficient of the objective is within the
relative error `(k + 1) / 2 ^ 50` of what was written, where `k` is the number of additions, subtractions and products
in the expression; each row belongs to one constraint, in order, and has coefficients within `(k + 1) / 2 ^ 50` and a
right-hand side within `(k + 2) / 2 ^ 50` of what was written; its operator is the one written, or turned around
together with all signs of the row. Errors are relative to the sizes of the expressions. -/
theorem C124_program {pk : Package} {o : Obj} {obj : GExpr PyNum} (co : obj.Closed)
    (lo : (obj.read PyNum.val).Linear) (ko : obj.ops + 1 ≤ 2 ^ 50) {l : List (Ineq × GExpr PyNum × GExpr PyNum)}
    (hl : ∀ t ∈ l, Written t) {P : Abstract} (hP : fformulate binary64 pk o [] obj l = .ok P) :
    P.objective = o ∧ (∀ i, |P.c.getD i 0 - coefficient obj i| ≤ (obj.ops + 1) / 2 ^ 50 * coefficientSize obj i) ∧
      (obj.Tidy [] → |P.z - constant obj| ≤ obj.ops / 2 ^ 50 * constantSize obj) ∧
      P.A.length = l.length ∧ P.b.length = l.length ∧ P.ineqs.length = l.length ∧
      ∀ j (hj : j < l.length), ∃ s : ℚ,
        let e := l[j].2.1
        let f := l[j].2.2
        (s = 1 ∧ P.ineqs.getD j .eq = l[j].1 ∨ s = -1 ∧ P.ineqs.getD j .eq = flip l[j].1) ∧
        (∀ i, |(P.A.getD j []).getD i 0 - s * (coefficient e i - coefficient f i)| ≤
          (e.ops + f.ops + 1) / 2 ^ 50 * (coefficientSize e i + coefficientSize f i) + 1 / 2 ^ 1075) ∧
        (e.Tidy [] → f.Tidy [] → |P.b.getD j 0 - s * (constant f - constant e)| ≤
          (e.ops + f.ops + 2) / 2 ^ 50 * (constantSize e + constantSize f) + 1 / 2 ^ 1074) := by
  obtain ⟨h1, h2, h3, h4, h5, h6, h7⟩ := formulate_near co lo ko hl hP
  refine ⟨h1, h2, h3, h4, h5, h6, fun j hj => ?_⟩
  obtain ⟨s, hs⟩ := h7 j hj
  exact ⟨s, hs.side, hs.coeff, hs.const⟩

/-- C124, part 3: a constraint raises in doubles if and only if it raises in exact arithmetic on the numbers of the
evaluated sides, and the two rows have the same length. -/
theorem C124_generate_error (R : Rounding) (op : Ineq) {e f : GEqn PyNum} (he : e.terms.WF) (hf : f.terms.WF)
    (r : PyErr) : fgenerate R op e f = .error r ↔ generate op (e.read PyNum.val) (f.read PyNum.val) = .error r := by
  rcases fgenerate_spec R op he hf with ⟨r', h1, h2⟩ | ⟨c, c', h1, h2, -⟩
  · rw [h1, h2]
    exact ⟨fun h => (by cases h; rfl), fun h => (by cases h; rfl)⟩
  · rw [h1, h2]
    exact ⟨fun h => (by cases h), fun h => (by cases h)⟩

/-- C124: the size condition of `C124_int` cannot be dropped: `maximize(x[1]).subject_to(9007199254740993 * x[1] <= 1)`
has another number in its matrix than the one written. -/
theorem C124_int_wrong :
    let e : GExpr ℤ := .mul (.num (2 ^ 53 + 1)) (.x 1)
    let l : List (Ineq × GExpr ℤ × GExpr ℤ) := [(.le, e, .num 1)]
    Simple (ratExpr e) ∧
      ∃ P Q, fformulate binary64 .linear .max [] (.x 1) (pyCons l) = .ok P ∧
        formulate .linear .max [] (.x 1) (ratCons l) = .ok Q ∧ Q.A = [[2 ^ 53 + 1]] ∧ P.A ≠ Q.A := by
  intro e l
  refine ⟨⟨rfl, ?_, ?_⟩, ?_⟩
  · simp [e, GExpr.read, Expr.Linear, Expr.isNum]
  · simp [e, GExpr.read, Expr.Plain, Expr.isNum, Expr.at]
  · refine ⟨⟨[[binary64.rd ((1 * (2 ^ 53 + 1) : ℤ) : ℚ)]], [binary64.rd ((1 - 0 : ℤ) : ℚ)],
      [binary64.rd ((1 : ℤ) : ℚ)], ((0 : ℤ) : ℚ), .max, [.le], [], [], none, false⟩,
      ⟨[[1 * ((2 ^ 53 + 1 : ℤ) : ℚ)]], [((1 : ℤ) : ℚ) - 0], [1], 0, .max, [.le], [], [], none, false⟩, rfl, rfl, ?_, ?_⟩
    · norm_num
    · intro h
      simp only [List.cons.injEq, and_true] at h
      have h1 : binary64.rd (2 ^ 53 + 1) = 2 ^ 53 + 1 := by
        have e1 : ((1 * (2 ^ 53 + 1) : ℤ) : ℚ) = 2 ^ 53 + 1 := by norm_num
        have e2 : (1 : ℚ) * ((2 ^ 53 + 1 : ℤ) : ℚ) = 2 ^ 53 + 1 := by norm_num
        rw [e1, e2] at h
        exact h
      exact not_double (binary64_rep.mp h1)

/-- `maximize(3 * x[1] - 2 * x[2] + 1).subject_to(x[1] + 4 * x[2] <= 7, 2 <= x[1] * 5)` meets the hypotheses of
`C124_int`. -/
example : let obj : GExpr ℤ := .add (.sub (.mul (.num 3) (.x 1)) (.mul (.num 2) (.x 2))) (.num 1)
    let cons : List (Ineq × GExpr ℤ × GExpr ℤ) :=
      [(.le, .add (.x 1) (.mul (.num 4) (.x 2)), .num 7), (.le, .num 2, .mul (.x 1) (.num 5))]
    (Simple (ratExpr obj) ∧ weight obj ≤ 2 ^ 51) ∧ ∀ t ∈ cons, (Simple (ratExpr t.2.1) ∧ weight t.2.1 ≤ 2 ^ 51) ∧
      (Simple (ratExpr t.2.2) ∧ weight t.2.2 ≤ 2 ^ 51) := by
  intro obj cons
  refine ⟨⟨⟨rfl, ?_, ?_⟩, by decide⟩, ?_⟩
  · simp [obj, GExpr.read, Expr.Linear, Expr.isNum]
  · simp [obj, GExpr.read, Expr.Plain, Expr.isNum, Expr.at]
  · simp only [cons, List.forall_mem_cons, List.not_mem_nil, false_imp_iff, implies_true, and_true]
    refine ⟨⟨⟨⟨rfl, ?_, ?_⟩, by decide⟩, ⟨⟨rfl, ?_, ?_⟩, by decide⟩⟩,
      ⟨⟨⟨rfl, ?_, ?_⟩, by decide⟩, ⟨⟨rfl, ?_, ?_⟩, by decide⟩⟩⟩ <;>
      simp [GExpr.read, Expr.Linear, Expr.Plain, Expr.isNum, Expr.at]

/-- `maximize(0.1 * x[1] + 3 * x[2]).subject_to(x[1] + 0.3 * x[2] <= 7.5)` meets the hypotheses of `C124_program`. -/
example : let obj : GExpr PyNum := .add (.mul (.num (.float (toDouble (1 / 10)))) (.x 1)) (.mul (.num (.int 3)) (.x 2))
    let l : List (Ineq × GExpr PyNum × GExpr PyNum) :=
      [(.le, .add (.x 1) (.mul (.num (.float (toDouble (3 / 10)))) (.x 2)), .num (.float (15 / 2)))]
    obj.Closed ∧ (obj.read PyNum.val).Linear ∧ obj.ops + 1 ≤ 2 ^ 50 ∧ obj.Tidy [] ∧ (∀ t ∈ l, Written t) ∧
      (∀ t ∈ l, t.2.1.Tidy [] ∧ t.2.2.Tidy []) ∧ ∃ P, fformulate binary64 .linear .max [] obj l = .ok P := by
  intro obj l
  refine ⟨?_, ?_, ?_, ?_, ?_, ?_, ⟨_, rfl⟩⟩
  · simp [obj, GExpr.Closed]
  · simp [obj, GExpr.read, Expr.Linear, Expr.isNum]
  · simp [obj, GExpr.ops]
  · simp [obj, GExpr.Tidy, GExpr.read, Expr.isNum, GExpr.sizeAt]
  · simp only [l, List.mem_singleton, forall_eq]
    refine ⟨?_, trivial, ?_, trivial, ?_⟩
    · simp [GExpr.Closed]
    · simp [GExpr.read, Expr.Linear, Expr.isNum]
    · simp [GExpr.ops]
  · simp [l, GExpr.Tidy, GExpr.read, Expr.isNum, GExpr.sizeAt]

/-- The evaluated sides of a comparison meet the hypotheses of `C124_generate_error`. -/
example : Dict.WF (⟨[(0, .int 2), (3, .float (1 / 2))], .int 1⟩ : GEqn PyNum).terms := by
  simp [Dict.WF, Dict.keys]

end Props
end Pytimize
