/-
Model of `cs_conditions` and `is_solution_optimal` of `_linear.py` and of the methods `IntegerProgram` inherits.
Strings are lists of characters; `fmt` is what Python prints for a number.
-/
import Verif.LP.Integer
import Verif.Parser.Model

namespace Pytimize
namespace LinProg

variable {m n : ℕ}

/-- `sep.join(parts)`. -/
def joinChars (sep : List Char) : List (List Char) → List Char
  | [] => []
  | [a] => a
  | a :: l => a ++ sep ++ joinChars sep l

/-- `f"{letter}{SymbolParser.subscript(str(index + 1))}"`. -/
def csVar (letter : Char) (index : ℕ) : List Char :=
  letter :: Parser.subscript (toString (index + 1)).toList

/-- The text appended for row `i`, `_linear.py:671-680` and `:683-692`. -/
def csText (fmt : ℚ → List Char) (own other : Char) (P : LP m n) (i : Fin m) : List Char :=
  let var := csVar own i ++ " = 0".toList
  let equation := joinChars " + ".toList ((List.finRange n).map fun j => fmt (P.A i j) ++ csVar other j) ++
    " = ".toList ++ fmt (P.b i)
  var ++ " || ".toList ++ equation

/-- The texts of the rows that are in `_inequality_indices`. -/
def csRows (fmt : ℚ → List Char) (own other : Char) (P : LP m n) : List (List Char) :=
  (List.finRange m).filterMap fun i => if P.ineq i = .eq then none else some (csText fmt own other P i)

/-- `cs_conditions`, `_linear.py:658-697`. -/
def csConditions (fmt : ℚ → List Char) (P : LP m n) : List Char :=
  joinChars ['\n'] (csRows fmt 'y' 'x' P ++ csRows fmt 'x' 'y' (dual P))

/-- `is_solution_optimal`, `_linear.py:1630-1639`: the answer of `is_feasible` is dropped and `None` returned. -/
def isSolutionOptimal (P : LP m n) (x : List ℚ) : Except PyErr (Option Bool) :=
  match isFeasible P x with
  | .error e => .error e
  | .ok _ => .ok none

/-- `IntegerProgram.is_feasible`, `_integer.py:204-206`. -/
def intIsFeasible (I : IntProgram) (x : List ℚ) : Except PyErr Bool := isFeasible I.prog.lp x

/-- `solve` called on an `IntegerProgram`: inherited, `_linear.py:905-956`. -/
def intSolve (sf : ℕ) (I : IntProgram) : Except PyErr (Option (List ℚ)) := solve sf I.prog.lp

/-- `optimal_value` of an `IntegerProgram`: inherited, `_linear.py:545-551`; it calls the inherited `solve`. -/
def intOptimalValue (sf : ℕ) (I : IntProgram) : Except PyErr (Option ℚ) := optimalValue sf I.prog.lp

/-- A program together with its class. -/
inductive AnyProgram
  | linear (P : Prog)
  | integer (I : IntProgram)

/-- `copy` called on an `IntegerProgram`: inherited, `_linear.py:1537-1557`; it calls the constructor of
`LinearProgram` and copies the fields of that class. -/
def intCopy (I : IntProgram) : AnyProgram := .linear I.prog

/-- The call `branch_and_bound()` on an object of either class, `_integer.py:41-56`; `LinearProgram` has no such
method. -/
def callBranchAndBound (sf fuel : ℕ) : AnyProgram → Except PyErr (Option (List ℚ))
  | .linear _ => .error .attributeError
  | .integer I => branchAndBound sf fuel I

end LinProg
end Pytimize
