/-
Model of `__repr__` of a formulation, `formulations/linear/_abstract.py:30-31`.
-/
import Verif.Formulation.Program
import Verif.LP.Format

namespace Pytimize
namespace Formulation

/-- `__repr__`, `_abstract.py:30-31`: the text of the compiled program (`_linear.py:238-391`), which is compiled first
if need be. A compiled `IntegerProgram` would print itself with `_integer.py:33-39`. -/
def reprFormulation (P : Abstract) : Abstract × Except PyErr (List Char) :=
  match getProgram P with
  | (P, .error e) => (P, .error e)
  | (P, .ok (.linear Q)) => (P, LinProg.reprText Q.lp)
  | (P, .ok (.integer I)) => (P, LinProg.intReprText I)

end Formulation
end Pytimize
