/-
`optimal_value` in floating-point arithmetic.
-/
import Verif.Float.Branch

namespace Pytimize
namespace Floating
open LinProg

variable {m n : ℕ} {R : Rounding}

/-- `optimal_value`, `_linear.py:545-551`. -/
def foptimalValue (L : Lapack R) (fuel : ℕ) (P : LP m n) : Except PyErr (Option ℚ) :=
  match fsolve L fuel P with
  | .error e => .error e
  | .ok none => .ok none
  | .ok (some x) =>
    match fevaluate L P x with
    | .error e => .error e
    | .ok v => .ok (some v)

end Floating
end Pytimize
