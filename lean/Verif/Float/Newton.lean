/-
`newton_method` in floating point.
-/
import Verif.Float.Descent

namespace Pytimize
namespace Floating
open Unconstrained LinProg

variable {n : ℕ}

/-- `x += d`, `_unconstrained.py:114`: every sum is rounded. -/
def addTo (R : Rounding) (x d : Vec ℚ n) : Vec ℚ n := fun i => R.rd (x i + d i)

/-- The loop of `newton_method`, `_unconstrained.py:112-117`, with `norm` for `np.linalg.norm` and `solve` for
`np.linalg.solve` (`none` if it raises `LinAlgError`): the content of `x` at the end and the number of iterations. The
callbacks give floats; the sign of `-df(x)` is exact. Nothing is assumed about `norm` and `solve` but that they are
functions of their arguments. -/
def fnewtonLoop (R : Rounding) (norm : Vec ℚ n → ℚ) (solve : Matrix (Fin n) (Fin n) ℚ → Vec ℚ n → Option (Vec ℚ n))
    (df : Vec ℚ n → Vec ℚ n) (d2f : Vec ℚ n → Matrix (Fin n) (Fin n) ℚ) (tolerance : ℚ) :
    ℕ → Vec ℚ n → Except PyErr (Vec ℚ n × ℕ)
  | 0, x => .ok (x, 0)
  | k + 1, x =>
    match solve (d2f x) (-df x) with
    | none => .error .linAlgError
    | some d =>
      let x := addTo R x d
      if norm (df x) ≤ tolerance then .ok (x, 1)
      else
        match fnewtonLoop R norm solve df d2f tolerance k x with
        | .error e => .error e
        | .ok (y, j) => .ok (y, j + 1)

/-- `newton_method`, `_unconstrained.py:82-119`, in floating point. -/
def fnewtonMethod (R : Rounding) (norm : Vec ℚ n → ℚ) (solve : Matrix (Fin n) (Fin n) ℚ → Vec ℚ n → Option (Vec ℚ n))
    (M : Program ℚ n) (x : Vec ℚ n) (df : Vec ℚ n → Vec ℚ n) (d2f : Vec ℚ n → Matrix (Fin n) (Fin n) ℚ)
    (tolerance : ℚ) (maxIter : ℕ) : Except PyErr (Outcome ℚ n) :=
  match fnewtonLoop R norm solve df d2f tolerance maxIter x with
  | .error e => .error e
  | .ok (y, j) => .ok (finish M y j)

end Floating
end Pytimize
