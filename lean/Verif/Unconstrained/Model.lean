/-
`pytimize/programs/_unconstrained.py`. Numbers are elements of any ordered field, exact: the rationals for examples, the
reals for callbacks like `exp`. The callbacks are functions that raise nothing and change nothing.
-/
import Mathlib.LinearAlgebra.Matrix.NonsingularInverse
import Mathlib.Algebra.Order.Field.Basic
import Mathlib.Algebra.Order.BigOperators.Ring.Finset
import Verif.Py

namespace Pytimize
namespace Unconstrained

variable {K : Type} [Field K] [LinearOrder K] {n : ℕ}

/-- A one-dimensional float array. -/
abbrev Vec (K : Type) (n : ℕ) := Fin n → K

/-- `UnconstrainedProgram`, `_unconstrained.py:9-28`. -/
structure Program (K : Type) (n : ℕ) where
  f : Vec K n → K
  minimize : Bool

/-- The constructor, `_unconstrained.py:25-28`: the negated function of line 26 is overwritten in line 27. -/
def construct (f : Vec K n → K) (objective : String) : Program K n := ⟨f, objective == "min"⟩

/-- `u @ v` for vectors. -/
def dot (u v : Vec K n) : K := ∑ i, u i * v i

/-- `np.linalg.norm(g) <= tolerance`, without the square root. -/
def normLe (g : Vec K n) (tolerance : K) : Prop := 0 ≤ tolerance ∧ dot g g ≤ tolerance ^ 2

instance (g : Vec K n) (t : K) : Decidable (normLe g t) := by unfold normLe; infer_instance

/-- The parameters of `steepest_descent`, `_unconstrained.py:30-39`. -/
structure Params (K : Type) where
  alpha : K
  c : K
  p : K
  tolerance : K

/-- The backtracking loop, `_unconstrained.py:72-73`, with `x`, `d = -df(x)` and `df(x)`; `none` if it has not ended
after the given number of rounds. -/
def backtrack (f : Vec K n → K) (P : Params K) (x d g : Vec K n) : ℕ → K → Option K
  | 0, _ => none
  | m + 1, a =>
    if f (x + a • d) > f x + P.c * a * dot g d then backtrack f P x d g m (a * P.p) else some a

/-- The loop of `steepest_descent`, `_unconstrained.py:68-78`: the content of the array `x` at the end, and the number
of iterations made; `none` if a backtracking loop does not end within `fuel` rounds. -/
def descend (f : Vec K n → K) (df : Vec K n → Vec K n) (P : Params K) (fuel : ℕ) : ℕ → Vec K n → Option (Vec K n × ℕ)
  | 0, x => some (x, 0)
  | k + 1, x =>
    let d := -df x
    match backtrack f P x d (df x) fuel P.alpha with
    | none => none
    | some a =>
      let x := x + a • d
      if normLe (df x) P.tolerance then some (x, 1)
      else
        match descend f df P fuel k x with
        | none => none
        | some (y, j) => some (y, j + 1)

/-- What a call leaves behind: the point returned, and the content of the caller's array, which `x += ...`
changes in place (lines 75, 114). -/
structure Outcome (K : Type) (n : ℕ) where
  result : Vec K n
  start : Vec K n
  iterations : ℕ

/-- The last line of both methods, `return x if self._minimize else -x`. -/
def finish (M : Program K n) (x : Vec K n) (j : ℕ) : Outcome K n := ⟨if M.minimize then x else -x, x, j⟩

/-- `steepest_descent`, `_unconstrained.py:30-80`, with the integer part of `max_iteration`. -/
def steepestDescent (M : Program K n) (x : Vec K n) (df : Vec K n → Vec K n) (P : Params K) (maxIter fuel : ℕ) :
    Option (Outcome K n) :=
  match descend M.f df P fuel maxIter x with
  | none => none
  | some (y, j) => some (finish M y j)

/-- The loop of `newton_method`, `_unconstrained.py:112-117`. `np.linalg.solve` raises `LinAlgError` for a singular
matrix. -/
noncomputable def newtonLoop (df : Vec K n → Vec K n) (d2f : Vec K n → Matrix (Fin n) (Fin n) K) (tolerance : K) :
    ℕ → Vec K n → Except PyErr (Vec K n × ℕ)
  | 0, x => .ok (x, 0)
  | k + 1, x =>
    if (d2f x).det = 0 then .error .linAlgError
    else
      let x := x + (d2f x)⁻¹.mulVec (-df x)
      if normLe (df x) tolerance then .ok (x, 1)
      else
        match newtonLoop df d2f tolerance k x with
        | .error e => .error e
        | .ok (y, j) => .ok (y, j + 1)

/-- `newton_method`, `_unconstrained.py:82-119`. -/
noncomputable def newtonMethod (M : Program K n) (x : Vec K n) (df : Vec K n → Vec K n)
    (d2f : Vec K n → Matrix (Fin n) (Fin n) K) (tolerance : K) (maxIter : ℕ) : Except PyErr (Outcome K n) :=
  match newtonLoop df d2f tolerance maxIter x with
  | .error e => .error e
  | .ok (y, j) => .ok (finish M y j)

/-! ### A list as the start

The type hints allow a list. `x + a * d` is then still the sum of arrays, but `x += a * d` appends the entries of the
array to the list. -/

/-- `x + a * d` for a list and an array of the same length. -/
def listAdd (x : List K) (a : K) (d : List K) : List K := List.zipWith (fun u v => u + a * v) x d

/-- The backtracking loop for a list `x`. -/
def backtrackList (f : List K → K) (P : Params K) (x d g : List K) : ℕ → K → Option K
  | 0, _ => none
  | m + 1, a =>
    if f (listAdd x a d) > f x + P.c * a * (List.zipWith (· * ·) g d).sum then backtrackList f P x d g m (a * P.p)
    else some a

/-- The loop of `steepest_descent` for a list: `_unconstrained.py:75` extends it. -/
def descendList (f : List K → K) (df : List K → List K) (P : Params K) (fuel : ℕ) : ℕ → List K → Option (List K × ℕ)
  | 0, x => some (x, 0)
  | k + 1, x =>
    let d := (df x).map fun v => -v
    match backtrackList f P x d (df x) fuel P.alpha with
    | none => none
    | some a =>
      let x := x ++ d.map fun v => a * v
      let g := df x
      if 0 ≤ P.tolerance ∧ (g.map fun v => v * v).sum ≤ P.tolerance ^ 2 then some (x, 1)
      else
        match descendList f df P fuel k x with
        | none => none
        | some (y, j) => some (y, j + 1)

end Unconstrained
end Pytimize
