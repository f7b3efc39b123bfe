/-
Tests of the model, not proofs: the inputs of the test suite of /repo (`pytimize/programs/tests`) and the results
those tests expect, evaluated on the model. Each `#guard` cites the test it copies. Expected values given there
with a tolerance (`np.allclose`) are compared exactly.
-/
import Verif.LP.Format
import Verif.LP.Integer
import Verif.LP.Extra

namespace Pytimize
namespace Conformance
open LinProg

set_option synthInstance.maxSize 400

/-- The constructor on lists of numbers. -/
def build (A : List (List ℚ)) (b c : List ℚ) (z : ℚ := 0) (objective : String := "max")
    (inequalities : Option (List String) := none) (free neg : Option (List ℤ) := none) : Except PyErr Prog :=
  LinProg.ctor (.list (A.map fun r => .list (r.map .num))) (.list (b.map .num)) (.list (c.map .num)) z objective
    inequalities free neg

/-- A result compared with an expected value. -/
def gives {α β : Type} [DecidableEq β] (r : Except PyErr α) (f : α → β) (expected : β) : Bool :=
  match r with
  | .ok a => decide (f a = expected)
  | .error _ => false

/-- A call that has to raise the given exception. -/
def raises {α : Type} (r : Except PyErr α) (e : PyErr) : Bool :=
  match r with
  | .ok _ => false
  | .error e' => decide (e' = e)

/-- The rows of a matrix. -/
def rows {m n : ℕ} (A : Matrix (Fin m) (Fin n) ℚ) : List (List ℚ) := List.ofFn fun i => List.ofFn (A i)

/-- The attributes compared by the tests. -/
def attributes {m n : ℕ} (P : LP m n) :
    (List (List ℚ) × List ℚ × List ℚ × ℚ) × List String × String × List ℤ × List ℤ :=
  ((rows P.A, List.ofFn P.b, List.ofFn P.c, P.z), P.inequalities, P.objective.name, P.freeVariables, P.negativeVariables)

/-- An answer of the simplex methods as the lists the tests compare. -/
def answer {m n : ℕ} : Answer m n → Option (List ℚ) × Option (List ℤ) × List (List ℚ)
  | .optimal x basis y => (some (List.ofFn x), some basis, [List.ofFn y])
  | .unbounded x d => (none, none, [List.ofFn x, List.ofFn d])
  | .infeasible y => (none, none, [List.ofFn y])

/-- Both components of a call that returns an answer and leaves the program as it was. -/
def same {m n : ℕ} (P : LP m n) (r : Except PyErr (Answer m n) × LP m n) : Except PyErr (Answer m n) :=
  if rows r.2.A = rows P.A ∧ List.ofFn r.2.b = List.ofFn P.b then r.1 else .error .keyError

/-! ### `linear/test_to_sef.py` -/

def sef (p : Except PyErr Prog) := p.bind fun p => .ok (attributes (toSef p.lp).lp)

#guard gives (sef (build [[1, 5, 3], [2, -1, 2], [1, 2, -1]] [5, 4, 2] [1, -2, 4] 0 "min" (some [">=", "<=", "="]) (some [3]))) id
  (([[1, 5, 3, -3, -1, 0], [2, -1, 2, -2, 0, 1], [1, 2, -1, 1, 0, 0]], [5, 4, 2], [-1, 2, -4, 4, 0, 0], 0), ["=", "=", "="], "max", [], [])
#guard gives (sef (build [[1, 2, 0, 1], [1, -2, 16, 0], [8, 2, -3, 1]] [10, 14, -2] [-2, 3, -4, 1] 0 "max" (some ["<=", "<=", "="]) (some [2]))) id
  (([[1, 2, -2, 0, 1, 1, 0], [1, -2, 2, 16, 0, 0, 1], [8, 2, -2, -3, 1, 0, 0]], [10, 14, -2], [-2, 3, -3, -4, 1, 0, 0], 0), ["=", "=", "="], "max", [], [])
#guard gives (sef (build [[1, 2, 0, 1], [1, -2, 16, 0], [8, 2, -3, 1]] [10, 14, -2] [-2, 3, -4, 1] 0 "max" (some ["<=", "<=", "="]) (some [2]) (some [3, 4]))) id
  (([[1, 2, -2, 0, -1, 1, 0], [1, -2, 2, -16, 0, 0, 1], [8, 2, -2, 3, -1, 0, 0]], [10, 14, -2], [-2, 3, -3, 4, -1, 0, 0], 0), ["=", "=", "="], "max", [], [])
#guard gives (sef (build [[1, 2, 0, 1], [1, -2, 16, 0], [8, 2, -3, 1]] [10, 14, -2] [-2, 3, -4, 1] 0 "max" none (some [2, 1]))) id
  (([[1, -1, 2, -2, 0, 1], [1, -1, -2, 2, 16, 0], [8, -8, 2, -2, -3, 1]], [10, 14, -2], [-2, 2, 3, -3, -4, 1], 0), ["=", "=", "="], "max", [], [])
#guard gives (sef (build [[0, 0, 1], [1, 0, 0], [0, 1, 0]] [10, 14, -2] [2, 3, 4] 0 "max" none (some [2]) (some [3, 1]))) id
  (([[0, 0, 0, -1], [-1, 0, 0, 0], [0, 1, -1, 0]], [10, 14, -2], [-2, 3, -3, -4], 0), ["=", "=", "="], "max", [], [])

/-! ### `linear/test_simplex.py` -/

def runSimplex (p : Except PyErr Prog) (basis : List ℤ) :=
  p.bind fun p => (same p.lp (simplex 100 p.lp basis)).map answer

#guard gives (runSimplex (build [[-1, 2, 4, 2, -1, 1, 0, 0], [0, 1, 0, 1, 1, 0, 1, 0], [0, 5, 1, 2, 0, 0, 0, 1]] [6, 1, 7] [-1, 8, 5, 5, 0, 0, 0, 0] (-14)) [6, 7, 8]) id
  (some [4, 1, 2, 0, 0, 0, 0, 0], some [1, 2, 3], [[1, 1, 1]])
#guard gives (runSimplex (build [[2, 1, 1, 1, 0, 0], [4, 2, 3, 0, 1, 0], [2, 5, 5, 0, 0, 1]] [14, 28, 30] [1, 2, -1, 0, 0, 0]) [4, 5, 6]) id
  (some [5, 4, 0, 0, 0, 0], some [1, 2, 5], [[0.125, 0, 0.375]])
#guard gives (runSimplex (build [[2, 1, 1, 0, 0], [2, 3, 0, 1, 0], [3, 1, 0, 0, 1]] [18, 42, 24] [3, 2, 0, 0, 0]) [3, 4, 5]) id
  (some [3, 12, 0, 0, 3], some [1, 2, 5], [[1.25, 0.25, 0]])
#guard gives (runSimplex (build [[1, 1, -3, 1, 2], [0, 1, -2, 2, -2], [-2, -1, 4, 1, 0]] [7, -2, -3] [-1, 0, 3, 7, -1]) [3, 4, 5]) id
  (none, none, [[36, 0, 14, 13, 0], [0.5, 1, 0.5, 0, 0]])
#guard gives (runSimplex (build [[1, -2, -4, -2, 1, -1, 0, 0], [0, -1, 0, -1, -1, 0, -1, 0], [0, -5, -1, -2, 0, 0, 0, -1]] [-6, -1, -7] [-1, 8, 5, 5, 0, 0, 0, 0] (-14)) [6, 7, 8]) id
  (some [4, 1, 2, 0, 0, 0, 0, 0], some [1, 2, 3], [[-1, -1, -1]])
#guard gives (runSimplex (build [[2, 1, 1, 0, 0], [2, 3, 0, 1, 0], [3, 1, 0, 0, 1]] [18, 42, 24] [3, 2, 0, 0, 0]) [1, 2, 5]) id
  (some [3, 12, 0, 0, 3], some [1, 2, 5], [[1.25, 0.25, 0]])
#guard gives (runSimplex (build [[1, 0, 0.75, -0.25, 0], [0, 1, -0.5, 0.5, 0], [0, 0, -1.75, 0.25, 1]] [3, 12, 3] [0, 0, -1.25, -0.25, 0] 33) [1, 2, 5]) id
  (some [3, 12, 0, 0, 3], some [1, 2, 5], [[0, 0, 0]])

def simplexOf (p : Except PyErr Prog) (basis : List ℤ) := p.bind fun p => (simplex 100 p.lp basis).1.map answer

#guard raises (simplexOf (build [[2, -1, -2, 1, 0, 0], [2, -3, -1, 0, 1, 0], [-1, 1, 1, 0, 0, 1]] [4, -5, -1] [1, -1, 1, 0, 0, 0]) [4, 5, 6]) .arithmeticError
#guard raises (simplexOf (build [[4, 10, -6, -2], [-2, 2, -4, 1], [-7, -2, 0, 4]] [6, 5, 3] [1, 1, 1, 1]) [1, 2, 3]) .arithmeticError
#guard raises (simplexOf (build [[1, 1, 1], [1, 0, 0], [0, 1, 0]] [1, 2, 3] [1, 1, 1]) [1, 2, 3]) .arithmeticError
#guard raises (simplexOf (build [[3, 4, 1, 0, 0], [4, 2, 0, 1, 0], [1, 1, 0, 0, -1]] [12, 8, 4] [4, 3, 0, 0, 0]) [3, 4, 5]) .arithmeticError

/-! ### `linear/test_simplex_iteration.py` -/

/-- What one iteration returns: the solution, the basis and the arrays of the program. -/
def iteration (p : Except PyErr Prog) (basis : List ℤ) :
    Except PyErr ((Option (List ℚ) × Option (List ℤ)) × List (List ℚ) × List ℚ × List ℚ × ℚ) :=
  p.bind fun p => (simplexIteration p.lp basis).map fun
    | .optimal x l C => ((some (List.ofFn x), some l), rows C.A, List.ofFn C.b, List.ofFn C.c, C.z)
    | .unbounded _ _ C => ((none, none), rows C.A, List.ofFn C.b, List.ofFn C.c, C.z)
    | .next l C => ((none, some l), rows C.A, List.ofFn C.b, List.ofFn C.c, C.z)

def iterOne : Except PyErr Prog := build [[1, -1, 1, -1], [2, -1, 1, 0]] [-2, -1] [-1, 1, -2, 4]
def iterTwo : Except PyErr Prog := build [[1, 0, 0, 1], [0, 1, -1, 2]] [1, 3] [0, 0, -1, 3] 2

#guard gives (iteration iterOne [1, 2]) id ((none, some [2, 4]), [[1, 0, 0, 1], [0, 1, -1, 2]], [1, 3], [0, 0, -1, 3], 2)
#guard gives (iteration iterTwo [2, 4]) id ((some [0, 1, 0, 1], some [2, 4]), [[-2, 1, -1, 0], [1, 0, 0, 1]], [1, 1], [-3, 0, -1, 0], 5)
#guard gives (iteration iterOne [2, 1]) id ((none, some [2, 4]), [[1, 0, 0, 1], [0, 1, -1, 2]], [1, 3], [0, 0, -1, 3], 2)
#guard gives (iteration iterTwo [4, 2]) id ((some [0, 1, 0, 1], some [2, 4]), [[-2, 1, -1, 0], [1, 0, 0, 1]], [1, 1], [-3, 0, -1, 0], 5)
#guard raises (iteration iterOne [2, 3]) .valueError
#guard raises (iteration (build [[1, -1, 1, -1], [2, -1, 1, 0]] [-2, -1] [-1, 1, -2, 4] 0 "max" none none (some [1])) [1, 2]) .arithmeticError

/-! ### `linear/test_two_phase_simplex.py` (without the program of five rows, whose determinants take too long) -/

def runTwoPhase (p : Except PyErr Prog) := p.bind fun p => (same p.lp (twoPhase 100 p.lp)).map answer

#guard gives (runTwoPhase (build [[-1, -2, 1], [1, -1, 1]] [-1, 3] [2, -1, 2])) id (some [0, 4, 7], some [2, 3], [[-1, 3]])
#guard gives (runTwoPhase (build [[2, -1, -2, 1, 0, 0], [2, -3, -1, 0, 1, 0], [-1, 1, 1, 0, 0, 1]] [4, -5, -1] [1, -1, 1, 0, 0, 0])) id
  (none, none, [[0.25, 0.25, 1]])
#guard gives (runTwoPhase (build [[4, 10, -6, -2], [-2, 2, -4, 1], [-7, -2, 0, 4]] [6, 5, 3] [1, 1, 1, 1])) id
  (none, none, [[5 / 18, -1, 7 / 18]])
#guard gives (runTwoPhase (build [[1, 1, 1], [1, 0, 0], [0, 1, 0]] [1, 2, 3] [1, 1, 1])) id (none, none, [[1, -1, -1]])
#guard gives (runTwoPhase (build [[3, 4, 1, 0, 0], [4, 2, 0, 1, 0], [1, 1, 0, 0, -1]] [12, 8, 4] [4, 3, 0, 0, 0])) id
  (none, none, [[0.2, 0.1, -1]])
#guard gives (runTwoPhase (build [[3, 5, 2, -1], [-2, -5, -3, -1]] [7, -3] [1, 0, 0, 0])) id (none, none, [[-1, -1.5]])

/-! ### `linear/test_solve.py` (without the two programs of 14 rows, whose determinants take too
long, and those with three and five free variables, which hold but take minutes) -/

def runSolve (p : Except PyErr Prog) := p.bind fun p => solve 100 p.lp

#guard gives (runSolve (build [[2, 1], [2, 3], [3, 1]] [18, 42, 24] [3, 2] 0 "max" (some ["<=", "<=", "<="]))) id (some [3, 12])
#guard gives (runSolve (build [[-1, 2, 4, 2, -1], [0, 1, 0, 1, 1], [0, 5, 1, 2, 0]] [6, 1, 7] [-1, 8, 5, 5, 0] (-14) "max" (some ["<=", "<=", "<="]))) id (some [4, 1, 2, 0, 0])
#guard gives (runSolve (build [[-1, 2, 4, 2, -1, 1, 0, 0], [0, 1, 0, 1, 1, 0, 1, 0], [0, 5, 1, 2, 0, 0, 0, 1]] [6, 1, 7] [1, -8, -5, -5, 0, 0, 0, 0] (-14) "min")) id
  (some [4, 1, 2, 0, 0, 0, 0, 0])
#guard gives (runSolve (build [[1, 1]] [5] [1, 0] 0 "max" (some ["<="]) (some [1]))) id (some [5, 0])
#guard gives (runSolve (build [[-1, 2, 4, 2, -1, 1, 0, 0], [0, 1, 0, 1, 1, 0, 1, 0], [0, 5, 1, 2, 0, 0, 0, 1]] [6, 1, 7] [-1, 8, 5, 5, 0, 0, 0, 0] (-14))) id
  (some [4, 1, 2, 0, 0, 0, 0, 0])

/-! ### `linear/test_to_canonical_form.py` -/

def canonical (p : Except PyErr Prog) (basis : List ℤ) :=
  p.bind fun p => (toCanonicalForm p.lp basis).map fun C => (rows C.A, List.ofFn C.b, List.ofFn C.c, C.z)

def canonOne : Except PyErr Prog := build [[1, 1, 1, 0, 0], [2, 1, 0, 1, 0], [-1, 1, 0, 0, 1]] [6, 10, 4] [2, 3, 0, 0, 0]
def canonTwo : Except PyErr Prog := build [[1, 2, 3], [4, 5, 6]] [1, 2] [1, 2, 3]

#guard gives (canonical canonOne [1, 2, 4]) id
  ([[1, 0, 0.5, 0, -0.5], [0, 1, 0.5, 0, 0.5], [0, 0, -1.5, 1, 0.5]], [1, 5, 3], [0, 0, -2.5, 0, -0.5], 17)
#guard gives (canonical canonOne [1, 3, 5]) id
  ([[1, 0.5, 0, 0.5, 0], [0, 0.5, 1, -0.5, 0], [0, 1.5, 0, 0.5, 1]], [5, 1, 9], [0, 2, 0, -1, 0], 10)
#guard [[0, 1, 3], [1, 5], [0, 1], [2, 2]].all fun l => raises (canonical canonTwo l) .valueError
#guard raises (canonical (build [[1, 1, 1, 0, 0], [2, 1, 0, 1, 0], [-1, 1, 0, 0, 1]] [6, 10, 4] [2, 3, 0, 0, 0] 0 "max" none (some [1, 3])) [1, 2, 3])
  .arithmeticError

/-! ### `linear/test_is_feasible.py` -/

def feasible (p : Except PyErr Prog) (x : List ℚ) := p.bind fun p => isFeasible p.lp x

def feasProg (s : ℚ) (q : Option (List String)) (free : Option (List ℤ)) : Except PyErr Prog :=
  build ([[1, 2, 3], [4, 5, 6], [7, 8, 9]].map fun r : List ℚ => r.map (s * ·)) [6, 15, 24] [100, 200, 300] 5 "min" q free

#guard gives (feasible (feasProg 1 none none) [1, 1, 1]) id true
#guard gives (feasible (feasProg 1 none none) [-1, 0.5, 100]) id false
#guard gives (feasible (feasProg 1 (some [">=", ">=", ">="]) none) [1, 1, 1]) id true
#guard gives (feasible (feasProg 1 (some [">=", ">=", ">="]) none) [2, 2, 2]) id true
#guard gives (feasible (feasProg 1 (some [">=", ">=", ">="]) none) [2, 2, -2]) id false
#guard gives (feasible (feasProg 1 (some ["<=", "<=", "<="]) (some [1])) [1, 1, 1]) id true
#guard gives (feasible (feasProg 1 (some ["<=", "<=", "<="]) (some [1])) [-10, 1, 1]) id true
#guard gives (feasible (feasProg 1 (some ["<=", "<=", "<="]) (some [1])) [-10, 2, -2]) id false
#guard gives (feasible (feasProg (-1) (some [">=", ">=", ">="]) (some [1, 3])) [-42, 1, -23]) id true
#guard gives (feasible (feasProg (-1) (some [">=", ">=", ">="]) (some [1, 3])) [-10, 0, -1]) id true
#guard gives (feasible (feasProg (-1) (some [">=", ">=", ">="]) (some [1, 3])) [-10, -2, -2]) id false
#guard raises (feasible (feasProg 1 none none) [1]) .valueError
#guard raises (feasible (feasProg 1 none none) [1, 2, 3, 4, 5]) .valueError
#guard gives (feasible (build [[1, 2], [-1, 0], [0, -1], [-3, -3]] [1, 0, 2, -6] [1, 1] 0 "max" (some ["<=", "<=", "<=", "<="])) [-5, 6]) id false

def feasTwo : Except PyErr Prog := build [[1, 2], [1, 1], [1, -1]] [2, 2, 0.5] [2, 1] 0 "max" (some ["<=", "<=", "<="])

#guard gives (feasible feasTwo [0, 1]) id true
#guard gives (feasible feasTwo [1, 0.5]) id true
#guard gives (feasible feasTwo [2, 1]) id false
#guard gives (feasible feasTwo [0.001, 2]) id false

/-! ### `linear/test_verify_infeasibility.py` -/

def infeasible (p : Except PyErr Prog) (y : List ℚ) := p.bind fun p => verifyInfeasibility p.lp y

def ints (a b : ℤ) : List ℚ := (List.range (b - a).toNat).map fun k : ℕ => ((a + k : ℤ) : ℚ)

def infOne (q : Option (List String)) : Except PyErr Prog :=
  build [[-2, -1, 0, -1, 0], [1, 1, 2, 0, -1]] [1, 3] [2, 1, 3, 0, 0] 0 "max" q

#guard (ints (-50) 0).all fun t => (ints 2 7).all fun u => gives (infeasible (infOne none) [t / u, 0]) id true
#guard (ints (-5) 6).all fun i => (ints (-5) 6).all fun j =>
  (j == 0 && decide (i < 0)) || gives (infeasible (infOne none) [i, j]) id false
#guard ["<=", ">=", "="].all fun p => ["<=", ">=", "="].all fun q =>
  (p == "=" && q == "=") || raises (infeasible (infOne (some [p, q])) [0, 0]) .arithmeticError
#guard (ints (-10) 11).all fun i => (ints (-10) 11).all fun j =>
  gives (infeasible (build [[2, 1, 1], [1, 1, 1]] [7, 5] [1, 0, 2]) [i, j]) id false
#guard (ints (-20) 24).all fun b0 => (ints (-20) 0).all fun b1 => (ints 0 20).all fun k =>
  gives (infeasible (build [[6, 4], [3, 0]] [b0 / 4, b1 / 4] [1, 1]) [0, 1 + k / 5]) id true
#guard (ints (-20) 24).all fun b0 => (ints 0 24).all fun b1 => !decide (b0 - 2 * b1 < 0) ||
  [0, 10, 49].all fun k => gives (infeasible (build [[6, 4], [3, 0]] [b0 / 4, b1 / 4] [1, 1]) [1 + k / 10, -2 * (1 + k / 10)]) id true

/-! ### `linear/test_is_basis.py`, `linear/test_compute_basic_solution.py` -/

def basisProg (q : Option (List String)) : Except PyErr Prog :=
  build [[2, 1, 2, -1, 0, 0], [1, 0, -1, 2, 1, 0], [3, 0, 3, 1, 0, 1]] [2, 1, 1] [1, 1, 1, 1, 1, 1] 0 "max" q

#guard [[2, 5, 6], [1, 2, 3], [1, 5, 6]].all fun l =>
  gives ((basisProg (some ["<=", "<=", "<="])).bind fun p => isBasis p.lp l) id true
#guard [[1, 3, 5], [1, 6], [1], [2, 5, -1], [2, 5, 100], [2, 6, 6]].all fun l =>
  gives ((basisProg (some ["<=", "<=", "<="])).bind fun p => isBasis p.lp l) id false
#guard gives ((basisProg none).bind fun p => (computeBasicSolution p.lp [1, 5, 6]).map fun x => List.ofFn x) id [1, 0, 0, 0, 0, -2]
#guard gives ((basisProg none).bind fun p => (computeBasicSolution p.lp [2, 5, 6]).map fun x => List.ofFn x) id [0, 2, 0, 0, 1, 1]

/-! ### `integer/test_relax.py` (`integer/test_branch_and_bound.py` needs determinants that take too long) -/

#guard gives ((build [[1, 2, 3, 4], [3, 5, 7, 9]] [-9, 7] [1, 7, 1, 5] 25 "min" (some ["<=", ">="]) (some [2]) (some [1])).bind fun p =>
  (relax ⟨p, none⟩).map fun q => attributes q.lp) id
  (([[1, 2, 3, 4], [3, 5, 7, 9]], [-9, 7], [1, 7, 1, 5], 25), ["<=", ">="], "min", [2], [1])

/-! ### `linear/test_str.py` -/

def text (p : Except PyErr Prog) := p.bind fun p => (reprText p.lp).map String.ofList

#guard gives (text (build [[1, 1, 0], [5, 7, -3], [-7, -8, 2]] [1, 15, 1] [5, 5, 35] (-123) "min" (some [">=", "=", "="]))) id
  "Min [5. 5. 35.]x - 123.\nSubject To:\n\n[ 1.   1.   0.]     ≥   [ 1.]\n[ 5.   7.  -3.]x    =   [15.]\n[-7.  -8.   2.]     =   [ 1.]\nx ≥ 0\n"
#guard gives (text (build [[2, -1.125, -2, 1, 0, 0.628, 1, 0, 0], [-2, 3.984951, 1, 0, -1, 0, 0, 1, 0], [1, -1.1, -1, 0, 0, -1, 0, 0, 1]] [4, -5.1, 1.75] [0, 0, 0, 0, 0, 0, -1, -1, -1])) id
  "Max [0. 0. 0. 0. 0. 0. -1. -1. -1.]x\nSubject To:\n\n[ 2.  -1.125  -2.  1.   0.   0.628  1.  0.  0.]     =   [ 4.  ]\n[-2.   3.985   1.  0.  -1.   0.     0.  1.  0.]x    =   [-5.1 ]\n[ 1.  -1.1    -1.  0.   0.  -1.     0.  0.  1.]     =   [ 1.75]\nx ≥ 0\n"
#guard gives (text (build [[2, -1, -2, 1, 0, 0, 1, 0, 0], [-2, 3, 1, 0, -1, 0, 0, 1, 0], [1, -1, -1, 0, 0, -1, 0, 0, 1]] [4, 5, 1] [0, 0, 0, 0, 0, 0, -1, -1, -1] (-2) "min" (some [">=", "=", "="]))) id
  "Min [0. 0. 0. 0. 0. 0. -1. -1. -1.]x - 2.\nSubject To:\n\n[ 2.  -1.  -2.  1.   0.   0.  1.  0.  0.]     ≥   [4.]\n[-2.   3.   1.  0.  -1.   0.  0.  1.  0.]x    =   [5.]\n[ 1.  -1.  -1.  0.   0.  -1.  0.  0.  1.]     =   [1.]\nx ≥ 0\n"
#guard gives (text (build [[1, 100000.123456789, -0.0123456789], [0, -10.223456789, -6.00000567], [-1.12345, -7.9995, 90.56]] [-600.01234567, 15.00000005, 0.999999] [5, 5, 35] 8 "min" (some [">=", "<=", "<="]))) id
  "Min [5. 5. 35.]x + 8.\nSubject To:\n\n[ 1.     100000.123  -0.01235]     ≥   [-600.012]\n[ 0.        -10.223  -6.0    ]x    ≤   [  15.0  ]\n[-1.123      -8.0    90.56   ]     ≤   [   1.0  ]\nx ≥ 0\n"
#guard gives (text (build [[1, 2, 3, 4, 5, 6, 7, 8, 9, 10, 11, 12, 13], [0, 1, 0, 1, 0, 1, 0, 1, 0, 1, 0, 1, 1]] [1, 2] [4.4877, 5.123456, 6.14564, 7.444, 88779798, 9, 11, 12, 13e10, 45e13, 1.1547841e-7, 1, 12] 125.1549879465 "min" none none (some [11, 13]))) id
  "Min [4.488 5.123 6.146 7.444 88779798. 9. 11. 12. 1.300e+11 4.500e+14 1.155e-07 1. 12.]x + 125.155\nSubject To:\n\n[1.  2.  3.  4.  5.  6.  7.  8.  9.  10.  11.  12.  13.]     =   [1.]\n[0.  1.  0.  1.  0.  1.  0.  1.  0.   1.   0.   1.   1.]x    =   [2.]\nx₁₁, x₁₃ ≤ 0\nx₁, x₂, x₃, x₄, x₅, x₆, x₇, x₈, x₉, x₁₀, x₁₂ ≥ 0\n"
#guard gives (text (build [[1.123e30, 456, 1.123555557894e13], [1e-5, 6.123e-8, -6.123456789456], [-1e-10, 7e17, 1.254e11], [1e-11, 5.499999e-4, -10.1248683e28]] [-600e23, 19e13, 1.87e-4, 799.456] [1, 2, 3] (-2) "min")) id
  "Min [1. 2. 3.]x - 2.\nSubject To:\n\n[ 1.123e+30  456.          1.124e+13]     =   [ -6.000e+25]\n[ 1.000e-05    6.123e-08  -6.123    ]     =   [  1.900e+14]\n[-1.000e-10    7.000e+17   1.254e+11]x    =   [  0.000187 ]\n[ 0.           0.00055    -1.012e+29]     =   [799.456    ]\nx ≥ 0\n"
#guard gives (text (build [[0.999e-4, -0.0000012335, -0.0000012336], [0.00000499999, 123456789.0000012336, 234567890123.4567890123]] [1.0000012336, 0.0000012336] [-123456789123456789, 0.000003456789, 0.999e-11] (-0.0000000059999999999) "min")) id
  "Min [-1.235e+17 3.457e-06 0.]x - 6.000e-09\nSubject To:\n\n[9.990e-05         -1.234e-06  -1.234e-06]     =   [1.0      ]\n[5.000e-06  123456789.0         2.346e+11]x    =   [1.234e-06]\nx ≥ 0\n"

end Conformance
end Pytimize
