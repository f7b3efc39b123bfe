/-
Model of `pytimize/programs/_linear.py`: the program object, its construction and the operations
that do not need linear algebra.

A program with `m` constraints and `n` variables is a value of type `LP m n`; shape-changing methods
change the type. Arrays are functions on `Fin`. The dictionary `_inequality_indices` (absent key = `=`)
is the total function `ineq`. `_steps` (the text log) is in `LP/Steps.lean`.
-/
import Mathlib.LinearAlgebra.Matrix.NonsingularInverse
import Mathlib.Data.Rat.Defs
import Mathlib.Data.List.Sort
import Mathlib.Data.Fin.Tuple.Basic
import Verif.Comparator

namespace Pytimize
namespace LinProg

/-- `"max"` / `"min"`. -/
inductive Obj | max | min
  deriving DecidableEq, Repr

/-- `"="`, `"<="`, `">="`. -/
inductive Ineq | eq | le | ge
  deriving DecidableEq, Repr

/-- The attributes of `LinearProgram` set in `_linear.py:133-145`. `free` and `neg` are zero-based. -/
structure LP (m n : ℕ) where
  A : Matrix (Fin m) (Fin n) ℚ
  b : Fin m → ℚ
  c : Fin n → ℚ
  z : ℚ
  objective : Obj
  ineq : Fin m → Ineq
  free : List ℕ
  neg : List ℕ
  isSef : Bool

/-- A program together with its shape. -/
structure Prog where
  m : ℕ
  n : ℕ
  lp : LP m n

/-- An `IntegerProgram`, `_integer.py:12-31`. -/
structure IntProgram where
  prog : Prog
  integral : Option (List ℤ)

/-! ### Constructor -/

/-- Python values that can be given as `A`, `b`, `c`: numbers, lists, one- and two-dimensional numeric
arrays, anything else. -/
inductive PyVal
  | num (q : ℚ)
  | list (l : List PyVal)
  | nd1 (l : List ℚ)
  | nd2 (m n : ℕ) (f : Fin m → Fin n → ℚ)
  | other

/-- A float array of dimension one or two. -/
inductive Nd
  | d1 (l : List ℚ)
  | d2 (m n : ℕ) (f : Matrix (Fin m) (Fin n) ℚ)

/-- A list all of whose entries are numbers. -/
def nums : List PyVal → Option (List ℚ)
  | [] => some []
  | .num q :: l => (nums l).map (q :: ·)
  | _ :: _ => none

/-- A list all of whose entries are lists of numbers. -/
def rowsOf : List PyVal → Option (List (List ℚ))
  | [] => some []
  | .list r :: l =>
    match nums r with
    | none => none
    | some q => (rowsOf l).map (q :: ·)
  | _ :: _ => none

/-- `__to_ndarray`, `_linear.py:1653-1691`. Lists mixing numbers and lists pass the loop but are
rejected by `np.array(source, dtype=float)`, also with `ValueError`. -/
def toNdarray : PyVal → Except PyErr Nd
  | .nd1 l => .ok (.d1 l)
  | .nd2 m n f => .ok (.d2 m n f)
  | .list l =>
    match nums l with
    | some q => .ok (.d1 q)
    | none =>
      match rowsOf l with
      | none => .error .valueError
      | some rows =>
        let n := (rows.headD []).length
        if h : ∀ r ∈ rows, r.length = n then
          .ok (.d2 rows.length n fun i j =>
            (rows[i])[j]'(by rw [Fin.getElem_fin, h _ (List.getElem_mem _)]; exact j.2))
        else .error .valueError
  | _ => .error .valueError

/-- A list of the given length as a vector, `__is_vector_of_size` (`_linear.py:1817-1826`). -/
def toVec (n : ℕ) (l : List ℚ) : Option (Fin n → ℚ) :=
  if h : l.length = n then some fun i => l[i]'(by rw [h]; exact i.2) else none

/-- Insertion sort: `list.sort()` on integers. -/
def sortInt (l : List ℤ) : List ℤ := l.insertionSort (· ≤ ·)

/-- The operators of `inequalities`. -/
def Ineq.parse (s : String) : Option Ineq :=
  if s = ">=" then some .ge else if s = "<=" then some .le else if s = "=" then some .eq else none

/-- The objective string. -/
def Obj.parse (s : String) : Option Obj :=
  if s = "max" then some .max else if s = "min" then some .min else none

/-- `__to_array_indexing`, `_linear.py:1788-1793`. -/
def toArrayIndexing (l : List ℤ) : List ℤ := l.map (· - 1)

/-- `__to_math_indexing`, `_linear.py:1781-1786`. -/
def toMathIndexing (l : List ℕ) : List ℤ := l.map fun i : ℕ => (i : ℤ) + 1

/-- The checks on one index list, `_linear.py:95-109`, on the zero-based list. -/
def indexListOk (l : List ℤ) (n : ℕ) : Bool :=
  l.isEmpty || (decide l.Nodup && l.all fun i => decide (0 ≤ i) && decide (i < n))

/-- The `inequalities` argument as a function of the row, `_linear.py:114-128`. -/
def ineqArg (m : ℕ) : Option (List String) → Option (Fin m → Ineq)
  | none => some fun _ => .eq
  | some l =>
    if h : l.length = m then
      if hp : ∀ i : Fin m, (Ineq.parse (l[i]'(by rw [h]; exact i.2))).isSome then
        some fun i => (Ineq.parse (l[i]'(by rw [h]; exact i.2))).get (hp i)
      else none
    else none

/-- `is_sef` as computed in `_linear.py:140-143` and `:867-870`. -/
def sefFlag {m : ℕ} (ineq : Fin m → Ineq) (free neg : List ℕ) (o : Obj) : Bool :=
  decide (∀ i, ineq i = .eq) && free.isEmpty && neg.isEmpty && decide (o = .max)

/-- `LinearProgram.__init__`, `_linear.py:21-145`. The default of an index list is `[]`. -/
def ctor (A b c : PyVal) (z : ℚ) (objective : String) (inequalities : Option (List String))
    (free neg : Option (List ℤ)) : Except PyErr Prog :=
  match toNdarray A, toNdarray b, toNdarray c with
  | .ok (.d2 m n A), .ok (.d1 b), .ok (.d1 c) =>
    match toVec m b, toVec n c with
    | some b, some c =>
      let fr := sortInt (toArrayIndexing (free.getD []))
      let ne := sortInt (toArrayIndexing (neg.getD []))
      if !indexListOk fr n then .error .valueError
      else if !indexListOk ne n then .error .valueError
      else if fr.any fun i => decide (i ∈ ne) then .error .valueError
      else
        match ineqArg m inequalities with
        | none => .error .valueError
        | some q =>
          match Obj.parse objective with
          | none => .error .valueError
          | some o =>
            let fr := fr.map Int.toNat
            let ne := ne.map Int.toNat
            .ok ⟨m, n, A, b, c, z, o, q, fr, ne, sefFlag q fr ne o⟩
    | _, _ => .error .valueError
  | _, _, _ => .error .valueError

/-! ### Accessors -/

variable {m n : ℕ}

/-- `positive_variables`, `_linear.py:2087-2105`. -/
def LP.positiveVariables (P : LP m n) : List ℤ :=
  toMathIndexing ((List.range n).filter fun i => !decide (i ∈ P.neg) && !decide (i ∈ P.free))

/-- `negative_variables`, `_linear.py:2074-2084`. -/
def LP.negativeVariables (P : LP m n) : List ℤ := toMathIndexing P.neg

/-- `free_variables`, `_linear.py:2108-2118`. -/
def LP.freeVariables (P : LP m n) : List ℤ := toMathIndexing P.free

/-! ### Feasibility and objective -/

/-- One constraint, as the user reads it. -/
def rowHolds : Ineq → ℚ → ℚ → Prop
  | .eq, v, b => v = b
  | .le, v, b => v ≤ b
  | .ge, v, b => b ≤ v

/-- Specification: `x` satisfies every constraint and every sign restriction exactly. -/
structure Feas (P : LP m n) (x : Fin n → ℚ) : Prop where
  rows : ∀ i, rowHolds (P.ineq i) ((P.A.mulVec x) i) (P.b i)
  negs : ∀ j : Fin n, (j : ℕ) ∈ P.neg → x j ≤ 0
  poss : ∀ j : Fin n, (j : ℕ) ∉ P.neg → (j : ℕ) ∉ P.free → 0 ≤ x j

/-- Specification: the objective at `x`. -/
def objVal (P : LP m n) (x : Fin n → ℚ) : ℚ := P.c ⬝ᵥ x + P.z

/-- The comparison of one row in the last loop of `is_feasible`, `_linear.py:1353-1367`. -/
def rowOk : Ineq → ℚ → ℚ → Bool
  | .le, v, b => !decide (v > b)
  | .ge, v, b => !decide (v < b)
  | .eq, v, b => Comparator.mathIsClose v b

/-- `is_feasible`, `_linear.py:1299-1369`, on a vector of the right size. -/
def isFeasibleVec (P : LP m n) (x : Fin n → ℚ) : Bool :=
  if P.isSef then
    decide (∀ j, Comparator.pyCmp (x j) .ge 0 = true) &&
    decide (∀ i, Comparator.npIsClose ((P.A.mulVec x) i) (P.b i) = true)
  else
    decide (∀ j : Fin n, if (j : ℕ) ∈ P.neg then x j ≤ 0 else if (j : ℕ) ∉ P.free then x j ≥ 0 else True) &&
    decide (∀ i, rowOk (P.ineq i) ((P.A.mulVec x) i) (P.b i) = true)

/-- `is_feasible`, `_linear.py:1299-1369`. -/
def isFeasible (P : LP m n) (x : List ℚ) : Except PyErr Bool :=
  match toVec n x with
  | none => .error .valueError
  | some v => .ok (isFeasibleVec P v)

/-- `evaluate`, `_linear.py:1492-1512`. -/
def evaluate (P : LP m n) (x : List ℚ) : Except PyErr ℚ :=
  match toVec n x with
  | none => .error .valueError
  | some v => .ok (P.c ⬝ᵥ v + P.z)

/-- `value_of`, `_linear.py:1514-1535`. -/
def valueOf (P : LP m n) (x : List ℚ) : Except PyErr ℚ :=
  match isFeasible P x with
  | .error e => .error e
  | .ok false => .error .valueError
  | .ok true => evaluate P x

/-! ### Adding constraints and variables -/

/-- `add_constraint`, `_linear.py:407-460`: every check precedes the first assignment, so a failing
call changes nothing even in place. -/
def addConstraint (P : LP m n) (coefficients : List ℚ) (inequality : String) (value : ℚ) :
    Except PyErr (LP (m + 1) n) :=
  match toVec n coefficients with
  | none => .error .valueError
  | some a =>
    match Ineq.parse inequality with
    | none => .error .valueError
    | some q => .ok
        { P with
          A := (Fin.snoc (α := fun _ => Fin n → ℚ) P.A a : Fin (m + 1) → Fin n → ℚ)
          b := (Fin.snoc (α := fun _ => ℚ) P.b value : Fin (m + 1) → ℚ)
          ineq := (Fin.snoc (α := fun _ => Ineq) P.ineq q : Fin (m + 1) → Ineq)
          isSef := if q = .eq then P.isSef else false }

/-- The list bookkeeping at the start of `add_variable`, `_linear.py:504-509`. -/
def addVariableMark (P : LP m n) (free negative : Bool) : LP m n :=
  if free then { P with free := P.free ++ [n], isSef := false }
  else if negative then { P with neg := P.neg ++ [n], isSef := false }
  else P

/-- `add_variable`, `_linear.py:462-517`. -/
def addVariable (P : LP m n) (coefficient : ℚ) (column : Option (List ℚ)) (free negative : Bool) :
    Except PyErr (LP m (n + 1)) :=
  if free && negative then .error .valueError
  else
    let Q := addVariableMark P free negative
    match toVec m (column.getD (List.replicate m 0)) with
    | none => .error .valueError
    | some a => .ok
        { A := fun i => (Fin.snoc (α := fun _ => ℚ) (Q.A i) (a i) : Fin (n + 1) → ℚ)
          b := Q.b
          c := (Fin.snoc (α := fun _ => ℚ) Q.c coefficient : Fin (n + 1) → ℚ)
          z := Q.z, objective := Q.objective, ineq := Q.ineq, free := Q.free, neg := Q.neg
          isSef := Q.isSef }

/-- `add_variable(..., in_place=True)` when it raises: the receiver afterwards. The index lists have
already been extended when `np.c_` rejects a column of the wrong length. -/
def addVariableFailed (P : LP m n) (free negative : Bool) : LP m n :=
  if free && negative then P else addVariableMark P free negative

/-! ### Dual -/

/-- `dual`, `_linear.py:822-872`. -/
def dual (P : LP m n) : LP n m :=
  let o : Obj := if P.objective = .max then .min else .max
  let free := (List.range m).filter fun i => if h : i < m then decide (P.ineq ⟨i, h⟩ = .eq) else false
  let neg := (List.range m).filter fun i => if h : i < m then
      (decide (P.ineq ⟨i, h⟩ = .ge) && decide (P.objective = .max)) ||
      (decide (P.ineq ⟨i, h⟩ = .le) && decide (P.objective = .min)) else false
  let ineq : Fin n → Ineq := fun j =>
    if (j : ℕ) ∈ P.neg then (if P.objective = .max then .le else .ge)
    else if (j : ℕ) ∉ P.free then (if P.objective = .max then .ge else .le)
    else .eq
  { A := P.A.transpose, b := P.c, c := P.b, z := 0, objective := o, ineq := ineq, free := free,
    neg := neg, isSef := sefFlag ineq free neg o }

/-! ### Well-formed programs -/

/-- What the constructor guarantees. -/
structure WF (P : LP m n) : Prop where
  freeSorted : P.free.Pairwise (· < ·)
  negSorted : P.neg.Pairwise (· < ·)
  freeLt : ∀ j ∈ P.free, j < n
  negLt : ∀ j ∈ P.neg, j < n
  disj : ∀ j ∈ P.free, j ∉ P.neg
  sef : P.isSef = sefFlag P.ineq P.free P.neg P.objective

end LinProg
end Pytimize
