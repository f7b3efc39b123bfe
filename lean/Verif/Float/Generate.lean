/-
Model of what happens to the numbers of a formulation after its expressions are evaluated: the text of
`Formulation/Equation.lean` and `Formulation/Program.lean` with Python's numbers in equations and doubles in arrays.
The functions are those of the exact model except for the conversions and roundings marked below.
-/
import Verif.Float.EquationInt
import Verif.Formulation.Program

namespace Pytimize
namespace Floating
open Formulation
open LinProg (Ineq Obj)

/-- A `LinearConstraint`, `_constraint.py:6-22`: the coefficients are an array of doubles, the constant is the Python
number that was computed. -/
structure FLinCon where
  coeffs : List ℚ
  op : Ineq
  const : PyNum

/-- What a comparison can return. -/
inductive FCon
  | lin (c : FLinCon)
  | sign (c : VarCon)
  | bool (b : Bool)

section
variable (R : Rounding)

/-- `coefficients`, `_equation.py:115-125`: every number is converted when it is written into the array. -/
def fcoefficients (d : Dict ℕ PyNum) : Option (List ℚ) :=
  match d with
  | [] => none
  | _ :: _ =>
    some (d.foldl (fun a t => a.set t.1 (t.2.toFloat R)) (List.replicate ((d.map Prod.fst).foldl max 0 + 1) 0))

/-- Entrywise sum of two arrays of the same length, rounded. -/
def faddArr (a b : List ℚ) : List ℚ := List.zipWith (fun x y => R.rd (x + y)) a b

/-- `_broadcast_subtract`, `_equation.py:92-109`. -/
def fbroadcastSubtract : Option (List ℚ) → Option (List ℚ) → Except PyErr (Option (List ℚ))
  | none, b => .ok b
  | some a, none => .ok (some a)
  | some a, some b =>
    let b := b.map fun q => -q
    if a.length = b.length then .ok (some (faddArr R a b))
    else
      let (s, l) := if a.length > b.length then (b, a) else (a, b)
      match padRight (some s) l.length with
      | .error e => .error e
      | .ok s => .ok (some (faddArr R l s))

/-- `a - b` on Python's numbers. -/
def pySub : PyNum → PyNum → PyNum
  | .int j, .int k => .int (j - k)
  | a, b => .float (R.rd (a.toFloat R - b.toFloat R))

/-- `_generate_constraint`, `_equation.py:78-90`, on two equations. -/
def fgenerate (op : Ineq) (e f : GEqn PyNum) : Except PyErr FLinCon :=
  match fbroadcastSubtract R (fcoefficients R e.terms) (fcoefficients R f.terms) with
  | .error r => .error r
  | .ok none => .error .valueError
  | .ok (some c) => .ok ⟨c, op, pySub R f.const e.const⟩

/-- `e <= w`, `e >= w`, `e == w` for an equation `e`, `_equation.py:69-90`. -/
def fcmpEqn (h : GHeap PyNum) (op : Ineq) (e : GEqn PyNum) : GVal PyNum → Except PyErr FCon
  | .num q =>
    match fgenerate R op e ⟨[], q⟩ with
    | .error r => .error r
    | .ok c => .ok (.lin c)
  | .eqn b =>
    match fgenerate R op e (gderef (pyOps R) h b) with
    | .error r => .error r
    | .ok c => .ok (.lin c)
  | .var _ => .error .attributeError
  | .none => .error .attributeError

/-- `v <= w`, `v >= w`, `v == w` for a `Variable`, `_variable.py:71-90`. -/
def fcmpVar (h : GHeap PyNum) (op : Ineq) (k : ℕ) (w : GVal PyNum) : Except PyErr FCon :=
  match op, w with
  | .le, .num q =>
    if q.val = 0 then .ok (.sign ⟨none, some [(k : ℤ) + 1]⟩) else fcmpEqn R h op ⟨[(k, .int 1)], .int 0⟩ (.num q)
  | .ge, .num q =>
    if q.val = 0 then .ok (.sign ⟨some [(k : ℤ) + 1], none⟩) else fcmpEqn R h op ⟨[(k, .int 1)], .int 0⟩ (.num q)
  | op, w => fcmpEqn R h op ⟨[(k, .int 1)], .int 0⟩ w

/-- `v op w`. Python compares an `int` with a `float` without rounding. -/
def fcompare (h : GHeap PyNum) (op : Ineq) : GVal PyNum → GVal PyNum → Except PyErr FCon
  | .num p, .num q => .ok (.bool (relB op p.val q.val))
  | .eqn a, w => fcmpEqn R h op (gderef (pyOps R) h a) w
  | .var k, w => fcmpVar R h op k w
  | v, .eqn b => fcmpEqn R h (flip op) (gderef (pyOps R) h b) v
  | v, .var k => fcmpVar R h (flip op) k v
  | v, w => if op = .eq then .ok (.bool (decide (v.read PyNum.val = w.read PyNum.val))) else .error .typeError

/-- `e op f` for two expressions. -/
def fcompareExpr (h : GHeap PyNum) (op : Ineq) (e f : GExpr PyNum) : Except PyErr (GHeap PyNum × FCon) :=
  match geval (pyOps R) h e with
  | .error r => .error r
  | .ok (h, v) =>
    match geval (pyOps R) h f with
    | .error r => .error r
    | .ok (h, w) =>
      match fcompare R h op v w with
      | .error r => .error r
      | .ok c => .ok (h, c)

/-- `minimize` and `maximize`, `linear/_objective.py:59-70`; the constant keeps its type. -/
def foptimize (pk : Package) (o : Obj) (h : GHeap PyNum) : GVal PyNum → Except PyErr Objective
  | .num q => .ok ⟨pk, none, q.val, o⟩
  | .eqn a => .ok ⟨pk, fcoefficients R (gderef (pyOps R) h a).terms, (gderef (pyOps R) h a).const.val, o⟩
  | .var _ => .error .attributeError
  | .none => .error .attributeError

/-- `b = np.r_[b, constraint.constant]`, `_objective.py:34`: the constant is converted. -/
def FCon.toCon : FCon → Con
  | .lin c => .lin ⟨c.coeffs, c.op, c.const.toFloat R⟩
  | .sign c => .sign c
  | .bool b => .bool b

/-- The arguments of `subject_to`, evaluated left to right. -/
def fevalCons (h : GHeap PyNum) : List (Ineq × GExpr PyNum × GExpr PyNum) → Except PyErr (GHeap PyNum × List FCon)
  | [] => .ok (h, [])
  | (op, e, f) :: l =>
    match fcompareExpr R h op e f with
    | .error r => .error r
    | .ok (h, c) =>
      match fevalCons h l with
      | .error r => .error r
      | .ok (h, cs) => .ok (h, c :: cs)

/-- `maximize(obj).subject_to(e1 <= f1, e2 >= f2, ...)`, `_objective.py:21-41`, `:59-70`. `subject_to` only copies
numbers. -/
def fformulate (pk : Package) (o : Obj) (h : GHeap PyNum) (obj : GExpr PyNum)
    (cons : List (Ineq × GExpr PyNum × GExpr PyNum)) : Except PyErr Abstract :=
  match geval (pyOps R) h obj with
  | .error r => .error r
  | .ok (h, v) =>
    match foptimize R pk o h v with
    | .error r => .error r
    | .ok O =>
      match fevalCons R h cons with
      | .error r => .error r
      | .ok (_, cs) => subjectTo O (cs.map (FCon.toCon R))

end

end Floating
end Pytimize
