/-
Model of `formulations/linear/_objective.py`, `formulations/linear/_abstract.py` and
`formulations/integer`: objectives, `subject_to`, `where` and the compiled program.

`__repr__` and `fill` of the objective have no body and are not modelled; `__repr__` of the abstract program is in
`Formulation/Text.lean`. The arrays handed to `LinearProgram` are
treated as values: what in-place methods of the compiled program do to them is outside this file.
-/
import Verif.Formulation.Equation
import Verif.LP.TwoPhase

namespace Pytimize
namespace Formulation
open LinProg (Ineq Obj Prog IntProgram PyVal ctor)

/-- Which of the two packages a class belongs to. -/
inductive Package | linear | integer
  deriving DecidableEq

/-- `ObjectiveFunction`, `linear/_objective.py:11-15`, and its subclass in `integer/_objective.py:7-8`. -/
structure Objective where
  package : Package
  c : Option (List ℚ)
  z : ℚ
  objective : Obj

/-- `minimize` and `maximize`, `linear/_objective.py:59-70`, `integer/_objective.py:11-22`. Values without the
attribute `coefficients` are rejected with `AttributeError` by the constructor. -/
def optimize (pk : Package) (o : Obj) (h : Heap) : Val → Except PyErr Objective
  | .num q => .ok ⟨pk, none, q, o⟩
  | .eqn a => .ok ⟨pk, coefficients (deref h a).terms, (deref h a).const, o⟩
  | .var _ => .error .attributeError
  | .none => .error .attributeError

/-- The class of a compiled program. -/
inductive Compiled
  | linear (p : Prog)
  | integer (p : IntProgram)

/-- `AbstractLinearProgram`, `_abstract.py:10-28`. -/
structure Abstract where
  A : List (List ℚ)
  b : List ℚ
  c : List ℚ
  z : ℚ
  objective : Obj
  ineqs : List Ineq
  neg : List ℤ
  pos : List ℤ
  program : Option Compiled
  recompile : Bool

/-- The constraints of `subject_to`, which must have the attributes of `LinearConstraint`. -/
def linOnly : List Con → Except PyErr (List LinCon)
  | [] => .ok []
  | .lin c :: l =>
    match linOnly l with
    | .error e => .error e
    | .ok r => .ok (c :: r)
  | _ :: _ => .error .attributeError

/-- The loop of `subject_to` building the rows, `_objective.py:30-34`. -/
def padRows (n : ℕ) : List LinCon → Except PyErr (List (List ℚ))
  | [] => .ok []
  | c :: l =>
    match padRight (some c.coeffs) n with
    | .error e => .error e
    | .ok r =>
      match padRows n l with
      | .error e => .error e
      | .ok rows => .ok (r :: rows)

/-- `subject_to`, `_objective.py:21-41`, inherited unchanged by the integer objective. `max` of no constraints
raises `ValueError`. -/
def subjectTo (o : Objective) (cons : List Con) : Except PyErr Abstract :=
  match linOnly cons with
  | .error e => .error e
  | .ok [] => .error .valueError
  | .ok cs =>
    let n := (cs.map fun c => c.coeffs.length).foldl max 0
    match padRows n cs with
    | .error e => .error e
    | .ok rows =>
      match padRight o.c n with
      | .error e => .error e
      | .ok c => .ok ⟨rows, cs.map LinCon.const, c, o.z, o.objective, cs.map LinCon.op, [], [], none, false⟩

/-- `_add_variable_constraint`, `_abstract.py:82-87`. -/
def addSigns (n : ℕ) (source : Option (List ℤ)) (target : List ℤ) : List ℤ :=
  match source with
  | none => target
  | some [] => target ++ (List.range n).map fun i : ℕ => (i : ℤ) + 1
  | some l => target ++ l

/-- The loop of `where`, `_abstract.py:37-43`. Other objects than `VariableConstraint` raise `AttributeError`
when they are reached. -/
def whereLoop (P : Abstract) : List Con → Abstract × Option PyErr
  | [] => (P, none)
  | .sign s :: l =>
    whereLoop { P with pos := addSigns P.c.length s.pos P.pos, neg := addSigns P.c.length s.neg P.neg } l
  | _ :: _ => (P, some .attributeError)

/-- `where`, `_abstract.py:36-58`. -/
def addWhere (P : Abstract) (l : List Con) : Abstract × Option PyErr :=
  match whereLoop P l with
  | (P, some e) => (P, some e)
  | (P, none) =>
    if ¬ P.pos.Nodup ∨ ¬ P.neg.Nodup then (P, some .valueError)
    else if ∃ i ∈ P.pos, i ∈ P.neg then (P, some .valueError)
    else ({ P with recompile := true }, none)

/-- `whereAllPositive`, `_abstract.py:60-67`. -/
def whereAllPositive (P : Abstract) : Abstract × Option PyErr :=
  if P.neg.length + P.pos.length > 0 then (P, some .valueError)
  else ({ P with pos := addSigns P.c.length (some []) P.pos, recompile := true }, none)

/-- `whereAllNegative`, `_abstract.py:69-76`. -/
def whereAllNegative (P : Abstract) : Abstract × Option PyErr :=
  if P.neg.length + P.pos.length > 0 then (P, some .valueError)
  else ({ P with neg := addSigns P.c.length (some []) P.neg, recompile := true }, none)

/-- `extend`, `_abstract.py:78-80`: nothing is extended, but the next use compiles again. -/
def extend (P : Abstract) : Abstract := { P with recompile := true }

/-- The list of free variables computed in `program`, `_abstract.py:92-95`. -/
def freeOf (P : Abstract) : List ℤ :=
  ((List.range P.c.length).map fun i : ℕ => (i : ℤ) + 1).filter fun i => i ∉ P.neg ++ P.pos

/-- The constructor call in `program`, `_abstract.py:97-106`. -/
def compile (P : Abstract) : Except PyErr Compiled :=
  let n := (P.A.headD []).length
  match ctor (.nd2 P.A.length n fun i j => (P.A[i]).getD j 0) (.nd1 P.b) (.nd1 P.c) P.z P.objective.name
      (some (P.ineqs.map Ineq.sym)) (some (freeOf P)) (some P.neg) with
  | .error e => .error e
  | .ok p => .ok (.linear p)

/-- The property `program`, `_abstract.py:89-109`: the cached program unless there is none or a sign condition
was added since. -/
def getProgram (P : Abstract) : Abstract × Except PyErr Compiled :=
  match P.program, P.recompile with
  | some q, false => (P, .ok q)
  | _, _ =>
    match compile P with
    | .error e => (P, .error e)
    | .ok q => ({ P with program := some q, recompile := false }, .ok q)

/-- `p.solve()` on a formulation: the attribute is looked up on the compiled program (`__getattr__`,
`_abstract.py:33-34`), whose method `solve` (`_linear.py:905-956`) is then called. A compiled `IntegerProgram` would
inherit the method. `fuel` bounds the iterations of the simplex method. -/
def solveFormulation (fuel : ℕ) (P : Abstract) : Abstract × Except PyErr (Option (List ℚ)) :=
  match getProgram P with
  | (P, .error e) => (P, .error e)
  | (P, .ok (.linear Q)) => (P, LinProg.solve fuel Q.lp)
  | (P, .ok (.integer I)) => (P, LinProg.solve fuel I.prog.lp)

/-- The calls a user can make on a formulation. -/
inductive Call
  | whereCall (l : List Con)
  | allPositive
  | allNegative
  | extend
  /-- read `program` (or any attribute, through `__getattr__`) -/
  | compile

/-- The effect of a call and the exception it raises. -/
def call (P : Abstract) : Call → Abstract × Option PyErr
  | .whereCall l => addWhere P l
  | .allPositive => whereAllPositive P
  | .allNegative => whereAllNegative P
  | .extend => (Formulation.extend P, none)
  | .compile =>
    match getProgram P with
    | (P, .ok _) => (P, none)
    | (P, .error e) => (P, some e)

/-- A sequence of calls, whatever exceptions they raise. -/
def calls (P : Abstract) : List Call → Abstract
  | [] => P
  | c :: l => calls (call P c).1 l

/-! ### The text a user writes -/

/-- The arguments of `subject_to`, written as comparisons of expressions and evaluated left to right. -/
def evalCons (h : Heap) : List (Ineq × Expr × Expr) → Except PyErr (Heap × List Con)
  | [] => .ok (h, [])
  | (op, e, f) :: l =>
    match compareExpr h op e f with
    | .error r => .error r
    | .ok (h, c) =>
      match evalCons h l with
      | .error r => .error r
      | .ok (h, cs) => .ok (h, c :: cs)

/-- `maximize(obj).subject_to(e1 <= f1, e2 >= f2, ...)`, `_objective.py:21-41`, `:59-70`. -/
def formulate (pk : Package) (o : Obj) (h : Heap) (obj : Expr) (cons : List (Ineq × Expr × Expr)) :
    Except PyErr Abstract :=
  match eval h obj with
  | .error r => .error r
  | .ok (h, v) =>
    match optimize pk o h v with
    | .error r => .error r
    | .ok O =>
      match evalCons h cons with
      | .error r => .error r
      | .ok (_, cs) => subjectTo O cs

end Formulation
end Pytimize
