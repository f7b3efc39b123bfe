/-
Model of statements over equations: names bound to values, assignment, and the augmented assignments
`+=`, `-=`, `*=` of `pytimize/formulations/linear`.

A loop over a list is the list of statements it executes. Names are numbers; every name is bound. Assigning to
`x[i]` or to attributes is not modelled.
-/
import Verif.Formulation.Equation

namespace Pytimize
namespace Formulation

/-- The augmented assignment operators. -/
inductive Aug
  | add
  | sub
  | mul
  deriving DecidableEq

/-- `v op= w`, the object bound to the name afterwards. `__iadd__` and `__isub__` of an equation,
`_equation.py:43-44`, `:52-53`, and of a variable, `_variable.py:59-60`, `:68-69`; `__imul__` of a variable,
`_variable.py:44-45`. Equations have no `__imul__` (the method is called `__imult__`, `_equation.py:66-67`, which
Python never calls), so `*=` falls back on `*`; so do all three for numbers and `None`. -/
def augAssign (h : Heap) : Aug → Val → Val → Except PyErr (Heap × Val)
  | .add, .eqn a, w => .ok (addEqn h a w)
  | .add, .var k, w => .ok (addVar h k w)
  | .add, v, w => opAdd h v w
  | .sub, .eqn a, w =>
    match opNeg h w with
    | .error e => .error e
    | .ok (h, w) => .ok (addEqn h a w)
  | .sub, .var k, w =>
    match opNeg h w with
    | .error e => .error e
    | .ok (h, w) => .ok (addVar h k w)
  | .sub, v, w => opSub h v w
  | .mul, .var k, w => .ok (mulVar h k w)
  | .mul, v, w => opMul h v w

/-- Python expressions over numbers, `x[i]`, `Variable` objects and names. -/
inductive NExpr
  | num (q : ℚ)
  | x (i : ℤ)
  | var (k : ℕ)
  | name (n : ℕ)
  | pos (e : NExpr)
  | neg (e : NExpr)
  | add (e f : NExpr)
  | sub (e f : NExpr)
  | mul (e f : NExpr)

/-- Python's evaluation of an expression, left to right, with the names bound by `env`. -/
def evalN (env : ℕ → Val) (h : Heap) : NExpr → Except PyErr (Heap × Val)
  | .num q => .ok (h, .num q)
  | .x i => indexX h i
  | .var k => .ok (h, .var k)
  | .name n => .ok (h, env n)
  | .pos e =>
    match evalN env h e with
    | .error r => .error r
    | .ok (h, v) => opPos h v
  | .neg e =>
    match evalN env h e with
    | .error r => .error r
    | .ok (h, v) => opNeg h v
  | .add e f =>
    match evalN env h e with
    | .error r => .error r
    | .ok (h, v) =>
      match evalN env h f with
      | .error r => .error r
      | .ok (h, w) => opAdd h v w
  | .sub e f =>
    match evalN env h e with
    | .error r => .error r
    | .ok (h, v) =>
      match evalN env h f with
      | .error r => .error r
      | .ok (h, w) => opSub h v w
  | .mul e f =>
    match evalN env h e with
    | .error r => .error r
    | .ok (h, v) =>
      match evalN env h f with
      | .error r => .error r
      | .ok (h, w) => opMul h v w

/-- Statements: `n = e` and `n op= e`. -/
inductive Stmt
  | assign (n : ℕ) (e : NExpr)
  | aug (n : ℕ) (op : Aug) (e : NExpr)

/-- The equations created so far and what the names are bound to. -/
structure Frame where
  heap : Heap
  env : ℕ → Val

/-- Binding a name. -/
def bind (env : ℕ → Val) (n : ℕ) (v : Val) : ℕ → Val := fun m => if m = n then v else env m

/-- One statement. -/
def exec (s : Frame) : Stmt → Except PyErr Frame
  | .assign n e =>
    match evalN s.env s.heap e with
    | .error r => .error r
    | .ok (h, w) => .ok ⟨h, bind s.env n w⟩
  | .aug n op e =>
    match evalN s.env s.heap e with
    | .error r => .error r
    | .ok (h, w) =>
      match augAssign h op (s.env n) w with
      | .error r => .error r
      | .ok (h, w) => .ok ⟨h, bind s.env n w⟩

/-- Statements one after the other, up to the first exception. -/
def execAll (s : Frame) : List Stmt → Except PyErr Frame
  | [] => .ok s
  | c :: l =>
    match exec s c with
    | .error r => .error r
    | .ok s => execAll s l

end Formulation
end Pytimize
