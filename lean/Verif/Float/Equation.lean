/-
The arithmetic of `pytimize/formulations/linear` on Python's numbers. `Verif/Formulation/Equation.lean` computes with
exact rationals; here the same operations work on numbers of any kind, given by `Ops`: Python's integers, which are
exact, and floats, which are rounded after every operation (`pyOps`). The text of the definitions follows
`Verif/Formulation/Equation.lean` line by line.
-/
import Verif.Formulation.EquationProof
import Verif.Float.Rounding

namespace Pytimize
namespace Floating
open Formulation

/-- The operations on numbers that the operators of equations use. -/
structure Ops (N : Type) where
  zero : N
  one : N
  neg : N → N
  add : N → N → N
  mul : N → N → N

/-- A `LinearEquation`, `_equation.py:10-13`. -/
structure GEqn (N : Type) where
  terms : Dict ℕ N
  const : N

/-- The equations created so far. -/
abbrev GHeap (N : Type) := List (GEqn N)

/-- The values of expressions. -/
inductive GVal (N : Type)
  | num (q : N)
  | var (k : ℕ)
  | eqn (a : ℕ)
  | none

/-- Python expressions. -/
inductive GExpr (N : Type)
  | num (q : N)
  | x (i : ℤ)
  | var (k : ℕ)
  | ref (a : ℕ)
  | pos (e : GExpr N)
  | neg (e : GExpr N)
  | add (e f : GExpr N)
  | sub (e f : GExpr N)
  | mul (e f : GExpr N)

section
variable {N : Type} (A : Ops N)

/-- `LinearEquation(...)`. -/
def galloc (h : GHeap N) (e : GEqn N) : GHeap N × GVal N := (h ++ [e], .eqn h.length)

/-- The object at an address. -/
def gderef (h : GHeap N) (a : ℕ) : GEqn N := h.getD a ⟨[], A.zero⟩

/-- `terms.setdefault(label, 0); terms[label] += coefficient`, `_equation.py:28-30`, `:34-36`. -/
def gbump (d : Dict ℕ N) (l : ℕ) (c : N) : Dict ℕ N :=
  let d := d.setDefault l A.zero
  d.set l (A.add ((d.get? l).getD A.zero) c)

/-- `LinearEquation.__neg__`, `_equation.py:15-20`. -/
def gnegEqn (h : GHeap N) (a : ℕ) : GHeap N × GVal N :=
  let e := gderef A h a
  (h.set a ⟨e.terms.map fun t => (t.1, A.neg t.2), e.const⟩, .eqn a)

/-- `LinearEquation.__add__`, `_equation.py:25-38`. -/
def gaddEqn (h : GHeap N) (a : ℕ) : GVal N → GHeap N × GVal N
  | .eqn b =>
    let e := gderef A h a
    (h.set a ⟨(gderef A h b).terms.foldl (fun d t => gbump A d t.1 t.2) e.terms, e.const⟩, .eqn a)
  | .num q =>
    let e := gderef A h a
    (h.set a ⟨e.terms, A.add e.const q⟩, .eqn a)
  | .var k =>
    let e := gderef A h a
    (h.set a ⟨gbump A e.terms k A.one, e.const⟩, .eqn a)
  | .none => (h, .eqn a)

/-- `LinearEquation.__mul__`, `_equation.py:55-61`. -/
def gmulEqn (h : GHeap N) (a : ℕ) : GVal N → GHeap N × GVal N
  | .num q =>
    let e := gderef A h a
    (h.set a ⟨e.terms.map fun t => (t.1, A.mul t.2 q), e.const⟩, .eqn a)
  | _ => (h, .none)

/-- `Variable.equation`, `_variable.py:92-94`. -/
def gvarEqn (h : GHeap N) (k : ℕ) : GHeap N × GVal N := galloc h ⟨[(k, A.one)], A.zero⟩

/-- `Variable.__add__`, `__radd__`, `_variable.py:53-57`. -/
def gaddVar (h : GHeap N) (k : ℕ) (v : GVal N) : GHeap N × GVal N :=
  let r := gvarEqn A h k
  gaddEqn A r.1 h.length v

/-- `Variable.__mul__`, `_variable.py:37-39`. -/
def gmulVar (h : GHeap N) (k : ℕ) : GVal N → GHeap N × GVal N
  | .num q => galloc h ⟨[(k, q)], A.zero⟩
  | _ => (h, .none)

/-- `+v`: `_equation.py:22-23`, `_variable.py:47-48`. -/
def gopPos (h : GHeap N) : GVal N → Except PyErr (GHeap N × GVal N)
  | .num q => .ok (h, .num q)
  | .var k => .ok (gvarEqn A h k)
  | .eqn a => .ok (h, .eqn a)
  | .none => .error .typeError

/-- `-v`: `_equation.py:15-20`, `_variable.py:50-51`. -/
def gopNeg (h : GHeap N) : GVal N → Except PyErr (GHeap N × GVal N)
  | .num q => .ok (h, .num (A.neg q))
  | .var k => .ok (galloc h ⟨[(k, A.neg A.one)], A.zero⟩)
  | .eqn a => .ok (gnegEqn A h a)
  | .none => .error .typeError

/-- `v + w`: `_equation.py:25-41`, `_variable.py:53-57`. -/
def gopAdd (h : GHeap N) : GVal N → GVal N → Except PyErr (GHeap N × GVal N)
  | .num p, .num q => .ok (h, .num (A.add p q))
  | .eqn a, w => .ok (gaddEqn A h a w)
  | .var k, w => .ok (gaddVar A h k w)
  | v, .eqn b => .ok (gaddEqn A h b v)
  | v, .var k => .ok (gaddVar A h k v)
  | _, _ => .error .typeError

/-- `v - w`: `_equation.py:46-50`, `_variable.py:62-66`. `p - q` on numbers is `p + -q`. -/
def gopSub (h : GHeap N) : GVal N → GVal N → Except PyErr (GHeap N × GVal N)
  | .num p, .num q => .ok (h, .num (A.add p (A.neg q)))
  | .eqn a, w =>
    match gopNeg A h w with
    | .error e => .error e
    | .ok (h, w) => .ok (gaddEqn A h a w)
  | .var k, w =>
    match gopNeg A h w with
    | .error e => .error e
    | .ok (h, w) => .ok (gaddVar A h k w)
  | v, .eqn b =>
    let r := gnegEqn A h b
    .ok (gaddEqn A r.1 b v)
  | v, .var k =>
    let r := galloc h ⟨[(k, A.neg A.one)], A.zero⟩
    .ok (gaddEqn A r.1 h.length v)
  | _, _ => .error .typeError

/-- `v * w`: `_equation.py:55-64`, `_variable.py:37-42`. -/
def gopMul (h : GHeap N) : GVal N → GVal N → Except PyErr (GHeap N × GVal N)
  | .num p, .num q => .ok (h, .num (A.mul p q))
  | .eqn a, w => .ok (gmulEqn A h a w)
  | .var k, w => .ok (gmulVar A h k w)
  | v, .eqn b => .ok (gmulEqn A h b v)
  | v, .var k => .ok (gmulVar A h k v)
  | _, _ => .error .typeError

/-- `x[key]` for an integer key, `_variable.py:8-18`. -/
def gindexX (h : GHeap N) (i : ℤ) : Except PyErr (GHeap N × GVal N) :=
  if i ≤ 0 then .error .valueError else .ok (galloc h ⟨[((i - 1).toNat, A.one)], A.zero⟩)

/-- Python's evaluation of an expression, left to right. -/
def geval (h : GHeap N) : GExpr N → Except PyErr (GHeap N × GVal N)
  | .num q => .ok (h, .num q)
  | .x i => gindexX A h i
  | .var k => .ok (h, .var k)
  | .ref a => .ok (h, .eqn a)
  | .pos e =>
    match geval h e with
    | .error r => .error r
    | .ok (h, v) => gopPos A h v
  | .neg e =>
    match geval h e with
    | .error r => .error r
    | .ok (h, v) => gopNeg A h v
  | .add e f =>
    match geval h e with
    | .error r => .error r
    | .ok (h, v) =>
      match geval h f with
      | .error r => .error r
      | .ok (h, w) => gopAdd A h v w
  | .sub e f =>
    match geval h e with
    | .error r => .error r
    | .ok (h, v) =>
      match geval h f with
      | .error r => .error r
      | .ok (h, w) => gopSub A h v w
  | .mul e f =>
    match geval h e with
    | .error r => .error r
    | .ok (h, v) =>
      match geval h f with
      | .error r => .error r
      | .ok (h, w) => gopMul A h v w

end

/-! ### Python's numbers -/

/-- An `int` or a `float`. -/
inductive PyNum
  | int (k : ℤ)
  | float (q : ℚ)
  deriving DecidableEq

/-- The number that is meant. -/
def PyNum.val : PyNum → ℚ
  | .int k => k
  | .float q => q

/-- `float(v)`. -/
def PyNum.toFloat (R : Rounding) : PyNum → ℚ
  | .int k => R.rd k
  | .float q => q

/-- Python's arithmetic: exact on integers; with a float among the operands, both are converted and the result is
rounded. -/
def pyOps (R : Rounding) : Ops PyNum where
  zero := .int 0
  one := .int 1
  neg
    | .int k => .int (-k)
    | .float q => .float (-q)
  add
    | .int j, .int k => .int (j + k)
    | a, b => .float (R.rd (a.toFloat R + b.toFloat R))
  mul
    | .int j, .int k => .int (j * k)
    | a, b => .float (R.rd (a.toFloat R * b.toFloat R))

/-! ### Reading values -/

/-- An equation of numbers read as an equation of rationals. -/
def GEqn.read {N : Type} (f : N → ℚ) (e : GEqn N) : Eqn := ⟨e.terms.map fun t => (t.1, f t.2), f e.const⟩

/-- A value likewise. -/
def GVal.read {N : Type} (f : N → ℚ) : GVal N → Val
  | .num q => .num (f q)
  | .var k => .var k
  | .eqn a => .eqn a
  | .none => .none

/-- An expression likewise. -/
def GExpr.read {N : Type} (f : N → ℚ) : GExpr N → Expr
  | .num q => .num (f q)
  | .x i => .x i
  | .var k => .var k
  | .ref a => .ref a
  | .pos e => .pos (e.read f)
  | .neg e => .neg (e.read f)
  | .add e g => .add (e.read f) (g.read f)
  | .sub e g => .sub (e.read f) (g.read f)
  | .mul e g => .mul (e.read f) (g.read f)

end Floating
end Pytimize
