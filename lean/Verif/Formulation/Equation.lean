/-
Model of `pytimize/formulations/linear`: equations, variables, comparisons, objectives and the abstract
program, and of `pytimize/formulations/integer`.

Equations are mutable objects, so they live in a heap and are referred to by address. The terms dictionaries
are never shared between equations (`__neg__` and `__mul__` bind new dictionaries, the constructors get fresh
ones), so a dictionary is stored inside its equation. Keys are natural numbers: `x[i]` needs `i >= 1` and
`variables(count)` uses `range(count)`; `x[...]` with a key that is not an integer (marked "TODO implement" in
`_variable.py:14-16`) is not modelled. Numbers are Python `int` and `float`. The heap left behind by an
expression that raises is not tracked.
-/
import Verif.Py
import Verif.LP.BasicLemmas

namespace Pytimize
namespace Formulation
open LinProg (Ineq Obj Prog IntProgram PyVal)

/-- A `LinearEquation`, `_equation.py:10-13`. -/
structure Eqn where
  terms : Dict ℕ ℚ
  const : ℚ
  deriving DecidableEq

/-- The equations created so far; the address of an equation is its position. -/
abbrev Heap := List Eqn

/-- The values of the expressions a user writes: numbers, `Variable` objects, equations, and `None` (which
`__mul__` returns when the factor is not a number). -/
inductive Val
  | num (q : ℚ)
  | var (k : ℕ)
  | eqn (a : ℕ)
  | none
  deriving DecidableEq

/-! ### Equations -/

/-- `LinearEquation(...)`: a new object. -/
def alloc (h : Heap) (e : Eqn) : Heap × Val := (h ++ [e], .eqn h.length)

/-- The object at an address. -/
def deref (h : Heap) (a : ℕ) : Eqn := h.getD a ⟨[], 0⟩

/-- `terms.setdefault(label, 0); terms[label] += coefficient`, `_equation.py:28-30`, `:34-36`. -/
def bump (d : Dict ℕ ℚ) (l : ℕ) (c : ℚ) : Dict ℕ ℚ :=
  let d := d.setDefault l 0
  d.set l ((d.get? l).getD 0 + c)

/-- `LinearEquation.__neg__`, `_equation.py:15-20`: changes the terms of the object, not its constant. -/
def negEqn (h : Heap) (a : ℕ) : Heap × Val :=
  let e := deref h a
  (h.set a ⟨e.terms.map fun t => (t.1, -t.2), e.const⟩, .eqn a)

/-- `LinearEquation.__add__`, `_equation.py:25-38`. The loop over `other.terms` visits every label once, so
looping over the items as they were at the start gives the same result when `other` is the object itself. -/
def addEqn (h : Heap) (a : ℕ) : Val → Heap × Val
  | .eqn b =>
    let e := deref h a
    (h.set a ⟨(deref h b).terms.foldl (fun d t => bump d t.1 t.2) e.terms, e.const⟩, .eqn a)
  | .num q =>
    let e := deref h a
    (h.set a ⟨e.terms, e.const + q⟩, .eqn a)
  | .var k =>
    let e := deref h a
    (h.set a ⟨bump e.terms k 1, e.const⟩, .eqn a)
  | .none => (h, .eqn a)

/-- `LinearEquation.__mul__`, `_equation.py:55-61`. -/
def mulEqn (h : Heap) (a : ℕ) : Val → Heap × Val
  | .num q =>
    let e := deref h a
    (h.set a ⟨e.terms.map fun t => (t.1, t.2 * q), e.const⟩, .eqn a)
  | _ => (h, .none)

/-- `Variable.equation`, `_variable.py:92-94`. -/
def varEqn (h : Heap) (k : ℕ) : Heap × Val := alloc h ⟨[(k, 1)], 0⟩

/-- `Variable.__add__`, `__radd__`, `_variable.py:53-57`. -/
def addVar (h : Heap) (k : ℕ) (v : Val) : Heap × Val :=
  let r := varEqn h k
  addEqn r.1 h.length v

/-- `Variable.__mul__`, `_variable.py:37-39`. -/
def mulVar (h : Heap) (k : ℕ) : Val → Heap × Val
  | .num q => alloc h ⟨[(k, q)], 0⟩
  | _ => (h, .none)

/-! ### The operators, with Python's choice of the method -/

/-- `+v`: `_equation.py:22-23`, `_variable.py:47-48`. -/
def opPos (h : Heap) : Val → Except PyErr (Heap × Val)
  | .num q => .ok (h, .num q)
  | .var k => .ok (varEqn h k)
  | .eqn a => .ok (h, .eqn a)
  | .none => .error .typeError

/-- `-v`: `_equation.py:15-20`, `_variable.py:50-51`. -/
def opNeg (h : Heap) : Val → Except PyErr (Heap × Val)
  | .num q => .ok (h, .num (-q))
  | .var k => .ok (alloc h ⟨[(k, -1)], 0⟩)
  | .eqn a => .ok (negEqn h a)
  | .none => .error .typeError

/-- `v + w`: `__add__` of the left operand, or `__radd__` of the right one when the left is a number or
`None` (`_equation.py:25-41`, `_variable.py:53-57`). -/
def opAdd (h : Heap) : Val → Val → Except PyErr (Heap × Val)
  | .num p, .num q => .ok (h, .num (p + q))
  | .eqn a, w => .ok (addEqn h a w)
  | .var k, w => .ok (addVar h k w)
  | v, .eqn b => .ok (addEqn h b v)
  | v, .var k => .ok (addVar h k v)
  | _, _ => .error .typeError

/-- `v - w`: `self + -other`, or `-self + other` reflected (`_equation.py:46-50`, `_variable.py:62-66`). -/
def opSub (h : Heap) : Val → Val → Except PyErr (Heap × Val)
  | .num p, .num q => .ok (h, .num (p - q))
  | .eqn a, w =>
    match opNeg h w with
    | .error e => .error e
    | .ok (h, w) => .ok (addEqn h a w)
  | .var k, w =>
    match opNeg h w with
    | .error e => .error e
    | .ok (h, w) => .ok (addVar h k w)
  | v, .eqn b =>
    let r := negEqn h b
    .ok (addEqn r.1 b v)
  | v, .var k =>
    let r := alloc h ⟨[(k, -1)], 0⟩
    .ok (addEqn r.1 h.length v)
  | _, _ => .error .typeError

/-- `v * w`: `_equation.py:55-64`, `_variable.py:37-42`. -/
def opMul (h : Heap) : Val → Val → Except PyErr (Heap × Val)
  | .num p, .num q => .ok (h, .num (p * q))
  | .eqn a, w => .ok (mulEqn h a w)
  | .var k, w => .ok (mulVar h k w)
  | v, .eqn b => .ok (mulEqn h b v)
  | v, .var k => .ok (mulVar h k v)
  | _, _ => .error .typeError

/-- `x[key]` for an integer key, `_variable.py:8-18`. -/
def indexX (h : Heap) (i : ℤ) : Except PyErr (Heap × Val) :=
  if i ≤ 0 then .error .valueError else .ok (alloc h ⟨[((i - 1).toNat, 1)], 0⟩)

/-- Python expressions over numbers, `x[i]`, `Variable` objects and names bound to equations (`ref`). -/
inductive Expr
  | num (q : ℚ)
  | x (i : ℤ)
  | var (k : ℕ)
  | ref (a : ℕ)
  | pos (e : Expr)
  | neg (e : Expr)
  | add (e f : Expr)
  | sub (e f : Expr)
  | mul (e f : Expr)

/-- Python's evaluation of an expression, left to right. -/
def eval (h : Heap) : Expr → Except PyErr (Heap × Val)
  | .num q => .ok (h, .num q)
  | .x i => indexX h i
  | .var k => .ok (h, .var k)
  | .ref a => .ok (h, .eqn a)
  | .pos e =>
    match eval h e with
    | .error r => .error r
    | .ok (h, v) => opPos h v
  | .neg e =>
    match eval h e with
    | .error r => .error r
    | .ok (h, v) => opNeg h v
  | .add e f =>
    match eval h e with
    | .error r => .error r
    | .ok (h, v) =>
      match eval h f with
      | .error r => .error r
      | .ok (h, w) => opAdd h v w
  | .sub e f =>
    match eval h e with
    | .error r => .error r
    | .ok (h, v) =>
      match eval h f with
      | .error r => .error r
      | .ok (h, w) => opSub h v w
  | .mul e f =>
    match eval h e with
    | .error r => .error r
    | .ok (h, v) =>
      match eval h f with
      | .error r => .error r
      | .ok (h, w) => opMul h v w

/-! ### Comparisons -/

/-- A `LinearConstraint`, `_constraint.py:6-22`. -/
structure LinCon where
  coeffs : List ℚ
  op : Ineq
  const : ℚ
  deriving DecidableEq

/-- A `VariableConstraint`, `_constraint.py:25-40`, with math indices; an empty list stands for all
variables. -/
structure VarCon where
  pos : Option (List ℤ)
  neg : Option (List ℤ)
  deriving DecidableEq

/-- What a comparison can return: a constraint of either class, or the Boolean of two numbers. -/
inductive Con
  | lin (c : LinCon)
  | sign (c : VarCon)
  | bool (b : Bool)
  deriving DecidableEq

/-- `coefficients`, `_equation.py:115-125`. -/
def coefficients (d : Dict ℕ ℚ) : Option (List ℚ) :=
  match d with
  | [] => none
  | _ :: _ =>
    some (d.foldl (fun a t => a.set t.1 t.2) (List.replicate ((d.map Prod.fst).foldl max 0 + 1) 0))

/-- `pad_right`, `_utilities.py:6-19`, for a length that is not negative. -/
def padRight (a : Option (List ℚ)) (n : ℕ) : Except PyErr (List ℚ) :=
  match a with
  | none => .ok (List.replicate n 0)
  | some l => if l.length > n then .error .valueError else .ok (l ++ List.replicate (n - l.length) 0)

/-- Entrywise sum of two arrays of the same length. -/
def addArr (a b : List ℚ) : List ℚ := List.zipWith (· + ·) a b

/-- `_broadcast_subtract`, `_equation.py:92-109`. -/
def broadcastSubtract : Option (List ℚ) → Option (List ℚ) → Except PyErr (Option (List ℚ))
  | none, b => .ok b
  | some a, none => .ok (some a)
  | some a, some b =>
    let b := b.map fun q => -q
    if a.length = b.length then .ok (some (addArr a b))
    else
      let (s, l) := if a.length > b.length then (b, a) else (a, b)
      match padRight (some s) l.length with
      | .error e => .error e
      | .ok s => .ok (some (addArr l s))

/-- `_generate_constraint`, `_equation.py:78-90`, on two equations. -/
def generate (op : Ineq) (e f : Eqn) : Except PyErr LinCon :=
  match broadcastSubtract (coefficients e.terms) (coefficients f.terms) with
  | .error r => .error r
  | .ok none => .error .valueError
  | .ok (some c) => .ok ⟨c, op, f.const - e.const⟩

/-- `<=` for `>=` and back: the method Python tries on the right operand. -/
def flip : Ineq → Ineq
  | .le => .ge
  | .ge => .le
  | .eq => .eq

/-- `e <= w`, `e >= w`, `e == w` for an equation `e`, `_equation.py:69-90`. A `Variable` or `None` on the right
has no attribute `constant`. -/
def cmpEqn (h : Heap) (op : Ineq) (e : Eqn) : Val → Except PyErr Con
  | .num q =>
    match generate op e ⟨[], q⟩ with
    | .error r => .error r
    | .ok c => .ok (.lin c)
  | .eqn b =>
    match generate op e (deref h b) with
    | .error r => .error r
    | .ok c => .ok (.lin c)
  | .var _ => .error .attributeError
  | .none => .error .attributeError

/-- `v <= w`, `v >= w`, `v == w` for a `Variable`, `_variable.py:71-90`. -/
def cmpVar (h : Heap) (op : Ineq) (k : ℕ) (w : Val) : Except PyErr Con :=
  match op, w with
  | .le, .num q =>
    if q = 0 then .ok (.sign ⟨none, some [(k : ℤ) + 1]⟩) else cmpEqn h op ⟨[(k, 1)], 0⟩ (.num q)
  | .ge, .num q =>
    if q = 0 then .ok (.sign ⟨some [(k : ℤ) + 1], none⟩) else cmpEqn h op ⟨[(k, 1)], 0⟩ (.num q)
  | op, w => cmpEqn h op ⟨[(k, 1)], 0⟩ w

/-- `p op q` for numbers. -/
def relB : Ineq → ℚ → ℚ → Bool
  | .le, p, q => decide (p ≤ q)
  | .ge, p, q => decide (q ≤ p)
  | .eq, p, q => decide (p = q)

/-- `v op w`: the method of the left operand, or the reflected one of the right operand when the left is a
number or `None`. Comparisons create no object that outlives them and change none. -/
def compare (h : Heap) (op : Ineq) : Val → Val → Except PyErr Con
  | .num p, .num q => .ok (.bool (relB op p q))
  | .eqn a, w => cmpEqn h op (deref h a) w
  | .var k, w => cmpVar h op k w
  | v, .eqn b => cmpEqn h (flip op) (deref h b) v
  | v, .var k => cmpVar h (flip op) k v
  | v, w => if op = .eq then .ok (.bool (decide (v = w))) else .error .typeError

/-- `e op f` for two expressions. -/
def compareExpr (h : Heap) (op : Ineq) (e f : Expr) : Except PyErr (Heap × Con) :=
  match eval h e with
  | .error r => .error r
  | .ok (h, v) =>
    match eval h f with
    | .error r => .error r
    | .ok (h, w) =>
      match compare h op v w with
      | .error r => .error r
      | .ok c => .ok (h, c)

/-- `x <= n`, `x >= n` for the class `x` itself, `_variable.py:20-30`. -/
def compareX (op : Ineq) (q : ℚ) : Except PyErr Con :=
  if q = 0 then
    match op with
    | .le => .ok (.sign ⟨none, some []⟩)
    | .ge => .ok (.sign ⟨some [], none⟩)
    | .eq => .ok (.bool false)
  else if op = .eq then .ok (.bool false) else .error .valueError

end Formulation
end Pytimize
