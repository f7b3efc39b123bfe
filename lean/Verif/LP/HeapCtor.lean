/-
The constructor of `LinearProgram` on the heap of `Verif.LP.Heap`: which of the arrays it is given it keeps, and
what the formulation layer does with its own arrays when it compiles. Checks of the arguments are in
`Verif.LP.Basic`; here they have passed.
-/
import Verif.LP.Heap

namespace Pytimize
namespace LinHeap
open LinProg (Ineq Obj)

/-- An argument `A`, `b` or `c`: an array of floats that exists already, or anything else (a list or an array of
integers), which the constructor converts to an array with the contents `c`. -/
inductive Given
  | floats (a : ℕ)
  | other (c : Cell)

/-- `__to_ndarray`, `_linear.py:1653-1691`: an array of floats is returned as it is, other arguments are converted
(`astype`, `np.array`). -/
def toNdarray (h : Heap) : Given → Heap × ℕ
  | .floats a => (h, a)
  | .other c => alloc h c

/-- What the argument shows to the caller. -/
def Given.contents (h : Heap) : Given → Cell
  | .floats a => h.cell a
  | .other c => c

/-- `LinearProgram(A, b, c, z, objective, inequalities, free_variables, negative_variables)`,
`_linear.py:65-145`: the arrays as `__to_ndarray` returns them, and a new dictionary and new lists
(`__to_array_indexing`, `_linear.py:1788-1793`). -/
def construct (h : Heap) (A b c : Given) (ineq free neg : Cell) (z : ℚ) (o : Obj) (sef : Bool) : Heap × Prg :=
  let rA := toNdarray h A
  let rb := toNdarray rA.1 b
  let rc := toNdarray rb.1 c
  let h := rc.1
  (⟨fun a => if a = h.next then ineq else if a = h.next + 1 then free else if a = h.next + 2 then neg
      else if a = h.next + 3 then .text [] else h.cell a, h.next + 4⟩,
    { addr := fun f => match f with
        | .A => rA.2
        | .b => rb.2
        | .c => rc.2
        | .ineq => h.next
        | .free => h.next + 1
        | .neg => h.next + 2
        | .steps => h.next + 3
      flipped := false, z := z, objective := o, isSef := sef })

/-- The caller writes into an array of their own. -/
def write (h : Heap) (a : ℕ) (c : Cell) : Heap := ⟨Function.update h.cell a c, h.next⟩

/-- What can happen after a program was built: an effect of a method of it, or a write of the caller. -/
inductive Event
  | act (a : Act)
  | write (a : ℕ) (c : Cell)

/-- The events in order. -/
def events (s : Heap × Prg) : List Event → Heap × Prg
  | [] => s
  | .act a :: l => events (act s a) l
  | .write a c :: l => events (write s.1 a c, s.2) l

/-- The methods among the events. -/
def actsOf : List Event → List Act
  | [] => []
  | .act a :: l => a :: actsOf l
  | .write _ _ :: l => actsOf l

/-- The writes of the caller among the events, applied to a memory. -/
def writesOf (m : ℕ → Cell) : List Event → ℕ → Cell
  | [] => m
  | .act _ :: l => writesOf m l
  | .write a c :: l => writesOf (Function.update m a c) l

/-- `self._b[S] *= -1; self._A[S] *= -1`, `_linear.py:1077-1078` and `1109-1110`. -/
def flipActs (S : List ℕ) : List Act :=
  [.poke .b fun v => .vec (S.foldl (fun l i => negEntry i l) v.entries),
    .poke .A fun a => .mat (S.foldl (fun r i => r.modify i fun row => row.map (· * (-1))) a.rows)]

/-- `simplex`, `_linear.py:1076-1111`: rows are negated, the iterations work on copies
(`simplex_iteration(..., in_place=False)`, `_linear.py:1142-1143`), and rows are negated again. With `raised` an
iteration raises an exception (`_linear.py:1145-1146`, `1164`), and the second negation is not reached. -/
def simplexActs (S : List ℕ) (raised : Bool) : List Act :=
  flipActs S ++ if raised then [] else flipActs S

/-! ### Formulations -/

/-- The part of an `AbstractLinearProgram` that `program` hands to the constructor, `formulations/linear/_abstract.py:20-28`:
references to the arrays built by `subject_to`, and the rest as values. -/
structure Form where
  A : ℕ
  b : ℕ
  c : ℕ
  ineq : Cell
  z : ℚ
  objective : Obj

/-- `program`, `_abstract.py:89-109`: the arrays of the formulation are arrays of floats (`np.empty`, `np.vstack`,
`np.r_`, `np.zeros`; `_objective.py:27-37`, `_equation.py:116-125`). -/
def Form.compile (F : Form) (h : Heap) (free neg : Cell) (sef : Bool) : Heap × Prg :=
  construct h (.floats F.A) (.floats F.b) (.floats F.c) F.ineq free neg F.z F.objective sef

/-- `subject_to`, `_objective.py:21-42`: new arrays `A` and `b`; `pad_right` (`_utilities.py:6-19`) returns the
coefficients of the objective themselves if they are long enough, else a longer array. -/
def subjectToArrays (h : Heap) (c : ℕ) (A b : Cell) (length : ℕ) (ineq : Cell) (z : ℚ) (o : Obj) : Heap × Form :=
  let rA := alloc h A
  let rb := alloc rA.1 b
  let coef := (h.cell c).entries
  if coef.length = length then (rb.1, ⟨rA.2, rb.2, c, ineq, z, o⟩)
  else
    let rc := alloc rb.1 (.vec (coef ++ List.replicate (length - coef.length) 0))
    (rc.1, ⟨rA.2, rb.2, rc.2, ineq, z, o⟩)

end LinHeap
end Pytimize
