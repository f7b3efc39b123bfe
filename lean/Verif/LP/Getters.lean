/-
The accessors of `LinearProgram` (`_linear.py:2013-2154`) on the heap of `Verif.LP.Heap`: what the caller gets is
either an object of the program or a new list. The caller keeps what was read and may write into it later.
Simplified: programs whose `_A` is a transposed view (`dual()` of another program) are left out.
-/
import Verif.LP.HeapCtor
import Verif.Props.LinearShared

namespace Pytimize
namespace LinHeap
open LinProg (Ineq Obj)

/-- The accessors that return a mutable object. -/
inductive Getter | A | b | c | steps | inequalities | negative | positive | free
  deriving DecidableEq

/-- The sign shown for an operator. -/
def opText : Ineq → String
  | .le => "<="
  | .ge => ">="
  | .eq => "="

/-- `A`, `b`, `c`, `steps` (`_linear.py:2014-2047, 2145-2154`) return the object of the program itself;
`inequalities` (`_linear.py:1716-1733, 2062-2071`), `negative_variables` (`2074-2084`), `positive_variables`
(`2087-2105`) and `free_variables` (`2108-2118`) build a list. -/
def Getter.read (h : Heap) (p : Prg) : Getter → Heap × ℕ
  | .A => (h, p.addr .A)
  | .b => (h, p.addr .b)
  | .c => (h, p.addr .c)
  | .steps => (h, p.addr .steps)
  | .inequalities => alloc h (.text ((List.range (look h p .b).entries.length).map fun i =>
      match (look h p .ineq).dict.lookup i with
      | some q => opText q
      | none => "="))
  | .negative => alloc h (.ints ((look h p .neg).indices.map (· + 1)))
  | .positive => alloc h (.ints ((List.range' 1 (look h p .c).entries.length).filter fun i =>
      !decide (i - 1 ∈ (look h p .neg).indices) && !decide (i - 1 ∈ (look h p .free).indices)))
  | .free => alloc h (.ints ((look h p .free).indices.map (· + 1)))

/-- A program in memory and what the caller has read from it so far. -/
structure World where
  heap : Heap
  prog : Prg
  refs : List ℕ

/-- What the caller does: call a method of the program that works in place, read an accessor, or write into the
`k`-th object read. -/
inductive Ev
  | call (m : Props.Method)
  | get (g : Getter)
  | write (k : ℕ) (c : Cell)

/-- One step. -/
def World.step (s : World) : Ev → World
  | .call m => ⟨(acts (s.heap, s.prog) m.acts).1, (acts (s.heap, s.prog) m.acts).2, s.refs⟩
  | .get g => ⟨(g.read s.heap s.prog).1, s.prog, s.refs ++ [(g.read s.heap s.prog).2]⟩
  | .write k c =>
    match s.refs[k]? with
    | none => s
    | some a => ⟨write s.heap a c, s.prog, s.refs⟩

/-- A history. -/
def World.run (s : World) (l : List Ev) : World := l.foldl World.step s

end LinHeap
end Pytimize
