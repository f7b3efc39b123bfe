/-
How a reader understands the text printed for a number and for a program: written without reference to the
model of the printing code.
-/
import Verif.LP.Basic

namespace Pytimize
namespace Props
open LinProg

/-- A (possibly empty) word of decimal digits as a number. -/
def readDigits (s : List Char) : Option ℕ :=
  if s.all Char.isDigit then some (s.foldl (fun a c => 10 * a + (c.toNat - 48)) 0) else none

/-- `12.34`: digits, one point, digits; digits before the point are required. -/
def readMantissa (s : List Char) : Option ℚ :=
  match s.splitOn '.' with
  | [a, d] => if a = [] then none else do
      let x ← readDigits a
      let y ← readDigits d
      some (x + y / 10 ^ d.length)
  | _ => none

/-- `+07` or `-07`. -/
def readExp : List Char → Option ℤ
  | '+' :: d => if d = [] then none else (readDigits d).map fun k => (k : ℤ)
  | '-' :: d => if d = [] then none else (readDigits d).map fun k => -(k : ℤ)
  | _ => none

/-- `12.34` or `1.234e-07`. -/
def readUnsigned (s : List Char) : Option ℚ :=
  match s.splitOn 'e' with
  | [a] => readMantissa a
  | [a, x] => do
      let v ← readMantissa a
      let e ← readExp x
      some (v * 10 ^ e)
  | _ => none

/-- A number in decimal or scientific notation. -/
def readNum : List Char → Option ℚ
  | '-' :: s => (readUnsigned s).map fun v => -v
  | s => readUnsigned s

/-- The words of a line. -/
def words (s : List Char) : List (List Char) := (s.splitOn ' ').filter fun w => w ≠ []

/-- What stands in the first pair of brackets. -/
def inside (s : List Char) : List Char := (s.dropWhile (· ≠ '[')).tail.takeWhile (· ≠ ']')

/-- What stands behind the first closing bracket. -/
def behind (s : List Char) : List Char := (s.dropWhile (· ≠ ']')).tail

/-- A relation sign standing alone. -/
def readOp (s : List Char) : Option Ineq :=
  match s.filter fun c => c = '≥' ∨ c = '≤' ∨ c = '=' with
  | ['≥'] => some .ge
  | ['≤'] => some .le
  | ['='] => some .eq
  | _ => none

/-- A row of the printed table. -/
structure ShownRow where
  lhs : List ℚ
  op : Ineq
  rhs : ℚ

/-- `[1.  2.]x    ≤   [3.]`. -/
def readRow (line : List Char) : Option ShownRow := do
  let lhs ← (words (inside line)).mapM readNum
  let op ← readOp (behind line)
  match words (inside (behind line)) with
  | [w] => do
      let rhs ← readNum w
      some ⟨lhs, op, rhs⟩
  | _ => none

/-- `Max` / `Min`. -/
def readGoal (line : List Char) : Option Obj :=
  match line.take 3 with
  | ['M', 'a', 'x'] => some .max
  | ['M', 'i', 'n'] => some .min
  | _ => none

/-- `x`, `x + 3.` or `x - 3.`. -/
def readConstant (s : List Char) : Option ℚ :=
  match words s with
  | [['x']] => some 0
  | [['x'], ['+'], w] => readNum w
  | [['x'], ['-'], w] => (readNum w).map fun v => -v
  | _ => none

/-- A word of subscript digits as a number. -/
def readSubscript (s : List Char) : Option ℕ :=
  if s ≠ [] ∧ s.all (fun c => 0x2080 ≤ c.toNat ∧ c.toNat ≤ 0x2089) then
    some (s.foldl (fun a c => 10 * a + (c.toNat - 0x2080)) 0)
  else none

/-- `x₁₂` or `x₁₂,`: the number of the variable. -/
def readName (w : List Char) : Option ℕ :=
  match w.filter (· ≠ ',') with
  | 'x' :: s => readSubscript s
  | _ => none

/-- The variables (numbered from 1) that a line `x₁, x₃ ≤ 0` is about; `x ≤ 0` is about all of them. -/
def readNames (n : ℕ) (rel : Char) (line : List Char) : Option (List ℕ) :=
  match words (line.takeWhile (· ≠ rel)) with
  | [['x']] => some (List.range' 1 n)
  | ws => ws.mapM readName

/-- The variables that the lines declare to be `rel 0`: there must be at most one such line. -/
def readSigns (n : ℕ) (rel : Char) (lines : List (List Char)) : Option (List ℕ) :=
  match lines.filter (rel ∈ ·) with
  | [] => some []
  | [line] => if line.dropWhile (· ≠ rel) = [rel, ' ', '0'] then readNames n rel line else none
  | _ => none

/-- A linear program as it is understood from its text. -/
structure Shown where
  objective : Obj
  costs : List ℚ
  constant : ℚ
  rows : List ShownRow
  nonpos : List ℕ
  nonneg : List ℕ

/-- Reading the text of a program: the objective, two lines of heading, the rows and the signs of the
variables. -/
def readProgram (s : List Char) : Option Shown :=
  match s.splitOn '\n' with
  | head :: _ :: _ :: rest => do
      let objective ← readGoal head
      let costs ← (words (inside head)).mapM readNum
      let constant ← readConstant (behind head)
      let rows ← (rest.takeWhile fun l => l.head? = some '[').mapM readRow
      let signs := rest.dropWhile fun l => l.head? = some '['
      let nonpos ← readSigns costs.length '≤' signs
      let nonneg ← readSigns costs.length '≥' signs
      some ⟨objective, costs, constant, rows, nonpos, nonneg⟩
  | _ => none

/-- The accuracy of a printed number: numbers below `1e-10` are shown as zero, the others with a relative error
of at most five in ten thousand. -/
def Shows (v q : ℚ) : Prop := if |q| < 1 / 10 ^ 10 then v = 0 else |v - q| ≤ 5 / 10 ^ 4 * |q|

/-- What was understood from the text is the program: the same objective, relations and signs, and numbers in
the relation `R`. -/
structure Agrees {m n : ℕ} (R : ℚ → ℚ → Prop) (S : Shown) (P : LP m n) : Prop where
  objective : S.objective = P.objective
  costs : List.Forall₂ R S.costs (List.ofFn P.c)
  constant : R S.constant P.z
  rows : List.Forall₂ (fun (r : ShownRow) (i : Fin m) =>
    List.Forall₂ R r.lhs (List.ofFn (P.A i)) ∧ r.op = P.ineq i ∧ R r.rhs (P.b i)) S.rows (List.finRange m)
  nonpos : ∀ k, k ∈ S.nonpos ↔ ∃ j, k = j + 1 ∧ j ∈ P.neg
  nonneg : ∀ k, k ∈ S.nonneg ↔ ∃ j < n, k = j + 1 ∧ j ∉ P.neg ∧ j ∉ P.free

end Props
end Pytimize
