/-
Model of the printing methods of `_linear.py` and `_integer.py`: `_format_number` and `__repr__`.

Strings are lists of characters. Numbers are rationals, so `round`, `str` and `"{:.3e}".format` are the
exact decimal operations (half to even on ties) that Python applies to the exact value of a float; the
shortest-representation digits that `str` prints for a float rounded to `p` places are the `p` decimal
places without trailing zeros.
-/
import Mathlib.Data.Int.Log
import Mathlib.Data.List.DropRight
import Verif.LP.Slackness
import Verif.LP.Extra

namespace Pytimize
namespace LinProg

variable {m n : ℕ}

/-- `round(q, p) * 10 ** p` for `q >= 0`. -/
def roundTo (p : ℕ) (q : ℚ) : ℕ := (roundEven (q * 10 ^ p)).toNat

/-- `str(k)` for a nonnegative integer. -/
def natChars (k : ℕ) : List Char := Nat.toDigits 10 k

/-- The digits of `k`, filled with zeros on the left to `w` places. -/
def padDigits (w k : ℕ) : List Char := (natChars k).leftpad w '0'

/-- The digits after the point that `str` prints: no trailing zeros, at least one digit. -/
def fracChars (p k : ℕ) : List Char :=
  let ds := (padDigits p k).rdropWhile (· == '0')
  if ds = [] then ['0'] else ds

/-- `str(k / 10 ** p)`, a float between `1e-4` and `1e16` (Python prints these without exponent). -/
def strDecimal (p k : ℕ) : List Char := natChars (k / 10 ^ p) ++ '.' :: fracChars p (k % 10 ^ p)

/-- The exponent of `"{:.3e}"`: a sign and at least two digits. -/
def expChars (e : ℤ) : List Char := (if 0 ≤ e then '+' else '-') :: padDigits 2 e.natAbs

/-- `"{:.3e}".format(q)` for `q > 0`: four significant digits, half to even. -/
def sciChars (q : ℚ) : List Char :=
  let e := Int.log 10 q
  let k := (roundEven (q / 10 ^ (e - 3))).toNat
  let k' := if k = 10000 then 1000 else k
  let e' := if k = 10000 then e + 1 else e
  natChars (k' / 1000) ++ '.' :: (padDigits 3 (k' % 1000) ++ 'e' :: expChars e')

/-- `_format_number`, `_linear.py:214-232`: the text before it is measured. `math.log(magnitude, 10)` is the
exact logarithm. -/
def numberText (number : ℚ) : List Char :=
  let magnitude := |number|
  let formatted :=
    if Comparator.isCloseToZero magnitude then ['0', '.']
    else if magnitude > 10 ^ 10 then sciChars magnitude
    else if Comparator.isInteger magnitude then natChars (roundEven magnitude).toNat ++ ['.']
    else if magnitude < 1 then
      let precision := (Int.log 10 magnitude).natAbs + 3
      if magnitude < 1 / 10 ^ 4 then sciChars (roundTo precision magnitude / 10 ^ precision)
      else strDecimal precision (roundTo precision magnitude)
    else strDecimal 3 (roundTo 3 magnitude)
  if Comparator.isNegative number then '-' :: formatted else formatted

/-- `_format_number`, `_linear.py:189-240`. Unpacking the pieces around the points into two names raises
`ValueError` unless there is exactly one point (`_linear.py:238`). -/
def formatNumber (number : ℚ) : Except PyErr (List Char × ℕ × ℕ) :=
  let formatted := numberText number
  match formatted.splitOn '.' with
  | [a, d] => .ok (formatted, a.length, d.length)
  | _ => .error .valueError

/-- One cell of the table, `_linear.py:314-330` and `:353-370`: the point is put in the column shared by the
rows. `entry[-d:]` is the last `d` characters. -/
def cellText (intSpaces decSpaces : ℕ) : List Char × ℕ × ℕ → List Char
  | (entry, a, d) =>
    List.replicate (intSpaces - a) ' ' ++ entry.take (a + 1) ++
      if d = 0 then List.replicate decSpaces ' '
      else entry.drop (entry.length - d) ++ List.replicate (decSpaces - d) ' '

/-- The loops computing the spaces of one column, `_linear.py:283-295` and `:301-306`. -/
def columnSpaces : List (List Char × ℕ × ℕ) → ℕ × ℕ
  | [] => (0, 0)
  | (_, a, d) :: l => (max a (columnSpaces l).1, max d (columnSpaces l).2)

/-- The sign between the two sides, `_linear.py:341-347`. -/
def opChar : Ineq → Char
  | .ge => '≥'
  | .le => '≤'
  | .eq => '='

/-- `positive_variables`, `_linear.py:2087-2105` (one-based). -/
def positiveNames (P : LP m n) : List ℕ :=
  ((List.range' 1 n).filter fun i => !decide (i - 1 ∈ P.neg) && !decide (i - 1 ∈ P.free))

/-- `SymbolParser.subscript(", ".join(f"x{i}" for i in names))`. -/
def nameList (names : List ℕ) : List Char :=
  Parser.subscript (joinChars [',', ' '] (names.map fun i => 'x' :: natChars i))

/-- One line of sign constraints, `_linear.py:373-387`. -/
def signLine (n : ℕ) (rel : Char) (names : List ℕ) : List Char :=
  if names.length = n then ['x', ' ', rel, ' ', '0', '\n']
  else if 0 < names.length then nameList names ++ [' ', rel, ' ', '0', '\n']
  else []

/-- The line of the objective, `_linear.py:252-279`, from the formatted coefficients and constant. -/
def objectiveLine (P : LP m n) (c : List (List Char)) (z : List Char) : List Char :=
  (if P.objective = .min then ['M', 'i', 'n', ' ', '['] else ['M', 'a', 'x', ' ', '[']) ++
    joinChars [' '] c ++ [']', 'x'] ++
    if Comparator.isCloseToZero P.z then []
    else ' ' :: (if Comparator.isNegative P.z then '-' else '+') :: ' ' :: z

/-- The line of row `i` without the line feed, `_linear.py:309-371`. -/
def rowLine (P : LP m n) (A : Fin m → Fin n → List Char × ℕ × ℕ) (b : Fin m → List Char × ℕ × ℕ) (i : Fin m) :
    List Char :=
  let cell (j : Fin n) : List Char :=
    let s := columnSpaces ((List.finRange m).map fun r => A r j)
    cellText s.1 s.2 (A i j)
  let s := columnSpaces ((List.finRange m).map b)
  '[' :: joinChars [' ', ' '] ((List.finRange n).map cell) ++ ']' ::
    (if (i : ℕ) = m / 2 then 'x' else ' ') :: [' ', ' ', ' ', ' ', opChar (P.ineq i), ' ', ' ', ' ', '['] ++
    cellText s.1 s.2 (b i) ++ [']']

/-- The entries of an array formatted; any failure is raised. -/
def formatAll {ι : Type} [Fintype ι] (v : ι → ℚ) : Except PyErr (ι → List Char × ℕ × ℕ) :=
  if h : ∀ i, (formatNumber (v i)).toOption.isSome then .ok fun i => (formatNumber (v i)).toOption.get (h i)
  else .error .valueError

/-- `LinearProgram.__repr__`, `_linear.py:242-389`. The local name `positive` is bound inside the loop over the
rows (`:371`), so a program without rows raises `UnboundLocalError` at `:382`. -/
def reprText (P : LP m n) : Except PyErr (List Char) := do
  let c ← formatAll P.c
  let z ← formatNumber |P.z|
  let A ← formatAll fun k : Fin m × Fin n => P.A k.1 k.2
  let b ← formatAll P.b
  let table := (List.finRange m).map fun i => rowLine P (fun i j => A (i, j)) b i ++ ['\n']
  let body := objectiveLine P ((List.finRange n).map fun j => (c j).1) z.1 ++
    ['\n', 'S', 'u', 'b', 'j', 'e', 'c', 't', ' ', 'T', 'o', ':', '\n', '\n'] ++ table.flatten ++
    signLine n '≤' (P.neg.map (· + 1))
  if m = 0 then .error .unboundLocalError
  else .ok (body ++ signLine n '≥' (positiveNames P))

/-- `IntegerProgram.__repr__`, `_integer.py:33-39`: `rstrip("\n")`, then `x ∈ Z` only if every variable is
integral. -/
def intReprText (I : IntProgram) : Except PyErr (List Char) := do
  let output ← reprText I.prog.lp
  let output := output.rdropWhile (· == '\n')
  .ok (if I.integral = none then output ++ ['x', ' ', '∈', ' ', 'Z'] else output)

end LinProg
end Pytimize
