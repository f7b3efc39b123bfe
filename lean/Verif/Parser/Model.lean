/-
`pytimize/parsers/_graph.py`, `_linear.py`, `_symbol.py`. Strings are lists of characters.
-/
import Mathlib.Data.Rat.Defs
import Mathlib.Algebra.Order.Ring.Rat
import Verif.Parser.Regex

namespace Pytimize
namespace Parser

/-- Python's tables for `\w`, `\s`, `\d` and the value of a decimal digit. They cover all of Unicode; only the laws
used are fixed, and ASCII, so the theorems hold for every version of the tables. -/
structure Chars where
  word : Char → Bool
  space : Char → Bool
  digit : Char → Option ℕ
  digit_lt : ∀ c d, digit c = some d → d < 10
  digit_word : ∀ c d, digit c = some d → word c = true
  word_space : ∀ c, word c = true → space c = false
  ascii : ∀ c : Char, c.toNat < 128 →
    word c = (c.isAlphanum || c == '_') ∧ digit c = (if c.isDigit then some (c.toNat - 48) else none) ∧
    space c = (c == ' ' || (9 ≤ c.toNat && c.toNat ≤ 13) || (28 ≤ c.toNat && c.toNat ≤ 31))

/-- `\d`. -/
def Chars.isDigit (ch : Chars) (c : Char) : Bool := (ch.digit c).isSome

/-- The number written by a string of digits, as `int` reads it. -/
def readInt (ch : Chars) (w : List Char) : ℕ := w.foldl (fun n c => 10 * n + (ch.digit c).getD 0) 0

/-- `float` of a string matching `\d+(?:\.\d+)?`: exact, without rounding to a double. -/
def readFloat (ch : Chars) (w : List Char) : ℚ :=
  let i := w.takeWhile (· != '.')
  let f := (w.dropWhile (· != '.')).drop 1
  readInt ch i + readInt ch f / 10 ^ f.length

/-! ### `GraphParser` -/

/-- `\w`. -/
def reWord (ch : Chars) : Re := .cls ch.word

/-- `\s`. -/
def reSpace (ch : Chars) : Re := .cls ch.space

/-- `\d`. -/
def reDigit (ch : Chars) : Re := .cls ch.isDigit

/-- `\d+(?:\.\d+)?`. -/
def reNum (ch : Chars) : Re := .seq (.plus (reDigit ch)) (.opt (.seq (.lit '.') (.plus (reDigit ch))))

/-- One edge in each of the four formats, `_graph.py:31-38`. -/
def reEdge (ch : Chars) : ℕ → Re
  | 0 => .seq (reWord ch) (reWord ch)
  | 1 => .seq (.plus (reWord ch)) (.seq (.lit '-') (.plus (reWord ch)))
  | 2 => .seq (reWord ch) (.seq (reWord ch) (.seq (.lit ':') (reNum ch)))
  | _ => .seq (.plus (reWord ch)) (.seq (.lit '-') (.seq (.plus (reWord ch)) (.seq (.lit ':') (reNum ch))))

/-- `^(?:E)(?:\sE)*$` for the edge pattern `E` of a format, `_graph.py:31-38`. -/
def reValid (ch : Chars) (k : ℕ) : Re :=
  .seq .bol (.seq (.seq (reEdge ch k) (.star (.seq (reSpace ch) (reEdge ch k)))) .eol)

/-- The patterns with groups, `_graph.py:15-22`. -/
def reTerm (ch : Chars) : ℕ → Re
  | 0 => .seq (.group 1 (reWord ch)) (.group 2 (reWord ch))
  | 1 => .seq (.group 1 (.plus (reWord ch))) (.seq (.lit '-') (.group 2 (.plus (reWord ch))))
  | 2 => .seq (.group 1 (reWord ch)) (.seq (.group 2 (reWord ch)) (.seq (.lit ':') (.group 3 (reNum ch))))
  | _ => .seq (.group 1 (.plus (reWord ch))) (.seq (.lit '-') (.seq (.group 2 (.plus (reWord ch)))
      (.seq (.lit ':') (.group 3 (reNum ch)))))

/-- `get_expression_type`, `_graph.py:29-50`. -/
def getExpressionType (ch : Chars) (s : List Char) : ℤ :=
  if (reMatch (reValid ch 0) s).isSome then 0
  else if (reMatch (reValid ch 1) s).isSome then 1
  else if (reMatch (reValid ch 2) s).isSome then 2
  else if (reMatch (reValid ch 3) s).isSome then 3
  else -1

/-- `GraphParser.parse`, `_graph.py:6-27`. -/
def parseGraph (ch : Chars) (s : List Char) : Except PyErr (List (List Char × List Char × ℚ)) :=
  let k := getExpressionType ch s
  if k = -1 then .error .valueError
  else .ok ((findAll (reTerm ch k.toNat) s).map fun t =>
    (t.cap 1, t.cap 2, if k > 1 then readFloat ch (t.cap 3) else 0))

/-! ### `LinearParser` -/

/-- `\d+(?:\.\d+)?x_\d+`. -/
def reLinTerm (ch : Chars) : Re :=
  .seq (reNum ch) (.seq (.lit 'x') (.seq (.lit '_') (.plus (reDigit ch))))

/-- `^-?\d+(?:\.\d+)?x_\d+(?:[+|-]\d+(?:\.\d+)?x_\d+)*$`, `_linear.py:45`. Inside the brackets `|` is an ordinary
character. -/
def reLinValid (ch : Chars) : Re :=
  .seq .bol (.seq (.seq (.opt (.lit '-')) (.seq (reLinTerm ch)
    (.star (.seq (.cls fun c => c == '+' || c == '|' || c == '-') (reLinTerm ch))))) .eol)

/-- `(\+|-)?(\d+(?:\.\d+)?)x_(\d+)`, `_linear.py:11`. -/
def reLinGroups (ch : Chars) : Re :=
  .seq (.opt (.group 1 (.alt (.lit '+') (.lit '-'))))
    (.seq (.group 2 (reNum ch)) (.seq (.lit 'x') (.seq (.lit '_') (.group 3 (.plus (reDigit ch))))))

/-- `validate_expression`, `_linear.py:43-47`. -/
def validateExpression (ch : Chars) (s : List Char) : Bool := (reMatch (reLinValid ch) s).isSome

/-- `float(("-" if sign == "-" else "") + coefficient)`, `_linear.py:21`. -/
def readSigned (ch : Chars) (sign coefficient : List Char) : ℚ :=
  if sign = ['-'] then -readFloat ch coefficient else readFloat ch coefficient

/-- The loop over the terms, `_linear.py:12-24`: the dictionary and `length`. -/
def linLoop (ch : Chars) : List St → Dict ℤ ℚ → ℤ → Except PyErr (Dict ℤ ℚ × ℤ)
  | [], data, len => .ok (data, len)
  | t :: l, data, len =>
    let index : ℤ := (readInt ch (t.cap 3) : ℤ) - 1
    if data.has index then .error .genericException
    else linLoop ch l (data.set index (readSigned ch (t.cap 1) (t.cap 2))) (if index > len then index else len)

/-- `result[0, key] = value` for an array with one row: negative indices count from the end. -/
def setEntry (r : List ℚ) (key : ℤ) (v : ℚ) : Except PyErr (List ℚ) :=
  if key < -(r.length : ℤ) ∨ (r.length : ℤ) ≤ key then .error .indexError
  else .ok (r.set (if key < 0 then (key + r.length).toNat else key.toNat) v)

/-- The loop writing the entries, `_linear.py:28-29`. -/
def fillEntries : Dict ℤ ℚ → List ℚ → Except PyErr (List ℚ)
  | [], r => .ok r
  | (key, v) :: d, r =>
    match setEntry r key v with
    | .error e => .error e
    | .ok r => fillEntries d r

/-- `LinearParser.parse`, `_linear.py:8-33`, as the single row of the result. `np.full` with a negative size raises
`ValueError`. -/
def parseLinear (ch : Chars) (s : List Char) (size : Option ℤ) : Except PyErr (List ℚ) :=
  if validateExpression ch s then
    match linLoop ch (findAll (reLinGroups ch) s) [] 0 with
    | .error e => .error e
    | .ok (data, len) =>
      let n := size.getD (len + 1)
      if n < 0 then .error .valueError
      else fillEntries data (List.replicate n.toNat 0)
  else .error .genericException

/-- `parse_multiple`, `_linear.py:35-41`: parses every expression and returns `None`. -/
def parseMultiple (ch : Chars) (size : Option ℤ) : List (List Char) → Except PyErr (Option (List (List ℚ)))
  | [] => .ok none
  | s :: l =>
    if validateExpression ch s then
      match parseLinear ch s size with
      | .error e => .error e
      | .ok _ => parseMultiple ch size l
    else .error .genericException

/-! ### `SymbolParser` -/

/-- `str.maketrans("0123456789", "₀₁₂₃₄₅₆₇₈₉")`, `_symbol.py:1`: the pairs of characters at the same position. -/
def subscriptTable : List (Char × Char) := "0123456789".toList.zip "₀₁₂₃₄₅₆₇₈₉".toList

/-- `subscript`, `_symbol.py:5-7`: `translate` replaces the characters in the table and keeps the others. -/
def subscript (s : List Char) : List Char := s.map fun c => (subscriptTable.lookup c).getD c

end Parser
end Pytimize
