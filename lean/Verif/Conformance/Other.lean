/-
Tests of the model, not proofs: the inputs of the test suites of `/repo/pytimize/graphs`, `parsers`, `formulations`
and `utilities` and the results those tests expect, evaluated on the model. Each section cites the test file.
-/
import Verif.Conformance.Linear
import Verif.Graph.Undirected
import Verif.Formulation.Program
import Verif.Props.Parser

namespace Pytimize
namespace Conformance

/-! ### `utilities/tests/comparator` -/

section Comparator
open Comparator

def cmp (v : ℚ) (op : String) (t : ℚ) (expected : Bool) : Bool := gives (isCloseCompare v op t) id expected

def cmpA (v : List ℚ) (op : String) (t : ℚ) (expected : Bool) : Bool := gives (isCloseCompareArr v op t) id expected

#guard cmp 5 ">=" 3 true && cmp 5.5 ">=" 5 true && cmp 4.999999999 ">=" 5 true && cmp 5.0000001111 ">=" 5 true
#guard cmp 3 ">=" 5 false && cmp 5 ">=" 5.5 false && cmp 5 ">=" 5.01111 false
#guard cmp 5 ">" 3 true && cmp 5.5 ">" 5 true && cmp 5.0001 ">" 5 true
#guard cmp 3 ">" 5 false && cmp 5 ">" 5.5 false && cmp 4.999999999 ">" 5 false && cmp 5.00000000001 ">" 5 false
#guard cmp 3 "<=" 5 true && cmp 5 "<=" 5.5 true && cmp 5 "<=" 5.01111 true && cmp 5 "<=" 4.999999999 true
#guard cmp 5 "<=" 5.0000000001 true && cmp 4.9 "<=" 5 true
#guard cmp 5 "<=" 3 false && cmp 5.5 "<=" 5 false && cmp 5.1 "<=" 5 false
#guard cmp 3 "<" 5 true && cmp 5 "<" 5.5 true && cmp 5.49 "<" 5.5 true
#guard cmp 5 "<" 3 false && cmp 5.5 "<" 5 false && cmp 5.0001 "<" 5 false && cmp 4.99999 "<" 5 false && cmp 5.00000000001 "<" 5 false
#guard cmpA [6, 5] ">=" 5 true && cmpA [6, 7, 5, 5] ">=" 5 true && cmpA [4, 5] ">=" 5 false && cmpA [6, 7, 5, 4] ">=" 5 false
#guard cmpA [6, 6] ">" 5 true && cmpA [6, 7, 5.5, 5.1] ">" 5 true && cmpA [6, 5.00000001] ">" 5 false && cmpA [6, 0.7, 15, 4.99999] ">" 5 false
#guard cmpA [4, 5] "<=" 5 true && cmpA [3, 0.5, 5, 5] "<=" 5 true && cmpA [4, 6] "<=" 5 false && cmpA [6, 7, 5, 4] "<=" 5 false
#guard cmpA [4.9, 4] "<" 5 true && cmpA [3, 4.9, 4, 1e-10] "<" 5 true && cmpA [3, 4.99999999999999] "<" 5 false && cmpA [3, 1, 2, 7] "<" 5 false
#guard raises (isCloseCompare 3 "=" 5) .valueError && raises (isCloseCompare 3 "*" 5) .valueError
#guard [0, -1e-11, 1e-11, 1e-34, 1e-22, 2.3e-34, 1.2e-13].all isCloseToZero
#guard [100, -100, 4, 5, 1e-5, 2.7e-4, 1e-6, 4.2e-6].all (!isCloseToZero ·)
#guard isInteger 6 && isInteger (-5) && isInteger 5.00000000001 && isIntegerArr [0, 1e-34] && isIntegerArr [39, 9.000000000023, 2.3e-34, 1.2e-13]
#guard [4.3, 100000.123, 100000000.003, -9.55].all (!isInteger ·)
#guard !isIntegerArr [4.003, 5.9] && !isIntegerArr [100000000.1, 100.1, 10.1] && !isIntegerArr [1e-6, 4.92, 1e-2, 6.99]
#guard isNegative (-6) && isNegative (-0.1) && !isNegative 0 && !isNegative 5 && !isNegative 0.04 && !isNegative (-1e-12)
#guard !isPositive (-6) && !isPositive (-0.1) && !isPositive 0 && isPositive 5 && isPositive 0.04 && !isPositive (-1e-12)

end Comparator

/-! ### `graphs/tests/directed` -/

section Directed
open Directed

/-- `add_arc` for each entry. -/
def digraph (l : List ((String × String) × ℚ)) : Digraph :=
  l.foldl (fun g p => (addArc g (p.1.1.toList, p.1.2.toList) p.2 .none).1) Digraph.empty

def flowIs (r : Except PyErr (ℚ × Flow)) (value : ℚ) (flow : List ((String × String) × ℚ)) : Bool :=
  match r with
  | .error _ => false
  | .ok (v, f) => decide (v = value) && decide (f.length = flow.length) &&
      flow.all fun p => decide (f.get? (p.1.1.toList, p.1.2.toList) = some p.2)

def ff (g : Digraph) (s t : String) := fordFulkerson 100 g s.toList t.toList
def pp (g : Digraph) (s t : String) := preflowPush 1000 g s.toList t.toList

def dOne := digraph [(("s", "b"), 100), (("s", "a"), 15), (("b", "a"), 10), (("a", "t"), 100), (("b", "t"), 5)]
def fOne : List ((String × String) × ℚ) := [(("s", "b"), 15), (("s", "a"), 15), (("b", "a"), 10), (("a", "t"), 25), (("b", "t"), 5)]
def dTwo := digraph [(("a", "b"), 5), (("a", "c"), 15), (("b", "d"), 5), (("b", "e"), 5), (("c", "d"), 5), (("c", "e"), 5), (("d", "f"), 15), (("e", "f"), 5)]
def fTwo : List ((String × String) × ℚ) := [(("a", "b"), 5), (("a", "c"), 10), (("b", "d"), 5), (("b", "e"), 0), (("c", "d"), 5), (("c", "e"), 5), (("d", "f"), 10), (("e", "f"), 5)]
def dThree := digraph [(("s", "a"), 16), (("s", "c"), 13), (("c", "a"), 4), (("a", "b"), 12), (("c", "d"), 14), (("b", "c"), 9), (("d", "b"), 7), (("b", "t"), 20), (("d", "t"), 4)]
def fThree : List ((String × String) × ℚ) := [(("s", "a"), 12), (("s", "c"), 11), (("c", "a"), 0), (("a", "b"), 12), (("c", "d"), 11), (("b", "c"), 0), (("d", "b"), 7), (("b", "t"), 19), (("d", "t"), 4)]
def dFour := digraph [(("s", "a"), 5), (("s", "c"), 15), (("a", "b"), 3), (("a", "d"), 4), (("c", "b"), 4), (("c", "d"), 6), (("b", "t"), 10), (("d", "t"), 5)]

#guard flowIs (ff dOne "s" "t") 30 fOne
#guard flowIs (ff dTwo "a" "f") 15 fTwo
#guard flowIs (ff dThree "s" "t") 23 fThree
#guard flowIs (ff dFour "s" "t") 12 [(("s", "a"), 5), (("s", "c"), 7), (("a", "b"), 3), (("a", "d"), 2), (("c", "b"), 4), (("c", "d"), 3), (("b", "t"), 7), (("d", "t"), 5)]
#guard flowIs (pp dOne "s" "t") 30 fOne
#guard flowIs (pp dTwo "a" "f") 15 fTwo
#guard flowIs (pp dThree "s" "t") 23 fThree
#guard flowIs (pp dFour "s" "t") 12 [(("s", "a"), 3), (("s", "c"), 9), (("a", "b"), 3), (("a", "d"), 0), (("c", "b"), 4), (("c", "d"), 5), (("b", "t"), 7), (("d", "t"), 5)]
#guard [("s", "a"), ("a", "s"), ("s", "s")].all fun p =>
  raises (ff (digraph [(("a", "b"), 10)]) p.1 p.2) .valueError && raises (pp (digraph [(("a", "b"), 10)]) p.1 p.2) .valueError

end Directed

/-! ### `graphs/tests/undirected` -/

section Undirected
open Undirected
open Directed (Name NodeArg)

def ugraph (graph : List (String × List String)) (edges : List ((String × String) × ℚ)) (vertices : List (String × ℚ)) :
    Except PyErr Ugraph :=
  Undirected.ctor (graph.map fun p => (p.1.toList, p.2.map String.toList)) (edges.map fun p => ((p.1.1.toList, p.1.2.toList), p.2))
    (vertices.map fun p => (p.1.toList, p.2))

/-- The three dictionaries, compared as Python compares dictionaries and sets. -/
def isGraph (r : Except PyErr Ugraph) (graph : List (String × List String)) (edges : List ((String × String) × ℚ))
    (vertices : List (String × ℚ)) : Bool :=
  match r with
  | .error _ => false
  | .ok g => graphEq g ⟨graph.map fun p => (p.1.toList, p.2.map String.toList),
      edges.map fun p => ((p.1.1.toList, p.1.2.toList), p.2), vertices.map fun p => (p.1.toList, p.2)⟩

def gFull : List (String × List String) := [("a", ["c", "b"]), ("b", ["w", "z", "a"]), ("c", ["a"]), ("t", ["w"]), ("w", ["b", "t"]), ("z", ["b"])]

#guard isGraph (ugraph [] [] []) [] [] []
#guard isGraph (ugraph [("a", ["b", "c"]), ("w", ["t", "b"]), ("b", ["z"])] [] []) gFull
  [(("a", "b"), 0), (("a", "c"), 0), (("b", "w"), 0), (("b", "z"), 0), (("t", "w"), 0)] [("a", 0), ("b", 0), ("c", 0), ("t", 0), ("w", 0), ("z", 0)]
#guard isGraph (ugraph gFull [] []) gFull
  [(("a", "b"), 0), (("a", "c"), 0), (("b", "w"), 0), (("b", "z"), 0), (("t", "w"), 0)] [("a", 0), ("b", 0), ("c", 0), ("t", 0), ("w", 0), ("z", 0)]
#guard isGraph (ugraph [("a", ["b", "c"]), ("w", ["t", "b"]), ("b", []), ("d", [])] [] [])
  [("a", ["c", "b"]), ("b", ["w", "a"]), ("c", ["a"]), ("t", ["w"]), ("w", ["b", "t"]), ("d", [])]
  [(("a", "b"), 0), (("a", "c"), 0), (("b", "w"), 0), (("t", "w"), 0)] [("a", 0), ("b", 0), ("c", 0), ("t", 0), ("w", 0), ("d", 0)]
#guard isGraph (ugraph [] [(("a", "b"), 1), (("a", "c"), 2), (("b", "w"), 3), (("b", "z"), 4), (("t", "w"), 5)] []) gFull
  [(("a", "b"), 1), (("a", "c"), 2), (("b", "w"), 3), (("b", "z"), 4), (("t", "w"), 5)] [("a", 0), ("b", 0), ("c", 0), ("t", 0), ("w", 0), ("z", 0)]
#guard isGraph (ugraph [] [] [("a", 1), ("b", 2), ("c", 3), ("t", 4), ("w", 5), ("z", 6)])
  [("a", []), ("b", []), ("c", []), ("t", []), ("w", []), ("z", [])] [] [("a", 1), ("b", 2), ("c", 3), ("t", 4), ("w", 5), ("z", 6)]
#guard isGraph (ugraph [] [(("a", "b"), 5)] [("a", 10), ("c", 12)]) [("a", ["b"]), ("b", ["a"]), ("c", [])] [(("a", "b"), 5)]
  [("a", 10), ("b", 0), ("c", 12)]
#guard isGraph (ugraph [("a", ["b", "d"])] [] [("a", 5), ("c", 5)]) [("a", ["b", "d"]), ("b", ["a"]), ("d", ["a"]), ("c", [])]
  [(("a", "b"), 0), (("a", "d"), 0)] [("a", 5), ("b", 0), ("d", 0), ("c", 5)]
#guard isGraph (ugraph [("a", ["b", "d"])] [(("a", "b"), 10), (("w", "x"), 20)] [])
  [("a", ["b", "d"]), ("b", ["a"]), ("d", ["a"]), ("w", ["x"]), ("x", ["w"])] [(("a", "b"), 10), (("w", "x"), 20), (("a", "d"), 0)]
  [("a", 0), ("b", 0), ("d", 0), ("w", 0), ("x", 0)]
#guard isGraph (ugraph [("a", ["b"]), ("b", ["a"]), ("y", ["w"])] [(("a", "b"), 5), (("w", "x"), 20)] [("a", 10), ("c", 11)])
  [("a", ["b"]), ("b", ["a"]), ("c", []), ("w", ["y", "x"]), ("x", ["w"]), ("y", ["w"])] [(("a", "b"), 5), (("w", "x"), 20), (("w", "y"), 0)]
  [("a", 10), ("b", 0), ("c", 11), ("w", 0), ("x", 0), ("y", 0)]

/-- Two iteration orders of a set. -/
def orders : List (ℕ → List Name → List Name) := [fun _ l => l, fun _ l => l.reverse]

def tree (g : Except PyErr Ugraph) (expected : Bool) : Bool :=
  orders.all fun o => gives (g.bind fun g => isTree o g) id expected

#guard tree (ugraph [("a", ["b", "c", "d"])] [] []) true
#guard tree (ugraph [("a", ["b", "c", "d"]), ("b", ["f", "g"]), ("c", ["w"]), ("d", ["j", "k"]), ("j", ["p", "q"]), ("q", ["r"]), ("r", ["s"])] [] []) true
#guard tree (ugraph [] [] []) false
#guard tree (ugraph [] [] [("a", 0)]) true
#guard tree (ugraph [] [] [("a", 0), ("b", 0)]) false
#guard tree (ugraph [] [(("a", "b"), 0), (("b", "c"), 0), (("d", "f"), 0), (("f", "g"), 0)] []) false
#guard tree (ugraph [("a", ["b", "c", "d"]), ("d", ["w"]), ("u", [])] [] []) false
#guard tree (ugraph [("a", ["b", "c"]), ("b", ["d"]), ("d", ["a"])] [] []) false
#guard tree (ugraph [("a", ["b", "c"]), ("c", ["d"]), ("d", ["f"]), ("f", ["a", "c"])] [] []) false
#guard tree (ugraph [("a", ["b"]), ("b", ["c"]), ("c", ["d"]), ("d", ["a"])] [] []) false

def add (g : Ugraph) (l : List ((String × String) × ℚ)) : Except PyErr Ugraph :=
  l.foldl (fun r p => r.bind fun g => match addEdge g (p.1.1.toList, p.1.2.toList) p.2 with
    | (g, none) => .ok g
    | (_, some e) => .error e) (.ok g)

#guard isGraph (add .empty [(("a", "b"), 1), (("b", "c"), 2), (("e", "f"), 3), (("abc", "def"), 3)])
  [("a", ["b"]), ("b", ["c", "a"]), ("c", ["b"]), ("e", ["f"]), ("f", ["e"]), ("abc", ["def"]), ("def", ["abc"])]
  [(("a", "b"), 1), (("b", "c"), 2), (("e", "f"), 3), (("abc", "def"), 3)]
  [("a", 0), ("b", 0), ("c", 0), ("e", 0), ("f", 0), ("abc", 0), ("def", 0)]
#guard raises (add .empty [(("a", "a"), 0)]) .valueError && raises (add .empty [(("a", "b"), -100)]) .valueError
#guard raises ((ugraph [] [(("a", "b"), 5)] []).bind fun g => add g [(("a", "b"), 0)]) .valueError

def cutG : Except PyErr Ugraph := ugraph [] [(("a", "b"), 1), (("b", "c"), 2), (("e", "f"), 3), (("a", "w"), 4), (("a", "s"), 5)] [("u", 10)]

def cutIs (n : NodeArg) (expected : List (String × String)) : Bool :=
  match cutG with
  | .error _ => false
  | .ok g => decide (degree g n = expected.length) && decide ((cut g n).length = expected.length) &&
      expected.all fun e => decide ((e.1.toList, e.2.toList) ∈ cut g n)

def nm (s : String) : NodeArg := .name s.toList
def its (l : List String) : NodeArg := .iter (l.map String.toList)

#guard cutIs (nm "a") [("a", "b"), ("a", "w"), ("a", "s")] && cutIs (nm "b") [("b", "c"), ("a", "b")] && cutIs (nm "c") [("b", "c")]
#guard cutIs (nm "e") [("e", "f")] && cutIs (nm "f") [("e", "f")] && cutIs (nm "w") [("a", "w")] && cutIs (nm "s") [("a", "s")] && cutIs (nm "u") []
#guard cutIs (its ["a", "b"]) [("a", "w"), ("a", "s"), ("b", "c")] && cutIs (its ["a", "s"]) [("a", "w"), ("a", "b")]
#guard cutIs (its ["s", "w", "a"]) [("a", "b")] && cutIs (its ["z", "m"]) [] && cutIs (its ["p", "abc"]) [] && cutIs (nm "z") []
#guard cutIs (its ["a", "b", "c", "e", "f", "w", "s", "u"]) [] && cutIs (its []) []

def wG : Except PyErr Ugraph := ugraph [] [(("a", "b"), 1), (("b", "c"), 2), (("e", "f"), 3)] [("a", 10), ("b", 20), ("c", 30), ("e", 40)]

def ew (g : Except PyErr Ugraph) (u v : String) := g.bind fun g => getEdgeWeight g (u.toList, v.toList)
def vw (g : Except PyErr Ugraph) (v : String) := g.bind fun g => getVertexWeight g v.toList

#guard gives (ew wG "a" "b") id 1 && gives (ew wG "b" "a") id 1 && gives (ew wG "b" "c") id 2 && gives (ew wG "c" "b") id 2
#guard gives (ew wG "e" "f") id 3 && gives (ew wG "f" "e") id 3 && raises (ew wG "b" "g") .valueError && raises (ew wG "b" "b") .valueError
#guard gives (vw wG "a") id 10 && gives (vw wG "b") id 20 && gives (vw wG "c") id 30 && gives (vw wG "e") id 40 && gives (vw wG "f") id 0
#guard raises (vw wG "w") .valueError && raises (vw wG "vertex") .valueError
#guard gives wG (fun g => ["a", "b", "c", "e", "f"].all (fun v => hasVertex g v.toList) && ["w", "m", "g"].all fun v => !hasVertex g v.toList) true
#guard gives wG (fun g => [("a", "b"), ("b", "a"), ("b", "c"), ("c", "b"), ("e", "f"), ("f", "e")].all (fun e => hasEdge g (e.1.toList, e.2.toList)) &&
  [("z", "z"), ("b", "w"), ("b", "f")].all fun e => !hasEdge g (e.1.toList, e.2.toList)) true

def setE (g : Except PyErr Ugraph) (u v : String) (w : ℚ) : Except PyErr Ugraph := g.bind fun g =>
  match setEdgeWeight g (u.toList, v.toList) w with
  | (g, none) => .ok g
  | (_, some e) => .error e

def setV (g : Except PyErr Ugraph) (v : String) (w : ℚ) : Except PyErr Ugraph := g.bind fun g =>
  match setVertexWeight g v.toList w with
  | (g, none) => .ok g
  | (_, some e) => .error e

#guard gives (ew (setE wG "a" "b" 5) "a" "b") id 5 && gives (ew (setE (setE wG "a" "b" 5) "b" "a" 10) "a" "b") id 10
#guard raises (setE wG "w" "s" 10) .valueError && gives (vw (setV wG "a" 5) "a") id 5 && raises (setV wG "w" 10) .valueError

def eqIs (a b : Except PyErr Ugraph) (expected : Bool) : Bool := gives (a.bind fun a => b.map fun b => graphEq a b) id expected

def eG := ugraph [] [(("a", "b"), 10), (("b", "c"), 20), (("l", "m"), 30)] []

#guard eqIs (ugraph [] [(("a", "b"), 10), (("b", "c"), 20), (("l", "m"), 30)] [("a", 10), ("b", 20), ("z", 30)])
  (ugraph [] [(("a", "b"), 10), (("b", "c"), 20), (("l", "m"), 30)] [("a", 10), ("b", 20), ("z", 30)]) true
#guard eqIs (ugraph [] [] []) (ugraph [] [] []) true
#guard eqIs eG (ugraph [] [(("a", "b"), 10), (("b", "c"), 20), (("l", "q"), 30)] []) false
#guard eqIs (ugraph [] [] [("a", 2), ("b", 3)]) (ugraph [] [] [("a", 1), ("b", 3)]) false
#guard eqIs eG (setV eG "a" 10) false

end Undirected

/-! ### `parsers/tests` -/

section Parser
open Parser

def parsed (s : String) (expected : List (String × String × ℚ)) : Bool :=
  gives (parseGraph Props.asciiChars s.toList) id (expected.map fun p => (p.1.toList, p.2.1.toList, p.2.2))

#guard parsed "ab cd ef 12 34 56" [("a", "b", 0), ("c", "d", 0), ("e", "f", 0), ("1", "2", 0), ("3", "4", 0), ("5", "6", 0)]
#guard parsed "ab" [("a", "b", 0)]
#guard parsed "123-456 abc-5 5-5 a-bc x-yz" [("123", "456", 0), ("abc", "5", 0), ("5", "5", 0), ("a", "bc", 0), ("x", "yz", 0)]
#guard parsed "abc-def" [("abc", "def", 0)]
#guard parsed "ab:1 cd:2.5 ef:0.25 gh:555 ij:25.255" [("a", "b", 1), ("c", "d", 2.5), ("e", "f", 0.25), ("g", "h", 555), ("i", "j", 25.255)]
#guard parsed "ab:123.123" [("a", "b", 123.123)]
#guard parsed "123-456:123 abc-5:2.5 5-5:0.123 a-bc:456.456" [("123", "456", 123), ("abc", "5", 2.5), ("5", "5", 0.123), ("a", "bc", 456.456)]
#guard parsed "abc-def:123.123" [("abc", "def", 123.123)]
#guard ["abc", "abc=efg h", "", "!@", "acb-efg:", "acb-efg:2.", "ab cd:5", "ab:.25 cd:5"].all fun s =>
  raises (parseGraph Props.asciiChars s.toList) .valueError
#guard gives (parseLinear Props.asciiChars "1.25x_5+0.25x_4-3x_8".toList none) id [0, 0, 0, 0.25, 1.25, 0, 0, -3]

end Parser

/-! ### `formulations/tests/linear` -/

section Formulation
open Formulation LinProg

/-- `maximize(e)` or `minimize(e)` of a fresh expression. -/
def objectiveOf (o : Obj) (e : Expr) : Except PyErr (Option (List ℚ) × ℚ × String) :=
  match eval [] e with
  | .error r => .error r
  | .ok (h, v) => (optimize .linear o h v).map fun O => (O.c, O.z, O.objective.name)

#guard gives (objectiveOf .min (.add (.add (.add (.x 1) (.x 2)) (.x 3)) (.num 1))) id (some [1, 1, 1], 1, "min")
#guard gives (objectiveOf .max (.add (.add (.add (.mul (.num 2) (.x 1)) (.mul (.num 2) (.x 2))) (.mul (.num 2) (.x 3))) (.num 2))) id
  (some [2, 2, 2], 2, "max")
#guard [0, 5, -5].all fun q => gives (objectiveOf .max (.num q)) id (none, q, "max") && gives (objectiveOf .min (.num q)) id (none, q, "min")
#guard gives (compareX .le 0) id (.sign ⟨none, some []⟩) && gives (compareX .ge 0) id (.sign ⟨some [], none⟩)
#guard raises (compareX .le 5) .valueError && raises (compareX .ge 5) .valueError
#guard raises (indexX [] 0) .valueError && raises (indexX [] (-1)) .valueError

/-- `p.solve()` for a formulation in the linear package. -/
def solveFormulation (P : Abstract) : Except PyErr (Option (List ℚ)) :=
  match (getProgram P).2 with
  | .ok (.linear p) => solve 100 p.lp
  | .ok (.integer _) => .error .typeError
  | .error e => .error e

#guard gives ((formulate .linear .max [] (.add (.x 1) (.x 2)) [(.le, .x 1, .num 5), (.le, .x 2, .num 5)]).bind fun P =>
  match whereAllNegative P with
  | (P, none) => solveFormulation P
  | (_, some e) => .error e) id (some [0, 0])

end Formulation

end Conformance
end Pytimize
