/-
Model of `pytimize/graphs/_undirected.py` (class `UndirectedGraph`), function by function.

A Python `str` is the list of its characters (`Name`); `sorted` compares code points, which is the
lexicographic order of `List Char`. Adjacency sets are duplicate-free lists; where the code iterates
over a set the iteration order is an explicit parameter (`ord`, `pick`). Numbers are exact rationals.
Functions that can raise return the object together with the exception.

`__repr__` (`:70-87`) is in `UndirectedText`, `_hash_edge` (`:694-709`, only reachable after the exception of
`shortestPath`) in `EdgeHash`. Not modelled: the stubs `remove_vertex` (`:184`) and `is_binary_tree` (`:691`), and edge tuples whose
length is not two.
-/
import Verif.Graph.Directed
import Verif.LP.Basic
import Mathlib.Data.List.Lex
import Mathlib.Data.Char
import Mathlib.Order.Lattice

namespace Pytimize
namespace Undirected

open Directed (Name chars setAdd NodeArg)

/-- An edge as given by the user or stored in `_edges`. -/
abbrev Edge := Name × Name

/-- The attributes of an `UndirectedGraph`, `_undirected.py:38-40`. -/
structure Ugraph where
  graph : Dict Name (List Name)
  edges : Dict Edge ℚ
  vertices : Dict Name ℚ
  deriving DecidableEq

/-- The object of `UndirectedGraph()`. -/
def Ugraph.empty : Ugraph := ⟨[], [], []⟩

/-- `tuple(sorted(edge))`. -/
def norm (e : Edge) : Edge := if e.2 < e.1 then (e.2, e.1) else e

/-- `has_vertex`, `_undirected.py:187-202`. -/
def hasVertex (g : Ugraph) (v : Name) : Bool := g.vertices.has v

/-- `has_edge`, `_undirected.py:145-160`. -/
def hasEdge (g : Ugraph) (e : Edge) : Bool := g.edges.has (norm e)

/-- `self._graph.setdefault(u, set()).add(v)`. -/
def link (d : Dict Name (List Name)) (u v : Name) : Dict Name (List Name) :=
  d.set u (setAdd ((d.get? u).getD []) v)

/-- `add_edge`, `_undirected.py:105-136`. -/
def addEdge (g : Ugraph) (edge : Edge) (weight : ℚ) : Ugraph × Option PyErr :=
  if weight < 0 then (g, some .valueError)
  else if edge.1 = edge.2 then (g, some .valueError)
  else if edge.1 = [] ∨ edge.2 = [] then (g, some .valueError)
  else
    let e := norm edge
    if hasEdge g e then (g, some .valueError)
    else
      ({ graph := link (link g.graph e.1 e.2) e.2 e.1
         edges := g.edges.setDefault e weight
         vertices := (g.vertices.setDefault e.1 0).setDefault e.2 0 }, none)

/-- `self._graph[u].remove(v)`: `KeyError` if `u` is no key or `v` is no element. -/
def unlink (d : Dict Name (List Name)) (u v : Name) : Except PyErr (Dict Name (List Name)) :=
  match d.get? u with
  | none => .error .keyError
  | some l => if v ∈ l then .ok (d.set u (l.erase v)) else .error .keyError

/-- `remove_edge`, `_undirected.py:138-143`. -/
def removeEdge (g : Ugraph) (edge : Edge) : Ugraph × Option PyErr :=
  if hasEdge g edge then
    match unlink g.graph edge.1 edge.2 with
    | .error e => (g, some e)
    | .ok d1 =>
      match unlink d1 edge.2 edge.1 with
      | .error e => ({ g with graph := d1 }, some e)
      | .ok d2 => ({ g with graph := d2 }, none)
  else (g, some .valueError)

/-- `add_vertex`, `_undirected.py:162-182`. -/
def addVertex (g : Ugraph) (v : Name) (weight : ℚ) : Ugraph × Option PyErr :=
  if weight < 0 then (g, some .valueError)
  else if hasVertex g v then (g, some .valueError)
  else ({ g with graph := g.graph.setDefault v [], vertices := g.vertices.setDefault v weight }, none)

/-- `set_edge_weight`, `_undirected.py:204-208`. -/
def setEdgeWeight (g : Ugraph) (edge : Edge) (w : ℚ) : Ugraph × Option PyErr :=
  if hasEdge g edge then ({ g with edges := g.edges.set (norm edge) w }, none)
  else (g, some .valueError)

/-- `set_vertex_weight`, `_undirected.py:210-214`. -/
def setVertexWeight (g : Ugraph) (v : Name) (w : ℚ) : Ugraph × Option PyErr :=
  if hasVertex g v then ({ g with vertices := g.vertices.set v w }, none)
  else (g, some .valueError)

/-- `get_edge_weight`, `_undirected.py:216-234`. -/
def getEdgeWeight (g : Ugraph) (edge : Edge) : Except PyErr ℚ :=
  if hasEdge g edge then
    match g.edges.get? (norm edge) with
    | some w => .ok w
    | none => .error .keyError
  else .error .valueError

/-- `get_vertex_weight`, `_undirected.py:236-254`. -/
def getVertexWeight (g : Ugraph) (v : Name) : Except PyErr ℚ :=
  if hasVertex g v then
    match g.vertices.get? v with
    | some w => .ok w
    | none => .error .keyError
  else .error .valueError

/-! ### Constructor -/

/-- `for connection in connections: ...`, `_undirected.py:48-54`, in the iteration order of the set. -/
def ctorConns (g : Ugraph) (u : Name) : List Name → Ugraph × Option PyErr
  | [] => (g, none)
  | v :: vs =>
    if hasEdge g (u, v) then ctorConns g u vs
    else match addEdge g (u, v) 0 with
      | (g', some e) => (g', some e)
      | (g', none) => ctorConns g' u vs

/-- `for vertex, connections in graph.items(): ...`, `_undirected.py:42-54`. -/
def ctorGraph (g : Ugraph) : List (Name × List Name) → Ugraph × Option PyErr
  | [] => (g, none)
  | (u, vs) :: rest =>
    if vs.length = 0 then
      if hasVertex g u then ctorGraph g rest
      else match addVertex g u 0 with
        | (g', some e) => (g', some e)
        | (g', none) => ctorGraph g' rest
    else match ctorConns g u vs with
      | (g', some e) => (g', some e)
      | (g', none) => ctorGraph g' rest

/-- `for edge, weight in edges.items(): ...`, `_undirected.py:56-61`. -/
def ctorEdges (g : Ugraph) : List (Edge × ℚ) → Ugraph × Option PyErr
  | [] => (g, none)
  | (a, w) :: rest =>
    let (g1, e1) := if hasEdge g a then (g, none) else addEdge g a 0
    match e1 with
    | some e => (g1, some e)
    | none => match setEdgeWeight g1 a w with
      | (g2, some e) => (g2, some e)
      | (g2, none) => ctorEdges g2 rest

/-- `for vertex, weight in vertices.items(): ...`, `_undirected.py:63-68`. -/
def ctorVertices (g : Ugraph) : List (Name × ℚ) → Ugraph × Option PyErr
  | [] => (g, none)
  | (v, w) :: rest =>
    let (g1, e1) := if hasVertex g v then (g, none) else addVertex g v 0
    match e1 with
    | some e => (g1, some e)
    | none => match setVertexWeight g1 v w with
      | (g2, some e) => (g2, some e)
      | (g2, none) => ctorVertices g2 rest

/-- `UndirectedGraph(graph, edges, vertices)`, `_undirected.py:14-68`; a missing argument is `[]`. -/
def ctor (graph : List (Name × List Name)) (edges : List (Edge × ℚ)) (vertices : List (Name × ℚ)) :
    Except PyErr Ugraph :=
  match ctorGraph Ugraph.empty graph with
  | (_, some e) => .error e
  | (g1, none) =>
    match ctorEdges g1 edges with
    | (_, some e) => .error e
    | (g2, none) =>
      match ctorVertices g2 vertices with
      | (_, some e) => .error e
      | (g3, none) => .ok g3

/-- A mutating API call. -/
inductive Op
  | addEdge (e : Edge) (w : ℚ)
  | removeEdge (e : Edge)
  | addVertex (v : Name) (w : ℚ)
  | setEdgeWeight (e : Edge) (w : ℚ)
  | setVertexWeight (v : Name) (w : ℚ)
  deriving DecidableEq

/-- One API call: the object afterwards and the exception raised, if any. -/
def step (g : Ugraph) : Op → Ugraph × Option PyErr
  | .addEdge e w => addEdge g e w
  | .removeEdge e => removeEdge g e
  | .addVertex v w => addVertex g v w
  | .setEdgeWeight e w => setEdgeWeight g e w
  | .setVertexWeight v w => setVertexWeight g v w

/-- A history of calls (a raised exception is caught by the user, who goes on). -/
def run (g : Ugraph) (ops : List Op) : Ugraph := ops.foldl (fun g o => (step g o).1) g

/-! ### Equality, emptiness, cuts -/

/-- `d1 == d2` on dictionaries: same keys, equal values, in any order. -/
def dictEq {V : Type} (eqv : V → V → Bool) {K : Type} [DecidableEq K] (d1 d2 : Dict K V) : Bool :=
  decide (d1.length = d2.length) &&
    d1.all fun p => match d2.get? p.1 with
      | some v => eqv p.2 v
      | none => false

/-- `s1 == s2` on sets. -/
def setEq (l1 l2 : List Name) : Bool :=
  decide (l1.length = l2.length) && l1.all fun x => decide (x ∈ l2)

/-- `__eq__`, `_undirected.py:89-103`. -/
def graphEq (g other : Ugraph) : Bool :=
  dictEq setEq other.graph g.graph && dictEq (fun x y => decide (x = y)) other.edges g.edges &&
    dictEq (fun x y => decide (x = y)) other.vertices g.vertices

/-- `is_empty`, `_undirected.py:600-610`. -/
def isEmpty (g : Ugraph) : Bool := decide (g.vertices.length = 0)

/-- `cut`, `_undirected.py:372-396` (the set of edges, listed in dictionary order). -/
def cut (g : Ugraph) (n : NodeArg) : List Edge :=
  g.edges.keys.filter fun x =>
    (decide (x.1 ∈ n.toSet) && decide (x.2 ∉ n.toSet)) ||
    (decide (x.2 ∈ n.toSet) && decide (x.1 ∉ n.toSet))

/-- `degree`, `_undirected.py:612-628`. -/
def degree (g : Ugraph) (n : NodeArg) : ℕ := (cut g n).length

/-! ### Traversal -/

/-- The loop of `traverse`, `_undirected.py:480-489`. `ord` is `sorted(·, key=order)` applied to an
adjacency set: any rearrangement. The yielded vertices are returned in order. -/
def bfsLoop (ord : List Name → List Name) (g : Ugraph) :
    ℕ → List Name → List Name → Except PyErr (List Name)
  | 0, _, _ => .error .notTerminated
  | _ + 1, [], _ => .ok []
  | k + 1, cur :: queue, visited =>
    if cur ∈ visited then bfsLoop ord g k queue visited
    else match g.graph.get? cur with
      | none => .error .keyError
      | some l => (bfsLoop ord g k (queue ++ ord l) (cur :: visited)).map (cur :: ·)

/-- Enough iterations for every traversal: one per start and per adjacency entry. -/
def fuel (g : Ugraph) : ℕ := (g.graph.map fun p => p.2.length).sum + 2

/-- The `method` argument of `traverse`. -/
inductive Method | bfs | dfs | rng
  deriving DecidableEq

/-- `list(traverse(start, method, order))`, `_undirected.py:436-489`. The function contains `yield`,
so it is a generator: `return iter(vertices)` in the `"rng"` branch ends it without yielding. -/
def traverse (ord : List Name → List Name) (g : Ugraph) (start : Name) (m : Method) :
    Except PyErr (List Name) :=
  if hasVertex g start then
    if m = .rng then .ok []
    else bfsLoop ord g (fuel g) [start] []
  else .error .valueError

/-- `sorted(·)` on strings. -/
def sortNames (l : List Name) : List Name := l.insertionSort (· ≤ ·)

/-- `dfs`, `_undirected.py:430-431`. -/
def dfs (g : Ugraph) (start : Name) : Except PyErr (List Name) := traverse sortNames g start .dfs

/-- `bfs`, `_undirected.py:433-434`. -/
def bfs (g : Ugraph) (start : Name) : Except PyErr (List Name) := traverse sortNames g start .bfs

/-- `is_connected`, `_undirected.py:491-504`. -/
def isConnected (g : Ugraph) : Except PyErr Bool :=
  match g.vertices with
  | [] => .ok false
  | (v, _) :: _ => (bfs g v).map fun l => decide (l.length = g.vertices.length)

/-- `has_spanning_tree`, `_undirected.py:630-631`. -/
def hasSpanningTree (g : Ugraph) : Except PyErr Bool := isConnected g

/-- `minimum_spanning_tree`, `_undirected.py:633-661`: raises, or falls off the end (`None`). -/
def minimumSpanningTree (g : Ugraph) : Except PyErr (Option Ugraph) :=
  match isConnected g with
  | .error e => .error e
  | .ok false => .error .valueError
  | .ok true => .ok none

/-- The inner loop of `is_cyclic`, `_undirected.py:522-529`: `none` = `return True`, `some visited` =
the queue ran empty. `ord` is the iteration order of an adjacency set at each step. -/
def cycLoop (ord : ℕ → List Name → List Name) (g : Ugraph) :
    ℕ → List Name → List Name → Except PyErr (Option (List Name))
  | 0, _, _ => .error .notTerminated
  | _ + 1, [], visited => .ok (some visited)
  | k + 1, cur :: queue, visited =>
    if cur ∈ visited then .ok none
    else match g.graph.get? cur with
      | none => .error .keyError
      | some l => cycLoop ord g k (queue ++ ord k l) (cur :: visited)

/-- The outer loop of `is_cyclic`, `_undirected.py:518-533`. `pick` is `next(iter(unexplored))`. -/
def cycOuter (ord : ℕ → List Name → List Name) (pick : List Name → Name) (g : Ugraph) :
    ℕ → List Name → Except PyErr Bool
  | 0, _ => .error .notTerminated
  | _ + 1, [] => .ok false
  | k + 1, u :: us =>
    match cycLoop ord g (g.vertices.length + 2) [pick (u :: us)] [] with
    | .error e => .error e
    | .ok none => .ok true
    | .ok (some visited) => cycOuter ord pick g k ((u :: us).filter (· ∉ visited))

/-- `is_cyclic`, `_undirected.py:506-533`. -/
def isCyclic (ord : ℕ → List Name → List Name) (pick : List Name → Name) (g : Ugraph) :
    Except PyErr Bool :=
  cycOuter ord pick g (g.vertices.length + 1) g.vertices.keys

/-- The loop of `is_tree`, `_undirected.py:680-687`: `none` = `return False`, else `visited`.
`ord` is the iteration order of `set(...).difference(visited)` at each step. -/
def treeLoop (ord : ℕ → List Name → List Name) (g : Ugraph) :
    ℕ → List Name → List Name → Except PyErr (Option (List Name))
  | 0, _, _ => .error .notTerminated
  | _ + 1, [], visited => .ok (some visited)
  | k + 1, cur :: queue, visited =>
    if cur ∈ visited then .ok none
    else match g.graph.get? cur with
      | none => .error .keyError
      | some l =>
        treeLoop ord g k (queue ++ ord k (l.filter (· ∉ cur :: visited))) (cur :: visited)

/-- `is_tree`, `_undirected.py:663-689`. -/
def isTree (ord : ℕ → List Name → List Name) (g : Ugraph) : Except PyErr Bool :=
  match g.vertices with
  | [] => .ok false
  | (v, _) :: _ =>
    match treeLoop ord g (g.vertices.length + 2) [v] [] with
    | .error e => .error e
    | .ok none => .ok false
    | .ok (some visited) => .ok (decide (visited.length = g.vertices.length))

/-! ### Methods that cannot work -/

/-- The `for edge in self._graph[vertex]` loop of the first round of `shortest_path`,
`_undirected.py:274-290`, where `visited = {start}`. `edge` is a vertex name: `edge[0]` is its first
character, and `edge[1] - ...` subtracts a number from a string. -/
def spRound (start : Name) : List Name → Option PyErr
  | [] => none
  | edge :: rest =>
    match edge with
    | [] => some .indexError
    | [c] => if [c] = start then spRound start rest else some .indexError
    | c :: _ :: _ => if [c] = start then spRound start rest else some .typeError

/-- `shortest_path`, `_undirected.py:256-306`. The first round of the loop always raises: inside the
inner loop (`spRound`) or at `best_edge[1]` with `best_edge = None`, so no later line is reachable. -/
def shortestPath (g : Ugraph) (start finish : Name) : Except PyErr (List Edge) :=
  match g.graph.get? start with
  | none => .error .valueError
  | some l =>
    if g.graph.has finish then
      if finish = start then .ok []
      else match spRound start l with
        | some e => .error e
        | none => .error .typeError
    else .error .valueError

/-- `formulate_shortest_path`, `_undirected.py:308-370`. `vertices = self.vertices` is a dictionary,
which has no method `remove`: no later line is reachable. -/
def formulateShortestPath (g : Ugraph) (start finish : Name) : Except PyErr LinProg.Prog :=
  if !g.graph.has start then .error .valueError
  else if !g.graph.has finish then .error .valueError
  else .error .attributeError

/-- `partition`, `_undirected.py:553-598`. In the first round of the loops
`self._graph[current].items()` is an attribute that sets do not have. -/
def partition (g : Ugraph) : Except PyErr (List Ugraph) :=
  if g.vertices.length = 0 then .ok [] else .error .attributeError

/-! ### The stable-set formulation -/

/-- A numpy array while rows are stacked onto it: one-dimensional or a list of rows. -/
inductive Stack
  | d1 (l : List ℚ)
  | d2 (columns : ℕ) (rows : List (List ℚ))
  deriving DecidableEq

/-- `np.vstack((A, row))`. -/
def Stack.vstack : Stack → List ℚ → Except PyErr Stack
  | .d1 l, r => if l.length = r.length then .ok (.d2 r.length [l, r]) else .error .valueError
  | .d2 c rows, r => if c = r.length then .ok (.d2 c (rows ++ [r])) else .error .valueError

/-- `A[1:]`. -/
def Stack.tail : Stack → Stack
  | .d1 l => .d1 l.tail
  | .d2 c rows => .d2 c rows.tail

/-- Stacking several rows, `_undirected.py:407-411` and `:422-426`. -/
def Stack.vstacks : Stack → List (List ℚ) → Except PyErr Stack
  | s, [] => .ok s
  | s, r :: rs => match s.vstack r with
    | .error e => .error e
    | .ok s' => s'.vstacks rs

/-- The array as an argument of the constructor. -/
def Stack.toVal : Stack → LinProg.PyVal
  | .d1 l => .nd1 l
  | .d2 c rows => .nd2 rows.length c fun i j => ((rows[i])[(j : ℕ)]?).getD 0

/-- `mapping`, `_undirected.py:402`. -/
def mapping (g : Ugraph) : Dict Name ℕ := g.vertices.keys.zipIdx

/-- `row = np.zeros(columns); row[i] = 1` for each given `i`. -/
def unitRow (columns : ℕ) (is : List ℕ) : List ℚ :=
  (List.range columns).map fun j => if j ∈ is then 1 else 0

/-- `mapping[v]`; `KeyError` is impossible for endpoints of edges, see `UWF`. -/
def col (g : Ugraph) (v : Name) : ℕ := ((mapping g).get? v).getD 0

/-- `c = np.zeros(columns); for vertex, weight in ...: c[mapping[vertex]] = weight`,
`_undirected.py:415, 418-419`. -/
def costs (g : Ugraph) : List ℚ :=
  g.vertices.foldl (fun c p => c.set (col g p.1) p.2) (List.replicate (mapping g).length 0)

/-- `formulate_max_stable_set`, `_undirected.py:398-428`. `junk` is the content of
`np.empty(columns)`. -/
def formulateMaxStableSet (junk : List ℚ) (g : Ugraph) :
    Except PyErr (Option (LinProg.IntProgram × Dict Name ℕ)) :=
  if isEmpty g then .ok none
  else
    let columns := (mapping g).length
    let rows := g.edges.length
    match (Stack.d1 junk).vstacks (g.edges.keys.map fun e => unitRow columns [col g e.1, col g e.2]) with
    | .error e => .error e
    | .ok A =>
      match A.tail.vstacks ((List.range columns).map fun i => unitRow columns [i]) with
      | .error e => .error e
      | .ok A' =>
        match LinProg.ctor A'.toVal (.nd1 (List.replicate (rows + columns) 1)) (.nd1 (costs g))
            0 "max" (some (List.replicate (rows + columns) "<=")) none none with
        | .error e => .error e
        | .ok p => .ok (some (⟨p, none⟩, mapping g))

end Undirected
end Pytimize
