/-
Model of `pytimize/graphs/_directed.py` (class `DirectedGraph`), function by function.

A Python `str` is the list of its characters (`Name`), because `cut`/`ncut` apply `set(...)` to a
node name, which yields the set of its characters. Adjacency sets are duplicate-free lists.
Numbers are exact rationals. Functions that can raise after having changed the object return the
object together with the exception.
-/
import Verif.Py
import Mathlib.Data.Rat.Defs
import Mathlib.Algebra.Order.Ring.Rat

namespace Pytimize
namespace Directed

/-- A Python `str`. -/
abbrev Name := List Char

/-- An arc `(tail, head)`. -/
abbrev Arc := Name × Name

/-- `set(name)` / iterating over a `str`: the one-character strings. -/
def chars (s : Name) : List Name := s.map fun c => [c]

/-- The attributes of a `DirectedGraph`, `_directed.py:31-33`. -/
structure Digraph where
  graph : Dict Name (List Name)
  arcs : Dict Arc ℚ
  nodes : Dict Name ℚ
  deriving DecidableEq

/-- The object of `DirectedGraph()`. -/
def Digraph.empty : Digraph := ⟨[], [], []⟩

/-- `has_node`, `_directed.py:232-247`. -/
def hasNode (g : Digraph) (v : Name) : Bool := g.nodes.has v

/-- `has_arc`, `_directed.py:249-264`. -/
def hasArc (g : Digraph) (a : Arc) : Bool := g.arcs.has a

/-- The effect of `s.add(x)` on an adjacency set. -/
def setAdd (l : List Name) (x : Name) : List Name := if x ∈ l then l else l ++ [x]

/-- `set_arc_weight`, `_directed.py:63-67`. -/
def setArcWeight (g : Digraph) (a : Arc) (w : ℚ) : Digraph × Option PyErr :=
  if hasArc g a then ({ g with arcs := g.arcs.set a w }, none) else (g, some .valueError)

/-- `set_node_weight`, `_directed.py:69-73`. -/
def setNodeWeight (g : Digraph) (v : Name) (w : ℚ) : Digraph × Option PyErr :=
  if hasNode g v then ({ g with nodes := g.nodes.set v w }, none) else (g, some .valueError)

/-- `add_node`, `_directed.py:119-136`. -/
def addNode (g : Digraph) (v : Name) (demand : ℚ) : Digraph × Option PyErr :=
  if hasNode g v then (g, some .valueError)
  else ({ g with graph := g.graph.setDefault v [], nodes := g.nodes.setDefault v demand }, none)

/-- The `demands` argument of `add_arc`: `None`, a number, or a tuple of numbers. -/
inductive Demands
  | none
  | scalar (q : ℚ)
  | tuple (l : List ℚ)
  deriving DecidableEq

/-- Truth value of `demands` (`0`, `()` and `None` are falsy). -/
def Demands.truthy : Demands → Bool
  | .none => false
  | .scalar q => decide (q ≠ 0)
  | .tuple l => !l.isEmpty

/-- `isinstance(demands, tuple)`. -/
def Demands.isTuple : Demands → Bool
  | .tuple _ => true
  | _ => false

/-- `demands[i] if demands else 0`: subscripting a number raises `TypeError`, a short tuple
`IndexError`. -/
def Demands.entry (d : Demands) (i : ℕ) : Except PyErr ℚ :=
  if d.truthy then
    match d with
    | .tuple l => match l[i]? with
      | some q => .ok q
      | Option.none => .error .indexError
    | _ => .error .typeError
  else .ok 0

/-- `self.add_node(v, demands[i] if demands else 0)` as used in `add_arc`. -/
def addEnd (g : Digraph) (v : Name) (d : Demands) (i : ℕ) : Digraph × Option PyErr :=
  match d.entry i with
  | .error e => (g, some e)
  | .ok q => addNode g v q

/-- `add_arc`, `_directed.py:75-117`. -/
def addArc (g : Digraph) (a : Arc) (w : ℚ) (d : Demands) : Digraph × Option PyErr :=
  if hasArc g a then (g, some .valueError)
  else if a.1 = a.2 then (g, some .valueError)
  else
    let g1 : Digraph :=
      { g with
        graph := g.graph.set a.1 (setAdd ((g.graph.get? a.1).getD []) a.2)
        arcs := g.arcs.setDefault a w }
    let aExists := hasNode g1 a.1
    let bExists := hasNode g1 a.2
    if !aExists && !bExists then
      if d.truthy && !d.isTuple then (g1, some .typeError)
      else
        match addEnd g1 a.1 d 0 with
        | (g2, some e) => (g2, some e)
        | (g2, none) => addEnd g2 a.2 d 1
    else if !aExists then addEnd g1 a.1 d 0
    else if !bExists then addEnd g1 a.2 d 1
    else (g1, none)

/-- The argument of `cut`, `ncut` and the degree functions: an iterable of names or one `str`. -/
inductive NodeArg
  | iter (l : List Name)
  | name (s : Name)

/-- `nodes = set(nodes)` in `cut`/`ncut`, `_directed.py:198-199, 222-223`. -/
def NodeArg.toSet : NodeArg → List Name
  | .iter l => l
  | .name s => chars s

/-- `cut`, `_directed.py:183-205` (the set of arcs, listed in dictionary order). -/
def cut (g : Digraph) (n : NodeArg) : List Arc :=
  g.arcs.keys.filter fun a => decide (a.1 ∈ n.toSet) && decide (a.2 ∉ n.toSet)

/-- `ncut`, `_directed.py:207-230`. -/
def ncut (g : Digraph) (n : NodeArg) : List Arc :=
  g.arcs.keys.filter fun a => decide (a.2 ∈ n.toSet) && decide (a.1 ∉ n.toSet)

/-- `indegree`, `_directed.py:266-281`. -/
def indegree (g : Digraph) (n : NodeArg) : ℕ := (ncut g n).length

/-- `outdegree`, `_directed.py:283-298`. -/
def outdegree (g : Digraph) (n : NodeArg) : ℕ := (cut g n).length

/-- `connections`, `_directed.py:300-317`. -/
def connections (g : Digraph) (n : NodeArg) : ℕ := indegree g n + outdegree g n

/-- `del self._graph[v]; del self._nodes[v]`, `_directed.py:161-162, 165-166`. -/
def dropNode (g : Digraph) (v : Name) : Digraph × Option PyErr :=
  if g.graph.has v then
    let g1 := { g with graph := g.graph.del v }
    if g1.nodes.has v then ({ g1 with nodes := g1.nodes.del v }, none)
    else (g1, some .keyError)
  else (g, some .keyError)

/-- `remove_arc`, `_directed.py:139-166`. -/
def removeArc (g : Digraph) (a : Arc) (removeNodes : Bool) : Digraph × Option PyErr :=
  if hasArc g a then
    let g1 := { g with arcs := g.arcs.del a }
    match g1.graph.get? a.1 with
    | none => (g1, some .keyError)
    | some l =>
      if a.2 ∈ l then
        let g2 := { g1 with graph := g1.graph.set a.1 (l.erase a.2) }
        if removeNodes then
          let (g3, e3) := if connections g2 (.name a.1) = 0 then dropNode g2 a.1 else (g2, none)
          match e3 with
          | some e => (g3, some e)
          | none =>
            if connections g3 (.name a.2) = 0 then dropNode g3 a.2 else (g3, none)
        else (g2, none)
      else (g1, some .keyError)
  else (g, some .valueError)

/-- `for connection in connections: ...`, `_directed.py:42-49`. -/
def ctorConns (g : Digraph) (u : Name) : List Name → Digraph × Option PyErr
  | [] => (g, none)
  | v :: vs =>
    if hasArc g (u, v) then ctorConns g u vs
    else match addArc g (u, v) 0 .none with
      | (g', some e) => (g', some e)
      | (g', none) => ctorConns g' u vs

/-- `for node, connections in graph.items(): ...`, `_directed.py:35-49`. The list of connections
is the iteration order of the Python set. -/
def ctorGraph (g : Digraph) : List (Name × List Name) → Digraph × Option PyErr
  | [] => (g, none)
  | (u, vs) :: rest =>
    if vs.length = 0 then
      if hasNode g u then ctorGraph g rest
      else match addNode g u 0 with
        | (g', some e) => (g', some e)
        | (g', none) => ctorGraph g' rest
    else match ctorConns g u vs with
      | (g', some e) => (g', some e)
      | (g', none) => ctorGraph g' rest

/-- `for arc, weight in arcs.items(): ...`, `_directed.py:51-56`. -/
def ctorArcs (g : Digraph) : List (Arc × ℚ) → Digraph × Option PyErr
  | [] => (g, none)
  | (a, w) :: rest =>
    let (g1, e1) := if hasArc g a then (g, none) else addArc g a w .none
    match e1 with
    | some e => (g1, some e)
    | none => match setArcWeight g1 a w with
      | (g2, some e) => (g2, some e)
      | (g2, none) => ctorArcs g2 rest

/-- `for node, weight in nodes.items(): ...`, `_directed.py:58-63`. -/
def ctorNodes (g : Digraph) : List (Name × ℚ) → Digraph × Option PyErr
  | [] => (g, none)
  | (v, w) :: rest =>
    let (g1, e1) := if hasNode g v then (g, none) else addNode g v 0
    match e1 with
    | some e => (g1, some e)
    | none => match setNodeWeight g1 v w with
      | (g2, some e) => (g2, some e)
      | (g2, none) => ctorNodes g2 rest

/-- `DirectedGraph(graph, arcs, nodes)`, `_directed.py:7-61`; a missing argument is `[]`. -/
def ctor (graph : List (Name × List Name)) (arcs : List (Arc × ℚ)) (nodes : List (Name × ℚ)) :
    Except PyErr Digraph :=
  match ctorGraph Digraph.empty graph with
  | (_, some e) => .error e
  | (g1, none) =>
    match ctorArcs g1 arcs with
    | (_, some e) => .error e
    | (g2, none) =>
      match ctorNodes g2 nodes with
      | (_, some e) => .error e
      | (g3, none) => .ok g3

/-- A mutating API call. -/
inductive Op
  | addNode (v : Name) (demand : ℚ)
  | addArc (a : Arc) (w : ℚ) (d : Demands)
  | removeArc (a : Arc) (removeNodes : Bool)
  | setArcWeight (a : Arc) (w : ℚ)
  | setNodeWeight (v : Name) (w : ℚ)

/-- One API call: the object afterwards and the exception raised, if any. -/
def step (g : Digraph) : Op → Digraph × Option PyErr
  | .addNode v q => addNode g v q
  | .addArc a w d => addArc g a w d
  | .removeArc a r => removeArc g a r
  | .setArcWeight a w => setArcWeight g a w
  | .setNodeWeight v w => setNodeWeight g v w

/-- A history of calls (a raised exception is caught by the user, who goes on). -/
def run (g : Digraph) (ops : List Op) : Digraph := ops.foldl (fun g o => (step g o).1) g

/-! ### Residual dictionaries -/

/-- `Dict[str, Dict[str, float]]`. -/
abbrev Resid := Dict Name (Dict Name ℚ)

/-- A flow dictionary. -/
abbrev Flow := Dict Arc ℚ

/-- `residual.setdefault(u, {})[v] = x`. -/
def put (r : Resid) (u v : Name) (x : ℚ) : Resid := r.set u (((r.get? u).getD []).set v x)

/-- `residual[u][v]`, `none` for `KeyError`. -/
def lookup (r : Resid) (u v : Name) : Option ℚ := (r.get? u).bind fun d => d.get? v

/-- `del residual[u][v]` (guarded by the callers). -/
def delIn (r : Resid) (u v : Name) : Resid :=
  match r.get? u with
  | none => r
  | some d => r.set u (d.del v)

/-- `_compute_residual`, `_directed.py:335-353`: the loop over `self._arcs.items()`. -/
def resLoop (flow : Flow) : List (Arc × ℚ) → Resid → Except PyErr Resid
  | [], r => .ok r
  | ((u, v), capacity) :: rest, r =>
    let value := (flow.get? (u, v)).getD 0
    if capacity < value then .error .arithmeticError
    else
      let r1 := if capacity > value then put r u v (capacity - value) else r
      let r2 := if value > 0 then put r1 v u value else r1
      resLoop flow rest r2

/-- `_compute_residual`, `_directed.py:335-353`. -/
def computeResidual (g : Digraph) (flow : Flow) : Except PyErr Resid := resLoop flow g.arcs []

/-- The two nested loops flattening the residual, `_directed.py:327-331`. -/
def flattenResid (r : Resid) : Dict Arc ℚ :=
  r.foldl (fun acc p => p.2.foldl (fun acc q => Dict.set acc (p.1, q.1) q.2) acc) []

/-- `create_residual`, `_directed.py:319-333`. -/
def createResidual (g : Digraph) (flow : Flow) : Except PyErr Digraph :=
  if flow.any (fun p => !g.arcs.has p.1 || decide (p.2 < 0)) then .error .valueError
  else if g.arcs.values.any (fun w => decide (w < 0)) then .error .valueError
  else
    match computeResidual g flow with
    | .error e => .error e
    | .ok r => ctor [] (flattenResid r) []

/-- Lines `_directed.py:430-443` and `:545-557`: write both residual entries, then delete zero
entries and empty rows. -/
def updRes (r : Resid) (u v : Name) (x y : ℚ) : Except PyErr Resid :=
  let r1 := put r u v x
  let r2 := put r1 v u y
  match lookup r2 u v with
  | none => .error .keyError
  | some a =>
    let r3 := if a = 0 then delIn r2 u v else r2
    match lookup r3 v u with
    | none => .error .keyError
    | some b =>
      let r4 := if b = 0 then delIn r3 v u else r3
      match r4.get? u with
      | none => .error .keyError
      | some du =>
        let r5 := if du.length = 0 then r4.del u else r4
        match r5.get? v with
        | none => .error .keyError
        | some dv => .ok (if dv.length = 0 then r5.del v else r5)

/-! ### Ford–Fulkerson -/

/-- The inner `for` of `_bfs_path`, `_directed.py:473-483`: either the target is found (`inl`, the
parent dictionary) or the loop ends with the new queue, seen set and parents. -/
def bfsFor (target cur : Name) : List Name → List Name → List Name → Dict Name Name →
    Dict Name Name ⊕ (List Name × List Name × Dict Name Name)
  | [], queue, seen, parent => .inr (queue, seen, parent)
  | e :: es, queue, seen, parent =>
    if e ∈ seen then bfsFor target cur es queue seen parent
    else
      let parent' := parent.set e cur
      if e = target then .inl parent'
      else bfsFor target cur es (queue ++ [e]) (e :: seen) parent'

/-- The `while` of `_bfs_path`, `_directed.py:470-485`. -/
def bfsWhile (target : Name) (r : Resid) : ℕ → List Name → List Name → Dict Name Name →
    Except PyErr (Option (Dict Name Name))
  | 0, _, _, _ => .error .notTerminated
  | _ + 1, [], _, _ => .ok none
  | fuel + 1, cur :: queue, seen, parent =>
    match bfsFor target cur ((r.get? cur).getD []).keys queue seen parent with
    | .inl p => .ok (some p)
    | .inr (q, s, p) => bfsWhile target r fuel q s p

/-- `_bfs_path`, `_directed.py:465-485`. -/
def bfsPath (fuel : ℕ) (source target : Name) (r : Resid) : Except PyErr (Option (Dict Name Name)) :=
  bfsWhile target r fuel [source] [source] []

/-- First inner `while` of `ford_fulkerson`, `_directed.py:526-529`; the accumulator `none` is
`math.inf`. -/
def minWhile (path : Dict Name Name) (r : Resid) : ℕ → Option Name → Name → Option ℚ →
    Except PyErr (Option ℚ)
  | 0, _, _, _ => .error .notTerminated
  | _ + 1, none, _, acc => .ok acc
  | fuel + 1, some u, v, acc =>
    match lookup r u v with
    | none => .error .keyError
    | some x => minWhile path r fuel (path.get? u) u
        (some (match acc with
          | none => x
          | some m => min m x))

/-- One augmentation of an arc, `_directed.py:535-557`. Note that, unlike `preflow_push`, the code
does not swap `u` and `v` when it works on the reversed arc. -/
def ffPush (arcs : Dict Arc ℚ) (flow : Flow) (r : Resid) (u v : Name) (δ : ℚ) :
    Except PyErr (Flow × Resid) :=
  if flow.has (u, v) then
    match flow.get? (u, v), arcs.get? (u, v) with
    | some f, some c =>
      match updRes r u v (c - (f + δ)) (f + δ) with
      | .error e => .error e
      | .ok r' => .ok (flow.set (u, v) (f + δ), r')
    | _, _ => .error .keyError
  else
    match flow.get? (v, u), arcs.get? (v, u) with
    | some f, some c =>
      match updRes r u v (c - (f - δ)) (f - δ) with
      | .error e => .error e
      | .ok r' => .ok (flow.set (v, u) (f - δ), r')
    | _, _ => .error .keyError

/-- Second inner `while` of `ford_fulkerson`, `_directed.py:534-560`. -/
def augWhile (arcs : Dict Arc ℚ) (path : Dict Name Name) (δ : ℚ) : ℕ → Option Name → Name →
    Flow → Resid → Except PyErr (Flow × Resid)
  | 0, _, _, _, _ => .error .notTerminated
  | _ + 1, none, _, flow, r => .ok (flow, r)
  | fuel + 1, some u, v, flow, r =>
    match ffPush arcs flow r u v δ with
    | .error e => .error e
    | .ok (flow', r') => augWhile arcs path δ fuel (path.get? u) u flow' r'

/-- The body of the outer `while` of `ford_fulkerson` for a found path, `_directed.py:522-560`.
`inner` bounds the iterations of the inner loops. -/
def ffBody (g : Digraph) (sink : Name) (inner : ℕ) (path : Dict Name Name) (flow : Flow)
    (r : Resid) : Except PyErr (Flow × Resid) :=
  match path.get? sink with
  | none => .error .keyError
  | some u =>
    match minWhile path r inner (some u) sink none with
    | .error e => .error e
    | .ok none => .error .genericException
    | .ok (some δ) => augWhile g.arcs path δ inner (some u) sink flow r

/-- Fuel given to the breadth-first search and the path loops: they visit every node at most once
(`bfsPath_terminates`), so this is never the reason for `notTerminated`. -/
def innerFuel (g : Digraph) : ℕ := g.nodes.length + 2

/-- Outer loop of `ford_fulkerson`, `_directed.py:519-561`; one unit of fuel per search. -/
def ffLoop (g : Digraph) (source sink : Name) : ℕ → Flow → Resid → Except PyErr Flow
  | 0, _, _ => .error .notTerminated
  | fuel + 1, flow, r =>
    match bfsPath (innerFuel g) source sink r with
    | .error e => .error e
    | .ok none => .ok flow
    | .ok (some path) =>
      match ffBody g sink (innerFuel g) path flow r with
      | .error e => .error e
      | .ok (flow', r') => ffLoop g source sink fuel flow' r'

/-- `sum(flow[arc] for arc in arcs)`; every arc of the digraph is a key of the flows used. -/
def sumFlow (flow : Flow) (l : List Arc) : ℚ := (l.map fun a => (flow.get? a).getD 0).sum

/-- `value = sum(... cut(source)); value -= sum(... ncut(source))`, `_directed.py:460-461, 563-564`. -/
def flowValue (g : Digraph) (source : Name) (flow : Flow) : ℚ :=
  sumFlow flow (cut g (.name source)) - sumFlow flow (ncut g (.name source))

/-- The argument checks common to both algorithms, `_directed.py:377-384, 508-515`. -/
def checkEnds (g : Digraph) (source sink : Name) : Option PyErr :=
  if !hasNode g source then some .valueError
  else if !hasNode g sink then some .valueError
  else if source = sink then some .valueError
  else none

/-- `flow = {arc: 0 for arc in self._arcs}`, `_directed.py:517`. -/
def zeroFlow (g : Digraph) : Flow := g.arcs.map fun p => (p.1, 0)

/-- `ford_fulkerson`, `_directed.py:487-566`. -/
def fordFulkerson (fuel : ℕ) (g : Digraph) (source sink : Name) : Except PyErr (ℚ × Flow) :=
  match checkEnds g source sink with
  | some e => .error e
  | none =>
    match computeResidual g (zeroFlow g) with
    | .error e => .error e
    | .ok r =>
      match ffLoop g source sink fuel (zeroFlow g) r with
      | .error e => .error e
      | .ok flow => .ok (flowValue g source flow, flow)

/-! ### Preflow push -/

/-- The variables of the main loop of `preflow_push`; `value` is `none` while unbound. -/
structure PState where
  index : ℕ
  excess : Dict Name ℚ
  flow : Flow
  residual : Resid
  height : Dict Name ℕ
  value : Option ℚ

/-- `flow = {arc: self._arcs[arc] if arc in source_cut else 0 ...}`, `_directed.py:387-388`. -/
def initFlow (g : Digraph) (source : Name) : Flow :=
  g.arcs.map fun p => (p.1, if p.1 ∈ cut g (.name source) then p.2 else 0)

/-- `height = {...}`, `_directed.py:390-392`. -/
def initHeight (g : Digraph) (source : Name) : Dict Name ℕ :=
  g.nodes.map fun p => (p.1, if p.1 = source then g.nodes.length else 0)

/-- `nodes = list(filter(...))`, `_directed.py:393-395`. -/
def innerNodes (g : Digraph) (source sink : Name) : List Name :=
  g.nodes.keys.filter fun v => !decide (v = source) && !decide (v = sink)

/-- `excess[node] = ...; excess[node] -= ...`, `_directed.py:397-399`. -/
def initExcess (g : Digraph) (source sink : Name) (flow : Flow) : Dict Name ℚ :=
  (innerNodes g source sink).foldl (fun ex v =>
    Dict.set ex v (sumFlow flow (ncut g (.name v)) - sumFlow flow (cut g (.name v)))) []

/-- The flow and residual update of a push, `_directed.py:411-443`; here the code swaps the two
nodes when it works on the reversed arc. -/
def pushArc (arcs : Dict Arc ℚ) (flow : Flow) (r : Resid) (node endpoint : Name) (δ : ℚ) :
    Except PyErr (Flow × Resid) :=
  if flow.has (node, endpoint) then
    match flow.get? (node, endpoint), arcs.get? (node, endpoint) with
    | some f, some c =>
      match updRes r node endpoint (c - (f + δ)) (f + δ) with
      | .error e => .error e
      | .ok r' => .ok (flow.set (node, endpoint) (f + δ), r')
    | _, _ => .error .keyError
  else
    match flow.get? (endpoint, node), arcs.get? (endpoint, node) with
    | some f, some c =>
      match updRes r endpoint node (c - (f - δ)) (f - δ) with
      | .error e => .error e
      | .ok r' => .ok (flow.set (endpoint, node) (f - δ), r')
    | _, _ => .error .keyError

/-- The push of `preflow_push` along the residual arc `(node, endpoint)`, `_directed.py:409-449`. -/
def push (g : Digraph) (source sink : Name) (s : PState) (node endpoint : Name) (value : ℚ) :
    Except PyErr PState :=
  match s.excess.get? node with
  | none => .error .keyError
  | some ex =>
    let pushValue := min ex value
    match pushArc g.arcs s.flow s.residual node endpoint pushValue with
    | .error e => .error e
    | .ok (flow, residual) =>
      let e1 : Except PyErr (Dict Name ℚ) :=
        if node ≠ source ∧ node ≠ sink then .ok (s.excess.set node (ex - pushValue))
        else .ok s.excess
      match e1 with
      | .error e => .error e
      | .ok excess1 =>
        if endpoint ≠ source ∧ endpoint ≠ sink then
          match excess1.get? endpoint with
          | none => .error .keyError
          | some ee => .ok { s with excess := excess1.set endpoint (ee + pushValue), flow := flow,
                                    residual := residual }
        else .ok { s with excess := excess1, flow := flow, residual := residual }

/-- `for endpoint, value in residual[node].items(): if height[endpoint] == height[node] - 1`,
`_directed.py:407-408`: the first admissible endpoint. -/
def findAdmissible (height : Dict Name ℕ) (hn : ℕ) : List (Name × ℚ) →
    Except PyErr (Option (Name × ℚ))
  | [] => .ok none
  | (e, x) :: rest =>
    match height.get? e with
    | none => .error .keyError
    | some he => if (he : ℤ) = (hn : ℤ) - 1 then .ok (some (e, x)) else findAdmissible height hn rest

/-- `max_height = min(height[endpoint], max_height)` over `residual[node]`, `_directed.py:449-452`;
`none` is `math.inf`. -/
def minHeight (height : Dict Name ℕ) : List (Name × ℚ) → Option ℕ → Except PyErr (Option ℕ)
  | [], acc => .ok acc
  | (e, _) :: rest, acc =>
    match height.get? e with
    | none => .error .keyError
    | some he => minHeight height rest (some (match acc with
        | none => he
        | some m => min he m))

/-- The body for a node with positive excess, `_directed.py:404-456`. An infinite new height (no
residual arc left, impossible by `preflow` invariants) is reported as `genericException`. -/
def discharge (g : Digraph) (source sink : Name) (s : PState) (node : Name) : Except PyErr PState :=
  match s.residual.get? node, s.height.get? node with
  | some d, some hn =>
    match findAdmissible s.height hn d with
    | .error e => .error e
    | .ok (some (endpoint, value)) =>
      match push g source sink s node endpoint value with
      | .error e => .error e
      | .ok s' => .ok { s' with index := 0 }
    | .ok none =>
      match minHeight s.height d none with
      | .error e => .error e
      | .ok none => .error .genericException
      | .ok (some m) => .ok { s with height := s.height.set node (m + 1), index := 0 }
  | _, _ => .error .keyError

/-- One iteration of the main loop, `_directed.py:402-461`. -/
def pStep (g : Digraph) (source sink : Name) (nodes : List Name) (s : PState) (node : Name) :
    Except PyErr PState :=
  match s.excess.get? node with
  | none => .error .keyError
  | some ex =>
    let res := if ex > 0 then discharge g source sink s node
      else .ok { s with index := s.index + 1 }
    match res with
    | .error e => .error e
    | .ok s' => .ok { s' with value := some (flowValue g source s'.flow) }

/-- Main loop of `preflow_push`, `_directed.py:401-461`. -/
def pLoop (g : Digraph) (source sink : Name) (nodes : List Name) : ℕ → PState → Except PyErr PState
  | 0, _ => .error .notTerminated
  | fuel + 1, s =>
    match nodes[s.index]? with
    | none => .ok s
    | some node =>
      match pStep g source sink nodes s node with
      | .error e => .error e
      | .ok s' => pLoop g source sink nodes fuel s'

/-- The state before the main loop, `_directed.py:385-399`. -/
def pInit (g : Digraph) (source sink : Name) : Except PyErr PState :=
  let flow := initFlow g source
  match computeResidual g flow with
  | .error e => .error e
  | .ok r => .ok ⟨0, initExcess g source sink flow, flow, r, initHeight g source, none⟩

/-- `preflow_push`, `_directed.py:355-463`. -/
def preflowPush (fuel : ℕ) (g : Digraph) (source sink : Name) : Except PyErr (ℚ × Flow) :=
  match checkEnds g source sink with
  | some e => .error e
  | none =>
    match pInit g source sink with
    | .error e => .error e
    | .ok s =>
      match pLoop g source sink (innerNodes g source sink) fuel s with
      | .error e => .error e
      | .ok s' =>
        match s'.value with
        | none => .error .unboundLocalError
        | some v => .ok (v, s'.flow)

end Directed
end Pytimize
