/-
`preflow_push` (`pytimize/graphs/_directed.py:335-463`) with a rounding after every arithmetic operation. Comparisons,
`min`, and the heights (Python integers) are exact. `sum(flow[arc] for arc in arcs)` is a parameter: `arcs` is a Python set,
whose order is not specified, and the built-in `sum` of floats adds one by one before Python 3.12 and compensates rounding
errors since.
-/
import Verif.Float.Rounding
import Verif.Graph.Preflow

namespace Pytimize
namespace Floating
open _root_.Pytimize.Directed

/-- Adding one by one, `sum` before Python 3.12. -/
def addAll (R : Rounding) (l : List ℚ) : ℚ := l.foldl (fun a x => R.rd (a + x)) 0

/-- One step of the compensated sum of Python 3.12: total and compensation. -/
def kahanStep (R : Rounding) (p : ℚ × ℚ) (x : ℚ) : ℚ × ℚ :=
  let t := R.rd (p.1 + x)
  if |x| ≤ |p.1| then (t, R.rd (p.2 + R.rd (R.rd (p.1 - t) + x)))
  else (t, R.rd (p.2 + R.rd (R.rd (x - t) + p.1)))

/-- The compensated sum, `sum` since Python 3.12. -/
def kahanAll (R : Rounding) (l : List ℚ) : ℚ :=
  let p := l.foldl (kahanStep R) (0, 0)
  R.rd (p.1 + p.2)

/-- `sum(flow[arc] for arc in arcs)`: the values in the order of the set, added by `add`. -/
def sumArcs (add : List ℚ → ℚ) (order : List Arc → List Arc) (flow : Flow) (l : List Arc) : ℚ :=
  add ((order l).map fun a => (flow.get? a).getD 0)

/-- `_compute_residual`, `_directed.py:340-351`: the loop over `self._arcs.items()`. -/
def resLoop (R : Rounding) (flow : Flow) : List (Arc × ℚ) → Resid → Except PyErr Resid
  | [], r => .ok r
  | ((u, v), capacity) :: rest, r =>
    let value := (flow.get? (u, v)).getD 0
    if capacity < value then .error .arithmeticError
    else
      let r1 := if capacity > value then put r u v (R.rd (capacity - value)) else r
      let r2 := if value > 0 then put r1 v u value else r1
      resLoop R flow rest r2

/-- `value = sum(... cut(source)); value -= sum(... ncut(source))`, `_directed.py:460-461`. -/
def flowValue (R : Rounding) (sum : Flow → List Arc → ℚ) (g : Digraph) (source : Name) (flow : Flow) : ℚ :=
  R.rd (sum flow (cut g (.name source)) - sum flow (ncut g (.name source)))

/-- `excess[node] = ...; excess[node] -= ...`, `_directed.py:397-399`. -/
def initExcess (R : Rounding) (sum : Flow → List Arc → ℚ) (g : Digraph) (source sink : Name) (flow : Flow) :
    Dict Name ℚ :=
  (innerNodes g source sink).foldl (fun ex v =>
    Dict.set ex v (R.rd (sum flow (ncut g (.name v)) - sum flow (cut g (.name v))))) []

/-- The flow and residual update of a push, `_directed.py:411-443`. -/
def pushArc (R : Rounding) (arcs : Dict Arc ℚ) (flow : Flow) (r : Resid) (node endpoint : Name) (δ : ℚ) :
    Except PyErr (Flow × Resid) :=
  if flow.has (node, endpoint) then
    match flow.get? (node, endpoint), arcs.get? (node, endpoint) with
    | some f, some c =>
      match updRes r node endpoint (R.rd (c - R.rd (f + δ))) (R.rd (f + δ)) with
      | .error e => .error e
      | .ok r' => .ok (flow.set (node, endpoint) (R.rd (f + δ)), r')
    | _, _ => .error .keyError
  else
    match flow.get? (endpoint, node), arcs.get? (endpoint, node) with
    | some f, some c =>
      match updRes r endpoint node (R.rd (c - R.rd (f - δ))) (R.rd (f - δ)) with
      | .error e => .error e
      | .ok r' => .ok (flow.set (endpoint, node) (R.rd (f - δ)), r')
    | _, _ => .error .keyError

/-- The push of `preflow_push` along the residual arc `(node, endpoint)`, `_directed.py:409-449`. -/
def push (R : Rounding) (g : Digraph) (source sink : Name) (s : PState) (node endpoint : Name) (value : ℚ) :
    Except PyErr PState :=
  match s.excess.get? node with
  | none => .error .keyError
  | some ex =>
    let pushValue := min ex value
    match pushArc R g.arcs s.flow s.residual node endpoint pushValue with
    | .error e => .error e
    | .ok (flow, residual) =>
      let excess1 := if node ≠ source ∧ node ≠ sink then s.excess.set node (R.rd (ex - pushValue)) else s.excess
      if endpoint ≠ source ∧ endpoint ≠ sink then
        match excess1.get? endpoint with
        | none => .error .keyError
        | some ee => .ok { s with excess := excess1.set endpoint (R.rd (ee + pushValue)), flow := flow,
                                  residual := residual }
      else .ok { s with excess := excess1, flow := flow, residual := residual }

/-- The body for a node with positive excess, `_directed.py:404-456`. -/
def discharge (R : Rounding) (g : Digraph) (source sink : Name) (s : PState) (node : Name) : Except PyErr PState :=
  match s.residual.get? node, s.height.get? node with
  | some d, some hn =>
    match findAdmissible s.height hn d with
    | .error e => .error e
    | .ok (some (endpoint, value)) =>
      match push R g source sink s node endpoint value with
      | .error e => .error e
      | .ok s' => .ok { s' with index := 0 }
    | .ok none =>
      match minHeight s.height d none with
      | .error e => .error e
      | .ok none => .error .genericException
      | .ok (some m) => .ok { s with height := s.height.set node (m + 1), index := 0 }
  | _, _ => .error .keyError

/-- One iteration of the main loop, `_directed.py:402-461`. -/
def pStep (R : Rounding) (sum : Flow → List Arc → ℚ) (g : Digraph) (source sink : Name) (s : PState) (node : Name) :
    Except PyErr PState :=
  match s.excess.get? node with
  | none => .error .keyError
  | some ex =>
    let res := if ex > 0 then discharge R g source sink s node else .ok { s with index := s.index + 1 }
    match res with
    | .error e => .error e
    | .ok s' => .ok { s' with value := some (flowValue R sum g source s'.flow) }

/-- Main loop of `preflow_push`, `_directed.py:401-461`. -/
def pLoop (R : Rounding) (sum : Flow → List Arc → ℚ) (g : Digraph) (source sink : Name) (nodes : List Name) :
    ℕ → PState → Except PyErr PState
  | 0, _ => .error .notTerminated
  | fuel + 1, s =>
    match nodes[s.index]? with
    | none => .ok s
    | some node =>
      match pStep R sum g source sink s node with
      | .error e => .error e
      | .ok s' => pLoop R sum g source sink nodes fuel s'

/-- The state before the main loop, `_directed.py:385-399`. -/
def pInit (R : Rounding) (sum : Flow → List Arc → ℚ) (g : Digraph) (source sink : Name) : Except PyErr PState :=
  let flow := initFlow g source
  match resLoop R flow g.arcs [] with
  | .error e => .error e
  | .ok r => .ok ⟨0, initExcess R sum g source sink flow, flow, r, initHeight g source, none⟩

/-- `preflow_push`, `_directed.py:355-463`. -/
def preflowPush (R : Rounding) (sum : Flow → List Arc → ℚ) (fuel : ℕ) (g : Digraph) (source sink : Name) :
    Except PyErr (ℚ × Flow) :=
  match checkEnds g source sink with
  | some e => .error e
  | none =>
    match pInit R sum g source sink with
    | .error e => .error e
    | .ok s =>
      match pLoop R sum g source sink (innerNodes g source sink) fuel s with
      | .error e => .error e
      | .ok s' =>
        match s'.value with
        | none => .error .unboundLocalError
        | some v => .ok (v, s'.flow)

end Floating
end Pytimize
