/-
Model of `_hash_edge` of `_undirected.py`.
-/
import Verif.Graph.Undirected

namespace Pytimize
namespace Undirected

/-- `_hash_edge`, `_undirected.py:694-709`. -/
def hashEdge (e : Edge) : List Char :=
  let (a, b) := e
  let (a, b) := if b < a then (b, a) else (a, b)
  a ++ '-' :: b

end Undirected

end Pytimize
