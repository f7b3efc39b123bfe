/-
Model of `UndirectedGraph.__repr__` (`pytimize/graphs/_undirected.py:70-87`).
-/
import Verif.Graph.Undirected

namespace Pytimize
namespace Undirected
open Directed (Name)

/-- `sep.join(l)` for a separator of one character. -/
def joinBy (sep : Char) : List Name → Name
  | [] => []
  | [a] => a
  | a :: b :: l => a ++ sep :: joinBy sep (b :: l)

/-- `f"{vertex}: {formatted}"`, `_undirected.py:83-85`. -/
def lineText (v : Name) (connections : List Name) : Name :=
  v ++ ':' :: ' ' :: joinBy '-' (sortNames connections)

/-- `__repr__`, `_undirected.py:80-87`. The set `adjacency` is a list without duplicates. -/
def reprGraph (g : Ugraph) : Name :=
  joinBy '\n' (sortNames (g.graph.map fun p => lineText p.1 p.2).dedup)

end Undirected
end Pytimize
