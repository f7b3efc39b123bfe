/-
C19–C22 after any history of calls, `remove_edge` included: the traversals follow the adjacency sets.
-/
import Verif.Graph.UndirectedStrip
import Verif.Props.Undirected

namespace Pytimize.Props
open Pytimize.Undirected
open Pytimize.Directed (Name chars NodeArg)

/-- C19 after any history: reachability and distance in the graph of the adjacency sets. -/
theorem C19_any_history {graph : List (Name × List Name)} {edges : List (Edge × ℚ)}
    {vertices : List (Name × ℚ)} {g0 : Ugraph} (h0 : ctor graph edges vertices = .ok g0) (ops : List Op)
    (ord : List Name → List Name) (hord : ∀ l, (ord l).Perm l) {s : Name}
    (hs : hasVertex (run g0 ops) s = true) {m : Method} (hm : m ≠ .rng) :
    ∃ out, traverse ord (run g0 ops) s m = .ok out ∧ out.Nodup ∧ out.head? = some s ∧
      (∀ v, v ∈ out ↔ (adjGraph (run g0 ops)).Reachable s v) ∧
      out.Pairwise (fun a b => (adjGraph (run g0 ops)).dist s a ≤ (adjGraph (run g0 ops)).dist s b) := by
  have h := run_weak (ctor_uwf h0).toWeak ops
  have := traverse_spec hord (strip_uwf h) (s := s) hs hm
  rwa [strip_simple h, strip_traverse] at this

/-- C20 after any history. -/
theorem C20_any_history {graph : List (Name × List Name)} {edges : List (Edge × ℚ)}
    {vertices : List (Name × ℚ)} {g0 : Ugraph} (h0 : ctor graph edges vertices = .ok g0) (ops : List Op) :
    ∃ r, isConnected (run g0 ops) = .ok r ∧ hasSpanningTree (run g0 ops) = .ok r ∧
    (r = true ↔ (∃ v, hasVertex (run g0 ops) v = true) ∧
      ∀ u v, hasVertex (run g0 ops) u = true → hasVertex (run g0 ops) v = true →
        (adjGraph (run g0 ops)).Reachable u v) := by
  have h := run_weak (ctor_uwf h0).toWeak ops
  have := C20_is_connected (strip_uwf h)
  rw [strip_simple h] at this
  unfold hasSpanningTree at this ⊢
  rwa [strip_isConnected] at this

/-- C21 after any history. -/
theorem C21_any_history {graph : List (Name × List Name)} {edges : List (Edge × ℚ)}
    {vertices : List (Name × ℚ)} {g0 : Ugraph} (h0 : ctor graph edges vertices = .ok g0) (ops : List Op)
    (ord : ℕ → List Name → List Name) (hord : ∀ k l, (ord k l).Perm l) :
    ∃ r, isTree ord (run g0 ops) = .ok r ∧
    (r = true ↔ (∃ v, hasVertex (run g0 ops) v = true) ∧
      (∀ u v, hasVertex (run g0 ops) u = true → hasVertex (run g0 ops) v = true →
        (adjGraph (run g0 ops)).Reachable u v) ∧ (adjGraph (run g0 ops)).IsAcyclic) := by
  have h := run_weak (ctor_uwf h0).toWeak ops
  have := C21_is_tree (strip_uwf h) ord hord
  rwa [strip_simple h, strip_isTree] at this

/-- C22 after any history (what `is_cyclic` computes: whether any two vertices are adjacent). -/
theorem C22_any_history {graph : List (Name × List Name)} {edges : List (Edge × ℚ)}
    {vertices : List (Name × ℚ)} {g0 : Ugraph} (h0 : ctor graph edges vertices = .ok g0) (ops : List Op)
    (ord : ℕ → List Name → List Name) (hord : ∀ k l, (ord k l).Perm l) (pick : List Name → Name)
    (hpick : ∀ l, l ≠ [] → pick l ∈ l) :
    ∃ r, isCyclic ord pick (run g0 ops) = .ok r ∧ (r = true ↔ ∃ a b, Adj (run g0 ops) a b) ∧
      (¬ (adjGraph (run g0 ops)).IsAcyclic → r = true) := by
  have h := run_weak (ctor_uwf h0).toWeak ops
  obtain ⟨r, h1, h2⟩ := C22_has_edge (strip_uwf h) ord hord pick hpick
  obtain ⟨r', h1', h3⟩ := C22_is_cyclic_partial (strip_uwf h) ord hord pick hpick
  rw [h1] at h1'
  cases h1'
  rw [strip_simple h] at h3
  rw [strip_isCyclic] at h1
  refine ⟨r, h1, h2.trans ?_, h3⟩
  have hU := strip_uwf h
  constructor
  · rintro ⟨a, b, hab⟩
    exact ⟨a, b, hU.sup a b (hasEdge_iff.mp hab)⟩
  · rintro ⟨a, b, hab⟩
    exact ⟨a, b, hasEdge_iff.mpr (hU.sub a b hab)⟩

/-- Removing `a - b` from the triangle leaves the path `a - c - b`, a tree. -/
example : (removeEdge ugTriangle (na, nb')).2 = none ∧
    isTree (fun _ l => l) (run ugTriangle [.removeEdge (na, nb')]) = .ok true ∧
    bfs (run ugTriangle [.removeEdge (na, nb')]) na = .ok [na, nc, nb'] := by decide +kernel

end Pytimize.Props
