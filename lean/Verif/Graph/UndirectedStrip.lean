/-
Graphs on which `remove_edge` has been called: the traversals only look at the adjacency sets, so they
behave as on the graph whose `_edges` are those the adjacency sets still record.
-/
import Verif.Graph.UndirectedTheory

namespace Pytimize
namespace Undirected

open Directed (Name chars setAdd NodeArg)

/-- Specification: the graph given by the adjacency sets. -/
def adjGraph (g : Ugraph) : SimpleGraph Name where
  Adj a b := a ≠ b ∧ Adj g a b ∧ Adj g b a
  symm := ⟨fun _ _ h => ⟨h.1.symm, h.2.2, h.2.1⟩⟩
  loopless := ⟨fun _ h => h.1 rfl⟩

/-- The graph without the edges that were removed. -/
def strip (g : Ugraph) : Ugraph :=
  { g with edges := g.edges.filter fun p => decide (p.1.2 ∈ (g.graph.get? p.1.1).getD []) }

theorem strip_keys (g : Ugraph) (a b : Name) :
    (a, b) ∈ (strip g).edges.keys ↔ (a, b) ∈ g.edges.keys ∧ Adj g a b := by
  have hadj : Adj g a b ↔ b ∈ (g.graph.get? a).getD [] := by
    unfold Adj
    cases g.graph.get? a <;> simp
  simp only [strip, Dict.keys, List.mem_map, List.mem_filter, decide_eq_true_eq]
  rw [hadj]
  constructor
  · rintro ⟨p, ⟨h1, h2⟩, h3⟩
    rw [h3] at h2
    exact ⟨⟨p, h1, h3⟩, h2⟩
  · rintro ⟨⟨p, h1, h3⟩, h2⟩
    exact ⟨p, ⟨h1, by rw [h3]; exact h2⟩, h3⟩

theorem strip_uwf {g : Ugraph} (h : Weak g) : UWF (strip g) where
  edgesWF := by
    have : (strip g).edges.keys.Sublist g.edges.keys := (List.filter_sublist).map Prod.fst
    exact this.nodup h.edgesWF
  vertsWF := h.vertsWF
  graphWF := h.graphWF
  sorted a b hab := h.sorted a b ((strip_keys g a b).mp hab).1
  nonempty a b hab := h.nonempty a b ((strip_keys g a b).mp hab).1
  ends a b hab := h.ends a b ((strip_keys g a b).mp hab).1
  adjNodup := h.adjNodup
  dom := h.dom
  sym := h.sym
  sub a b hab := by
    have hm := h.sub a b hab
    rcases norm_cases a b with hn | hn <;> rw [hn] at hm ⊢
    · exact (strip_keys g a b).mpr ⟨hm, hab⟩
    · exact (strip_keys g b a).mpr ⟨hm, h.sym a b hab⟩
  sup a b hab := by
    rcases norm_cases a b with hn | hn <;> rw [hn] at hab
    · exact ((strip_keys g a b).mp hab).2
    · exact h.sym b a ((strip_keys g b a).mp hab).2

theorem strip_simple {g : Ugraph} (h : Weak g) : simple (strip g) = adjGraph g := by
  ext a b
  rw [simple_adj (strip_uwf h)]
  constructor
  · intro hab
    refine ⟨?_, hab, h.sym a b hab⟩
    rintro rfl
    exact h.irrefl a hab
  · exact fun hab => hab.2.1

theorem bfsLoop_graph (ord : List Name → List Name) {g g' : Ugraph} (hg : g.graph = g'.graph) (k : ℕ) :
    ∀ q vis, bfsLoop ord g k q vis = bfsLoop ord g' k q vis := by
  induction k with
  | zero => intro q vis; rfl
  | succ k ih =>
    intro q vis
    cases q with
    | nil => rfl
    | cons c q => simp only [bfsLoop, ih, hg]

theorem cycLoop_graph (ord : ℕ → List Name → List Name) {g g' : Ugraph} (hg : g.graph = g'.graph) (k : ℕ) :
    ∀ q vis, cycLoop ord g k q vis = cycLoop ord g' k q vis := by
  induction k with
  | zero => intro q vis; rfl
  | succ k ih =>
    intro q vis
    cases q with
    | nil => rfl
    | cons c q => simp only [cycLoop, ih, hg]

theorem treeLoop_graph (ord : ℕ → List Name → List Name) {g g' : Ugraph} (hg : g.graph = g'.graph) (k : ℕ) :
    ∀ q vis, treeLoop ord g k q vis = treeLoop ord g' k q vis := by
  induction k with
  | zero => intro q vis; rfl
  | succ k ih =>
    intro q vis
    cases q with
    | nil => rfl
    | cons c q => simp only [treeLoop, ih, hg]

theorem strip_traverse (ord : List Name → List Name) (g : Ugraph) (s : Name) (m : Method) :
    traverse ord (strip g) s m = traverse ord g s m := by
  unfold Undirected.traverse fuel hasVertex
  rw [bfsLoop_graph ord (g := strip g) (g' := g) rfl]
  rfl

theorem strip_isConnected (g : Ugraph) : isConnected (strip g) = isConnected g := by
  unfold isConnected bfs
  simp only [strip_traverse]
  rfl

theorem strip_isTree (ord : ℕ → List Name → List Name) (g : Ugraph) :
    isTree ord (strip g) = isTree ord g := by
  unfold isTree
  simp only [treeLoop_graph ord (g := strip g) (g' := g) rfl]
  rfl

theorem strip_isCyclic (ord : ℕ → List Name → List Name) (pick : List Name → Name) (g : Ugraph) :
    isCyclic ord pick (strip g) = isCyclic ord pick g := by
  have : ∀ k l, cycOuter ord pick (strip g) k l = cycOuter ord pick g k l := by
    intro k
    induction k with
    | zero => intro l; rfl
    | succ k ih =>
      intro l
      cases l with
      | nil => rfl
      | cons a l =>
        simp only [cycOuter, cycLoop_graph ord (g := strip g) (g' := g) rfl, ih]
        rfl
  unfold isCyclic
  rw [this]
  rfl

end Undirected
end Pytimize
