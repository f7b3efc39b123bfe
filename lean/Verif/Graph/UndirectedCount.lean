/-
The graph of the vertices that exist, as a finite graph, and the numbers of its vertices and edges.
-/
import Verif.Graph.UndirectedStrip
import Mathlib.Combinatorics.SimpleGraph.Acyclic

namespace Pytimize
namespace Undirected

open _root_.Pytimize.Directed (Name)

/-- The vertices of the object. -/
def vertexSet (g : Ugraph) : Set Name := {v | v ∈ g.vertices.keys}

/-- The graph on the vertices of the object. -/
abbrev inner (g : Ugraph) : SimpleGraph (vertexSet g) := (simple g).induce (vertexSet g)

theorem mem_of_simple {g : Ugraph} (h : Weak g) {a b : Name} (hab : (simple g).Adj a b) :
    a ∈ vertexSet g ∧ b ∈ vertexSet g := by
  have hm := hasEdge_iff.mp hab.2
  rcases norm_cases a b with e | e <;> rw [e] at hm
  · exact h.ends a b hm
  · exact (h.ends b a hm).symm

instance vertexSet_finite (g : Ugraph) : Finite (vertexSet g) := by
  have : (vertexSet g) = ↑(g.vertices.keys.toFinset) := by ext v; simp [vertexSet]
  rw [this]
  exact Finset.finite_toSet _

theorem card_vertexSet {g : Ugraph} (h : Weak g) : Nat.card (vertexSet g) = g.vertices.length := by
  have : (vertexSet g) = ↑(g.vertices.keys.toFinset) := by ext v; simp [vertexSet]
  rw [Nat.card_coe_set_eq, this, Set.ncard_coe_finset, List.toFinset_card_of_nodup h.vertsWF]
  simp [Dict.keys]

theorem walk_support {g : Ugraph} (h : Weak g) {a b : Name} (w : (simple g).Walk a b) (ha : a ∈ vertexSet g) :
    ∀ x ∈ w.support, x ∈ vertexSet g := by
  induction w with
  | nil => intro x hx; simp at hx; exact hx ▸ ha
  | cons hab w ih =>
    intro x hx
    rw [SimpleGraph.Walk.support_cons, List.mem_cons] at hx
    rcases hx with rfl | hx
    · exact ha
    · exact ih (mem_of_simple h hab).2 x hx

theorem inner_reachable {g : Ugraph} (h : Weak g) (a b : vertexSet g) :
    (inner g).Reachable a b ↔ (simple g).Reachable a b := by
  constructor
  · exact fun hr => hr.map (SimpleGraph.Embedding.induce (vertexSet g)).toHom
  · rintro ⟨w⟩
    exact ⟨w.induce (vertexSet g) (walk_support h w a.2)⟩

theorem inner_connected {g : Ugraph} (h : Weak g) : (inner g).Connected ↔
    (∃ v, hasVertex g v = true) ∧
      ∀ u v, hasVertex g u = true → hasVertex g v = true → (simple g).Reachable u v := by
  simp only [hasVertex_iff]
  constructor
  · intro hc
    obtain ⟨v⟩ := hc.nonempty
    exact ⟨⟨v, v.2⟩, fun a b ha hb => (inner_reachable h ⟨a, ha⟩ ⟨b, hb⟩).mp (hc.preconnected _ _)⟩
  · rintro ⟨⟨v, hv⟩, hr⟩
    have : Nonempty (vertexSet g) := ⟨⟨v, hv⟩⟩
    exact ⟨fun a b => (inner_reachable h a b).mpr (hr a b a.2 b.2)⟩

theorem inner_acyclic {g : Ugraph} (h : Weak g) : (inner g).IsAcyclic ↔ (simple g).IsAcyclic := by
  constructor
  · intro ha v w hw
    have hv : v ∈ vertexSet g := by
      cases w with
      | nil => exact absurd hw (by simp)
      | cons hab _ => exact (mem_of_simple h hab).1
    have hs := walk_support h w hv
    refine ha (w.induce (vertexSet g) hs) ((SimpleGraph.Walk.isCycle_map_iff_of_injective
      (f := (SimpleGraph.Embedding.induce (G := simple g) (vertexSet g)).toHom)
      (SimpleGraph.Embedding.induce (G := simple g) (vertexSet g)).injective).mp ?_)
    rw [SimpleGraph.Walk.map_induce]
    exact hw
  · intro ha
    exact ha.induce _

theorem card_inner {g : Ugraph} (h : Weak g) : Nat.card (inner g).edgeSet = g.edges.length := by
  have himg : (Sym2.map (Subtype.val : vertexSet g → Name)) '' (inner g).edgeSet =
      ↑((g.edges.keys.map fun e => s(e.1, e.2)).toFinset) := by
    ext e
    induction e with
    | _ a b =>
      simp only [List.coe_toFinset, List.mem_map, Set.mem_image, Set.mem_ofPred_eq]
      constructor
      · rintro ⟨f, hf, he⟩
        induction f with
        | _ x y =>
          rw [Sym2.map_mk, Sym2.eq_iff] at he
          have hadj : (simple g).Adj x y := hf
          have hm := hasEdge_iff.mp hadj.2
          refine ⟨_, hm, ?_⟩
          rcases norm_cases (x : Name) y with e | e <;> rw [e] <;> rcases he with ⟨rfl, rfl⟩ | ⟨rfl, rfl⟩ <;>
            simp [Sym2.eq_swap]
      · rintro ⟨⟨x, y⟩, hm, he⟩
        have hxy := h.sorted x y hm
        have hv := h.ends x y hm
        refine ⟨s(⟨x, hv.1⟩, ⟨y, hv.2⟩), ?_, he⟩
        refine ⟨fun e => absurd hxy ?_, hasEdge_iff.mpr (by simpa [norm_of_lt hxy] using hm)⟩
        simp at e
        rw [e]
        exact lt_irrefl _
  rw [← Nat.card_image_of_injective (Sym2.map.injective Subtype.val_injective), himg, Nat.card_coe_set_eq,
    Set.ncard_coe_finset, List.toFinset_card_of_nodup]
  · simp [Dict.keys]
  · refine (List.nodup_map_iff_inj_on h.edgesWF).mpr ?_
    rintro ⟨a, b⟩ hab ⟨c, d⟩ hcd he
    have h1 := h.sorted a b hab
    have h2 := h.sorted c d hcd
    rcases Sym2.eq_iff.mp he with ⟨rfl, rfl⟩ | ⟨h3, h4⟩
    · rfl
    · simp only at h3 h4
      subst h3 h4
      exact absurd h2 (lt_asymm h1)

end Undirected
end Pytimize
