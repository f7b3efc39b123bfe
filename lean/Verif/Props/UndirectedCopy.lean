/-
C23: copies of undirected graphs and equality (`pytimize/graphs/_undirected.py:89-103, 535-551`).
-/
import Verif.Graph.UndirectedHeap

namespace Pytimize.Props
open Pytimize.Undirected
open Pytimize.Directed (Name chars NodeArg)

/-- C23 (what `==` means). Two graphs compare equal iff they have the same vertices, edges and weights and
the same adjacency. -/
theorem C23_eq {g h : Ugraph} (hg : Weak g) (hh : Weak h) : graphEq g h = true ↔
    (∀ v, g.vertices.get? v = h.vertices.get? v) ∧ (∀ e, g.edges.get? e = h.edges.get? e) ∧
    (∀ a b, Adj g a b ↔ Adj h a b) := by
  have hdict : ∀ {K V : Type} [DecidableEq K] (eqv : V → V → Bool) {d1 d2 : Dict K V}, d1.WF → d2.WF →
      (dictEq eqv d1 d2 = true ↔ (∀ k, k ∈ d1.keys ↔ k ∈ d2.keys) ∧
        ∀ k x y, d1.get? k = some x → d2.get? k = some y → eqv x y = true) := by
    intro K V _ eqv d1 d2 w1 w2
    have hlen : ∀ d : Dict K V, d.length = d.keys.length := fun d => by simp [Dict.keys]
    unfold dictEq
    rw [Bool.and_eq_true, decide_eq_true_eq, List.all_eq_true]
    constructor
    · rintro ⟨hl, hall⟩
      have hsub : ∀ k, k ∈ d1.keys → k ∈ d2.keys := by
        intro k hk
        obtain ⟨x, hx⟩ := Dict.exists_get?_of_mem hk
        have := hall (k, x) (Dict.mem_of_get? hx)
        cases hy : d2.get? k with
        | none => simp [hy] at this
        | some y => exact Dict.mem_keys_of_get? hy
      have hperm : d1.keys.Perm d2.keys := by
        have hsp : d1.keys.Subperm d2.keys := List.subperm_of_subset w1 hsub
        exact hsp.perm_of_length_le (by rw [← hlen, ← hlen, hl])
      refine ⟨fun k => hperm.mem_iff, fun k x y hx hy => ?_⟩
      have := hall (k, x) (Dict.mem_of_get? hx)
      simpa [hy] using this
    · rintro ⟨hk, hv⟩
      refine ⟨?_, fun p hp => ?_⟩
      · rw [hlen, hlen]
        exact ((List.perm_ext_iff_of_nodup w1 w2).mpr hk).length_eq
      · have h1 : d1.get? p.1 = some p.2 := Dict.get?_of_mem w1 hp
        obtain ⟨y, hy⟩ := Dict.exists_get?_of_mem ((hk p.1).mp (Dict.mem_keys_of_get? h1))
        rw [hy]
        exact hv p.1 p.2 y h1 hy
  have hsame : ∀ {K V : Type} [DecidableEq K] [DecidableEq V] {d1 d2 : Dict K V},
      ((∀ k, k ∈ d1.keys ↔ k ∈ d2.keys) ∧
        (∀ k x y, d1.get? k = some x → d2.get? k = some y → decide (x = y) = true)) ↔
      ∀ k, d2.get? k = d1.get? k := by
    intro K V _ _ d1 d2
    constructor
    · rintro ⟨hk, hv⟩ k
      cases h1 : d1.get? k with
      | none =>
        rw [Dict.get?_eq_none_iff] at h1 ⊢
        exact fun hc => h1 ((hk k).mpr hc)
      | some x =>
        obtain ⟨y, hy⟩ := Dict.exists_get?_of_mem ((hk k).mp (Dict.mem_keys_of_get? h1))
        rw [hy, of_decide_eq_true (hv k x y h1 hy)]
    · intro hk
      refine ⟨fun k => ?_, fun k x y h1 h2 => ?_⟩
      · rw [← not_iff_not, ← Dict.get?_eq_none_iff, ← Dict.get?_eq_none_iff, hk]
      · rw [hk, h1] at h2
        simpa using h2
  have hset : ∀ {l1 l2 : List Name}, l1.Nodup → l2.Nodup → (setEq l1 l2 = true ↔ ∀ x, x ∈ l1 ↔ x ∈ l2) := by
    intro l1 l2 n1 n2
    unfold setEq
    rw [Bool.and_eq_true, decide_eq_true_eq, List.all_eq_true]
    simp only [decide_eq_true_eq]
    constructor
    · rintro ⟨hl, hs⟩ x
      have hsp : l1.Subperm l2 := List.subperm_of_subset n1 hs
      exact (hsp.perm_of_length_le hl.ge).mem_iff
    · intro hx
      exact ⟨((List.perm_ext_iff_of_nodup n1 n2).mpr hx).length_eq, fun x h => (hx x).mp h⟩
  unfold graphEq
  rw [Bool.and_eq_true, Bool.and_eq_true, hdict _ hh.graphWF hg.graphWF, hdict _ hh.edgesWF hg.edgesWF,
    hdict _ hh.vertsWF hg.vertsWF, hsame, hsame]
  constructor
  · rintro ⟨⟨⟨hk, hv⟩, he⟩, hw⟩
    refine ⟨hw, he, fun a b => ?_⟩
    have aux : ∀ {p q : Ugraph}, Weak p → Weak q → (∀ k, k ∈ p.graph.keys ↔ k ∈ q.graph.keys) →
        (∀ k x y, p.graph.get? k = some x → q.graph.get? k = some y → setEq x y = true) → Adj p a b → Adj q a b := by
      rintro p q hp hq hk hv ⟨l, hl, hb⟩
      obtain ⟨y, hy⟩ := Dict.exists_get?_of_mem ((hk a).mp (Dict.mem_keys_of_get? hl))
      exact ⟨y, hy, ((hset (hp.adjNodup a l hl) (hq.adjNodup a y hy)).mp (hv a l y hl hy) b).mp hb⟩
    refine ⟨aux hg hh (fun k => (hk k).symm) (fun k x y h1 h2 => ?_), aux hh hg hk hv⟩
    have := hv k y x h2 h1
    rw [hset (hh.adjNodup k y h2) (hg.adjNodup k x h1)] at this
    rw [hset (hg.adjNodup k x h1) (hh.adjNodup k y h2)]
    exact fun z => (this z).symm
  · rintro ⟨hw, he, ha⟩
    refine ⟨⟨⟨fun k => ?_, fun k x y hx hy => ?_⟩, he⟩, hw⟩
    · rw [← hh.dom, ← hg.dom, ← not_iff_not, ← Dict.get?_eq_none_iff, ← Dict.get?_eq_none_iff, hw]
    · rw [hset (hh.adjNodup k x hx) (hg.adjNodup k y hy)]
      intro z
      have := ha k z
      unfold Adj at this
      rw [hx, hy] at this
      simpa using this.symm

/-- C23 (a fresh copy). The copy sees the same graph, and it compares equal to the original, in both
directions. -/
theorem C23_copy_equal (H : Heap) (G : HGraph) (h : Weak (view H G)) :
    view H (hcopy G) = view H G ∧ graphEq (view H (hcopy G)) (view H G) = true ∧
    graphEq (view H G) (view H (hcopy G)) = true := by
  have : view H (hcopy G) = view H G := rfl
  rw [this]
  have := (C23_eq h h).mpr ⟨fun _ => rfl, fun _ => rfl, fun _ _ => Iff.rfl⟩
  exact ⟨rfl, this, this⟩

/-- C23 (vertices, edges and weights are independent). After any sequence of calls on the original and the
copy, the vertices, edges and weights of each are those obtained by its own calls alone. -/
theorem C23_attributes (H : Heap) (G : HGraph) (os : List (Bool × Op)) :
    let W := wrun (H, G, hcopy G) os
    (view W.1 W.2.1).edges = (run (view H G) (ownOps true os)).edges ∧
    (view W.1 W.2.1).vertices = (run (view H G) (ownOps true os)).vertices ∧
    (view W.1 W.2.2).edges = (run (view H G) (ownOps false os)).edges ∧
    (view W.1 W.2.2).vertices = (run (view H G) (ownOps false os)).vertices := by
  have := attr_wrun os (H, G, hcopy G) (view H G) (view H G) rfl rfl
  obtain ⟨h1, h2⟩ := this
  have a := Prod.mk.inj h1
  have b := Prod.mk.inj h2
  exact ⟨a.1, a.2, b.1, b.2⟩

/-- C23 (independence as long as no existing vertex gets a new neighbour). If `add_edge` and `remove_edge`
are only called for vertices the original did not have when it was copied, the two objects behave as two
separate graphs for every sequence of calls. Missing from the full statement: `add_edge` and
`remove_edge` at an old vertex, where the adjacency sets are shared (`C23_shared_wrong`). -/
theorem C23_independent_partial {H : Heap} {G : HGraph} (hO : Own H G) (os : List (Bool × Op))
    (hos : ∀ o ∈ os, ∀ u ∈ o.2.touches, u ∉ (view H G).graph.keys) :
    let W := wrun (H, G, hcopy G) os
    view W.1 W.2.1 = run (view H G) (ownOps true os) ∧
    view W.1 W.2.2 = run (view H G) (ownOps false os) := by
  have hk : (view H G).graph.keys = G.graph.keys := deref_keys H G.graph
  rw [hk] at hos
  have hA : Apart G.graph.keys H G (hcopy G) :=
    ⟨hO, ⟨hO.lt, hO.inj, hO.wf⟩, fun p hp _ => List.mem_map_of_mem (f := Prod.fst) hp,
      fun p hp _ => List.mem_map_of_mem (f := Prod.fst) hp⟩
  exact apart_run (W := (H, G, hcopy G)) os hos hA

/-- An object for `{"a": {"b"}}`. -/
def heapEdge : Heap × HGraph :=
  (⟨fun i => if i = 0 then [['b']] else if i = 1 then [['a']] else [], 2⟩,
   ⟨[(['a'], 0), (['b'], 1)], [((['a'], ['b']), 0)], [(['a'], 0), (['b'], 0)]⟩)

theorem heapEdge_own : Own heapEdge.1 heapEdge.2 :=
  ⟨by decide +kernel, by decide +kernel, by unfold Dict.WF; decide +kernel⟩

example : (∀ o ∈ ([(false, .addEdge (['c'], ['d']) 1), (true, .addVertex ['c'] 2)] : List (Bool × Op)),
    ∀ u ∈ o.2.touches, u ∉ (view heapEdge.1 heapEdge.2).graph.keys) := by decide +kernel

/-- C23 is false: adding an edge to the copy makes the original walk to a vertex that it does not have,
and its `bfs` raises `KeyError`. -/
theorem C23_shared_wrong :
    bfs (view heapEdge.1 heapEdge.2) ['a'] = .ok [['a'], ['b']] ∧
    let W := wrun (heapEdge.1, heapEdge.2, hcopy heapEdge.2) [(false, .addEdge (['a'], ['c']) 0)]
    Adj (view W.1 W.2.1) ['a'] ['c'] ∧ hasVertex (view W.1 W.2.1) ['c'] = false ∧
    bfs (view W.1 W.2.1) ['a'] = .error .keyError :=
  ⟨by decide +kernel, ⟨[['b'], ['c']], by decide +kernel, by decide +kernel⟩, by decide +kernel,
    by decide +kernel⟩

end Pytimize.Props
