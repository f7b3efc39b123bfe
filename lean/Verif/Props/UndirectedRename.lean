/-
C136: the names of the vertices of an undirected graph do not matter.
-/
import Verif.Graph.UndirectedRename
import Verif.Props.UndirectedCopy
import Verif.Props.StableSetSolve
import Verif.Props.Undirected

namespace Pytimize.Props
open Pytimize.Undirected
open Pytimize.Directed (Name chars NodeArg)
open Pytimize.LinProg (branchAndBound)

/-- C136 (construction). With all names replaced the constructor raises the same exception or gives the graph with
the names replaced. The empty name must stay the empty name: it is refused as an end of an edge. -/
theorem C136_ctor {ρ : Name → Name} (hρ : Function.Injective ρ) (he : ∀ v, ρ v = [] ↔ v = [])
    (graph : List (Name × List Name)) (edges : List (Edge × ℚ)) (vertices : List (Name × ℚ)) :
    match ctor graph edges vertices, ctor (graph.map fun p => (ρ p.1, p.2.map ρ))
        (edges.map fun p => ((ρ p.1.1, ρ p.1.2), p.2)) (vertices.map fun p => (ρ p.1, p.2)) with
    | .ok g, .ok h => Renamed ρ g h
    | .error e, .error e' => e = e'
    | _, _ => False := by
  have hA := ctorGraph_alike hρ he graph (Renamed.empty ρ)
  unfold ctor
  generalize ctorGraph Ugraph.empty graph = p at hA
  generalize ctorGraph Ugraph.empty (graph.map fun p => (ρ p.1, p.2.map ρ)) = q at hA
  obtain ⟨p1, p2⟩ := p
  obtain ⟨q1, q2⟩ := q
  obtain ⟨h1, h2⟩ := hA
  simp only at h1 h2
  subst h1
  cases q2 with
  | some e => rfl
  | none =>
    have hB := ctorEdges_alike hρ he edges h2
    simp only [renEdge] at hB
    simp only
    generalize ctorEdges p1 edges = p at hB
    generalize ctorEdges q1 (edges.map fun p => ((ρ p.1.1, ρ p.1.2), p.2)) = q at hB
    obtain ⟨p1, p2⟩ := p
    obtain ⟨q1, q2⟩ := q
    obtain ⟨h1, h2⟩ := hB
    simp only at h1 h2
    subst h1
    cases q2 with
    | some e => rfl
    | none =>
      have hC := ctorVertices_alike hρ vertices h2
      simp only
      generalize ctorVertices p1 vertices = p at hC
      generalize ctorVertices q1 (vertices.map fun p => (ρ p.1, p.2)) = q at hC
      obtain ⟨p1, p2⟩ := p
      obtain ⟨q1, q2⟩ := q
      obtain ⟨h1, h2⟩ := hC
      simp only at h1 h2
      subst h1
      cases q2 with
      | some e => rfl
      | none => exact h2

/-- C136 (later calls). Every further call with the names replaced raises the same exception and keeps the two graphs
the same up to the names; so does every history of calls, the failing ones included. -/
theorem C136_history {ρ : Name → Name} (hρ : Function.Injective ρ) (he : ∀ v, ρ v = [] ↔ v = []) {g h : Ugraph}
    (hg : Weak g) (hh : Weak h) (r : Renamed ρ g h) (ops : List Op) :
    Renamed ρ (run g ops) (run h (ops.map (renOp ρ))) ∧
    ∀ o, (step (run h (ops.map (renOp ρ))) (renOp ρ o)).2 = (step (run g ops) o).2 :=
  ⟨run_alike hg hh hρ he r ops, fun o =>
    (step_alike (run_weak hg ops) (run_weak hh _) hρ he (run_alike hg hh hρ he r ops) o).1⟩

/-- C136 (questions about the whole graph). The same answers, whatever the order in which sets are iterated. -/
theorem C136_answers {ρ : Name → Name} (hρ : Function.Injective ρ) {g h : Ugraph} (hg : Weak g) (hh : Weak h)
    (r : Renamed ρ g h) :
    isEmpty h = isEmpty g ∧ isConnected h = isConnected g ∧ hasSpanningTree h = hasSpanningTree g ∧
    minimumSpanningTree h = minimumSpanningTree g ∧
    (∀ ord ord' : ℕ → List Name → List Name, (∀ k l, (ord k l).Perm l) → (∀ k l, (ord' k l).Perm l) →
      isTree ord' h = isTree ord g ∧
      ∀ pick pick' : List Name → Name, (∀ l, l ≠ [] → pick l ∈ l) → (∀ l, l ≠ [] → pick' l ∈ l) →
        isCyclic ord' pick' h = isCyclic ord pick g) := by
  have hex : (∃ w, hasVertex h w = true) ↔ ∃ v, hasVertex g v = true := by
    constructor
    · rintro ⟨w, hw⟩
      obtain ⟨v, rfl⟩ := r.onto w hw
      exact ⟨v, by rwa [r.hasVertex] at hw⟩
    · rintro ⟨v, hv⟩
      exact ⟨ρ v, by rwa [r.hasVertex]⟩
  have hreach : (∀ u v, hasVertex h u = true → hasVertex h v = true → (adjGraph h).Reachable u v) ↔
      ∀ u v, hasVertex g u = true → hasVertex g v = true → (adjGraph g).Reachable u v := by
    constructor
    · intro hr u v hu hv
      obtain ⟨z, hz, hq⟩ := (r.reachable hh hρ u (ρ v)).mp
        (hr (ρ u) (ρ v) (by rwa [r.hasVertex]) (by rwa [r.hasVertex]))
      cases hρ hz
      exact hq
    · intro hr u v hu hv
      obtain ⟨u, rfl⟩ := r.onto u hu
      obtain ⟨v, rfl⟩ := r.onto v hv
      rw [r.hasVertex] at hu hv
      exact (r.reachable hh hρ u _).mpr ⟨v, rfl, hr u v hu hv⟩
  have hc : isConnected h = isConnected g := by
    obtain ⟨b, h1, _, h2⟩ := C20_is_connected (strip_uwf hg)
    obtain ⟨b', h1', _, h2'⟩ := C20_is_connected (strip_uwf hh)
    rw [strip_isConnected] at h1 h1'
    rw [strip_simple hg] at h2
    rw [strip_simple hh] at h2'
    rw [h1, h1']
    congr 1
    rw [Bool.eq_iff_iff]
    exact h2'.trans ((and_congr hex hreach).trans h2.symm)
  refine ⟨?_, hc, hc, ?_, fun ord ord' ho ho' => ⟨?_, fun pick pick' hp hp' => ?_⟩⟩
  · have hemp : ∀ k : Ugraph, isEmpty k = true ↔ ¬ ∃ v, hasVertex k v = true := by
      intro k
      unfold isEmpty
      rw [decide_eq_true_eq, List.length_eq_zero_iff]
      constructor
      · rintro hk ⟨v, hv⟩
        rw [hasVertex_iff, hk] at hv
        simp [Dict.keys] at hv
      · intro hk
        by_contra hne
        obtain ⟨p, hp⟩ := List.exists_mem_of_ne_nil _ hne
        exact hk ⟨p.1, hasVertex_iff.mpr (List.mem_map_of_mem (f := Prod.fst) hp)⟩
    rw [Bool.eq_iff_iff, hemp, hemp, hex]
  · unfold minimumSpanningTree
    rw [hc]
  · obtain ⟨b, h1, h2⟩ := C21_is_tree (strip_uwf hg) ord ho
    obtain ⟨b', h1', h2'⟩ := C21_is_tree (strip_uwf hh) ord' ho'
    rw [strip_isTree] at h1 h1'
    rw [strip_simple hg] at h2
    rw [strip_simple hh] at h2'
    rw [h1, h1']
    congr 1
    rw [Bool.eq_iff_iff]
    exact h2'.trans ((and_congr hex (and_congr hreach (r.acyclic hh hρ))).trans h2.symm)
  · have key : ∀ {k : Ugraph}, Weak k →
        ((∃ a b, hasEdge (strip k) (a, b) = true) ↔ ∃ a b, Adj k a b) := by
      intro k hk
      constructor
      · rintro ⟨a, b, hab⟩
        rw [hasEdge_iff] at hab
        exact ⟨a, b, (strip_uwf hk).sup a b hab⟩
      · rintro ⟨a, b, hab⟩
        exact ⟨a, b, hasEdge_iff.mpr ((strip_uwf hk).sub a b hab)⟩
    obtain ⟨b, h1, h2⟩ := C22_has_edge (strip_uwf hg) ord ho pick hp
    obtain ⟨b', h1', h2'⟩ := C22_has_edge (strip_uwf hh) ord' ho' pick' hp'
    rw [strip_isCyclic] at h1 h1'
    rw [key hg] at h2
    rw [key hh] at h2'
    rw [h1, h1']
    congr 1
    rw [Bool.eq_iff_iff, h2', h2]
    constructor
    · rintro ⟨a, b, hab⟩
      obtain ⟨a, rfl⟩ := r.onto a (hasVertex_iff.mpr (hh.adj_vertex hab).1)
      obtain ⟨b, rfl⟩ := r.onto b (hasVertex_iff.mpr (hh.adj_vertex hab).2)
      exact ⟨a, b, (r.adj a b).mp hab⟩
    · rintro ⟨a, b, hab⟩
      exact ⟨_, _, (r.adj a b).mpr hab⟩

/-- The edges of the renamed graph. -/
theorem _root_.Pytimize.Undirected.Renamed.mem_edges {ρ : Name → Name} {g h : Ugraph} (hg : Weak g) (hh : Weak h)
    (r : Renamed ρ g h) (e : Edge) :
    e ∈ h.edges.keys ↔ ∃ d ∈ g.edges.keys, norm (ρ d.1, ρ d.2) = e := by
  constructor
  · intro hm
    obtain ⟨x, y⟩ := e
    have hlt := hh.sorted x y hm
    obtain ⟨a, rfl⟩ := r.onto x (hasVertex_iff.mpr (hh.ends _ _ hm).1)
    obtain ⟨b, rfl⟩ := r.onto y (hasVertex_iff.mpr (hh.ends _ _ hm).2)
    have h1 : hasEdge h (renEdge ρ (a, b)) = true := hasEdge_iff.mpr (by
      show norm (ρ a, ρ b) ∈ _
      rwa [norm_of_lt hlt])
    rw [r.hasEdge, hasEdge_iff] at h1
    refine ⟨norm (a, b), h1, ?_⟩
    rcases norm_cases a b with hn | hn <;> rw [hn]
    · exact norm_of_lt hlt
    · rw [norm_swap]; exact norm_of_lt hlt
  · rintro ⟨d, hd, rfl⟩
    have hlt := hg.sorted d.1 d.2 hd
    have h1 : hasEdge g d = true := hasEdge_iff.mpr (by
      have : norm d = d := norm_of_lt hlt
      rwa [this])
    rw [← r.hasEdge, hasEdge_iff] at h1
    exact h1

theorem nodup_map_norm {ρ : Name → Name} (hρ : Function.Injective ρ) {g : Ugraph} (hg : Weak g) {l : List Edge}
    (hl : l.Nodup) (hs : ∀ e ∈ l, e ∈ g.edges.keys) : (l.map fun e => norm (ρ e.1, ρ e.2)).Nodup := by
  refine (List.nodup_map_iff_inj_on hl).mpr fun x hx y hy hxy => ?_
  have h1 := norm_of_lt (hg.sorted x.1 x.2 (hs x hx))
  have h2 := norm_of_lt (hg.sorted y.1 y.2 (hs y hy))
  have := (norm_ren hρ).mp hxy
  rw [h1, h2] at this
  exact this

/-- C136 (cuts). The cut of the renamed vertices consists of the renamed edges, and the degrees are equal. -/
theorem C136_cut {ρ : Name → Name} (hρ : Function.Injective ρ) {g h : Ugraph} (hg : Weak g) (hh : Weak h)
    (r : Renamed ρ g h) (S : List Name) :
    (cut h (.iter (S.map ρ))).Perm ((cut g (.iter S)).map fun e => norm (ρ e.1, ρ e.2)) ∧
    degree h (.iter (S.map ρ)) = degree g (.iter S) := by
  have hmem : ∀ x, ρ x ∈ S.map ρ ↔ x ∈ S := fun x => List.mem_map_of_injective hρ
  have hp : (cut h (.iter (S.map ρ))).Perm ((cut g (.iter S)).map fun e => norm (ρ e.1, ρ e.2)) := by
    have hn := C18_degree hg S
    refine (List.perm_ext_iff_of_nodup (C18_degree hh _).1
      (nodup_map_norm hρ hg hn.1 fun e he => ((C18_cut hg S e).mp he).1)).mpr fun e => ?_
    rw [C18_cut hh, r.mem_edges hg hh]
    have hsplit : ∀ d : Edge, (((norm (ρ d.1, ρ d.2)).1 ∈ S.map ρ ∧ (norm (ρ d.1, ρ d.2)).2 ∉ S.map ρ) ∨
        ((norm (ρ d.1, ρ d.2)).2 ∈ S.map ρ ∧ (norm (ρ d.1, ρ d.2)).1 ∉ S.map ρ)) ↔
        ((d.1 ∈ S ∧ d.2 ∉ S) ∨ (d.2 ∈ S ∧ d.1 ∉ S)) := by
      intro d
      rcases norm_cases (ρ d.1) (ρ d.2) with hn | hn <;> rw [hn] <;> simp only [hmem]
      tauto
    constructor
    · rintro ⟨⟨d, hd, rfl⟩, hs⟩
      exact List.mem_map.mpr ⟨d, (C18_cut hg S d).mpr ⟨hd, (hsplit d).mp hs⟩, rfl⟩
    · intro hm
      obtain ⟨d, hd, rfl⟩ := List.mem_map.mp hm
      obtain ⟨h1, h2⟩ := (C18_cut hg S d).mp hd
      exact ⟨⟨d, h1, rfl⟩, (hsplit d).mpr h2⟩
  refine ⟨hp, ?_⟩
  unfold degree
  rw [hp.length_eq, List.length_map]

/-- C136 (cuts given by a name), for renamings that replace letters. -/
theorem C136_name_partial {σ : Char → Char} (hσ : Function.Injective σ) {g h : Ugraph} (hg : Weak g) (hh : Weak h)
    (r : Renamed (List.map σ) g h) (v : Name) :
    (cut h (.name (v.map σ))).Perm ((cut g (.name v)).map fun e => norm (e.1.map σ, e.2.map σ)) ∧
    degree h (.name (v.map σ)) = degree g (.name v) := by
  have hi : Function.Injective (List.map σ) := List.map_injective_iff.mpr hσ
  have h1 : ∀ (k : Ugraph) (u : Name), cut k (.name u) = cut k (.iter (chars u)) := fun _ _ => rfl
  have h2 : chars (v.map σ) = (chars v).map (List.map σ) := by simp [chars]
  have := C136_cut hi hg hh r (chars v)
  unfold degree at this ⊢
  rw [h1, h1, h2]
  exact this

/-- C136 (traversal). The same vertices at the same distances: both calls raise the same exception, or give the same
list up to the names and the order of vertices equally far from the start. -/
theorem C136_traverse {ρ : Name → Name} (hρ : Function.Injective ρ) {g h : Ugraph} (hg : Weak g) (hh : Weak h)
    (r : Renamed ρ g h) (ord ord' : List Name → List Name) (ho : ∀ l, (ord l).Perm l) (ho' : ∀ l, (ord' l).Perm l)
    (s : Name) (m : Method) :
    match traverse ord g s m, traverse ord' h (ρ s) m with
    | .ok out, .ok out' => out'.Perm (out.map ρ) ∧
        out'.map ((adjGraph h).dist (ρ s)) = out.map ((adjGraph g).dist s)
    | .error e, .error e' => e = e'
    | _, _ => False := by
  by_cases hs : hasVertex g s = true
  · by_cases hm : m = .rng
    · subst hm
      unfold Undirected.traverse
      rw [r.hasVertex]
      simp [hs]
    · obtain ⟨out, h1, h2, _, h3, h4⟩ := C19_traverse (strip_uwf hg) ord ho (s := s) hs hm
      obtain ⟨out', h1', h2', _, h3', h4'⟩ := C19_traverse (strip_uwf hh) ord' ho' (s := ρ s)
        (by rw [show hasVertex (strip h) (ρ s) = hasVertex h (ρ s) from rfl, r.hasVertex]; exact hs) hm
      rw [strip_traverse] at h1 h1'
      rw [strip_simple hg] at h3 h4
      rw [strip_simple hh] at h3' h4'
      rw [h1, h1']
      have hp : out'.Perm (out.map ρ) := by
        refine (List.perm_ext_iff_of_nodup h2' (h2.map hρ)).mpr fun x => ?_
        rw [h3', r.reachable hh hρ, List.mem_map]
        constructor
        · rintro ⟨v, hv, hq⟩; exact ⟨v, (h3 v).mpr hq, hv⟩
        · rintro ⟨v, hv, hx⟩; exact ⟨v, hx, (h3 v).mp hv⟩
      refine ⟨hp, ?_⟩
      have hd : (out.map ρ).map ((adjGraph h).dist (ρ s)) = out.map ((adjGraph g).dist s) := by
        rw [List.map_map]
        exact List.map_congr_left fun v _ => r.dist hh hρ s v
      have hq := hp.map ((adjGraph h).dist (ρ s))
      rw [hd] at hq
      exact hq.eq_of_pairwise' (List.pairwise_map.mpr h4') (List.pairwise_map.mpr h4)
  · have hs' : hasVertex h (ρ s) ≠ true := by rwa [r.hasVertex]
    unfold Undirected.traverse
    rw [if_neg hs, if_neg hs']

/-- The two graphs have equally many vertices and edges. -/
theorem _root_.Pytimize.Undirected.Renamed.sizes {ρ : Name → Name} (hρ : Function.Injective ρ) {g h : Ugraph} (hg : Weak g) (hh : Weak h)
    (r : Renamed ρ g h) : h.vertices.length = g.vertices.length ∧ h.edges.length = g.edges.length := by
  constructor
  · have : h.vertices.keys.Perm (g.vertices.keys.map ρ) := by
      refine (List.perm_ext_iff_of_nodup hh.vertsWF (List.Nodup.map hρ hg.vertsWF)).mpr fun w => ?_
      rw [List.mem_map]
      constructor
      · intro hw
        obtain ⟨v, rfl⟩ := r.onto w (hasVertex_iff.mpr hw)
        exact ⟨v, by rwa [← hasVertex_iff, ← r.hasVertex, hasVertex_iff], rfl⟩
      · rintro ⟨v, hv, rfl⟩
        rwa [← hasVertex_iff, r.hasVertex, hasVertex_iff]
    simpa [Dict.keys] using this.length_eq
  · have : h.edges.keys.Perm (g.edges.keys.map fun e => norm (ρ e.1, ρ e.2)) := by
      refine (List.perm_ext_iff_of_nodup hh.edgesWF (nodup_map_norm hρ hg hg.edgesWF fun _ h => h)).mpr fun e => ?_
      rw [r.mem_edges hg hh, List.mem_map]
    simpa [Dict.keys] using this.length_eq

/-- Stable sets correspond. -/
theorem _root_.Pytimize.Undirected.Renamed.stable {ρ : Name → Name} (hρ : Function.Injective ρ) {g h : Ugraph} (r : Renamed ρ g h) :
    (∀ S, StableSet g S → StableSet h (S.map ⟨ρ, hρ⟩) ∧
      ∑ v ∈ S.map ⟨ρ, hρ⟩, vertexWeight h v = ∑ v ∈ S, vertexWeight g v) ∧
    ∀ T, StableSet h T → ∃ S, StableSet g S ∧ S.map ⟨ρ, hρ⟩ = T := by
  have hset : ∀ S, StableSet h (S.map ⟨ρ, hρ⟩) ↔ StableSet g S := by
    intro S
    have hE : ∀ a b, hasEdge h (ρ a, ρ b) = hasEdge g (a, b) := fun a b => r.hasEdge (a, b)
    unfold StableSet
    simp only [Finset.mem_map, Function.Embedding.coeFn_mk, forall_exists_index, and_imp,
      forall_apply_eq_imp_iff₂, r.hasVertex, hE]
  refine ⟨fun S hS => ⟨(hset S).mpr hS, ?_⟩, fun T hT => ?_⟩
  · rw [Finset.sum_map]
    refine Finset.sum_congr rfl fun v _ => ?_
    show vertexWeight h (ρ v) = _
    unfold vertexWeight
    rw [r.vertex]
  · refine ⟨T.preimage ρ (hρ.injOn), ?_, ?_⟩
    · rw [← hset]
      convert hT
      ext w
      simp only [Finset.mem_map, Finset.mem_preimage, Function.Embedding.coeFn_mk]
      constructor
      · rintro ⟨v, hv, rfl⟩; exact hv
      · intro hw
        obtain ⟨v, rfl⟩ := r.onto w (hT.1 w hw)
        exact ⟨v, hw, rfl⟩
    · ext w
      simp only [Finset.mem_map, Finset.mem_preimage, Function.Embedding.coeFn_mk]
      constructor
      · rintro ⟨v, hv, rfl⟩; exact hv
      · intro hw
        obtain ⟨v, rfl⟩ := r.onto w (hT.1 w hw)
        exact ⟨v, hw, rfl⟩

/-- C136 (stable sets). Branch and bound on the formulations of both graphs finds stable sets of the same weight;
for graphs with an edge and weights with denominators up to `5 * 10 ^ 9`, as in `C85_stable_partial`. -/
theorem C136_stable_partial {ρ : Name → Name} (hρ : Function.Injective ρ) {g h : Ugraph} (hg : Weak g) (hh : Weak h)
    (r : Renamed ρ g h) {junk junk' : List ℚ} (hj : junk.length = g.vertices.length)
    (hj' : junk'.length = h.vertices.length) {a b : Name} (he : hasEdge g (a, b) = true)
    (N : ℕ) (hN : 0 < N) (hN' : 2 * N ≤ 10 ^ 10)
    (hw : ∀ v, hasVertex g v = true → ∃ k : ℤ, (N : ℚ) * vertexWeight g v = k) (sf fuel : ℕ)
    (hsf : (5 * g.vertices.length + 2 * g.edges.length) ^ (2 * g.vertices.length + g.edges.length) ≤ sf)
    (hfuel : g.vertices.length < fuel) :
    ∃ I map I' map' x x' S S', formulateMaxStableSet junk g = .ok (some (I, map)) ∧
      formulateMaxStableSet junk' h = .ok (some (I', map')) ∧
      branchAndBound sf fuel I = .ok (some x) ∧ branchAndBound sf fuel I' = .ok (some x') ∧
      StableSet g S ∧ StableSet h S' ∧
      (∀ u, hasVertex g u = true → ∃ k, map.get? u = some k ∧ x[k]? = some (if u ∈ S then (1 : ℚ) else 0)) ∧
      (∀ u, hasVertex h u = true → ∃ k, map'.get? u = some k ∧ x'[k]? = some (if u ∈ S' then (1 : ℚ) else 0)) ∧
      ∑ u ∈ S', vertexWeight h u = ∑ u ∈ S, vertexWeight g u := by
  obtain ⟨s1, s2⟩ := r.sizes hρ hg hh
  have hw' : ∀ v, hasVertex h v = true → ∃ k : ℤ, (N : ℚ) * vertexWeight h v = k := by
    intro w hv
    obtain ⟨v, rfl⟩ := r.onto w hv
    rw [r.hasVertex] at hv
    have : vertexWeight h (ρ v) = vertexWeight g v := by unfold vertexWeight; rw [r.vertex]
    rw [this]
    exact hw v hv
  obtain ⟨I, map, f1, x, S, b1, _, m1, st1, best1⟩ := C85_stable_partial hg hj he N hN hN' hw sf fuel hsf hfuel
  obtain ⟨I', map', f2, x', S', b2, _, m2, st2, best2⟩ := C85_stable_partial hh hj'
    (a := ρ a) (b := ρ b) ((r.hasEdge (a, b)).trans he) N hN hN' hw' sf fuel (by rwa [s1, s2]) (by rwa [s1])
  refine ⟨I, map, I', map', x, x', S, S', f1, f2, b1, b2, st1, st2, m1, m2, ?_⟩
  obtain ⟨t1, t2⟩ := r.stable hρ
  apply le_antisymm
  · obtain ⟨T, hT, rfl⟩ := t2 S' st2
    rw [(t1 T hT).2]
    exact best1 T hT
  · rw [← (t1 S st1).2]
    exact best2 _ (t1 S st1).1

/-- C136 (equal graphs). `==` holds exactly between graphs with the same answers about vertices, edges, weights and
neighbours, and then every further call raises the same exception on both and leaves them equal. -/
theorem C136_equal {g h : Ugraph} (hg : Weak g) (hh : Weak h) :
    (graphEq g h = true ↔ Renamed id g h) ∧
    (graphEq g h = true → ∀ o, (step h o).2 = (step g o).2 ∧ graphEq (step g o).1 (step h o).1 = true) := by
  have key : ∀ {g h : Ugraph}, Weak g → Weak h → (graphEq g h = true ↔ Renamed id g h) := by
    intro g h hg hh
    rw [C23_eq hg hh, renamed_iff]
    simp only [id]
    constructor
    · rintro ⟨h1, h2, h3⟩
      exact ⟨fun v => (h1 v).symm, fun w _ => ⟨w, rfl⟩, fun a b => (h2 _).symm, fun a b => (h3 a b).symm⟩
    · rintro ⟨h1, _, h2, h3⟩
      refine ⟨fun v => (h1 v).symm, fun e => ?_, fun a b => (h3 a b).symm⟩
      by_cases he : e.1 < e.2
      · have := h2 e.1 e.2
        rw [norm_of_lt he] at this
        exact this.symm
      · have none_of : ∀ k : Ugraph, Weak k → k.edges.get? e = none := fun k hk =>
          Dict.get?_eq_none_iff.mpr fun hm => he (hk.sorted e.1 e.2 hm)
        rw [none_of g hg, none_of h hh]
  have hop : ∀ o : Op, renOp id o = o := by intro o; cases o <;> rfl
  refine ⟨key hg hh, fun heq o => ?_⟩
  have := step_alike hg hh Function.injective_id (fun _ => Iff.rfl) ((key hg hh).mp heq) o
  rw [hop] at this
  exact ⟨this.1, (key (step_weak hg o).1 (step_weak hh o).1).mpr this.2⟩

/-- A renaming for the examples: every name is written twice. -/
def doubled (v : Name) : Name := v ++ v

theorem doubled_inj : Function.Injective doubled := by
  intro a b h
  have hl : a.length = b.length := by
    have := congrArg List.length h
    simp only [doubled, List.length_append] at this
    omega
  exact (List.append_inj h hl).1

theorem doubled_nil (v : Name) : doubled v = [] ↔ v = [] := by simp [doubled]

/-- C136 is false for cuts asked for by a name: `degree("b")` is `2` and, after the names are written twice,
`degree("bb")` is `0`. -/
theorem C136_name_wrong : ∃ g h, ctor [(['a'], [['b']]), (['b'], [['c']])] [] [] = .ok g ∧
    ctor [(['a', 'a'], [['b', 'b']]), (['b', 'b'], [['c', 'c']])] [] [] = .ok h ∧ Renamed doubled g h ∧
    degree g (.name ['b']) = 2 ∧ degree h (.name ['b', 'b']) = 0 := by
  have h1 := C136_ctor doubled_inj doubled_nil [(['a'], [['b']]), (['b'], [['c']])] [] []
  have e1 : ctor [(['a'], [['b']]), (['b'], [['c']])] [] [] = .ok
    ⟨[(['a'], [['b']]), (['b'], [['a'], ['c']]), (['c'], [['b']])],
      [((['a'], ['b']), 0), ((['b'], ['c']), 0)], [(['a'], 0), (['b'], 0), (['c'], 0)]⟩ := by decide +kernel
  have e2 : ctor [(['a', 'a'], [['b', 'b']]), (['b', 'b'], [['c', 'c']])] [] [] = .ok
    ⟨[(['a', 'a'], [['b', 'b']]), (['b', 'b'], [['a', 'a'], ['c', 'c']]), (['c', 'c'], [['b', 'b']])],
      [((['a', 'a'], ['b', 'b']), 0), ((['b', 'b'], ['c', 'c']), 0)],
      [(['a', 'a'], 0), (['b', 'b'], 0), (['c', 'c'], 0)]⟩ := by decide +kernel
  have e2' : ctor (([(['a'], [['b']]), (['b'], [['c']])] : List (Name × List Name)).map
      fun p => (doubled p.1, p.2.map doubled)) (([] : List (Edge × ℚ)).map fun p => ((doubled p.1.1, doubled p.1.2), p.2))
      (([] : List (Name × ℚ)).map fun p => (doubled p.1, p.2)) = _ := e2
  rw [e1, e2'] at h1
  exact ⟨_, _, e1, e2, h1, by decide +kernel, by decide +kernel⟩

/-- C136 is false for the order of a traversal and for the exception of `shortest_path`: the neighbours are sorted by
name, and the exception depends on the length of the names. -/
theorem C136_order_wrong : ∃ g h, ctor [(['a'], [['b'], ['c']])] [] [] = .ok g ∧
    ctor [(['a'], [['c'], ['b']])] [] [] = .ok h ∧
    bfs g ['a'] = .ok [['a'], ['b'], ['c']] ∧ bfs h ['a'] = .ok [['a'], ['b'], ['c']] ∧
    ([['a'], ['b'], ['c']] : List Name).map (List.map (Equiv.swap 'b' 'c')) ≠ [['a'], ['b'], ['c']] ∧
    shortestPath g ['a'] ['b'] = .error .indexError ∧
    (ctor [(['a', 'a'], [['b', 'b'], ['c', 'c']])] [] []).bind
      (fun k => shortestPath k ['a', 'a'] ['b', 'b']) = .error .typeError :=
  ⟨⟨[(['a'], [['b'], ['c']]), (['b'], [['a']]), (['c'], [['a']])],
      [((['a'], ['b']), 0), ((['a'], ['c']), 0)], [(['a'], 0), (['b'], 0), (['c'], 0)]⟩,
    ⟨[(['a'], [['c'], ['b']]), (['c'], [['a']]), (['b'], [['a']])],
      [((['a'], ['c']), 0), ((['a'], ['b']), 0)], [(['a'], 0), (['c'], 0), (['b'], 0)]⟩,
    by decide +kernel, by decide +kernel, by decide +kernel, by decide +kernel, by decide +kernel,
    by decide +kernel, by decide +kernel⟩

/-- The hypotheses are met: a graph with weights, and the same graph with the names written twice and the arguments
in another order. -/
example : Renamed doubled
    ⟨[(['a'], [['b']]), (['b'], [['a'], ['c']]), (['c'], [['b']])],
      [((['a'], ['b']), 2), ((['b'], ['c']), 3)], [(['a'], 1), (['b'], 1), (['c'], 5)]⟩
    ⟨[(['a', 'a'], [['b', 'b']]), (['b', 'b'], [['a', 'a'], ['c', 'c']]), (['c', 'c'], [['b', 'b']])],
      [((['a', 'a'], ['b', 'b']), 2), ((['b', 'b'], ['c', 'c']), 3)],
      [(['a', 'a'], 1), (['b', 'b'], 1), (['c', 'c'], 5)]⟩ := by
  have h1 := C136_ctor doubled_inj doubled_nil [] [((['b'], ['a']), 2), ((['b'], ['c']), 3)]
    [(['a'], 1), (['b'], 1), (['c'], 5)]
  have e1 : ctor [] [((['b'], ['a']), 2), ((['b'], ['c']), 3)] [(['a'], 1), (['b'], 1), (['c'], 5)] = .ok
    ⟨[(['a'], [['b']]), (['b'], [['a'], ['c']]), (['c'], [['b']])],
      [((['a'], ['b']), 2), ((['b'], ['c']), 3)], [(['a'], 1), (['b'], 1), (['c'], 5)]⟩ := by decide +kernel
  have e2 : ctor (([] : List (Name × List Name)).map fun p => (doubled p.1, p.2.map doubled))
      (([((['b'], ['a']), 2), ((['b'], ['c']), 3)] : List (Edge × ℚ)).map
        fun p => ((doubled p.1.1, doubled p.1.2), p.2))
      (([(['a'], 1), (['b'], 1), (['c'], 5)] : List (Name × ℚ)).map fun p => (doubled p.1, p.2)) = .ok
    ⟨[(['a', 'a'], [['b', 'b']]), (['b', 'b'], [['a', 'a'], ['c', 'c']]), (['c', 'c'], [['b', 'b']])],
      [((['a', 'a'], ['b', 'b']), 2), ((['b', 'b'], ['c', 'c']), 3)],
      [(['a', 'a'], 1), (['b', 'b'], 1), (['c', 'c'], 5)]⟩ := by decide +kernel
  rw [e1, e2] at h1
  exact h1

end Pytimize.Props
