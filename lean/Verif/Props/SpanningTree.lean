/-
Property C147: `has_spanning_tree` and `minimum_spanning_tree`.
-/
import Verif.Props.UndirectedBuild
import Verif.Props.UndirectedChange

namespace Pytimize.Props
open Pytimize.Undirected
open Pytimize.Directed (Name)

theorem lastOf_isSome {K : Type} [DecidableEq K] (l : List (K × ℚ)) (x : K) :
    (lastOf l x).isSome = true ↔ ∃ w, (x, w) ∈ l := by
  induction l with
  | nil => simp [lastOf]
  | cons p l ih =>
    obtain ⟨k, w⟩ := p
    simp only [lastOf, Option.isSome_or, Bool.or_eq_true, ih, List.mem_cons, Prod.mk.injEq]
    by_cases hk : k = x
    · subst hk
      simp only [if_true, Option.isSome_some, or_true, true_iff]
      exact ⟨w, .inl (by simp)⟩
    · simp only [hk, if_false, Option.isSome_none, Bool.false_eq_true, or_false]
      exact ⟨fun ⟨v, hv⟩ => ⟨v, .inr hv⟩, fun ⟨v, hv⟩ => hv.elim (fun h => absurd h.1.symm hk) fun h => ⟨v, h⟩⟩

theorem lastOf_eq {K : Type} [DecidableEq K] {l : List (K × ℚ)} (hl : (l.map Prod.fst).Nodup) {x : K} {w : ℚ}
    (h : (x, w) ∈ l) : lastOf l x = some w := by
  induction l with
  | nil => cases h
  | cons p l ih =>
    obtain ⟨k, v⟩ := p
    rw [List.map_cons, List.nodup_cons] at hl
    simp only [lastOf]
    rcases List.mem_cons.mp h with he | hm
    · cases he
      have : lastOf l x = none := by
        rw [← Option.not_isSome_iff_eq_none, lastOf_isSome]
        rintro ⟨v, hv⟩
        exact hl.1 (List.mem_map.mpr ⟨_, hv, rfl⟩)
      simp [this]
    · rw [ih hl.2 hm]; rfl

/-- Specification: `t` was built from all vertices of `g` and some of its edges, with their weights. -/
def Selected (g t : Ugraph) : Prop := ∃ es : List (Edge × ℚ), es.Sublist g.edges ∧ ctor [] es g.vertices = .ok t

theorem select_facts {g : Ugraph} (h : Weak g) {es : List (Edge × ℚ)} (hs : es.Sublist g.edges) :
    ∃ t, ctor [] es g.vertices = .ok t ∧ UWF t ∧ (∀ v, hasVertex t v = hasVertex g v) ∧
      (∀ v, getVertexWeight t v = getVertexWeight g v) ∧
      (∀ a b, hasEdge t (a, b) = true ↔ ∃ w, (norm (a, b), w) ∈ es) ∧
      ∀ a b, hasEdge t (a, b) = true → getEdgeWeight t (a, b) = getEdgeWeight g (a, b) := by
  have hkey : ∀ {a b : Name} {w : ℚ}, ((a, b), w) ∈ es → (a, b) ∈ g.edges.keys := fun hm =>
    List.mem_map_of_mem (f := Prod.fst) (hs.subset hm)
  have hproper : ∀ p ∈ es, Proper p.1.1 p.1.2 := by
    rintro ⟨⟨a, b⟩, w⟩ hm
    exact ⟨(h.sorted a b (hkey hm)).ne, h.nonempty a b (hkey hm)⟩
  obtain ⟨t, ht, hr⟩ := (ctor_rep [] es g.vertices).1 ⟨by simp, hproper⟩
  have hsh := hr.shows
  have hV : ∀ v, (described [] es g.vertices).vertex v = g.vertices.get? v := by
    intro v
    by_cases hv : v ∈ g.vertices.keys
    · obtain ⟨w, hw⟩ : ∃ w, (v, w) ∈ g.vertices := by
        obtain ⟨⟨a, w⟩, hm, rfl⟩ := List.mem_map.mp hv
        exact ⟨w, hm⟩
      have h1 : lastOf g.vertices v = some w := lastOf_eq h.vertsWF hw
      rw [Dict.get?_of_mem h.vertsWF hw]
      simp [described, h1]
    · have h1 : lastOf g.vertices v = none := by
        rw [← Option.not_isSome_iff_eq_none, lastOf_isSome]
        rintro ⟨w, hw⟩
        exact hv (List.mem_map_of_mem (f := Prod.fst) hw)
      have h2 : ¬ ((∃ p ∈ ([] : List (Name × List Name)), v = p.1 ∨ v ∈ p.2) ∨ ∃ p ∈ es, v = p.1.1 ∨ v = p.1.2) := by
        rintro (⟨p, hp, _⟩ | ⟨⟨⟨a, b⟩, w⟩, hm, hc⟩)
        · cases hp
        · have := h.ends a b (hkey hm)
          rcases hc with rfl | rfl
          · exact hv this.1
          · exact hv this.2
      rw [Dict.get?_eq_none_iff.mpr hv]
      simp only [described, h1, Option.none_or]
      exact zeroIf_false h2
  have hsym : ∀ {a b c d : Name} {w : ℚ}, ((c, d), w) ∈ es → (s(c, d) = s(a, b) ↔ (c, d) = norm (a, b)) := by
    intro a b c d w hm
    rw [← norm_eq_norm_iff, norm_of_lt (h.sorted c d (hkey hm))]
  have hno : ∀ s, zeroIf (∃ p ∈ ([] : List (Name × List Name)), ∃ v ∈ p.2, s = s(p.1, v)) = none := fun s =>
    zeroIf_false (by simp)
  have hE : ∀ a b, (∃ w, (norm (a, b), w) ∈ es) ↔ ((described [] es g.vertices).edge s(a, b)).isSome = true := by
    intro a b
    simp only [described, hno, Option.or_none, lastEdge]
    rw [lastOf_isSome]
    constructor
    · rintro ⟨w, hm⟩
      refine ⟨w, List.mem_map.mpr ⟨_, hm, ?_⟩⟩
      rw [Prod.mk.injEq]
      exact ⟨(hsym (w := w) (c := (norm (a, b)).1) (d := (norm (a, b)).2) hm).mpr rfl, rfl⟩
    · rintro ⟨w, hm⟩
      obtain ⟨⟨⟨c, d⟩, w'⟩, hm', he⟩ := List.mem_map.mp hm
      rw [Prod.mk.injEq] at he
      have := (hsym hm').mp he.1
      exact ⟨w', this ▸ hm'⟩
  have hW : ∀ a b w, (norm (a, b), w) ∈ es → (described [] es g.vertices).edge s(a, b) = some w := by
    intro a b w hm
    simp only [described, hno, Option.or_none, lastEdge]
    refine lastOf_eq ?_ (List.mem_map.mpr ⟨_, hm, ?_⟩)
    · have hnd : (es.map Prod.fst).Nodup := (hs.map Prod.fst).nodup h.edgesWF
      rw [List.map_map]
      have e : (es.map (Prod.fst ∘ fun p : Edge × ℚ => (s(p.1.1, p.1.2), p.2))) =
          (es.map Prod.fst).map fun e : Edge => s(e.1, e.2) := by rw [List.map_map]; rfl
      rw [e]
      refine List.Nodup.map_on ?_ hnd
      rintro ⟨a, b⟩ hab ⟨c, d⟩ hcd he
      obtain ⟨⟨_, w1⟩, hm1, rfl⟩ := List.mem_map.mp hab
      obtain ⟨⟨_, w2⟩, hm2, rfl⟩ := List.mem_map.mp hcd
      rw [(hsym hm1).mp he, norm_of_lt (h.sorted _ _ (hkey hm2))]
    · rw [Prod.mk.injEq]
      exact ⟨(hsym (w := w) (c := (norm (a, b)).1) (d := (norm (a, b)).2) hm).mpr rfl, rfl⟩
  have hE' : ∀ a b, hasEdge t (a, b) = true ↔ ∃ w, (norm (a, b), w) ∈ es := fun a b => by rw [hsh.hasEdge, hE]
  refine ⟨t, ht, hr.wf, fun v => ?_, fun v => ?_, hE', fun a b hab => ?_⟩
  · rw [hsh.hasVertex, hV, Bool.eq_iff_iff, get?_isSome, hasVertex_iff]
  · rw [hsh.vertex, hV]
    unfold getVertexWeight answer
    cases hg : g.vertices.get? v with
    | none => simp [hasVertex, Dict.has, hg]
    | some w => simp [hasVertex, Dict.has, hg]
  · obtain ⟨w, hm⟩ := (hE' a b).mp hab
    rw [hsh.edge, hW a b w hm]
    have := Dict.get?_of_mem h.edgesWF (hs.subset hm)
    have hk : norm (a, b) ∈ g.edges.keys := List.mem_map_of_mem (f := Prod.fst) (hs.subset hm)
    unfold getEdgeWeight answer
    simp [hasEdge, Dict.has, this]

/-- C147: a selection has the vertices of the graph with their weights, and edges of the graph with their weights. -/
theorem C147_selected {g t : Ugraph} (h : Weak g) (hs : Selected g t) :
    (∀ v, hasVertex t v = hasVertex g v) ∧ (∀ v, getVertexWeight t v = getVertexWeight g v) ∧
      ∀ a b, hasEdge t (a, b) = true → hasEdge g (a, b) = true ∧ getEdgeWeight t (a, b) = getEdgeWeight g (a, b) := by
  obtain ⟨es, hsub, ht⟩ := hs
  obtain ⟨t', ht', _, h1, h2, h3, h4⟩ := select_facts h hsub
  rw [ht] at ht'
  cases ht'
  refine ⟨h1, h2, fun a b hab => ⟨?_, h4 a b hab⟩⟩
  obtain ⟨w, hm⟩ := (h3 a b).mp hab
  exact hasEdge_iff.mpr (List.mem_map_of_mem (f := Prod.fst) (hsub.subset hm))

/-- C147: `has_spanning_tree` answers `True` iff some of the edges, with all the vertices, make a graph for which
`is_tree` answers `True`. Missing: after `remove_edge`, see `C147_remove_wrong`. -/
theorem C147_has_partial {g : Ugraph} (h : UWF g) (ord : ℕ → List Name → List Name) (hord : ∀ k l, (ord k l).Perm l) :
    hasSpanningTree g = .ok true ↔ ∃ t, Selected g t ∧ isTree ord t = .ok true := by
  classical
  show isConnected g = .ok true ↔ _
  rw [connected_iff h]
  constructor
  · intro hc
    obtain ⟨T, hle, hT⟩ := hc.exists_isTree_le
    let sel : Edge × ℚ → Prop := fun p => ∃ (ha : p.1.1 ∈ vertexSet g) (hb : p.1.2 ∈ vertexSet g), T.Adj ⟨p.1.1, ha⟩ ⟨p.1.2, hb⟩
    have hsub : (g.edges.filter fun p => decide (sel p)).Sublist g.edges := List.filter_sublist
    obtain ⟨t, ht, hU, h1, h2, h3, h4⟩ := select_facts h.toWeak hsub
    refine ⟨t, ⟨_, hsub, ht⟩, (tree_iff hU hord).mpr ?_⟩
    have hset : vertexSet t = vertexSet g := by
      ext v
      have := h1 v
      rw [Bool.eq_iff_iff, hasVertex_iff, hasVertex_iff] at this
      exact this
    have hadj : ∀ a b (ha : a ∈ vertexSet g) (hb : b ∈ vertexSet g), (simple t).Adj a b ↔ T.Adj ⟨a, ha⟩ ⟨b, hb⟩ := by
      intro a b ha hb
      show (a ≠ b ∧ hasEdge t (a, b) = true) ↔ _
      rw [h3]
      constructor
      · rintro ⟨_, w, hm⟩
        obtain ⟨_, hsel⟩ := List.mem_filter.mp hm
        obtain ⟨c1, c2, hadj⟩ := of_decide_eq_true hsel
        rcases norm_cases a b with e | e
        · simp only [e] at hadj; exact hadj
        · simp only [e] at hadj; exact hadj.symm
      · intro hT'
        have hg : (simple g).Adj a b := hle hT'
        obtain ⟨⟨e, w⟩, hm, he⟩ := List.mem_map.mp (hasEdge_iff.mp hg.2)
        dsimp only at he
        subst he
        refine ⟨hg.1, w, List.mem_filter.mpr ⟨hm, decide_eq_true ?_⟩⟩
        show ∃ (ha : (norm (a, b)).1 ∈ vertexSet g) (hb : (norm (a, b)).2 ∈ vertexSet g), T.Adj ⟨_, ha⟩ ⟨_, hb⟩
        rcases norm_cases a b with e | e
        · rw [e]; exact ⟨ha, hb, hT'⟩
        · rw [e]; exact ⟨hb, ha, hT'.symm⟩
    have iso : inner t ≃g T :=
      { toEquiv := Equiv.setCongr hset
        map_rel_iff' := by
          rintro ⟨a, ha⟩ ⟨b, hb⟩
          exact (hadj a b (hset ▸ ha) (hset ▸ hb)).symm }
    exact (iso.isTree_iff).mpr hT
  · rintro ⟨t, ⟨es, hsub, ht⟩, htree⟩
    obtain ⟨t', ht', hU, h1, h2, h3, h4⟩ := select_facts h.toWeak hsub
    rw [ht] at ht'
    cases ht'
    have hct := ((tree_iff hU hord).mp htree).connected
    rw [inner_connected hU.toWeak] at hct
    rw [inner_connected h.toWeak]
    obtain ⟨⟨v, hv⟩, hr⟩ := hct
    refine ⟨⟨v, by rw [← h1]; exact hv⟩, fun a b ha hb => (hr a b (by rw [h1]; exact ha) (by rw [h1]; exact hb)).mono ?_⟩
    intro a b hab
    obtain ⟨w, hm⟩ := (h3 a b).mp hab.2
    exact ⟨hab.1, hasEdge_iff.mpr (List.mem_map_of_mem (f := Prod.fst) (hsub.subset hm))⟩

/-- The total weight of the edges. -/
def edgeSum (g : Ugraph) : ℚ := (g.edges.map Prod.snd).sum

/-- Specification: `t` is a spanning tree of `g` of least weight. -/
def MinTree (ord : ℕ → List Name → List Name) (g t : Ugraph) : Prop :=
  Selected g t ∧ isTree ord t = .ok true ∧ ∀ t', Selected g t' → isTree ord t' = .ok true → edgeSum t ≤ edgeSum t'

/-- C147: `minimum_spanning_tree` raises `ValueError` iff there is no spanning tree. Missing: what it returns otherwise,
see `C147_none_wrong`. -/
theorem C147_raises_partial {g : Ugraph} (h : UWF g) (ord : ℕ → List Name → List Name) (hord : ∀ k l, (ord k l).Perm l) :
    minimumSpanningTree g = .error .valueError ↔ ¬ ∃ t, Selected g t ∧ isTree ord t = .ok true := by
  rw [← C147_has_partial h ord hord]
  obtain ⟨r, h1, h2, _⟩ := C20_is_connected h
  unfold minimumSpanningTree
  rw [h1, h2]
  cases r <;> simp

/-- C147 is false: for every graph with a spanning tree there is one of least weight, but `minimum_spanning_tree` returns
`None`. -/
theorem C147_none_wrong {g : Ugraph} (h : UWF g) (ord : ℕ → List Name → List Name) (hord : ∀ k l, (ord k l).Perm l)
    (hg : hasSpanningTree g = .ok true) : (∃ t, MinTree ord g t) ∧ minimumSpanningTree g = .ok none := by
  classical
  refine ⟨?_, ?_⟩
  · obtain ⟨t, ⟨es, hs, ht⟩, htree⟩ := (C147_has_partial h ord hord).mp hg
    let good : List (Edge × ℚ) → Prop := fun es => ∃ t, ctor [] es g.vertices = .ok t ∧ isTree ord t = .ok true
    let cost : List (Edge × ℚ) → ℚ := fun es => match ctor [] es g.vertices with
      | .ok t => edgeSum t
      | .error _ => 0
    let S : Finset (List (Edge × ℚ)) := g.edges.sublists.toFinset.filter good
    have hmem : ∀ es, es ∈ S ↔ es.Sublist g.edges ∧ good es := fun es => by
      simp [S, List.mem_sublists]
    obtain ⟨es', he, hmin⟩ := S.exists_min_image cost ⟨es, (hmem es).mpr ⟨hs, t, ht, htree⟩⟩
    obtain ⟨hs', t', ht', htree'⟩ := (hmem es').mp he
    refine ⟨t', ⟨es', hs', ht'⟩, htree', ?_⟩
    rintro u ⟨eu, hsu, hu⟩ hutree
    have := hmin eu ((hmem eu).mpr ⟨hsu, u, hu, hutree⟩)
    simpa only [cost, ht', hu] using this
  · unfold minimumSpanningTree
    have : isConnected g = .ok true := hg
    rw [this]

/-- C147: every spanning tree has one edge less than the graph has vertices. -/
theorem C147_edges {g t : Ugraph} (h : Weak g) (hs : Selected g t) (ord : ℕ → List Name → List Name)
    (hord : ∀ k l, (ord k l).Perm l) (ht : isTree ord t = .ok true) : t.edges.length + 1 = g.vertices.length := by
  obtain ⟨es, hsub, hc⟩ := hs
  obtain ⟨t', ht', hU, h1, _⟩ := select_facts h hsub
  rw [hc] at ht'
  cases ht'
  rw [((C141_tree_partial hU ord hord).mp ht).2]
  have : t.vertices.keys.Perm g.vertices.keys := (List.perm_ext_iff_of_nodup hU.vertsWF h.vertsWF).mpr fun v => by
    rw [← hasVertex_iff, ← hasVertex_iff, h1]
  simpa [Dict.keys] using this.length_eq

/-- C147 is false after `remove_edge`: without its only edge a graph has no spanning tree, but the tree of the edges in
the object is still there. -/
theorem C147_remove_wrong : ∃ g g' t, ctor [(na, [nb'])] [] [] = .ok g ∧ removeEdge g (na, nb') = (g', none) ∧
    hasSpanningTree g' = .ok false ∧ Selected g' t ∧ isTree (fun _ l => l) t = .ok true := by
  refine ⟨ugEdge, (removeEdge ugEdge (na, nb')).1, ugEdge, ugEdge_ctor, by decide +kernel, by decide +kernel,
    ⟨_, List.Sublist.refl _, ?_⟩, by decide +kernel⟩
  with_unfolding_all rfl

/-! ### Not vacuous -/

example : hasSpanningTree ugTriangle = .ok true ∧ hasSpanningTree ugPath = .ok false ∧
    minimumSpanningTree ugPath = .error .valueError := by decide +kernel

/-- A triangle without its heaviest edge is a spanning tree. -/
example : ∃ t, Selected ugTriangle t ∧ isTree (fun _ l => l) t = .ok true :=
  (C147_has_partial (ctor_uwf ugTriangle_ctor) _ fun _ _ => List.Perm.refl _).mp (by decide +kernel)

end Pytimize.Props
