/-
Property C98: the constructor and the mutating calls of an undirected graph build the weighted graph they are told to.
-/
import Verif.Graph.UndirectedBuild
import Verif.Props.Undirected
import Verif.Props.Parser

namespace Pytimize.Props
open Pytimize.Undirected
open Pytimize.Directed (Name)

/-- Specification: the weighted graph described by the three arguments of the constructor. A vertex is there if it is
named anywhere, an edge if it is named in `graph` or `edges`; the weight is the last one given, or 0. -/
noncomputable def described (graph : List (Name × List Name)) (edges : List (Edge × ℚ)) (vertices : List (Name × ℚ)) :
    Net where
  vertex x := (lastOf vertices x).or (zeroIf
    ((∃ p ∈ graph, x = p.1 ∨ x ∈ p.2) ∨ ∃ p ∈ edges, x = p.1.1 ∨ x = p.1.2))
  edge s := (lastEdge edges s).or (zeroIf (∃ p ∈ graph, ∃ v ∈ p.2, s = s(p.1, v)))

theorem ctor_rep (graph : List (Name × List Name)) (edges : List (Edge × ℚ)) (vertices : List (Name × ℚ)) :
    (((∀ p ∈ graph, ∀ v ∈ p.2, Proper p.1 v) ∧ ∀ p ∈ edges, Proper p.1.1 p.1.2) →
      ∃ g, ctor graph edges vertices = .ok g ∧ Rep g (described graph edges vertices)) ∧
    (¬ ((∀ p ∈ graph, ∀ v ∈ p.2, Proper p.1 v) ∧ ∀ p ∈ edges, Proper p.1.1 p.1.2) →
      ctor graph edges vertices = .error .valueError) := by
  have key := (ctorGraph_net Rep_empty graph).andThen
    (f := fun g1 => chain (ctorEdges g1 edges) fun g2 => ctorVertices g2 vertices) fun g1 h1 =>
      (ctorEdges_net h1 edges).andThen (f := fun g2 => ctorVertices g2 vertices) fun g2 h2 =>
        ctorVertices_net h2 vertices
  have key := key.congr (Q := (∀ p ∈ graph, ∀ v ∈ p.2, Proper p.1 v) ∧ ∀ p ∈ edges, Proper p.1.1 p.1.2)
    (M := described graph edges vertices) (by simp only [and_true]) (fun x => by
      simp only [described, Option.none_or]
      rw [zeroIf_or Iff.rfl]) fun s => by simp only [described, Option.none_or]
  have e : ctor graph edges vertices = (match chain (ctorGraph Ugraph.empty graph)
      fun g1 => chain (ctorEdges g1 edges) fun g2 => ctorVertices g2 vertices with
      | (_, some e) => .error e
      | (g, none) => .ok g) := by
    unfold ctor
    generalize ctorGraph Ugraph.empty graph = r
    obtain ⟨g1, e1⟩ := r
    cases e1 with
    | some e => rfl
    | none =>
      simp only [chain]
      generalize ctorEdges g1 edges = r
      obtain ⟨g2, e2⟩ := r
      cases e2 with
      | some e => rfl
      | none =>
        simp only
        generalize ctorVertices g2 vertices = r
        obtain ⟨g3, e3⟩ := r
        cases e3 <;> rfl
  rw [e]
  generalize chain (ctorGraph Ugraph.empty graph)
    (fun g1 => chain (ctorEdges g1 edges) fun g2 => ctorVertices g2 vertices) = r at key
  obtain ⟨g, err⟩ := r
  constructor
  · intro h
    obtain ⟨h1, h2⟩ := key.1 h
    simp only at h1 h2
    subst h1
    exact ⟨g, rfl, h2⟩
  · intro h
    have h1 := key.2 h
    simp only at h1
    subst h1
    rfl

/-- C98: the constructor accepts its arguments exactly if no edge is a loop or has an empty name; then the graph shows
exactly the vertices, edges and weights described by the arguments. -/
theorem C98_ctor (graph : List (Name × List Name)) (edges : List (Edge × ℚ)) (vertices : List (Name × ℚ)) :
    (((∀ p ∈ graph, ∀ v ∈ p.2, Proper p.1 v) ∧ ∀ p ∈ edges, Proper p.1.1 p.1.2) →
      ∃ g, ctor graph edges vertices = .ok g ∧ Shows g (described graph edges vertices)) ∧
    (¬ ((∀ p ∈ graph, ∀ v ∈ p.2, Proper p.1 v) ∧ ∀ p ∈ edges, Proper p.1.1 p.1.2) →
      ctor graph edges vertices = .error .valueError) := by
  obtain ⟨h1, h2⟩ := ctor_rep graph edges vertices
  refine ⟨fun h => ?_, h2⟩
  obtain ⟨g, hg, hr⟩ := h1 h
  exact ⟨g, hg, hr.shows⟩

/-- The specified effect of a history of calls; rejected calls change nothing. -/
def Net.run (N : Net) (ops : List Op) : Net := ops.foldl (fun N o => (N.step o).getD N) N

theorem run_rep {g : Ugraph} {N : Net} (h : Rep g N) {ops : List Op} (ho : ∀ o ∈ ops, o.keeps = true) :
    Rep (run g ops) (Net.run N ops) := by
  induction ops generalizing g N with
  | nil => exact h
  | cons o ops ih =>
    have hs := h.step (ho o List.mem_cons_self)
    have ho' : ∀ o ∈ ops, o.keeps = true := fun o' h' => ho o' (List.mem_cons_of_mem _ h')
    show Rep (run (step g o).1 ops) (Net.run ((N.step o).getD N) ops)
    generalize N.step o = r at hs
    cases r with
    | none => simp only at hs; rw [hs]; exact ih h ho'
    | some N' => exact ih hs.2 ho'

/-- C98: after the constructor and any history of calls other than `remove_edge`, the graph shows the weighted graph
that the calls describe one after the other, and the next call is rejected with `ValueError`, without effect, exactly
if the specification rejects it. `remove_edge` is excluded because it does not do what it documents (C17). -/
theorem C98_history {graph : List (Name × List Name)} {edges : List (Edge × ℚ)} {vertices : List (Name × ℚ)}
    {g : Ugraph} (h : ctor graph edges vertices = .ok g) {ops : List Op} (ho : ∀ o ∈ ops, o.keeps = true) :
    Shows (run g ops) (Net.run (described graph edges vertices) ops) ∧
    ∀ o, o.keeps = true →
      match (Net.run (described graph edges vertices) ops).step o with
      | none => step (run g ops) o = (run g ops, some .valueError)
      | some N' => (step (run g ops) o).2 = none ∧ Shows (step (run g ops) o).1 N' := by
  obtain ⟨h1, h2⟩ := ctor_rep graph edges vertices
  by_cases hp : (∀ p ∈ graph, ∀ v ∈ p.2, Proper p.1 v) ∧ ∀ p ∈ edges, Proper p.1.1 p.1.2
  · obtain ⟨g', hg', hr⟩ := h1 hp
    rw [h] at hg'
    cases hg'
    have hr' := run_rep hr ho
    refine ⟨hr'.shows, fun o hk => ?_⟩
    have hs := hr'.step hk
    generalize (Net.run (described graph edges vertices) ops).step o = r at hs
    cases r with
    | none => exact hs
    | some N' => exact ⟨hs.1, hs.2.shows⟩
  · rw [h2 hp] at h; cases h

/-- The calls of a history that `C98_history` speaks of: a vertex, an edge with weight, and a new weight for it. -/
example : ∃ g, ctor [(['a'], [['b']])] [] [(['c'], 5)] = .ok g ∧
    (∀ o ∈ [Op.addEdge (['b'], ['c']) 2, .setEdgeWeight (['c'], ['b']) 7], o.keeps = true) ∧
    getEdgeWeight (run g [.addEdge (['b'], ['c']) 2, .setEdgeWeight (['c'], ['b']) 7]) (['b'], ['c']) = .ok 7 := by
  refine ⟨_, rfl, by simp [Op.keeps], ?_⟩
  with_unfolding_all rfl

/-- `{(u, v): w for u, v, w in GraphParser.parse(s)}`. -/
def edgesOf (l : List (List Char × List Char × ℚ)) : List (Edge × ℚ) :=
  l.foldl (fun d p => Dict.set d (p.1, p.2.1) p.2.2) []

theorem lastEdge_append (l l' : List (Edge × ℚ)) (s : Sym2 Name) :
    lastEdge (l ++ l') s = (lastEdge l' s).or (lastEdge l s) := by
  induction l with
  | nil => simp [lastEdge, lastOf]
  | cons p l ih =>
    simp only [lastEdge, List.cons_append, List.map_cons, lastOf] at ih ⊢
    rw [ih, Option.or_assoc']

/-- For a list without repeated key, building the dictionary keeps it as it is. -/
theorem foldl_set_nodup {l : List (Edge × ℚ)} {d : Dict Edge ℚ} (h : ((d ++ l).map Prod.fst).Nodup) :
    l.foldl (fun d p => Dict.set d p.1 p.2) d = d ++ l := by
  induction l generalizing d with
  | nil => simp
  | cons p l ih =>
    have hnot : p.1 ∉ Dict.keys d := by
      simp only [List.map_append, List.map_cons, List.nodup_append] at h
      exact fun hm => h.2.2 _ hm _ List.mem_cons_self rfl
    have hset : ∀ d : Dict Edge ℚ, p.1 ∉ Dict.keys d → Dict.set d p.1 p.2 = d ++ [p] := by
      intro d
      induction d with
      | nil => intro _; rfl
      | cons q d ihd =>
        intro hq
        simp only [Dict.keys, List.map_cons, List.mem_cons, not_or] at hq
        rw [Dict.set, if_neg (Ne.symm hq.1), ihd hq.2]; rfl
    rw [List.foldl_cons, hset d hnot, ih]
    · simp
    · simpa using h

/-- C98, from text: edges written in one of the four formats of the graph parser, with distinct unordered pairs of
different names, are parsed and built into the graph with exactly these edges and weights (0 in the formats
without weights); its vertices are the ends of the edges. -/
theorem C98_text {ch : Parser.Chars} {k : ℕ} (hk : k ≤ 3) {es : List Parser.EdgeText} (h0 : es ≠ [])
    (h : ∀ e ∈ es, e.Ok ch k) (hl : ∀ e ∈ es, e.u ≠ e.v) (hd : (es.map fun e => s(e.u, e.v)).Nodup) :
    ∃ l g, Parser.parseGraph ch (printEdges k es) = .ok l ∧ ctor [] (edgesOf l) [] = .ok g ∧
      (∀ e ∈ es, getEdgeWeight g (e.u, e.v) = .ok (if 2 ≤ k then e.w.value ch else 0)) ∧
      (∀ a b, hasEdge g (a, b) = true ↔ ∃ e ∈ es, s(a, b) = s(e.u, e.v)) ∧
      ∀ x, hasVertex g x = true ↔ ∃ e ∈ es, x = e.u ∨ x = e.v := by
  have hparse := C67_print hk h0 h
  set l := es.map fun f => (f.u, f.v, if 2 ≤ k then f.w.value ch else 0) with hldef
  have hdict : edgesOf l = es.map fun f => (((f.u, f.v) : Edge), if 2 ≤ k then f.w.value ch else 0) := by
    have e1 : edgesOf l = (es.map fun f => (((f.u, f.v) : Edge), if 2 ≤ k then f.w.value ch else 0)).foldl
        (fun d p => Dict.set d p.1 p.2) [] := by
      simp only [edgesOf, hldef, List.foldl_map]
    rw [e1, foldl_set_nodup]
    · rfl
    · rw [List.nil_append, List.map_map]
      refine List.Nodup.of_map (fun p : Edge => s(p.1, p.2)) ?_
      rw [List.map_map]
      exact hd
  have hprop : ∀ p ∈ edgesOf l, Proper p.1.1 p.1.2 := by
    rw [hdict]
    intro p hp
    obtain ⟨f, hf, rfl⟩ := List.mem_map.mp hp
    exact ⟨hl f hf, (h f hf).1.1, (h f hf).2.1.1⟩
  obtain ⟨g, hg, hs⟩ := (C98_ctor [] (edgesOf l) []).1 ⟨by simp, hprop⟩
  have hlast : ∀ (fs : List Parser.EdgeText), (fs.map fun e => s(e.u, e.v)).Nodup → ∀ e ∈ fs,
      lastEdge (fs.map fun f => (((f.u, f.v) : Edge), if 2 ≤ k then f.w.value ch else 0)) s(e.u, e.v) =
        some (if 2 ≤ k then e.w.value ch else 0) := by
    intro fs
    induction fs with
    | nil => simp
    | cons f fs ih =>
      intro hn e he
      rw [List.map_cons, List.nodup_cons] at hn
      simp only [lastEdge, List.map_cons, lastOf] at ih ⊢
      rcases List.mem_cons.mp he with rfl | he
      · have hnone : ∀ fs' : List Parser.EdgeText, s(e.u, e.v) ∉ fs'.map (fun e => s(e.u, e.v)) →
            lastOf (((fs'.map fun f => (((f.u, f.v) : Edge), if 2 ≤ k then f.w.value ch else 0)).map
              fun p => (s(p.1.1, p.1.2), p.2))) s(e.u, e.v) = none := by
          intro fs'
          induction fs' with
          | nil => simp [lastOf]
          | cons f' fs' ih' =>
            intro hm
            simp only [List.map_cons, List.mem_cons, not_or] at hm
            simp only [List.map_cons, lastOf]
            rw [ih' hm.2, if_neg (Ne.symm hm.1)]; rfl
        rw [hnone fs hn.1, if_pos rfl]; rfl
      · rw [ih hn.2 e he]; rfl
  have hedge : ∀ s, (lastEdge (edgesOf l) s).isSome = true ↔ ∃ e ∈ es, s = s(e.u, e.v) := by
    intro s
    constructor
    · rw [hdict]
      clear hlast hs hg hprop hdict hparse hldef hd hl h h0
      induction es with
      | nil => simp [lastEdge, lastOf]
      | cons f fs ih =>
        intro hm
        simp only [lastEdge, List.map_cons, lastOf] at ih hm
        by_cases hf : s(f.u, f.v) = s
        · exact ⟨f, List.mem_cons_self, hf.symm⟩
        · rw [if_neg hf, Option.or_none] at hm
          obtain ⟨e, he, hse⟩ := ih hm
          exact ⟨e, List.mem_cons_of_mem _ he, hse⟩
    · rintro ⟨e, he, rfl⟩
      rw [hdict, hlast es hd e he]; rfl
  refine ⟨l, g, hparse, hg, fun e he => ?_, fun a b => ?_, fun x => ?_⟩
  · rw [hs.edge]
    simp only [described]
    rw [hdict, hlast es hd e he]; rfl
  · rw [hs.hasEdge]
    simp only [described]
    rw [zeroIf_false (by simp), Option.or_none]
    exact hedge _
  · rw [hs.hasVertex]
    simp only [described, lastOf, Option.none_or]
    rw [hdict]
    by_cases hx : ∃ e ∈ es, x = e.u ∨ x = e.v
    · rw [zeroIf_true]
      · simpa using hx
      · simpa using hx
    · rw [zeroIf_false]
      · simpa using hx
      · simpa using hx

end Pytimize.Props
