/-
C15–C22, C25, C26: the undirected graph object and its traversals
(`pytimize/graphs/_undirected.py`).
-/
import Verif.Graph.UndirectedTheory
import Mathlib.Tactic.NormNum

namespace Pytimize.Props
open Pytimize.Undirected
open Pytimize.Directed (Name chars NodeArg)

/-- The names used in the examples. -/
abbrev na : Name := ['a']
abbrev nb' : Name := ['b']
abbrev nc : Name := ['c']
abbrev nd : Name := ['d']

/-- A path `a - b - c` and an isolated vertex `d`. -/
def ugPath : Ugraph :=
  ⟨[(na, [nb']), (nb', [na, nc]), (nc, [nb']), (nd, [])],
   [((na, nb'), 2), ((nb', nc), 3)], [(na, 1), (nb', 1), (nc, 1), (nd, 1)]⟩

/-- A triangle. -/
def ugTriangle : Ugraph :=
  ⟨[(na, [nb', nc]), (nb', [na, nc]), (nc, [na, nb'])],
   [((na, nb'), 1), ((na, nc), 1), ((nb', nc), 1)], [(na, 1), (nb', 1), (nc, 1)]⟩

/-- One edge. -/
def ugEdge : Ugraph := ⟨[(na, [nb']), (nb', [na])], [((na, nb'), 0)], [(na, 0), (nb', 0)]⟩

theorem ugPath_ctor : ctor [(nd, [])] [((nb', na), 2), ((nb', nc), 3)] [(na, 1), (nb', 1), (nc, 1), (nd, 1)] =
    .ok ⟨[(nd, []), (na, [nb']), (nb', [na, nc]), (nc, [nb'])],
      [((na, nb'), 2), ((nb', nc), 3)], [(nd, 1), (na, 1), (nb', 1), (nc, 1)]⟩ := by decide +kernel

theorem ugTriangle_ctor : ctor [(na, [nb', nc]), (nb', [nc])] [((na, nb'), 1), ((nc, na), 1), ((nc, nb'), 1)]
    [(na, 1), (nb', 1), (nc, 1)] = .ok ugTriangle := by decide +kernel

theorem ugEdge_ctor : ctor [(na, [nb'])] [] [] = .ok ugEdge := by decide +kernel

/-! ## C15: well-formedness -/

/-- C15 (constructor). Whatever the constructor accepts is a simple graph. -/
theorem C15_ctor {graph : List (Name × List Name)} {edges : List (Edge × ℚ)}
    {vertices : List (Name × ℚ)} {g : Ugraph} (h : ctor graph edges vertices = .ok g) : UWF g :=
  ctor_uwf h

example : UWF ugTriangle := C15_ctor ugTriangle_ctor

/-- C15 (histories without `remove_edge`). Adjacency is symmetric and irreflexive, `a ~ b` iff
`has_edge((a, b))`, and endpoints are vertices. Missing from the full statement: histories with
`remove_edge`, for which `a ~ b iff has_edge` is false (`C15_remove_wrong`). -/
theorem C15_history_partial {graph : List (Name × List Name)} {edges : List (Edge × ℚ)}
    {vertices : List (Name × ℚ)} {g : Ugraph} (h : ctor graph edges vertices = .ok g) (ops : List Op)
    (hops : ∀ o ∈ ops, ∀ e, o ≠ .removeEdge e) :
    let g' := run g ops
    (∀ a b, Adj g' a b ↔ hasEdge g' (a, b) = true) ∧ (∀ a b, Adj g' a b → Adj g' b a) ∧
    (∀ a, ¬ Adj g' a a) ∧ (∀ a b, hasEdge g' (a, b) = true → hasVertex g' a = true ∧ hasVertex g' b = true) ∧
    UWF g' := by
  have hU : UWF (run g ops) := run_uwf (ctor_uwf h) fun o ho => by
    cases o with
    | removeEdge e => exact absurd rfl (hops _ ho e)
    | _ => rfl
  refine ⟨fun a b => ?_, hU.sym, hU.toWeak.irrefl, fun a b hab => ?_, hU⟩
  · rw [hasEdge_iff]; exact ⟨hU.sub a b, hU.sup a b⟩
  · have := hU.toWeak.adj_vertex (hU.sup a b (hasEdge_iff.mp hab))
    exact ⟨hasVertex_iff.mpr this.1, hasVertex_iff.mpr this.2⟩

example : run ugEdge [.addEdge (nc, na) 4, .addVertex nd 1, .addEdge (na, na) 1, .setEdgeWeight (nb', na) 7] =
    ⟨[(na, [nb', nc]), (nb', [na]), (nc, [na]), (nd, [])], [((na, nb'), 7), ((na, nc), 4)],
     [(na, 0), (nb', 0), (nc, 0), (nd, 1)]⟩ := by decide +kernel

/-- C15 (all histories). With `remove_edge` included, adjacency stays symmetric and irreflexive,
adjacent vertices always have an edge, and endpoints of edges are vertices. -/
theorem C15_any_history {graph : List (Name × List Name)} {edges : List (Edge × ℚ)}
    {vertices : List (Name × ℚ)} {g : Ugraph} (h : ctor graph edges vertices = .ok g) (ops : List Op) :
    let g' := run g ops
    (∀ a b, Adj g' a b → Adj g' b a) ∧ (∀ a, ¬ Adj g' a a) ∧
    (∀ a b, Adj g' a b → hasEdge g' (a, b) = true) ∧
    (∀ a b, hasEdge g' (a, b) = true → hasVertex g' a = true ∧ hasVertex g' b = true ∧ a ≠ b) ∧ Weak g' := by
  have hW : Weak (run g ops) := run_weak (ctor_uwf h).toWeak ops
  refine ⟨hW.sym, hW.irrefl, fun a b hab => hasEdge_iff.mpr (hW.sub a b hab), fun a b hab => ?_, hW⟩
  have hm := hasEdge_iff.mp hab
  rw [hasVertex_iff, hasVertex_iff]
  rcases norm_cases a b with hn | hn <;> rw [hn] at hm
  · exact ⟨(hW.ends a b hm).1, (hW.ends a b hm).2, (hW.sorted a b hm).ne⟩
  · exact ⟨(hW.ends b a hm).2, (hW.ends b a hm).1, (hW.sorted b a hm).ne'⟩

/-- C15 (exceptions). In every reachable state, a call that raises leaves the graph unchanged. -/
theorem C15_raise_unchanged {graph : List (Name × List Name)} {edges : List (Edge × ℚ)}
    {vertices : List (Name × ℚ)} {g : Ugraph} (h : ctor graph edges vertices = .ok g) (ops : List Op)
    (o : Op) (e : PyErr) (he : (step (run g ops) o).2 = some e) :
    (step (run g ops) o).1 = run g ops :=
  (step_weak (run_weak (ctor_uwf h).toWeak ops) o).2 (by rw [he]; simp)

example : (step (run ugEdge [.removeEdge (na, nb')]) (.removeEdge (na, nb'))).2 = some .keyError := by
  decide +kernel

/-- C15 is false with `remove_edge`: afterwards the vertices are not adjacent but the edge is there. -/
theorem C15_remove_wrong : ∃ g, ctor [(na, [nb'])] [] [] = .ok g ∧
    (removeEdge g (na, nb')).2 = none ∧ hasEdge (removeEdge g (na, nb')).1 (na, nb') = true ∧
    ¬ Adj (removeEdge g (na, nb')).1 na nb' := by
  refine ⟨ugEdge, ugEdge_ctor, by decide +kernel, by decide +kernel, ?_⟩
  rw [removeEdge_adj (ctor_uwf ugEdge_ctor).toWeak (by decide +kernel)]
  exact fun h => h.2 rfl

/-! ## C16: edges do not depend on orientation -/

/-- C16 (`has_edge`). -/
theorem C16_has_edge (g : Ugraph) (a b : Name) : hasEdge g (a, b) = hasEdge g (b, a) := by
  unfold hasEdge; rw [norm_swap]

/-- C16 (`get_edge_weight`). -/
theorem C16_get_edge_weight (g : Ugraph) (a b : Name) :
    getEdgeWeight g (a, b) = getEdgeWeight g (b, a) := by
  unfold getEdgeWeight hasEdge; rw [norm_swap]

/-- C16 (`set_edge_weight`). On an edge of the graph it succeeds; the weight read through either
orientation is the new one, every other edge keeps its weight, the adjacency, the set of edges and the
vertex weights are unchanged. -/
theorem C16_set_edge_weight {g : Ugraph} {a b : Name} (h : hasEdge g (a, b) = true) (w : ℚ) :
    ∃ g', setEdgeWeight g (a, b) w = (g', none) ∧
      getEdgeWeight g' (a, b) = .ok w ∧ getEdgeWeight g' (b, a) = .ok w ∧
      (∀ c d, ¬ (c = a ∧ d = b) → ¬ (c = b ∧ d = a) → getEdgeWeight g' (c, d) = getEdgeWeight g (c, d)) ∧
      (∀ e, hasEdge g' e = hasEdge g e) ∧ (∀ v, getVertexWeight g' v = getVertexWeight g v) ∧
      g'.graph = g.graph := by
  have hk : norm (a, b) ∈ g.edges.keys := hasEdge_iff.mp h
  have hhas : ∀ e, hasEdge { g with edges := g.edges.set (norm (a, b)) w } e = hasEdge g e := by
    intro e
    unfold hasEdge
    rw [Dict.has_set]
    by_cases he : norm (a, b) = norm e
    · rw [← he, decide_eq_true rfl, Bool.true_or, Dict.has_iff.mpr hk]
    · simp [he]
  have hget : ∀ c d, getEdgeWeight { g with edges := g.edges.set (norm (a, b)) w } (c, d) =
      if norm (a, b) = norm (c, d) then .ok w else getEdgeWeight g (c, d) := by
    intro c d
    unfold getEdgeWeight
    rw [hhas]
    simp only [Dict.get?_set]
    by_cases he : norm (a, b) = norm (c, d)
    · have hcd : hasEdge g (c, d) = true := by unfold hasEdge; rw [← he]; exact h
      rw [if_pos he, if_pos he, if_pos hcd]
    · rw [if_neg he, if_neg he]
  refine ⟨{ g with edges := g.edges.set (norm (a, b)) w }, ?_, ?_, ?_, ?_, hhas, fun v => rfl, rfl⟩
  · unfold setEdgeWeight; rw [if_pos h]
  · rw [hget, if_pos rfl]
  · rw [hget, if_pos (norm_swap a b)]
  · intro c d h1 h2
    rw [hget, if_neg]
    rw [norm_eq_norm]
    rintro (⟨rfl, rfl⟩ | ⟨rfl, rfl⟩)
    · exact h1 ⟨rfl, rfl⟩
    · exact h2 ⟨rfl, rfl⟩

/-- C16 (missing edges): reading or setting raises `ValueError`. -/
theorem C16_missing {g : Ugraph} {a b : Name} (h : hasEdge g (a, b) = false) (w : ℚ) :
    getEdgeWeight g (a, b) = .error .valueError ∧ setEdgeWeight g (a, b) w = (g, some .valueError) := by
  constructor
  · unfold getEdgeWeight; rw [if_neg (by simp [h])]
  · unfold setEdgeWeight; rw [if_neg (by simp [h])]

/-- C16 (`set_vertex_weight`). -/
theorem C16_set_vertex_weight {g : Ugraph} {v : Name} (h : hasVertex g v = true) (w : ℚ) :
    ∃ g', setVertexWeight g v w = (g', none) ∧ getVertexWeight g' v = .ok w ∧
      (∀ u, u ≠ v → getVertexWeight g' u = getVertexWeight g u) ∧
      (∀ e, getEdgeWeight g' e = getEdgeWeight g e) ∧ (∀ u, hasVertex g' u = hasVertex g u) ∧
      g'.graph = g.graph := by
  have hk : v ∈ g.vertices.keys := hasVertex_iff.mp h
  have hhas : ∀ u, hasVertex { g with vertices := g.vertices.set v w } u = hasVertex g u := by
    intro u
    unfold hasVertex
    rw [Dict.has_set]
    by_cases he : v = u
    · rw [← he, decide_eq_true rfl, Bool.true_or, Dict.has_iff.mpr hk]
    · simp [he]
  refine ⟨{ g with vertices := g.vertices.set v w }, ?_, ?_, ?_, fun e => rfl, hhas, rfl⟩
  · unfold setVertexWeight; rw [if_pos h]
  · unfold getVertexWeight
    rw [hhas, if_pos h]
    simp
  · intro u hu
    unfold getVertexWeight
    rw [hhas]
    simp [Ne.symm hu]

/-- C16 (`add_edge` of an existing edge raises, in either orientation, and changes nothing). -/
theorem C16_add_existing {g : Ugraph} {a b : Name} (h : hasEdge g (a, b) = true) (w : ℚ) :
    addEdge g (a, b) w = (g, some .valueError) ∧ addEdge g (b, a) w = (g, some .valueError) := by
  have key : ∀ a b, hasEdge g (a, b) = true → addEdge g (a, b) w = (g, some .valueError) := by
    intro a b h
    rcases addEdge_cases g (a, b) w with hc | ⟨_, _, _, _, hnew, _⟩
    · exact hc
    · exact absurd (hasEdge_iff.mp h) hnew
  exact ⟨key a b h, key b a (by rw [C16_has_edge]; exact h)⟩

/-- C16 (a new edge gets the given weight in both orientations, others keep theirs). -/
theorem C16_add_edge {g g' : Ugraph} {a b : Name} {w : ℚ} (h : addEdge g (a, b) w = (g', none)) :
    hasEdge g (a, b) = false ∧ getEdgeWeight g' (a, b) = .ok w ∧ getEdgeWeight g' (b, a) = .ok w ∧
    (∀ c d, ¬ (c = a ∧ d = b) → ¬ (c = b ∧ d = a) → getEdgeWeight g' (c, d) = getEdgeWeight g (c, d)) ∧
    (∀ v, hasVertex g v = true → getVertexWeight g' v = getVertexWeight g v) ∧
    (∀ v, hasVertex g v = false → v = a ∨ v = b → getVertexWeight g' v = .ok 0) := by
  rcases addEdge_cases g (a, b) w with hc | ⟨_, hne, _, _, hnew, hc⟩
  · rw [hc] at h; cases h
  · rw [hc] at h
    have hg := (Prod.mk.inj h).1
    subst hg
    have hmiss : hasEdge g (a, b) = false := by
      rw [Bool.eq_false_iff]; exact fun hm => hnew (hasEdge_iff.mp hm)
    have hnone : g.edges.get? (norm (a, b)) = none := Dict.get?_eq_none_iff.mpr hnew
    have hget : ∀ c d (G : Dict Name (List Name)) (V : Dict Name ℚ),
        getEdgeWeight ⟨G, g.edges.setDefault (norm (a, b)) w, V⟩ (c, d) =
        if norm (a, b) = norm (c, d) then .ok w else getEdgeWeight g (c, d) := by
      intro c d G V
      unfold getEdgeWeight hasEdge Dict.has
      simp only [Dict.get?_setDefault, hnone]
      by_cases he : norm (a, b) = norm (c, d)
      · simp [he]
      · simp [he]
    have hvget : ∀ v, (((g.vertices.setDefault (norm (a, b)).1 0).setDefault (norm (a, b)).2 0)).get? v =
        if v = a ∨ v = b then some ((g.vertices.get? v).getD 0) else g.vertices.get? v := by
      intro v
      simp only [Dict.get?_setDefault]
      rcases norm_cases a b with hn | hn <;> rw [hn] <;> simp only
      · by_cases h1 : b = v
        · subst h1; simp [hne]
        · by_cases h2 : a = v
          · subst h2; simp [Ne.symm hne]
          · simp [h1, h2, Ne.symm h1, Ne.symm h2]
      · by_cases h1 : b = v
        · subst h1; simp [hne]
        · by_cases h2 : a = v
          · subst h2; simp [Ne.symm hne]
          · simp [h1, h2, Ne.symm h1, Ne.symm h2]
    refine ⟨hmiss, ?_, ?_, ?_, ?_, ?_⟩
    · rw [hget, if_pos rfl]
    · rw [hget, if_pos (norm_swap a b)]
    · intro c d h1 h2
      rw [hget, if_neg]
      rw [norm_eq_norm]
      rintro (⟨rfl, rfl⟩ | ⟨rfl, rfl⟩)
      · exact h1 ⟨rfl, rfl⟩
      · exact h2 ⟨rfl, rfl⟩
    · intro v hv
      obtain ⟨x, hx⟩ := Dict.exists_get?_of_mem (hasVertex_iff.mp hv)
      unfold getVertexWeight hasVertex Dict.has
      simp only [hvget, hx]
      simp
    · intro v hv hvab
      have hx : g.vertices.get? v = none := by
        rw [Dict.get?_eq_none_iff]
        exact fun hm => by rw [hasVertex_iff.mpr hm] at hv; cases hv
      unfold getVertexWeight hasVertex Dict.has
      simp only [hvget, hx, if_pos hvab]
      simp

example : hasEdge ugPath (nc, nb') = true ∧ getEdgeWeight (setEdgeWeight ugPath (nc, nb') 9).1 (nb', nc) = .ok 9 ∧
    (addEdge ugPath (nd, na) 5).2 = none := by decide +kernel

/-! ## C17: `remove_edge` -/

/-- C17 (what does hold). After a successful `remove_edge((a, b))` the two vertices are no longer
adjacent and all other adjacencies, edges, weights and vertices are as before. Missing from the full
statement: `has_edge` stays `True` and the edge cannot be added again (`C17_wrong`). -/
theorem C17_adjacency_partial {g g' : Ugraph} (h : Weak g) {e : Edge} (hs : removeEdge g e = (g', none)) :
    (∀ a b, Adj g' a b ↔ Adj g a b ∧ norm (a, b) ≠ norm e) ∧ g'.edges = g.edges ∧
    g'.vertices = g.vertices ∧ Weak g' := by
  have hadj := removeEdge_adj h (e := e) (by rw [hs])
  have := removeEdge_spec h e
  rw [hs] at hadj this
  exact ⟨hadj, this.2.2.1, this.2.2.2, this.1⟩

/-- C17 (when it succeeds): exactly when the two vertices are adjacent. -/
theorem C17_succeeds {g : Ugraph} (h : Weak g) (e : Edge) :
    (removeEdge g e).2 = none ↔ Adj g e.1 e.2 := by
  rcases removeEdge_cases h e with ⟨hc, hn⟩ | ⟨hc, _, hn⟩ | ⟨_, hy, l1, l2, _, _, _, hc⟩
  · rw [hc]; simp only [reduceCtorEq, false_iff]; exact fun ha => hn (h.sub _ _ ha)
  · rw [hc]; simp only [reduceCtorEq, false_iff]; exact hn
  · rw [hc]; simp [hy]

/-- C17 is false for every graph and every edge of it: after the removal `has_edge` still answers
`True`, removing again raises `KeyError`, and adding the edge back raises `ValueError`. -/
theorem C17_wrong {g g' : Ugraph} (h : Weak g) {e : Edge} (hs : removeEdge g e = (g', none)) :
    hasEdge g' e = true ∧ removeEdge g' e = (g', some .keyError) ∧
    ∀ w, addEdge g' e w = (g', some .valueError) := by
  obtain ⟨hadj, he, _, hW⟩ := C17_adjacency_partial h hs
  have hin : norm e ∈ g.edges.keys := by
    rcases removeEdge_cases h e with ⟨hc, _⟩ | ⟨hc, _⟩ | ⟨hm, _⟩
    · rw [hc] at hs; cases hs
    · rw [hc] at hs; cases hs
    · exact hm
  have hhas : hasEdge g' e = true := hasEdge_iff.mpr (by rw [he]; exact hin)
  refine ⟨hhas, ?_, fun w => (C16_add_existing (a := e.1) (b := e.2) hhas w).1⟩
  rcases removeEdge_cases hW e with ⟨_, hc⟩ | ⟨hc, _⟩ | ⟨_, hc, _⟩
  · exact absurd (hasEdge_iff.mp hhas) hc
  · exact hc
  · exact absurd rfl ((hadj e.1 e.2).mp hc).2

example : ∃ g', removeEdge ugEdge (nb', na) = (g', none) ∧ Weak ugEdge :=
  ⟨⟨[(na, []), (nb', [])], [((na, nb'), 0)], [(na, 0), (nb', 0)]⟩, by decide +kernel,
    (ctor_uwf ugEdge_ctor).toWeak⟩

/-! ## C18: cuts and degrees -/

/-- C18 (cut). `cut(S)` is exactly the set of edges with one endpoint inside and one outside. -/
theorem C18_cut {g : Ugraph} (h : Weak g) (S : List Name) (e : Edge) :
    e ∈ cut g (.iter S) ↔ e ∈ g.edges.keys ∧ ((e.1 ∈ S ∧ e.2 ∉ S) ∨ (e.2 ∈ S ∧ e.1 ∉ S)) := by
  unfold cut NodeArg.toSet
  rw [List.mem_filter]
  apply and_congr Iff.rfl
  by_cases a : e.1 ∈ S <;> by_cases b : e.2 ∈ S <;> simp [a, b]

/-- C18 (cut, as the user asks about edges): for any orientation. -/
theorem C18_cut_has_edge {g : Ugraph} (h : Weak g) (S : List Name) (a b : Name) :
    norm (a, b) ∈ cut g (.iter S) ↔ hasEdge g (a, b) = true ∧ ¬ (a ∈ S ↔ b ∈ S) := by
  rw [C18_cut h, hasEdge_iff]
  apply and_congr Iff.rfl
  rcases norm_cases a b with hn | hn <;> rw [hn] <;> tauto

/-- C18 (no edge is listed twice; `degree` is the number of edges in the cut). -/
theorem C18_degree {g : Ugraph} (h : Weak g) (S : List Name) :
    (cut g (.iter S)).Nodup ∧ degree g (.iter S) = (cut g (.iter S)).toFinset.card := by
  have hnd : (cut g (.iter S)).Nodup := h.edgesWF.filter _
  exact ⟨hnd, (List.toFinset_card_of_nodup hnd).symm⟩

/-- C18 (complement). `S` and its complement have the same cut. -/
theorem C18_complement {g : Ugraph} (h : Weak g) (S T : List Name)
    (hT : ∀ v, v ∈ T ↔ hasVertex g v = true ∧ v ∉ S) : cut g (.iter S) = cut g (.iter T) := by
  unfold cut NodeArg.toSet
  apply List.filter_congr
  intro e he
  have hv := h.ends e.1 e.2 he
  have h1 := hT e.1
  have h2 := hT e.2
  rw [hasVertex_iff] at h1 h2
  simp only [hv.1, hv.2, true_and] at h1 h2
  simp only [h1, h2]
  by_cases a : e.1 ∈ S <;> by_cases b : e.2 ∈ S <;> simp [a, b]

/-- C18 (one-character name). The name stands for the singleton. Missing from the full statement: names
with more than one character (`C18_name_wrong`). -/
theorem C18_name_partial (g : Ugraph) (c : Char) :
    cut g (.name [c]) = cut g (.iter [[c]]) ∧ degree g (.name [c]) = degree g (.iter [[c]]) := ⟨rfl, rfl⟩

/-- C18 is false for longer names: `cut("ab")` is the cut of `{"a", "b"}`. -/
theorem C18_name_wrong : ∃ g, ctor [(['a', 'b'], [nc])] [] [] = .ok g ∧
    cut g (.iter [['a', 'b']]) = [((['a', 'b'], nc) : Edge)] ∧ cut g (.name ['a', 'b']) = [] :=
  ⟨⟨[(['a', 'b'], [nc]), (nc, [['a', 'b']])], [((['a', 'b'], nc), 0)], [(['a', 'b'], 0), (nc, 0)]⟩,
    by decide +kernel, by decide +kernel, by decide +kernel⟩

example : cut ugPath (.iter [na, nc]) = [(na, nb'), (nb', nc)] ∧ cut ugPath (.iter [nb', nd]) = [(na, nb'), (nb', nc)] :=
  by decide +kernel

/-! ## C19: traversal -/

/-- C19. `traverse` with method `bfs` or `dfs`, and any `order` key (any rearrangement of each
adjacency set), terminates and yields every vertex reachable from `start` exactly once, `start` first, in
order of non-decreasing distance, and nothing else. -/
theorem C19_traverse {g : Ugraph} (h : UWF g) (ord : List Name → List Name) (hord : ∀ l, (ord l).Perm l)
    {s : Name} (hs : hasVertex g s = true) {m : Method} (hm : m ≠ .rng) :
    ∃ out, traverse ord g s m = .ok out ∧ out.Nodup ∧ out.head? = some s ∧
      (∀ v, v ∈ out ↔ (simple g).Reachable s v) ∧
      out.Pairwise (fun a b => (simple g).dist s a ≤ (simple g).dist s b) :=
  traverse_spec hord h hs hm

/-- C19 (`bfs` and `dfs` themselves). -/
theorem C19_bfs {g : Ugraph} (h : UWF g) {s : Name} (hs : hasVertex g s = true) :
    ∃ out, bfs g s = .ok out ∧ dfs g s = .ok out ∧ out.Nodup ∧ out.head? = some s ∧
      (∀ v, v ∈ out ↔ (simple g).Reachable s v) ∧
      out.Pairwise (fun a b => (simple g).dist s a ≤ (simple g).dist s b) := by
  have hp : ∀ l, (sortNames l).Perm l := fun l => List.perm_insertionSort _ l
  obtain ⟨out, h1, h2⟩ := traverse_spec hp h hs (m := .bfs) (by decide)
  refine ⟨out, h1, ?_, h2⟩
  rw [← h1]
  rfl

/-- C19 (`ValueError` iff the start is no vertex). -/
theorem C19_value_error {g : Ugraph} (h : UWF g) (ord : List Name → List Name) (hord : ∀ l, (ord l).Perm l)
    (s : Name) {m : Method} (hm : m ≠ .rng) :
    (traverse ord g s m = .error .valueError ↔ hasVertex g s = false) := by
  constructor
  · intro he
    by_contra hc
    obtain ⟨out, ho, _⟩ := traverse_spec hord h (by simpa using hc) hm
    rw [ho] at he
    cases he
  · intro he
    unfold Undirected.traverse
    rw [if_neg (by simp [he])]

example : bfs ugPath nc = .ok [nc, nb', na] ∧ hasVertex ugPath nc = true := by decide +kernel

/-! ## C20: connectivity -/

/-- C20. `is_connected()` (and `has_spanning_tree()`) returns `True` iff the graph has a vertex and any two
vertices are joined by a path. -/
theorem C20_is_connected {g : Ugraph} (h : UWF g) : ∃ r, isConnected g = .ok r ∧ hasSpanningTree g = .ok r ∧
    (r = true ↔ (∃ v, hasVertex g v = true) ∧
      ∀ u v, hasVertex g u = true → hasVertex g v = true → (simple g).Reachable u v) := by
  obtain ⟨r, h1, h2⟩ := isConnected_spec h
  refine ⟨r, h1, h1, h2.trans ?_⟩
  simp only [hasVertex_iff]
  apply and_congr
  · exact ⟨fun hne => List.exists_mem_of_ne_nil _ hne, fun ⟨v, hv⟩ hc => by rw [hc] at hv; simp at hv⟩
  · exact ⟨fun hj u v hu hv => hj u hu v hv, fun hj u hu v hv => hj u v hu hv⟩

example : isConnected ugTriangle = .ok true ∧ isConnected ugPath = .ok false ∧ isConnected Ugraph.empty = .ok false := by
  decide +kernel

/-! ## C21: trees -/

/-- C21. For every iteration order of the sets, `is_tree()` terminates and returns `True` iff the graph has
a vertex, any two vertices are joined by a path, and there is no cycle. -/
theorem C21_is_tree {g : Ugraph} (h : UWF g) (ord : ℕ → List Name → List Name)
    (hord : ∀ k l, (ord k l).Perm l) : ∃ r, isTree ord g = .ok r ∧
    (r = true ↔ (∃ v, hasVertex g v = true) ∧
      (∀ u v, hasVertex g u = true → hasVertex g v = true → (simple g).Reachable u v) ∧
      (simple g).IsAcyclic) := by
  obtain ⟨r, h1, h2⟩ := isTree_spec hord h
  refine ⟨r, h1, h2.trans ?_⟩
  simp only [hasVertex_iff]
  apply and_congr
  · exact ⟨fun hne => List.exists_mem_of_ne_nil _ hne, fun ⟨v, hv⟩ hc => by rw [hc] at hv; simp at hv⟩
  · apply and_congr
    · exact ⟨fun hj u v hu hv => hj u hu v hv, fun hj u hu v hv => hj u v hu hv⟩
    · exact Iff.rfl

example : isTree (fun _ l => l) ugTriangle = .ok false ∧ isTree (fun _ l => l.reverse) ugEdge = .ok true ∧
    isTree (fun _ l => l) ugPath = .ok false := by decide +kernel

/-! ## C22: cycles -/

/-- What `is_cyclic` computes, for every iteration order: it terminates, and answers `True` iff the graph
has an edge. -/
theorem C22_has_edge {g : Ugraph} (h : UWF g) (ord : ℕ → List Name → List Name)
    (hord : ∀ k l, (ord k l).Perm l) (pick : List Name → Name) (hpick : ∀ l, l ≠ [] → pick l ∈ l) :
    ∃ r, isCyclic ord pick g = .ok r ∧ (r = true ↔ ∃ a b, hasEdge g (a, b) = true) := by
  obtain ⟨r, h1, h2⟩ := isCyclic_spec hord hpick h
  refine ⟨r, h1, h2.trans ?_⟩
  constructor
  · intro hne
    obtain ⟨⟨a, b⟩, hab⟩ := List.exists_mem_of_ne_nil _ hne
    exact ⟨a, b, hasEdge_iff.mpr (by rwa [norm_of_lt (h.sorted a b hab)])⟩
  · rintro ⟨a, b, hab⟩ hc
    have := hasEdge_iff.mp hab
    rw [hc] at this
    simp at this

/-- C22 (one direction). `is_cyclic` terminates and answers `True` on every graph with a cycle. Missing from
the full statement: it also answers `True` on acyclic graphs with an edge (`C22_wrong`). -/
theorem C22_is_cyclic_partial {g : Ugraph} (h : UWF g) (ord : ℕ → List Name → List Name)
    (hord : ∀ k l, (ord k l).Perm l) (pick : List Name → Name) (hpick : ∀ l, l ≠ [] → pick l ∈ l) :
    ∃ r, isCyclic ord pick g = .ok r ∧ (¬ (simple g).IsAcyclic → r = true) := by
  obtain ⟨r, h1, h2⟩ := C22_has_edge h ord hord pick hpick
  refine ⟨r, h1, fun hc => h2.mpr ?_⟩
  by_contra hno
  push Not at hno
  apply hc
  have : simple g = ⊥ := by
    ext a b
    simp only [SimpleGraph.bot_adj, iff_false]
    exact fun hab => hno a b hab.2
  rw [this]
  exact SimpleGraph.isAcyclic_bot

/-- C22 is false: on every tree with an edge, for every iteration order, `is_cyclic` answers `True`;
for instance on a single edge. -/
theorem C22_wrong (ord : ℕ → List Name → List Name) (hord : ∀ k l, (ord k l).Perm l)
    (pick : List Name → Name) (hpick : ∀ l, l ≠ [] → pick l ∈ l) :
    ∃ g, ctor [(na, [nb'])] [] [] = .ok g ∧ (simple g).IsAcyclic ∧ isCyclic ord pick g = .ok true := by
  have hU := ctor_uwf ugEdge_ctor
  refine ⟨ugEdge, ugEdge_ctor, ?_, ?_⟩
  · obtain ⟨r, h1, h2⟩ := C21_is_tree hU (fun _ l => l) (fun _ _ => List.Perm.refl _)
    have : isTree (fun _ l => l) ugEdge = .ok true := by decide +kernel
    rw [this] at h1
    cases h1
    exact (h2.mp rfl).2.2
  · obtain ⟨r, h1, h2⟩ := C22_has_edge hU ord hord pick hpick
    have : r = true := h2.mpr ⟨na, nb', by decide +kernel⟩
    rw [h1, this]

/-! ## C25: `shortest_path` -/

/-- C25 (trivial case). From a vertex to itself the empty path is returned. Missing from the full statement:
everything else (`C25_wrong`). -/
theorem C25_same_partial {g : Ugraph} (h : Weak g) {s : Name} (hs : hasVertex g s = true) :
    shortestPath g s s = .ok [] := by
  obtain ⟨l, hl⟩ := exists_row h (hasVertex_iff.mp hs)
  have : g.graph.has s = true := Dict.has_iff.mpr (Dict.mem_keys_of_get? hl)
  simp [shortestPath, hl, this]

/-- C25 is false for every graph and every two different vertices: the call raises `IndexError` or
`TypeError`, whether or not there is a path. -/
theorem C25_wrong {g : Ugraph} (h : Weak g) {s t : Name} (hs : hasVertex g s = true)
    (ht : hasVertex g t = true) (hst : s ≠ t) :
    shortestPath g s t = .error .indexError ∨ shortestPath g s t = .error .typeError := by
  obtain ⟨l, hl⟩ := exists_row h (hasVertex_iff.mp hs)
  have ht' : g.graph.has t = true := Dict.has_iff.mpr ((h.dom t).mp (hasVertex_iff.mp ht))
  have hround : ∀ l, spRound s l = none ∨ spRound s l = some .indexError ∨ spRound s l = some .typeError := by
    intro l
    induction l with
    | nil => exact Or.inl rfl
    | cons e l ih =>
      match e with
      | [] => exact Or.inr (Or.inl rfl)
      | [c] =>
        by_cases hc : [c] = s
        · simpa [spRound, hc] using ih
        · simp [spRound, hc]
      | c :: _ :: _ =>
        by_cases hc : [c] = s
        · simpa [spRound, hc] using ih
        · simp [spRound, hc]
  simp only [shortestPath, hl, ht', if_true, if_neg (Ne.symm hst)]
  rcases hround l with hr | hr | hr <;> rw [hr] <;> simp

example : shortestPath ugEdge na nb' = .error .indexError := by decide +kernel

/-! ## C26: `partition`, `formulate_shortest_path`, random traversal -/

/-- C26 (`partition` of the empty graph). Missing from the full statement: everything else, see the
theorems below. -/
theorem C26_empty_partial : partition Ugraph.empty = .ok [] := rfl

/-- C26 is false: `partition()` raises `AttributeError` on every graph with a vertex. -/
theorem C26_partition_wrong {g : Ugraph} {v : Name} (h : hasVertex g v = true) :
    partition g = .error .attributeError := by
  unfold partition
  rw [if_neg]
  intro hc
  have := hasVertex_iff.mp h
  rw [List.length_eq_zero_iff.mp hc] at this
  simp [Dict.keys] at this

/-- C26 is false: `formulate_shortest_path(s, t)` raises on every graph and every pair of vertices. -/
theorem C26_formulate_wrong {g : Ugraph} (h : Weak g) {s t : Name} (hs : hasVertex g s = true)
    (ht : hasVertex g t = true) : formulateShortestPath g s t = .error .attributeError := by
  have hs' : g.graph.has s = true := Dict.has_iff.mpr ((h.dom s).mp (hasVertex_iff.mp hs))
  have ht' : g.graph.has t = true := Dict.has_iff.mpr ((h.dom t).mp (hasVertex_iff.mp ht))
  simp [formulateShortestPath, hs', ht']

/-- C26, the errors: `formulate_shortest_path` raises `ValueError` exactly if an end is missing. -/
theorem C26_formulate_error {g : Ugraph} (h : Weak g) (s t : Name) :
    formulateShortestPath g s t = .error .valueError ↔ hasVertex g s = false ∨ hasVertex g t = false := by
  have key : ∀ v, g.graph.has v = hasVertex g v := fun v => by
    rw [Bool.eq_iff_iff, Dict.has_iff, ← h.dom, hasVertex_iff]
  unfold formulateShortestPath
  rw [key, key]
  cases hasVertex g s <;> cases hasVertex g t <;> simp

/-- C26 is false: `traverse(start, "rng")` yields nothing, on every graph. -/
theorem C26_rng_wrong (ord : List Name → List Name) {g : Ugraph} {s : Name} (hs : hasVertex g s = true) :
    traverse ord g s .rng = .ok [] := by
  unfold Undirected.traverse
  rw [if_pos hs, if_pos rfl]

/-- C26 (`minimum_spanning_tree`): `ValueError` unless the graph is connected, and `None` if it is. -/
theorem C26_mst {g : Ugraph} (h : UWF g) :
    (isConnected g = .ok true → minimumSpanningTree g = .ok none) ∧
    (isConnected g = .ok false → minimumSpanningTree g = .error .valueError) ∧
    (isConnected g = .ok true ∨ isConnected g = .ok false) := by
  obtain ⟨r, h1, _⟩ := isConnected_spec h
  refine ⟨fun h2 => ?_, fun h2 => ?_, ?_⟩
  · unfold minimumSpanningTree; rw [h2]
  · unfold minimumSpanningTree; rw [h2]
  · rw [h1]; cases r <;> simp

end Pytimize.Props
