/-
C141: counting edges, and how the answers about an undirected graph change with the graph.
-/
import Verif.Graph.UndirectedCount
import Verif.Graph.UndirectedBuild
import Verif.Props.Undirected
import Verif.Props.StableSetSolve

namespace Pytimize.Props
open Pytimize.Undirected
open Pytimize.Directed (Name chars NodeArg)

/-! ### Counting -/

theorem sum_indicator {l : List Name} (hl : l.Nodup) {a b : Name} (ha : a ∈ l) (hb : b ∈ l) (hab : a ≠ b) :
    (l.map fun v => if v = a ∨ v = b then 1 else 0).sum = 2 := by
  have e : (fun v => if v = a ∨ v = b then 1 else 0) = fun v => (if v = a then 1 else 0) + if v = b then 1 else 0 := by
    funext v
    by_cases h1 : v = a <;> by_cases h2 : v = b <;> simp [h1, h2]
    · subst h1; exact absurd h2 hab
    all_goals simp_all
  have one : ∀ x ∈ l, (l.map fun v => if v = x then 1 else 0).sum = 1 := by
    intro x hx
    clear ha hb e
    induction l with
    | nil => cases hx
    | cons y l ih =>
      rw [List.nodup_cons] at hl
      by_cases hy : y = x
      · subst hy
        have : (l.map fun v => if v = y then 1 else 0).sum = 0 := by
          rw [List.sum_eq_zero_iff]
          intro k hk
          obtain ⟨v, hv, rfl⟩ := List.mem_map.mp hk
          rw [if_neg]
          rintro rfl
          exact hl.1 hv
        simp [this]
      · simp [hy, ih hl.2 ((List.mem_cons.mp hx).resolve_left (Ne.symm hy))]
  rw [e, List.sum_map_add, one a ha, one b hb]

/-- C141: the degrees of the vertices add up to twice the number of edges, after any history. -/
theorem C141_handshake {g : Ugraph} (h : Weak g) :
    (g.vertices.keys.map fun v => degree g (.iter [v])).sum = 2 * g.edges.length := by
  have key : ∀ E : List Edge, (∀ e ∈ E, e.1 ≠ e.2 ∧ e.1 ∈ g.vertices.keys ∧ e.2 ∈ g.vertices.keys) →
      (g.vertices.keys.map fun v => (E.filter fun x =>
        (decide (x.1 ∈ [v]) && decide (x.2 ∉ [v])) || (decide (x.2 ∈ [v]) && decide (x.1 ∉ [v]))).length).sum =
        2 * E.length := by
    intro E
    induction E with
    | nil => simp
    | cons e E ih =>
      intro hE
      have h1 := ih fun x hx => hE x (List.mem_cons_of_mem _ hx)
      obtain ⟨hne, ha, hb⟩ := hE e List.mem_cons_self
      have h2 := sum_indicator h.vertsWF ha hb hne
      rw [List.length_cons, mul_add, mul_one, ← h1, ← h2, ← List.sum_map_add]
      congr 1
      apply List.map_congr_left
      intro v _
      rw [List.filter_cons]
      by_cases c1 : v = e.1
      · have c2 : v ≠ e.2 := fun hc => hne (c1.symm.trans hc)
        simp [c1, hne.symm]
      · by_cases c2 : v = e.2
        · simp [c2, hne]
        · simp [c1, c2, Ne.symm c1, Ne.symm c2]
  have := key g.edges.keys fun e he => ⟨(h.sorted e.1 e.2 he).ne, h.ends e.1 e.2 he⟩
  rw [show g.edges.keys.length = g.edges.length by simp [Dict.keys]] at this
  exact this

theorem connected_iff {g : Ugraph} (h : UWF g) : isConnected g = .ok true ↔ (inner g).Connected := by
  obtain ⟨r, h1, -, h2⟩ := C20_is_connected h
  rw [h1, inner_connected h.toWeak, ← h2]
  simp

theorem tree_iff {g : Ugraph} (h : UWF g) {ord : ℕ → List Name → List Name} (hord : ∀ k l, (ord k l).Perm l) :
    isTree ord g = .ok true ↔ (inner g).IsTree := by
  obtain ⟨r, h1, h2⟩ := C21_is_tree h ord hord
  rw [h1, SimpleGraph.isTree_iff, inner_connected h.toWeak, inner_acyclic h.toWeak, and_assoc, ← h2]
  simp

/-- C141: a graph is a tree iff it is connected and has one edge less than vertices. Missing: after `remove_edge`
(`C141_remove_wrong`). -/
theorem C141_tree_partial {g : Ugraph} (h : UWF g) (ord : ℕ → List Name → List Name) (hord : ∀ k l, (ord k l).Perm l) :
    isTree ord g = .ok true ↔ isConnected g = .ok true ∧ g.edges.length + 1 = g.vertices.length := by
  rw [tree_iff h hord, connected_iff h, SimpleGraph.isTree_iff_connected_and_card, card_inner h.toWeak,
    card_vertexSet h.toWeak]

/-- C141: a connected graph has at most one vertex more than edges. -/
theorem C141_edges {g : Ugraph} (h : UWF g) (hc : isConnected g = .ok true) :
    g.vertices.length ≤ g.edges.length + 1 := by
  have := ((connected_iff h).mp hc).card_vert_le_card_edgeSet_add_one
  rwa [card_inner h.toWeak, card_vertexSet h.toWeak] at this

/-! ### `add_edge` and `add_vertex` -/

theorem addEdge_facts {g g' : Ugraph} (h : UWF g) {a b : Name} {w : ℚ} (hs : addEdge g (a, b) w = (g', none)) :
    UWF g' ∧ a ≠ b ∧ (∀ x y, (simple g').Adj x y ↔ (simple g).Adj x y ∨ s(x, y) = s(a, b)) ∧
      (∀ v, hasVertex g' v = true ↔ hasVertex g v = true ∨ v = a ∨ v = b) ∧
      g'.edges.length = g.edges.length + 1 ∧ g'.edges.keys = g.edges.keys ++ [norm (a, b)] ∧
      hasEdge g (a, b) = false := by
  have hU : UWF g' := by
    have := step_uwf h (o := .addEdge (a, b) w) rfl
    simp only [step, hs] at this
    exact this
  have hadj := fun x y => addEdge_adj (g := g) (edge := (a, b)) (w := w) (by rw [hs]) x y
  rw [hs] at hadj
  rcases addEdge_cases g (a, b) w with hc | ⟨_, hne, _, _, hnew, hc⟩
  · rw [hc] at hs; cases hs
  have hg := (Prod.mk.inj (hc.symm.trans hs)).1
  have hE : g'.edges.keys = g.edges.keys ++ [norm (a, b)] := by
    rw [← hg]
    rw [Dict.keys_setDefault, if_neg hnew]
  refine ⟨hU, hne, fun x y => ?_, fun v => ?_, by
    have := congrArg List.length hE
    simpa [Dict.keys] using this, hE, ?_⟩
  · rw [simple_adj hU, simple_adj h, hadj, ← norm_eq_norm_iff]
  · rw [hasVertex_iff, hasVertex_iff, ← hg]
    simp only [Dict.mem_keys_setDefault]
    rcases norm_cases a b with e | e <;> rw [e] <;> simp <;> tauto
  · rw [← Bool.not_eq_true, hasEdge_iff]
    exact hnew

theorem not_true {α : Type} {g : Except α Bool} (h : ∃ r, g = .ok r) : g ≠ .ok true ↔ g = .ok false := by
  obtain ⟨r, rfl⟩ := h
  cases r <;> simp

/-- C141, `add_edge` between two vertices of the graph: a connected graph stays connected, a tree is no tree any more,
and the edge connects the graph only if it joins two vertices that `bfs` did not find from each other. -/
theorem C141_add_edge {g g' : Ugraph} (h : UWF g) {a b : Name} {w : ℚ} (hs : addEdge g (a, b) w = (g', none))
    (ha : hasVertex g a = true) (hb : hasVertex g b = true) (ord : ℕ → List Name → List Name)
    (hord : ∀ k l, (ord k l).Perm l) :
    (isConnected g = .ok true → isConnected g' = .ok true) ∧ (isTree ord g = .ok true → isTree ord g' = .ok false) ∧
      ∀ out, bfs g a = .ok out → b ∈ out → isConnected g' = isConnected g := by
  obtain ⟨hU, hne, hadj, hv, hl, -, -⟩ := addEdge_facts h hs
  have hv' : ∀ v, hasVertex g' v = true ↔ hasVertex g v = true := fun v => by
    rw [hv]
    constructor
    · rintro (h1 | rfl | rfl) <;> assumption
    · exact Or.inl
  have hle : simple g ≤ simple g' := fun x y hxy => (hadj x y).mpr (Or.inl hxy)
  have hmono : isConnected g = .ok true → isConnected g' = .ok true := by
    rw [connected_iff h, connected_iff hU, inner_connected h.toWeak, inner_connected hU.toWeak]
    rintro ⟨⟨v, h1⟩, h2⟩
    exact ⟨⟨v, (hv' v).mpr h1⟩, fun x y hx hy => (h2 x y ((hv' x).mp hx) ((hv' y).mp hy)).mono hle⟩
  have hlen : g'.vertices.length = g.vertices.length := by
    have : g'.vertices.keys.Perm g.vertices.keys := by
      rw [List.perm_ext_iff_of_nodup hU.vertsWF h.vertsWF]
      intro v
      have := hv' v
      rwa [hasVertex_iff, hasVertex_iff] at this
    simpa [Dict.keys] using this.length_eq
  refine ⟨hmono, fun ht => ?_, fun out ho hbo => ?_⟩
  · have h1 := (C141_tree_partial h ord hord).mp ht
    have h2 : isTree ord g' ≠ .ok true := fun hc => by
      have := ((C141_tree_partial hU ord hord).mp hc).2
      omega
    obtain ⟨r, h3, -⟩ := C21_is_tree hU ord hord
    exact (not_true ⟨r, h3⟩).mp h2
  · obtain ⟨out', h1, -, -, -, h2, -⟩ := C19_bfs h ha
    obtain rfl : out' = out := Except.ok.inj (h1.symm.trans ho)
    have hr := (h2 b).mp hbo
    obtain ⟨r, h3, -, h4⟩ := C20_is_connected h
    obtain ⟨r', h3', -, h4'⟩ := C20_is_connected hU
    rw [h3, h3']
    congr 1
    rw [Bool.eq_iff_iff, h4, h4']
    constructor
    · rintro ⟨⟨v, c1⟩, c2⟩
      refine ⟨⟨v, (hv' v).mp c1⟩, fun x y hx hy => ?_⟩
      obtain ⟨p⟩ := c2 x y ((hv' x).mpr hx) ((hv' y).mpr hy)
      clear hx hy
      induction p with
      | nil => exact SimpleGraph.Reachable.refl _
      | cons hxy _ ih =>
        refine SimpleGraph.Reachable.trans ?_ ih
        rcases (hadj _ _).mp hxy with c | c
        · exact c.reachable
        · rcases Sym2.eq_iff.mp c with ⟨rfl, rfl⟩ | ⟨rfl, rfl⟩
          · exact hr
          · exact hr.symm
    · rintro ⟨⟨v, c1⟩, c2⟩
      exact ⟨⟨v, (hv' v).mpr c1⟩, fun x y hx hy => (c2 x y ((hv' x).mp hx) ((hv' y).mp hy)).mono hle⟩

/-- C141, `add_edge` to a new vertex: the answers of `is_connected` and `is_tree` stay the same. -/
theorem C141_add_leaf {g g' : Ugraph} (h : UWF g) {a b : Name} {w : ℚ} (hs : addEdge g (a, b) w = (g', none))
    (ha : hasVertex g a = true) (hb : hasVertex g b = false) (ord : ℕ → List Name → List Name)
    (hord : ∀ k l, (ord k l).Perm l) :
    isConnected g' = isConnected g ∧ isTree ord g' = isTree ord g := by
  obtain ⟨hU, hne, hadj, hv, hl, -, -⟩ := addEdge_facts h hs
  have hle : simple g ≤ simple g' := fun x y hxy => (hadj x y).mpr (Or.inl hxy)
  have hnb : ∀ x, ¬ (simple g).Adj x b := fun x hx => by
    have := (mem_of_simple h.toWeak hx).2
    rw [← Bool.not_eq_true, hasVertex_iff] at hb
    exact hb this
  have hcon : isConnected g' = .ok true ↔ isConnected g = .ok true := by
    rw [connected_iff h, connected_iff hU, inner_connected h.toWeak, inner_connected hU.toWeak]
    constructor
    · rintro ⟨-, h2⟩
      refine ⟨⟨a, ha⟩, fun x y hx hy => ?_⟩
      have key : ∀ {x y}, (simple g').Walk x y →
          (simple g).Reachable (if x = b then a else x) (if y = b then a else y) := by
        intro x y p
        induction p with
        | nil => exact SimpleGraph.Reachable.refl _
        | cons hxy _ ih =>
          refine SimpleGraph.Reachable.trans ?_ ih
          rcases (hadj _ _).mp hxy with c | c
          · rw [if_neg (by rintro rfl; exact hnb _ c.symm), if_neg (by rintro rfl; exact hnb _ c)]
            exact c.reachable
          · rcases Sym2.eq_iff.mp c with ⟨rfl, rfl⟩ | ⟨rfl, rfl⟩ <;> simp
      obtain ⟨p⟩ := h2 x y ((hv x).mpr (Or.inl hx)) ((hv y).mpr (Or.inl hy))
      have := key p
      rwa [if_neg (by rintro rfl; rw [hb] at hx; cases hx), if_neg (by rintro rfl; rw [hb] at hy; cases hy)] at this
    · rintro ⟨-, h2⟩
      refine ⟨⟨a, (hv a).mpr (Or.inl ha)⟩, ?_⟩
      have hab : (simple g').Reachable b a := ((hadj b a).mpr (Or.inr Sym2.eq_swap)).reachable
      have key : ∀ x, hasVertex g' x = true → (simple g').Reachable x a := by
        intro x hx
        rcases (hv x).mp hx with c | rfl | rfl
        · exact (h2 x a c ha).mono hle
        · exact SimpleGraph.Reachable.refl _
        · exact hab
      exact fun x y hx hy => (key x hx).trans (key y hy).symm
  have hlen : g'.vertices.length = g.vertices.length + 1 := by
    have hbk : b ∉ g.vertices.keys := by rwa [← hasVertex_iff, Bool.not_eq_true]
    have : g'.vertices.keys.Perm (b :: g.vertices.keys) := by
      rw [List.perm_ext_iff_of_nodup hU.vertsWF (List.nodup_cons.mpr ⟨hbk, h.vertsWF⟩)]
      intro v
      have := hv v
      rw [hasVertex_iff, hasVertex_iff] at this
      rw [this, List.mem_cons]
      rw [hasVertex_iff] at ha
      constructor
      · rintro (c | rfl | rfl)
        · exact Or.inr c
        · exact Or.inr ha
        · exact Or.inl rfl
      · rintro (rfl | c)
        · exact Or.inr (Or.inr rfl)
        · exact Or.inl c
    simpa [Dict.keys] using this.length_eq
  have htree : isTree ord g' = .ok true ↔ isTree ord g = .ok true := by
    rw [C141_tree_partial hU ord hord, C141_tree_partial h ord hord, hcon]
    apply and_congr Iff.rfl
    omega
  constructor
  · obtain ⟨r, h3, -⟩ := C20_is_connected h
    obtain ⟨r', h3', -⟩ := C20_is_connected hU
    rw [h3, h3'] at hcon ⊢
    cases r <;> cases r' <;> simp_all
  · obtain ⟨r, h3, -⟩ := C21_is_tree h ord hord
    obtain ⟨r', h3', -⟩ := C21_is_tree hU ord hord
    rw [h3, h3'] at htree ⊢
    cases r <;> cases r' <;> simp_all

/-- C141, `add_vertex`: a graph with a vertex is not connected afterwards, and no tree; the empty graph becomes a
tree. -/
theorem C141_add_vertex {g g' : Ugraph} (h : UWF g) {v : Name} {w : ℚ} (hs : addVertex g v w = (g', none))
    (ord : ℕ → List Name → List Name) (hord : ∀ k l, (ord k l).Perm l) :
    (isEmpty g = false → isConnected g' = .ok false ∧ isTree ord g' = .ok false) ∧
      (isEmpty g = true → isConnected g' = .ok true ∧ isTree ord g' = .ok true) := by
  have hU : UWF g' := by
    have := step_uwf h (o := .addVertex v w) rfl
    simp only [step, hs] at this
    exact this
  rcases addVertex_cases g v w with hc | ⟨_, hnew, hc⟩
  · rw [hc] at hs; cases hs
  have hg := (Prod.mk.inj (hc.symm.trans hs)).1
  have hE : g'.edges = g.edges := by rw [← hg]
  have hV : ∀ u, hasVertex g' u = true ↔ u = v ∨ hasVertex g u = true := fun u => by
    rw [hasVertex_iff, hasVertex_iff, ← hg, Dict.mem_keys_setDefault]
  have hnb : ∀ x, ¬ (simple g').Adj v x := fun x hx => by
    have hm := hasEdge_iff.mp hx.2
    rw [hE] at hm
    rcases norm_cases v x with e | e <;> rw [e] at hm
    · exact hnew (h.ends _ _ hm).1
    · exact hnew (h.ends _ _ hm).2
  constructor
  · intro hne
    obtain ⟨u, hu⟩ : ∃ u, hasVertex g u = true := by
      by_contra hno
      push Not at hno
      have : g.vertices.keys = [] := List.eq_nil_iff_forall_not_mem.mpr fun u hu => hno u (hasVertex_iff.mpr hu)
      have h0 : g.vertices.length = 0 := by simpa [Dict.keys] using this
      simp [isEmpty, h0] at hne
    have huv : u ≠ v := by rintro rfl; exact hnew (hasVertex_iff.mp hu)
    have hn : ¬ isConnected g' = .ok true := by
      rw [connected_iff hU, inner_connected hU.toWeak]
      rintro ⟨-, h2⟩
      obtain ⟨p⟩ := h2 v u ((hV v).mpr (Or.inl rfl)) ((hV u).mpr (Or.inr hu))
      cases p with
      | nil => exact huv rfl
      | cons hx _ => exact hnb _ hx
    obtain ⟨r, h3, -⟩ := C20_is_connected hU
    obtain ⟨r', h3', -⟩ := C21_is_tree hU ord hord
    refine ⟨(not_true ⟨r, h3⟩).mp hn, (not_true ⟨r', h3'⟩).mp fun hc => hn ?_⟩
    exact ((C141_tree_partial hU ord hord).mp hc).1
  · intro he
    have h0 : g.vertices.length = 0 := by simpa [isEmpty] using he
    have hk : g.vertices.keys = [] := by simpa [Dict.keys] using h0
    have hnov : ∀ u, ¬ hasVertex g u = true := fun u hu => by
      rw [hasVertex_iff, hk] at hu
      cases hu
    have hc : isConnected g' = .ok true := by
      rw [connected_iff hU, inner_connected hU.toWeak]
      refine ⟨⟨v, (hV v).mpr (Or.inl rfl)⟩, fun x y hx hy => ?_⟩
      rcases (hV x).mp hx with rfl | c
      · rcases (hV y).mp hy with rfl | c
        · exact SimpleGraph.Reachable.refl _
        · exact absurd c (hnov y)
      · exact absurd c (hnov x)
    refine ⟨hc, (C141_tree_partial hU ord hord).mpr ⟨hc, ?_⟩⟩
    have hE0 : g.edges.length = 0 := by
      have : g.edges.keys = [] := List.eq_nil_iff_forall_not_mem.mpr fun e he' => by
        have := (h.ends e.1 e.2 he').1
        rw [hk] at this
        cases this
      simpa [Dict.keys] using this
    have hV1 : g'.vertices.length = 1 := by
      have : g'.vertices.keys.Perm [v] := by
        rw [List.perm_ext_iff_of_nodup hU.vertsWF (List.nodup_singleton v)]
        intro u
        rw [← hasVertex_iff, hV, List.mem_singleton]
        exact ⟨fun c => c.resolve_right (hnov u), Or.inl⟩
      simpa [Dict.keys] using this.length_eq
    rw [hE, hE0, hV1]

/-- C141, `add_edge` and `cut`: the new edge is in the cuts that separate its ends and no other edge is affected. -/
theorem C141_cut {g g' : Ugraph} (h : UWF g) {a b : Name} {w : ℚ} (hs : addEdge g (a, b) w = (g', none))
    (S : List Name) :
    degree g' (.iter S) = degree g (.iter S) + (if (a ∈ S ↔ b ∈ S) then 0 else 1) := by
  obtain ⟨hU, hne, hadj, hv, hl, hE, -⟩ := addEdge_facts h hs
  unfold degree cut NodeArg.toSet
  rw [hE, List.filter_append, List.length_append]
  congr 1
  rcases norm_cases a b with e | e <;> rw [e] <;> by_cases c1 : a ∈ S <;> by_cases c2 : b ∈ S <;> simp [c1, c2]

/-! ### `remove_edge` -/

/-- C141, `remove_edge` at any time: what is connected afterwards was connected before, and without one of its edges a
tree is not connected. -/
theorem C141_remove {g g' : Ugraph} (h : Weak g) {a b : Name} (hs : removeEdge g (a, b) = (g', none))
    (ord : ℕ → List Name → List Name) (hord : ∀ k l, (ord k l).Perm l) :
    (isConnected g' = .ok true → isConnected g = .ok true) ∧
      (isTree ord g = .ok true → isConnected g' = .ok false ∧ isTree ord g' = .ok false) := by
  obtain ⟨hadj, -, hV, hW⟩ := C17_adjacency_partial h hs
  have hab : Adj g a b := (C17_succeeds h (a, b)).mp (by rw [hs])
  have hv : ∀ v, hasVertex g' v = hasVertex g v := fun v => by unfold hasVertex; rw [hV]
  have e : adjGraph g' = (adjGraph g).deleteEdges {s(a, b)} := by
    ext x y
    rw [SimpleGraph.deleteEdges_adj, Set.mem_singleton_iff]
    show (x ≠ y ∧ Adj g' x y ∧ Adj g' y x) ↔ (x ≠ y ∧ Adj g x y ∧ Adj g y x) ∧ s(x, y) ≠ s(a, b)
    rw [hadj, hadj, norm_swap y x]
    have : norm (x, y) ≠ norm (a, b) ↔ s(x, y) ≠ s(a, b) := not_congr norm_eq_norm_iff
    rw [this]
    tauto
  have hc := C20_is_connected (strip_uwf h)
  have hc' := C20_is_connected (strip_uwf hW)
  rw [strip_simple h, strip_isConnected] at hc
  rw [strip_simple hW, strip_isConnected] at hc'
  obtain ⟨r, h1, -, h2⟩ := hc
  obtain ⟨r', h1', -, h2'⟩ := hc'
  have hvs : ∀ v, hasVertex (strip g) v = hasVertex g v := fun _ => rfl
  have hvs' : ∀ v, hasVertex (strip g') v = hasVertex g v := hv
  simp only [hvs] at h2
  simp only [hvs'] at h2'
  constructor
  · rw [h1, h1']
    intro hr
    have := h2'.mp (by simpa using hr)
    rw [h2.mpr ⟨this.1, fun u v hu hv' => (this.2 u v hu hv').mono (by rw [e]; exact SimpleGraph.deleteEdges_le _)⟩]
  · intro ht
    obtain ⟨t, h3, h4⟩ := C21_is_tree (strip_uwf h) ord hord
    rw [strip_isTree, strip_simple h] at *
    rw [ht] at h3
    cases h3
    obtain ⟨-, -, hac⟩ := h4.mp rfl
    have hadj' : (adjGraph g).Adj a b := ⟨fun he => h.irrefl a (by rw [← he] at hab; exact hab), hab, h.sym a b hab⟩
    have hbr := SimpleGraph.isAcyclic_iff_forall_isBridge.mp hac (e := s(a, b)) hadj'
    have hnr : ¬ (adjGraph g').Reachable a b := by
      rw [e]
      exact (SimpleGraph.isBridge_iff.mp hbr)
    have hva : hasVertex g a = true ∧ hasVertex g b = true := by
      rw [hasVertex_iff, hasVertex_iff]
      have hm := h.sub a b hab
      rcases norm_cases a b with e | e <;> rw [e] at hm
      · exact h.ends a b hm
      · exact (h.ends b a hm).symm
    have hf : isConnected g' = .ok false := by
      rw [h1']
      cases r' with
      | false => rfl
      | true => exact absurd ((h2'.mp rfl).2 a b hva.1 hva.2) hnr
    refine ⟨hf, ?_⟩
    obtain ⟨t', h5, h6⟩ := C21_is_tree (strip_uwf hW) ord hord
    rw [strip_isTree, strip_simple hW] at *
    rw [h5]
    cases t' with
    | false => rfl
    | true =>
      have := (h6.mp rfl).2.1 a b
      rw [hvs', hvs'] at this
      exact absurd (this hva.1 hva.2) hnr

/-- C141 is false after `remove_edge`: a triangle without one edge is a tree, with as many edges as vertices in the
object. -/
theorem C141_remove_wrong : ∃ g g', ctor [(na, [nb', nc]), (nb', [nc])] [((na, nb'), 1), ((nc, na), 1), ((nc, nb'), 1)]
      [(na, 1), (nb', 1), (nc, 1)] = .ok g ∧ removeEdge g (na, nb') = (g', none) ∧
    isTree (fun _ l => l) g' = .ok true ∧ g'.edges.length = 3 ∧ g'.vertices.length = 3 :=
  ⟨ugTriangle, (removeEdge ugTriangle (na, nb')).1, ugTriangle_ctor, by decide +kernel, by decide +kernel,
    by decide +kernel, by decide +kernel⟩

/-! ### Stable sets -/

/-- The weight of the set of vertices that `branch_and_bound` finds for the formulation of a graph. -/
def foundWeight (sf fuel : ℕ) (junk : List ℚ) (g : Ugraph) : Option ℚ :=
  (stableAnswer sf fuel junk g).map fun p =>
    (g.vertices.keys.map fun u => vertexWeight g u * ((p.2.get? u).bind fun k => p.1[k]?).getD 0).sum

/-- The conditions under which stable sets of largest weight are found (`C85_stable_partial`). -/
structure Findable (g : Ugraph) (junk : List ℚ) (N sf fuel : ℕ) : Prop where
  weak : Weak g
  junk : junk.length = g.vertices.length
  edge : ∃ a b, hasEdge g (a, b) = true
  npos : 0 < N
  nle : 2 * N ≤ 10 ^ 10
  weights : ∀ v, hasVertex g v = true → ∃ k : ℤ, (N : ℚ) * vertexWeight g v = k
  sf : (5 * g.vertices.length + 2 * g.edges.length) ^ (2 * g.vertices.length + g.edges.length) ≤ sf
  fuel : g.vertices.length < fuel

theorem Findable.best {g : Ugraph} {junk : List ℚ} {N sf fuel : ℕ} (h : Findable g junk N sf fuel) :
    ∃ S, StableSet g S ∧ foundWeight sf fuel junk g = some (∑ u ∈ S, vertexWeight g u) ∧
      ∀ T, StableSet g T → ∑ u ∈ T, vertexWeight g u ≤ ∑ u ∈ S, vertexWeight g u := by
  obtain ⟨a, b, he⟩ := h.edge
  obtain ⟨I, map, h1, v, S, h2, -, h3, h4, h5⟩ := C85_stable_partial h.weak h.junk he N h.npos h.nle h.weights sf fuel
    h.sf h.fuel
  refine ⟨S, h4, ?_, h5⟩
  unfold foundWeight stableAnswer
  simp only [h1, h2, Option.map_some, Option.some.injEq]
  have e : (g.vertices.keys.map fun u => vertexWeight g u * ((map.get? u).bind fun k => v[k]?).getD 0) =
      g.vertices.keys.map fun u => if u ∈ S then vertexWeight g u else 0 := by
    apply List.map_congr_left
    intro u hu
    obtain ⟨k, hk, hk'⟩ := h3 u (hasVertex_iff.mpr hu)
    rw [hk, Option.bind_some, hk', Option.getD_some]
    split <;> simp
  rw [e, ← List.sum_toFinset _ h.weak.vertsWF, ← Finset.sum_filter]
  apply Finset.sum_congr _ fun _ _ => rfl
  ext u
  simp only [Finset.mem_filter, List.mem_toFinset]
  exact ⟨fun hu => hu.2, fun hu => ⟨hasVertex_iff.mp (h4.1 u hu), hu⟩⟩

/-- C141, stable sets and `add_edge` between two vertices: the largest weight found does not increase, and decreases by
at most the smaller weight of the two ends. Missing: see `C85_stable_partial`. -/
theorem C141_stable_edge_partial {g g' : Ugraph} {a b : Name} {w : ℚ} (hU : UWF g)
    (hs : addEdge g (a, b) w = (g', none)) (ha : hasVertex g a = true) (hb : hasVertex g b = true)
    {junk junk' : List ℚ} {N N' sf sf' fuel fuel' : ℕ}
    (h : Findable g junk N sf fuel) (h' : Findable g' junk' N' sf' fuel') (p p' : ℚ)
    (hp : foundWeight sf fuel junk g = some p) (hp' : foundWeight sf' fuel' junk' g' = some p') :
    p' ≤ p ∧ p ≤ p' + max 0 (min (vertexWeight g a) (vertexWeight g b)) := by
  obtain ⟨-, hne, hadj, hv, -, hE, -⟩ := addEdge_facts hU hs
  obtain ⟨-, -, -, -, hgw, -⟩ := C16_add_edge hs
  have hw : ∀ v, hasVertex g v = true → vertexWeight g' v = vertexWeight g v := fun v hv => by
    unfold vertexWeight
    rw [hgw v hv]
  have hedge : ∀ x y, hasEdge g' (x, y) = false ↔ hasEdge g (x, y) = false ∧ s(x, y) ≠ s(a, b) := fun x y => by
    rw [← Bool.not_eq_true, ← Bool.not_eq_true, hasEdge_iff, hasEdge_iff, hE, List.mem_append, List.mem_singleton,
      norm_eq_norm_iff, not_or]
  have hvv : ∀ v, hasVertex g' v = true ↔ hasVertex g v = true := fun v => by
    rw [hv]
    constructor
    · rintro (h1 | rfl | rfl) <;> assumption
    · exact Or.inl
  obtain ⟨S, hS, e, hbest⟩ := h.best
  obtain ⟨S', hS', e', hbest'⟩ := h'.best
  obtain rfl := Option.some.inj (hp.symm.trans e)
  obtain rfl := Option.some.inj (hp'.symm.trans e')
  have sum_eq : ∀ T : Finset Name, (∀ v ∈ T, hasVertex g v = true) →
      ∑ u ∈ T, vertexWeight g' u = ∑ u ∈ T, vertexWeight g u := fun T hT =>
    Finset.sum_congr rfl fun u hu => hw u (hT u hu)
  constructor
  · rw [sum_eq S' fun v hv => (hvv v).mp (hS'.1 v hv)]
    exact hbest S' ⟨fun v hv => (hvv v).mp (hS'.1 v hv), fun x hx y hy => ((hedge x y).mp (hS'.2 x hx y hy)).1⟩
  · by_cases hboth : a ∈ S ∧ b ∈ S
    · have key : ∀ c, c = a ∨ c = b → ∑ u ∈ S, vertexWeight g u ≤ ∑ u ∈ S', vertexWeight g' u + vertexWeight g c := by
        intro c hc
        have hcS : c ∈ S := by rcases hc with rfl | rfl; exacts [hboth.1, hboth.2]
        have hst : StableSet g' (S.erase c) := by
          refine ⟨fun v hv => (hvv v).mpr (hS.1 v (Finset.mem_of_mem_erase hv)), fun x hx y hy => ?_⟩
          refine (hedge x y).mpr ⟨hS.2 x (Finset.mem_of_mem_erase hx) y (Finset.mem_of_mem_erase hy), fun he => ?_⟩
          have hx' := Finset.ne_of_mem_erase hx
          have hy' := Finset.ne_of_mem_erase hy
          rcases Sym2.eq_iff.mp he with ⟨rfl, rfl⟩ | ⟨rfl, rfl⟩ <;> rcases hc with rfl | rfl <;> simp_all
        have h1 := hbest' _ hst
        rw [sum_eq _ fun v hv => hS.1 v (Finset.mem_of_mem_erase hv)] at h1
        rw [← Finset.sum_erase_add S _ hcS]
        linarith
      have h1 := key a (Or.inl rfl)
      have h2 := key b (Or.inr rfl)
      rcases min_choice (vertexWeight g a) (vertexWeight g b) with hm | hm <;> rw [hm]
      · linarith [le_max_right 0 (vertexWeight g a)]
      · linarith [le_max_right 0 (vertexWeight g b)]
    · have hst : StableSet g' S := by
        refine ⟨fun v hv => (hvv v).mpr (hS.1 v hv), fun x hx y hy => (hedge x y).mpr ⟨hS.2 x hx y hy, fun he => ?_⟩⟩
        rcases Sym2.eq_iff.mp he with ⟨rfl, rfl⟩ | ⟨rfl, rfl⟩
        · exact hboth ⟨hx, hy⟩
        · exact hboth ⟨hy, hx⟩
      have h1 := hbest' S hst
      rw [sum_eq S hS.1] at h1
      linarith [le_max_left 0 (min (vertexWeight g a) (vertexWeight g b))]

/-- C141, stable sets and `add_vertex`: the largest weight found increases by the weight of the vertex. -/
theorem C141_stable_vertex_partial {g g' : Ugraph} {v : Name} {w : ℚ} (hs : addVertex g v w = (g', none))
    {junk junk' : List ℚ} {N N' sf sf' fuel fuel' : ℕ}
    (h : Findable g junk N sf fuel) (h' : Findable g' junk' N' sf' fuel') (p p' : ℚ)
    (hp : foundWeight sf fuel junk g = some p) (hp' : foundWeight sf' fuel' junk' g' = some p') : p' = p + w := by
  rcases addVertex_cases g v w with hc | ⟨hw0, hnew, hc⟩
  · rw [hc] at hs; cases hs
  have hg := (Prod.mk.inj (hc.symm.trans hs)).1
  have hE : ∀ e, hasEdge g' e = hasEdge g e := fun e => by rw [← hg]; rfl
  have hV : ∀ u, hasVertex g' u = true ↔ u = v ∨ hasVertex g u = true := fun u => by
    rw [hasVertex_iff, hasVertex_iff, ← hg, Dict.mem_keys_setDefault]
  have hgv : hasVertex g v = false := by rwa [← Bool.not_eq_true, hasVertex_iff]
  have hget : ∀ u, g'.vertices.get? u = if u = v then some w else g.vertices.get? u := by
    intro u
    have h0 : g.vertices.get? v = none := by
      cases hx : g.vertices.get? v with
      | none => rfl
      | some x => exact absurd (Dict.mem_keys_of_get? hx) hnew
    rw [← hg, Dict.get?_setDefault]
    by_cases hu : u = v
    · subst hu
      simp [h0]
    · rw [if_neg hu, if_neg (Ne.symm hu)]
  have hwv : vertexWeight g' v = w := by
    unfold vertexWeight getVertexWeight
    rw [if_pos ((hV v).mpr (Or.inl rfl)), hget, if_pos rfl]
  have hwu : ∀ u, hasVertex g u = true → vertexWeight g' u = vertexWeight g u := fun u hu => by
    have huv : u ≠ v := by rintro rfl; rw [hgv] at hu; cases hu
    unfold vertexWeight getVertexWeight
    rw [if_pos ((hV u).mpr (Or.inr hu)), if_pos hu, hget, if_neg huv]
  have sum_eq : ∀ T : Finset Name, (∀ u ∈ T, hasVertex g u = true) →
      ∑ u ∈ T, vertexWeight g' u = ∑ u ∈ T, vertexWeight g u := fun T hT =>
    Finset.sum_congr rfl fun u hu => hwu u (hT u hu)
  obtain ⟨S, hS, e, hbest⟩ := h.best
  obtain ⟨S', hS', e', hbest'⟩ := h'.best
  obtain rfl := Option.some.inj (hp.symm.trans e)
  obtain rfl := Option.some.inj (hp'.symm.trans e')
  have hvS : v ∉ S := fun hc => by have := hS.1 v hc; rw [hgv] at this; cases this
  have hve : ∀ x, hasEdge g (v, x) = false := fun x => by
    rw [← Bool.not_eq_true, hasEdge_iff]
    intro hm
    rcases norm_cases v x with e | e <;> rw [e] at hm
    · exact hnew (h.weak.ends _ _ hm).1
    · exact hnew (h.weak.ends _ _ hm).2
  apply le_antisymm
  · have hst : StableSet g (S'.erase v) := by
      refine ⟨fun u hu => ?_, fun x hx y hy => ?_⟩
      · exact ((hV u).mp (hS'.1 u (Finset.mem_of_mem_erase hu))).resolve_left (Finset.ne_of_mem_erase hu)
      · rw [← hE]
        exact hS'.2 x (Finset.mem_of_mem_erase hx) y (Finset.mem_of_mem_erase hy)
    have h1 := hbest _ hst
    rw [← sum_eq _ hst.1] at h1
    by_cases hvS' : v ∈ S'
    · rw [← Finset.sum_erase_add S' _ hvS', hwv]
      linarith
    · rw [Finset.erase_eq_of_notMem hvS'] at h1
      linarith
  · have hst : StableSet g' (insert v S) := by
      refine ⟨fun u hu => (hV u).mpr ?_, fun x hx y hy => ?_⟩
      · rcases Finset.mem_insert.mp hu with rfl | hu
        · exact Or.inl rfl
        · exact Or.inr (hS.1 u hu)
      · rw [hE]
        rcases Finset.mem_insert.mp hx with rfl | hx
        · exact hve y
        · rcases Finset.mem_insert.mp hy with rfl | hy
          · rw [C16_has_edge]; exact hve x
          · exact hS.2 x hx y hy
    have h1 := hbest' _ hst
    rw [Finset.sum_insert hvS, hwv, sum_eq S hS.1] at h1
    linarith

/-! ### The hypotheses are satisfiable -/

/-- An edge with a new leaf, then the edge that closes the triangle, and the removal of an edge. -/
example : UWF ugEdge ∧ (∃ g, addEdge ugEdge (nb', nc) 1 = (g, none) ∧ isTree (fun _ l => l) g = .ok true ∧
    ∃ g', addEdge g (na, nc) 1 = (g', none) ∧ isTree (fun _ l => l) g' = .ok false ∧ isConnected g' = .ok true) ∧
    (∃ g, removeEdge ugEdge (na, nb') = (g, none) ∧ isConnected g = .ok false) ∧
    ∃ g, addVertex ugEdge nc 1 = (g, none) ∧ isConnected g = .ok false ∧ isEmpty ugEdge = false :=
  ⟨ctor_uwf ugEdge_ctor, ⟨(addEdge ugEdge (nb', nc) 1).1, by decide +kernel, by decide +kernel,
      (addEdge (addEdge ugEdge (nb', nc) 1).1 (na, nc) 1).1, by decide +kernel, by decide +kernel, by decide +kernel⟩,
    ⟨(removeEdge ugEdge (na, nb')).1, by decide +kernel, by decide +kernel⟩,
    ⟨(addVertex ugEdge nc 1).1, by decide +kernel, by decide +kernel, by decide +kernel⟩⟩

/-- Weights without fractions, before and after a vertex is added. -/
example : ∃ g', addVertex ugEdge nc 3 = (g', none) ∧ Findable ugEdge [0, 0] 1 (12 ^ 5) 3 ∧
    Findable g' [0, 0, 0] 1 (17 ^ 7) 4 := by
  refine ⟨(addVertex ugEdge nc 3).1, by decide +kernel, ⟨(ctor_uwf ugEdge_ctor).toWeak, rfl,
    ⟨na, nb', by decide +kernel⟩, by norm_num, by norm_num, fun v hv => ?_, by decide +kernel, by decide +kernel⟩,
    ⟨((step_uwf (ctor_uwf ugEdge_ctor) (o := .addVertex nc 3) rfl : UWF (addVertex ugEdge nc 3).1)).toWeak,
      by decide +kernel, ⟨na, nb', by decide +kernel⟩, by norm_num, by norm_num, fun v hv => ?_, by decide +kernel,
      by decide +kernel⟩⟩
  · have := hasVertex_iff.mp hv
    have e : ugEdge.vertices.keys = [na, nb'] := by decide +kernel
    simp only [e, List.mem_cons, List.not_mem_nil, or_false] at this
    rcases this with rfl | rfl
    · exact ⟨0, by decide +kernel⟩
    · exact ⟨0, by decide +kernel⟩
  · have := hasVertex_iff.mp hv
    have e : (addVertex ugEdge nc 3).1.vertices.keys = [na, nb', nc] := by decide +kernel
    simp only [e, List.mem_cons, List.not_mem_nil, or_false] at this
    rcases this with rfl | rfl | rfl
    · exact ⟨0, by decide +kernel⟩
    · exact ⟨0, by decide +kernel⟩
    · exact ⟨3, by decide +kernel⟩

end Pytimize.Props
