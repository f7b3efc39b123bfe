/-
Well-formedness of the undirected graph object and its preservation by every mutating call.
-/
import Verif.Graph.Undirected

namespace Pytimize
namespace Undirected

open Directed (Name chars setAdd NodeArg)

/-- `b` is in the adjacency set of `a`. -/
def Adj (g : Ugraph) (a b : Name) : Prop := ∃ l, g.graph.get? a = some l ∧ b ∈ l

/-- What every history of calls preserves: adjacency is symmetric, adjacent vertices have an edge,
endpoints are vertices, and stored edges are sorted pairs of distinct nonempty names. -/
structure Weak (g : Ugraph) : Prop where
  edgesWF : g.edges.WF
  vertsWF : g.vertices.WF
  graphWF : g.graph.WF
  sorted : ∀ a b, (a, b) ∈ g.edges.keys → a < b
  nonempty : ∀ a b, (a, b) ∈ g.edges.keys → a ≠ [] ∧ b ≠ []
  ends : ∀ a b, (a, b) ∈ g.edges.keys → a ∈ g.vertices.keys ∧ b ∈ g.vertices.keys
  adjNodup : ∀ a l, g.graph.get? a = some l → l.Nodup
  dom : ∀ a, a ∈ g.vertices.keys ↔ a ∈ g.graph.keys
  sym : ∀ a b, Adj g a b → Adj g b a
  sub : ∀ a b, Adj g a b → norm (a, b) ∈ g.edges.keys

/-- Specification: the object is a simple undirected graph. Adjacency is symmetric and irreflexive and
agrees with the edges. -/
structure UWF (g : Ugraph) : Prop extends Weak g where
  sup : ∀ a b, norm (a, b) ∈ g.edges.keys → Adj g a b

theorem hasVertex_iff {g : Ugraph} {v : Name} : hasVertex g v = true ↔ v ∈ g.vertices.keys :=
  Dict.has_iff

theorem hasEdge_iff {g : Ugraph} {e : Edge} : hasEdge g e = true ↔ norm e ∈ g.edges.keys :=
  Dict.has_iff

theorem norm_swap (a b : Name) : norm (a, b) = norm (b, a) := by
  unfold norm
  rcases lt_trichotomy a b with h | h | h
  · simp [h, not_lt.mpr h.le]
  · simp [h]
  · simp [h, not_lt.mpr h.le]

theorem norm_of_lt {a b : Name} (h : a < b) : norm (a, b) = (a, b) := by
  simp [norm, not_lt.mpr h.le]

theorem norm_norm (e : Edge) : norm (norm e) = norm e := by
  obtain ⟨a, b⟩ := e
  rcases lt_trichotomy a b with h | h | h
  · rw [norm_of_lt h, norm_of_lt h]
  · simp [norm, h]
  · rw [norm_swap a b, norm_of_lt h, norm_of_lt h]

theorem norm_cases (a b : Name) : norm (a, b) = (a, b) ∨ norm (a, b) = (b, a) := by
  unfold norm; split <;> simp

theorem norm_eq_norm {a b c d : Name} : norm (a, b) = norm (c, d) ↔
    (a = c ∧ b = d) ∨ (a = d ∧ b = c) := by
  constructor
  · intro h
    rcases norm_cases a b with h1 | h1 <;> rcases norm_cases c d with h2 | h2 <;>
      rw [h1, h2] at h <;> simp only [Prod.mk.injEq] at h <;> tauto
  · rintro (⟨rfl, rfl⟩ | ⟨rfl, rfl⟩)
    · rfl
    · exact norm_swap _ _

theorem norm_lt {a b : Name} (h : a ≠ b) : (norm (a, b)).1 < (norm (a, b)).2 := by
  rcases lt_or_gt_of_ne h with h | h
  · rw [norm_of_lt h]; exact h
  · rw [norm_swap, norm_of_lt h]; exact h

theorem Weak.irrefl {g : Ugraph} (h : Weak g) (a : Name) : ¬ Adj g a a := by
  intro ha
  have := h.sub a a ha
  have hn : norm (a, a) = (a, a) := by simp [norm]
  rw [hn] at this
  exact lt_irrefl _ (h.sorted a a this)

theorem Weak.adj_vertex {g : Ugraph} (h : Weak g) {a b : Name} (ha : Adj g a b) :
    a ∈ g.vertices.keys ∧ b ∈ g.vertices.keys := by
  have := h.sub a b ha
  rcases norm_cases a b with hn | hn <;> rw [hn] at this <;> have := h.ends _ _ this <;> tauto

theorem UWF_empty : UWF Ugraph.empty := by
  refine ⟨⟨?_, ?_, ?_, ?_, ?_, ?_, ?_, ?_, ?_, ?_⟩, ?_⟩ <;>
    simp [Ugraph.empty, Dict.WF, Dict.keys, Dict.get?, Adj]

theorem Adj_link {d : Dict Name (List Name)} {E E' : Dict Edge ℚ} {V V' : Dict Name ℚ} {u v a b : Name} :
    Adj ⟨link d u v, E, V⟩ a b ↔ Adj ⟨d, E', V'⟩ a b ∨ (a = u ∧ b = v) := by
  unfold Adj link
  simp only [Dict.get?_set]
  by_cases h : u = a
  · subst h
    simp only [if_true, Option.some.injEq, exists_eq_left', true_and]
    unfold setAdd
    cases hg : d.get? u with
    | none => simp
    | some l =>
      simp only [Option.getD_some, Option.some.injEq, exists_eq_left']
      split
      · rename_i hv
        constructor
        · exact Or.inl
        · rintro (h | rfl) <;> assumption
      · simp
  · simp [h, Ne.symm h]

/-- What a successful `add_edge` does. -/
theorem addEdge_cases (g : Ugraph) (edge : Edge) (w : ℚ) :
    addEdge g edge w = (g, some .valueError) ∨
    (0 ≤ w ∧ edge.1 ≠ edge.2 ∧ edge.1 ≠ [] ∧ edge.2 ≠ [] ∧ norm edge ∉ g.edges.keys ∧
      addEdge g edge w = ({ graph := link (link g.graph (norm edge).1 (norm edge).2) (norm edge).2 (norm edge).1
                            edges := g.edges.setDefault (norm edge) w
                            vertices := (g.vertices.setDefault (norm edge).1 0).setDefault (norm edge).2 0 }, none)) := by
  unfold addEdge
  split
  · left; rfl
  split
  · left; rfl
  split
  · left; rfl
  rename_i h1 h2 h3
  push Not at h3
  simp only
  split
  · left; rfl
  · rename_i h4
    rw [hasEdge_iff, norm_norm] at h4
    exact Or.inr ⟨not_lt.mp h1, h2, h3.1, h3.2, h4, rfl⟩

theorem setAdd_nodup {l : List Name} (h : l.Nodup) (x : Name) : (setAdd l x).Nodup := by
  unfold setAdd
  split
  · exact h
  · rename_i hx
    rw [List.nodup_append]
    exact ⟨h, by simp, fun a ha b hb => by simp at hb; subst hb; rintro rfl; exact hx ha⟩

theorem link_nodup {d : Dict Name (List Name)} (h : ∀ a l, d.get? a = some l → l.Nodup) (u v : Name) :
    ∀ a l, (link d u v).get? a = some l → l.Nodup := by
  intro a l hl
  unfold link at hl
  rw [Dict.get?_set] at hl
  split at hl
  · cases hl
    apply setAdd_nodup
    cases hg : d.get? u with
    | none => simp
    | some l => simpa using h u l hg
  · exact h a l hl

theorem mem_keys_link {d : Dict Name (List Name)} {u v a : Name} :
    a ∈ (link d u v).keys ↔ a = u ∨ a ∈ d.keys := Dict.mem_keys_set

theorem addEdge_adj {g : Ugraph} {edge : Edge} {w : ℚ} (h : (addEdge g edge w).2 = none) (a b : Name) :
    Adj (addEdge g edge w).1 a b ↔ Adj g a b ∨ norm (a, b) = norm edge := by
  rcases addEdge_cases g edge w with hc | ⟨_, _, _, _, _, hc⟩
  · rw [hc] at h; cases h
  · rw [hc]
    simp only
    rw [Adj_link (E' := g.edges) (V' := g.vertices), Adj_link (E' := g.edges) (V' := g.vertices), or_assoc]
    apply or_congr Iff.rfl
    have h3 : norm edge = norm ((norm edge).1, (norm edge).2) := (norm_norm edge).symm
    rw [h3, norm_eq_norm, ← h3]

theorem addEdge_spec {g : Ugraph} (h : Weak g) (edge : Edge) (w : ℚ) :
    Weak (addEdge g edge w).1 ∧ (UWF g → UWF (addEdge g edge w).1) ∧
    ((addEdge g edge w).2 ≠ none → (addEdge g edge w).1 = g) := by
  rcases addEdge_cases g edge w with hc | ⟨hw, hne, he1, he2, hnew, hc⟩
  · rw [hc]; exact ⟨h, id, fun _ => rfl⟩
  · have hadj := addEdge_adj (g := g) (edge := edge) (w := w) (by rw [hc])
    rw [hc] at hadj
    rw [hc]
    simp only at hadj
    have hk : ∀ e, e ∈ (g.edges.setDefault (norm edge) w).keys ↔ e = norm edge ∨ e ∈ g.edges.keys :=
      fun e => Dict.mem_keys_setDefault
    have hlt : (norm edge).1 < (norm edge).2 := norm_lt hne
    have hW : Weak (Ugraph.mk (link (link g.graph (norm edge).1 (norm edge).2) (norm edge).2 (norm edge).1)
        (g.edges.setDefault (norm edge) w)
        ((g.vertices.setDefault (norm edge).1 0).setDefault (norm edge).2 0)) := by
      refine ⟨Dict.WF_setDefault h.edgesWF _ _, Dict.WF_setDefault (Dict.WF_setDefault h.vertsWF _ _) _ _,
        Dict.WF_set (Dict.WF_set h.graphWF _ _) _ _, ?_, ?_, ?_, ?_, ?_, ?_, ?_⟩
      · intro a b hab
        rcases (hk _).mp hab with hab | hab
        · rw [← hab] at hlt; exact hlt
        · exact h.sorted a b hab
      · intro a b hab
        rcases (hk _).mp hab with hab | hab
        · rcases norm_cases edge.1 edge.2 with hn | hn <;>
            · rw [hn] at hab; cases hab; exact ⟨by assumption, by assumption⟩
        · exact h.nonempty a b hab
      · intro a b hab
        simp only [Dict.mem_keys_setDefault]
        rcases (hk _).mp hab with hab | hab
        · rw [← hab]; simp
        · have := h.ends a b hab; tauto
      · exact link_nodup (link_nodup h.adjNodup _ _) _ _
      · intro a
        simp only [Dict.mem_keys_setDefault, mem_keys_link, h.dom a]
      · intro a b hab
        rw [hadj] at hab ⊢
        rw [norm_swap b a]
        exact hab.imp (h.sym a b) id
      · intro a b hab
        rw [hadj] at hab
        rw [hk]
        exact hab.symm.imp id (h.sub a b)
    refine ⟨hW, fun hU => ⟨hW, ?_⟩, by simp⟩
    intro a b hab
    rw [hadj]
    exact ((hk _).mp hab).symm.imp (hU.sup a b) id

theorem addVertex_cases (g : Ugraph) (v : Name) (w : ℚ) :
    addVertex g v w = (g, some .valueError) ∨
    (0 ≤ w ∧ v ∉ g.vertices.keys ∧ addVertex g v w =
      ({ g with graph := g.graph.setDefault v [], vertices := g.vertices.setDefault v w }, none)) := by
  unfold addVertex
  split
  · left; rfl
  split
  · left; rfl
  · rename_i h1 h2
    rw [hasVertex_iff] at h2
    exact Or.inr ⟨not_lt.mp h1, h2, rfl⟩

theorem addVertex_adj (g : Ugraph) (v : Name) (w : ℚ) (a b : Name) :
    Adj (addVertex g v w).1 a b ↔ Adj g a b := by
  rcases addVertex_cases g v w with hc | ⟨_, _, hc⟩
  · rw [hc]
  · rw [hc]
    unfold Adj
    simp only [Dict.get?_setDefault]
    by_cases h : v = a
    · subst h
      simp only [if_true, Option.some.injEq, exists_eq_left']
      cases hg : g.graph.get? v <;> simp
    · simp [h]

theorem addVertex_spec {g : Ugraph} (h : Weak g) (v : Name) (w : ℚ) :
    Weak (addVertex g v w).1 ∧ (UWF g → UWF (addVertex g v w).1) ∧
    ((addVertex g v w).2 ≠ none → (addVertex g v w).1 = g) := by
  rcases addVertex_cases g v w with hc | ⟨hw, hnew, hc⟩
  · rw [hc]; exact ⟨h, id, fun _ => rfl⟩
  · have hadj := addVertex_adj g v w
    rw [hc] at hadj
    rw [hc]
    simp only at hadj
    have hW : Weak { g with graph := g.graph.setDefault v [], vertices := g.vertices.setDefault v w } := by
      refine ⟨h.edgesWF, Dict.WF_setDefault h.vertsWF _ _, Dict.WF_setDefault h.graphWF _ _, h.sorted,
        h.nonempty, ?_, ?_, ?_, ?_, ?_⟩
      · intro a b hab
        simp only [Dict.mem_keys_setDefault]
        have := h.ends a b hab; tauto
      · intro a l hl
        simp only [Dict.get?_setDefault] at hl
        split at hl
        · cases hg : g.graph.get? v with
          | none => simp [hg] at hl; subst hl; simp
          | some l' => simp [hg] at hl; subst hl; exact h.adjNodup _ _ hg
        · exact h.adjNodup a l hl
      · intro a; simp only [Dict.mem_keys_setDefault, h.dom a]
      · intro a b; rw [hadj, hadj]; exact h.sym a b
      · intro a b; rw [hadj]; exact h.sub a b
    exact ⟨hW, fun hU => ⟨hW, fun a b hab => (hadj a b).mpr (hU.sup a b hab)⟩, by simp⟩

theorem setEdgeWeight_spec {g : Ugraph} (h : Weak g) (e : Edge) (w : ℚ) :
    Weak (setEdgeWeight g e w).1 ∧ (UWF g → UWF (setEdgeWeight g e w).1) ∧
    ((setEdgeWeight g e w).2 ≠ none → (setEdgeWeight g e w).1 = g) := by
  unfold setEdgeWeight
  split
  · rename_i he
    have hk : (g.edges.set (norm e) w).keys = g.edges.keys := by
      rw [Dict.keys_set, if_pos (hasEdge_iff.mp he)]
    have hW : Weak { g with edges := g.edges.set (norm e) w } :=
      ⟨Dict.WF_set h.edgesWF _ _, h.vertsWF, h.graphWF, by simpa only [hk] using h.sorted,
        by simpa only [hk] using h.nonempty, by simpa only [hk] using h.ends, h.adjNodup, h.dom, h.sym,
        fun a b hab => by rw [hk]; exact h.sub a b hab⟩
    exact ⟨hW, fun hU => ⟨hW, fun a b hab => hU.sup a b (by rw [← hk]; exact hab)⟩, by simp⟩
  · exact ⟨h, id, fun _ => rfl⟩

theorem setVertexWeight_spec {g : Ugraph} (h : Weak g) (v : Name) (w : ℚ) :
    Weak (setVertexWeight g v w).1 ∧ (UWF g → UWF (setVertexWeight g v w).1) ∧
    ((setVertexWeight g v w).2 ≠ none → (setVertexWeight g v w).1 = g) := by
  unfold setVertexWeight
  split
  · rename_i he
    have hk : (g.vertices.set v w).keys = g.vertices.keys := by
      rw [Dict.keys_set, if_pos (hasVertex_iff.mp he)]
    have hW : Weak { g with vertices := g.vertices.set v w } :=
      ⟨h.edgesWF, Dict.WF_set h.vertsWF _ _, h.graphWF, h.sorted,
        h.nonempty, by simpa only [hk] using h.ends, h.adjNodup, by simpa only [hk] using h.dom, h.sym,
        h.sub⟩
    exact ⟨hW, fun hU => ⟨hW, hU.sup⟩, by simp⟩
  · exact ⟨h, id, fun _ => rfl⟩

/-- `remove_edge` on a graph with symmetric adjacency: either nothing happens, or both adjacency sets
lose their entry and nothing else changes. -/
theorem removeEdge_cases {g : Ugraph} (h : Weak g) (e : Edge) :
    (removeEdge g e = (g, some .valueError) ∧ norm e ∉ g.edges.keys) ∨
    (removeEdge g e = (g, some .keyError) ∧ norm e ∈ g.edges.keys ∧ ¬ Adj g e.1 e.2) ∨
    (norm e ∈ g.edges.keys ∧ Adj g e.1 e.2 ∧ ∃ l1 l2, g.graph.get? e.1 = some l1 ∧ g.graph.get? e.2 = some l2 ∧
      e.1 ≠ e.2 ∧
      removeEdge g e = ({ g with graph := (g.graph.set e.1 (l1.erase e.2)).set e.2 (l2.erase e.1) }, none)) := by
  unfold removeEdge
  split
  · rename_i he
    right
    by_cases ha : Adj g e.1 e.2
    · right
      refine ⟨hasEdge_iff.mp he, ha, ?_⟩
      obtain ⟨l1, h1, m1⟩ := ha
      obtain ⟨l2, h2, m2⟩ := h.sym _ _ ⟨l1, h1, m1⟩
      have hne : e.1 ≠ e.2 := fun hc => h.irrefl e.1 (by rw [show Adj g e.1 e.1 ↔ Adj g e.1 e.2 by rw [← hc]]; exact ⟨l1, h1, m1⟩)
      refine ⟨l1, l2, h1, h2, hne, ?_⟩
      simp [unlink, h1, m1, Dict.get?_set, hne, h2, m2]
    · left
      refine ⟨?_, hasEdge_iff.mp he, ha⟩
      unfold unlink
      cases hg : g.graph.get? e.1 with
      | none => simp
      | some l =>
        have : e.2 ∉ l := fun hm => ha ⟨l, hg, hm⟩
        simp [this]
  · rename_i he
    left
    exact ⟨rfl, fun hc => he (hasEdge_iff.mpr hc)⟩

theorem removeEdge_adj {g : Ugraph} (h : Weak g) {e : Edge} (hs : (removeEdge g e).2 = none) (a b : Name) :
    Adj (removeEdge g e).1 a b ↔ Adj g a b ∧ norm (a, b) ≠ norm e := by
  rcases removeEdge_cases h e with ⟨hc, _⟩ | ⟨hc, _⟩ | ⟨_, _, l1, l2, h1, h2, hne, hc⟩
  · rw [hc] at hs; cases hs
  · rw [hc] at hs; cases hs
  · rw [hc]
    obtain ⟨x, y⟩ := e
    simp only at h1 h2 hne ⊢
    rw [Ne, norm_eq_norm]
    unfold Adj
    simp only [Dict.get?_set]
    have n1 := h.adjNodup _ _ h1
    have n2 := h.adjNodup _ _ h2
    by_cases hy : y = a
    · subst hy
      simp only [if_true, Option.some.injEq, exists_eq_left', h2]
      rw [n2.mem_erase_iff]
      constructor
      · rintro ⟨hb, hm⟩
        refine ⟨hm, ?_⟩
        rintro (⟨rfl, _⟩ | ⟨_, rfl⟩)
        · exact hne rfl
        · exact hb rfl
      · rintro ⟨hm, hb⟩
        exact ⟨fun hc => hb (Or.inr ⟨trivial, hc⟩), hm⟩
    · by_cases hx : x = a
      · subst hx
        simp only [if_neg hy, if_true, Option.some.injEq, exists_eq_left', h1]
        rw [n1.mem_erase_iff]
        constructor
        · rintro ⟨hb, hm⟩
          refine ⟨hm, ?_⟩
          rintro (⟨_, rfl⟩ | ⟨rfl, _⟩)
          · exact hb rfl
          · exact hne rfl
        · rintro ⟨hm, hb⟩
          exact ⟨fun hc => hb (Or.inl ⟨trivial, hc⟩), hm⟩
      · simp [hx, hy, Ne.symm hx, Ne.symm hy]

theorem removeEdge_spec {g : Ugraph} (h : Weak g) (e : Edge) :
    Weak (removeEdge g e).1 ∧ ((removeEdge g e).2 ≠ none → (removeEdge g e).1 = g) ∧
    (removeEdge g e).1.edges = g.edges ∧ (removeEdge g e).1.vertices = g.vertices := by
  rcases removeEdge_cases h e with ⟨hc, _⟩ | ⟨hc, _⟩ | ⟨_, _, l1, l2, h1, h2, hne, hc⟩
  · rw [hc]; exact ⟨h, fun _ => rfl, rfl, rfl⟩
  · rw [hc]; exact ⟨h, fun _ => rfl, rfl, rfl⟩
  · have hadj := removeEdge_adj h (e := e) (by rw [hc])
    rw [hc] at hadj
    rw [hc]
    simp only at hadj
    refine ⟨⟨h.edgesWF, h.vertsWF, Dict.WF_set (Dict.WF_set h.graphWF _ _) _ _, h.sorted, h.nonempty,
      h.ends, ?_, ?_, ?_, ?_⟩, by simp, rfl, rfl⟩
    · intro a l hl
      simp only [Dict.get?_set] at hl
      split at hl
      · cases hl; exact (h.adjNodup _ _ h2).erase _
      · split at hl
        · cases hl; exact (h.adjNodup _ _ h1).erase _
        · exact h.adjNodup _ _ hl
    · intro a
      simp only [Dict.mem_keys_set, h.dom a]
      constructor
      · exact fun hm => Or.inr (Or.inr hm)
      · rintro (rfl | rfl | hm)
        · exact Dict.mem_keys_of_get? h2
        · exact Dict.mem_keys_of_get? h1
        · exact hm
    · intro a b hab
      rw [hadj] at hab ⊢
      rw [norm_swap b a]
      exact ⟨h.sym a b hab.1, hab.2⟩
    · intro a b hab
      rw [hadj] at hab
      exact h.sub a b hab.1

/-- Every call keeps `Weak`, and leaves the object unchanged when it raises. -/
theorem step_weak {g : Ugraph} (h : Weak g) (o : Op) :
    Weak (step g o).1 ∧ ((step g o).2 ≠ none → (step g o).1 = g) := by
  cases o with
  | addEdge e w => have := addEdge_spec h e w; exact ⟨this.1, this.2.2⟩
  | removeEdge e => have := removeEdge_spec h e; exact ⟨this.1, this.2.1⟩
  | addVertex v w => have := addVertex_spec h v w; exact ⟨this.1, this.2.2⟩
  | setEdgeWeight e w => have := setEdgeWeight_spec h e w; exact ⟨this.1, this.2.2⟩
  | setVertexWeight v w => have := setVertexWeight_spec h v w; exact ⟨this.1, this.2.2⟩

theorem run_weak {g : Ugraph} (h : Weak g) (ops : List Op) : Weak (run g ops) := by
  induction ops generalizing g with
  | nil => exact h
  | cons o ops ih => exact ih (step_weak h o).1

/-- The calls other than `remove_edge`. -/
def Op.keeps : Op → Bool
  | .removeEdge _ => false
  | _ => true

theorem step_uwf {g : Ugraph} (h : UWF g) {o : Op} (ho : o.keeps = true) : UWF (step g o).1 := by
  cases o with
  | addEdge e w => exact (addEdge_spec h.toWeak e w).2.1 h
  | removeEdge e => cases ho
  | addVertex v w => exact (addVertex_spec h.toWeak v w).2.1 h
  | setEdgeWeight e w => exact (setEdgeWeight_spec h.toWeak e w).2.1 h
  | setVertexWeight v w => exact (setVertexWeight_spec h.toWeak v w).2.1 h

theorem run_uwf {g : Ugraph} (h : UWF g) {ops : List Op} (ho : ∀ o ∈ ops, o.keeps = true) :
    UWF (run g ops) := by
  induction ops generalizing g with
  | nil => exact h
  | cons o ops ih =>
    exact ih (step_uwf h (ho o (by simp))) fun o' ho' => ho o' (List.mem_cons_of_mem _ ho')

theorem ctorConns_uwf {g : Ugraph} (h : UWF g) (u : Name) (vs : List Name) :
    UWF (ctorConns g u vs).1 := by
  induction vs generalizing g with
  | nil => exact h
  | cons v vs ih =>
    unfold ctorConns
    split
    · exact ih h
    · have := (addEdge_spec h.toWeak (u, v) 0).2.1 h
      generalize addEdge g (u, v) 0 = r at this
      match r with
      | (g', some e) => exact this
      | (g', none) => exact ih this

theorem ctorGraph_uwf {g : Ugraph} (h : UWF g) (l : List (Name × List Name)) :
    UWF (ctorGraph g l).1 := by
  induction l generalizing g with
  | nil => exact h
  | cons p l ih =>
    obtain ⟨u, vs⟩ := p
    unfold ctorGraph
    split
    · split
      · exact ih h
      · have := (addVertex_spec h.toWeak u 0).2.1 h
        generalize addVertex g u 0 = r at this
        match r with
        | (g', some e) => exact this
        | (g', none) => exact ih this
    · have := ctorConns_uwf h u vs
      generalize ctorConns g u vs = r at this
      match r with
      | (g', some e) => exact this
      | (g', none) => exact ih this

theorem ctorEdges_uwf {g : Ugraph} (h : UWF g) (l : List (Edge × ℚ)) : UWF (ctorEdges g l).1 := by
  induction l generalizing g with
  | nil => exact h
  | cons p l ih =>
    obtain ⟨a, w⟩ := p
    have h1 : UWF (if hasEdge g a then (g, none) else addEdge g a 0).1 := by
      split
      · exact h
      · exact (addEdge_spec h.toWeak a 0).2.1 h
    unfold ctorEdges
    generalize (if hasEdge g a then (g, none) else addEdge g a 0) = r at h1
    match r with
    | (g', some e) => exact h1
    | (g', none) =>
      have := (setEdgeWeight_spec h1.toWeak a w).2.1 h1
      simp only
      generalize setEdgeWeight g' a w = r at this
      match r with
      | (g', some e) => exact this
      | (g', none) => exact ih this

theorem ctorVertices_uwf {g : Ugraph} (h : UWF g) (l : List (Name × ℚ)) :
    UWF (ctorVertices g l).1 := by
  induction l generalizing g with
  | nil => exact h
  | cons p l ih =>
    obtain ⟨a, w⟩ := p
    have h1 : UWF (if hasVertex g a then (g, none) else addVertex g a 0).1 := by
      split
      · exact h
      · exact (addVertex_spec h.toWeak a 0).2.1 h
    unfold ctorVertices
    generalize (if hasVertex g a then (g, none) else addVertex g a 0) = r at h1
    match r with
    | (g', some e) => exact h1
    | (g', none) =>
      have := (setVertexWeight_spec h1.toWeak a w).2.1 h1
      simp only
      generalize setVertexWeight g' a w = r at this
      match r with
      | (g', some e) => exact this
      | (g', none) => exact ih this

theorem ctor_uwf {graph : List (Name × List Name)} {edges : List (Edge × ℚ)}
    {vertices : List (Name × ℚ)} {g : Ugraph} (h : ctor graph edges vertices = .ok g) : UWF g := by
  have h1 := ctorGraph_uwf UWF_empty graph
  unfold ctor at h
  generalize ctorGraph Ugraph.empty graph = r at h h1
  match r, h with
  | (g1, none), h =>
    have h2 := ctorEdges_uwf h1 edges
    simp only at h
    generalize ctorEdges g1 edges = r at h h2
    match r, h with
    | (g2, none), h =>
      have h3 := ctorVertices_uwf h2 vertices
      simp only at h
      generalize ctorVertices g2 vertices = r at h h3
      match r, h with
      | (g3, none), h => cases h; exact h3

end Undirected
end Pytimize
