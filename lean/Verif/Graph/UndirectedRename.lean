/-
Two undirected graphs that are the same up to the names of the vertices, and how the calls of
`pytimize/graphs/_undirected.py` keep them so.
-/
import Verif.Graph.UndirectedStrip
import Mathlib.Combinatorics.SimpleGraph.Metric
import Mathlib.Combinatorics.SimpleGraph.Acyclic

namespace Pytimize
namespace Undirected
open _root_.Pytimize.Directed (Name chars NodeArg setAdd)

/-- `h` is `g` with every vertex `v` called `ρ v`: the same answers about vertices, edges and weights, no further
vertex, and the same neighbours. The order in which the dictionaries list them may differ. -/
structure Renamed (ρ : Name → Name) (g h : Ugraph) : Prop where
  vertex : ∀ v, getVertexWeight h (ρ v) = getVertexWeight g v
  onto : ∀ w, hasVertex h w = true → ∃ v, ρ v = w
  edge : ∀ a b, getEdgeWeight h (ρ a, ρ b) = getEdgeWeight g (a, b)
  adj : ∀ a b, Adj h (ρ a) (ρ b) ↔ Adj g a b

/-- An edge with renamed ends. -/
def renEdge (ρ : Name → Name) (e : Edge) : Edge := (ρ e.1, ρ e.2)

/-- The call with renamed arguments. -/
def renOp (ρ : Name → Name) : Op → Op
  | .addEdge e w => .addEdge (renEdge ρ e) w
  | .removeEdge e => .removeEdge (renEdge ρ e)
  | .addVertex v w => .addVertex (ρ v) w
  | .setEdgeWeight e w => .setEdgeWeight (renEdge ρ e) w
  | .setVertexWeight v w => .setVertexWeight (ρ v) w

/-- The same exception, and graphs that are the same up to the names. -/
def Alike (ρ : Name → Name) (p q : Ugraph × Option PyErr) : Prop := q.2 = p.2 ∧ Renamed ρ p.1 q.1

theorem getVertexWeight_get? (g : Ugraph) (v : Name) : getVertexWeight g v =
    match g.vertices.get? v with | some w => .ok w | none => .error .valueError := by
  unfold getVertexWeight hasVertex
  cases h : g.vertices.get? v with
  | none => simp [Dict.has_iff, ← Dict.get?_eq_none_iff, h]
  | some w => simp [Dict.has_iff, Dict.mem_keys_of_get? h]

theorem getEdgeWeight_get? (g : Ugraph) (e : Edge) : getEdgeWeight g e =
    match g.edges.get? (norm e) with | some w => .ok w | none => .error .valueError := by
  unfold getEdgeWeight hasEdge
  cases h : g.edges.get? (norm e) with
  | none => simp [Dict.has_iff, ← Dict.get?_eq_none_iff, h]
  | some w => simp [Dict.has_iff, Dict.mem_keys_of_get? h]

theorem renamed_iff {ρ : Name → Name} {g h : Ugraph} : Renamed ρ g h ↔
    (∀ v, h.vertices.get? (ρ v) = g.vertices.get? v) ∧ (∀ w ∈ h.vertices.keys, ∃ v, ρ v = w) ∧
    (∀ a b, h.edges.get? (norm (ρ a, ρ b)) = g.edges.get? (norm (a, b))) ∧
    (∀ a b, Adj h (ρ a) (ρ b) ↔ Adj g a b) := by
  have key : ∀ x y : Option ℚ, ((match x with | some w => Except.ok w | none => .error PyErr.valueError) =
      (match y with | some w => Except.ok w | none => .error PyErr.valueError)) ↔ x = y := by
    intro x y
    cases x <;> cases y <;> simp
  constructor
  · rintro ⟨h1, h2, h3, h4⟩
    refine ⟨fun v => ?_, fun w hw => h2 w (hasVertex_iff.mpr hw), fun a b => ?_, h4⟩
    · have := h1 v
      rwa [getVertexWeight_get?, getVertexWeight_get?, key] at this
    · have := h3 a b
      rwa [getEdgeWeight_get?, getEdgeWeight_get?, key] at this
  · rintro ⟨h1, h2, h3, h4⟩
    refine ⟨fun v => ?_, fun w hw => h2 w (hasVertex_iff.mp hw), fun a b => ?_, h4⟩
    · rw [getVertexWeight_get?, getVertexWeight_get?, h1]
    · rw [getEdgeWeight_get?, getEdgeWeight_get?, h3]

theorem Renamed.empty (ρ : Name → Name) : Renamed ρ Ugraph.empty Ugraph.empty :=
  renamed_iff.mpr ⟨fun _ => rfl, fun w hw => by simp [Ugraph.empty, Dict.keys] at hw, fun _ _ => rfl,
    fun a b => by simp [Adj, Ugraph.empty, Dict.get?]⟩

section
variable {ρ : Name → Name}

theorem Renamed.hasVertex {g h : Ugraph} (r : Renamed ρ g h) (v : Name) : hasVertex h (ρ v) = hasVertex g v := by
  have := (renamed_iff.mp r).1 v
  rw [Bool.eq_iff_iff, hasVertex_iff, hasVertex_iff, ← not_iff_not, ← Dict.get?_eq_none_iff,
    ← Dict.get?_eq_none_iff, this]

theorem Renamed.hasEdge {g h : Ugraph} (r : Renamed ρ g h) (e : Edge) : hasEdge h (renEdge ρ e) = hasEdge g e := by
  have := (renamed_iff.mp r).2.2.1 e.1 e.2
  rw [Bool.eq_iff_iff, hasEdge_iff, hasEdge_iff, ← not_iff_not, ← Dict.get?_eq_none_iff,
    ← Dict.get?_eq_none_iff]
  exact Eq.congr this rfl

theorem get?_two (V : Dict Name ℚ) (e : Edge) (x : Name) :
    ((V.setDefault (norm e).1 0).setDefault (norm e).2 0).get? x =
      if x = e.1 ∨ x = e.2 then some ((V.get? x).getD 0) else V.get? x := by
  have hn : (x = e.1 ∨ x = e.2) ↔ ((norm e).1 = x ∨ (norm e).2 = x) := by
    unfold norm
    split <;> simp [eq_comm, or_comm]
  simp only [hn, Dict.get?_setDefault]
  by_cases h1 : (norm e).1 = x <;> by_cases h2 : (norm e).2 = x <;> simp [h1, h2]

theorem norm_ren (hρ : Function.Injective ρ) {a b c d : Name} :
    norm (ρ a, ρ b) = norm (ρ c, ρ d) ↔ norm (a, b) = norm (c, d) := by
  rw [norm_eq_norm, norm_eq_norm]
  simp only [hρ.eq_iff]

/-- What a successful `add_edge` leaves. -/
theorem addEdge_get? {g : Ugraph} {e : Edge} {w : ℚ} (hs : (addEdge g e w).2 = none) :
    (∀ x, (addEdge g e w).1.vertices.get? x =
      if x = e.1 ∨ x = e.2 then some ((g.vertices.get? x).getD 0) else g.vertices.get? x) ∧
    (∀ x, (addEdge g e w).1.edges.get? x = if norm e = x then some w else g.edges.get? x) := by
  rcases addEdge_cases g e w with hc | ⟨_, _, _, _, hnew, hc⟩
  · rw [hc] at hs; cases hs
  · rw [hc]
    refine ⟨fun x => get?_two g.vertices e x, fun x => ?_⟩
    show (g.edges.setDefault (norm e) w).get? x = _
    rw [Dict.get?_setDefault, Dict.get?_eq_none_iff.mpr hnew]
    rfl

theorem addEdge_err_eq {g h : Ugraph} (hρ : Function.Injective ρ) (he : ∀ v, ρ v = [] ↔ v = [])
    (r : Renamed ρ g h) (e : Edge) (w : ℚ) : (addEdge h (renEdge ρ e) w).2 = (addEdge g e w).2 := by
  have h1 : hasEdge h (norm (renEdge ρ e)) = hasEdge g (norm e) := by
    have := r.hasEdge e
    unfold Undirected.hasEdge at this ⊢
    rwa [norm_norm, norm_norm]
  have h2 : ((renEdge ρ e).1 = (renEdge ρ e).2) ↔ e.1 = e.2 := hρ.eq_iff
  have h3 : ((renEdge ρ e).1 = [] ∨ (renEdge ρ e).2 = []) ↔ (e.1 = [] ∨ e.2 = []) := or_congr (he _) (he _)
  unfold addEdge
  simp only [h1, h2, h3]
  split
  · rfl
  · split
    · rfl
    · split
      · rfl
      · split <;> rfl

theorem addEdge_alike {g h : Ugraph} (hρ : Function.Injective ρ) (he : ∀ v, ρ v = [] ↔ v = [])
    (r : Renamed ρ g h) (e : Edge) (w : ℚ) : Alike ρ (addEdge g e w) (addEdge h (renEdge ρ e) w) := by
  have herr := addEdge_err_eq hρ he r e w
  refine ⟨herr, ?_⟩
  by_cases hs : (addEdge g e w).2 = none
  · have hs' := herr.trans hs
    obtain ⟨r1, r2, r3, r4⟩ := renamed_iff.mp r
    obtain ⟨v1, v2⟩ := addEdge_get? hs
    obtain ⟨w1, w2⟩ := addEdge_get? hs'
    refine renamed_iff.mpr ⟨fun v => ?_, fun x hx => ?_, fun a b => ?_, fun a b => ?_⟩
    · rw [w1, v1, r1]
      simp only [renEdge, hρ.eq_iff]
    · by_cases hx' : x = (renEdge ρ e).1 ∨ x = (renEdge ρ e).2
      · rcases hx' with h | h
        · exact ⟨_, h.symm⟩
        · exact ⟨_, h.symm⟩
      · refine r2 x ?_
        by_contra hn
        rw [← Dict.get?_eq_none_iff] at hn
        have := w1 x
        rw [if_neg hx', hn] at this
        exact Dict.get?_eq_none_iff.mp this hx
    · rw [w2, v2, r3]
      have : norm (renEdge ρ e) = norm (ρ a, ρ b) ↔ norm e = norm (a, b) := norm_ren hρ
      simp only [this]
    · rw [addEdge_adj hs', addEdge_adj hs, r4]
      exact or_congr Iff.rfl (norm_ren hρ)
  · have hs' : (addEdge h (renEdge ρ e) w).2 ≠ none := by rwa [herr]
    have c1 : (addEdge g e w).1 = g := by
      rcases addEdge_cases g e w with hc | ⟨_, _, _, _, _, hc⟩ <;> rw [hc] at hs ⊢
      simp at hs
    have c2 : (addEdge h (renEdge ρ e) w).1 = h := by
      rcases addEdge_cases h (renEdge ρ e) w with hc | ⟨_, _, _, _, _, hc⟩ <;> rw [hc] at hs' ⊢
      simp at hs'
    rwa [c1, c2]

theorem addVertex_alike {g h : Ugraph} (hρ : Function.Injective ρ) (r : Renamed ρ g h) (v : Name) (w : ℚ) :
    Alike ρ (addVertex g v w) (addVertex h (ρ v) w) := by
  have hadj := addVertex_adj g v w
  have hadj' := addVertex_adj h (ρ v) w
  have hv := r.hasVertex v
  obtain ⟨r1, r2, r3, r4⟩ := renamed_iff.mp r
  unfold addVertex at hadj hadj' ⊢
  rw [hv] at hadj' ⊢
  split_ifs at hadj hadj' ⊢ with c1 c2
  · exact ⟨rfl, r⟩
  · exact ⟨rfl, r⟩
  · refine ⟨rfl, renamed_iff.mpr ⟨fun x => ?_, fun x hx => ?_, r3, fun a b => ?_⟩⟩
    · show (h.vertices.setDefault (ρ v) w).get? (ρ x) = (g.vertices.setDefault v w).get? x
      rw [Dict.get?_setDefault, Dict.get?_setDefault, r1, r1]
      simp only [hρ.eq_iff]
    · have hx' : x ∈ (h.vertices.setDefault (ρ v) w).keys := hx
      rw [Dict.mem_keys_setDefault] at hx'
      rcases hx' with h | h
      · exact ⟨v, h.symm⟩
      · exact r2 x h
    · rw [hadj, hadj', r4]

theorem setEdgeWeight_alike {g h : Ugraph} (hρ : Function.Injective ρ) (r : Renamed ρ g h) (e : Edge) (w : ℚ) :
    Alike ρ (setEdgeWeight g e w) (setEdgeWeight h (renEdge ρ e) w) := by
  have hv := r.hasEdge e
  obtain ⟨r1, r2, r3, r4⟩ := renamed_iff.mp r
  unfold setEdgeWeight
  rw [hv]
  split_ifs with c1
  · refine ⟨rfl, renamed_iff.mpr ⟨r1, r2, fun a b => ?_, r4⟩⟩
    show (h.edges.set (norm (renEdge ρ e)) w).get? _ = (g.edges.set (norm e) w).get? _
    have : norm (renEdge ρ e) = norm (ρ a, ρ b) ↔ norm e = norm (a, b) := norm_ren hρ
    rw [Dict.get?_set, Dict.get?_set, r3]
    simp only [this]
  · exact ⟨rfl, r⟩

theorem setVertexWeight_alike {g h : Ugraph} (hρ : Function.Injective ρ) (r : Renamed ρ g h) (v : Name) (w : ℚ) :
    Alike ρ (setVertexWeight g v w) (setVertexWeight h (ρ v) w) := by
  have hv := r.hasVertex v
  obtain ⟨r1, r2, r3, r4⟩ := renamed_iff.mp r
  unfold setVertexWeight
  rw [hv]
  split_ifs with c1
  · refine ⟨rfl, renamed_iff.mpr ⟨fun x => ?_, fun x hx => ?_, r3, r4⟩⟩
    · show (h.vertices.set (ρ v) w).get? (ρ x) = (g.vertices.set v w).get? x
      rw [Dict.get?_set, Dict.get?_set, r1]
      simp only [hρ.eq_iff]
    · have hx' : x ∈ (h.vertices.set (ρ v) w).keys := hx
      rw [Dict.mem_keys_set] at hx'
      rcases hx' with h | h
      · exact ⟨v, h.symm⟩
      · exact r2 x h
  · exact ⟨rfl, r⟩

theorem removeEdge_err {g : Ugraph} (hg : Weak g) (e : Edge) : (removeEdge g e).2 =
    if norm e ∈ g.edges.keys then (open Classical in if Adj g e.1 e.2 then none else some .keyError)
    else some .valueError := by
  rcases removeEdge_cases hg e with ⟨hc, hn⟩ | ⟨hc, hn, ha⟩ | ⟨hn, ha, l1, l2, _, _, _, hc⟩ <;>
    simp_all

theorem removeEdge_alike {g h : Ugraph} (hg : Weak g) (hh : Weak h) (hρ : Function.Injective ρ) (r : Renamed ρ g h)
    (e : Edge) : Alike ρ (removeEdge g e) (removeEdge h (renEdge ρ e)) := by
  have hE := r.hasEdge e
  obtain ⟨r1, r2, r3, r4⟩ := renamed_iff.mp r
  have herr : (removeEdge h (renEdge ρ e)).2 = (removeEdge g e).2 := by
    rw [removeEdge_err hh, removeEdge_err hg]
    rw [Bool.eq_iff_iff, hasEdge_iff, hasEdge_iff] at hE
    have hA : Adj h (renEdge ρ e).1 (renEdge ρ e).2 ↔ Adj g e.1 e.2 := r4 _ _
    simp only [hE]
    by_cases ha : Adj g e.1 e.2
    · rw [if_pos ha, if_pos (hA.mpr ha)]
    · rw [if_neg ha, if_neg (mt hA.mp ha)]
  refine ⟨herr, ?_⟩
  obtain ⟨_, g1, g2, g3⟩ := removeEdge_spec hg e
  obtain ⟨_, h1, h2, h3⟩ := removeEdge_spec hh (renEdge ρ e)
  by_cases hs : (removeEdge g e).2 = none
  · have hs' := herr.trans hs
    refine renamed_iff.mpr ⟨fun v => ?_, fun x hx => ?_, fun a b => ?_, fun a b => ?_⟩
    · rw [h3, g3, r1]
    · rw [h3] at hx; exact r2 x hx
    · rw [h2, g2, r3]
    · rw [removeEdge_adj hh hs', removeEdge_adj hg hs, r4]
      have : norm (ρ a, ρ b) = norm (renEdge ρ e) ↔ norm (a, b) = norm e := norm_ren hρ
      exact and_congr Iff.rfl (not_congr this)
  · rw [g1 hs, h1 (by rwa [herr])]
    exact r

theorem step_alike {g h : Ugraph} (hg : Weak g) (hh : Weak h) (hρ : Function.Injective ρ)
    (he : ∀ v, ρ v = [] ↔ v = []) (r : Renamed ρ g h) (o : Op) : Alike ρ (step g o) (step h (renOp ρ o)) := by
  cases o with
  | addEdge e w => exact addEdge_alike hρ he r e w
  | removeEdge e => exact removeEdge_alike hg hh hρ r e
  | addVertex v w => exact addVertex_alike hρ r v w
  | setEdgeWeight e w => exact setEdgeWeight_alike hρ r e w
  | setVertexWeight v w => exact setVertexWeight_alike hρ r v w

theorem run_alike {g h : Ugraph} (hg : Weak g) (hh : Weak h) (hρ : Function.Injective ρ)
    (he : ∀ v, ρ v = [] ↔ v = []) (r : Renamed ρ g h) (ops : List Op) :
    Renamed ρ (run g ops) (run h (ops.map (renOp ρ))) := by
  induction ops generalizing g h with
  | nil => exact r
  | cons o ops ih => exact ih (step_weak hg o).1 (step_weak hh _).1 (step_alike hg hh hρ he r o).2

/-! ### The constructor -/

theorem ctorConns_alike (hρ : Function.Injective ρ) (he : ∀ v, ρ v = [] ↔ v = []) (u : Name) (vs : List Name) :
    ∀ {g h : Ugraph}, Renamed ρ g h → Alike ρ (ctorConns g u vs) (ctorConns h (ρ u) (vs.map ρ)) := by
  induction vs with
  | nil => intro g h r; exact ⟨rfl, r⟩
  | cons v vs ih =>
    intro g h r
    have hE := r.hasEdge (u, v)
    have hA := addEdge_alike hρ he r (u, v) 0
    simp only [renEdge] at hE hA
    simp only [List.map_cons, ctorConns, hE]
    split
    · exact ih r
    · generalize addEdge g (u, v) 0 = p at hA
      generalize addEdge h (ρ u, ρ v) 0 = q at hA
      obtain ⟨p1, p2⟩ := p
      obtain ⟨q1, q2⟩ := q
      obtain ⟨h1, h2⟩ := hA
      simp only at h1 h2
      subst h1
      cases q2 with
      | some e => exact ⟨rfl, h2⟩
      | none => exact ih h2

theorem ctorGraph_alike (hρ : Function.Injective ρ) (he : ∀ v, ρ v = [] ↔ v = []) (l : List (Name × List Name)) :
    ∀ {g h : Ugraph}, Renamed ρ g h →
      Alike ρ (ctorGraph g l) (ctorGraph h (l.map fun p => (ρ p.1, p.2.map ρ))) := by
  induction l with
  | nil => intro g h r; exact ⟨rfl, r⟩
  | cons c l ih =>
    intro g h r
    obtain ⟨u, vs⟩ := c
    have hV := r.hasVertex u
    have hA := addVertex_alike hρ r u 0
    have hC := ctorConns_alike hρ he u vs r
    simp only [List.map_cons, ctorGraph, List.length_map, hV]
    split
    · split
      · exact ih r
      · generalize addVertex g u 0 = p at hA
        generalize addVertex h (ρ u) 0 = q at hA
        obtain ⟨p1, p2⟩ := p
        obtain ⟨q1, q2⟩ := q
        obtain ⟨h1, h2⟩ := hA
        simp only at h1 h2
        subst h1
        cases q2 with
        | some e => exact ⟨rfl, h2⟩
        | none => exact ih h2
    · generalize ctorConns g u vs = p at hC
      generalize ctorConns h (ρ u) (vs.map ρ) = q at hC
      obtain ⟨p1, p2⟩ := p
      obtain ⟨q1, q2⟩ := q
      obtain ⟨h1, h2⟩ := hC
      simp only at h1 h2
      subst h1
      cases q2 with
      | some e => exact ⟨rfl, h2⟩
      | none => exact ih h2

theorem ctorEdges_alike (hρ : Function.Injective ρ) (he : ∀ v, ρ v = [] ↔ v = []) (l : List (Edge × ℚ)) :
    ∀ {g h : Ugraph}, Renamed ρ g h →
      Alike ρ (ctorEdges g l) (ctorEdges h (l.map fun p => (renEdge ρ p.1, p.2))) := by
  induction l with
  | nil => intro g h r; exact ⟨rfl, r⟩
  | cons c l ih =>
    intro g h r
    obtain ⟨a, w⟩ := c
    have hE := r.hasEdge a
    have hA : Alike ρ (if hasEdge g a then (g, none) else addEdge g a 0)
        (if hasEdge h (renEdge ρ a) then (h, none) else addEdge h (renEdge ρ a) 0) := by
      rw [hE]
      split
      · exact ⟨rfl, r⟩
      · exact addEdge_alike hρ he r a 0
    simp only [List.map_cons, ctorEdges]
    generalize (if hasEdge g a then (g, none) else addEdge g a 0) = p at hA
    generalize (if hasEdge h (renEdge ρ a) then (h, none) else addEdge h (renEdge ρ a) 0) = q at hA
    obtain ⟨p1, p2⟩ := p
    obtain ⟨q1, q2⟩ := q
    obtain ⟨h1, h2⟩ := hA
    simp only at h1 h2
    subst h1
    cases q2 with
    | some e => exact ⟨rfl, h2⟩
    | none =>
      have hS := setEdgeWeight_alike hρ h2 a w
      simp only
      generalize setEdgeWeight p1 a w = p at hS
      generalize setEdgeWeight q1 (renEdge ρ a) w = q at hS
      obtain ⟨p1, p2⟩ := p
      obtain ⟨q1, q2⟩ := q
      obtain ⟨h1, h2⟩ := hS
      simp only at h1 h2
      subst h1
      cases q2 with
      | some e => exact ⟨rfl, h2⟩
      | none => exact ih h2

theorem ctorVertices_alike (hρ : Function.Injective ρ) (l : List (Name × ℚ)) :
    ∀ {g h : Ugraph}, Renamed ρ g h →
      Alike ρ (ctorVertices g l) (ctorVertices h (l.map fun p => (ρ p.1, p.2))) := by
  induction l with
  | nil => intro g h r; exact ⟨rfl, r⟩
  | cons c l ih =>
    intro g h r
    obtain ⟨a, w⟩ := c
    have hE := r.hasVertex a
    have hA : Alike ρ (if hasVertex g a then (g, none) else addVertex g a 0)
        (if hasVertex h (ρ a) then (h, none) else addVertex h (ρ a) 0) := by
      rw [hE]
      split
      · exact ⟨rfl, r⟩
      · exact addVertex_alike hρ r a 0
    simp only [List.map_cons, ctorVertices]
    generalize (if hasVertex g a then (g, none) else addVertex g a 0) = p at hA
    generalize (if hasVertex h (ρ a) then (h, none) else addVertex h (ρ a) 0) = q at hA
    obtain ⟨p1, p2⟩ := p
    obtain ⟨q1, q2⟩ := q
    obtain ⟨h1, h2⟩ := hA
    simp only at h1 h2
    subst h1
    cases q2 with
    | some e => exact ⟨rfl, h2⟩
    | none =>
      have hS := setVertexWeight_alike hρ h2 a w
      simp only
      generalize setVertexWeight p1 a w = p at hS
      generalize setVertexWeight q1 (ρ a) w = q at hS
      obtain ⟨p1, p2⟩ := p
      obtain ⟨q1, q2⟩ := q
      obtain ⟨h1, h2⟩ := hS
      simp only at h1 h2
      subst h1
      cases q2 with
      | some e => exact ⟨rfl, h2⟩
      | none => exact ih h2

/-! ### Walks -/

theorem Renamed.adjGraph {g h : Ugraph} (hρ : Function.Injective ρ) (r : Renamed ρ g h) (a b : Name) :
    (adjGraph h).Adj (ρ a) (ρ b) ↔ (adjGraph g).Adj a b := by
  show (ρ a ≠ ρ b ∧ Adj h (ρ a) (ρ b) ∧ Adj h (ρ b) (ρ a)) ↔ (a ≠ b ∧ Adj g a b ∧ Adj g b a)
  rw [r.adj, r.adj, hρ.ne_iff]

/-- The renaming as a map of graphs. -/
def Renamed.hom {g h : Ugraph} (hρ : Function.Injective ρ) (r : Renamed ρ g h) :
    Undirected.adjGraph g →g Undirected.adjGraph h :=
  ⟨ρ, fun {a b} hab => (r.adjGraph hρ a b).mpr hab⟩

theorem Renamed.lift {g h : Ugraph} (hh : Weak h) (hρ : Function.Injective ρ) (r : Renamed ρ g h) {x w : Name}
    (p : (Undirected.adjGraph h).Walk x w) :
    ∀ u (hu : ρ u = x), ∃ v, ∃ hv : ρ v = w, ∃ q : (Undirected.adjGraph g).Walk u v,
      (q.map (r.hom hρ)).copy hu hv = p := by
  induction p with
  | nil => intro u hu; subst hu; exact ⟨u, rfl, .nil, rfl⟩
  | cons hab p ih =>
    intro u hu
    rename_i a b c
    subst hu
    obtain ⟨v, hv⟩ := r.onto b (hasVertex_iff.mpr (hh.adj_vertex hab.2.1).2)
    subst hv
    obtain ⟨z, hz, q, hq⟩ := ih v rfl
    subst hz
    refine ⟨z, rfl, .cons ((r.adjGraph hρ u v).mp hab) q, ?_⟩
    rw [← hq]
    rfl

theorem Renamed.reachable {g h : Ugraph} (hh : Weak h) (hρ : Function.Injective ρ) (r : Renamed ρ g h) (u : Name)
    (w : Name) : (Undirected.adjGraph h).Reachable (ρ u) w ↔ ∃ v, ρ v = w ∧ (Undirected.adjGraph g).Reachable u v := by
  constructor
  · rintro ⟨p⟩
    obtain ⟨v, hv, q, _⟩ := r.lift hh hρ p u rfl
    exact ⟨v, hv, ⟨q⟩⟩
  · rintro ⟨v, rfl, ⟨q⟩⟩
    exact ⟨q.map (r.hom hρ)⟩

theorem Renamed.dist {g h : Ugraph} (hh : Weak h) (hρ : Function.Injective ρ) (r : Renamed ρ g h) (u v : Name) :
    (Undirected.adjGraph h).dist (ρ u) (ρ v) = (Undirected.adjGraph g).dist u v := by
  by_cases hr : (Undirected.adjGraph g).Reachable u v
  · have hr' : (Undirected.adjGraph h).Reachable (ρ u) (ρ v) := (r.reachable hh hρ u _).mpr ⟨v, rfl, hr⟩
    apply le_antisymm
    · obtain ⟨p, hp⟩ := hr.exists_walk_length_eq_dist
      rw [← hp, ← SimpleGraph.Walk.length_map (r.hom hρ) p]
      exact SimpleGraph.dist_le (p.map (r.hom hρ))
    · obtain ⟨p, hp⟩ := hr'.exists_walk_length_eq_dist
      obtain ⟨z, hz, q, hq⟩ := r.lift hh hρ p u rfl
      cases hρ hz
      have hlen : p.length = q.length := by
        rw [← hq]
        exact (SimpleGraph.Walk.length_copy _ _ _).trans (SimpleGraph.Walk.length_map _ _)
      rw [← hp, hlen]
      exact SimpleGraph.dist_le q
  · have hr' : ¬ (Undirected.adjGraph h).Reachable (ρ u) (ρ v) := by
      rw [r.reachable hh hρ]
      rintro ⟨z, hz, hq⟩
      cases hρ hz
      exact hr hq
    rw [SimpleGraph.dist_eq_zero_of_not_reachable hr, SimpleGraph.dist_eq_zero_of_not_reachable hr']

theorem Renamed.acyclic {g h : Ugraph} (hh : Weak h) (hρ : Function.Injective ρ) (r : Renamed ρ g h) :
    (Undirected.adjGraph h).IsAcyclic ↔ (Undirected.adjGraph g).IsAcyclic := by
  constructor
  · intro ha u p hp
    exact ha (p.map (r.hom hρ)) ((SimpleGraph.Walk.isCycle_map_iff_of_injective hρ).mpr hp)
  · intro ha x p hp
    have hx : ∃ u, ρ u = x := by
      cases p with
      | nil => exact absurd hp (by simp)
      | cons hab _ => exact r.onto x (hasVertex_iff.mpr (hh.adj_vertex hab.2.1).1)
    obtain ⟨u, rfl⟩ := hx
    obtain ⟨v, hv, q, hq⟩ := r.lift hh hρ p u rfl
    cases hρ hv
    rw [← hq] at hp
    exact ha q ((SimpleGraph.Walk.isCycle_map_iff_of_injective hρ).mp hp)

end

end Undirected
end Pytimize
