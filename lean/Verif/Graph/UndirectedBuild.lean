/-
What the constructor and the mutating calls of an undirected graph do, in terms of a weighted graph on unordered
pairs (`Net`). Specification and lemmas for C98.
-/
import Verif.Graph.UndirectedWF
import Mathlib.Data.Sym.Sym2

namespace Pytimize
namespace Undirected

open Directed (Name)

/-- Specification: a weighted graph as a user thinks of it; `none` for a vertex or pair that is not there. -/
structure Net where
  vertex : Name → Option ℚ
  edge : Sym2 Name → Option ℚ

/-- The answer of a getter. -/
def answer : Option ℚ → Except PyErr ℚ
  | some w => .ok w
  | none => .error .valueError

/-- Specification: all that can be read from the object is what the net says. -/
structure Shows (g : Ugraph) (N : Net) : Prop where
  hasVertex : ∀ v, hasVertex g v = (N.vertex v).isSome
  vertex : ∀ v, getVertexWeight g v = answer (N.vertex v)
  hasEdge : ∀ a b, hasEdge g (a, b) = (N.edge s(a, b)).isSome
  edge : ∀ a b, getEdgeWeight g (a, b) = answer (N.edge s(a, b))
  neighbour : ∀ a b, Adj g a b ↔ (N.edge s(a, b)).isSome = true

/-- Specification: a pair that can be an edge. -/
def Proper (a b : Name) : Prop := a ≠ b ∧ a ≠ [] ∧ b ≠ []

/-- The last value given for a key. -/
def lastOf {K : Type} [DecidableEq K] : List (K × ℚ) → K → Option ℚ
  | [], _ => none
  | (k, w) :: l, x => (lastOf l x).or (if k = x then some w else none)

/-- The object and the net agree, and the object is a simple graph. -/
structure Rep (g : Ugraph) (N : Net) : Prop where
  wf : UWF g
  vertex : ∀ v, g.vertices.get? v = N.vertex v
  edge : ∀ a b, g.edges.get? (norm (a, b)) = N.edge s(a, b)

theorem norm_eq_norm_iff {a b c d : Name} : norm (a, b) = norm (c, d) ↔ s(a, b) = s(c, d) := by
  rw [norm_eq_norm, Sym2.eq_iff]

theorem get?_isSome {K V : Type} [DecidableEq K] {d : Dict K V} {k : K} : (d.get? k).isSome = true ↔ k ∈ d.keys := by
  rw [Option.isSome_iff_ne_none, Ne, Dict.get?_eq_none_iff, not_not]

theorem Rep.mem_vertex {g : Ugraph} {N : Net} (h : Rep g N) (v : Name) :
    v ∈ g.vertices.keys ↔ (N.vertex v).isSome = true := by rw [← h.vertex, get?_isSome]

theorem Rep.mem_edge {g : Ugraph} {N : Net} (h : Rep g N) (a b : Name) :
    norm (a, b) ∈ g.edges.keys ↔ (N.edge s(a, b)).isSome = true := by rw [← h.edge, get?_isSome]

theorem Rep.shows {g : Ugraph} {N : Net} (h : Rep g N) : Shows g N := by
  have hv : ∀ v, Undirected.hasVertex g v = (N.vertex v).isSome := fun v => by
    rw [Bool.eq_iff_iff, hasVertex_iff, h.mem_vertex]
  have he : ∀ a b, Undirected.hasEdge g (a, b) = (N.edge s(a, b)).isSome := fun a b => by
    rw [Bool.eq_iff_iff, hasEdge_iff, h.mem_edge]
  refine ⟨hv, fun v => ?_, he, fun a b => ?_, fun a b => ?_⟩
  · rw [getVertexWeight, hv, h.vertex]
    cases N.vertex v <;> rfl
  · rw [getEdgeWeight, he, h.edge]
    cases N.edge s(a, b) <;> rfl
  · rw [← h.mem_edge]
    exact ⟨h.wf.sub a b, h.wf.sup a b⟩

theorem Rep.proper {g : Ugraph} {N : Net} (h : Rep g N) {a b : Name} (he : (N.edge s(a, b)).isSome = true) :
    Proper a b ∧ (N.vertex a).isSome = true ∧ (N.vertex b).isSome = true := by
  have hm := (h.mem_edge a b).mpr he
  simp only [← h.mem_vertex]
  rcases norm_cases a b with hn | hn <;> rw [hn] at hm
  · have h1 := h.wf.sorted _ _ hm
    have h2 := h.wf.nonempty _ _ hm
    have h3 := h.wf.ends _ _ hm
    exact ⟨⟨ne_of_lt h1, h2.1, h2.2⟩, h3.1, h3.2⟩
  · have h1 := h.wf.sorted _ _ hm
    have h2 := h.wf.nonempty _ _ hm
    have h3 := h.wf.ends _ _ hm
    exact ⟨⟨(ne_of_lt h1).symm, h2.2, h2.1⟩, h3.2, h3.1⟩

theorem Rep_empty : Rep Ugraph.empty ⟨fun _ => none, fun _ => none⟩ :=
  ⟨UWF_empty, fun _ => rfl, fun _ _ => rfl⟩

/-- The vertex is there afterwards, with weight 0 if it was not there. -/
def Net.touch (N : Net) (v : Name) : Net :=
  { N with vertex := fun x => (N.vertex x).or (if x = v then some 0 else none) }

/-- Specification of one call; `none` if it is rejected. -/
def Net.step (N : Net) : Op → Option Net
  | .addEdge (a, b) w =>
    if 0 ≤ w ∧ a ≠ b ∧ a ≠ [] ∧ b ≠ [] ∧ N.edge s(a, b) = none then
      some { vertex := fun x => (N.vertex x).or (if x = a ∨ x = b then some 0 else none)
             edge := fun s => if s = s(a, b) then some w else N.edge s }
    else none
  | .removeEdge (a, b) =>
    if N.edge s(a, b) = none then none
    else some { N with edge := fun s => if s = s(a, b) then none else N.edge s }
  | .addVertex v w =>
    if 0 ≤ w ∧ N.vertex v = none then some { N with vertex := fun x => if x = v then some w else N.vertex x }
    else none
  | .setEdgeWeight (a, b) w =>
    if N.edge s(a, b) = none then none
    else some { N with edge := fun s => if s = s(a, b) then some w else N.edge s }
  | .setVertexWeight v w =>
    if N.vertex v = none then none
    else some { N with vertex := fun x => if x = v then some w else N.vertex x }

theorem isSome_iff_mem_none {g : Ugraph} {N : Net} (h : Rep g N) (a b : Name) :
    norm (a, b) ∉ g.edges.keys ↔ N.edge s(a, b) = none := by
  rw [h.mem_edge]; cases N.edge s(a, b) <;> simp

/-- One call other than `remove_edge` does what the specification says. -/
theorem Rep.step {g : Ugraph} {N : Net} (h : Rep g N) {o : Op} (ho : o.keeps = true) :
    match N.step o with
    | none => Undirected.step g o = (g, some .valueError)
    | some N' => (Undirected.step g o).2 = none ∧ Rep (Undirected.step g o).1 N' := by
  have hwf := step_uwf h.wf ho
  have hV : ∀ v, v ∉ g.vertices.keys ↔ N.vertex v = none := fun v => by
    rw [h.mem_vertex]; cases N.vertex v <;> simp
  cases o with
  | removeEdge e => cases ho
  | addEdge e w =>
    obtain ⟨a, b⟩ := e
    simp only [Net.step, Undirected.step] at hwf ⊢
    rcases addEdge_cases g (a, b) w with hc | ⟨h1, h2, h3, h4, h5, hc⟩
    · have hbad : ¬ (0 ≤ w ∧ a ≠ b ∧ a ≠ [] ∧ b ≠ [] ∧ N.edge s(a, b) = none) := by
        rintro ⟨h1, h2, h3, h4, h5⟩
        have h5' := (isSome_iff_mem_none h a b).mpr h5
        have : Undirected.hasEdge g (norm (a, b)) = false := by
          rw [Bool.eq_false_iff, Ne, hasEdge_iff, norm_norm]; exact h5'
        simp [addEdge, not_lt.mpr h1, h2, h3, h4, this] at hc
      rw [if_neg hbad]
      exact hc
    · have h5' := (isSome_iff_mem_none h a b).mp h5
      rw [if_pos ⟨h1, h2, h3, h4, h5'⟩]
      rw [hc] at hwf ⊢
      refine ⟨rfl, hwf, fun v => ?_, fun c d => ?_⟩
      · simp only [Dict.get?_setDefault, h.vertex]
        have hends : (norm (a, b)).1 = a ∧ (norm (a, b)).2 = b ∨ (norm (a, b)).1 = b ∧ (norm (a, b)).2 = a := by
          rcases norm_cases a b with hn | hn <;> rw [hn] <;> simp
        rcases hends with ⟨e1, e2⟩ | ⟨e1, e2⟩ <;> rw [e1, e2]
        · by_cases hb : b = v
          · subst hb
            cases hN : N.vertex b <;> simp [h2, hN]
          · by_cases ha : a = v
            · subst ha
              cases hN : N.vertex a <;> simp [hb, hN]
            · simp [ha, hb, Ne.symm ha, Ne.symm hb]
        · by_cases ha : a = v
          · subst ha
            cases hN : N.vertex a <;> simp [Ne.symm h2, hN]
          · by_cases hb : b = v
            · subst hb
              cases hN : N.vertex b <;> simp [ha, hN]
            · simp [ha, hb, Ne.symm ha, Ne.symm hb]
      · simp only [Dict.get?_setDefault, h.edge, h5', norm_eq_norm_iff]
        by_cases hs : s(a, b) = s(c, d)
        · rw [if_pos hs, if_pos hs.symm]; rfl
        · rw [if_neg hs, if_neg (Ne.symm hs)]
  | addVertex v w =>
    simp only [Net.step, Undirected.step] at hwf ⊢
    rcases addVertex_cases g v w with hc | ⟨h1, h2, hc⟩
    · have hbad : ¬ (0 ≤ w ∧ N.vertex v = none) := by
        rintro ⟨h1, h2⟩
        have : Undirected.hasVertex g v = false := by
          rw [Bool.eq_false_iff, Ne, hasVertex_iff]; exact (hV v).mpr h2
        simp [addVertex, not_lt.mpr h1, this] at hc
      rw [if_neg hbad]
      exact hc
    · have h2' := (hV v).mp h2
      rw [if_pos ⟨h1, h2'⟩]
      rw [hc] at hwf ⊢
      refine ⟨rfl, hwf, fun x => ?_, h.edge⟩
      simp only [Dict.get?_setDefault, h.vertex, h2']
      by_cases hx : v = x
      · rw [if_pos hx, if_pos hx.symm]; rfl
      · rw [if_neg hx, if_neg (Ne.symm hx)]
  | setEdgeWeight e w =>
    obtain ⟨a, b⟩ := e
    simp only [Net.step, Undirected.step] at hwf ⊢
    have he := (h.shows).hasEdge a b
    cases hN : N.edge s(a, b) with
    | none =>
      rw [if_pos rfl]
      rw [hN] at he
      simp [setEdgeWeight, he]
    | some q =>
      rw [if_neg (by simp)]
      rw [hN] at he
      simp only [setEdgeWeight, he, Option.isSome_some, if_true] at hwf ⊢
      refine ⟨trivial, hwf, h.vertex, fun c d => ?_⟩
      simp only [Dict.get?_set, h.edge, norm_eq_norm_iff]
      by_cases hs : s(a, b) = s(c, d)
      · rw [if_pos hs, if_pos hs.symm]
      · rw [if_neg hs, if_neg (Ne.symm hs)]
  | setVertexWeight v w =>
    simp only [Net.step, Undirected.step] at hwf ⊢
    have he := (h.shows).hasVertex v
    cases hN : N.vertex v with
    | none =>
      rw [if_pos rfl]
      rw [hN] at he
      simp [setVertexWeight, he]
    | some q =>
      rw [if_neg (by simp)]
      rw [hN] at he
      simp only [setVertexWeight, he, Option.isSome_some, if_true] at hwf ⊢
      refine ⟨trivial, hwf, fun x => ?_, h.edge⟩
      simp only [Dict.get?_set, h.vertex]
      by_cases hs : v = x
      · rw [if_pos hs, if_pos hs.symm]
      · rw [if_neg hs, if_neg (Ne.symm hs)]

/-! ### The constructor -/

/-- The result of a part of the constructor: under condition `P` it succeeds with `N`, otherwise it raises
`ValueError`. -/
def Outcome (r : Ugraph × Option PyErr) (P : Prop) (N : Net) : Prop :=
  (P → r.2 = none ∧ Rep r.1 N) ∧ (¬ P → r.2 = some .valueError)

open Classical in
/-- `0` if the condition holds. -/
noncomputable def zeroIf (P : Prop) : Option ℚ := if P then some 0 else none

theorem zeroIf_false {P : Prop} (h : ¬ P) : zeroIf P = none := by simp [zeroIf, h]

theorem zeroIf_true {P : Prop} (h : P) : zeroIf P = some 0 := by simp [zeroIf, h]

theorem zeroIf_or {P Q R : Prop} (h : R ↔ P ∨ Q) : (zeroIf P).or (zeroIf Q) = zeroIf R := by
  by_cases hp : P <;> by_cases hq : Q <;> simp [zeroIf, h, hp, hq]

/-- An edge is added with weight 0 unless it is there. -/
theorem ensureEdge {g : Ugraph} {N : Net} (h : Rep g N) (a b : Name) :
    Outcome (if hasEdge g (a, b) then (g, none) else addEdge g (a, b) 0) (Proper a b)
      ⟨fun x => (N.vertex x).or (zeroIf (x = a ∨ x = b)), fun s => (N.edge s).or (zeroIf (s = s(a, b)))⟩ := by
  have he := h.shows.hasEdge a b
  cases hN : N.edge s(a, b) with
  | some q =>
    rw [hN] at he
    simp only [he, Option.isSome_some, if_true]
    obtain ⟨h1, h2, h3⟩ := h.proper (a := a) (b := b) (by rw [hN]; rfl)
    refine ⟨fun _ => ⟨rfl, h.wf, fun v => ?_, fun c d => ?_⟩, fun hc => absurd h1 hc⟩
    · rw [h.vertex]
      simp only
      by_cases hv : v = a ∨ v = b
      · have : (N.vertex v).isSome = true := by rcases hv with rfl | rfl <;> assumption
        obtain ⟨q, hq⟩ := Option.isSome_iff_exists.mp this
        rw [hq]; rfl
      · rw [zeroIf_false hv]; simp
    · rw [h.edge]
      simp only
      by_cases hs : s(c, d) = s(a, b)
      · rw [hs, hN]; rfl
      · rw [zeroIf_false hs]; simp
  | none =>
    rw [hN] at he
    simp only [he, Option.isSome_none, Bool.false_eq_true, if_false]
    have hs := h.step (o := .addEdge (a, b) 0) rfl
    simp only [Net.step, hN, le_refl, true_and, and_true, Undirected.step] at hs
    constructor
    · intro hp
      have hp' : a ≠ b ∧ a ≠ [] ∧ b ≠ [] := hp
      rw [if_pos hp'] at hs
      refine ⟨hs.1, hs.2.wf, fun v => ?_, fun c d => ?_⟩
      · rw [hs.2.vertex]
        simp only [zeroIf]
        congr 1
        split <;> simp_all
      · rw [hs.2.edge]
        simp only
        by_cases hs : s(c, d) = s(a, b)
        · rw [hs, hN, zeroIf_true rfl]; simp
        · rw [zeroIf_false hs]; simp [hs]
    · intro hp
      have hp' : ¬ (a ≠ b ∧ a ≠ [] ∧ b ≠ []) := hp
      rw [if_neg hp'] at hs
      simp only at hs
      rw [hs]

theorem ensureVertex {g : Ugraph} {N : Net} (h : Rep g N) (v : Name) :
    (if hasVertex g v then (g, none) else addVertex g v 0).2 = none ∧
    Rep (if hasVertex g v then (g, none) else addVertex g v 0).1
      { N with vertex := fun x => (N.vertex x).or (zeroIf (x = v)) } := by
  have he := h.shows.hasVertex v
  cases hN : N.vertex v with
  | some q =>
    rw [hN] at he
    simp only [he, Option.isSome_some, if_true]
    refine ⟨trivial, h.wf, fun x => ?_, h.edge⟩
    rw [h.vertex]
    simp only
    by_cases hx : x = v
    · subst hx; rw [hN]; rfl
    · rw [zeroIf_false hx]; simp
  | none =>
    rw [hN] at he
    simp only [he, Option.isSome_none, Bool.false_eq_true, if_false]
    have hs := h.step (o := .addVertex v 0) rfl
    simp only [Net.step, hN, le_refl, true_and, Undirected.step, if_true] at hs
    refine ⟨hs.1, hs.2.wf, fun x => ?_, hs.2.edge⟩
    rw [hs.2.vertex]
    simp only
    by_cases hx : x = v
    · subst hx; rw [hN, zeroIf_true rfl]; simp
    · rw [zeroIf_false hx]; simp [hx]

theorem Outcome.congr {r : Ugraph × Option PyErr} {P Q : Prop} {N M : Net} (h : Outcome r P N) (hpq : P ↔ Q)
    (hv : ∀ x, N.vertex x = M.vertex x) (he : ∀ s, N.edge s = M.edge s) : Outcome r Q M := by
  have : N = M := by
    cases N; cases M
    congr
    · exact funext hv
    · exact funext he
  rw [← this]
  exact ⟨fun hq => h.1 (hpq.mpr hq), fun hq => h.2 fun hp => hq (hpq.mp hp)⟩

/-- The second part runs if the first raised nothing. -/
def chain (r : Ugraph × Option PyErr) (f : Ugraph → Ugraph × Option PyErr) : Ugraph × Option PyErr :=
  match r with
  | (g', some e) => (g', some e)
  | (g', none) => f g'

/-- Two parts after each other. -/
theorem Outcome.andThen {r : Ugraph × Option PyErr} {P Q : Prop} {N M : Net} {f : Ugraph → Ugraph × Option PyErr}
    (h : Outcome r P N) (hf : ∀ g, Rep g N → Outcome (f g) Q M) :
    Outcome (chain r f) (P ∧ Q) M := by
  obtain ⟨g', e⟩ := r
  by_cases hp : P
  · obtain ⟨h1, h2⟩ := h.1 hp
    simp only at h1 h2
    subst h1
    exact ⟨fun hpq => (hf g' h2).1 hpq.2, fun hpq => (hf g' h2).2 fun hq => hpq ⟨hp, hq⟩⟩
  · have h1 := h.2 hp
    simp only at h1
    subst h1
    exact ⟨fun hpq => absurd hpq.1 hp, fun _ => rfl⟩

theorem Option.or_assoc' (a b c : Option ℚ) : (a.or b).or c = a.or (b.or c) := by cases a <;> rfl

theorem or_zeroIf {o : Option ℚ} {P Q R : Prop} (h : R ↔ P ∨ Q) : (o.or (zeroIf P)).or (zeroIf Q) = o.or (zeroIf R) := by
  rw [Option.or_assoc', zeroIf_or h]

theorem ctorConns_net {g : Ugraph} {N : Net} (h : Rep g N) (u : Name) (vs : List Name) :
    Outcome (ctorConns g u vs) (∀ v ∈ vs, Proper u v)
      ⟨fun x => (N.vertex x).or (zeroIf (∃ v ∈ vs, x = u ∨ x = v)),
       fun s => (N.edge s).or (zeroIf (∃ v ∈ vs, s = s(u, v)))⟩ := by
  induction vs generalizing g N with
  | nil =>
    refine ⟨fun _ => ⟨rfl, h.wf, fun v => ?_, fun a b => ?_⟩, fun hc => absurd (by simp) hc⟩
    · simp [ctorConns, h.vertex, zeroIf]
    · simp [ctorConns, h.edge, zeroIf]
  | cons v vs ih =>
    have key := (ensureEdge h u v).andThen (f := fun g => ctorConns g u vs) fun g hg => ih hg
    have e : ctorConns g u (v :: vs) = chain (if hasEdge g (u, v) then (g, none) else addEdge g (u, v) 0)
        fun g => ctorConns g u vs := by
      rw [ctorConns]
      split <;> rfl
    rw [e]
    refine key.congr (by simp) (fun x => ?_) fun s => ?_
    · exact or_zeroIf (by simp)
    · exact or_zeroIf (by simp)

theorem ctorGraph_net {g : Ugraph} {N : Net} (h : Rep g N) (l : List (Name × List Name)) :
    Outcome (ctorGraph g l) (∀ p ∈ l, ∀ v ∈ p.2, Proper p.1 v)
      ⟨fun x => (N.vertex x).or (zeroIf (∃ p ∈ l, x = p.1 ∨ x ∈ p.2)),
       fun s => (N.edge s).or (zeroIf (∃ p ∈ l, ∃ v ∈ p.2, s = s(p.1, v)))⟩ := by
  induction l generalizing g N with
  | nil =>
    refine ⟨fun _ => ⟨rfl, h.wf, fun v => ?_, fun a b => ?_⟩, fun hc => absurd (by simp) hc⟩
    · simp [ctorGraph, h.vertex, zeroIf]
    · simp [ctorGraph, h.edge, zeroIf]
  | cons p l ih =>
    obtain ⟨u, vs⟩ := p
    cases vs with
    | nil =>
      have e : ctorGraph g ((u, []) :: l) = chain (if hasVertex g u then (g, none) else addVertex g u 0)
          fun g => ctorGraph g l := by
        rw [ctorGraph, if_pos (by rfl)]
        split <;> rfl
      have h1 := ensureVertex h u
      have h2 : Outcome (if hasVertex g u then (g, none) else addVertex g u 0) True _ :=
        ⟨fun _ => h1, fun hc => absurd trivial hc⟩
      have key := h2.andThen (f := fun g => ctorGraph g l) fun g hg => ih hg
      rw [e]
      refine key.congr (by simp) (fun x => ?_) fun s => ?_
      · exact or_zeroIf (by simp)
      · simp
    | cons v vs =>
      have e : ctorGraph g ((u, v :: vs) :: l) = chain (ctorConns g u (v :: vs))
          fun g => ctorGraph g l := by
        rw [ctorGraph, if_neg (by simp : ¬ (v :: vs).length = 0)]
        rfl
      have key := (ctorConns_net h u (v :: vs)).andThen (f := fun g => ctorGraph g l) fun g hg => ih hg
      rw [e]
      refine key.congr (by simp) (fun x => ?_) fun s => ?_
      · refine or_zeroIf ?_
        simp only [List.mem_cons, exists_eq_or_imp]
        apply or_congr _ Iff.rfl
        constructor
        · rintro (h | h | h)
          · exact Or.inl (Or.inl h)
          · exact Or.inl (Or.inr h)
          · exact Or.inr ⟨x, h, Or.inr rfl⟩
        · rintro ((h | h) | ⟨y, hy, h | h⟩)
          · exact Or.inl h
          · exact Or.inr (Or.inl h)
          · exact Or.inl h
          · exact Or.inr (Or.inr (h ▸ hy))
      · exact or_zeroIf (by simp)

theorem setEdge_net {g : Ugraph} {N : Net} (h : Rep g N) {a b : Name} (hN : (N.edge s(a, b)).isSome = true) (w : ℚ) :
    (setEdgeWeight g (a, b) w).2 = none ∧ Rep (setEdgeWeight g (a, b) w).1
      { N with edge := fun s => if s = s(a, b) then some w else N.edge s } := by
  have hs := h.step (o := .setEdgeWeight (a, b) w) rfl
  have : N.edge s(a, b) ≠ none := Option.isSome_iff_ne_none.mp hN
  simpa only [Net.step, this, if_false, Undirected.step] using hs

theorem setVertex_net {g : Ugraph} {N : Net} (h : Rep g N) {v : Name} (hN : (N.vertex v).isSome = true) (w : ℚ) :
    (setVertexWeight g v w).2 = none ∧ Rep (setVertexWeight g v w).1
      { N with vertex := fun x => if x = v then some w else N.vertex x } := by
  have hs := h.step (o := .setVertexWeight v w) rfl
  have : N.vertex v ≠ none := Option.isSome_iff_ne_none.mp hN
  simpa only [Net.step, this, if_false, Undirected.step] using hs

/-- The last weight given for an unordered pair. -/
def lastEdge (l : List (Edge × ℚ)) (s : Sym2 Name) : Option ℚ := lastOf (l.map fun p => (s(p.1.1, p.1.2), p.2)) s

theorem ctorEdges_net {g : Ugraph} {N : Net} (h : Rep g N) (l : List (Edge × ℚ)) :
    Outcome (ctorEdges g l) (∀ p ∈ l, Proper p.1.1 p.1.2)
      ⟨fun x => (N.vertex x).or (zeroIf (∃ p ∈ l, x = p.1.1 ∨ x = p.1.2)),
       fun s => (lastEdge l s).or (N.edge s)⟩ := by
  induction l generalizing g N with
  | nil =>
    refine ⟨fun _ => ⟨rfl, h.wf, fun v => ?_, fun a b => ?_⟩, fun hc => absurd (by simp) hc⟩
    · simp [ctorEdges, h.vertex, zeroIf]
    · simp [ctorEdges, h.edge, lastEdge, lastOf]
  | cons p l ih =>
    obtain ⟨⟨a, b⟩, w⟩ := p
    have e : ctorEdges g (((a, b), w) :: l) = chain (if hasEdge g (a, b) then (g, none) else addEdge g (a, b) 0)
        fun g' => chain (setEdgeWeight g' (a, b) w) fun g2 => ctorEdges g2 l := by
      rw [ctorEdges]
      simp only
      generalize (if hasEdge g (a, b) then (g, none) else addEdge g (a, b) 0) = r
      obtain ⟨g1, e1⟩ := r
      cases e1 <;> rfl
    rw [e]
    have key := (ensureEdge h a b).andThen (f := fun g' => chain (setEdgeWeight g' (a, b) w) fun g2 => ctorEdges g2 l)
        fun g' hg' => by
      have h1 := setEdge_net hg' (a := a) (b := b) (by simp [zeroIf]) w
      have h2 : Outcome (setEdgeWeight g' (a, b) w) True _ := ⟨fun _ => h1, fun hc => absurd trivial hc⟩
      exact h2.andThen (f := fun g => ctorEdges g l) fun g hg => ih hg
    refine key.congr (by simp) (fun x => ?_) fun s => ?_
    · exact or_zeroIf (by simp)
    · simp only [lastEdge, List.map_cons, lastOf, Option.or_assoc']
      congr 1
      by_cases hs : s = s(a, b)
      · rw [if_pos hs, if_pos hs.symm]; rfl
      · rw [if_neg hs, if_neg (Ne.symm hs), zeroIf_false hs]; simp

theorem ctorVertices_net {g : Ugraph} {N : Net} (h : Rep g N) (l : List (Name × ℚ)) :
    Outcome (ctorVertices g l) True ⟨fun x => (lastOf l x).or (N.vertex x), N.edge⟩ := by
  induction l generalizing g N with
  | nil => exact ⟨fun _ => ⟨rfl, h.wf, fun v => by simp [ctorVertices, h.vertex, lastOf], h.edge⟩, fun hc => absurd trivial hc⟩
  | cons p l ih =>
    obtain ⟨v, w⟩ := p
    have e : ctorVertices g ((v, w) :: l) = chain (if hasVertex g v then (g, none) else addVertex g v 0)
        fun g' => chain (setVertexWeight g' v w) fun g2 => ctorVertices g2 l := by
      rw [ctorVertices]
      simp only
      generalize (if hasVertex g v then (g, none) else addVertex g v 0) = r
      obtain ⟨g1, e1⟩ := r
      cases e1 <;> rfl
    rw [e]
    have h0 : Outcome (if hasVertex g v then (g, none) else addVertex g v 0) True _ :=
      ⟨fun _ => ensureVertex h v, fun hc => absurd trivial hc⟩
    have key := h0.andThen (f := fun g' => chain (setVertexWeight g' v w) fun g2 => ctorVertices g2 l)
        fun g' hg' => by
      have h1 := setVertex_net hg' (v := v) (by simp [zeroIf]) w
      have h2 : Outcome (setVertexWeight g' v w) True _ := ⟨fun _ => h1, fun hc => absurd trivial hc⟩
      exact h2.andThen (f := fun g => ctorVertices g l) fun g hg => ih hg
    refine key.congr (by simp) (fun x => ?_) fun s => rfl
    simp only [lastOf, Option.or_assoc']
    congr 1
    by_cases hs : x = v
    · rw [if_pos hs, if_pos hs.symm]; rfl
    · rw [if_neg hs, if_neg (Ne.symm hs), zeroIf_false hs]; simp

end Undirected
end Pytimize
