/-
Undirected graph objects in memory. `_graph` maps a vertex to a Python `set`, which is a mutable object:
`copy` (`_undirected.py:535-551`) copies the three dictionaries but not the sets, so two graph objects can
refer to the same set. The heap maps references to sets; the dictionaries `_edges` and `_vertices` hold
immutable values and stay plain values.
-/
import Verif.Graph.UndirectedWF

namespace Pytimize
namespace Undirected

open Directed (Name chars setAdd NodeArg)

/-- The heap of adjacency sets and the next free reference. -/
structure Heap where
  sets : ℕ → List Name
  next : ℕ

/-- A graph object: `_graph` holds references. -/
structure HGraph where
  graph : Dict Name ℕ
  edges : Dict Edge ℚ
  vertices : Dict Name ℚ

/-- Overwrite one set object in place. -/
def Heap.upd (H : Heap) (r : ℕ) (s : List Name) : Heap :=
  { H with sets := fun i => if i = r then s else H.sets i }

/-- Create a set object. -/
def Heap.alloc (H : Heap) (s : List Name) : Heap × ℕ :=
  (⟨fun i => if i = H.next then s else H.sets i, H.next + 1⟩, H.next)

/-- The graph value seen through an object. -/
def view (H : Heap) (G : HGraph) : Ugraph :=
  ⟨G.graph.map fun p => (p.1, H.sets p.2), G.edges, G.vertices⟩

/-- `self._graph.setdefault(u, set()).add(v)`. -/
def hlink (H : Heap) (d : Dict Name ℕ) (u v : Name) : Heap × Dict Name ℕ :=
  match d.get? u with
  | some r => (H.upd r (setAdd (H.sets r) v), d)
  | none => ((H.alloc [v]).1, d.set u (H.alloc [v]).2)

/-- `add_edge`, `_undirected.py:105-136`. -/
def haddEdge (H : Heap) (G : HGraph) (edge : Edge) (w : ℚ) : Heap × HGraph × Option PyErr :=
  if w < 0 then (H, G, some .valueError)
  else if edge.1 = edge.2 then (H, G, some .valueError)
  else if edge.1 = [] ∨ edge.2 = [] then (H, G, some .valueError)
  else
    let e := norm edge
    if G.edges.has (norm e) then (H, G, some .valueError)
    else
      let r1 := hlink H G.graph e.1 e.2
      let r2 := hlink r1.1 r1.2 e.2 e.1
      (r2.1, { graph := r2.2
               edges := G.edges.setDefault e w
               vertices := (G.vertices.setDefault e.1 0).setDefault e.2 0 }, none)

/-- `self._graph[u].remove(v)`. -/
def hunlink (H : Heap) (d : Dict Name ℕ) (u v : Name) : Except PyErr Heap :=
  match d.get? u with
  | none => .error .keyError
  | some r => if v ∈ H.sets r then .ok (H.upd r ((H.sets r).erase v)) else .error .keyError

/-- `remove_edge`, `_undirected.py:138-143`. -/
def hremoveEdge (H : Heap) (G : HGraph) (edge : Edge) : Heap × HGraph × Option PyErr :=
  if G.edges.has (norm edge) then
    match hunlink H G.graph edge.1 edge.2 with
    | .error e => (H, G, some e)
    | .ok H1 =>
      match hunlink H1 G.graph edge.2 edge.1 with
      | .error e => (H1, G, some e)
      | .ok H2 => (H2, G, none)
  else (H, G, some .valueError)

/-- `add_vertex`, `_undirected.py:162-182`. -/
def haddVertex (H : Heap) (G : HGraph) (v : Name) (w : ℚ) : Heap × HGraph × Option PyErr :=
  if w < 0 then (H, G, some .valueError)
  else if G.vertices.has v then (H, G, some .valueError)
  else if G.graph.has v then (H, { G with vertices := G.vertices.setDefault v w }, none)
  else ((H.alloc []).1,
    { G with graph := G.graph.set v (H.alloc []).2, vertices := G.vertices.setDefault v w }, none)

/-- One API call on an object. -/
def hstep (H : Heap) (G : HGraph) : Op → Heap × HGraph × Option PyErr
  | .addEdge e w => haddEdge H G e w
  | .removeEdge e => hremoveEdge H G e
  | .addVertex v w => haddVertex H G v w
  | .setEdgeWeight e w =>
    if G.edges.has (norm e) then (H, { G with edges := G.edges.set (norm e) w }, none)
    else (H, G, some .valueError)
  | .setVertexWeight v w =>
    if G.vertices.has v then (H, { G with vertices := G.vertices.set v w }, none)
    else (H, G, some .valueError)

/-- `copy`, `_undirected.py:535-551`: the dictionaries are copied (`:722, :736, :750`), the sets are
not. -/
def hcopy (G : HGraph) : HGraph := ⟨G.graph, G.edges, G.vertices⟩

/-- The accessor `graph`, `_undirected.py:724-736`: the dictionary is copied, the sets are not. (`edges` and
`vertices`, `_undirected.py:711-722, 738-750`, copy dictionaries of immutable values.) -/
def hgraph (G : HGraph) : Dict Name ℕ := G.graph

/-- Two objects on one heap; a call on the first (`true`) or the second. -/
def wstep (W : Heap × HGraph × HGraph) (o : Bool × Op) : Heap × HGraph × HGraph :=
  if o.1 then
    let r := hstep W.1 W.2.1 o.2
    (r.1, r.2.1, W.2.2)
  else
    let r := hstep W.1 W.2.2 o.2
    (r.1, W.2.1, r.2.1)

/-- A history of calls on the two objects. -/
def wrun (W : Heap × HGraph × HGraph) (os : List (Bool × Op)) : Heap × HGraph × HGraph :=
  os.foldl wstep W

/-! ### An object that shares nothing behaves like the value model -/

/-- The object's references are allocated and pairwise different. -/
structure Own (H : Heap) (G : HGraph) : Prop where
  lt : ∀ p ∈ G.graph, p.2 < H.next
  inj : (G.graph.map Prod.snd).Nodup
  wf : G.graph.WF

/-- Dereferencing a dictionary of references. -/
def deref (H : Heap) (d : Dict Name ℕ) : Dict Name (List Name) := d.map fun p => (p.1, H.sets p.2)

theorem deref_get? (H : Heap) (d : Dict Name ℕ) (u : Name) :
    (deref H d).get? u = (d.get? u).map H.sets := by
  induction d with
  | nil => rfl
  | cons p d ih =>
    obtain ⟨a, r⟩ := p
    simp only [deref, List.map_cons, Dict.get?] at ih ⊢
    split
    · rfl
    · exact ih

theorem deref_keys (H : Heap) (d : Dict Name ℕ) : (deref H d).keys = d.keys := by
  simp [deref, Dict.keys]

theorem deref_congr {H H' : Heap} {d : Dict Name ℕ} (h : ∀ p ∈ d, H.sets p.2 = H'.sets p.2) :
    deref H d = deref H' d := by
  unfold deref
  apply List.map_congr_left
  intro p hp
  rw [h p hp]

theorem deref_upd {H : Heap} {d : Dict Name ℕ} {u : Name} {r : ℕ} (hu : d.get? u = some r)
    (hinj : (d.map Prod.snd).Nodup) (s : List Name) :
    deref (H.upd r s) d = (deref H d).set u s := by
  induction d with
  | nil => simp [Dict.get?] at hu
  | cons p d ih =>
    obtain ⟨a, q⟩ := p
    simp only [List.map_cons, List.nodup_cons] at hinj
    simp only [Dict.get?] at hu
    simp only [deref, List.map_cons, Dict.set] at ih ⊢
    split at hu
    · rename_i ha
      simp only [Option.some.injEq] at hu
      subst hu
      rw [if_pos ha]
      have : List.map (fun p => (p.1, (H.upd q s).sets p.2)) d = List.map (fun p => (p.1, H.sets p.2)) d := by
        apply List.map_congr_left
        intro x hx
        have : x.2 ≠ q := by
          rintro rfl
          exact hinj.1 (List.mem_map_of_mem (f := Prod.snd) hx)
        simp [Heap.upd, this]
      rw [this]
      simp [Heap.upd]
    · rename_i ha
      rw [if_neg ha, ih hu hinj.2]
      have : q ≠ r := by
        rintro rfl
        exact hinj.1 (List.mem_map_of_mem (f := Prod.snd) (Dict.mem_of_get? hu))
      simp [Heap.upd, this]

theorem set_new {V : Type} {d : Dict Name V} {u : Name} (hu : d.get? u = none) (v : V) :
    d.set u v = d ++ [(u, v)] := by
  induction d with
  | nil => rfl
  | cons p d ih =>
    obtain ⟨a, q⟩ := p
    simp only [Dict.get?] at hu
    split at hu
    · cases hu
    · rename_i ha
      simp [Dict.set, ha, ih hu]

theorem deref_alloc {H : Heap} {d : Dict Name ℕ} {u : Name} (hu : d.get? u = none)
    (hlt : ∀ p ∈ d, p.2 < H.next) (s : List Name) :
    deref (H.alloc s).1 (d.set u (H.alloc s).2) = (deref H d).set u s := by
  have hu' : (deref H d).get? u = none := by rw [deref_get?, hu]; rfl
  rw [set_new hu, set_new hu']
  simp only [deref, List.map_append, List.map_cons, List.map_nil]
  congr 1
  · apply List.map_congr_left
    intro p hp
    have := hlt p hp
    have : p.2 ≠ H.next := by omega
    simp [Heap.alloc, this]
  · simp [Heap.alloc]

/-- References of a dictionary after `hlink`. -/
theorem hlink_own {H : Heap} {d : Dict Name ℕ} (hlt : ∀ p ∈ d, p.2 < H.next)
    (hinj : (d.map Prod.snd).Nodup) (hwf : d.WF) (u v : Name) :
    (∀ p ∈ (hlink H d u v).2, p.2 < (hlink H d u v).1.next) ∧
    ((hlink H d u v).2.map Prod.snd).Nodup ∧ (hlink H d u v).2.WF ∧
    deref (hlink H d u v).1 (hlink H d u v).2 = link (deref H d) u v := by
  unfold hlink link
  cases hg : d.get? u with
  | some r =>
    refine ⟨hlt, hinj, hwf, ?_⟩
    simp only
    rw [deref_upd hg hinj, deref_get?, hg]
    rfl
  | none =>
    have hd : (deref H d).get? u = none := by rw [deref_get?, hg]; rfl
    refine ⟨?_, ?_, Dict.WF_set hwf _ _, ?_⟩
    · intro p hp
      simp only at hp
      rw [set_new hg] at hp
      simp only [List.mem_append, List.mem_singleton] at hp
      rcases hp with hp | rfl
      · have := hlt p hp; simp [Heap.alloc]; omega
      · simp [Heap.alloc]
    · simp only
      rw [set_new hg, List.map_append, List.nodup_append]
      refine ⟨hinj, by simp, ?_⟩
      intro a ha b hb
      simp only [List.map_cons, List.map_nil, List.mem_singleton, Heap.alloc] at hb
      obtain ⟨p, hp, rfl⟩ := List.mem_map.mp ha
      have := hlt p hp
      omega
    · simp only
      rw [deref_alloc hg hlt, hd]
      simp [setAdd]

theorem hunlink_own {H : Heap} {d : Dict Name ℕ} (hinj : (d.map Prod.snd).Nodup) (u v : Name) :
    (hunlink H d u v).map (fun H' => deref H' d) = unlink (deref H d) u v ∧
    ∀ H', hunlink H d u v = .ok H' → H'.next = H.next := by
  unfold hunlink unlink
  rw [deref_get?]
  cases hg : d.get? u with
  | none => exact ⟨rfl, by simp⟩
  | some r =>
    simp only [Option.map_some]
    split
    · refine ⟨?_, ?_⟩
      · simp only [Except.map, deref_upd hg hinj]
      · intro H' h; cases h; rfl
    · exact ⟨rfl, by simp⟩

/-- On an object that shares nothing, a call does to the heap what the value model says. -/
theorem hstep_refines {H : Heap} {G : HGraph} (h : Own H G) (o : Op) :
    (view (hstep H G o).1 (hstep H G o).2.1, (hstep H G o).2.2) = step (view H G) o ∧
    Own (hstep H G o).1 (hstep H G o).2.1 := by
  have hgr : (view H G).graph = deref H G.graph := rfl
  cases o with
  | addEdge e w =>
    simp only [hstep, step, haddEdge, addEdge]
    split
    · exact ⟨rfl, h⟩
    split
    · exact ⟨rfl, h⟩
    split
    · exact ⟨rfl, h⟩
    by_cases hc : G.edges.has (norm (norm e)) = true
    · have hc' : hasEdge (view H G) (norm e) = true := hc
      rw [if_pos hc', if_pos hc]
      exact ⟨rfl, h⟩
    · have hc' : ¬ hasEdge (view H G) (norm e) = true := hc
      rw [if_neg hc', if_neg hc]
      obtain ⟨a1, a2, a3, a4⟩ := hlink_own h.lt h.inj h.wf (norm e).1 (norm e).2
      obtain ⟨b1, b2, b3, b4⟩ := hlink_own a1 a2 a3 (norm e).2 (norm e).1
      rw [a4] at b4
      refine ⟨?_, b1, b2, b3⟩
      rw [hgr, ← b4]
      rfl
  | removeEdge e =>
    simp only [hstep, step, hremoveEdge, removeEdge]
    by_cases hc : G.edges.has (norm e) = true
    · have hc' : hasEdge (view H G) e = true := hc
      rw [if_pos hc', if_pos hc]
      obtain ⟨a1, a2⟩ := hunlink_own (H := H) h.inj e.1 e.2
      rw [hgr, ← a1]
      cases h1 : hunlink H G.graph e.1 e.2 with
      | error x => exact ⟨rfl, h⟩
      | ok H1 =>
        have hn1 := a2 H1 h1
        have own1 : Own H1 G := ⟨fun p hp => by rw [hn1]; exact h.lt p hp, h.inj, h.wf⟩
        obtain ⟨b1, b2⟩ := hunlink_own (H := H1) h.inj e.2 e.1
        simp only [Except.map]
        rw [← b1]
        cases h2 : hunlink H1 G.graph e.2 e.1 with
        | error x => exact ⟨rfl, own1⟩
        | ok H2 =>
          have hn2 := b2 H2 h2
          exact ⟨rfl, ⟨fun p hp => by simp only at hp ⊢; rw [hn2]; exact own1.lt p hp, h.inj, h.wf⟩⟩
    · have hc' : ¬ hasEdge (view H G) e = true := hc
      rw [if_neg hc', if_neg hc]
      exact ⟨rfl, h⟩
  | addVertex v w =>
    simp only [hstep, step, haddVertex, addVertex]
    split
    · exact ⟨rfl, h⟩
    by_cases hc : G.vertices.has v = true
    · have hc' : hasVertex (view H G) v = true := hc
      rw [if_pos hc', if_pos hc]
      exact ⟨rfl, h⟩
    · have hc' : ¬ hasVertex (view H G) v = true := hc
      rw [if_neg hc', if_neg hc]
      have hh : (deref H G.graph).has v = G.graph.has v := by
        unfold Dict.has; rw [deref_get?]; cases G.graph.get? v <;> rfl
      split
      · rename_i hs
        refine ⟨?_, h.lt, h.inj, h.wf⟩
        have : (deref H G.graph).setDefault v [] = deref H G.graph := by
          unfold Dict.setDefault; rw [hh, if_pos hs]
        rw [hgr, this]
        rfl
      · rename_i hs
        have hg : G.graph.get? v = none := Dict.get?_eq_none_iff.mpr fun hm => hs (Dict.has_iff.mpr hm)
        refine ⟨?_, ?_, ?_, Dict.WF_set h.wf _ _⟩
        · have h1 : (deref H G.graph).setDefault v [] = (deref H G.graph).set v [] := by
            unfold Dict.setDefault; rw [hh, if_neg hs]
          rw [hgr, h1, ← deref_alloc hg h.lt []]
          rfl
        · intro p hp
          simp only at hp ⊢
          rw [set_new hg] at hp
          simp only [List.mem_append, List.mem_singleton] at hp
          rcases hp with hp | rfl
          · have := h.lt p hp; simp [Heap.alloc]; omega
          · simp [Heap.alloc]
        · simp only
          rw [set_new hg, List.map_append, List.nodup_append]
          refine ⟨h.inj, by simp, ?_⟩
          intro a ha b hb
          simp only [List.map_cons, List.map_nil, List.mem_singleton, Heap.alloc] at hb
          obtain ⟨p, hp, rfl⟩ := List.mem_map.mp ha
          have := h.lt p hp
          omega
  | setEdgeWeight e w =>
    simp only [hstep, step, setEdgeWeight]
    by_cases hc : G.edges.has (norm e) = true
    · have hc' : hasEdge (view H G) e = true := hc
      rw [if_pos hc', if_pos hc]
      exact ⟨rfl, h.lt, h.inj, h.wf⟩
    · have hc' : ¬ hasEdge (view H G) e = true := hc
      rw [if_neg hc', if_neg hc]
      exact ⟨rfl, h⟩
  | setVertexWeight v w =>
    simp only [hstep, step, setVertexWeight]
    by_cases hc : G.vertices.has v = true
    · have hc' : hasVertex (view H G) v = true := hc
      rw [if_pos hc', if_pos hc]
      exact ⟨rfl, h.lt, h.inj, h.wf⟩
    · have hc' : ¬ hasVertex (view H G) v = true := hc
      rw [if_neg hc', if_neg hc]
      exact ⟨rfl, h⟩

/-! ### What a call on one object does to another object on the same heap -/

/-- The vertices whose adjacency set a call may change in place. -/
def Op.touches : Op → List Name
  | .addEdge e _ => [e.1, e.2]
  | .removeEdge e => [e.1, e.2]
  | _ => []

theorem norm_mem (e : Edge) : ∀ x, x = (norm e).1 ∨ x = (norm e).2 ↔ x = e.1 ∨ x = e.2 := by
  intro x
  obtain ⟨a, b⟩ := e
  rcases norm_cases a b with h | h <;> rw [h]
  exact or_comm

theorem hlink_frame {H : Heap} {d : Dict Name ℕ} {u v : Name} {r : ℕ} (hr : r < H.next)
    (hno : d.get? u ≠ some r) :
    (hlink H d u v).1.sets r = H.sets r ∧ H.next ≤ (hlink H d u v).1.next ∧
    (∀ x, x ≠ u → (hlink H d u v).2.get? x = d.get? x) ∧
    (hlink H d u v).2.get? u ≠ some r := by
  unfold hlink
  cases hg : d.get? u with
  | some q =>
    have : r ≠ q := by rintro rfl; exact hno hg
    exact ⟨by simp [Heap.upd, this], le_rfl, fun _ _ => rfl, by rw [hg]; simpa using Ne.symm this⟩
  | none =>
    have : r ≠ H.next := by omega
    refine ⟨by simp [Heap.alloc, this], by simp [Heap.alloc], ?_, ?_⟩
    · intro x hx; simp [Ne.symm hx]
    · simp [Heap.alloc, Ne.symm this]

/-- A call changes no allocated set other than those of the vertices it names. -/
theorem hstep_frame {H : Heap} {G : HGraph} (o : Op) {r : ℕ} (hr : r < H.next)
    (hno : ∀ u ∈ o.touches, G.graph.get? u ≠ some r) :
    (hstep H G o).1.sets r = H.sets r ∧ H.next ≤ (hstep H G o).1.next := by
  cases o with
  | addEdge e w =>
    simp only [hstep, haddEdge]
    split
    · exact ⟨rfl, le_rfl⟩
    split
    · exact ⟨rfl, le_rfl⟩
    split
    · exact ⟨rfl, le_rfl⟩
    split
    · exact ⟨rfl, le_rfl⟩
    · have ht : ∀ x, x = (norm e).1 ∨ x = (norm e).2 → G.graph.get? x ≠ some r := by
        intro x hx
        exact hno x (by simpa [Op.touches] using (norm_mem e x).mp hx)
      have a := hlink_frame (v := (norm e).2) hr (ht _ (Or.inl rfl))
      have hne : (norm e).2 ≠ (norm e).1 := by
        rename_i h1 h2 h3 h4
        exact (norm_lt (a := e.1) (b := e.2) h2).ne'
      have b := hlink_frame (H := (hlink H G.graph (norm e).1 (norm e).2).1)
        (d := (hlink H G.graph (norm e).1 (norm e).2).2) (u := (norm e).2) (v := (norm e).1) (r := r)
        (by omega) (by rw [a.2.2.1 _ hne]; exact ht _ (Or.inr rfl))
      simp only
      exact ⟨b.1.trans a.1, a.2.1.trans b.2.1⟩
  | removeEdge e =>
    have hun : ∀ (H : Heap) (u v : Name) (H' : Heap), G.graph.get? u ≠ some r →
        hunlink H G.graph u v = .ok H' → H'.sets r = H.sets r ∧ H'.next = H.next := by
      intro H u v H' hu hok
      unfold hunlink at hok
      cases hg : G.graph.get? u with
      | none => rw [hg] at hok; cases hok
      | some q =>
        rw [hg] at hok hu
        simp only at hok
        split at hok
        · cases hok
          have : r ≠ q := fun hc => hu (by rw [hc])
          exact ⟨by simp [Heap.upd, this], rfl⟩
        · cases hok
    simp only [hstep, hremoveEdge]
    split
    · cases h1 : hunlink H G.graph e.1 e.2 with
      | error x => exact ⟨rfl, le_rfl⟩
      | ok H1 =>
        have a := hun H e.1 e.2 H1 (hno _ (by simp [Op.touches])) h1
        simp only
        cases h2 : hunlink H1 G.graph e.2 e.1 with
        | error x => exact ⟨a.1, le_of_eq a.2.symm⟩
        | ok H2 =>
          have b := hun H1 e.2 e.1 H2 (hno _ (by simp [Op.touches])) h2
          exact ⟨b.1.trans a.1, le_of_eq (b.2.trans a.2).symm⟩
    · exact ⟨rfl, le_rfl⟩
  | addVertex v w =>
    simp only [hstep, haddVertex]
    split
    · exact ⟨rfl, le_rfl⟩
    split
    · exact ⟨rfl, le_rfl⟩
    split
    · exact ⟨rfl, le_rfl⟩
    · have : r ≠ H.next := by omega
      exact ⟨by simp [Heap.alloc, this], by simp [Heap.alloc]⟩
  | setEdgeWeight e w => simp only [hstep]; split <;> exact ⟨rfl, le_rfl⟩
  | setVertexWeight v w => simp only [hstep]; split <;> exact ⟨rfl, le_rfl⟩

theorem hlink_new (H : Heap) (d : Dict Name ℕ) (u v : Name) :
    (∀ p ∈ (hlink H d u v).2, p ∈ d ∨ H.next ≤ p.2) ∧ H.next ≤ (hlink H d u v).1.next := by
  unfold hlink
  cases hg : d.get? u with
  | some r => exact ⟨fun p hp => Or.inl hp, le_rfl⟩
  | none =>
    refine ⟨fun p hp => ?_, by simp [Heap.alloc]⟩
    simp only at hp
    rw [set_new hg] at hp
    simp only [List.mem_append, List.mem_singleton] at hp
    rcases hp with hp | rfl
    · exact Or.inl hp
    · exact Or.inr (by simp [Heap.alloc])

/-- The references an object holds after a call are old ones or freshly allocated ones. -/
theorem hstep_new (H : Heap) (G : HGraph) (o : Op) :
    ∀ p ∈ (hstep H G o).2.1.graph, p ∈ G.graph ∨ H.next ≤ p.2 := by
  intro p hp
  cases o with
  | addEdge e w =>
    simp only [hstep, haddEdge] at hp
    split at hp
    · exact Or.inl hp
    split at hp
    · exact Or.inl hp
    split at hp
    · exact Or.inl hp
    split at hp
    · exact Or.inl hp
    · have a := hlink_new H G.graph (norm e).1 (norm e).2
      have b := hlink_new (hlink H G.graph (norm e).1 (norm e).2).1 (hlink H G.graph (norm e).1 (norm e).2).2
        (norm e).2 (norm e).1
      rcases b.1 p hp with h | h
      · exact a.1 p h
      · exact Or.inr (a.2.trans h)
  | removeEdge e =>
    simp only [hstep, hremoveEdge] at hp
    split at hp
    · split at hp
      · exact Or.inl hp
      · split at hp <;> exact Or.inl hp
    · exact Or.inl hp
  | addVertex v w =>
    simp only [hstep, haddVertex] at hp
    split at hp
    · exact Or.inl hp
    split at hp
    · exact Or.inl hp
    split at hp
    · exact Or.inl hp
    · rename_i hno
      have hg : G.graph.get? v = none := by
        cases hx : G.graph.get? v with
        | none => rfl
        | some r => exact absurd (by simp [Dict.has, hx]) hno
      simp only at hp
      rw [set_new hg] at hp
      simp only [List.mem_append, List.mem_singleton] at hp
      rcases hp with hp | rfl
      · exact Or.inl hp
      · exact Or.inr (by simp [Heap.alloc])
  | setEdgeWeight e w => simp only [hstep] at hp; split at hp <;> exact Or.inl hp
  | setVertexWeight v w => simp only [hstep] at hp; split at hp <;> exact Or.inl hp

/-- Two objects that share sets only under the keys `K`. -/
structure Apart (K : List Name) (H : Heap) (A B : HGraph) : Prop where
  ownA : Own H A
  ownB : Own H B
  keyA : ∀ p ∈ A.graph, p.2 ∈ B.graph.map Prod.snd → p.1 ∈ K
  keyB : ∀ p ∈ B.graph, p.2 ∈ A.graph.map Prod.snd → p.1 ∈ K

theorem Apart.symm {K : List Name} {H : Heap} {A B : HGraph} (h : Apart K H A B) : Apart K H B A :=
  ⟨h.ownB, h.ownA, h.keyB, h.keyA⟩

/-- A call on `A` that names no vertex in `K`: `A` follows the value model and `B` does not change. -/
theorem apart_step {K : List Name} {H : Heap} {A B : HGraph} (h : Apart K H A B) (o : Op)
    (ho : ∀ u ∈ o.touches, u ∉ K) :
    Apart K (hstep H A o).1 (hstep H A o).2.1 B ∧
    view (hstep H A o).1 (hstep H A o).2.1 = (step (view H A) o).1 ∧
    view (hstep H A o).1 B = view H B := by
  have hr := hstep_refines h.ownA o
  have hnew := hstep_new H A o
  have hframe : ∀ p ∈ B.graph, (hstep H A o).1.sets p.2 = H.sets p.2 ∧ H.next ≤ (hstep H A o).1.next := by
    intro p hp
    apply hstep_frame o (h.ownB.lt p hp)
    intro u hu hc
    exact ho u hu (h.keyA (u, p.2) (Dict.mem_of_get? hc) (List.mem_map.mpr ⟨p, hp, rfl⟩))
  have hold : ∀ p ∈ (hstep H A o).2.1.graph, p.2 ∈ B.graph.map Prod.snd → p ∈ A.graph := by
    intro p hp hb
    obtain ⟨q, hq, hqe⟩ := List.mem_map.mp hb
    rcases hnew p hp with h1 | h1
    · exact h1
    · have := h.ownB.lt q hq
      omega
  refine ⟨⟨hr.2, ⟨fun p hp => ?_, h.ownB.inj, h.ownB.wf⟩, ?_, ?_⟩, ?_, ?_⟩
  · exact lt_of_lt_of_le (h.ownB.lt p hp) (hframe p hp).2
  · intro p hp hb
    exact h.keyA p (hold p hp hb) hb
  · intro p hp ha
    obtain ⟨q, hq, hqe⟩ := List.mem_map.mp ha
    have := hold q hq (by rw [hqe]; exact List.mem_map_of_mem hp)
    exact h.keyB p hp (by rw [← hqe]; exact List.mem_map_of_mem this)
  · have := congrArg Prod.fst hr.1
    exact this
  · unfold view
    congr 1
    apply List.map_congr_left
    intro p hp
    rw [(hframe p hp).1]

/-- The calls of a history made on one of the two objects. -/
def ownOps (which : Bool) (os : List (Bool × Op)) : List Op :=
  (os.filter fun o => o.1 == which).map Prod.snd

theorem apart_run {K : List Name} (os : List (Bool × Op)) (ho : ∀ o ∈ os, ∀ u ∈ o.2.touches, u ∉ K) :
    ∀ {W : Heap × HGraph × HGraph}, Apart K W.1 W.2.1 W.2.2 →
    view (wrun W os).1 (wrun W os).2.1 = run (view W.1 W.2.1) (ownOps true os) ∧
    view (wrun W os).1 (wrun W os).2.2 = run (view W.1 W.2.2) (ownOps false os) := by
  induction os with
  | nil => intro W _; exact ⟨rfl, rfl⟩
  | cons o os ih =>
    intro W hW
    obtain ⟨b, o⟩ := o
    have hto := ho (b, o) List.mem_cons_self
    have hrec := fun {W} hW => ih (fun o ho' => ho o (List.mem_cons_of_mem _ ho')) (W := W) hW
    cases b with
    | true =>
      have hs := apart_step hW o hto
      have := hrec (W := wstep W (true, o)) hs.1
      have h1 : view (wstep W (true, o)).1 (wstep W (true, o)).2.1 = (step (view W.1 W.2.1) o).1 := hs.2.1
      have h2 : view (wstep W (true, o)).1 (wstep W (true, o)).2.2 = view W.1 W.2.2 := hs.2.2
      rw [h1, h2] at this
      exact this
    | false =>
      have hs := apart_step hW.symm o hto
      have := hrec (W := wstep W (false, o)) hs.1.symm
      have h1 : view (wstep W (false, o)).1 (wstep W (false, o)).2.2 = (step (view W.1 W.2.2) o).1 := hs.2.1
      have h2 : view (wstep W (false, o)).1 (wstep W (false, o)).2.1 = view W.1 W.2.1 := hs.2.2
      rw [h1, h2] at this
      exact this

/-! ### Edges and vertices are never shared -/

/-- What a call does to `_edges` and `_vertices`. -/
def attrStep (s : Dict Edge ℚ × Dict Name ℚ) : Op → Dict Edge ℚ × Dict Name ℚ
  | .addEdge e w =>
    if w < 0 then s else if e.1 = e.2 then s else if e.1 = [] ∨ e.2 = [] then s
    else if s.1.has (norm (norm e)) then s
    else (s.1.setDefault (norm e) w, (s.2.setDefault (norm e).1 0).setDefault (norm e).2 0)
  | .removeEdge _ => s
  | .addVertex v w => if w < 0 then s else if s.2.has v then s else (s.1, s.2.setDefault v w)
  | .setEdgeWeight e w => if s.1.has (norm e) then (s.1.set (norm e) w, s.2) else s
  | .setVertexWeight v w => if s.2.has v then (s.1, s.2.set v w) else s

theorem attr_hstep (H : Heap) (G : HGraph) (o : Op) :
    ((hstep H G o).2.1.edges, (hstep H G o).2.1.vertices) = attrStep (G.edges, G.vertices) o := by
  cases o with
  | addEdge e w => simp only [hstep, haddEdge, attrStep]; repeat' split <;> try rfl
  | removeEdge e => simp only [hstep, hremoveEdge, attrStep]; repeat' split <;> try rfl
  | addVertex v w => simp only [hstep, haddVertex, attrStep]; repeat' split <;> try rfl
  | setEdgeWeight e w => simp only [hstep, attrStep]; split <;> rfl
  | setVertexWeight v w => simp only [hstep, attrStep]; split <;> rfl

theorem attr_step (g : Ugraph) (o : Op) :
    ((step g o).1.edges, (step g o).1.vertices) = attrStep (g.edges, g.vertices) o := by
  cases o with
  | addEdge e w =>
    simp only [step, addEdge, attrStep]
    by_cases h1 : w < 0
    · simp [h1]
    by_cases h2 : e.1 = e.2
    · simp [h2]
    by_cases h3 : e.1 = [] ∨ e.2 = []
    · simp [h1, h2, h3]
    by_cases h4 : g.edges.has (norm (norm e)) = true
    · simp [h1, h2, h3, h4, hasEdge]
    · simp [h1, h2, h3, h4, hasEdge]
  | removeEdge e => simp only [step, removeEdge, attrStep]; repeat' split <;> try rfl
  | addVertex v w =>
    simp only [step, addVertex, attrStep]
    by_cases h1 : w < 0
    · simp [h1]
    by_cases h4 : g.vertices.has v = true
    · simp [h1, h4, hasVertex]
    · simp [h1, h4, hasVertex]
  | setEdgeWeight e w =>
    simp only [step, setEdgeWeight, attrStep]
    by_cases h4 : g.edges.has (norm e) = true <;> simp [h4, hasEdge]
  | setVertexWeight v w =>
    simp only [step, setVertexWeight, attrStep]
    by_cases h4 : g.vertices.has v = true <;> simp [h4, hasVertex]

theorem attr_wrun (os : List (Bool × Op)) : ∀ (W : Heap × HGraph × HGraph) (a b : Ugraph),
    (W.2.1.edges, W.2.1.vertices) = (a.edges, a.vertices) →
    (W.2.2.edges, W.2.2.vertices) = (b.edges, b.vertices) →
    ((wrun W os).2.1.edges, (wrun W os).2.1.vertices) =
      ((run a (ownOps true os)).edges, (run a (ownOps true os)).vertices) ∧
    ((wrun W os).2.2.edges, (wrun W os).2.2.vertices) =
      ((run b (ownOps false os)).edges, (run b (ownOps false os)).vertices) := by
  induction os with
  | nil => intro W a b ha hb; exact ⟨ha, hb⟩
  | cons o os ih =>
    intro W a b ha hb
    obtain ⟨w, o⟩ := o
    cases w with
    | true =>
      refine ih (wstep W (true, o)) (step a o).1 b ?_ hb
      rw [attr_step, ← ha, ← attr_hstep W.1 W.2.1 o]
      rfl
    | false =>
      refine ih (wstep W (false, o)) a (step b o).1 ha ?_
      rw [attr_step, ← hb, ← attr_hstep W.1 W.2.2 o]
      rfl

end Undirected
end Pytimize
