/-
The traversals of the undirected graph against Mathlib's `SimpleGraph`: breadth-first search,
`is_tree` and `is_cyclic`.
-/
import Verif.Graph.UndirectedWF
import Mathlib.Combinatorics.SimpleGraph.Acyclic
import Mathlib.Combinatorics.SimpleGraph.Metric
import Mathlib.Tactic.Linarith

namespace Pytimize
namespace Undirected

open Directed (Name chars setAdd NodeArg)

/-- Specification: the graph the user sees through `has_edge`. -/
def simple (g : Ugraph) : SimpleGraph Name where
  Adj a b := a ≠ b ∧ hasEdge g (a, b) = true
  symm := ⟨fun a b h => ⟨h.1.symm, by rw [hasEdge, norm_swap]; exact h.2⟩⟩
  loopless := ⟨fun a h => h.1 rfl⟩

theorem simple_adj {g : Ugraph} (h : UWF g) {a b : Name} : (simple g).Adj a b ↔ Adj g a b := by
  constructor
  · exact fun hab => h.sup a b (hasEdge_iff.mp hab.2)
  · intro hab
    refine ⟨?_, hasEdge_iff.mpr (h.sub a b hab)⟩
    rintro rfl
    exact h.irrefl a hab

theorem adj_of_get? {g : Ugraph} {a b : Name} {l : List Name} (hl : g.graph.get? a = some l) :
    Adj g a b ↔ b ∈ l := by
  unfold Adj
  rw [hl]
  simp

theorem simple_adj_get? {g : Ugraph} (h : UWF g) {a b : Name} {l : List Name}
    (hl : g.graph.get? a = some l) : (simple g).Adj a b ↔ b ∈ l := by
  rw [simple_adj h, adj_of_get? hl]

theorem vertex_of_reachable {g : Ugraph} (h : UWF g) {s v : Name} (hs : s ∈ g.vertices.keys)
    (hr : (simple g).Reachable s v) : v ∈ g.vertices.keys := by
  obtain ⟨p⟩ := hr
  induction p with
  | nil => exact hs
  | cons hadj p ih => exact ih (h.toWeak.adj_vertex ((simple_adj h).mp hadj)).2

theorem exists_row {g : Ugraph} (h : Weak g) {v : Name} (hv : v ∈ g.vertices.keys) :
    ∃ l, g.graph.get? v = some l := Dict.exists_get?_of_mem ((h.dom v).mp hv)

/-! ### Breadth-first search -/

/-- Adjacency entries of unvisited rows. -/
def left (d : Dict Name (List Name)) (visited : List Name) : ℕ :=
  ((d.filter fun p => decide (p.1 ∉ visited)).map fun p => p.2.length).sum

theorem left_visit {d : Dict Name (List Name)} (hd : d.WF) {cur : Name} {l : List Name}
    (hl : d.get? cur = some l) {visited : List Name} (hc : cur ∉ visited) :
    left d (cur :: visited) + l.length = left d visited := by
  induction d with
  | nil => simp [Dict.get?] at hl
  | cons p d ih =>
    obtain ⟨a, r⟩ := p
    have hd' : a ∉ Dict.keys d ∧ Dict.WF d := by
      simpa [Dict.WF, Dict.keys] using hd
    simp only [Dict.get?] at hl
    unfold left at ih ⊢
    split at hl
    · rename_i ha
      subst ha
      cases hl
      have : (d.filter fun p => decide (p.1 ∉ a :: visited)) = d.filter fun p => decide (p.1 ∉ visited) := by
        apply List.filter_congr
        intro q hq
        have : q.1 ≠ a := by
          rintro rfl
          exact hd'.1 (List.mem_map_of_mem (f := Prod.fst) hq)
        simp [this]
      simp only [List.filter_cons, this]
      simp [hc]
      omega
    · rename_i ha
      have := ih hd'.2 hl
      simp only [List.filter_cons]
      by_cases hv : a ∈ visited
      · simpa [hv] using this
      · simp only [List.mem_cons, hv, ha, or_self, not_false_eq_true, decide_true, if_true, List.map_cons,
          List.sum_cons] at this ⊢
        omega

/-- The invariant of the search: `Q` is the queue with the level of each entry. -/
structure BfsInv (g : Ugraph) (s : Name) (Q : List (Name × ℕ)) (visited : List Name) : Prop where
  sorted : Q.Pairwise fun p q => p.2 ≤ q.2
  band : ∀ p ∈ Q, ∀ q ∈ Q, q.2 ≤ p.2 + 1
  walks : ∀ p ∈ Q, ∃ w : (simple g).Walk s p.1, w.length = p.2
  reach : ∀ u ∈ visited, (simple g).Reachable s u
  next : ∀ u ∈ visited, ∀ v, (simple g).Adj u v → v ∈ visited ∨ (v, (simple g).dist s u + 1) ∈ Q
  start : s ∈ visited ∨ (s, 0) ∈ Q

theorem BfsInv.low {g : Ugraph} {s : Name} {Q : List (Name × ℕ)} {visited : List Name}
    (h : BfsInv g s Q visited) (n : ℕ) : ∀ v (p : (simple g).Walk s v), p.length = n → v ∉ visited →
      ∃ q ∈ Q, q.2 ≤ n := by
  induction n with
  | zero =>
    intro v p hp hv
    have : s = v := SimpleGraph.Walk.eq_of_length_eq_zero hp
    subst this
    exact ⟨_, h.start.resolve_left hv, le_rfl⟩
  | succ n ih =>
    intro v p hp hv
    obtain ⟨u, hadj, q, hq⟩ : ∃ u, ∃ _ : (simple g).Adj v u, ∃ q : (simple g).Walk u s, q.length = n := by
      have hr : p.reverse.length = n + 1 := by simpa using hp
      generalize p.reverse = r at hr
      match r with
      | .cons hadj q => exact ⟨_, hadj, q, by simpa using hr⟩
    by_cases hu : u ∈ visited
    · have := (h.next u hu v hadj.symm).resolve_left hv
      refine ⟨_, this, ?_⟩
      have hd := SimpleGraph.dist_le q.reverse
      simp only [SimpleGraph.Walk.length_reverse] at hd
      simp only; omega
    · obtain ⟨x, hx, hxn⟩ := ih u q.reverse (by simpa using hq) hu
      exact ⟨x, hx, by omega⟩

theorem bfsLoop_spec {ord : List Name → List Name} (hord : ∀ l, (ord l).Perm l) {g : Ugraph}
    (h : UWF g) {s : Name} (hs : s ∈ g.vertices.keys) :
    ∀ (k : ℕ) (Q : List (Name × ℕ)) (visited : List Name), BfsInv g s Q visited →
      Q.length + left g.graph visited < k →
      ∃ out, bfsLoop ord g k (Q.map Prod.fst) visited = .ok out ∧ out.Nodup ∧
        (∀ v ∈ out, v ∉ visited) ∧
        (∀ v, v ∈ visited ∨ v ∈ out ↔ (simple g).Reachable s v) ∧
        out.Pairwise (fun a b => (simple g).dist s a ≤ (simple g).dist s b) ∧
        (∀ m, (∀ q ∈ Q, m ≤ q.2) → ∀ v ∈ out, m ≤ (simple g).dist s v) := by
  intro k
  induction k with
  | zero => intro Q visited _ hk; omega
  | succ k ih =>
    intro Q visited hI hk
    match Q, hI, hk with
    | [], hI, _ =>
      refine ⟨[], rfl, by simp, by simp, ?_, by simp, by simp⟩
      intro v
      simp only [List.not_mem_nil, or_false]
      refine ⟨hI.reach v, fun ⟨p⟩ => ?_⟩
      by_contra hv
      obtain ⟨q, hq, _⟩ := hI.low _ v p rfl hv
      simp at hq
    | (cur, lv) :: Q, hI, hk =>
      simp only [List.map_cons, bfsLoop]
      have hsort := List.pairwise_cons.mp hI.sorted
      by_cases hc : cur ∈ visited
      · rw [if_pos hc]
        have hI' : BfsInv g s Q visited := by
          refine ⟨hsort.2, fun p hp q hq => hI.band p (by simp [hp]) q (by simp [hq]),
            fun p hp => hI.walks p (by simp [hp]), hI.reach, ?_, ?_⟩
          · intro u hu v hadj
            rcases hI.next u hu v hadj with hm | hm
            · exact Or.inl hm
            · rcases List.mem_cons.mp hm with he | hm
              · left; cases he; exact hc
              · exact Or.inr hm
          · rcases hI.start with hm | hm
            · exact Or.inl hm
            · rcases List.mem_cons.mp hm with he | hm
              · left; cases he; exact hc
              · exact Or.inr hm
        obtain ⟨out, h1, h2, h3, h4, h5, h6⟩ := ih Q visited hI' (by simp at hk; omega)
        exact ⟨out, h1, h2, h3, h4, h5, fun m hm => h6 m fun q hq => hm q (by simp [hq])⟩
      · rw [if_neg hc]
        obtain ⟨w, hw⟩ := hI.walks (cur, lv) (by simp)
        simp only at w hw
        have hreach : (simple g).Reachable s cur := ⟨w⟩
        have hdist : (simple g).dist s cur = lv := by
          apply le_antisymm
          · rw [← hw]; exact SimpleGraph.dist_le w
          · obtain ⟨p, hp⟩ := hreach.exists_walk_length_eq_dist
            obtain ⟨q, hq, hle⟩ := hI.low _ cur p rfl hc
            rw [hp] at hle
            rcases List.mem_cons.mp hq with rfl | hq
            · exact hle
            · exact (hsort.1 q hq).trans hle
        obtain ⟨l, hl⟩ := exists_row h.toWeak (vertex_of_reachable h hs hreach)
        rw [hl]
        have hmemord : ∀ v, v ∈ ord l ↔ (simple g).Adj cur v := fun v => by
          rw [(hord l).mem_iff, simple_adj_get? h hl]
        have hI' : BfsInv g s (Q ++ (ord l).map fun v => (v, lv + 1)) (cur :: visited) := by
          refine ⟨?_, ?_, ?_, ?_, ?_, ?_⟩
          · rw [List.pairwise_append]
            refine ⟨hsort.2, ?_, ?_⟩
            · rw [List.pairwise_map]
              simp [List.pairwise_iff_forall_sublist]
            · intro p hp q hq
              obtain ⟨v, _, rfl⟩ := List.mem_map.mp hq
              exact hI.band (cur, lv) (by simp) p (by simp [hp])
          · intro p hp q hq
            have hlow : lv ≤ p.2 := by
              rcases List.mem_append.mp hp with hp | hp
              · exact hsort.1 p hp
              · obtain ⟨v, _, rfl⟩ := List.mem_map.mp hp; simp
            have hhigh : q.2 ≤ lv + 1 := by
              rcases List.mem_append.mp hq with hq | hq
              · exact hI.band (cur, lv) (by simp) q (by simp [hq])
              · obtain ⟨v, _, rfl⟩ := List.mem_map.mp hq; simp
            omega
          · intro p hp
            rcases List.mem_append.mp hp with hp | hp
            · exact hI.walks p (by simp [hp])
            · obtain ⟨v, hv, rfl⟩ := List.mem_map.mp hp
              exact ⟨w.concat ((hmemord v).mp hv), by simp [hw]⟩
          · intro u hu
            rcases List.mem_cons.mp hu with rfl | hu
            · exact hreach
            · exact hI.reach u hu
          · intro u hu v hadj
            rcases List.mem_cons.mp hu with rfl | hu
            · right
              rw [hdist]
              exact List.mem_append_right _ (List.mem_map.mpr ⟨v, (hmemord v).mpr hadj, rfl⟩)
            · rcases hI.next u hu v hadj with hm | hm
              · exact Or.inl (List.mem_cons_of_mem _ hm)
              · rcases List.mem_cons.mp hm with he | hm
                · left; cases he; simp
                · exact Or.inr (List.mem_append_left _ hm)
          · rcases hI.start with hm | hm
            · exact Or.inl (List.mem_cons_of_mem _ hm)
            · rcases List.mem_cons.mp hm with he | hm
              · left; cases he; simp
              · exact Or.inr (List.mem_append_left _ hm)
        have hleft := left_visit h.graphWF hl hc
        obtain ⟨out, h1, h2, h3, h4, h5, h6⟩ := ih _ _ hI' (by
          simp only [List.length_append, List.length_map, (hord l).length_eq, List.length_cons] at hk ⊢
          omega)
        rw [List.map_append, List.map_map] at h1
        have hmap : (ord l).map (Prod.fst ∘ fun v => (v, lv + 1)) = ord l := by
          simp [Function.comp_def]
        rw [hmap] at h1
        refine ⟨cur :: out, by simp only []; rw [h1]; rfl, ?_, ?_, ?_, ?_, ?_⟩
        · exact List.nodup_cons.mpr ⟨fun hm => h3 cur hm (by simp), h2⟩
        · intro v hv
          rcases List.mem_cons.mp hv with rfl | hv
          · exact hc
          · exact fun hm => h3 v hv (by simp [hm])
        · intro v
          rw [← h4 v]
          simp only [List.mem_cons]
          tauto
        · refine List.pairwise_cons.mpr ⟨?_, h5⟩
          intro v hv
          rw [hdist]
          refine h6 lv ?_ v hv
          intro q hq
          rcases List.mem_append.mp hq with hq | hq
          · exact hsort.1 q hq
          · obtain ⟨v, _, rfl⟩ := List.mem_map.mp hq; simp
        · intro m hm v hv
          rcases List.mem_cons.mp hv with rfl | hv
          · rw [hdist]; exact hm (_, lv) List.mem_cons_self
          · refine h6 m ?_ v hv
            intro q hq
            rcases List.mem_append.mp hq with hq | hq
            · exact hm q (by simp [hq])
            · obtain ⟨x, _, rfl⟩ := List.mem_map.mp hq
              exact (hm (cur, lv) (by simp)).trans (by simp)

theorem left_nil (d : Dict Name (List Name)) : left d [] = (d.map fun p => p.2.length).sum := by
  simp [left]

/-- The whole search. -/
theorem traverse_spec {ord : List Name → List Name} (hord : ∀ l, (ord l).Perm l) {g : Ugraph}
    (h : UWF g) {s : Name} (hs : hasVertex g s = true) {m : Method} (hm : m ≠ .rng) :
    ∃ out, traverse ord g s m = .ok out ∧ out.Nodup ∧ out.head? = some s ∧
      (∀ v, v ∈ out ↔ (simple g).Reachable s v) ∧
      out.Pairwise (fun a b => (simple g).dist s a ≤ (simple g).dist s b) := by
  have hs' := hasVertex_iff.mp hs
  have hI : BfsInv g s [(s, 0)] [] := by
    refine ⟨by simp, by simp, ?_, by simp, by simp, by simp⟩
    intro p hp
    simp only [List.mem_singleton] at hp
    subst hp
    exact ⟨.nil, rfl⟩
  obtain ⟨out, h1, h2, h3, h4, h5, h6⟩ := bfsLoop_spec hord h hs' (fuel g) [(s, 0)] [] hI (by
    rw [left_nil]; simp [fuel]; omega)
  refine ⟨out, ?_, h2, ?_, ?_, h5⟩
  · unfold traverse
    rw [if_pos hs, if_neg hm]
    exact h1
  · have hmem : s ∈ out := by
      have := (h4 s).mpr (SimpleGraph.Reachable.refl s)
      simpa using this
    have hfu : fuel g = ((g.graph.map fun p => p.2.length).sum + 1) + 1 := rfl
    obtain ⟨l, hl⟩ := exists_row h.toWeak hs'
    rw [hfu] at h1
    simp only [List.map_cons, List.map_nil, bfsLoop, List.not_mem_nil, if_false, hl] at h1
    generalize bfsLoop ord g _ _ _ = r at h1
    match r, h1 with
    | .ok o, h1 => simp only [Except.map, Except.ok.injEq] at h1; rw [← h1]; rfl
  · intro v
    rw [← h4 v]
    simp

/-! ### Trees -/

/-- The number of neighbours of `w` in a list. -/
def nb (g : Ugraph) (w : Name) (L : List Name) : ℕ := L.countP fun u => hasEdge g (w, u)

/-- The invariant of the loop of `is_tree`. `visited` has the most recent vertex first. -/
structure TreeInv (g : Ugraph) (s : Name) (queue visited : List Name) : Prop where
  nodup : visited.Nodup
  ne : visited ≠ []
  last : s ∈ visited
  verts : ∀ v ∈ visited, v ∈ g.vertices.keys
  vertsQ : ∀ v ∈ queue, v ∈ g.vertices.keys
  fresh : ∀ w, w ∉ visited → queue.count w = nb g w visited
  old : ∀ A v B, visited = A ++ v :: B →
    (B = [] → v = s ∧ queue.count v = 0) ∧ (B ≠ [] → queue.count v + 1 = nb g v B)

/-- Everything in a suffix of `visited` is joined to `s` inside that suffix. -/
theorem TreeInv.joined {g : Ugraph} {s : Name} {queue visited : List Name}
    (hI : TreeInv g s queue visited) : ∀ (B A : List Name), visited = A ++ B → ∀ v ∈ B,
      ∃ p : (simple g).Walk v s, ∀ x ∈ p.support, x ∈ B := by
  intro B
  induction B with
  | nil => intro A _ v hv; simp at hv
  | cons b B ih =>
    intro A hA v hv
    have hih := ih (A ++ [b]) (by simp [hA])
    rcases List.mem_cons.mp hv with rfl | hv
    · by_cases hB : B = []
      · have := ((hI.old A v B hA).1 hB).1
        subst this
        exact ⟨.nil, by simp⟩
      · have hn := (hI.old A v B hA).2 hB
        have hpos : 0 < nb g v B := by omega
        obtain ⟨u, hu, hadj⟩ := List.countP_pos_iff.mp hpos
        obtain ⟨p, hp⟩ := hih u hu
        have hvu : v ≠ u := by
          rintro rfl
          have := hI.nodup
          rw [hA] at this
          have := (List.nodup_append.mp this).2.1
          exact (List.nodup_cons.mp this).1 hu
        refine ⟨.cons ⟨hvu, hadj⟩ p, ?_⟩
        intro x hx
        rcases List.mem_cons.mp hx with rfl | hx
        · simp
        · exact List.mem_cons_of_mem _ (hp x hx)
    · obtain ⟨p, hp⟩ := hih v hv
      exact ⟨p, fun x hx => List.mem_cons_of_mem _ (hp x hx)⟩

/-- Two neighbours of `v` joined by a walk that avoids `v` make a cycle. -/
theorem not_acyclic_of_avoid {G : SimpleGraph Name} {v a b : Name} (hab : a ≠ b) (ha : G.Adj v a)
    (hb : G.Adj v b) (p : G.Walk a b) (hp : v ∉ p.support) : ¬ G.IsAcyclic := by
  intro hG
  classical
  have hq : (p.toPath : G.Walk a b).IsPath := p.toPath.2
  have hvq : v ∉ (p.toPath : G.Walk a b).support := fun hm => hp (p.support_toPath_subset_support hm)
  let r : G.Walk a b := .cons ha.symm (.cons hb .nil)
  have hr : r.IsPath := by
    simp only [r, SimpleGraph.Walk.cons_isPath_iff, SimpleGraph.Walk.support_cons,
      SimpleGraph.Walk.support_nil, SimpleGraph.Walk.IsPath.nil, List.mem_cons, List.not_mem_nil, or_false,
      true_and]
    refine ⟨hb.ne, ?_⟩
    rintro (h | h)
    · exact ha.ne h.symm
    · exact hab h
  have := (hG.subsingleton_path a b).elim ⟨r, hr⟩ p.toPath
  rw [← this] at hvq
  simp [r] at hvq

theorem exists_two {g : Ugraph} {v : Name} {B : List Name} (hB : B.Nodup) (h : 2 ≤ nb g v B) :
    ∃ a ∈ B, ∃ b ∈ B, a ≠ b ∧ hasEdge g (v, a) = true ∧ hasEdge g (v, b) = true := by
  unfold nb at h
  rw [List.countP_eq_length_filter] at h
  have hnd := hB.filter fun u => hasEdge g (v, u)
  match hf : B.filter fun u => hasEdge g (v, u) with
  | [] => rw [hf] at h; simp at h
  | [_] => rw [hf] at h; simp at h
  | a :: b :: t =>
    rw [hf] at hnd
    have ha : a ∈ B.filter fun u => hasEdge g (v, u) := by rw [hf]; simp
    have hb : b ∈ B.filter fun u => hasEdge g (v, u) := by rw [hf]; simp
    rw [List.mem_filter] at ha hb
    refine ⟨a, ha.1, b, hb.1, ?_, ha.2, hb.2⟩
    rintro rfl
    simp at hnd

theorem two_le_nb {g : Ugraph} {v a b : Name} {B : List Name} (ha : a ∈ B) (hb : b ∈ B) (hab : a ≠ b)
    (h1 : hasEdge g (v, a) = true) (h2 : hasEdge g (v, b) = true) : 2 ≤ nb g v B := by
  unfold nb
  rw [List.countP_eq_length_filter]
  have m1 : a ∈ B.filter fun u => hasEdge g (v, u) := List.mem_filter.mpr ⟨ha, h1⟩
  have m2 : b ∈ B.filter fun u => hasEdge g (v, u) := List.mem_filter.mpr ⟨hb, h2⟩
  generalize B.filter _ = L at m1 m2
  match L, m1, m2 with
  | [x], m1, m2 => simp at m1 m2; exact absurd (m1.trans m2.symm) hab
  | _ :: _ :: _, _, _ => simp

theorem treeLoop_spec {ord : ℕ → List Name → List Name} (hord : ∀ k l, (ord k l).Perm l) {g : Ugraph}
    (h : UWF g) {s : Name} : ∀ (k : ℕ) (queue visited : List Name), TreeInv g s queue visited →
      g.vertices.length + 2 ≤ k + visited.length →
      (treeLoop ord g k queue visited = .ok none ∧ ¬ (simple g).IsAcyclic) ∨
      (∃ V, treeLoop ord g k queue visited = .ok (some V) ∧ TreeInv g s [] V) := by
  intro k
  induction k with
  | zero =>
    intro queue visited hI hk
    have := (List.subperm_of_subset hI.nodup fun v hv => hI.verts v hv).length_le
    simp [Dict.keys] at this
    omega
  | succ k ih =>
    intro queue visited hI hk
    match queue, hI with
    | [], hI => exact Or.inr ⟨visited, rfl, hI⟩
    | cur :: queue, hI =>
      simp only [treeLoop]
      by_cases hc : cur ∈ visited
      · rw [if_pos hc]
        left
        refine ⟨rfl, ?_⟩
        obtain ⟨A, B, hAB⟩ := List.append_of_mem hc
        have hold := hI.old A cur B hAB
        have hB : B ≠ [] := by
          intro hB
          have := (hold.1 hB).2
          simp at this
        have hn := hold.2 hB
        have hnd : (cur :: B).Nodup := by
          have := hI.nodup
          rw [hAB] at this
          exact (List.nodup_append.mp this).2.1
        have h2 : 2 ≤ nb g cur B := by
          rw [← hn, List.count_cons_self]; omega
        obtain ⟨a, ha, b, hb, hab, e1, e2⟩ := exists_two (List.nodup_cons.mp hnd).2 h2
        obtain ⟨p, hp⟩ := hI.joined B (A ++ [cur]) (by simp [hAB]) a ha
        obtain ⟨q, hq⟩ := hI.joined B (A ++ [cur]) (by simp [hAB]) b hb
        have hcB := (List.nodup_cons.mp hnd).1
        refine not_acyclic_of_avoid hab ⟨?_, e1⟩ ⟨?_, e2⟩ (p.append q.reverse) ?_
        · rintro rfl; exact hcB ha
        · rintro rfl; exact hcB hb
        · intro hm
          rw [SimpleGraph.Walk.mem_support_append_iff] at hm
          rcases hm with hm | hm
          · exact hcB (hp _ hm)
          · rw [SimpleGraph.Walk.support_reverse, List.mem_reverse] at hm
            exact hcB (hq _ hm)
      · rw [if_neg hc]
        have hcv := hI.vertsQ cur (by simp)
        obtain ⟨l, hl⟩ := exists_row h.toWeak hcv
        rw [hl]
        simp only
        have hlnd := h.adjNodup _ _ hl
        have hadj : ∀ v, v ∈ l ↔ hasEdge g (cur, v) = true := fun v => by
          rw [← adj_of_get? hl, hasEdge_iff]
          exact ⟨h.sub cur v, h.sup cur v⟩
        have hcount : ∀ w, (ord k (l.filter (· ∉ cur :: visited))).count w =
            if w ∈ l ∧ w ∉ cur :: visited then 1 else 0 := by
          intro w
          rw [(hord _ _).count_eq, (hlnd.filter _).count]
          simp [List.mem_filter]
        apply ih
        · refine ⟨List.nodup_cons.mpr ⟨hc, hI.nodup⟩, by simp, List.mem_cons_of_mem _ hI.last, ?_, ?_, ?_, ?_⟩
          · intro v hv
            rcases List.mem_cons.mp hv with rfl | hv
            · exact hcv
            · exact hI.verts v hv
          · intro v hv
            rcases List.mem_append.mp hv with hv | hv
            · exact hI.vertsQ v (by simp [hv])
            · rw [(hord _ _).mem_iff, List.mem_filter] at hv
              exact (h.toWeak.adj_vertex ((adj_of_get? hl).mpr hv.1)).2
          · intro w hw
            rw [List.count_append, hcount]
            have hwc : w ≠ cur := fun hc => hw (by simp [hc])
            have hwv : w ∉ visited := fun hc => hw (by simp [hc])
            have := hI.fresh w hwv
            rw [List.count_cons_of_ne (Ne.symm hwc)] at this
            rw [this]
            unfold nb
            rw [List.countP_cons]
            congr 1
            have hsw : hasEdge g (w, cur) = hasEdge g (cur, w) := by rw [hasEdge, norm_swap, hasEdge]
            simp [hw, hadj, hsw]
          · intro A v B hAB
            have hpush : (ord k (l.filter (· ∉ cur :: visited))).count v = 0 := by
              rw [hcount, if_neg]
              rintro ⟨_, hv⟩
              apply hv
              rw [hAB]; simp
            rw [List.count_append, hpush, Nat.add_zero]
            match A, hAB with
            | [], hAB =>
              simp only [List.nil_append, List.cons.injEq] at hAB
              obtain ⟨rfl, rfl⟩ := hAB
              refine ⟨fun hB => absurd hB hI.ne, fun _ => ?_⟩
              have := hI.fresh cur hc
              rw [List.count_cons_self] at this
              exact this
            | a :: A, hAB =>
              simp only [List.cons_append, List.cons.injEq] at hAB
              obtain ⟨rfl, hAB⟩ := hAB
              have hne : v ≠ cur := by
                intro he
                exact hc (by rw [← he, hAB]; simp)
              have := hI.old A v B hAB
              rwa [List.count_cons_of_ne (Ne.symm hne)] at this
        · simp only [List.length_cons]; omega

/-- If the loop ends, `visited` is the component of `s`. -/
theorem TreeInv.component {g : Ugraph} {s : Name} {V : List Name} (hI : TreeInv g s [] V) :
    ∀ v, v ∈ V ↔ (simple g).Reachable s v := by
  intro v
  constructor
  · intro hv
    obtain ⟨p, _⟩ := hI.joined V [] rfl v hv
    exact ⟨p.reverse⟩
  · rintro ⟨p⟩
    have key : ∀ a b (p : (simple g).Walk a b), a ∈ V → b ∈ V := by
      intro a b p
      induction p with
      | nil => exact id
      | @cons a b c hadj p ih =>
        intro ha
        apply ih
        by_contra hb
        have h0 := hI.fresh b hb
        have : 0 < nb g b V := List.countP_pos_iff.mpr ⟨a, ha, hadj.symm.2⟩
        simp at h0
        omega
    exact key s v p hI.last

/-- A linear order of the vertices in which every vertex has at most one earlier neighbour. -/
theorem TreeInv.acyclic {g : Ugraph} (h : UWF g) {s : Name} {V : List Name} (hI : TreeInv g s [] V)
    (hall : ∀ v ∈ g.vertices.keys, v ∈ V) : (simple g).IsAcyclic := by
  intro v c hc
  classical
  have hsupp : ∀ x ∈ c.support, x ∈ V := by
    intro x hx
    have key : ∀ a b (p : (simple g).Walk a b), 0 < p.length → ∀ x ∈ p.support, x ∈ g.vertices.keys := by
      intro a b p
      induction p with
      | nil => intro hl; simp at hl
      | @cons a b c hadj p ih =>
        intro _ x hx
        have hab := h.toWeak.adj_vertex ((simple_adj h).mp hadj)
        rcases List.mem_cons.mp hx with rfl | hx
        · exact hab.1
        · by_cases hl : 0 < p.length
          · exact ih hl x hx
          · have : p.length = 0 := by omega
            have hbc := SimpleGraph.Walk.eq_of_length_eq_zero this
            subst hbc
            have hp := SimpleGraph.Walk.length_eq_zero_iff.mp this
            rw [SimpleGraph.Walk.eq_nil_iff_nil.mpr hp] at hx
            simp at hx
            rw [hx]; exact hab.2
    exact hall x (key v v c (by have := hc.three_le_length; omega) x hx)
  -- the vertex of the cycle that was visited last
  obtain ⟨w, hw, hmin⟩ : ∃ w ∈ c.support, ∀ x ∈ c.support, V.idxOf w ≤ V.idxOf x := by
    have hne : c.support.toFinset.Nonempty := ⟨v, by simp⟩
    obtain ⟨w, hw, hmin⟩ := c.support.toFinset.exists_min_image (fun x => V.idxOf x) hne
    exact ⟨w, by simpa using hw, fun x hx => hmin x (by simpa using hx)⟩
  have hr := hc.rotate hw
  have hrs : ∀ x ∈ (c.rotate w hw).support, x ∈ c.support := by
    intro x hx
    exact (c.mem_support_rotate_iff w hw).mp hx
  obtain ⟨A, B, hAB⟩ := List.append_of_mem (hsupp w hw)
  have hnd := hI.nodup
  rw [hAB] at hnd
  have hwA : w ∉ A := by
    intro hm
    exact (List.nodup_append.mp hnd).2.2 w hm w (by simp) rfl
  have inB : ∀ x ∈ c.support, x ≠ w → x ∈ B := by
    intro x hx hxw
    have hxV := hsupp x hx
    rw [hAB, List.mem_append, List.mem_cons] at hxV
    rcases hxV with hxA | hxw' | hxB
    · exfalso
      have := hmin x hx
      rw [hAB, List.idxOf_append_of_notMem hwA, List.idxOf_append_of_mem hxA] at this
      have := List.idxOf_lt_length_of_mem hxA
      simp at *
      omega
    · exact absurd hxw' hxw
    · exact hxB
  have hne := hr.snd_ne_penultimate
  have hnn := hr.not_nil
  have a1 := (c.rotate w hw).adj_snd hnn
  have a2 := (c.rotate w hw).adj_penultimate hnn
  have m1 := inB _ (hrs _ ((c.rotate w hw).getVert_mem_support 1)) a1.ne'
  have m2 := inB _ (hrs _ ((c.rotate w hw).getVert_mem_support ((c.rotate w hw).length - 1))) a2.ne
  have h2 := two_le_nb m1 m2 hne a1.2 a2.symm.2
  have hB : B ≠ [] := by rintro rfl; simp at m1
  have := (hI.old A w B hAB).2 hB
  simp at this
  omega

/-- Specification: any two vertices are joined by a path. -/
def Joined (g : Ugraph) : Prop :=
  ∀ u ∈ g.vertices.keys, ∀ v ∈ g.vertices.keys, (simple g).Reachable u v

theorem joined_iff {g : Ugraph} {s : Name} (hs : s ∈ g.vertices.keys) :
    Joined g ↔ ∀ v ∈ g.vertices.keys, (simple g).Reachable s v :=
  ⟨fun h => h s hs, fun h u hu v hv => (h u hu).symm.trans (h v hv)⟩

/-- A duplicate-free list of vertices is all of them iff it has their number. -/
theorem length_eq_iff_all {g : Ugraph} (h : UWF g) {V : List Name} (hV : V.Nodup)
    (hsub : ∀ v ∈ V, v ∈ g.vertices.keys) :
    V.length = g.vertices.length ↔ ∀ v ∈ g.vertices.keys, v ∈ V := by
  have hlen : g.vertices.keys.length = g.vertices.length := by simp [Dict.keys]
  rw [← hlen]
  constructor
  · intro he v hv
    have hp := (List.subperm_of_subset hV hsub).perm_of_length_le (le_of_eq he.symm)
    exact hp.mem_iff.mpr hv
  · intro hall
    exact ((List.perm_ext_iff_of_nodup hV h.vertsWF).mpr fun v => ⟨hsub v, hall v⟩).length_eq

theorem isTree_spec {ord : ℕ → List Name → List Name} (hord : ∀ k l, (ord k l).Perm l) {g : Ugraph}
    (h : UWF g) : ∃ r, isTree ord g = .ok r ∧
      (r = true ↔ g.vertices.keys ≠ [] ∧ Joined g ∧ (simple g).IsAcyclic) := by
  unfold isTree
  match hv : g.vertices with
  | [] => exact ⟨false, rfl, by simp [Dict.keys]⟩
  | (s, w) :: rest =>
    have hs : s ∈ g.vertices.keys := by rw [hv]; simp [Dict.keys]
    have hne : g.vertices.keys ≠ [] := by rw [hv]; simp [Dict.keys]
    dsimp only
    rw [← hv]
    obtain ⟨l, hl⟩ := exists_row h.toWeak hs
    have hlnd := h.adjNodup _ _ hl
    have hadj : ∀ v, v ∈ l ↔ hasEdge g (s, v) = true := fun v => by
      rw [← adj_of_get? hl, hasEdge_iff]
      exact ⟨h.sub s v, h.sup s v⟩
    have hsl : s ∉ l := fun hm => h.toWeak.irrefl s ((adj_of_get? hl).mpr hm)
    have hfirst : treeLoop ord g (g.vertices.length + 2) [s] [] =
        treeLoop ord g (g.vertices.length + 1) (ord (g.vertices.length + 1) (l.filter (· ∉ [s]))) [s] := by
      simp [treeLoop, hl]
    have hcount : ∀ w, (ord (g.vertices.length + 1) (l.filter (· ∉ [s]))).count w =
        if w ∈ l ∧ w ∉ [s] then 1 else 0 := by
      intro w
      rw [(hord _ _).count_eq, (hlnd.filter _).count]
      simp [List.mem_filter]
    have hI : TreeInv g s (ord (g.vertices.length + 1) (l.filter (· ∉ [s]))) [s] := by
      refine ⟨by simp, by simp, by simp, by simpa using hs, ?_, ?_, ?_⟩
      · intro v hv
        rw [(hord _ _).mem_iff, List.mem_filter] at hv
        exact (h.toWeak.adj_vertex ((adj_of_get? hl).mpr hv.1)).2
      · intro w hw
        rw [hcount]
        have hsw : hasEdge g (w, s) = hasEdge g (s, w) := by rw [hasEdge, norm_swap, hasEdge]
        simp [hw, hadj, nb, hsw, List.countP_cons]
      · intro A v B hAB
        match A, hAB with
        | [], hAB =>
          simp only [List.nil_append, List.cons.injEq] at hAB
          obtain ⟨rfl, rfl⟩ := hAB
          refine ⟨fun _ => ⟨rfl, ?_⟩, by simp⟩
          rw [hcount]; simp
        | a :: A, hAB => simp at hAB
    rcases treeLoop_spec hord h (g.vertices.length + 1) _ _ hI (by simp) with ⟨h1, h2⟩ | ⟨V, h1, hV⟩
    · rw [hfirst, h1]
      exact ⟨false, rfl, by simp [h2]⟩
    · rw [hfirst, h1]
      refine ⟨_, rfl, ?_⟩
      rw [decide_eq_true_eq, length_eq_iff_all h hV.nodup hV.verts]
      constructor
      · intro hall
        exact ⟨hne, (joined_iff hs).mpr fun v hv => (hV.component v).mp (hall v hv), hV.acyclic h hall⟩
      · rintro ⟨_, hj, _⟩ v hv
        exact (hV.component v).mpr (hj s hs v hv)

theorem isConnected_spec {g : Ugraph} (h : UWF g) : ∃ r, isConnected g = .ok r ∧
    (r = true ↔ g.vertices.keys ≠ [] ∧ Joined g) := by
  unfold isConnected
  match hv : g.vertices with
  | [] => exact ⟨false, rfl, by simp [Dict.keys]⟩
  | (s, w) :: rest =>
    have hs : s ∈ g.vertices.keys := by rw [hv]; simp [Dict.keys]
    have hne : g.vertices.keys ≠ [] := by rw [hv]; simp [Dict.keys]
    dsimp only
    rw [← hv]
    obtain ⟨out, h1, h2, _, h4, _⟩ := traverse_spec (ord := sortNames)
      (fun l => List.perm_insertionSort _ l) h (hasVertex_iff.mpr hs) (m := .bfs) (by decide)
    unfold bfs
    rw [h1]
    refine ⟨_, rfl, ?_⟩
    rw [decide_eq_true_eq, length_eq_iff_all h h2 fun v hv => vertex_of_reachable h hs ((h4 v).mp hv)]
    constructor
    · intro hall
      exact ⟨hne, (joined_iff hs).mpr fun v hv => (h4 v).mp (hall v hv)⟩
    · rintro ⟨_, hj⟩ v hv
      exact (h4 v).mpr (hj s hs v hv)

/-! ### `is_cyclic` -/

/-- The invariant of the inner loop: an edge at a visited vertex forces a visited vertex back into the
queue. -/
structure CycInv (g : Ugraph) (queue visited : List Name) : Prop where
  nodup : visited.Nodup
  verts : ∀ v ∈ visited, v ∈ g.vertices.keys
  vertsQ : ∀ v ∈ queue, v ∈ g.vertices.keys
  edge : ∀ u ∈ visited, ∀ w, Adj g u w → w ∈ queue ∨ (w ∈ visited ∧ u ∈ queue)

theorem cycLoop_spec {ord : ℕ → List Name → List Name} (hord : ∀ k l, (ord k l).Perm l) {g : Ugraph}
    (h : UWF g) : ∀ (k : ℕ) (queue visited : List Name), CycInv g queue visited →
      g.vertices.length + 2 ≤ k + visited.length →
      cycLoop ord g k queue visited = .ok none ∨
      (∃ V, cycLoop ord g k queue visited = .ok (some V) ∧ (∀ v ∈ visited, v ∈ V) ∧
        (∀ v ∈ queue, v ∈ V) ∧ ∀ u ∈ V, ∀ w, ¬ Adj g u w) := by
  intro k
  induction k with
  | zero =>
    intro queue visited hI hk
    have := (List.subperm_of_subset hI.nodup fun v hv => hI.verts v hv).length_le
    simp [Dict.keys] at this
    omega
  | succ k ih =>
    intro queue visited hI hk
    match queue, hI with
    | [], hI =>
      refine Or.inr ⟨visited, rfl, fun _ h => h, by simp, fun u hu w hw => ?_⟩
      have := hI.edge u hu w hw
      simp at this
    | cur :: queue, hI =>
      simp only [cycLoop]
      by_cases hc : cur ∈ visited
      · rw [if_pos hc]; exact Or.inl rfl
      · rw [if_neg hc]
        have hcv := hI.vertsQ cur (by simp)
        obtain ⟨l, hl⟩ := exists_row h.toWeak hcv
        rw [hl]
        simp only
        have hI' : CycInv g (queue ++ ord k l) (cur :: visited) := by
          refine ⟨List.nodup_cons.mpr ⟨hc, hI.nodup⟩, ?_, ?_, ?_⟩
          · intro v hv
            rcases List.mem_cons.mp hv with rfl | hv
            · exact hcv
            · exact hI.verts v hv
          · intro v hv
            rcases List.mem_append.mp hv with hv | hv
            · exact hI.vertsQ v (by simp [hv])
            · rw [(hord _ _).mem_iff] at hv
              exact (h.toWeak.adj_vertex ((adj_of_get? hl).mpr hv)).2
          · have hpush : ∀ w, Adj g cur w → w ∈ queue ++ ord k l := fun w hw =>
              List.mem_append_right _ ((hord _ _).mem_iff.mpr ((adj_of_get? hl).mp hw))
            intro u hu w hw
            rcases List.mem_cons.mp hu with rfl | hu
            · exact Or.inl (hpush w hw)
            · have hu' := hu
              rcases hI.edge u hu w hw with hm | ⟨hm1, hm2⟩
              · rcases List.mem_cons.mp hm with rfl | hm
                · exact Or.inr ⟨by simp, hpush u (h.sym _ _ hw)⟩
                · exact Or.inl (List.mem_append_left _ hm)
              · right
                refine ⟨List.mem_cons_of_mem _ hm1, ?_⟩
                rcases List.mem_cons.mp hm2 with he | hm2
                · exact absurd (he ▸ hu') hc
                · exact List.mem_append_left _ hm2
        rcases ih _ _ hI' (by simp only [List.length_cons]; omega) with h1 | ⟨V, h1, h2, h3, h4⟩
        · exact Or.inl h1
        · refine Or.inr ⟨V, h1, fun v hv => h2 v (by simp [hv]), ?_, h4⟩
          intro v hv
          rcases List.mem_cons.mp hv with rfl | hv
          · exact h2 _ (by simp)
          · exact h3 v (by simp [hv])

theorem cycLoop_isolated {ord : ℕ → List Name → List Name} (hord : ∀ k l, (ord k l).Perm l) {g : Ugraph}
    (h : UWF g) (hno : ∀ a b, ¬ Adj g a b) {s : Name} (hs : s ∈ g.vertices.keys) (k : ℕ) :
    cycLoop ord g (k + 2) [s] [] = .ok (some [s]) := by
  obtain ⟨l, hl⟩ := exists_row h.toWeak hs
  have : l = [] := List.eq_nil_iff_forall_not_mem.mpr fun w hw => hno s w ((adj_of_get? hl).mpr hw)
  subst this
  have ho : ord (k + 1) [] = [] := (hord _ _).eq_nil
  simp [cycLoop, hl, ho]

theorem cycOuter_spec {ord : ℕ → List Name → List Name} (hord : ∀ k l, (ord k l).Perm l)
    {pick : List Name → Name} (hpick : ∀ l, l ≠ [] → pick l ∈ l) {g : Ugraph}
    (h : UWF g) : ∀ (k : ℕ) (U : List Name), (∀ v ∈ U, v ∈ g.vertices.keys) → U.length < k →
      (∀ a b, Adj g a b → a ∈ U) →
      ∃ r, cycOuter ord pick g k U = .ok r ∧ (r = true ↔ ∃ a b, Adj g a b) := by
  intro k
  induction k with
  | zero => intro U _ hk; omega
  | succ k ih =>
    intro U hU hk hcov
    match U, hU, hk, hcov with
    | [], _, _, hcov =>
      refine ⟨false, rfl, ?_⟩
      simp only [Bool.false_eq_true, false_iff]
      rintro ⟨a, b, hab⟩
      simpa using hcov a b hab
    | u :: us, hU, hk, hcov =>
      simp only [cycOuter]
      have hp := hpick (u :: us) (by simp)
      have hI : CycInv g [pick (u :: us)] [] :=
        ⟨by simp, by simp, by simpa using hU _ hp, by simp⟩
      rcases cycLoop_spec hord h (g.vertices.length + 2) _ _ hI (by simp) with h1 | ⟨V, h1, _, h3, h4⟩
      · rw [h1]
        refine ⟨true, rfl, ?_⟩
        simp only [true_iff]
        by_contra hno
        push Not at hno
        rw [cycLoop_isolated hord h hno (hU _ hp)] at h1
        cases h1
      · rw [h1]
        simp only
        apply ih
        · intro v hv; exact hU v (List.mem_of_mem_filter hv)
        · have hpV := h3 (pick (u :: us)) (by simp)
          have : ((u :: us).filter (· ∉ V)).length < (u :: us).length := by
            apply List.length_filter_lt_length_iff_exists.mpr
            exact ⟨_, hp, by simpa using hpV⟩
          omega
        · intro a b hab
          rw [List.mem_filter]
          refine ⟨hcov a b hab, ?_⟩
          simp only [decide_eq_true_eq]
          exact fun ha => h4 a ha b hab

/-- What `is_cyclic` computes: whether there is an edge at all. -/
theorem isCyclic_spec {ord : ℕ → List Name → List Name} (hord : ∀ k l, (ord k l).Perm l)
    {pick : List Name → Name} (hpick : ∀ l, l ≠ [] → pick l ∈ l) {g : Ugraph}
    (h : UWF g) : ∃ r, isCyclic ord pick g = .ok r ∧ (r = true ↔ g.edges.keys ≠ []) := by
  obtain ⟨r, h1, h2⟩ := cycOuter_spec hord hpick h (g.vertices.length + 1) g.vertices.keys (fun _ h => h)
    (by simp [Dict.keys]) (fun a b hab => (h.toWeak.adj_vertex hab).1)
  refine ⟨r, h1, h2.trans ?_⟩
  constructor
  · rintro ⟨a, b, hab⟩ hnil
    have := h.sub a b hab
    rw [hnil] at this
    simp at this
  · intro hne
    obtain ⟨⟨a, b⟩, hab⟩ := List.exists_mem_of_ne_nil _ hne
    exact ⟨a, b, h.sup a b (by rwa [norm_of_lt (h.sorted a b hab)])⟩

end Undirected
end Pytimize
