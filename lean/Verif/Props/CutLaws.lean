/-
C149: laws of the methods `cut`, `ncut` and the degrees (`pytimize/graphs/_directed.py:211-317`,
`pytimize/graphs/_undirected.py`), and what they mean for minimum cuts.
-/
import Verif.Props.FlowPaths
import Verif.Props.Undirected

namespace Pytimize
namespace Props
open _root_.Pytimize.Directed

theorem sum_filter_map {α : Type} (l : List α) (p : α → Bool) (w : α → ℚ) :
    ((l.filter p).map w).sum = (l.map fun a => if p a then w a else 0).sum := by
  induction l with
  | nil => rfl
  | cons a l ih => by_cases h : p a = true <;> simp [h, ih]

theorem sum_map_diff {α : Type} (l : List α) (f g : α → ℚ) :
    (l.map f).sum - (l.map g).sum = (l.map fun a => f a - g a).sum := by
  induction l with
  | nil => simp
  | cons a l ih =>
    simp only [List.map_cons, List.sum_cons, ← ih]
    ring

theorem length_eq_sum {α : Type} (l : List α) : ((l.length : ℕ) : ℚ) = (l.map fun _ => (1 : ℚ)).sum := by simp

/-- Specification: the arcs that join a node in `S` but not in `T` to a node in `T` but not in `S`, in either direction. -/
def Crosses (S T : List Name) (a : Arc) : Prop :=
  (a.1 ∈ S ∧ a.1 ∉ T ∧ a.2 ∈ T ∧ a.2 ∉ S) ∨ (a.2 ∈ S ∧ a.2 ∉ T ∧ a.1 ∈ T ∧ a.1 ∉ S)

instance (S T : List Name) (a : Arc) : Decidable (Crosses S T a) := by unfold Crosses; infer_instance

/-- C149: the cuts of two sets weigh as much as those of their union and intersection together with the arcs between
the two differences; for `cut` and for `ncut`, whatever the arcs weigh. -/
theorem C149_cuts (g : Digraph) (w : Arc → ℚ) {S T U I : List Name} (hU : ∀ x, x ∈ U ↔ x ∈ S ∨ x ∈ T)
    (hI : ∀ x, x ∈ I ↔ x ∈ S ∧ x ∈ T) :
    ((cut g (.iter S)).map w).sum + ((cut g (.iter T)).map w).sum =
        ((cut g (.iter U)).map w).sum + ((cut g (.iter I)).map w).sum +
          ((g.arcs.keys.filter fun a => Crosses S T a).map w).sum ∧
      ((ncut g (.iter S)).map w).sum + ((ncut g (.iter T)).map w).sum =
        ((ncut g (.iter U)).map w).sum + ((ncut g (.iter I)).map w).sum +
          ((g.arcs.keys.filter fun a => Crosses S T a).map w).sum := by
  unfold cut ncut
  constructor <;>
  · simp only [sum_filter_map, ← List.sum_map_add]
    congr 1
    refine List.map_congr_left fun a _ => ?_
    have u1 := hU a.1
    have u2 := hU a.2
    have i1 := hI a.1
    have i2 := hI a.2
    by_cases h1 : a.1 ∈ S <;> by_cases h2 : a.2 ∈ S <;> by_cases h3 : a.1 ∈ T <;> by_cases h4 : a.2 ∈ T <;>
      simp [NodeArg.toSet, Crosses, h1, h2, h3, h4, u1, u2, i1, i2]

/-- C149: `outdegree`, `indegree` and `connections` are submodular, with the number of arcs between the differences as
the slack. -/
theorem C149_degrees (g : Digraph) {S T U I : List Name} (hU : ∀ x, x ∈ U ↔ x ∈ S ∨ x ∈ T)
    (hI : ∀ x, x ∈ I ↔ x ∈ S ∧ x ∈ T) :
    outdegree g (.iter S) + outdegree g (.iter T) =
        outdegree g (.iter U) + outdegree g (.iter I) + (g.arcs.keys.filter fun a => Crosses S T a).length ∧
      indegree g (.iter S) + indegree g (.iter T) =
        indegree g (.iter U) + indegree g (.iter I) + (g.arcs.keys.filter fun a => Crosses S T a).length ∧
      connections g (.iter U) + connections g (.iter I) ≤ connections g (.iter S) + connections g (.iter T) := by
  obtain ⟨h1, h2⟩ := C149_cuts g (fun _ => 1) hU hI
  simp only [← length_eq_sum] at h1 h2
  have e1 : outdegree g (.iter S) + outdegree g (.iter T) =
      outdegree g (.iter U) + outdegree g (.iter I) + (g.arcs.keys.filter fun a => Crosses S T a).length := by
    unfold outdegree; exact_mod_cast h1
  have e2 : indegree g (.iter S) + indegree g (.iter T) =
      indegree g (.iter U) + indegree g (.iter I) + (g.arcs.keys.filter fun a => Crosses S T a).length := by
    unfold indegree; exact_mod_cast h2
  refine ⟨e1, e2, ?_⟩
  unfold connections
  omega

/-- C149: what leaves a set minus what enters it is the sum of these differences over its nodes. -/
theorem C149_balance (g : Digraph) {S : List Name} (hS : S.Nodup) :
    (outdegree g (.iter S) : ℚ) - indegree g (.iter S) =
      (S.map fun v => (outdegree g (.iter [v]) : ℚ) - indegree g (.iter [v])).sum := by
  have key : ∀ T : List Name, (outdegree g (.iter T) : ℚ) - indegree g (.iter T) =
      (g.arcs.keys.map fun a => (if a.1 ∈ T then (1 : ℚ) else 0) - if a.2 ∈ T then 1 else 0).sum := by
    intro T
    unfold outdegree indegree cut ncut
    rw [length_eq_sum, length_eq_sum, sum_filter_map, sum_filter_map, sum_map_diff]
    congr 1
    refine List.map_congr_left fun a _ => ?_
    by_cases h1 : a.1 ∈ T <;> by_cases h2 : a.2 ∈ T <;> simp [NodeArg.toSet, h1, h2]
  rw [key]
  induction S with
  | nil => simp
  | cons v S ih =>
    rw [List.nodup_cons] at hS
    rw [List.map_cons, List.sum_cons, ← ih hS.2, key [v], ← List.sum_map_add]
    congr 1
    refine List.map_congr_left fun a _ => ?_
    by_cases h1 : a.1 = v <;> by_cases h2 : a.2 = v
    · simp [h1, h2, hS.1]
    · simp only [h1, List.mem_cons, if_true, h2, false_or, List.mem_nil_iff, or_false, if_false, hS.1]
      ring
    · simp only [h2, List.mem_cons, if_true, h1, false_or, List.mem_nil_iff, or_false, if_false, hS.1]
      ring
    · simp [h1, h2]

/-- C149: the degrees of a digraph add up to the number of arcs. -/
theorem C149_handshake {g : Digraph} (hg : DWF g) :
    (g.nodes.keys.map fun v => outdegree g (.iter [v])).sum = g.arcs.length ∧
      (g.nodes.keys.map fun v => indegree g (.iter [v])).sum = g.arcs.length := by
  have hk : g.arcs.keys.toFinset.card = g.arcs.length := by
    rw [List.toFinset_card_of_nodup hg.arcsWF]; simp [Dict.keys]
  constructor
  · rw [← List.sum_toFinset _ hg.nodesWF, ← hk, Finset.card_eq_sum_card_fiberwise (f := Prod.fst)
      (t := g.nodes.keys.toFinset) fun a ha => by
        simpa using hg.endsTail a.1 a.2 (List.mem_toFinset.mp ha)]
    refine Finset.sum_congr rfl fun v _ => ?_
    rw [(C07_degrees hg [v]).1]
    refine congrArg Finset.card (Finset.filter_congr fun a ha => ?_)
    have := hg.noLoop a.1 a.2 (List.mem_toFinset.mp ha)
    simp only [List.mem_singleton]
    exact ⟨fun h => h.1, fun h => ⟨h, fun h' => this (h.trans h'.symm)⟩⟩
  · rw [← List.sum_toFinset _ hg.nodesWF, ← hk, Finset.card_eq_sum_card_fiberwise (f := Prod.snd)
      (t := g.nodes.keys.toFinset) fun a ha => by
        simpa using hg.endsHead a.1 a.2 (List.mem_toFinset.mp ha)]
    refine Finset.sum_congr rfl fun v _ => ?_
    rw [(C07_degrees hg [v]).2.1]
    refine congrArg Finset.card (Finset.filter_congr fun a ha => ?_)
    have := hg.noLoop a.1 a.2 (List.mem_toFinset.mp ha)
    simp only [List.mem_singleton]
    exact ⟨fun h => h.1, fun h => ⟨h, fun h' => this (h'.trans h.symm)⟩⟩

/-- C149: the arcs that leave a set are those that enter its complement. -/
theorem C149_complement {g : Digraph} (hg : DWF g) {S T : List Name}
    (hT : ∀ v, v ∈ T ↔ v ∈ g.nodes.keys ∧ v ∉ S) :
    cut g (.iter S) = ncut g (.iter T) ∧ ncut g (.iter S) = cut g (.iter T) := by
  unfold cut ncut
  constructor <;>
  · refine List.filter_congr fun a ha => ?_
    have n1 := hg.endsTail a.1 a.2 ha
    have n2 := hg.endsHead a.1 a.2 ha
    have h1 := hT a.1
    have h2 := hT a.2
    by_cases c1 : a.1 ∈ S <;> by_cases c2 : a.2 ∈ S <;> simp [NodeArg.toSet, h1, h2, n1, n2, c1, c2]

/-- C149: the union and the intersection of two cuts of least weight between two nodes are cuts of least weight too, and
arcs between the differences weigh nothing. -/
theorem C149_minimum_cuts (g : Digraph) {w : Arc → ℚ} (hw : ∀ a ∈ g.arcs.keys, 0 ≤ w a) {s t : Name}
    {S T U I : List Name} (hU : ∀ x, x ∈ U ↔ x ∈ S ∨ x ∈ T) (hI : ∀ x, x ∈ I ↔ x ∈ S ∧ x ∈ T)
    (hs : s ∈ S ∧ s ∈ T) (ht : t ∉ S ∧ t ∉ T)
    (hS : ∀ R : List Name, s ∈ R → t ∉ R → ((cut g (.iter S)).map w).sum ≤ ((cut g (.iter R)).map w).sum)
    (hT : ∀ R : List Name, s ∈ R → t ∉ R → ((cut g (.iter T)).map w).sum ≤ ((cut g (.iter R)).map w).sum) :
    (∀ R : List Name, s ∈ R → t ∉ R → ((cut g (.iter U)).map w).sum ≤ ((cut g (.iter R)).map w).sum) ∧
      (∀ R : List Name, s ∈ R → t ∉ R → ((cut g (.iter I)).map w).sum ≤ ((cut g (.iter R)).map w).sum) ∧
      ∀ a ∈ g.arcs.keys, Crosses S T a → w a = 0 := by
  have h1 := hS U ((hU s).mpr (.inl hs.1)) fun hx => ((hU t).mp hx).elim ht.1 ht.2
  have h2 := hT I ((hI s).mpr hs) fun hx => ht.1 ((hI t).mp hx).1
  have h1' := hT U ((hU s).mpr (.inl hs.1)) fun hx => ((hU t).mp hx).elim ht.1 ht.2
  have h2' := hS I ((hI s).mpr hs) fun hx => ht.1 ((hI t).mp hx).1
  have h3 := (C149_cuts g w hU hI).1
  have h4 : 0 ≤ ((g.arcs.keys.filter fun a => Crosses S T a).map w).sum :=
    List.sum_nonneg fun q hq => by
      obtain ⟨a, ha, rfl⟩ := List.mem_map.mp hq
      exact hw a (List.mem_filter.mp ha).1
  refine ⟨fun R r1 r2 => ?_, fun R r1 r2 => ?_, fun a ha hx => ?_⟩
  · linarith [hS R r1 r2]
  · linarith [hS R r1 r2]
  have hz : ((g.arcs.keys.filter fun a => Crosses S T a).map w).sum = 0 := by linarith
  refine le_antisymm ?_ (hw a ha)
  rw [← hz]
  refine List.single_le_sum (fun q hq => ?_) _ (List.mem_map.mpr ⟨a, List.mem_filter.mpr ⟨ha, by simpa using hx⟩, rfl⟩)
  obtain ⟨b, hb, rfl⟩ := List.mem_map.mp hq
  exact hw b (List.mem_filter.mp hb).1

/-- C149, undirected: `degree` is submodular and posimodular; with weights and the exact slack. -/
theorem C149_undirected (g : Undirected.Ugraph) (w : Undirected.Edge → ℚ) {S T U I D E : List Name}
    (hU : ∀ x, x ∈ U ↔ x ∈ S ∨ x ∈ T) (hI : ∀ x, x ∈ I ↔ x ∈ S ∧ x ∈ T) (hD : ∀ x, x ∈ D ↔ x ∈ S ∧ x ∉ T)
    (hE : ∀ x, x ∈ E ↔ x ∈ T ∧ x ∉ S) :
    ((Undirected.cut g (.iter S)).map w).sum + ((Undirected.cut g (.iter T)).map w).sum =
        ((Undirected.cut g (.iter U)).map w).sum + ((Undirected.cut g (.iter I)).map w).sum +
          2 * ((g.edges.keys.filter fun e => Crosses S T e).map w).sum ∧
      ((Undirected.cut g (.iter S)).map w).sum + ((Undirected.cut g (.iter T)).map w).sum =
        ((Undirected.cut g (.iter D)).map w).sum + ((Undirected.cut g (.iter E)).map w).sum +
          2 * ((g.edges.keys.filter fun e => (e.1 ∈ I ∧ e.2 ∉ U) ∨ (e.2 ∈ I ∧ e.1 ∉ U)).map w).sum := by
  unfold Undirected.cut
  constructor <;>
  · simp only [sum_filter_map, two_mul, ← List.sum_map_add]
    congr 1
    refine List.map_congr_left fun a _ => ?_
    have u1 := hU a.1
    have u2 := hU a.2
    have i1 := hI a.1
    have i2 := hI a.2
    have d1 := hD a.1
    have d2 := hD a.2
    have e1 := hE a.1
    have e2 := hE a.2
    by_cases h1 : a.1 ∈ S <;> by_cases h2 : a.2 ∈ S <;> by_cases h3 : a.1 ∈ T <;> by_cases h4 : a.2 ∈ T <;>
      simp [NodeArg.toSet, Crosses, h1, h2, h3, h4, u1, u2, i1, i2, d1, d2, e1, e2]

/-- C149, undirected: the degrees. -/
theorem C149_undirected_degrees (g : Undirected.Ugraph) {S T U I D E : List Name}
    (hU : ∀ x, x ∈ U ↔ x ∈ S ∨ x ∈ T) (hI : ∀ x, x ∈ I ↔ x ∈ S ∧ x ∈ T) (hD : ∀ x, x ∈ D ↔ x ∈ S ∧ x ∉ T)
    (hE : ∀ x, x ∈ E ↔ x ∈ T ∧ x ∉ S) :
    Undirected.degree g (.iter U) + Undirected.degree g (.iter I) ≤
        Undirected.degree g (.iter S) + Undirected.degree g (.iter T) ∧
      Undirected.degree g (.iter D) + Undirected.degree g (.iter E) ≤
        Undirected.degree g (.iter S) + Undirected.degree g (.iter T) ∧
      (Undirected.degree g (.iter S) + Undirected.degree g (.iter T) + Undirected.degree g (.iter U) +
        Undirected.degree g (.iter I)) % 2 = 0 := by
  obtain ⟨h1, h2⟩ := C149_undirected g (fun _ => 1) hU hI hD hE
  simp only [← length_eq_sum] at h1 h2
  unfold Undirected.degree
  have e1 := h1
  have e2 := h2
  norm_cast at e1 e2
  omega

/-! ### Not vacuous -/

/-- Two routes from `s` to `t`, with an arc of weight 0 between them. -/
def twoRoutes : Digraph :=
  (ctor [] (arcs1 [('s', 'a', 1), ('s', 'b', 1), ('a', 't', 1), ('b', 't', 1), ('a', 'b', 0)]) []).toOption.getD ⟨[], [], []⟩

theorem twoRoutes_ctor : ctor [] (arcs1 [('s', 'a', 1), ('s', 'b', 1), ('a', 't', 1), ('b', 't', 1), ('a', 'b', 0)]) [] =
    .ok twoRoutes := by decide +kernel

example : DWF twoRoutes ∧ outdegree twoRoutes (.iter [['s'], ['a']]) = 3 ∧ outdegree twoRoutes (.iter [['s'], ['b']]) = 2 ∧
    outdegree twoRoutes (.iter [['s'], ['a'], ['b']]) = 2 ∧ outdegree twoRoutes (.iter [['s']]) = 2 :=
  ⟨(preflowOk_of_ctor twoRoutes_ctor (by decide +kernel) (by decide +kernel) (by decide +kernel)).wf, by decide +kernel⟩

/-- The hypotheses of `C149_minimum_cuts` hold for `{s, a}` and `{s, b}`. -/
example (R : List Name) (hs : ['s'] ∈ R) (ht : ['t'] ∉ R) :
    ((cut twoRoutes (.iter [['s'], ['a']])).map (capOf twoRoutes)).sum ≤
        ((cut twoRoutes (.iter R)).map (capOf twoRoutes)).sum ∧
      ((cut twoRoutes (.iter [['s'], ['b']])).map (capOf twoRoutes)).sum ≤
        ((cut twoRoutes (.iter R)).map (capOf twoRoutes)).sum := by
  have h2 : ((cut twoRoutes (.iter [['s'], ['a']])).map (capOf twoRoutes)).sum = 2 ∧
      ((cut twoRoutes (.iter [['s'], ['b']])).map (capOf twoRoutes)).sum = 2 := by decide +kernel
  have hok : PreflowOk twoRoutes :=
    preflowOk_of_ctor twoRoutes_ctor (by decide +kernel) (by decide +kernel) (by decide +kernel)
  have hf : FlowIs twoRoutes ['s'] ['t'] 2 := flowIs_of (fuel := 400) (by decide +kernel)
  have := (C144_cut_partial hok hf).1 R hs ht
  rw [h2.1, h2.2]
  exact ⟨this, this⟩

end Props
end Pytimize
