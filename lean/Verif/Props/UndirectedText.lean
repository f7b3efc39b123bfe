/-
Property C97: the text of an undirected graph shows its vertices and neighbours.
-/
import Verif.Graph.UndirectedText
import Verif.Props.Undirected
import Mathlib.Data.List.Dedup

namespace Pytimize.Props
open Pytimize.Undirected
open Pytimize.Directed (Name)

theorem splitOn_joinBy (sep : Char) (l : List Name) (hl : l ≠ []) (h : ∀ a ∈ l, sep ∉ a) :
    (joinBy sep l).splitOn sep = l := by
  induction l with
  | nil => exact absurd rfl hl
  | cons a l ih =>
    cases l with
    | nil => exact List.splitOn_eq_singleton (h a List.mem_cons_self)
    | cons b l =>
      rw [joinBy, List.splitOn_append_cons_self_of_not_mem (h a List.mem_cons_self),
        ih (by simp) fun x hx => h x (List.mem_cons_of_mem _ hx)]

theorem joinBy_nil_iff {sep : Char} {l : List Name} (h : ∀ a ∈ l, a ≠ []) : joinBy sep l = [] ↔ l = [] := by
  cases l with
  | nil => simp [joinBy]
  | cons a l =>
    have ha := h a List.mem_cons_self
    cases l with
    | nil => simp [joinBy, ha]
    | cons b l => simp [joinBy]

/-- Joining is injective for nonempty pieces without the separator. -/
theorem joinBy_inj {sep : Char} {l l' : List Name} (h : ∀ a ∈ l, a ≠ [] ∧ sep ∉ a) (h' : ∀ a ∈ l', a ≠ [] ∧ sep ∉ a)
    (e : joinBy sep l = joinBy sep l') : l = l' := by
  by_cases hl : l = []
  · have : joinBy sep l' = [] := by rw [← e, hl]; rfl
    rw [hl, (joinBy_nil_iff fun a ha => (h' a ha).1).mp this]
  · have hl' : l' ≠ [] := by
      rintro rfl
      exact hl ((joinBy_nil_iff fun a ha => (h a ha).1).mp e)
    rw [← splitOn_joinBy sep l hl fun a ha => (h a ha).2, e, splitOn_joinBy sep l' hl' fun a ha => (h' a ha).2]

theorem sortNames_perm (l : List Name) : (sortNames l).Perm l := List.perm_insertionSort _ l

theorem sortNames_eq_iff {l l' : List Name} : sortNames l = sortNames l' ↔ l.Perm l' := by
  constructor
  · intro e
    exact (sortNames_perm l).symm.trans (e ▸ sortNames_perm l')
  · intro h
    exact List.Perm.eq_of_sortedLE List.sortedLE_insertionSort List.sortedLE_insertionSort
      ((sortNames_perm l).trans (h.trans (sortNames_perm l').symm))

/-- A name without the characters the text uses. -/
def Clean (v : Name) : Prop := ':' ∉ v ∧ '-' ∉ v ∧ '\n' ∉ v

/-- The vertices of a graph have such names. -/
def CleanGraph (g : Ugraph) : Prop := ∀ v ∈ g.vertices.keys, Clean v

/-- Same vertices and same neighbours. -/
def SameShape (g g' : Ugraph) : Prop :=
  (∀ v, hasVertex g v = hasVertex g' v) ∧ ∀ a b, Adj g a b ↔ Adj g' a b

theorem append_colon_inj {v v' t t' : Name} (hv : ':' ∉ v) (hv' : ':' ∉ v') (e : v ++ ':' :: t = v' ++ ':' :: t') :
    v = v' ∧ t = t' := by
  have h1 := congrArg (List.splitOn ':') e
  rw [List.splitOn_append_cons_self_of_not_mem hv, List.splitOn_append_cons_self_of_not_mem hv'] at h1
  have : v = v' := by injection h1
  subst this
  simpa using e

theorem neighbour_names {g : Ugraph} (hw : Weak g) {v : Name} {l : List Name} (hl : g.graph.get? v = some l) :
    ∀ u ∈ l, u ≠ [] ∧ u ∈ g.vertices.keys := by
  intro u hu
  have ha : Adj g v u := ⟨l, hl, hu⟩
  have hm := hw.sub _ _ ha
  rcases norm_cases v u with hn | hn <;> rw [hn] at hm
  · exact ⟨(hw.nonempty _ _ hm).2, (hw.ends _ _ hm).2⟩
  · exact ⟨(hw.nonempty _ _ hm).1, (hw.ends _ _ hm).1⟩

theorem lineText_inj {g g' : Ugraph} (hw : Weak g) (hw' : Weak g') (hc : CleanGraph g) (hc' : CleanGraph g')
    {v v' : Name} {l l' : List Name} (hl : g.graph.get? v = some l) (hl' : g'.graph.get? v' = some l')
    (e : lineText v l = lineText v' l') : v = v' ∧ l.Perm l' := by
  have hv := hc v ((hw.dom v).mpr (Dict.mem_keys_of_get? hl))
  have hv' := hc' v' ((hw'.dom v').mpr (Dict.mem_keys_of_get? hl'))
  obtain ⟨e1, e2⟩ := append_colon_inj hv.1 hv'.1 e
  refine ⟨e1, ?_⟩
  rw [List.cons_inj_right] at e2
  rw [← sortNames_eq_iff]
  refine joinBy_inj (fun a ha => ?_) (fun a ha => ?_) e2
  · obtain ⟨k1, k2⟩ := neighbour_names hw hl a ((sortNames_perm l).mem_iff.mp ha)
    exact ⟨k1, (hc a k2).2.1⟩
  · obtain ⟨k1, k2⟩ := neighbour_names hw' hl' a ((sortNames_perm l').mem_iff.mp ha)
    exact ⟨k1, (hc' a k2).2.1⟩

theorem mem_joinBy {sep c : Char} {l : List Name} (h : c ∈ joinBy sep l) : c = sep ∨ ∃ a ∈ l, c ∈ a := by
  induction l with
  | nil => simp [joinBy] at h
  | cons a l ih =>
    cases l with
    | nil => exact Or.inr ⟨a, List.mem_cons_self, h⟩
    | cons b l =>
      rw [joinBy, List.mem_append, List.mem_cons] at h
      rcases h with h | h | h
      · exact Or.inr ⟨a, List.mem_cons_self, h⟩
      · exact Or.inl h
      · exact (ih h).imp_right fun ⟨x, hx, hc⟩ => ⟨x, List.mem_cons_of_mem _ hx, hc⟩

theorem mem_lines {g : Ugraph} (hw : Weak g) {t : Name} :
    t ∈ sortNames (g.graph.map fun p => lineText p.1 p.2).dedup ↔
      ∃ v l, g.graph.get? v = some l ∧ t = lineText v l := by
  rw [(sortNames_perm _).mem_iff, List.mem_dedup, List.mem_map]
  constructor
  · rintro ⟨⟨v, l⟩, hm, rfl⟩
    exact ⟨v, l, Dict.get?_of_mem hw.graphWF hm, rfl⟩
  · rintro ⟨v, l, hm, rfl⟩
    exact ⟨(v, l), Dict.mem_of_get? hm, rfl⟩

theorem lines_clean {g : Ugraph} (hw : Weak g) (hc : CleanGraph g) :
    ∀ t ∈ sortNames (g.graph.map fun p => lineText p.1 p.2).dedup, t ≠ [] ∧ '\n' ∉ t := by
  intro t ht
  obtain ⟨v, l, hl, rfl⟩ := (mem_lines hw).mp ht
  refine ⟨by simp [lineText], fun hn => ?_⟩
  unfold lineText at hn
  rw [List.mem_append, List.mem_cons, List.mem_cons] at hn
  rcases hn with hn | hn | hn | hn
  · exact (hc v ((hw.dom v).mpr (Dict.mem_keys_of_get? hl))).2.2 hn
  · cases hn
  · cases hn
  · rcases mem_joinBy hn with hn | ⟨a, ha, hn⟩
    · cases hn
    · exact (hc a (neighbour_names hw hl a ((sortNames_perm l).mem_iff.mp ha)).2).2.2 hn

/-- C97, half: the text tells the vertices and the neighbours of each. -/
theorem repr_reads {g g' : Ugraph} (hw : Weak g) (hw' : Weak g') (hc : CleanGraph g) (hc' : CleanGraph g')
    (e : reprGraph g = reprGraph g') : SameShape g g' := by
  have hlines := joinBy_inj (lines_clean hw hc) (lines_clean hw' hc') e
  have key : ∀ {g g' : Ugraph}, Weak g → Weak g' → CleanGraph g → CleanGraph g' →
      sortNames (g.graph.map fun p => lineText p.1 p.2).dedup = sortNames (g'.graph.map fun p => lineText p.1 p.2).dedup →
      (∀ v, hasVertex g v = true → hasVertex g' v = true) ∧ ∀ a b, Adj g a b → Adj g' a b := by
    intro g g' hw hw' hc hc' hlines
    have step : ∀ v l, g.graph.get? v = some l → ∃ l', g'.graph.get? v = some l' ∧ l.Perm l' := by
      intro v l hl
      have : lineText v l ∈ sortNames (g'.graph.map fun p => lineText p.1 p.2).dedup :=
        hlines ▸ (mem_lines hw).mpr ⟨v, l, hl, rfl⟩
      obtain ⟨v', l', hl', e⟩ := (mem_lines hw').mp this
      obtain ⟨rfl, hp⟩ := lineText_inj hw hw' hc hc' hl hl' e
      exact ⟨l', hl', hp⟩
    refine ⟨fun v hv => ?_, fun a b ⟨l, hl, hb⟩ => ?_⟩
    · rw [hasVertex_iff, hw.dom] at hv
      obtain ⟨l, hl⟩ := Dict.exists_get?_of_mem hv
      obtain ⟨l', hl', -⟩ := step v l hl
      rw [hasVertex_iff, hw'.dom]
      exact Dict.mem_keys_of_get? hl'
    · obtain ⟨l', hl', hp⟩ := step a l hl
      exact ⟨l', hl', hp.mem_iff.mp hb⟩
  obtain ⟨k1, k2⟩ := key hw hw' hc hc' hlines
  obtain ⟨m1, m2⟩ := key hw' hw hc' hc hlines.symm
  exact ⟨fun v => by rw [Bool.eq_iff_iff]; exact ⟨k1 v, m1 v⟩, fun a b => ⟨k2 a b, m2 a b⟩⟩

/-- C97, half: graphs with the same vertices and neighbours have the same text, whatever the order in which they were
built; the names do not matter. -/
theorem C97_order {g g' : Ugraph} (hw : Weak g) (hw' : Weak g') (h : SameShape g g') : reprGraph g = reprGraph g' := by
  have key : ∀ {g g' : Ugraph}, Weak g → Weak g' → SameShape g g' → ∀ t,
      t ∈ (g.graph.map fun p => lineText p.1 p.2).dedup → t ∈ (g'.graph.map fun p => lineText p.1 p.2).dedup := by
    intro g g' hw hw' h t ht
    rw [← (sortNames_perm _).mem_iff, mem_lines hw] at ht
    obtain ⟨v, l, hl, rfl⟩ := ht
    have hv : hasVertex g' v = true := by
      rw [← h.1 v, hasVertex_iff, hw.dom]; exact Dict.mem_keys_of_get? hl
    rw [hasVertex_iff, hw'.dom] at hv
    obtain ⟨l', hl'⟩ := Dict.exists_get?_of_mem hv
    have hp : l.Perm l' := by
      refine (List.perm_ext_iff_of_nodup (hw.adjNodup v l hl) (hw'.adjNodup v l' hl')).mpr fun b => ?_
      constructor
      · intro hb
        obtain ⟨l2, h2, hb2⟩ := (h.2 v b).mp ⟨l, hl, hb⟩
        rw [hl'] at h2
        cases h2
        exact hb2
      · intro hb
        obtain ⟨l2, h2, hb2⟩ := (h.2 v b).mpr ⟨l', hl', hb⟩
        rw [hl] at h2
        cases h2
        exact hb2
    rw [← (sortNames_perm _).mem_iff, mem_lines hw']
    exact ⟨v, l', hl', by unfold lineText; rw [sortNames_eq_iff.mpr hp]⟩
  unfold reprGraph
  congr 1
  rw [sortNames_eq_iff]
  refine (List.perm_ext_iff_of_nodup (List.nodup_dedup _) (List.nodup_dedup _)).mpr fun t => ?_
  exact ⟨key hw hw' h t, key hw' hw ⟨fun v => (h.1 v).symm, fun a b => (h.2 a b).symm⟩ t⟩

/-- C97: after any history of calls on two graphs whose names do not contain `:`, `-` or line breaks, the texts are
equal exactly if the vertices and the neighbours of each are. -/
theorem C97_text {graph graph' : List (Name × List Name)} {edges edges' : List (Edge × ℚ)}
    {vertices vertices' : List (Name × ℚ)} {g g' : Ugraph} (h : ctor graph edges vertices = .ok g)
    (h' : ctor graph' edges' vertices' = .ok g') (ops ops' : List Op)
    (hc : ∀ v, hasVertex (run g ops) v = true → Clean v) (hc' : ∀ v, hasVertex (run g' ops') v = true → Clean v) :
    reprGraph (run g ops) = reprGraph (run g' ops') ↔ SameShape (run g ops) (run g' ops') := by
  have hw := (C15_any_history h ops).2.2.2.2
  have hw' := (C15_any_history h' ops').2.2.2.2
  exact ⟨repr_reads hw hw' (fun v hv => hc v (hasVertex_iff.mpr hv)) fun v hv => hc' v (hasVertex_iff.mpr hv),
    C97_order hw hw'⟩

/-- What is printed, on one example, and a graph that meets the hypotheses of `C97_text`. -/
example : reprGraph ugPath = "a: b\nb: a-c\nc: b\nd: ".toList ∧
    (∀ v, hasVertex (run ugTriangle [.removeEdge (na, nb')]) v = true → Clean v) := by
  refine ⟨by decide +kernel, fun v hv => ?_⟩
  have hm : v ∈ [na, nb', nc] := hasVertex_iff.mp hv
  simp only [List.mem_cons, List.not_mem_nil, or_false] at hm
  rcases hm with rfl | rfl | rfl <;> exact ⟨by decide, by decide, by decide⟩

/-- With `-` in names the text is ambiguous: vertices `p`, `q`, `p-q`, `r`, `s`, `r-s`; in one graph `p` and `q` are
joined to `r` and `s`, and `p-q` to `r-s`; in the other `p` and `q` to `r-s`, and `p-q` to `r` and `s`. -/
theorem C97_dash_wrong : ∃ g g', ctor [] [((['p'], ['r']), 0), ((['p'], ['s']), 0), ((['q'], ['r']), 0),
      ((['q'], ['s']), 0), ((['p', '-', 'q'], ['r', '-', 's']), 0)] [] = .ok g ∧
    ctor [] [((['p'], ['r', '-', 's']), 0), ((['q'], ['r', '-', 's']), 0), ((['p', '-', 'q'], ['r']), 0),
      ((['p', '-', 'q'], ['s']), 0)] [] = .ok g' ∧ reprGraph g = reprGraph g' ∧
    hasEdge g (['p'], ['r']) = true ∧ hasEdge g' (['p'], ['r']) = false := by
  generalize hg : ctor [] [((['p'], ['r']), 0), ((['p'], ['s']), 0), ((['q'], ['r']), 0),
      ((['q'], ['s']), 0), ((['p', '-', 'q'], ['r', '-', 's']), 0)] [] = r
  generalize hg' : ctor [] [((['p'], ['r', '-', 's']), 0), ((['q'], ['r', '-', 's']), 0), ((['p', '-', 'q'], ['r']), 0),
      ((['p', '-', 'q'], ['s']), 0)] [] = r'
  have h1 : r = .ok ⟨[(['p'], [['r'], ['s']]), (['r'], [['p'], ['q']]), (['s'], [['p'], ['q']]), (['q'], [['r'], ['s']]),
      (['p', '-', 'q'], [['r', '-', 's']]), (['r', '-', 's'], [['p', '-', 'q']])],
      [((['p'], ['r']), 0), ((['p'], ['s']), 0), ((['q'], ['r']), 0), ((['q'], ['s']), 0),
      ((['p', '-', 'q'], ['r', '-', 's']), 0)],
      [(['p'], 0), (['r'], 0), (['s'], 0), (['q'], 0), (['p', '-', 'q'], 0), (['r', '-', 's'], 0)]⟩ := by
    rw [← hg]; decide +kernel
  have h2 : r' = .ok ⟨[(['p'], [['r', '-', 's']]), (['r', '-', 's'], [['p'], ['q']]), (['q'], [['r', '-', 's']]),
      (['p', '-', 'q'], [['r'], ['s']]), (['r'], [['p', '-', 'q']]), (['s'], [['p', '-', 'q']])],
      [((['p'], ['r', '-', 's']), 0), ((['q'], ['r', '-', 's']), 0), ((['p', '-', 'q'], ['r']), 0),
      ((['p', '-', 'q'], ['s']), 0)],
      [(['p'], 0), (['r', '-', 's'], 0), (['q'], 0), (['p', '-', 'q'], 0), (['r'], 0), (['s'], 0)]⟩ := by
    rw [← hg']; decide +kernel
  exact ⟨_, _, h1, h2, by decide +kernel, by decide +kernel, by decide +kernel⟩

end Pytimize.Props
