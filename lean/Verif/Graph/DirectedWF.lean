/-
Well-formedness of the digraph object and its preservation by every mutating call.
-/
import Verif.Graph.Directed

namespace Pytimize
namespace Directed

/-- Specification: the object is a simple digraph. Endpoints of arcs are nodes, there are no self
loops, the adjacency sets agree with the arcs, and nodes and adjacency rows coincide. -/
structure DWF (g : Digraph) : Prop where
  arcsWF : g.arcs.WF
  nodesWF : g.nodes.WF
  graphWF : g.graph.WF
  endsTail : ∀ u v, (u, v) ∈ g.arcs.keys → u ∈ g.nodes.keys
  endsHead : ∀ u v, (u, v) ∈ g.arcs.keys → v ∈ g.nodes.keys
  noLoop : ∀ u v, (u, v) ∈ g.arcs.keys → u ≠ v
  adj : ∀ u v, (u, v) ∈ g.arcs.keys ↔ ∃ l, g.graph.get? u = some l ∧ v ∈ l
  adjNodup : ∀ u l, g.graph.get? u = some l → l.Nodup
  dom : ∀ u, u ∈ g.nodes.keys ↔ u ∈ g.graph.keys

theorem DWF_empty : DWF Digraph.empty := by
  constructor <;> simp [Digraph.empty, Dict.WF, Dict.keys, Dict.get?]

theorem hasNode_iff {g : Digraph} {v : Name} : hasNode g v = true ↔ v ∈ g.nodes.keys := Dict.has_iff

theorem hasArc_iff {g : Digraph} {a : Arc} : hasArc g a = true ↔ a ∈ g.arcs.keys := Dict.has_iff

theorem setArcWeight_spec {g : Digraph} (h : DWF g) (a : Arc) (w : ℚ) :
    DWF (setArcWeight g a w).1 ∧
    ((setArcWeight g a w).2 ≠ none → (setArcWeight g a w).1 = g) ∧
    ((setArcWeight g a w).2 = none → a ∈ g.arcs.keys ∧
      (setArcWeight g a w).1.arcs.keys = g.arcs.keys ∧ (setArcWeight g a w).1.nodes = g.nodes) := by
  unfold setArcWeight
  split
  · rename_i ha
    have hk : (g.arcs.set a w).keys = g.arcs.keys := by
      rw [Dict.keys_set, if_pos (hasArc_iff.mp ha)]
    refine ⟨⟨?_, h.nodesWF, h.graphWF, ?_, ?_, ?_, ?_, h.adjNodup, h.dom⟩, by simp,
      fun _ => ⟨hasArc_iff.mp ha, hk, rfl⟩⟩
    · exact Dict.WF_set h.arcsWF a w
    · intro u v huv; rw [hk] at huv; exact h.endsTail u v huv
    · intro u v huv; rw [hk] at huv; exact h.endsHead u v huv
    · intro u v huv; rw [hk] at huv; exact h.noLoop u v huv
    · intro u v; rw [hk]; exact h.adj u v
  · exact ⟨h, by simp, by simp⟩

theorem setNodeWeight_spec {g : Digraph} (h : DWF g) (v : Name) (w : ℚ) :
    DWF (setNodeWeight g v w).1 ∧
    ((setNodeWeight g v w).2 ≠ none → (setNodeWeight g v w).1 = g) := by
  unfold setNodeWeight
  split
  · rename_i ha
    have hk : (g.nodes.set v w).keys = g.nodes.keys := by
      rw [Dict.keys_set, if_pos (hasNode_iff.mp ha)]
    refine ⟨⟨h.arcsWF, Dict.WF_set h.nodesWF v w, h.graphWF, ?_, ?_, h.noLoop, h.adj, h.adjNodup,
      ?_⟩, by simp⟩
    · intro u x hux; rw [hk]; exact h.endsTail u x hux
    · intro u x hux; rw [hk]; exact h.endsHead u x hux
    · intro u; rw [hk]; exact h.dom u
  · exact ⟨h, by simp⟩

theorem addNode_spec {g : Digraph} (h : DWF g) (v : Name) (q : ℚ) :
    DWF (addNode g v q).1 ∧ ((addNode g v q).2 ≠ none → (addNode g v q).1 = g) ∧
    (addNode g v q).1.arcs = g.arcs ∧
    (v ∉ g.nodes.keys → (addNode g v q).2 = none ∧
      ∀ x, x ∈ (addNode g v q).1.nodes.keys ↔ x = v ∨ x ∈ g.nodes.keys) := by
  unfold addNode
  split
  · rename_i hv
    refine ⟨h, by simp, rfl, fun hc => absurd (hasNode_iff.mp hv) hc⟩
  · rename_i hv
    have hv' : v ∉ g.nodes.keys := fun hc => hv (hasNode_iff.mpr hc)
    have hvg : v ∉ g.graph.keys := fun hc => hv' ((h.dom v).mpr hc)
    have hnone : g.graph.get? v = none := Dict.get?_eq_none_iff.mpr hvg
    refine ⟨⟨h.arcsWF, Dict.WF_setDefault h.nodesWF _ _, Dict.WF_setDefault h.graphWF _ _, ?_, ?_,
      h.noLoop, ?_, ?_, ?_⟩, by simp, rfl, fun _ => ⟨rfl, fun x => Dict.mem_keys_setDefault⟩⟩
    · intro u x hux; exact Dict.mem_keys_setDefault.mpr (Or.inr (h.endsTail u x hux))
    · intro u x hux; exact Dict.mem_keys_setDefault.mpr (Or.inr (h.endsHead u x hux))
    · intro u x
      rw [h.adj u x]
      simp only [Dict.get?_setDefault]
      by_cases huv : v = u
      · subst huv; simp [hnone]
      · simp [huv]
    · intro u l hl
      simp only [Dict.get?_setDefault] at hl
      split at hl
      · rename_i huv; subst huv; simp [hnone] at hl; subst hl; simp
      · exact h.adjNodup u l hl
    · intro u
      simp only [Dict.mem_keys_setDefault]
      rw [h.dom u]

/-- The object between the insertion of the arc and the insertion of the missing endpoints
satisfies everything except that endpoints are nodes. -/
structure DPre (g : Digraph) (a : Arc) : Prop where
  arcsWF : g.arcs.WF
  nodesWF : g.nodes.WF
  graphWF : g.graph.WF
  endsTail : ∀ u v, (u, v) ∈ g.arcs.keys → u ∈ g.nodes.keys ∨ u = a.1
  endsHead : ∀ u v, (u, v) ∈ g.arcs.keys → v ∈ g.nodes.keys ∨ v = a.2
  noLoop : ∀ u v, (u, v) ∈ g.arcs.keys → u ≠ v
  adj : ∀ u v, (u, v) ∈ g.arcs.keys ↔ ∃ l, g.graph.get? u = some l ∧ v ∈ l
  adjNodup : ∀ u l, g.graph.get? u = some l → l.Nodup
  dom : ∀ u, u ∈ g.graph.keys ↔ u ∈ g.nodes.keys ∨ u = a.1

theorem addNode_pre {g : Digraph} {a : Arc} (h : DPre g a) {v : Name} (hv : v ∉ g.nodes.keys)
    (q : ℚ) :
    ∃ g', addNode g v q = (g', none) ∧ g'.arcs = g.arcs ∧
      (∀ x, x ∈ g'.nodes.keys ↔ x = v ∨ x ∈ g.nodes.keys) ∧
      DPre g' a := by
  have hv' : hasNode g v = false := by
    rw [Bool.eq_false_iff]; exact fun hc => hv (hasNode_iff.mp hc)
  refine ⟨{ g with graph := g.graph.setDefault v [], nodes := g.nodes.setDefault v q }, by
    simp [addNode, hv'], rfl, fun x => Dict.mem_keys_setDefault, ?_⟩
  refine ⟨h.arcsWF, Dict.WF_setDefault h.nodesWF _ _, Dict.WF_setDefault h.graphWF _ _, ?_, ?_,
    h.noLoop, ?_, ?_, ?_⟩
  · intro u x hux
    rcases h.endsTail u x hux with h1 | h1
    · exact Or.inl (Dict.mem_keys_setDefault.mpr (Or.inr h1))
    · exact Or.inr h1
  · intro u x hux
    rcases h.endsHead u x hux with h1 | h1
    · exact Or.inl (Dict.mem_keys_setDefault.mpr (Or.inr h1))
    · exact Or.inr h1
  · intro u x
    rw [h.adj u x]
    simp only [Dict.get?_setDefault]
    by_cases huv : v = u
    · subst huv
      simp only [if_true]
      cases hg : g.graph.get? v <;> simp
    · simp [huv]
  · intro u l hl
    simp only [Dict.get?_setDefault] at hl
    split at hl
    · rename_i huv; subst huv
      cases hg : g.graph.get? v with
      | none => simp [hg] at hl; subst hl; simp
      | some l' => simp [hg] at hl; subst hl; exact h.adjNodup _ _ hg
    · exact h.adjNodup u l hl
  · intro u
    simp only [Dict.mem_keys_setDefault]
    rw [h.dom u]
    tauto

theorem DPre.toDWF {g : Digraph} {a : Arc} (h : DPre g a) (h1 : a.1 ∈ g.nodes.keys)
    (h2 : a.2 ∈ g.nodes.keys) : DWF g := by
  refine ⟨h.arcsWF, h.nodesWF, h.graphWF, ?_, ?_, h.noLoop, h.adj, h.adjNodup, ?_⟩
  · intro u v huv
    rcases h.endsTail u v huv with h3 | h3
    · exact h3
    · exact h3 ▸ h1
  · intro u v huv
    rcases h.endsHead u v huv with h3 | h3
    · exact h3
    · exact h3 ▸ h2
  · intro u
    rw [h.dom u]
    constructor
    · exact Or.inl
    · rintro (h3 | h3)
      · exact h3
      · exact h3 ▸ h1

/-- The state right after `_graph`/`_arcs` have been written. -/
theorem pre_addArc {g : Digraph} (h : DWF g) {a : Arc} (ha : a ∉ g.arcs.keys) (hne : a.1 ≠ a.2)
    (w : ℚ) :
    DPre { g with
      graph := g.graph.set a.1 (setAdd ((g.graph.get? a.1).getD []) a.2)
      arcs := g.arcs.setDefault a w } a := by
  obtain ⟨s, t⟩ := a
  have hnew : t ∉ (g.graph.get? s).getD [] := by
    intro hc
    cases hg : g.graph.get? s with
    | none => simp [hg] at hc
    | some l =>
      simp [hg] at hc
      exact ha ((h.adj s t).mpr ⟨l, hg, hc⟩)
  refine ⟨Dict.WF_setDefault h.arcsWF _ _, h.nodesWF, Dict.WF_set h.graphWF _ _, ?_, ?_, ?_, ?_, ?_,
    ?_⟩
  · intro u v huv
    rcases Dict.mem_keys_setDefault.mp huv with h1 | h1
    · cases h1; exact Or.inr rfl
    · exact Or.inl (h.endsTail u v h1)
  · intro u v huv
    rcases Dict.mem_keys_setDefault.mp huv with h1 | h1
    · cases h1; exact Or.inr rfl
    · exact Or.inl (h.endsHead u v h1)
  · intro u v huv
    rcases Dict.mem_keys_setDefault.mp huv with h1 | h1
    · cases h1; exact hne
    · exact h.noLoop u v h1
  · intro u v
    simp only [Dict.mem_keys_setDefault, Dict.get?_set]
    rw [h.adj u v]
    by_cases hsu : s = u
    · subst hsu
      simp only [Prod.mk.injEq, true_and, if_true, Option.some.injEq, exists_eq_left']
      unfold setAdd
      rw [if_neg hnew]
      simp only [List.mem_append, List.mem_singleton]
      cases hg : g.graph.get? s with
      | none => simp
      | some l => simp [or_comm]
    · simp [hsu, Ne.symm hsu]
  · intro u l hl
    simp only [Dict.get?_set] at hl
    split at hl
    · rename_i hsu; subst hsu
      cases hl
      unfold setAdd
      rw [if_neg hnew, List.nodup_append]
      refine ⟨?_, by simp, ?_⟩
      · cases hg : g.graph.get? s with
        | none => simp
        | some l => simpa using h.adjNodup _ _ hg
      · intro x hx y hy
        simp at hy; subst hy
        rintro rfl; exact hnew hx
    · exact h.adjNodup u l hl
  · intro u
    simp only [Dict.mem_keys_set]
    rw [← h.dom u]
    tauto

/-- The `demands` values that `add_arc` can process for this arc without an exception: nothing,
a falsy value, or a tuple that is long enough for the new endpoints. -/
def DemandsOk (g : Digraph) (a : Arc) (d : Demands) : Prop :=
  (a.1 ∉ g.nodes.keys → ∃ q, d.entry 0 = .ok q) ∧ (a.2 ∉ g.nodes.keys → ∃ q, d.entry 1 = .ok q)

theorem entry_ok_truthy {d : Demands} {i : ℕ} {q : ℚ} (h : d.entry i = .ok q) :
    (d.truthy && !d.isTuple) = false := by
  cases d with
  | none => rfl
  | scalar r =>
    unfold Demands.entry at h
    split at h
    · cases h
    · rename_i ht; simp [ht]
  | tuple l => simp [Demands.isTuple]

theorem DemandsOk_none (g : Digraph) (a : Arc) : DemandsOk g a .none :=
  ⟨fun _ => ⟨0, rfl⟩, fun _ => ⟨0, rfl⟩⟩

/-- `add_arc` with acceptable demands either raises without any change, or adds the arc. -/
theorem addArc_spec {g : Digraph} (h : DWF g) (a : Arc) (w : ℚ) (d : Demands)
    (hd : DemandsOk g a d) :
    DWF (addArc g a w d).1 ∧ ((addArc g a w d).2 ≠ none → (addArc g a w d).1 = g) ∧
    (a ∉ g.arcs.keys → a.1 ≠ a.2 →
      (addArc g a w d).2 = none ∧ (addArc g a w d).1.arcs = g.arcs.setDefault a w ∧
      ∀ x, x ∈ (addArc g a w d).1.nodes.keys ↔ x = a.1 ∨ x = a.2 ∨ x ∈ g.nodes.keys) := by
  unfold addArc
  split
  · rename_i ha; exact ⟨h, by simp, fun hc => absurd (hasArc_iff.mp ha) hc⟩
  · rename_i ha
    split
    · rename_i hne; exact ⟨h, by simp, fun _ hc => absurd hne hc⟩
    · rename_i hne
      have ha' : a ∉ g.arcs.keys := fun hc => ha (hasArc_iff.mpr hc)
      have hp := pre_addArc h ha' hne w
      set g1 : Digraph := { g with
        graph := g.graph.set a.1 (setAdd ((g.graph.get? a.1).getD []) a.2)
        arcs := g.arcs.setDefault a w } with hg1
      have hn1 : g1.nodes = g.nodes := rfl
      have hend : ∀ (gx : Digraph) (i : ℕ) (v : Name) (q : ℚ), d.entry i = .ok q →
          addEnd gx v d i = addNode gx v q := by
        intro gx i v q hq; simp [addEnd, hq]
      have hhas : ∀ (gx : Digraph) (v : Name), hasNode gx v = decide (v ∈ gx.nodes.keys) := by
        intro gx v
        rw [Bool.eq_iff_iff, hasNode_iff, decide_eq_true_iff]
      simp only [hhas]
      by_cases h1 : a.1 ∈ g.nodes.keys <;> by_cases h2 : a.2 ∈ g.nodes.keys
      · simp only [hn1, h1, h2, decide_true, Bool.not_true, Bool.and_false, Bool.false_eq_true,
          if_false]
        refine ⟨hp.toDWF h1 h2, by simp, fun _ _ => ⟨by trivial, rfl, fun x => ?_⟩⟩
        constructor
        · intro hx; exact Or.inr (Or.inr hx)
        · rintro (rfl | rfl | hx) <;> assumption
      · obtain ⟨q, hq⟩ := hd.2 h2
        obtain ⟨g2, e1, e2, e3, e4⟩ := addNode_pre hp (v := a.2) h2 q
        simp only [hn1, h1, h2, decide_true, decide_false, Bool.not_true, Bool.not_false,
          Bool.false_and, Bool.false_eq_true, if_false, if_true, hend g1 1 a.2 q hq, e1]
        refine ⟨e4.toDWF ((e3 _).mpr (Or.inr h1)) ((e3 _).mpr (Or.inl rfl)), by simp,
          fun _ _ => ⟨by trivial, e2, fun x => ?_⟩⟩
        rw [e3]
        constructor
        · rintro (hx | hx)
          · exact Or.inr (Or.inl hx)
          · exact Or.inr (Or.inr hx)
        · rintro (rfl | rfl | hx)
          · exact Or.inr h1
          · exact Or.inl rfl
          · exact Or.inr hx
      · obtain ⟨q, hq⟩ := hd.1 h1
        obtain ⟨g2, e1, e2, e3, e4⟩ := addNode_pre hp (v := a.1) h1 q
        simp only [hn1, h1, h2, decide_true, decide_false, Bool.not_true, Bool.not_false,
          Bool.and_false, Bool.false_eq_true, if_false, if_true, hend g1 0 a.1 q hq, e1]
        refine ⟨e4.toDWF ((e3 _).mpr (Or.inl rfl)) ((e3 _).mpr (Or.inr h2)), by simp,
          fun _ _ => ⟨by trivial, e2, fun x => ?_⟩⟩
        rw [e3]
        constructor
        · rintro (hx | hx)
          · exact Or.inl hx
          · exact Or.inr (Or.inr hx)
        · rintro (rfl | rfl | hx)
          · exact Or.inl rfl
          · exact Or.inr h2
          · exact Or.inr hx
      · obtain ⟨q, hq⟩ := hd.1 h1
        obtain ⟨q', hq'⟩ := hd.2 h2
        obtain ⟨g2, e1, e2, e3, e4⟩ := addNode_pre hp (v := a.1) h1 q
        have h2' : a.2 ∉ g2.nodes.keys := by
          rw [e3]; rintro (hc | hc)
          · exact hne hc.symm
          · exact h2 hc
        obtain ⟨g3, f1, f2, f3, f4⟩ := addNode_pre e4 (v := a.2) h2' q'
        simp only [hn1, h1, h2, decide_false, Bool.not_false, Bool.and_self, if_true,
          entry_ok_truthy hq, Bool.false_eq_true, if_false, hend g1 0 a.1 q hq, e1,
          hend g2 1 a.2 q' hq', f1]
        refine ⟨f4.toDWF ((f3 _).mpr (Or.inr ((e3 _).mpr (Or.inl rfl))))
          ((f3 _).mpr (Or.inl rfl)), by simp, fun _ _ => ⟨by trivial, f2.trans e2, fun x => ?_⟩⟩
        rw [f3, e3]
        tauto

theorem cut_nil_of_connections {g : Digraph} {n : NodeArg} (h : connections g n = 0) :
    cut g n = [] ∧ ncut g n = [] := by
  unfold connections indegree outdegree at h
  constructor <;> apply List.eq_nil_of_length_eq_zero <;> omega

/-- For a one-character name, `connections(v) == 0` means that no arc touches `v`. -/
theorem isolated_of_connections {g : Digraph} (h : DWF g) {v : Name} (hv : chars v = [v])
    (hc : connections g (.name v) = 0) : ∀ u x, (u, x) ∈ g.arcs.keys → u ≠ v ∧ x ≠ v := by
  obtain ⟨h1, h2⟩ := cut_nil_of_connections hc
  intro u x hux
  have hne := h.noLoop u x hux
  constructor
  · rintro rfl
    have : (u, x) ∈ cut g (.name u) := by
      unfold cut
      rw [List.mem_filter]
      simp [NodeArg.toSet, hv, hux, hne.symm]
    simp [h1] at this
  · rintro rfl
    have : (u, x) ∈ ncut g (.name x) := by
      unfold ncut
      rw [List.mem_filter]
      simp [NodeArg.toSet, hv, hux, hne]
    simp [h2] at this

theorem dropNode_spec {g : Digraph} (h : DWF g) {v : Name} (hv : v ∈ g.nodes.keys)
    (hiso : ∀ u x, (u, x) ∈ g.arcs.keys → u ≠ v ∧ x ≠ v) :
    ∃ g', dropNode g v = (g', none) ∧ DWF g' ∧ g'.arcs = g.arcs ∧
      ∀ x, x ∈ g'.nodes.keys ↔ x ≠ v ∧ x ∈ g.nodes.keys := by
  have h1 : g.graph.has v = true := Dict.has_iff.mpr ((h.dom v).mp hv)
  have h2 : g.nodes.has v = true := Dict.has_iff.mpr hv
  refine ⟨{ g with graph := g.graph.del v, nodes := g.nodes.del v }, by
    simp [dropNode, h1, h2], ?_, rfl, fun x => Dict.mem_keys_del h.nodesWF⟩
  refine ⟨h.arcsWF, Dict.WF_del h.nodesWF v, Dict.WF_del h.graphWF v, ?_, ?_, h.noLoop, ?_, ?_, ?_⟩
  · intro u x hux
    exact (Dict.mem_keys_del h.nodesWF).mpr ⟨(hiso u x hux).1, h.endsTail u x hux⟩
  · intro u x hux
    exact (Dict.mem_keys_del h.nodesWF).mpr ⟨(hiso u x hux).2, h.endsHead u x hux⟩
  · intro u x
    simp only [Dict.get?_del h.graphWF]
    by_cases huv : v = u
    · subst huv
      simp only [if_true]
      constructor
      · intro hc; exact absurd rfl (hiso _ _ hc).1
      · rintro ⟨l, hl, _⟩; cases hl
    · simp only [huv, if_false]; exact h.adj u x
  · intro u l hl
    simp only [Dict.get?_del h.graphWF] at hl
    split at hl
    · cases hl
    · exact h.adjNodup u l hl
  · intro u
    simp only [Dict.mem_keys_del h.nodesWF, Dict.mem_keys_del h.graphWF, h.dom u]

/-- `remove_arc`; with `remove_nodes` the endpoint names must be one character long. -/
theorem removeArc_spec {g : Digraph} (h : DWF g) (a : Arc) (r : Bool)
    (hr : r = true → chars a.1 = [a.1] ∧ chars a.2 = [a.2]) :
    DWF (removeArc g a r).1 ∧ ((removeArc g a r).2 ≠ none → (removeArc g a r).1 = g) ∧
    (a ∈ g.arcs.keys → (removeArc g a r).2 = none ∧ (removeArc g a r).1.arcs = g.arcs.del a ∧
      ∀ x, x ∈ (removeArc g a r).1.nodes.keys ↔ x ∈ g.nodes.keys ∧
        (r = true → (x = a.1 ∨ x = a.2) →
          ∃ y, ((x, y) ∈ g.arcs.keys ∧ (x, y) ≠ a) ∨ ((y, x) ∈ g.arcs.keys ∧ (y, x) ≠ a))) := by
  unfold removeArc
  split
  swap
  · rename_i ha; exact ⟨h, by simp, fun hc => absurd (hasArc_iff.mpr hc) ha⟩
  rename_i ha
  have ha' := hasArc_iff.mp ha
  obtain ⟨s, t⟩ := a
  obtain ⟨l, hl, htl⟩ := (h.adj s t).mp ha'
  have hne := h.noLoop s t ha'
  simp only [hl, htl, if_true]
  set g2 : Digraph := { g with arcs := g.arcs.del (s, t), graph := g.graph.set s (l.erase t) }
    with hg2
  have hk : ∀ b, b ∈ g2.arcs.keys ↔ b ≠ (s, t) ∧ b ∈ g.arcs.keys :=
    fun b => Dict.mem_keys_del h.arcsWF
  have hgk : g2.graph.keys = g.graph.keys := by
    show (g.graph.set s _).keys = _
    rw [Dict.keys_set, if_pos (Dict.mem_keys_of_get? hl)]
  have hw : DWF g2 := by
    refine ⟨Dict.WF_del h.arcsWF _, h.nodesWF, Dict.WF_set h.graphWF _ _, ?_, ?_, ?_, ?_, ?_, ?_⟩
    · intro u v huv; exact h.endsTail u v ((hk _).mp huv).2
    · intro u v huv; exact h.endsHead u v ((hk _).mp huv).2
    · intro u v huv; exact h.noLoop u v ((hk _).mp huv).2
    · intro u v
      rw [hk, h.adj u v]
      show _ ↔ ∃ l', (g.graph.set s (l.erase t)).get? u = some l' ∧ v ∈ l'
      rw [Dict.get?_set]
      by_cases hsu : s = u
      · subst hsu
        simp only [if_true, Option.some.injEq, exists_eq_left', hl, ne_eq, Prod.mk.injEq, true_and,
          (h.adjNodup _ _ hl).mem_erase_iff]
      · simp [hsu, Ne.symm hsu]
    · intro u l' hl'
      have hl'' : (g.graph.set s (l.erase t)).get? u = some l' := hl'
      rw [Dict.get?_set] at hl''
      split at hl''
      · cases hl''; exact (h.adjNodup _ _ hl).erase t
      · exact h.adjNodup u l' hl''
    · intro u; rw [hgk]; exact h.dom u
  cases r with
  | false => exact ⟨hw, by simp, fun _ => ⟨rfl, rfl, fun x => by simp [hg2]⟩⟩
  | true =>
    obtain ⟨hc1, hc2⟩ := hr rfl
    simp only [if_true] at hc1 hc2 ⊢
    have hiso2 : ∀ {gx : Digraph} (v : Name), DWF gx → chars v = [v] → gx.arcs = g2.arcs →
        (connections gx (.name v) = 0 ↔
          ¬ ∃ y, ((v, y) ∈ g.arcs.keys ∧ (v, y) ≠ (s, t)) ∨ ((y, v) ∈ g.arcs.keys ∧ (y, v) ≠ (s, t)))
        := by
      intro gx v hgx hv hax
      constructor
      · intro hc
        have := isolated_of_connections hgx hv hc
        rintro ⟨y, ⟨h1, h2⟩ | ⟨h1, h2⟩⟩
        · exact (this v y (by rw [hax, hk]; exact ⟨h2, h1⟩)).1 rfl
        · exact (this y v (by rw [hax, hk]; exact ⟨h2, h1⟩)).2 rfl
      · intro hc
        have key : cut gx (.name v) = [] ∧ ncut gx (.name v) = [] := by
          constructor
          · apply List.eq_nil_iff_forall_not_mem.mpr
            rintro ⟨p, q⟩ hpq
            unfold cut at hpq
            rw [List.mem_filter, hax, hk] at hpq
            simp only [NodeArg.toSet, hv, List.mem_singleton, Bool.and_eq_true,
              decide_eq_true_eq] at hpq
            obtain ⟨⟨h1, h2⟩, h3, _⟩ := hpq
            subst h3
            exact hc ⟨q, Or.inl ⟨h2, h1⟩⟩
          · apply List.eq_nil_iff_forall_not_mem.mpr
            rintro ⟨p, q⟩ hpq
            unfold ncut at hpq
            rw [List.mem_filter, hax, hk] at hpq
            simp only [NodeArg.toSet, hv, List.mem_singleton, Bool.and_eq_true,
              decide_eq_true_eq] at hpq
            obtain ⟨⟨h1, h2⟩, h3, _⟩ := hpq
            subst h3
            exact hc ⟨p, Or.inr ⟨h2, h1⟩⟩
        simp [connections, indegree, outdegree, key.1, key.2]
    have hsn : s ∈ g2.nodes.keys := h.endsTail s t ha'
    have htn : t ∈ g2.nodes.keys := h.endsHead s t ha'
    -- first endpoint
    obtain ⟨g3, e1, e2, e3, e4⟩ : ∃ g3,
        (if connections g2 (.name s) = 0 then dropNode g2 s else (g2, none)) = (g3, none) ∧
        DWF g3 ∧ g3.arcs = g2.arcs ∧
        ∀ x, x ∈ g3.nodes.keys ↔ x ∈ g.nodes.keys ∧ (x = s → ∃ y,
          ((x, y) ∈ g.arcs.keys ∧ (x, y) ≠ (s, t)) ∨ ((y, x) ∈ g.arcs.keys ∧ (y, x) ≠ (s, t))) := by
      by_cases hc : connections g2 (.name s) = 0
      · obtain ⟨g3, f1, f2, f3, f4⟩ := dropNode_spec hw hsn (isolated_of_connections hw hc1 hc)
        refine ⟨g3, by rw [if_pos hc]; exact f1, f2, f3, fun x => ?_⟩
        rw [f4]
        have := (hiso2 s hw hc1 rfl).mp hc
        constructor
        · rintro ⟨h1, h2⟩; exact ⟨h2, fun hx => absurd hx h1⟩
        · rintro ⟨h1, h2⟩
          refine ⟨?_, h1⟩
          rintro rfl
          exact this (h2 rfl)
      · refine ⟨g2, by rw [if_neg hc], hw, rfl, fun x => ?_⟩
        have := not_not.mp (fun hcc => hc ((hiso2 s hw hc1 rfl).mpr hcc))
        constructor
        · intro h1
          refine ⟨h1, ?_⟩
          rintro rfl
          exact this
        · exact fun h1 => h1.1
    simp only [e1]
    have htn3 : t ∈ g3.nodes.keys := (e4 t).mpr ⟨htn, fun hx => absurd hx.symm hne⟩
    by_cases hc : connections g3 (.name t) = 0
    · obtain ⟨g4, f1, f2, f3, f4⟩ := dropNode_spec e2 htn3 (isolated_of_connections e2 hc2 hc)
      simp only [hc, if_true, f1]
      refine ⟨f2, by simp, fun _ => ⟨by trivial, f3.trans e3, fun x => ?_⟩⟩
      have := (hiso2 t e2 hc2 e3).mp hc
      rw [f4, e4]
      constructor
      · rintro ⟨h1, h2, h3⟩
        refine ⟨h2, fun _ hx => ?_⟩
        rcases hx with hx | hx
        · exact h3 hx
        · exact absurd hx h1
      · rintro ⟨h1, h2⟩
        refine ⟨?_, h1, fun hx => h2 trivial (Or.inl hx)⟩
        rintro rfl
        exact this (h2 trivial (Or.inr rfl))
    · simp only [hc, if_false]
      refine ⟨e2, by simp, fun _ => ⟨by trivial, e3, fun x => ?_⟩⟩
      have := not_not.mp (fun hcc => hc ((hiso2 t e2 hc2 e3).mpr hcc))
      rw [e4]
      constructor
      · rintro ⟨h1, h2⟩
        refine ⟨h1, fun _ hx => ?_⟩
        rcases hx with hx | hx
        · exact h2 hx
        · subst hx; exact this
      · rintro ⟨h1, h2⟩
        exact ⟨h1, fun hx => h2 trivial (Or.inl hx)⟩

/-! ### The constructor -/

theorem ctorConns_spec {g : Digraph} (h : DWF g) (u : Name) (vs : List Name) :
    (∀ g', ctorConns g u vs = (g', none) → DWF g') := by
  induction vs generalizing g with
  | nil => intro g' hg'; simp [ctorConns] at hg'; subst hg'; exact h
  | cons v vs ih =>
    intro g' hg'
    unfold ctorConns at hg'
    split at hg'
    · exact ih h g' hg'
    · have hs := addArc_spec h (u, v) 0 .none (DemandsOk_none _ _)
      split at hg'
      · simp at hg'
      · rename_i g1 heq
        rw [heq] at hs
        exact ih hs.1 g' hg'

theorem ctorGraph_spec {g : Digraph} (h : DWF g) (l : List (Name × List Name)) :
    ∀ g', ctorGraph g l = (g', none) → DWF g' := by
  induction l generalizing g with
  | nil => intro g' hg'; simp [ctorGraph] at hg'; subst hg'; exact h
  | cons p l ih =>
    obtain ⟨u, vs⟩ := p
    intro g' hg'
    unfold ctorGraph at hg'
    split at hg'
    · split at hg'
      · exact ih h g' hg'
      · have hs := addNode_spec h u 0
        split at hg'
        · simp at hg'
        · rename_i g1 heq
          rw [heq] at hs
          exact ih hs.1 g' hg'
    · split at hg'
      · simp at hg'
      · rename_i g1 heq
        exact ih (ctorConns_spec h u vs g1 heq) g' hg'

theorem ctorArcs_spec {g : Digraph} (h : DWF g) (l : List (Arc × ℚ)) :
    ∀ g', ctorArcs g l = (g', none) → DWF g' := by
  induction l generalizing g with
  | nil => intro g' hg'; simp [ctorArcs] at hg'; subst hg'; exact h
  | cons p l ih =>
    obtain ⟨a, w⟩ := p
    intro g' hg'
    unfold ctorArcs at hg'
    have hs : DWF (if hasArc g a then (g, none) else addArc g a w .none).1 := by
      split
      · exact h
      · exact (addArc_spec h a w .none (DemandsOk_none _ _)).1
    generalize (if hasArc g a then (g, none) else addArc g a w .none) = q at hg' hs
    obtain ⟨g1, e1⟩ := q
    cases e1 with
    | some e => simp at hg'
    | none =>
      simp only at hg' hs
      have hs2 := (setArcWeight_spec hs a w).1
      split at hg'
      · simp at hg'
      · rename_i g2 heq
        rw [heq] at hs2
        exact ih hs2 g' hg'

theorem ctorNodes_spec {g : Digraph} (h : DWF g) (l : List (Name × ℚ)) :
    ∀ g', ctorNodes g l = (g', none) → DWF g' := by
  induction l generalizing g with
  | nil => intro g' hg'; simp [ctorNodes] at hg'; subst hg'; exact h
  | cons p l ih =>
    obtain ⟨a, w⟩ := p
    intro g' hg'
    unfold ctorNodes at hg'
    have hs : DWF (if hasNode g a then (g, none) else addNode g a 0).1 := by
      split
      · exact h
      · exact (addNode_spec h a 0).1
    generalize (if hasNode g a then (g, none) else addNode g a 0) = q at hg' hs
    obtain ⟨g1, e1⟩ := q
    cases e1 with
    | some e => simp at hg'
    | none =>
      simp only at hg' hs
      have hs2 := (setNodeWeight_spec hs a w).1
      split at hg'
      · simp at hg'
      · rename_i g2 heq
        rw [heq] at hs2
        exact ih hs2 g' hg'

theorem ctor_spec {graph : List (Name × List Name)} {arcs : List (Arc × ℚ)}
    {nodes : List (Name × ℚ)} {g : Digraph} (h : ctor graph arcs nodes = .ok g) : DWF g := by
  unfold ctor at h
  split at h
  · cases h
  · rename_i g1 h1
    have w1 := ctorGraph_spec DWF_empty graph g1 h1
    split at h
    · cases h
    · rename_i g2 h2
      have w2 := ctorArcs_spec w1 arcs g2 h2
      split at h
      · cases h
      · rename_i g3 h3
        cases h
        exact ctorNodes_spec w2 nodes _ h3

end Directed
end Pytimize
