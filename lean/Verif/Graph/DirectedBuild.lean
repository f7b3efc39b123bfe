/-
What the constructor and the mutating calls of a directed graph do, in terms of a weighted digraph (`DNet`).
Specification and lemmas for C99.
-/
import Verif.Graph.DirectedWF
import Verif.Graph.UndirectedBuild

namespace Pytimize
namespace Directed

open Undirected (lastOf zeroIf zeroIf_true zeroIf_false zeroIf_or or_zeroIf Option.or_assoc' get?_isSome)

/-- Specification: a weighted digraph as a user thinks of it; `none` for a node or arc that is not there. -/
structure DNet where
  node : Name → Option ℚ
  arc : Arc → Option ℚ

/-- Specification: all that the object stores is what the net says. -/
structure DShows (g : Digraph) (N : DNet) : Prop where
  hasNode : ∀ v, hasNode g v = (N.node v).isSome
  node : ∀ v, g.nodes.get? v = N.node v
  hasArc : ∀ a, hasArc g a = (N.arc a).isSome
  arc : ∀ a, g.arcs.get? a = N.arc a
  successor : ∀ u v, (∃ l, g.graph.get? u = some l ∧ v ∈ l) ↔ (N.arc (u, v)).isSome = true

/-- The demand of the `i`-th end. -/
def demandOf : Demands → ℕ → ℚ
  | .tuple l, i => l.getD i 0
  | _, _ => 0

open Classical in
/-- Specification of one call; `none` if it is rejected. -/
noncomputable def DNet.step (N : DNet) : Op → Option DNet
  | .addNode v q => if N.node v = none then some { N with node := fun x => if x = v then some q else N.node x } else none
  | .addArc a w d =>
    if N.arc a = none ∧ a.1 ≠ a.2 then
      some { node := fun x => (N.node x).or
               (if x = a.1 then some (demandOf d 0) else if x = a.2 then some (demandOf d 1) else none)
             arc := fun b => if b = a then some w else N.arc b }
    else none
  | .removeArc a r =>
    if N.arc a = none then none
    else some { node := fun x =>
                  if r = true ∧ (x = a.1 ∨ x = a.2) ∧
                    ∀ y, (N.arc (x, y) = none ∨ (x, y) = a) ∧ (N.arc (y, x) = none ∨ (y, x) = a) then none
                  else N.node x
                arc := fun b => if b = a then none else N.arc b }
  | .setArcWeight a w => if N.arc a = none then none else some { N with arc := fun b => if b = a then some w else N.arc b }
  | .setNodeWeight v w =>
    if N.node v = none then none else some { N with node := fun x => if x = v then some w else N.node x }

/-- The object and the net agree, and the object is well formed. -/
structure DRep (g : Digraph) (N : DNet) : Prop where
  wf : DWF g
  node : ∀ v, g.nodes.get? v = N.node v
  arc : ∀ a, g.arcs.get? a = N.arc a

theorem DRep.mem_node {g : Digraph} {N : DNet} (h : DRep g N) (v : Name) :
    v ∈ g.nodes.keys ↔ (N.node v).isSome = true := by rw [← h.node, get?_isSome]

theorem DRep.mem_arc {g : Digraph} {N : DNet} (h : DRep g N) (a : Arc) :
    a ∈ g.arcs.keys ↔ (N.arc a).isSome = true := by rw [← h.arc, get?_isSome]

theorem DRep.hasNode {g : Digraph} {N : DNet} (h : DRep g N) (v : Name) : hasNode g v = (N.node v).isSome := by
  rw [Bool.eq_iff_iff, hasNode_iff, h.mem_node]

theorem DRep.hasArc {g : Digraph} {N : DNet} (h : DRep g N) (a : Arc) : hasArc g a = (N.arc a).isSome := by
  rw [Bool.eq_iff_iff, hasArc_iff, h.mem_arc]

theorem DRep.shows {g : Digraph} {N : DNet} (h : DRep g N) : DShows g N :=
  ⟨h.hasNode, h.node, h.hasArc, h.arc, fun u v => by rw [← h.wf.adj, h.mem_arc]⟩

theorem DRep_empty : DRep Digraph.empty ⟨fun _ => none, fun _ => none⟩ := ⟨DWF_empty, fun _ => rfl, fun _ => rfl⟩

/-- The demands that `add_arc` can work with: nothing, a falsy value, or a tuple of at least two numbers. -/
def PlainDemands (d : Demands) : Prop := d.truthy = false ∨ ∃ l, d = .tuple l ∧ 2 ≤ l.length

theorem PlainDemands.entry {d : Demands} (h : PlainDemands d) {i : ℕ} (hi : i < 2) : d.entry i = .ok (demandOf d i) := by
  rcases h with h | ⟨l, rfl, hl⟩
  · unfold Demands.entry
    rw [if_neg (by rw [h]; simp)]
    cases d with
    | none => rfl
    | scalar q => rfl
    | tuple l =>
      have : l = [] := by simpa [Demands.truthy] using h
      subst this; rfl
  · have hne : l ≠ [] := by rintro rfl; simp at hl
    have hlt : i < l.length := by omega
    simp [Demands.entry, Demands.truthy, hne, demandOf, List.getElem?_eq_getElem hlt]

theorem PlainDemands.ok {d : Demands} (h : PlainDemands d) (g : Digraph) (a : Arc) : DemandsOk g a d :=
  ⟨fun _ => ⟨_, h.entry (by norm_num)⟩, fun _ => ⟨_, h.entry (by norm_num)⟩⟩

theorem addArc_nodes {g : Digraph} {a : Arc} {w : ℚ} {d : Demands} (hd : PlainDemands d) (ha : hasArc g a = false)
    (hne : a.1 ≠ a.2) (x : Name) :
    (addArc g a w d).1.nodes.get? x = (g.nodes.get? x).or
      (if x = a.1 then some (demandOf d 0) else if x = a.2 then some (demandOf d 1) else none) := by
  have hend : ∀ (gx : Digraph) (i : ℕ) (v : Name), i < 2 → addEnd gx v d i = addNode gx v (demandOf d i) := by
    intro gx i v hi; simp [addEnd, hd.entry hi]
  unfold addArc
  rw [if_neg (by rw [ha]; simp), if_neg hne]
  simp only [hend _ 0 _ (by norm_num), hend _ 1 _ (by norm_num), entry_ok_truthy (hd.entry (i := 0) (by norm_num)),
    Bool.false_eq_true, if_false]
  have hn : ∀ (v : Name), v ∉ g.nodes.keys ↔ Directed.hasNode g v = false := fun v => by
    rw [Bool.eq_false_iff, Ne, hasNode_iff]
  have hs : ∀ (v : Name), Directed.hasNode g v = true → ∃ q, g.nodes.get? v = some q := fun v hv =>
    Dict.exists_get?_of_mem (hasNode_iff.mp hv)
  cases h1 : Directed.hasNode g a.1 <;> cases h2 : Directed.hasNode g a.2
  · have e1 := Dict.get?_eq_none_iff.mpr ((hn _).mpr h1)
    have e2 := Dict.get?_eq_none_iff.mpr ((hn _).mpr h2)
    have h1' : g.nodes.has a.1 = false := h1
    have h2' : g.nodes.has a.2 = false := h2
    have h3 : (g.nodes.setDefault a.1 (demandOf d 0)).has a.2 = false := by
      rw [Dict.has_eq_false_iff, Dict.mem_keys_setDefault]
      rintro (hc | hc)
      · exact hne hc.symm
      · exact (hn _).mpr h2 hc
    simp only [addNode, Directed.hasNode, h1', h2', h3, Bool.not_false, Bool.and_self, if_true, Bool.false_eq_true,
      if_false, Dict.get?_setDefault, e1, e2]
    by_cases hx2 : x = a.2
    · subst hx2; simp [hne, Ne.symm hne, e2]
    · by_cases hx1 : x = a.1
      · subst hx1; simp [Ne.symm hne, e1]
      · simp [hx1, hx2, Ne.symm hx1, Ne.symm hx2]
  · have e1 := Dict.get?_eq_none_iff.mpr ((hn _).mpr h1)
    obtain ⟨q, e2⟩ := hs _ h2
    have h1' : g.nodes.has a.1 = false := h1
    have h2' : g.nodes.has a.2 = true := h2
    simp only [addNode, Directed.hasNode, h1', h2', Bool.not_false, Bool.not_true, Bool.and_false, if_true,
      Bool.false_eq_true, if_false, Dict.get?_setDefault, e1]
    by_cases hx1 : x = a.1
    · subst hx1; simp [e1]
    · by_cases hx2 : x = a.2
      · subst hx2; simp [hne, e2]
      · simp [hx1, hx2, Ne.symm hx1]
  · have e2 := Dict.get?_eq_none_iff.mpr ((hn _).mpr h2)
    obtain ⟨q, e1⟩ := hs _ h1
    have h1' : g.nodes.has a.1 = true := h1
    have h2' : g.nodes.has a.2 = false := h2
    simp only [addNode, Directed.hasNode, h1', h2', Bool.not_false, Bool.not_true, Bool.false_and, if_true,
      Bool.false_eq_true, if_false, Dict.get?_setDefault, e2]
    by_cases hx1 : x = a.1
    · subst hx1; simp [Ne.symm hne, e1]
    · by_cases hx2 : x = a.2
      · subst hx2; simp [Ne.symm hne, e2]
      · simp [hx1, hx2, Ne.symm hx2]
  · obtain ⟨q, e1⟩ := hs _ h1
    obtain ⟨q', e2⟩ := hs _ h2
    have h1' : g.nodes.has a.1 = true := h1
    have h2' : g.nodes.has a.2 = true := h2
    simp only [Directed.hasNode, h1', h2', Bool.not_true, Bool.and_self, Bool.false_eq_true, if_false]
    by_cases hx1 : x = a.1
    · subst hx1; simp [e1]
    · by_cases hx2 : x = a.2
      · subst hx2; simp [e2]
      · simp [hx1, hx2]

theorem dropNode_nodes {g : Digraph} (h : g.nodes.WF) (v x : Name) :
    (dropNode g v).1.nodes.get? x = none ∨ (dropNode g v).1.nodes.get? x = g.nodes.get? x := by
  unfold dropNode
  split
  · simp only
    split
    · simp only [Dict.get?_del h]
      split
      · exact Or.inl rfl
      · exact Or.inr rfl
    · exact Or.inr rfl
  · exact Or.inr rfl

theorem dropNode_nodesWF {g : Digraph} (h : g.nodes.WF) (v : Name) : (dropNode g v).1.nodes.WF := by
  unfold dropNode
  split
  · simp only
    split
    · exact Dict.WF_del h v
    · exact h
  · exact h

/-- `remove_arc` keeps the weights of the nodes it keeps. -/
theorem removeArc_nodes {g : Digraph} (h : g.nodes.WF) (a : Arc) (r : Bool) (x : Name) :
    (removeArc g a r).1.nodes.get? x = none ∨ (removeArc g a r).1.nodes.get? x = g.nodes.get? x := by
  unfold removeArc
  split
  · simp only
    split
    · exact Or.inr rfl
    · rename_i l hl
      split
      · split
        · set g2 : Digraph := { g with arcs := g.arcs.del a, graph := g.graph.set a.1 (l.erase a.2) } with hg2
          have h1 : ∀ x, (if connections g2 (.name a.1) = 0 then dropNode g2 a.1 else (g2, none)).1.nodes.get? x = none ∨
              (if connections g2 (.name a.1) = 0 then dropNode g2 a.1 else (g2, none)).1.nodes.get? x = g.nodes.get? x := by
            intro x
            split
            · exact dropNode_nodes (g := g2) h a.1 x
            · exact Or.inr rfl
          have h2 : (if connections g2 (.name a.1) = 0 then dropNode g2 a.1 else (g2, none)).1.nodes.WF := by
            split
            · exact dropNode_nodesWF (g := g2) h a.1
            · exact h
          generalize (if connections g2 (.name a.1) = 0 then dropNode g2 a.1 else (g2, none)) = q at h1 h2
          obtain ⟨g3, e3⟩ := q
          cases e3 with
          | some e => exact h1 x
          | none =>
            simp only at h1 h2 ⊢
            split
            · rcases dropNode_nodes h2 a.2 x with h3 | h3
              · exact Or.inl h3
              · rw [h3]; exact h1 x
            · exact h1 x
        · exact Or.inr rfl
      · exact Or.inr rfl
  · exact Or.inr rfl

/-- Calls whose arguments the methods can work with: demands as in `PlainDemands`; with `remove_nodes` the names of the
ends have one character. -/
def GoodOp : Op → Prop
  | .addArc _ _ d => PlainDemands d
  | .removeArc a r => r = true → a.1.length = 1 ∧ a.2.length = 1
  | _ => True

theorem chars_single {v : Name} (h : v.length = 1) : chars v = [v] := by
  obtain ⟨c, rfl⟩ := List.length_eq_one_iff.mp h; rfl

/-- One such call does what the specification says. -/
theorem DRep.step {g : Digraph} {N : DNet} (h : DRep g N) {o : Op} (ho : GoodOp o) :
    match N.step o with
    | none => Directed.step g o = (g, some .valueError)
    | some N' => (Directed.step g o).2 = none ∧ DRep (Directed.step g o).1 N' := by
  cases o with
  | addNode v q =>
    simp only [DNet.step, Directed.step]
    have hw := (addNode_spec h.wf v q).1
    have hh := h.hasNode v
    cases hN : N.node v with
    | some p =>
      rw [if_neg (by simp)]
      rw [hN] at hh
      simp [addNode, hh]
    | none =>
      rw [if_pos rfl]
      rw [hN] at hh
      simp only [addNode, hh, Option.isSome_none, Bool.false_eq_true, if_false] at hw ⊢
      refine ⟨trivial, hw, fun x => ?_, h.arc⟩
      simp only [Dict.get?_setDefault, h.node, hN]
      by_cases hx : v = x
      · rw [if_pos hx, if_pos hx.symm]; rfl
      · rw [if_neg hx, if_neg (Ne.symm hx)]
  | addArc a w d =>
    simp only [DNet.step, Directed.step]
    obtain ⟨hw, -, hs⟩ := addArc_spec h.wf a w d (PlainDemands.ok ho g a)
    have hh := h.hasArc a
    by_cases hc : N.arc a = none ∧ a.1 ≠ a.2
    · rw [if_pos hc]
      rw [hc.1] at hh
      have hm : a ∉ g.arcs.keys := by rw [h.mem_arc, hc.1]; simp
      obtain ⟨h1, h2, -⟩ := hs hm hc.2
      refine ⟨h1, hw, fun x => ?_, fun b => ?_⟩
      · rw [addArc_nodes ho hh hc.2, h.node]
      · rw [h2, Dict.get?_setDefault, h.arc, h.arc, hc.1]
        simp only
        by_cases hx : a = b
        · rw [if_pos hx, if_pos hx.symm]; rfl
        · rw [if_neg hx, if_neg (Ne.symm hx)]
    · rw [if_neg hc]
      show addArc g a w d = _
      unfold addArc
      by_cases hN : N.arc a = none
      · have hne : a.1 = a.2 := by by_contra hne; exact hc ⟨hN, hne⟩
        rw [hN] at hh
        rw [if_neg (by rw [hh]; simp), if_pos hne]
      · obtain ⟨q, hq⟩ := Option.ne_none_iff_exists'.mp hN
        rw [hq] at hh
        rw [if_pos (by rw [hh]; rfl)]
  | removeArc a r =>
    simp only [DNet.step, Directed.step]
    have hr : r = true → chars a.1 = [a.1] ∧ chars a.2 = [a.2] := fun hr =>
      ⟨chars_single (ho hr).1, chars_single (ho hr).2⟩
    obtain ⟨hw, -, hs⟩ := removeArc_spec h.wf a r hr
    have hh := h.hasArc a
    cases hN : N.arc a with
    | none =>
      rw [if_pos rfl]
      rw [hN] at hh
      show removeArc g a r = _
      unfold removeArc
      rw [if_neg (by rw [hh]; simp)]
    | some q =>
      rw [if_neg (by simp)]
      have hm : a ∈ g.arcs.keys := by rw [h.mem_arc, hN]; rfl
      obtain ⟨h1, h2, h3⟩ := hs hm
      refine ⟨h1, hw, fun x => ?_, fun b => ?_⟩
      · have hnm : ∀ b, b ∉ g.arcs.keys ↔ N.arc b = none := fun b => by
          rw [h.mem_arc]; cases N.arc b <;> simp
        simp only
        by_cases hc : r = true ∧ (x = a.1 ∨ x = a.2) ∧
            ∀ y, (N.arc (x, y) = none ∨ (x, y) = a) ∧ (N.arc (y, x) = none ∨ (y, x) = a)
        · rw [if_pos hc, Dict.get?_eq_none_iff, h3]
          rintro ⟨-, hx⟩
          obtain ⟨y, hy⟩ := hx hc.1 hc.2.1
          have := hc.2.2 y
          rw [← hnm, ← hnm] at this
          tauto
        · rw [if_neg hc, ← h.node]
          by_cases hxg : x ∈ g.nodes.keys
          · have hx : x ∈ (removeArc g a r).1.nodes.keys := by
              rw [h3]
              refine ⟨hxg, fun hr hx => ?_⟩
              by_contra hne
              push Not at hne
              refine hc ⟨hr, hx, fun y => ?_⟩
              rw [← hnm, ← hnm]
              have := hne y
              tauto
            rcases removeArc_nodes h.wf.nodesWF a r x with e | e
            · exact absurd hx (Dict.get?_eq_none_iff.mp e)
            · exact e
          · have hx : x ∉ (removeArc g a r).1.nodes.keys := fun hx => hxg ((h3 x).mp hx).1
            rw [Dict.get?_eq_none_iff.mpr hx, Dict.get?_eq_none_iff.mpr hxg]
      · rw [h2, Dict.get?_del h.wf.arcsWF, h.arc]
        simp only
        by_cases hx : a = b
        · rw [if_pos hx, if_pos hx.symm]
        · rw [if_neg hx, if_neg (Ne.symm hx)]
  | setArcWeight a w =>
    simp only [DNet.step, Directed.step]
    have hw := (setArcWeight_spec h.wf a w).1
    have hh := h.hasArc a
    cases hN : N.arc a with
    | none =>
      rw [if_pos rfl]
      rw [hN] at hh
      simp [setArcWeight, hh]
    | some q =>
      rw [if_neg (by simp)]
      rw [hN] at hh
      simp only [setArcWeight, hh, Option.isSome_some, if_true] at hw ⊢
      refine ⟨trivial, hw, h.node, fun b => ?_⟩
      simp only [Dict.get?_set, h.arc]
      by_cases hx : a = b
      · rw [if_pos hx, if_pos hx.symm]
      · rw [if_neg hx, if_neg (Ne.symm hx)]
  | setNodeWeight v w =>
    simp only [DNet.step, Directed.step]
    have hw := (setNodeWeight_spec h.wf v w).1
    have hh := h.hasNode v
    cases hN : N.node v with
    | none =>
      rw [if_pos rfl]
      rw [hN] at hh
      simp [setNodeWeight, hh]
    | some q =>
      rw [if_neg (by simp)]
      rw [hN] at hh
      simp only [setNodeWeight, hh, Option.isSome_some, if_true] at hw ⊢
      refine ⟨trivial, hw, fun x => ?_, h.arc⟩
      simp only [Dict.get?_set, h.node]
      by_cases hx : v = x
      · rw [if_pos hx, if_pos hx.symm]
      · rw [if_neg hx, if_neg (Ne.symm hx)]

/-! ### The constructor -/

/-- The result of a part of the constructor. -/
def DOutcome (r : Digraph × Option PyErr) (P : Prop) (N : DNet) : Prop :=
  (P → r.2 = none ∧ DRep r.1 N) ∧ (¬ P → r.2 = some .valueError)

/-- The second part runs if the first raised nothing. -/
def chain (r : Digraph × Option PyErr) (f : Digraph → Digraph × Option PyErr) : Digraph × Option PyErr :=
  match r with
  | (g', some e) => (g', some e)
  | (g', none) => f g'

theorem DOutcome.congr {r : Digraph × Option PyErr} {P Q : Prop} {N M : DNet} (h : DOutcome r P N) (hpq : P ↔ Q)
    (hv : ∀ x, N.node x = M.node x) (he : ∀ s, N.arc s = M.arc s) : DOutcome r Q M := by
  have : N = M := by
    cases N; cases M
    congr
    · exact funext hv
    · exact funext he
  rw [← this]
  exact ⟨fun hq => h.1 (hpq.mpr hq), fun hq => h.2 fun hp => hq (hpq.mp hp)⟩

theorem DOutcome.andThen {r : Digraph × Option PyErr} {P Q : Prop} {N M : DNet} {f : Digraph → Digraph × Option PyErr}
    (h : DOutcome r P N) (hf : ∀ g, DRep g N → DOutcome (f g) Q M) : DOutcome (chain r f) (P ∧ Q) M := by
  obtain ⟨g', e⟩ := r
  by_cases hp : P
  · obtain ⟨h1, h2⟩ := h.1 hp
    simp only at h1 h2
    subst h1
    exact ⟨fun hpq => (hf g' h2).1 hpq.2, fun hpq => (hf g' h2).2 fun hq => hpq ⟨hp, hq⟩⟩
  · have h1 := h.2 hp
    simp only at h1
    subst h1
    exact ⟨fun hpq => absurd hpq.1 hp, fun _ => rfl⟩

theorem DRep.proper {g : Digraph} {N : DNet} (h : DRep g N) {a : Arc} (he : (N.arc a).isSome = true) :
    a.1 ≠ a.2 ∧ (N.node a.1).isSome = true ∧ (N.node a.2).isSome = true := by
  have hm := (h.mem_arc a).mpr he
  rw [← h.mem_node, ← h.mem_node]
  exact ⟨h.wf.noLoop _ _ hm, h.wf.endsTail _ _ hm, h.wf.endsHead _ _ hm⟩

theorem PlainDemands_none : PlainDemands .none := Or.inl rfl

/-- An arc is added with the given weight unless it is there. -/
theorem ensureArc {g : Digraph} {N : DNet} (h : DRep g N) (a : Arc) (w : ℚ) :
    DOutcome (if hasArc g a then (g, none) else addArc g a w .none) (a.1 ≠ a.2)
      ⟨fun x => (N.node x).or (zeroIf (x = a.1 ∨ x = a.2)),
       fun b => (N.arc b).or (if b = a then some w else none)⟩ := by
  have he := h.hasArc a
  cases hN : N.arc a with
  | some q =>
    rw [hN] at he
    simp only [he, Option.isSome_some, if_true]
    obtain ⟨h1, h2, h3⟩ := h.proper (a := a) (by rw [hN]; rfl)
    refine ⟨fun _ => ⟨rfl, h.wf, fun v => ?_, fun b => ?_⟩, fun hc => absurd h1 hc⟩
    · rw [h.node]
      simp only
      by_cases hv : v = a.1 ∨ v = a.2
      · have : (N.node v).isSome = true := by rcases hv with rfl | rfl <;> assumption
        obtain ⟨q, hq⟩ := Option.isSome_iff_exists.mp this
        rw [hq]; rfl
      · rw [zeroIf_false hv]; simp
    · rw [h.arc]
      simp only
      by_cases hs : b = a
      · rw [hs, hN]; rfl
      · rw [if_neg hs]; simp
  | none =>
    rw [hN] at he
    simp only [he, Option.isSome_none, Bool.false_eq_true, if_false]
    have hs := h.step (o := .addArc a w .none) PlainDemands_none
    simp only [DNet.step, hN, true_and, Directed.step] at hs
    constructor
    · intro hp
      rw [if_pos hp] at hs
      refine ⟨hs.1, hs.2.wf, fun v => ?_, fun b => ?_⟩
      · rw [hs.2.node]
        simp only [demandOf]
        congr 1
        by_cases h1 : v = a.1
        · rw [if_pos h1, zeroIf_true (Or.inl h1)]
        · by_cases h2 : v = a.2
          · rw [if_neg h1, if_pos h2, zeroIf_true (Or.inr h2)]
          · rw [if_neg h1, if_neg h2, zeroIf_false (by tauto)]
      · rw [hs.2.arc]
        simp only
        by_cases hs : b = a
        · rw [if_pos hs, if_pos hs, hs, hN]; rfl
        · rw [if_neg hs, if_neg hs]; simp
    · intro hp
      rw [if_neg hp] at hs
      simp only at hs
      rw [hs]

theorem ensureNode {g : Digraph} {N : DNet} (h : DRep g N) (v : Name) :
    (if hasNode g v then (g, none) else addNode g v 0).2 = none ∧
    DRep (if hasNode g v then (g, none) else addNode g v 0).1
      { N with node := fun x => (N.node x).or (zeroIf (x = v)) } := by
  have he := h.hasNode v
  cases hN : N.node v with
  | some q =>
    rw [hN] at he
    simp only [he, Option.isSome_some, if_true]
    refine ⟨trivial, h.wf, fun x => ?_, h.arc⟩
    rw [h.node]
    simp only
    by_cases hx : x = v
    · subst hx; rw [hN]; rfl
    · rw [zeroIf_false hx]; simp
  | none =>
    rw [hN] at he
    simp only [he, Option.isSome_none, Bool.false_eq_true, if_false]
    have hs := h.step (o := .addNode v 0) trivial
    simp only [DNet.step, hN, Directed.step, if_true] at hs
    refine ⟨hs.1, hs.2.wf, fun x => ?_, hs.2.arc⟩
    rw [hs.2.node]
    simp only
    by_cases hx : x = v
    · subst hx; rw [hN, zeroIf_true rfl]; simp
    · rw [zeroIf_false hx]; simp [hx]

theorem ite_eq_zeroIf {P : Prop} [Decidable P] : (if P then some 0 else none : Option ℚ) = zeroIf P := by
  by_cases h : P
  · rw [if_pos h, zeroIf_true h]
  · rw [if_neg h, zeroIf_false h]

theorem ctorConns_net {g : Digraph} {N : DNet} (h : DRep g N) (u : Name) (vs : List Name) :
    DOutcome (ctorConns g u vs) (∀ v ∈ vs, u ≠ v)
      ⟨fun x => (N.node x).or (zeroIf (∃ v ∈ vs, x = u ∨ x = v)),
       fun a => (N.arc a).or (zeroIf (∃ v ∈ vs, a = (u, v)))⟩ := by
  induction vs generalizing g N with
  | nil =>
    refine ⟨fun _ => ⟨rfl, h.wf, fun v => ?_, fun a => ?_⟩, fun hc => absurd (by simp) hc⟩
    · simp [ctorConns, h.node, zeroIf]
    · simp [ctorConns, h.arc, zeroIf]
  | cons v vs ih =>
    have key := (ensureArc h (u, v) 0).andThen (f := fun g => ctorConns g u vs) fun g hg => ih hg
    have e : ctorConns g u (v :: vs) = chain (if hasArc g (u, v) then (g, none) else addArc g (u, v) 0 .none)
        fun g => ctorConns g u vs := by
      rw [ctorConns]
      split <;> rfl
    rw [e]
    refine key.congr (by simp) (fun x => ?_) fun s => ?_
    · exact or_zeroIf (by simp)
    · simp only [ite_eq_zeroIf]
      exact or_zeroIf (by simp)

theorem ctorGraph_net {g : Digraph} {N : DNet} (h : DRep g N) (l : List (Name × List Name)) :
    DOutcome (ctorGraph g l) (∀ p ∈ l, ∀ v ∈ p.2, p.1 ≠ v)
      ⟨fun x => (N.node x).or (zeroIf (∃ p ∈ l, x = p.1 ∨ x ∈ p.2)),
       fun a => (N.arc a).or (zeroIf (∃ p ∈ l, ∃ v ∈ p.2, a = (p.1, v)))⟩ := by
  induction l generalizing g N with
  | nil =>
    refine ⟨fun _ => ⟨rfl, h.wf, fun v => ?_, fun a => ?_⟩, fun hc => absurd (by simp) hc⟩
    · simp [ctorGraph, h.node, zeroIf]
    · simp [ctorGraph, h.arc, zeroIf]
  | cons p l ih =>
    obtain ⟨u, vs⟩ := p
    cases vs with
    | nil =>
      have e : ctorGraph g ((u, []) :: l) = chain (if hasNode g u then (g, none) else addNode g u 0)
          fun g => ctorGraph g l := by
        rw [ctorGraph, if_pos (by rfl)]
        split <;> rfl
      have h1 := ensureNode h u
      have h2 : DOutcome (if hasNode g u then (g, none) else addNode g u 0) True _ :=
        ⟨fun _ => h1, fun hc => absurd trivial hc⟩
      have key := h2.andThen (f := fun g => ctorGraph g l) fun g hg => ih hg
      rw [e]
      refine key.congr (by simp) (fun x => ?_) fun s => ?_
      · exact or_zeroIf (by simp)
      · simp
    | cons v vs =>
      have e : ctorGraph g ((u, v :: vs) :: l) = chain (ctorConns g u (v :: vs))
          fun g => ctorGraph g l := by
        rw [ctorGraph, if_neg (by simp : ¬ (v :: vs).length = 0)]
        rfl
      have key := (ctorConns_net h u (v :: vs)).andThen (f := fun g => ctorGraph g l) fun g hg => ih hg
      rw [e]
      refine key.congr (by simp) (fun x => ?_) fun s => ?_
      · refine or_zeroIf ?_
        simp only [List.mem_cons, exists_eq_or_imp]
        apply or_congr _ Iff.rfl
        constructor
        · rintro (h | h | h)
          · exact Or.inl (Or.inl h)
          · exact Or.inl (Or.inr h)
          · exact Or.inr ⟨x, h, Or.inr rfl⟩
        · rintro ((h | h) | ⟨y, hy, h | h⟩)
          · exact Or.inl h
          · exact Or.inr (Or.inl h)
          · exact Or.inl h
          · exact Or.inr (Or.inr (h ▸ hy))
      · exact or_zeroIf (by simp)

theorem setArc_net {g : Digraph} {N : DNet} (h : DRep g N) {a : Arc} (hN : (N.arc a).isSome = true) (w : ℚ) :
    (setArcWeight g a w).2 = none ∧ DRep (setArcWeight g a w).1
      { N with arc := fun b => if b = a then some w else N.arc b } := by
  have hs := h.step (o := .setArcWeight a w) trivial
  have : N.arc a ≠ none := Option.isSome_iff_ne_none.mp hN
  simp only [DNet.step, this, if_false, Directed.step] at hs
  refine ⟨hs.1, hs.2.wf, hs.2.node, fun b => ?_⟩
  rw [hs.2.arc]

theorem setNode_net {g : Digraph} {N : DNet} (h : DRep g N) {v : Name} (hN : (N.node v).isSome = true) (w : ℚ) :
    (setNodeWeight g v w).2 = none ∧ DRep (setNodeWeight g v w).1
      { N with node := fun x => if x = v then some w else N.node x } := by
  have hs := h.step (o := .setNodeWeight v w) trivial
  have : N.node v ≠ none := Option.isSome_iff_ne_none.mp hN
  simp only [DNet.step, this, if_false, Directed.step] at hs
  refine ⟨hs.1, hs.2.wf, fun b => ?_, hs.2.arc⟩
  rw [hs.2.node]

theorem ctorArcs_net {g : Digraph} {N : DNet} (h : DRep g N) (l : List (Arc × ℚ)) :
    DOutcome (ctorArcs g l) (∀ p ∈ l, p.1.1 ≠ p.1.2)
      ⟨fun x => (N.node x).or (zeroIf (∃ p ∈ l, x = p.1.1 ∨ x = p.1.2)), fun a => (lastOf l a).or (N.arc a)⟩ := by
  induction l generalizing g N with
  | nil =>
    refine ⟨fun _ => ⟨rfl, h.wf, fun v => ?_, fun a => ?_⟩, fun hc => absurd (by simp) hc⟩
    · simp [ctorArcs, h.node, zeroIf]
    · simp [ctorArcs, h.arc, lastOf]
  | cons p l ih =>
    obtain ⟨a, w⟩ := p
    have e : ctorArcs g ((a, w) :: l) = chain (if hasArc g a then (g, none) else addArc g a w .none)
        fun g' => chain (setArcWeight g' a w) fun g2 => ctorArcs g2 l := by
      rw [ctorArcs]
      simp only
      generalize (if hasArc g a then (g, none) else addArc g a w .none) = r
      obtain ⟨g1, e1⟩ := r
      cases e1 <;> rfl
    rw [e]
    have key := (ensureArc h a w).andThen (f := fun g' => chain (setArcWeight g' a w) fun g2 => ctorArcs g2 l)
        fun g' hg' => by
      have h1 := setArc_net hg' (a := a) (by simp) w
      have h2 : DOutcome (setArcWeight g' a w) True _ := ⟨fun _ => h1, fun hc => absurd trivial hc⟩
      exact h2.andThen (f := fun g => ctorArcs g l) fun g hg => ih hg
    refine key.congr (by simp) (fun x => ?_) fun s => ?_
    · exact or_zeroIf (by simp)
    · simp only [lastOf, Option.or_assoc']
      congr 1
      by_cases hs : s = a
      · rw [if_pos hs, if_pos hs.symm]; rfl
      · rw [if_neg hs, if_neg hs, if_neg (Ne.symm hs)]; simp

theorem ctorNodes_net {g : Digraph} {N : DNet} (h : DRep g N) (l : List (Name × ℚ)) :
    DOutcome (ctorNodes g l) True ⟨fun x => (lastOf l x).or (N.node x), N.arc⟩ := by
  induction l generalizing g N with
  | nil => exact ⟨fun _ => ⟨rfl, h.wf, fun v => by simp [ctorNodes, h.node, lastOf], h.arc⟩, fun hc => absurd trivial hc⟩
  | cons p l ih =>
    obtain ⟨v, w⟩ := p
    have e : ctorNodes g ((v, w) :: l) = chain (if hasNode g v then (g, none) else addNode g v 0)
        fun g' => chain (setNodeWeight g' v w) fun g2 => ctorNodes g2 l := by
      rw [ctorNodes]
      simp only
      generalize (if hasNode g v then (g, none) else addNode g v 0) = r
      obtain ⟨g1, e1⟩ := r
      cases e1 <;> rfl
    rw [e]
    have h0 : DOutcome (if hasNode g v then (g, none) else addNode g v 0) True _ :=
      ⟨fun _ => ensureNode h v, fun hc => absurd trivial hc⟩
    have key := h0.andThen (f := fun g' => chain (setNodeWeight g' v w) fun g2 => ctorNodes g2 l)
        fun g' hg' => by
      have h1 := setNode_net hg' (v := v) (by simp [zeroIf]) w
      have h2 : DOutcome (setNodeWeight g' v w) True _ := ⟨fun _ => h1, fun hc => absurd trivial hc⟩
      exact h2.andThen (f := fun g => ctorNodes g l) fun g hg => ih hg
    refine key.congr (by simp) (fun x => ?_) fun s => rfl
    simp only [lastOf, Option.or_assoc']
    congr 1
    by_cases hs : x = v
    · rw [if_pos hs, if_pos hs.symm]; rfl
    · rw [if_neg hs, if_neg (Ne.symm hs), zeroIf_false hs]; simp

end Directed
end Pytimize
