/-
C110: the `demands` argument of `DirectedGraph.add_arc`.
-/
import Verif.Props.Directed
import Verif.Graph.DirectedBuild

namespace Pytimize
namespace Props
open _root_.Pytimize.Directed
open _root_.Pytimize.Undirected (get?_isSome)

/-- Specification: the exception (if any) that `add_arc` raises because of `demands`, given which of the two ends are new
nodes. -/
def demandsError (newTail newHead : Prop) [Decidable newTail] [Decidable newHead] : Demands → Option PyErr
  | .none => none
  | .scalar q => if q ≠ 0 ∧ (newTail ∨ newHead) then some .typeError else none
  | .tuple l => if l.length = 1 ∧ newHead then some .indexError else none

/-- Specification: the potential with which a new tail (`false`) or head (`true`) is created; `none` if it is not
created. -/
def demandsNode : Demands → Bool → Option ℚ
  | .none, _ => some 0
  | .scalar q, _ => if q = 0 then some 0 else none
  | .tuple [], _ => some 0
  | .tuple (q :: _), false => some q
  | .tuple [_], true => none
  | .tuple (_ :: q :: _), true => some q

theorem addNode_arcs (g : Digraph) (v : Name) (q : ℚ) : (addNode g v q).1.arcs = g.arcs := by
  unfold addNode; split <;> rfl

theorem addEnd_arcs (g : Digraph) (v : Name) (d : Demands) (i : ℕ) : (addEnd g v d i).1.arcs = g.arcs := by
  unfold addEnd; split
  · rfl
  · exact addNode_arcs ..

theorem addArc_arcs (g : Digraph) (a : Arc) (w : ℚ) (d : Demands) (ha : hasArc g a = false) (hne : a.1 ≠ a.2) :
    (addArc g a w d).1.arcs = g.arcs.setDefault a w := by
  unfold addArc
  rw [if_neg (by rw [ha]; simp), if_neg hne]
  simp only []
  split
  · split
    · rfl
    · split
      · rename_i g2 e he; have := addEnd_arcs _ a.1 d 0 ▸ congrArg (fun t : Digraph × Option PyErr => t.1.arcs) he; exact this.symm
      · rename_i g2 he
        rw [addEnd_arcs]
        have := addEnd_arcs _ a.1 d 0 ▸ congrArg (fun t : Digraph × Option PyErr => t.1.arcs) he; exact this.symm
  · split
    · rw [addEnd_arcs]
    · split
      · rw [addEnd_arcs]
      · rfl

/-- C110, everything `add_arc` does with a new arc between different nodes: which exception it raises, and the arcs and
nodes it leaves behind, also if it raises. -/
theorem C110_outcome (g : Digraph) (a : Arc) (w : ℚ) (d : Demands) (ha : a ∉ g.arcs.keys) (hne : a.1 ≠ a.2) :
    (addArc g a w d).2 = demandsError (a.1 ∉ g.nodes.keys) (a.2 ∉ g.nodes.keys) d ∧
    (∀ b, (addArc g a w d).1.arcs.get? b = if b = a then some w else g.arcs.get? b) ∧
    ∀ x, (addArc g a w d).1.nodes.get? x = (g.nodes.get? x).or
      (if x = a.1 then demandsNode d false else if x = a.2 then demandsNode d true else none) := by
  have ha' : hasArc g a = false := by rw [Bool.eq_false_iff, Ne, hasArc_iff]; exact ha
  have hhas : ∀ v, g.nodes.has v = decide (v ∈ g.nodes.keys) := fun v => by rw [Bool.eq_iff_iff, Dict.has_iff]; simp
  have harc : ∀ b, (g.arcs.setDefault a w).get? b = if b = a then some w else g.arcs.get? b := fun b => by
    rw [Dict.get?_setDefault]
    by_cases hb : a = b
    · subst hb; simp [Dict.get?_eq_none_iff.mpr ha]
    · simp [hb, Ne.symm hb]
  refine ⟨?_, fun b => by rw [addArc_arcs g a w d ha' hne, harc], ?_⟩
  · have h3 : ∀ q, (g.nodes.setDefault a.1 q).has a.2 = decide (a.2 ∈ g.nodes.keys) := fun q => by
      rw [Bool.eq_iff_iff, Dict.has_iff, Dict.mem_keys_setDefault]; simp [Ne.symm hne]
    unfold addArc
    rw [if_neg (by rw [ha']; simp), if_neg hne]
    by_cases h1 : a.1 ∈ g.nodes.keys <;> by_cases h2 : a.2 ∈ g.nodes.keys <;> rcases d with _ | q | _ | ⟨q, _ | ⟨q', l⟩⟩ <;>
      simp [hasNode, hhas, h1, h2, demandsError, addEnd, Demands.entry, Demands.truthy, Demands.isTuple, addNode, h3] <;>
      by_cases hq : q = 0 <;> simp [hq, h3, h2]
  · by_cases hp : PlainDemands d
    · intro x
      rw [addArc_nodes hp ha' hne]
      congr 2
      · rcases d with _ | q | _ | ⟨q, _ | ⟨q', l⟩⟩ <;> simp [demandOf, demandsNode]
        simpa [PlainDemands, Demands.truthy] using hp
      · rcases d with _ | q | _ | ⟨q, _ | ⟨q', l⟩⟩ <;> simp [demandOf, demandsNode]
        · have : q = 0 := by simpa [PlainDemands, Demands.truthy] using hp
          simp [this]
        · simp [PlainDemands, Demands.truthy] at hp
    · intro x
      have hg : ∀ v, v ∈ g.nodes.keys → ∃ q, g.nodes.get? v = some q := fun v => Dict.exists_get?_of_mem
      have hg' : ∀ v, v ∉ g.nodes.keys → g.nodes.get? v = none := fun v => Dict.get?_eq_none_iff.mpr
      unfold addArc
      rw [if_neg (by rw [ha']; simp), if_neg hne]
      rcases d with _ | q | _ | ⟨q, _ | ⟨q', l⟩⟩
      · exact absurd (Or.inl rfl) hp
      · have hq : q ≠ 0 := fun hq => hp (Or.inl (by simp [Demands.truthy, hq]))
        by_cases h1 : a.1 ∈ g.nodes.keys <;> by_cases h2 : a.2 ∈ g.nodes.keys <;>
          simp [hasNode, hhas, h1, h2, addEnd, Demands.entry, Demands.truthy, Demands.isTuple, demandsNode, hq]
      · exact absurd (Or.inl rfl) hp
      · by_cases h1 : a.1 ∈ g.nodes.keys
        · obtain ⟨q1, e1⟩ := hg _ h1
          by_cases h2 : a.2 ∈ g.nodes.keys <;>
            simp [hasNode, hhas, h1, h2, addEnd, Demands.entry, Demands.truthy, demandsNode] <;>
            (by_cases hx : x = a.1 <;> simp [hx, e1])
        · have e1 := hg' _ h1
          by_cases h2 : a.2 ∈ g.nodes.keys <;>
            simp [hasNode, hhas, h1, h2, addEnd, Demands.entry, Demands.truthy, Demands.isTuple, demandsNode, addNode,
              Dict.get?_setDefault] <;>
            (by_cases hx : x = a.1
             · subst hx; simp [e1]
             · simp [hx, Ne.symm hx])
      · exact absurd (Or.inr ⟨_, rfl, by simp⟩) hp

/-- C110, when it succeeds. -/
theorem C110_partial (g : Digraph) (a : Arc) (w : ℚ) (d : Demands) (ha : a ∉ g.arcs.keys) (hne : a.1 ≠ a.2) :
    (addArc g a w d).2 = none ↔
      (a.1 ∈ g.nodes.keys ∧ a.2 ∈ g.nodes.keys) ∨ d = .none ∨ d = .scalar 0 ∨
        ∃ l, d = .tuple l ∧ (l.length ≠ 1 ∨ a.2 ∈ g.nodes.keys) := by
  rw [(C110_outcome g a w d ha hne).1]
  rcases d with _ | q | l
  · simp [demandsError]
  · simp [demandsError]; tauto
  · simp [demandsError]; tauto

/-- C110 is false as stated, on every digraph: the documented single number for the one new end raises `TypeError`, and
leaves an arc one end of which is not a node. -/
theorem C110_number_wrong (g : Digraph) (a : Arc) (w q : ℚ) (hq : q ≠ 0) (ha : a ∉ g.arcs.keys)
    (hone : (a.1 ∈ g.nodes.keys ∧ a.2 ∉ g.nodes.keys) ∨ (a.1 ∉ g.nodes.keys ∧ a.2 ∈ g.nodes.keys)) :
    (addArc g a w (.scalar q)).2 = some .typeError ∧ a ∈ (addArc g a w (.scalar q)).1.arcs.keys ∧
    (∀ x, (addArc g a w (.scalar q)).1.nodes.get? x = g.nodes.get? x) ∧ ¬ DWF (addArc g a w (.scalar q)).1 := by
  have hne : a.1 ≠ a.2 := by
    intro e
    rcases hone with ⟨h1, h2⟩ | ⟨h1, h2⟩
    · exact h2 (e ▸ h1)
    · exact h1 (e ▸ h2)
  obtain ⟨h1, h2, h3⟩ := C110_outcome g a w (.scalar q) ha hne
  have hnode : ∀ x, (addArc g a w (.scalar q)).1.nodes.get? x = g.nodes.get? x := fun x => by
    rw [h3]; simp [demandsNode, hq]
  have hmem : ∀ x, x ∈ (addArc g a w (.scalar q)).1.nodes.keys ↔ x ∈ g.nodes.keys := fun x => by
    rw [← get?_isSome, hnode, get?_isSome]
  have harc : a ∈ (addArc g a w (.scalar q)).1.arcs.keys := by
    rw [← get?_isSome, h2]; simp
  refine ⟨?_, harc, hnode, fun hw => ?_⟩
  · rw [h1]
    simp only [demandsError]
    rw [if_pos ⟨hq, hone.elim (fun t => Or.inr t.2) fun t => Or.inl t.1⟩]
  · rcases hone with ⟨-, t⟩ | ⟨t, -⟩
    · exact t ((hmem _).mp (hw.endsHead a.1 a.2 harc))
    · exact t ((hmem _).mp (hw.endsTail a.1 a.2 harc))

/-- C110 is false as stated: a tuple of one number for the two new ends raises `IndexError` after the arc and its tail
have been added. -/
theorem C110_short_wrong (g : Digraph) (a : Arc) (w q : ℚ) (ha : a ∉ g.arcs.keys) (hne : a.1 ≠ a.2)
    (h1 : a.1 ∉ g.nodes.keys) (h2 : a.2 ∉ g.nodes.keys) :
    (addArc g a w (.tuple [q])).2 = some .indexError ∧ a ∈ (addArc g a w (.tuple [q])).1.arcs.keys ∧
    (addArc g a w (.tuple [q])).1.nodes.get? a.1 = some q ∧ ¬ DWF (addArc g a w (.tuple [q])).1 := by
  obtain ⟨e1, e2, e3⟩ := C110_outcome g a w (.tuple [q]) ha hne
  have harc : a ∈ (addArc g a w (.tuple [q])).1.arcs.keys := by
    rw [← get?_isSome, e2]; simp
  refine ⟨by rw [e1]; simp [demandsError, h2], harc, ?_, fun hw => ?_⟩
  · rw [e3, Dict.get?_eq_none_iff.mpr h1]; simp [demandsNode]
  · have := hw.endsHead a.1 a.2 harc
    rw [← get?_isSome, e3, Dict.get?_eq_none_iff.mpr h2] at this
    simp [demandsNode, Ne.symm hne] at this

/-! ### The hypotheses are satisfiable -/

/-- One node `a`; the arc `a → b`, with the number 5 for the new node `b`. -/
example : DWF (addNode Digraph.empty ['a'] 0).1 ∧ (['a'], ['b']) ∉ (addNode Digraph.empty ['a'] 0).1.arcs.keys ∧
    ['a'] ∈ (addNode Digraph.empty ['a'] 0).1.nodes.keys ∧ ['b'] ∉ (addNode Digraph.empty ['a'] 0).1.nodes.keys :=
  ⟨(addNode_spec DWF_empty _ _).1, by decide, by decide, by decide⟩

example : (addArc (addNode Digraph.empty ['a'] 0).1 (['a'], ['b']) 1 (.tuple [3, 5])).1.nodes =
    [(['a'], 0), (['b'], 5)] := by decide +kernel

end Props
end Pytimize
