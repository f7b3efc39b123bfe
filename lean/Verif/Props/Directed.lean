/-
C06–C08: the digraph object, its cuts and its residual networks (`pytimize/graphs/_directed.py`).
-/
import Verif.Graph.Resid
import Mathlib.Tactic.NormNum
import Mathlib.Data.Finset.Card
import Mathlib.Data.Finset.Filter

namespace Pytimize.Props
open Pytimize.Directed

/-! ## C06: well-formedness -/

/-- Calls for which C06 holds: `demands` absent or a tuple with an entry for each end, and
`remove_nodes` only used with one-character node names. -/
def PlainOp : Op → Prop
  | .addArc _ _ d => d = .none ∨ ∃ l, d = .tuple l ∧ 2 ≤ l.length
  | .removeArc a r => r = true → chars a.1 = [a.1] ∧ chars a.2 = [a.2]
  | _ => True

theorem plain_demands {d : Demands} (h : d = .none ∨ ∃ l, d = .tuple l ∧ 2 ≤ l.length) (g : Digraph)
    (a : Arc) : DemandsOk g a d := by
  rcases h with rfl | ⟨l, rfl, hl⟩
  · exact DemandsOk_none g a
  · have ht : (Demands.tuple l).truthy = true := by
      cases l with
      | nil => simp at hl
      | cons => rfl
    constructor <;> intro _
    · exact ⟨l[0], by simp [Demands.entry, ht, List.getElem?_eq_getElem (show 0 < l.length by omega)]⟩
    · exact ⟨l[1], by simp [Demands.entry, ht, List.getElem?_eq_getElem (show 1 < l.length by omega)]⟩

/-- C06 (one call). A call keeps the digraph well formed, and a call that raises leaves it exactly
as it was. Missing from the full statement: the `demands`/`remove_nodes` arguments excluded by
`PlainOp`, for which the claim is false (see the two theorems below). -/
theorem C06_step_partial {g : Digraph} (h : DWF g) (op : Op) (hop : PlainOp op) :
    DWF (step g op).1 ∧ ((step g op).2 ≠ none → (step g op).1 = g) := by
  cases op with
  | addNode v q => exact ⟨(addNode_spec h v q).1, (addNode_spec h v q).2.1⟩
  | addArc a w d =>
    have := addArc_spec h a w d (plain_demands hop g a)
    exact ⟨this.1, this.2.1⟩
  | removeArc a r =>
    have := removeArc_spec h a r hop
    exact ⟨this.1, this.2.1⟩
  | setArcWeight a w => exact ⟨(setArcWeight_spec h a w).1, (setArcWeight_spec h a w).2.1⟩
  | setNodeWeight v w => exact setNodeWeight_spec h v w

/-- C06 (histories). Every digraph built by the constructor and any sequence of such calls is well
formed. -/
theorem C06_history_partial {graph : List (Name × List Name)} {arcs : List (Arc × ℚ)}
    {nodes : List (Name × ℚ)} {g : Digraph} (h : ctor graph arcs nodes = .ok g) (ops : List Op)
    (hops : ∀ op ∈ ops, PlainOp op) : DWF (run g ops) := by
  have key : ∀ (ops : List Op) (g : Digraph), DWF g → (∀ op ∈ ops, PlainOp op) → DWF (run g ops) := by
    intro ops
    induction ops with
    | nil => intro g hg _; exact hg
    | cons op ops ih =>
      intro g hg hop
      exact ih _ (C06_step_partial hg op (hop op (by simp))).1 (fun o ho => hop o (by simp [ho]))
  exact key ops g (ctor_spec h) hops

/-- C06. A successful `add_arc` adds exactly that arc (and its endpoints); it succeeds exactly for
a new arc between different nodes. -/
theorem C06_add_arc_effect {g : Digraph} (h : DWF g) (a : Arc) (w : ℚ) :
    ((addArc g a w .none).2 = none ↔ a ∉ g.arcs.keys ∧ a.1 ≠ a.2) ∧
    ((addArc g a w .none).2 = none →
      (∀ b, (addArc g a w .none).1.arcs.get? b = if b = a then some w else g.arcs.get? b) ∧
      ∀ x, x ∈ (addArc g a w .none).1.nodes.keys ↔ x = a.1 ∨ x = a.2 ∨ x ∈ g.nodes.keys) := by
  have hs := addArc_spec h a w .none (DemandsOk_none g a)
  have iff : (addArc g a w .none).2 = none ↔ a ∉ g.arcs.keys ∧ a.1 ≠ a.2 := by
    constructor
    · intro hn
      constructor
      · intro hc
        simp [addArc, hasArc_iff.mpr hc] at hn
      · intro hc
        unfold addArc at hn
        split at hn
        · simp at hn
        · simp [hc] at hn
    · rintro ⟨h1, h2⟩; exact (hs.2.2 h1 h2).1
  refine ⟨iff, fun hn => ?_⟩
  obtain ⟨h1, h2⟩ := iff.mp hn
  obtain ⟨_, h3, h4⟩ := hs.2.2 h1 h2
  refine ⟨fun b => ?_, h4⟩
  rw [h3, Dict.get?_setDefault]
  by_cases hb : a = b
  · subst hb; simp [Dict.get?_eq_none_iff.mpr h1]
  · simp [hb, Ne.symm hb]

/-- C06. `remove_arc` removes exactly that arc; with `remove_nodes` it drops exactly those
endpoints that touch no other arc (one-character names). -/
theorem C06_remove_arc_effect {g : Digraph} (h : DWF g) (a : Arc) (ha : a ∈ g.arcs.keys) (r : Bool)
    (hr : r = true → chars a.1 = [a.1] ∧ chars a.2 = [a.2]) :
    (removeArc g a r).2 = none ∧
    (∀ b, (removeArc g a r).1.arcs.get? b = if b = a then none else g.arcs.get? b) ∧
    ∀ x, x ∈ (removeArc g a r).1.nodes.keys ↔ x ∈ g.nodes.keys ∧
      (r = true → (x = a.1 ∨ x = a.2) →
        ∃ y, ((x, y) ∈ g.arcs.keys ∧ (x, y) ≠ a) ∨ ((y, x) ∈ g.arcs.keys ∧ (y, x) ≠ a)) := by
  obtain ⟨_, _, hs⟩ := removeArc_spec h a r hr
  obtain ⟨h1, h2, h3⟩ := hs ha
  refine ⟨h1, fun b => ?_, h3⟩
  rw [h2, Dict.get?_del h.arcsWF]
  by_cases hb : a = b
  · simp [hb]
  · simp [hb, Ne.symm hb]

/-- C06 is false as stated: `DirectedGraph().add_arc(("a","b"), 1, demands=5)` raises `TypeError`
after having inserted the arc, so the digraph changes and has an arc without nodes. -/
theorem C06_add_arc_error_corrupts :
    ∃ (a : Arc) (d : Demands), (addArc Digraph.empty a 1 d).2 = some .typeError ∧
      (addArc Digraph.empty a 1 d).1 ≠ Digraph.empty ∧ ¬ DWF (addArc Digraph.empty a 1 d).1 := by
  refine ⟨(['a'], ['b']), .scalar 5, by decide +kernel, by decide +kernel, fun h => ?_⟩
  exact absurd (h.endsTail ['a'] ['b'] (by decide +kernel)) (by decide +kernel)

/-- A star with two-character names: arcs `ab → cd` and `ab → ef`. -/
def starGraph : Digraph :=
  ⟨[(['a', 'b'], [['c', 'd'], ['e', 'f']]), (['c', 'd'], []), (['e', 'f'], [])],
   [((['a', 'b'], ['c', 'd']), 1), ((['a', 'b'], ['e', 'f']), 1)],
   [(['a', 'b'], 0), (['c', 'd'], 0), (['e', 'f'], 0)]⟩

/-- C06 is false as stated: with names longer than one character,
`remove_arc(("ab","cd"), remove_nodes=True)` deletes node `ab` although arc `("ab","ef")` is still
there. -/
theorem C06_remove_arc_dangling :
    ctor [] [((['a', 'b'], ['c', 'd']), 1), ((['a', 'b'], ['e', 'f']), 1)] [] = .ok starGraph ∧
    (removeArc starGraph (['a', 'b'], ['c', 'd']) true).2 = none ∧
    ¬ DWF (removeArc starGraph (['a', 'b'], ['c', 'd']) true).1 := by
  refine ⟨by decide +kernel, by decide +kernel, fun h => ?_⟩
  exact absurd (h.endsTail ['a', 'b'] ['e', 'f'] (by decide +kernel)) (by decide +kernel)

/-- Non-vacuity for C06: a digraph with three nodes, and calls of every kind, one failing. -/
example : DWF (run starGraph [.addNode ['x'] 3, .addArc (['x'], ['y']) 2 (.tuple [1, 2]),
    .removeArc (['x'], ['y']) true, .setArcWeight (['q'], ['r']) 1, .setNodeWeight ['c', 'd'] 7]) :=
  C06_history_partial (C06_remove_arc_dangling.1) _ (by
    intro op hop
    simp only [List.mem_cons, List.not_mem_nil, or_false] at hop
    rcases hop with rfl | rfl | rfl | rfl | rfl
    · trivial
    · exact Or.inr ⟨_, rfl, by decide⟩
    · exact fun _ => ⟨rfl, rfl⟩
    · trivial
    · trivial)

/-! ## C07: cuts and degrees -/

/-- C07. `cut(S)` is exactly the set of arcs leaving `S` (each listed once). -/
theorem C07_cut {g : Digraph} (h : DWF g) (S : List Name) :
    (cut g (.iter S)).Nodup ∧
    ∀ u v, (u, v) ∈ cut g (.iter S) ↔ (u, v) ∈ g.arcs.keys ∧ u ∈ S ∧ v ∉ S := by
  refine ⟨List.Nodup.filter _ h.arcsWF, fun u v => ?_⟩
  simp only [cut, List.mem_filter, Bool.and_eq_true, decide_eq_true_eq]
  exact Iff.rfl

/-- C07. `ncut(S)` is exactly the set of arcs entering `S` (each listed once). -/
theorem C07_ncut {g : Digraph} (h : DWF g) (S : List Name) :
    (ncut g (.iter S)).Nodup ∧
    ∀ u v, (u, v) ∈ ncut g (.iter S) ↔ (u, v) ∈ g.arcs.keys ∧ v ∈ S ∧ u ∉ S := by
  refine ⟨List.Nodup.filter _ h.arcsWF, fun u v => ?_⟩
  simp only [ncut, List.mem_filter, Bool.and_eq_true, decide_eq_true_eq]
  exact Iff.rfl

/-- C07. The degree functions count the arcs leaving/entering the set. -/
theorem C07_degrees {g : Digraph} (h : DWF g) (S : List Name) :
    outdegree g (.iter S) = (g.arcs.keys.toFinset.filter fun a => a.1 ∈ S ∧ a.2 ∉ S).card ∧
    indegree g (.iter S) = (g.arcs.keys.toFinset.filter fun a => a.2 ∈ S ∧ a.1 ∉ S).card ∧
    connections g (.iter S) = indegree g (.iter S) + outdegree g (.iter S) := by
  refine ⟨?_, ?_, rfl⟩
  · have : (g.arcs.keys.toFinset.filter fun a => a.1 ∈ S ∧ a.2 ∉ S) = (cut g (.iter S)).toFinset := by
      ext ⟨u, v⟩
      rw [List.mem_toFinset, (C07_cut h S).2, Finset.mem_filter, List.mem_toFinset]
    rw [this, List.toFinset_card_of_nodup (C07_cut h S).1]
    rfl
  · have : (g.arcs.keys.toFinset.filter fun a => a.2 ∈ S ∧ a.1 ∉ S) = (ncut g (.iter S)).toFinset := by
      ext ⟨u, v⟩
      rw [List.mem_toFinset, (C07_ncut h S).2, Finset.mem_filter, List.mem_toFinset]
    rw [this, List.toFinset_card_of_nodup (C07_ncut h S).1]
    rfl

/-- C07, single-name calls: correct for one-character names. Missing: longer names, for which the
claim is false (next theorem). -/
theorem C07_name_partial (g : Digraph) (v : Name) (hv : v.length = 1) :
    cut g (.name v) = cut g (.iter [v]) ∧ ncut g (.name v) = ncut g (.iter [v]) ∧
    indegree g (.name v) = indegree g (.iter [v]) ∧ outdegree g (.name v) = outdegree g (.iter [v]) ∧
    connections g (.name v) = connections g (.iter [v]) := by
  obtain ⟨c, rfl⟩ := List.length_eq_one_iff.mp hv
  exact ⟨rfl, rfl, rfl, rfl, rfl⟩

/-- C07 is false as stated: for a two-character node name the cut of the node is computed as empty
although an arc leaves it. -/
theorem C07_name_wrong :
    DWF starGraph ∧ ['a', 'b'] ∈ starGraph.nodes.keys ∧
    (['a', 'b'], ['c', 'd']) ∈ cut starGraph (.iter [['a', 'b']]) ∧
    cut starGraph (.name ['a', 'b']) = [] ∧ outdegree starGraph (.name ['a', 'b']) = 0 :=
  ⟨ctor_spec C06_remove_arc_dangling.1, by decide +kernel, by decide +kernel, by decide +kernel,
    by decide +kernel⟩

/-- The name case in general: the code takes the cut of the set of characters. -/
theorem C07_name_general (g : Digraph) (v : Name) :
    cut g (.name v) = cut g (.iter (v.map fun c => [c])) ∧
    ncut g (.name v) = ncut g (.iter (v.map fun c => [c])) := ⟨rfl, rfl⟩

/-! ## C08: residual networks -/

theorem resLoop_error_iff (flow : Flow) (l : List (Arc × ℚ)) (r : Resid) :
    (∃ r', resLoop flow l r = .ok r' ∧ ∀ a c, (a, c) ∈ l → fl flow a ≤ c) ∨
    (resLoop flow l r = .error .arithmeticError ∧ ∃ a c, (a, c) ∈ l ∧ c < fl flow a) := by
  induction l generalizing r with
  | nil => left; exact ⟨r, rfl, by simp⟩
  | cons q l ih =>
    obtain ⟨⟨u, v⟩, c⟩ := q
    by_cases hc : c < fl flow (u, v)
    · right
      refine ⟨?_, (u, v), c, by simp, hc⟩
      unfold resLoop; exact if_pos hc
    · have hstep : ∃ r', resLoop flow (((u, v), c) :: l) r = resLoop flow l r' :=
        ⟨_, by conv_lhs => unfold resLoop
               exact if_neg hc⟩
      obtain ⟨r1, h1⟩ := hstep
      rw [h1]
      rcases ih r1 with ⟨r', h2, h3⟩ | ⟨h2, a, c', h3, h4⟩
      · left
        refine ⟨r', h2, fun a c' hac => ?_⟩
        rcases List.mem_cons.mp hac with hac | hac
        · cases hac; exact not_lt.mp hc
        · exact h3 a c' hac
      · exact Or.inr ⟨h2, a, c', by simp [h3], h4⟩

/-- C08, rejected inputs: a flow on a foreign arc, a negative flow value or a negative capacity
raises `ValueError`; otherwise a flow above capacity raises `ArithmeticError`. -/
theorem C08_rejects {g : Digraph} (h : DWF g) {flow : Flow} (hf : flow.WF) :
    ((∃ a x, flow.get? a = some x ∧ (a ∉ g.arcs.keys ∨ x < 0)) →
      createResidual g flow = .error .valueError) ∧
    ((∃ a c, g.arcs.get? a = some c ∧ c < 0) → createResidual g flow = .error .valueError) ∧
    ((∀ a x, flow.get? a = some x → a ∈ g.arcs.keys ∧ 0 ≤ x) →
      (∀ a c, g.arcs.get? a = some c → 0 ≤ c) →
      (∃ a c, g.arcs.get? a = some c ∧ c < fl flow a) →
      createResidual g flow = .error .arithmeticError) := by
  refine ⟨?_, ?_, ?_⟩
  · rintro ⟨a, x, hax, hbad⟩
    have : flow.any (fun p => !g.arcs.has p.1 || decide (p.2 < 0)) = true := by
      rw [List.any_eq_true]
      refine ⟨(a, x), Dict.mem_of_get? hax, ?_⟩
      rcases hbad with h1 | h1
      · simp [Dict.has_eq_false_iff.mpr h1]
      · simp [h1]
    simp [createResidual, this]
  · rintro ⟨a, c, hac, hc⟩
    have : g.arcs.values.any (fun w => decide (w < 0)) = true := by
      rw [List.any_eq_true]
      refine ⟨c, ?_, by simp [hc]⟩
      exact List.mem_map.mpr ⟨(a, c), Dict.mem_of_get? hac, rfl⟩
    unfold createResidual
    rw [if_pos this]
    split <;> rfl
  · rintro h1 h2 ⟨a, c, hac, hc⟩
    have n1 : ¬ flow.any (fun p => !g.arcs.has p.1 || decide (p.2 < 0)) = true := by
      rw [List.any_eq_true]
      rintro ⟨⟨b, x⟩, hb, hbad⟩
      obtain ⟨h3, h4⟩ := h1 b x (Dict.get?_of_mem hf hb)
      simp [Dict.has_iff.mpr h3] at hbad
      exact absurd hbad (not_lt.mpr h4)
    have n2 : ¬ g.arcs.values.any (fun w => decide (w < 0)) = true := by
      rw [List.any_eq_true]
      rintro ⟨w, hw, hbad⟩
      obtain ⟨⟨b, w'⟩, hb, rfl⟩ := List.mem_map.mp hw
      exact absurd (of_decide_eq_true hbad) (not_lt.mpr (h2 b w' (Dict.get?_of_mem h.arcsWF hb)))
    have n3 : computeResidual g flow = .error .arithmeticError := by
      rcases resLoop_error_iff flow g.arcs [] with ⟨r', _, h5⟩ | ⟨h5, _⟩
      · exact absurd hc (not_lt.mpr (h5 a c (Dict.mem_of_get? hac)))
      · exact h5
    unfold createResidual
    rw [if_neg n1, if_neg n2, n3]

/-- C08, accepted inputs: for a feasible flow on a digraph without opposite arcs the result is
exactly the residual network. Missing: digraphs with opposite arcs, where the claim is false (next
theorem). -/
theorem C08_residual_partial {g : Digraph} (h : DWF g) (hna : NoAnti g.arcs) {flow : Flow}
    (hf : flow.WF) (hcap : ∀ a c, g.arcs.get? a = some c → 0 ≤ c)
    (hflow : ∀ a x, flow.get? a = some x → ∃ c, g.arcs.get? a = some c ∧ 0 ≤ x ∧ x ≤ c) :
    ∃ g', createResidual g flow = .ok g' ∧ DWF g' ∧
      (∀ u v w, g'.arcs.get? (u, v) = some w ↔
        (∃ c, g.arcs.get? (u, v) = some c ∧ fl flow (u, v) < c ∧ w = c - fl flow (u, v)) ∨
        (∃ c, g.arcs.get? (v, u) = some c ∧ 0 < fl flow (v, u) ∧ w = fl flow (v, u))) ∧
      (∀ x, x ∈ g'.nodes.keys ↔ ∃ y, (x, y) ∈ g'.arcs.keys ∨ (y, x) ∈ g'.arcs.keys) := by
  have n1 : ¬ flow.any (fun p => !g.arcs.has p.1 || decide (p.2 < 0)) = true := by
    rw [List.any_eq_true]
    rintro ⟨⟨b, x⟩, hb, hbad⟩
    obtain ⟨c, h3, h4, _⟩ := hflow b x (Dict.get?_of_mem hf hb)
    simp [Dict.has_iff.mpr (Dict.mem_keys_of_get? h3)] at hbad
    exact absurd hbad (not_lt.mpr h4)
  have n2 : ¬ g.arcs.values.any (fun w => decide (w < 0)) = true := by
    rw [List.any_eq_true]
    rintro ⟨w, hw, hbad⟩
    obtain ⟨⟨b, w'⟩, hb, rfl⟩ := List.mem_map.mp hw
    exact absurd (of_decide_eq_true hbad) (not_lt.mpr (hcap b w' (Dict.get?_of_mem h.arcsWF hb)))
  rcases computeResidual_spec h hna flow with ⟨a, c, h1, h2, _⟩ | ⟨_, r, h1, h2, h3⟩
  · exfalso
    unfold fl at h2
    cases hfa : flow.get? a with
    | none => rw [hfa] at h2; exact absurd h2 (not_lt.mpr (hcap a c h1))
    | some x =>
      rw [hfa] at h2
      obtain ⟨c', h4, _, h5⟩ := hflow a x hfa
      rw [h1] at h4; cases h4
      exact absurd h2 (not_lt.mpr h5)
  · have hget : ∀ u v w, lookup r u v = some w ↔
        (∃ c, g.arcs.get? (u, v) = some c ∧ fl flow (u, v) < c ∧ w = c - fl flow (u, v)) ∨
        (∃ c, g.arcs.get? (v, u) = some c ∧ 0 < fl flow (v, u) ∧ w = fl flow (v, u)) := by
      intro u v w
      rw [h3]
      unfold residSpec
      cases huv : g.arcs.get? (u, v) with
      | some c =>
        have hvu : g.arcs.get? (v, u) = none :=
          Dict.get?_eq_none_iff.mpr (hna u v (Dict.mem_keys_of_get? huv))
        by_cases hlt : fl flow (u, v) < c <;> simp [hvu, hlt, eq_comm]
      | none =>
        simp only [reduceCtorEq, false_and, exists_false, false_or]
        by_cases hm : (v, u) ∈ g.arcs.keys
        · obtain ⟨c, hc⟩ := Dict.exists_get?_of_mem hm
          by_cases hlt : 0 < fl flow (v, u) <;> simp [hc, hm, hlt, eq_comm]
        · simp [hm, Dict.get?_eq_none_iff.mpr hm]
    have hloop : ∀ u v, (u, v) ∈ (flattenResid r).keys → u ≠ v := by
      intro u v huv
      obtain ⟨w, hw⟩ := Dict.exists_get?_of_mem huv
      rw [flatten_get? h2, hget] at hw
      rcases hw with ⟨c, hc, _⟩ | ⟨c, hc, _⟩
      · exact h.noLoop u v (Dict.mem_keys_of_get? hc)
      · exact (h.noLoop v u (Dict.mem_keys_of_get? hc)).symm
    obtain ⟨g', e1, e2, e3⟩ := ctorArcs_ok DWF_empty (flattenResid r) (flatten_WF r) hloop
    have e2' : ∀ u v, g'.arcs.get? (u, v) = lookup r u v := by
      intro u v
      rw [e2, flatten_get? h2]
      simp [Digraph.empty, Dict.get?]
    have e4 : createResidual g flow = .ok g' := by
      unfold createResidual
      rw [if_neg n1, if_neg n2, h1]
      simp [ctor, ctorGraph, e1, ctorNodes]
    refine ⟨g', e4, ?_, fun u v w => by rw [e2', hget], fun x => ?_⟩
    · exact ctorArcs_spec DWF_empty _ g' e1
    · rw [e3]
      have hk : ∀ u v, (u, v) ∈ g'.arcs.keys ↔ (u, v) ∈ (flattenResid r).keys := by
        intro u v
        rw [← not_iff_not, ← Dict.get?_eq_none_iff, ← Dict.get?_eq_none_iff, e2', flatten_get? h2]
      simp only [hk]
      have : x ∉ Digraph.empty.nodes.keys := by simp [Digraph.empty, Dict.keys]
      exact ⟨fun hx => hx.resolve_left this, Or.inr⟩

/-- Two opposite arcs `s → t` (capacity 3) and `t → s` (capacity 4). -/
def oppositeGraph : Digraph :=
  ⟨[(['s'], [['t']]), (['t'], [['s']])], [((['s'], ['t']), 3), ((['t'], ['s']), 4)],
   [(['s'], 0), (['t'], 0)]⟩

/-- C08 is false for opposite arcs: with flow 1 on `s → t`, the arc `t → s` still has 4 units of
spare capacity and 1 unit of `s → t` can be cancelled, yet the residual network built by the code
gives `t → s` the weight 4 only, losing the cancellable unit. -/
theorem C08_opposite_wrong :
    ctor [] [((['s'], ['t']), 3), ((['t'], ['s']), 4)] [] = .ok oppositeGraph ∧
    ∃ g', createResidual oppositeGraph [((['s'], ['t']), 1)] = .ok g' ∧
      g'.arcs.get? (['t'], ['s']) = some 4 ∧ g'.arcs.get? (['s'], ['t']) = some 2 :=
  ⟨by decide +kernel, ⟨[(['s'], [['t']]), (['t'], [['s']])], [((['s'], ['t']), 2), ((['t'], ['s']), 4)],
    [(['s'], 0), (['t'], 0)]⟩, by decide +kernel, by decide +kernel, by decide +kernel⟩

/-- Non-vacuity for C08: a two-arc path with a positive flow. -/
example : ∃ g, ctor [] [((['s'], ['a']), 3), ((['a'], ['t']), 2)] [] = .ok g ∧ NoAnti g.arcs ∧
    createResidual g [((['s'], ['a']), 2), ((['a'], ['t']), 2)] ≠ .error .valueError :=
  ⟨⟨[(['s'], [['a']]), (['a'], [['t']]), (['t'], [])], [((['s'], ['a']), 3), ((['a'], ['t']), 2)],
    [(['s'], 0), (['a'], 0), (['t'], 0)]⟩, by decide +kernel, by
      intro u v huv hvu
      simp [Dict.keys] at huv hvu
      rcases huv with ⟨rfl, rfl⟩ | ⟨rfl, rfl⟩ <;> simp at hvu, by decide +kernel⟩

end Pytimize.Props
