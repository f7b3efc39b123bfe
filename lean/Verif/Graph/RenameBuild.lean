/-
Renaming the nodes commutes with building and changing a digraph.
-/
import Verif.Graph.Rename

namespace Pytimize
namespace Directed
variable {ρ : Name → Name}

/-- The call with renamed arguments. -/
def renOp (ρ : Name → Name) : Op → Op
  | .addNode v q => .addNode (ρ v) q
  | .addArc a w d => .addArc (renArc ρ a) w d
  | .removeArc a r => .removeArc (renArc ρ a) r
  | .setArcWeight a w => .setArcWeight (renArc ρ a) w
  | .setNodeWeight v w => .setNodeWeight (ρ v) w

section
variable (hρ : Function.Injective ρ)
include hρ

theorem hasNode_ren (g : Digraph) (v : Name) : hasNode (renGraph ρ g) (ρ v) = hasNode g v := Dict.has_ren hρ _ _ _

theorem hasArc_ren (g : Digraph) (a : Arc) : hasArc (renGraph ρ g) (renArc ρ a) = hasArc g a :=
  Dict.has_ren (renArc_inj hρ) _ _ _

theorem addNode_ren (g : Digraph) (v : Name) (q : ℚ) : addNode (renGraph ρ g) (ρ v) q = renOut ρ (addNode g v q) := by
  unfold addNode
  rw [hasNode_ren hρ]
  split
  · rfl
  · have h1 : (renGraph ρ g).graph.setDefault (ρ v) [] = Dict.ren ρ (List.map ρ) (g.graph.setDefault v []) :=
      Dict.setDefault_ren hρ (List.map ρ) g.graph v []
    have h2 : (renGraph ρ g).nodes.setDefault (ρ v) q = Dict.ren ρ id (g.nodes.setDefault v q) :=
      Dict.setDefault_ren hρ id g.nodes v q
    rw [h1, h2]
    rfl

theorem addEnd_ren (g : Digraph) (v : Name) (d : Demands) (i : ℕ) :
    addEnd (renGraph ρ g) (ρ v) d i = renOut ρ (addEnd g v d i) := by
  unfold addEnd
  cases d.entry i with
  | error e => rfl
  | ok q => exact addNode_ren hρ g v q

theorem setAdd_ren (l : List Name) (x : Name) : setAdd (l.map ρ) (ρ x) = (setAdd l x).map ρ := by
  unfold setAdd
  simp only [List.mem_map, hρ.eq_iff, exists_eq_right]
  split <;> simp

theorem addArc_ren (g : Digraph) (a : Arc) (w : ℚ) (d : Demands) :
    addArc (renGraph ρ g) (renArc ρ a) w d = renOut ρ (addArc g a w d) := by
  obtain ⟨u, v⟩ := a
  unfold addArc
  rw [hasArc_ren hρ]
  split
  · rfl
  · have he : ((renArc ρ (u, v)).1 = (renArc ρ (u, v)).2) ↔ u = v := hρ.eq_iff
    simp only [he]
    split
    · rfl
    · have h0 : ((renGraph ρ g).graph.get? (ρ u)).getD [] = ((g.graph.get? u).getD []).map ρ := by
        rw [show (renGraph ρ g).graph.get? (ρ u) = (g.graph.get? u).map (List.map ρ) from Dict.get?_ren hρ _ _ _]
        cases g.graph.get? u <;> rfl
      have h1 : (renGraph ρ g).graph.set (ρ u) (setAdd (((renGraph ρ g).graph.get? (ρ u)).getD []) (ρ v)) =
          Dict.ren ρ (List.map ρ) (g.graph.set u (setAdd ((g.graph.get? u).getD []) v)) := by
        rw [h0, setAdd_ren hρ]
        exact Dict.set_ren hρ _ _ _ _
      have h2 : (renGraph ρ g).arcs.setDefault (renArc ρ (u, v)) w =
          Dict.ren (renArc ρ) id (g.arcs.setDefault (u, v) w) :=
        Dict.setDefault_ren (renArc_inj hρ) id g.arcs (u, v) w
      have h3 : ({ renGraph ρ g with
          graph := (renGraph ρ g).graph.set (renArc ρ (u, v)).1
            (setAdd (((renGraph ρ g).graph.get? (renArc ρ (u, v)).1).getD []) (renArc ρ (u, v)).2)
          arcs := (renGraph ρ g).arcs.setDefault (renArc ρ (u, v)) w } : Digraph) = renGraph ρ { g with
          graph := g.graph.set u (setAdd ((g.graph.get? u).getD []) v)
          arcs := g.arcs.setDefault (u, v) w } := by
        simp only [renGraph] at h1 h2 ⊢
        simp only [renArc] at h2 ⊢
        rw [h1, h2]
      simp only [h3]
      generalize ({ g with
          graph := g.graph.set u (setAdd ((g.graph.get? u).getD []) v)
          arcs := g.arcs.setDefault (u, v) w } : Digraph) = g1
      simp only [renArc, hasNode_ren hρ, addEnd_ren hρ]
      cases hasNode g1 u <;> cases hasNode g1 v <;> simp only [Bool.not_false, Bool.not_true, Bool.and_true,
        Bool.and_false, Bool.false_eq_true, if_true, if_false]
      · split
        · rfl
        · cases hq : addEnd g1 u d 0 with
          | mk g2 o =>
            cases o with
            | some e => rfl
            | none => exact addEnd_ren hρ g2 v d 1
      · rfl

theorem setArcWeight_ren (g : Digraph) (a : Arc) (w : ℚ) :
    setArcWeight (renGraph ρ g) (renArc ρ a) w = renOut ρ (setArcWeight g a w) := by
  unfold setArcWeight
  rw [hasArc_ren hρ]
  split
  · have h : (renGraph ρ g).arcs.set (renArc ρ a) w = Dict.ren (renArc ρ) id (g.arcs.set a w) :=
      Dict.set_ren (renArc_inj hρ) id _ _ _
    rw [h]
    rfl
  · rfl

theorem setNodeWeight_ren (g : Digraph) (v : Name) (w : ℚ) :
    setNodeWeight (renGraph ρ g) (ρ v) w = renOut ρ (setNodeWeight g v w) := by
  unfold setNodeWeight
  rw [hasNode_ren hρ]
  split
  · have h : (renGraph ρ g).nodes.set (ρ v) w = Dict.ren ρ id (g.nodes.set v w) := Dict.set_ren hρ id _ _ _
    rw [h]
    rfl
  · rfl

theorem dropNode_ren (g : Digraph) (v : Name) : dropNode (renGraph ρ g) (ρ v) = renOut ρ (dropNode g v) := by
  unfold dropNode
  have h1 : (renGraph ρ g).graph.has (ρ v) = g.graph.has v := Dict.has_ren hρ _ _ _
  have h2 : (renGraph ρ g).nodes.has (ρ v) = g.nodes.has v := Dict.has_ren hρ _ _ _
  have h3 : (renGraph ρ g).graph.del (ρ v) = Dict.ren ρ (List.map ρ) (g.graph.del v) := Dict.del_ren hρ _ _ _
  have h4 : (renGraph ρ g).nodes.del (ρ v) = Dict.ren ρ id (g.nodes.del v) := Dict.del_ren hρ _ _ _
  simp only [h1, h2, h3, h4]
  split
  · split <;> rfl
  · rfl

theorem erase_ren (l : List Name) (x : Name) : (l.map ρ).erase (ρ x) = (l.erase x).map ρ :=
  (List.map_erase hρ l).symm

omit hρ in
theorem connections_ren {g : Digraph} {v : Name} (h : CutRen ρ g v) :
    connections (renGraph ρ g) (.name (ρ v)) = connections g (.name v) := by
  unfold connections indegree outdegree
  rw [h.1, h.2, List.length_map, List.length_map]

/-- `remove_arc`; with `remove_nodes=True` the degrees of the end points are asked for by name. -/
theorem removeArc_ren (a : Arc) (b : Bool) (hc : b = true → ∀ g, CutRen ρ g a.1 ∧ CutRen ρ g a.2) (g : Digraph) :
    removeArc (renGraph ρ g) (renArc ρ a) b = renOut ρ (removeArc g a b) := by
  obtain ⟨u, v⟩ := a
  unfold removeArc
  rw [hasArc_ren hρ]
  split
  · have h1 : (renGraph ρ g).arcs.del (renArc ρ (u, v)) = Dict.ren (renArc ρ) id (g.arcs.del (u, v)) :=
      Dict.del_ren (renArc_inj hρ) _ _ _
    have h2 : (renGraph ρ g).graph.get? (ρ u) = (g.graph.get? u).map (List.map ρ) := Dict.get?_ren hρ _ _ _
    simp only [h1]
    simp only [renArc, h2]
    cases g.graph.get? u with
    | none => rfl
    | some l =>
      simp only [Option.map_some, List.mem_map, hρ.eq_iff, exists_eq_right]
      split
      · have h3 : (renGraph ρ g).graph.set (ρ u) ((l.map ρ).erase (ρ v)) =
            Dict.ren ρ (List.map ρ) (g.graph.set u (l.erase v)) := by
          rw [erase_ren hρ]
          exact Dict.set_ren hρ _ _ _ _
        have h4 : (⟨(renGraph ρ g).graph.set (ρ u) ((l.map ρ).erase (ρ v)),
            Dict.ren (renArc ρ) id (g.arcs.del (u, v)), (renGraph ρ g).nodes⟩ : Digraph) =
            renGraph ρ ⟨g.graph.set u (l.erase v), g.arcs.del (u, v), g.nodes⟩ := by
          rw [h3]; rfl
        simp only [h4]
        generalize (⟨g.graph.set u (l.erase v), g.arcs.del (u, v), g.nodes⟩ : Digraph) = g2
        cases b with
        | false => rfl
        | true =>
          have hc' := hc rfl
          simp only [if_true, connections_ren (hc' _).1, dropNode_ren hρ]
          have h5 : (if connections g2 (.name u) = 0 then renOut ρ (dropNode g2 u) else (renGraph ρ g2, none)) =
              renOut ρ (if connections g2 (.name u) = 0 then dropNode g2 u else (g2, none)) := by
            split <;> rfl
          rw [h5]
          generalize (if connections g2 (.name u) = 0 then dropNode g2 u else (g2, none)) = p
          obtain ⟨g3, o⟩ := p
          cases o with
          | some e => rfl
          | none =>
            simp only [renOut, connections_ren (hc' g3).2, dropNode_ren hρ]
            split <;> rfl
      · rfl
  · rfl

theorem step_ren (g : Digraph) (o : Op)
    (hc : ∀ a, o = .removeArc a true → ∀ g, CutRen ρ g a.1 ∧ CutRen ρ g a.2) :
    step (renGraph ρ g) (renOp ρ o) = renOut ρ (step g o) := by
  cases o with
  | addNode v q => exact addNode_ren hρ g v q
  | addArc a w d => exact addArc_ren hρ g a w d
  | removeArc a r => exact removeArc_ren hρ a r (fun h => hc a (by rw [h])) g
  | setArcWeight a w => exact setArcWeight_ren hρ g a w
  | setNodeWeight v w => exact setNodeWeight_ren hρ g v w

theorem run_ren (ops : List Op) : ∀ g : Digraph,
    (∀ a, .removeArc a true ∈ ops → ∀ g, CutRen ρ g a.1 ∧ CutRen ρ g a.2) →
    run (renGraph ρ g) (ops.map (renOp ρ)) = renGraph ρ (run g ops) := by
  induction ops with
  | nil => intro g _; rfl
  | cons o ops ih =>
    intro g hc
    have h1 := step_ren hρ g o fun a ha => hc a (by rw [← ha]; exact List.mem_cons_self ..)
    have h2 := ih (step g o).1 fun a ha => hc a (List.mem_cons_of_mem _ ha)
    unfold run at h2 ⊢
    simp only [List.map_cons, List.foldl_cons, h1]
    exact h2

theorem ctorConns_ren (u : Name) : ∀ (l : List Name) (g : Digraph),
    ctorConns (renGraph ρ g) (ρ u) (l.map ρ) = renOut ρ (ctorConns g u l) := by
  intro l
  induction l with
  | nil => intro g; rfl
  | cons v l ih =>
    intro g
    have h1 : hasArc (renGraph ρ g) (ρ u, ρ v) = hasArc g (u, v) := hasArc_ren hρ g (u, v)
    have h2 : addArc (renGraph ρ g) (ρ u, ρ v) 0 .none = renOut ρ (addArc g (u, v) 0 .none) :=
      addArc_ren hρ g (u, v) 0 .none
    simp only [List.map_cons, ctorConns, h1, h2]
    split
    · exact ih g
    · obtain ⟨g', o⟩ := addArc g (u, v) 0 .none
      cases o with
      | some e => rfl
      | none => exact ih g'

theorem ctorGraph_ren : ∀ (l : List (Name × List Name)) (g : Digraph),
    ctorGraph (renGraph ρ g) (l.map fun p => (ρ p.1, p.2.map ρ)) = renOut ρ (ctorGraph g l) := by
  intro l
  induction l with
  | nil => intro g; rfl
  | cons p l ih =>
    intro g
    obtain ⟨u, vs⟩ := p
    simp only [List.map_cons, ctorGraph, List.length_map, hasNode_ren hρ, addNode_ren hρ, ctorConns_ren hρ]
    split
    · split
      · exact ih g
      · obtain ⟨g', o⟩ := addNode g u 0
        cases o with
        | some e => rfl
        | none => exact ih g'
    · obtain ⟨g', o⟩ := ctorConns g u vs
      cases o with
      | some e => rfl
      | none => exact ih g'

theorem ctorArcs_ren : ∀ (l : List (Arc × ℚ)) (g : Digraph),
    ctorArcs (renGraph ρ g) (l.map fun p => (renArc ρ p.1, p.2)) = renOut ρ (ctorArcs g l) := by
  intro l
  induction l with
  | nil => intro g; rfl
  | cons p l ih =>
    intro g
    obtain ⟨a, w⟩ := p
    simp only [List.map_cons, ctorArcs, hasArc_ren hρ, addArc_ren hρ]
    have h5 : (if hasArc g a = true then (renGraph ρ g, none) else renOut ρ (addArc g a w .none)) =
        renOut ρ (if hasArc g a = true then (g, none) else addArc g a w .none) := by
      split <;> rfl
    rw [h5]
    generalize (if hasArc g a = true then (g, none) else addArc g a w .none) = q
    obtain ⟨g1, o⟩ := q
    cases o with
    | some e => rfl
    | none =>
      simp only [renOut, setArcWeight_ren hρ]
      obtain ⟨g2, o⟩ := setArcWeight g1 a w
      cases o with
      | some e => rfl
      | none => exact ih g2

theorem ctorNodes_ren : ∀ (l : List (Name × ℚ)) (g : Digraph),
    ctorNodes (renGraph ρ g) (l.map fun p => (ρ p.1, p.2)) = renOut ρ (ctorNodes g l) := by
  intro l
  induction l with
  | nil => intro g; rfl
  | cons p l ih =>
    intro g
    obtain ⟨v, w⟩ := p
    simp only [List.map_cons, ctorNodes, hasNode_ren hρ, addNode_ren hρ]
    have h5 : (if hasNode g v = true then (renGraph ρ g, none) else renOut ρ (addNode g v 0)) =
        renOut ρ (if hasNode g v = true then (g, none) else addNode g v 0) := by
      split <;> rfl
    rw [h5]
    generalize (if hasNode g v = true then (g, none) else addNode g v 0) = q
    obtain ⟨g1, o⟩ := q
    cases o with
    | some e => rfl
    | none =>
      simp only [renOut, setNodeWeight_ren hρ]
      obtain ⟨g2, o⟩ := setNodeWeight g1 v w
      cases o with
      | some e => rfl
      | none => exact ih g2

theorem ctor_ren (graph : List (Name × List Name)) (arcs : List (Arc × ℚ)) (nodes : List (Name × ℚ)) :
    ctor (graph.map fun p => (ρ p.1, p.2.map ρ)) (arcs.map fun p => (renArc ρ p.1, p.2))
      (nodes.map fun p => (ρ p.1, p.2)) = (ctor graph arcs nodes).map (renGraph ρ) := by
  unfold ctor
  have h0 := ctorGraph_ren hρ graph Digraph.empty
  rw [show renGraph ρ Digraph.empty = Digraph.empty from rfl] at h0
  rw [h0]
  obtain ⟨g1, o⟩ := ctorGraph Digraph.empty graph
  cases o with
  | some e => rfl
  | none =>
    simp only [renOut, ctorArcs_ren hρ]
    obtain ⟨g2, o⟩ := ctorArcs g1 arcs
    cases o with
    | some e => rfl
    | none =>
      simp only [ctorNodes_ren hρ]
      obtain ⟨g3, o⟩ := ctorNodes g2 nodes
      cases o <;> rfl

end

/-! ### Names of several letters -/

theorem mem_chars {w v : Name} (h : w ∈ chars v) : w.length = 1 := by
  unfold chars at h
  obtain ⟨c, -, rfl⟩ := List.mem_map.mp h
  rfl

theorem cut_long {g : Digraph} (h : ∀ a ∈ g.arcs.keys, a.1.length ≠ 1) (v : Name) : cut g (.name v) = [] := by
  unfold cut
  rw [List.filter_eq_nil_iff]
  intro a ha
  have : a.1 ∉ chars v := fun hm => h a ha (mem_chars hm)
  simp [NodeArg.toSet, this]

theorem ncut_long {g : Digraph} (h : ∀ a ∈ g.arcs.keys, a.2.length ≠ 1) (v : Name) : ncut g (.name v) = [] := by
  unfold ncut
  rw [List.filter_eq_nil_iff]
  intro a ha
  have : a.2 ∉ chars v := fun hm => h a ha (mem_chars hm)
  simp [NodeArg.toSet, this]

theorem zeroFlow_get? (g : Digraph) (a : Arc) : ((zeroFlow g).get? a).getD 0 = 0 := by
  unfold zeroFlow
  induction g.arcs with
  | nil => rfl
  | cons p l ih =>
    simp only [List.map_cons, Dict.get?]
    split
    · rfl
    · exact ih

theorem resLoop_zero {flow : Flow} (hf : ∀ a, (flow.get? a).getD 0 = 0) : ∀ (l : List (Arc × ℚ)) (r : Resid),
    (∀ p ∈ l, 0 ≤ p.2) → ∃ r', resLoop flow l r = .ok r' := by
  intro l
  induction l with
  | nil => intro r _; exact ⟨r, rfl⟩
  | cons p l ih =>
    intro r hl
    obtain ⟨⟨u, v⟩, c⟩ := p
    have h0 : 0 ≤ c := hl _ (List.mem_cons_self ..)
    simp only [resLoop, hf, not_lt.mpr h0, if_false]
    exact ih _ fun q hq => hl q (List.mem_cons_of_mem _ hq)

/-- Without excess the main loop only moves on. -/
theorem pLoop_idle {g : Digraph} {s t : Name} (nodes : List Name) : ∀ (k fuel : ℕ) (st : PState),
    nodes.length = st.index + k → 0 < k → k < fuel → (∀ v ∈ nodes, st.excess.get? v = some 0) →
    pLoop g s t nodes fuel st = .ok { st with index := nodes.length, value := some (flowValue g s st.flow) } := by
  intro k
  induction k with
  | zero => intro _ _ _ h; omega
  | succ k ih =>
    intro fuel st hk _ hf hex
    obtain ⟨fuel, rfl⟩ : ∃ m, fuel = m + 1 := ⟨fuel - 1, by omega⟩
    have hi : st.index < nodes.length := by omega
    have hx := hex nodes[st.index] (List.getElem_mem hi)
    simp only [pLoop, List.getElem?_eq_getElem hi, pStep, hx, gt_iff_lt, lt_irrefl, if_false]
    rcases Nat.eq_zero_or_pos k with rfl | hk0
    · obtain ⟨fuel, rfl⟩ : ∃ m, fuel = m + 1 := ⟨fuel - 1, by omega⟩
      have h1 : nodes[st.index + 1]? = none := List.getElem?_eq_none (by omega)
      simp only [pLoop, h1]
      rw [show st.index + 1 = nodes.length by omega]
    · rw [ih fuel _ (by simp only; omega) hk0 (by omega) (by simpa using hex)]

theorem initExcess_zero {g : Digraph} (s t : Name) (flow : Flow)
    (h : ∀ v, cut g (.name v) = [] ∧ ncut g (.name v) = []) :
    ∀ v ∈ innerNodes g s t, (initExcess g s t flow).get? v = some 0 := by
  unfold initExcess
  simp only [(h _).1, (h _).2]
  suffices hh : ∀ (l : List Name) (ex : Dict Name ℚ) (v : Name), (v ∈ l ∨ ex.get? v = some 0) →
      (l.foldl (fun ex v => Dict.set ex v (sumFlow flow [] - sumFlow flow [])) ex).get? v = some 0 from
    fun v hv => hh _ [] v (.inl hv)
  intro l
  induction l with
  | nil =>
    intro ex v hv
    simpa using hv
  | cons w l ih =>
    intro ex v hv
    simp only [List.foldl_cons]
    apply ih
    by_cases hw : w = v
    · right; simp [hw]
    · rcases hv with hv | hv
      · rcases List.mem_cons.mp hv with rfl | hv
        · exact absurd rfl hw
        · exact .inl hv
      · right; simp [hw, hv]

end Directed
end Pytimize
