/-
Property C99: the constructor and the mutating calls of a directed graph build the weighted digraph they are told to.
-/
import Verif.Graph.DirectedBuild
import Verif.Props.Directed

namespace Pytimize.Props
open Pytimize.Directed
open Pytimize.Undirected (lastOf zeroIf zeroIf_or)

/-- Specification: the weighted digraph described by the three arguments of the constructor. A node is there if it is
named anywhere, an arc if it is named in `graph` or `arcs`; the weight is the last one given, or 0. -/
noncomputable def describedD (graph : List (Name × List Name)) (arcs : List (Arc × ℚ)) (nodes : List (Name × ℚ)) :
    DNet where
  node x := (lastOf nodes x).or (zeroIf
    ((∃ p ∈ graph, x = p.1 ∨ x ∈ p.2) ∨ ∃ p ∈ arcs, x = p.1.1 ∨ x = p.1.2))
  arc a := (lastOf arcs a).or (zeroIf (∃ p ∈ graph, ∃ v ∈ p.2, a = (p.1, v)))

theorem ctor_drep (graph : List (Name × List Name)) (arcs : List (Arc × ℚ)) (nodes : List (Name × ℚ)) :
    (((∀ p ∈ graph, ∀ v ∈ p.2, p.1 ≠ v) ∧ ∀ p ∈ arcs, p.1.1 ≠ p.1.2) →
      ∃ g, ctor graph arcs nodes = .ok g ∧ DRep g (describedD graph arcs nodes)) ∧
    (¬ ((∀ p ∈ graph, ∀ v ∈ p.2, p.1 ≠ v) ∧ ∀ p ∈ arcs, p.1.1 ≠ p.1.2) →
      ctor graph arcs nodes = .error .valueError) := by
  have key := (ctorGraph_net DRep_empty graph).andThen
    (f := fun g1 => chain (ctorArcs g1 arcs) fun g2 => ctorNodes g2 nodes) fun g1 h1 =>
      (ctorArcs_net h1 arcs).andThen (f := fun g2 => ctorNodes g2 nodes) fun g2 h2 =>
        ctorNodes_net h2 nodes
  have key := key.congr (Q := (∀ p ∈ graph, ∀ v ∈ p.2, p.1 ≠ v) ∧ ∀ p ∈ arcs, p.1.1 ≠ p.1.2)
    (M := describedD graph arcs nodes) (by simp only [and_true]) (fun x => by
      simp only [describedD, Option.none_or]
      rw [zeroIf_or Iff.rfl]) fun s => by simp only [describedD, Option.none_or]
  have e : ctor graph arcs nodes = (match chain (ctorGraph Digraph.empty graph)
      fun g1 => chain (ctorArcs g1 arcs) fun g2 => ctorNodes g2 nodes with
      | (_, some e) => .error e
      | (g, none) => .ok g) := by
    unfold ctor
    generalize ctorGraph Digraph.empty graph = r
    obtain ⟨g1, e1⟩ := r
    cases e1 with
    | some e => rfl
    | none =>
      simp only [chain]
      generalize ctorArcs g1 arcs = r
      obtain ⟨g2, e2⟩ := r
      cases e2 with
      | some e => rfl
      | none =>
        simp only
        generalize ctorNodes g2 nodes = r
        obtain ⟨g3, e3⟩ := r
        cases e3 <;> rfl
  rw [e]
  generalize chain (ctorGraph Digraph.empty graph)
    (fun g1 => chain (ctorArcs g1 arcs) fun g2 => ctorNodes g2 nodes) = r at key
  obtain ⟨g, err⟩ := r
  constructor
  · intro h
    obtain ⟨h1, h2⟩ := key.1 h
    simp only at h1 h2
    subst h1
    exact ⟨g, rfl, h2⟩
  · intro h
    have h1 := key.2 h
    simp only at h1
    subst h1
    rfl

/-- C99: the constructor accepts its arguments exactly if no arc is a loop; then the digraph shows exactly the nodes,
arcs and weights described by the arguments. -/
theorem C99_ctor (graph : List (Name × List Name)) (arcs : List (Arc × ℚ)) (nodes : List (Name × ℚ)) :
    (((∀ p ∈ graph, ∀ v ∈ p.2, p.1 ≠ v) ∧ ∀ p ∈ arcs, p.1.1 ≠ p.1.2) →
      ∃ g, ctor graph arcs nodes = .ok g ∧ DShows g (describedD graph arcs nodes)) ∧
    (¬ ((∀ p ∈ graph, ∀ v ∈ p.2, p.1 ≠ v) ∧ ∀ p ∈ arcs, p.1.1 ≠ p.1.2) →
      ctor graph arcs nodes = .error .valueError) := by
  obtain ⟨h1, h2⟩ := ctor_drep graph arcs nodes
  refine ⟨fun h => ?_, h2⟩
  obtain ⟨g, hg, hr⟩ := h1 h
  exact ⟨g, hg, hr.shows⟩

/-- The specified effect of a history of calls; rejected calls change nothing. -/
noncomputable def DNet.run (N : DNet) (ops : List Op) : DNet := ops.foldl (fun N o => (N.step o).getD N) N

theorem run_drep {g : Digraph} {N : DNet} (h : DRep g N) {ops : List Op} (ho : ∀ o ∈ ops, GoodOp o) :
    DRep (run g ops) (DNet.run N ops) := by
  induction ops generalizing g N with
  | nil => exact h
  | cons o ops ih =>
    have hs := h.step (ho o List.mem_cons_self)
    have ho' : ∀ o ∈ ops, GoodOp o := fun o' h' => ho o' (List.mem_cons_of_mem _ h')
    show DRep (run (step g o).1 ops) (DNet.run ((N.step o).getD N) ops)
    generalize N.step o = r at hs
    cases r with
    | none => simp only at hs; rw [hs]; exact ih h ho'
    | some N' => exact ih hs.2 ho'

/-- C99: after the constructor and any history of calls with arguments the methods can work with, the digraph shows the
weighted digraph that the calls describe one after the other, and the next such call is rejected with `ValueError`,
without effect, exactly if the specification rejects it. The other arguments (`demands` a number or too short a tuple,
`remove_nodes` with longer names) break the object, see `C06_add_arc_error_corrupts`, `C06_remove_arc_dangling`. -/
theorem C99_history_partial {graph : List (Name × List Name)} {arcs : List (Arc × ℚ)} {nodes : List (Name × ℚ)}
    {g : Digraph} (h : ctor graph arcs nodes = .ok g) {ops : List Op} (ho : ∀ o ∈ ops, GoodOp o) :
    DShows (run g ops) (DNet.run (describedD graph arcs nodes) ops) ∧
    ∀ o, GoodOp o →
      match (DNet.run (describedD graph arcs nodes) ops).step o with
      | none => step (run g ops) o = (run g ops, some .valueError)
      | some N' => (step (run g ops) o).2 = none ∧ DShows (step (run g ops) o).1 N' := by
  obtain ⟨h1, h2⟩ := ctor_drep graph arcs nodes
  by_cases hp : (∀ p ∈ graph, ∀ v ∈ p.2, p.1 ≠ v) ∧ ∀ p ∈ arcs, p.1.1 ≠ p.1.2
  · obtain ⟨g', hg', hr⟩ := h1 hp
    rw [h] at hg'
    cases hg'
    have hr' := run_drep hr ho
    refine ⟨hr'.shows, fun o hk => ?_⟩
    have hs := hr'.step hk
    generalize (DNet.run (describedD graph arcs nodes) ops).step o = r at hs
    cases r with
    | none => exact hs
    | some N' => exact ⟨hs.1, hs.2.shows⟩
  · rw [h2 hp] at h; cases h

/-- A history that `C99_history_partial` speaks of: all five kinds of calls; afterwards `y` is gone, `x` has kept its demand. -/
example : (∀ o ∈ [Op.addNode ['x'] 3, .addArc (['x'], ['y']) 2 (.tuple [1, 2]), .setArcWeight (['x'], ['y']) 7,
      .setNodeWeight ['x'] 4, .addArc (['x'], ['z']) 1 .none, .removeArc (['x'], ['y']) true], GoodOp o) ∧
    ∃ g, ctor [] [] [] = .ok g ∧
      run g [.addNode ['x'] 3, .addArc (['x'], ['y']) 2 (.tuple [1, 2]), .setArcWeight (['x'], ['y']) 7,
        .setNodeWeight ['x'] 4, .addArc (['x'], ['z']) 1 .none, .removeArc (['x'], ['y']) true] =
        ⟨[(['x'], [['z']]), (['z'], [])], [((['x'], ['z']), 1)], [(['x'], 4), (['z'], 0)]⟩ := by
  refine ⟨?_, Digraph.empty, rfl, by decide +kernel⟩
  intro o ho
  simp only [List.mem_cons, List.not_mem_nil, or_false] at ho
  rcases ho with rfl | rfl | rfl | rfl | rfl | rfl
  · trivial
  · exact Or.inr ⟨_, rfl, by decide⟩
  · trivial
  · trivial
  · exact Or.inl rfl
  · exact fun _ => ⟨rfl, rfl⟩

end Pytimize.Props
