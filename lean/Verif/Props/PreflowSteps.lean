/-
Property C122: the number of iterations of `preflow_push` does not depend on the capacities.
-/
import Verif.Graph.PreflowSteps
import Verif.Props.MaxFlow

namespace Pytimize.Props
open _root_.Pytimize.Directed

/-- A bound on the iterations of the main loop for a digraph with `n` nodes and `m` arcs. -/
def iterationBound (n m : ℕ) : ℕ := n * ((2 * n + 1) * (4 * n + 1) * m + 4 * n ^ 2 + 1)

/-- C122: `preflow_push` returns a maximum flow after at most `iterationBound n m` tests of the loop condition,
whatever the capacities. Missing: opposite arcs, where the loop may run for ever (`C14_endless_wrong`), names of more
than one character (`C14_name_wrong`), digraphs without inner nodes (`C14_two_nodes_fail`). -/
theorem C122_iterations_partial {g : Digraph} (hg : PreflowOk g) {s t : Name} (hst : s ≠ t) (hs : s ∈ g.nodes.keys)
    (ht : t ∈ g.nodes.keys) (hin : ∃ w ∈ g.nodes.keys, w ≠ s ∧ w ≠ t) :
    ∃ v f, (∀ fuel, iterationBound g.nodes.length g.arcs.length ≤ fuel → preflowPush fuel g s t = .ok (v, f)) ∧
      Feasible g s t (fl f) ∧ v = value g s (fl f) ∧ ∀ f', Feasible g s t f' → value g s f' ≤ v := by
  obtain ⟨D, hD, hcD⟩ := exists_denominator g.arcs
  obtain ⟨st, h1, h2, h3, h4⟩ := pInit_spec hg.wf hg.noAnti hst hs ht hg.names hg.cap hcD
  have hh : st.height = initHeight g s := by
    unfold pInit at h1
    simp only at h1
    split at h1
    · cases h1
    · cases h1; rfl
  have hn : 2 ≤ g.nodes.length := by have := inner_card hg.wf hst hs ht; omega
  have hlow : ∀ w, hgt st.height w ≤ 2 * g.nodes.length := by
    intro w
    rw [hh]
    by_cases hw : w ∈ g.nodes.keys
    · rw [initHeight_hgt hw]
      split <;> omega
    · unfold hgt initHeight
      rw [Dict.get?_map_val, Dict.get?_eq_none_iff.mpr hw]
      simp
  have hce : checkEnds g s t = none := by rw [checkEnds_eq, if_pos ⟨hs, ht, hst⟩]
  have hstart := stepsLeft_start hg.wf hst hs ht hh
  obtain ⟨st', h5⟩ := pLoop_bound hg.wf hg.noAnti hst hs ht hg.cap hD hcD h2 hlow hstart
  have hno : ∀ fuel, iterationBound g.nodes.length g.arcs.length ≤ fuel →
      preflowPush fuel g s t = preflowPush (iterationBound g.nodes.length g.arcs.length) g s t ∧
      preflowPush fuel g s t ≠ .error .notTerminated := by
    intro fuel hf
    have h6 := pLoop_mono h5 hf
    have h5' : pLoop g s t (innerNodes g s t) (iterationBound g.nodes.length g.arcs.length) st = .ok st' := h5
    unfold preflowPush
    simp only [hce, h1, h5', h6]
    refine ⟨trivial, ?_⟩
    cases st'.value <;> simp
  rcases (preflow_result hg hst hs ht).1 (iterationBound g.nodes.length g.arcs.length) with h6 | ⟨h6, _⟩ | ⟨v, f, h6, -, -⟩
  · exact absurd h6 (hno _ le_rfl).2
  · obtain ⟨w, hw, hws, hwt⟩ := hin
    have : w ∈ innerNodes g s t := mem_inner.mpr ⟨hw, hws, hwt⟩
    rw [h6] at this
    cases this
  · have h7 := C12_feasible_partial hg h6
    exact ⟨v, f, fun fuel hf => (hno fuel hf).1.trans h6, h7.2.1, h7.2.2, (C13_maximum_partial hg h6).1⟩

example : ∃ v f, (∀ fuel, iterationBound okGraph.nodes.length okGraph.arcs.length ≤ fuel →
      preflowPush fuel okGraph ['s'] ['t'] = .ok (v, f)) ∧ Feasible okGraph ['s'] ['t'] (fl f) := by
  obtain ⟨v, f, h, h1, -⟩ := C122_iterations_partial okGraph_ok (s := ['s']) (t := ['t']) (by decide +kernel)
    (by decide +kernel) (by decide +kernel) ⟨['a'], by decide +kernel, by decide +kernel, by decide +kernel⟩
  exact ⟨v, f, h, h1⟩

end Pytimize.Props
