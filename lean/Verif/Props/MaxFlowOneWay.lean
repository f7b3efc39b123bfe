/-
C09–C11 and C13 for Ford–Fulkerson (`pytimize/graphs/_directed.py:465-566`) on a class of digraphs described by the
digraph alone: `OneWay g s t`. It contains the digraphs whose inner nodes have at most one arc in, those whose inner
nodes have at most one arc out, and series-parallel digraphs; the smallest digraph outside it is the bridge on which
`C09_wrong` is built.
-/
import Verif.Graph.OneWay
import Verif.Props.MaxFlow

namespace Pytimize.Props
open _root_.Pytimize.Directed

/-- The runs of the algorithm on such a digraph use no reversed arc. -/
theorem oneWay_forward {g : Digraph} (hg : DWF g) (hna : NoAnti g.arcs) {s t : Name} (hw : OneWay g s t)
    (hst : s ≠ t) (hs : s ∈ g.nodes.keys) (ht : t ∈ g.nodes.keys) (fuel : ℕ) : OnlyForward g s t fuel := by
  intro r hr
  rcases ff_start hg s t with ⟨_, h1⟩ | ⟨_, r', h1, _, h2⟩
  · rw [hr] at h1; cases h1
  · rw [hr] at h1; cases h1
    exact oneWay_run hg hna hst hs ht hw fuel (h2 hna) fun a ha => absurd (fl_zeroFlow g a) ha

/-- C09, C10 and C11 on one-way digraphs: the call returns a maximum flow and its value, and the loop runs at most
once per arc and once more, whatever the capacities. Missing: other digraphs, on which the claims are false
(`C09_wrong`, `C10_too_small`, `C11_endless_wrong`). -/
theorem C11_one_way_partial {g : Digraph} (hg : DWF g) (hna : NoAnti g.arcs) {s t : Name} (hw : OneWay g s t)
    (hst : s ≠ t) (hs : s ∈ g.nodes.keys) (ht : t ∈ g.nodes.keys) (hc : chars s = [s])
    (hcap : ∀ a c, g.arcs.get? a = some c → 0 ≤ c) :
    ∃ v f, (∀ fuel, g.arcs.length < fuel → fordFulkerson fuel g s t = .ok (v, f)) ∧ f.keys = g.arcs.keys ∧
      v = value g s (fl f) ∧ MaxFlow g s t (fl f) ∧
      ∃ S : Finset Name, (∀ x ∈ S, x ∈ g.nodes.keys) ∧ s ∈ S ∧ t ∉ S ∧ v = cutCapacity g S := by
  rcases ff_start hg s t with ⟨⟨a, c, h1, h2⟩, _⟩ | ⟨_, r, h1, _, h2⟩
  · exact absurd (hcap a c h1) (not_le.mpr h2)
  · have hroom : room g (fl (zeroFlow g)) < g.arcs.length + 1 :=
      Nat.lt_succ_of_le (List.length_filter_le _ _)
    obtain ⟨f, hf⟩ := oneWay_terminates hg hna hst hs ht hw _ (h2 hna)
      (fun a ha => absurd (fl_zeroFlow g a) ha) hroom
    have hrun : ∀ fuel, g.arcs.length < fuel → fordFulkerson fuel g s t = .ok (flowValue g s f, f) := by
      intro fuel hfuel
      unfold fordFulkerson
      rw [checkEnds_eq, if_pos ⟨hs, ht, hst⟩]
      simp only [h1, ffLoop_mono hfuel hf]
    have hrun' := hrun _ (Nat.lt_succ_self _)
    have hfw := oneWay_forward hg hna hw hst hs ht (g.arcs.length + 1)
    have h6 := C09_conservation_partial hg hrun'
    have h7 := C10_forward_partial hg hna hc hfw hrun'
    refine ⟨_, f, hrun, h6.1, h6.2.2 hc, ⟨C09_forward_partial hg hna hfw hrun', fun f' hf' => ?_⟩, h7.2⟩
    rw [← h6.2.2 hc]
    exact h7.1 f' hf'

/-- C13 on one-way digraphs with one-character names and an inner node: both methods return, and the same value. -/
theorem C13_one_way_partial {g : Digraph} (hg : PreflowOk g) {s t : Name} (hw : OneWay g s t) (hst : s ≠ t)
    (hs : s ∈ g.nodes.keys) (ht : t ∈ g.nodes.keys) (hin : ∃ w ∈ g.nodes.keys, w ≠ s ∧ w ≠ t) :
    ∃ N v f f', ∀ fuel, N ≤ fuel → preflowPush fuel g s t = .ok (v, f) ∧ fordFulkerson fuel g s t = .ok (v, f') := by
  obtain ⟨N, v, f, h⟩ := C14_terminates_partial hg hst hs ht hin
  obtain ⟨v', f', h', -⟩ := C11_one_way_partial hg.wf hg.noAnti hw hst hs ht (hg.names s hs) hg.cap
  have e := C13_agree_partial hg (oneWay_forward hg.wf hg.noAnti hw hst hs ht _) (h N le_rfl)
    (h' _ (Nat.lt_succ_self _))
  subst e
  exact ⟨max N (g.arcs.length + 1), v, f, f', fun fuel hf => ⟨h fuel (by omega), h' fuel (by omega)⟩⟩

/-- The class contains the digraphs with at most one arc into, and those with at most one arc out of, every inner node. -/
theorem one_way_classes {g : Digraph} {s t : Name} (h : InTree g s t ∨ OutTree g s t) : OneWay g s t :=
  h.elim oneWay_of_inTree oneWay_of_outTree

/-! ### A digraph of the class that is neither -/

/-- Two ways into the middle and two ways on from there. -/
def midArcs : List (Char × Char × ℚ) :=
  [('s', 'a', 3), ('s', 'b', 5 / 2), ('a', 'm', 2), ('b', 'm', 4), ('m', 'c', 1), ('m', 'd', 7 / 2), ('c', 't', 2),
    ('d', 't', 3)]

/-- The digraph with the arcs `midArcs`. -/
def midGraph : Digraph := (ctor [] (arcs1 midArcs) []).toOption.getD ⟨[], [], []⟩

theorem midGraph_ok : PreflowOk midGraph :=
  preflowOk_of_ctor (l := midArcs) (by decide +kernel) (by decide +kernel) (by decide +kernel) (by decide +kernel)

theorem midGraph_oneWay : OneWay midGraph ['s'] ['t'] :=
  oneWay_of_routes midGraph_ok.wf (by decide +kernel) (by decide +kernel)

example : ∃ N v f f', ∀ fuel, N ≤ fuel → preflowPush fuel midGraph ['s'] ['t'] = .ok (v, f) ∧
    fordFulkerson fuel midGraph ['s'] ['t'] = .ok (v, f') :=
  C13_one_way_partial midGraph_ok midGraph_oneWay (by decide) (by decide +kernel) (by decide +kernel)
    ⟨['m'], by decide +kernel, by decide, by decide⟩

example : ¬ InTree midGraph ['s'] ['t'] ∧ ¬ OutTree midGraph ['s'] ['t'] :=
  ⟨fun h => absurd (h ['a'] ['b'] ['m'] (by decide) (by decide) (by decide +kernel) (by decide +kernel)) (by decide),
    fun h => absurd (h ['m'] ['c'] ['d'] (by decide) (by decide) (by decide +kernel) (by decide +kernel)) (by decide)⟩

example : (fordFulkerson 10 midGraph ['s'] ['t']).toOption.map Prod.fst = some 4 := by decide +kernel

end Pytimize.Props
