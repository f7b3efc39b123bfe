/-
C09–C14: the two maximum-flow algorithms (`pytimize/graphs/_directed.py:355-566`).

The specification (`Feasible`, `value`, `cutCapacity`) is in `Verif/Graph/FlowTheory.lean` and only
mentions the arcs and nodes of the digraph.
-/
import Verif.Graph.Preflow

namespace Pytimize.Props
open Pytimize.Directed

/-- A flow that is feasible and has the largest value of all feasible flows. -/
def MaxFlow (g : Digraph) (s t : Name) (f : Arc → ℚ) : Prop :=
  Feasible g s t f ∧ ∀ f', Feasible g s t f' → value g s f' ≤ value g s f

/-! ## Ford–Fulkerson -/

/-- The residual network before the first search and the run from there: every augmenting path uses
arcs of the digraph, never a reversed arc. -/
def OnlyForward (g : Digraph) (s t : Name) (fuel : ℕ) : Prop :=
  ∀ r, computeResidual g (zeroFlow g) = .ok r → ForwardRun g s t fuel (zeroFlow g) r

/-- C09 (part that holds for every digraph). The returned flow has exactly the arcs as keys, is
conserved at every node other than source and sink, and the returned value is its net flow out of the
source. Missing: `0 ≤ flow ≤ capacity`, which is false (`C09_wrong`); the value needs a
one-character source name (`C09_name_wrong`). -/
theorem C09_conservation_partial {g : Digraph} (hg : DWF g) {s t : Name} {fuel : ℕ} {v : ℚ}
    {f : Flow} (h : fordFulkerson fuel g s t = .ok (v, f)) :
    f.keys = g.arcs.keys ∧ (∀ w, w ≠ s → w ≠ t → inflow g (fl f) w = outflow g (fl f) w) ∧
    (chars s = [s] → v = value g s (fl f)) := by
  unfold fordFulkerson at h
  cases he : checkEnds g s t with
  | some e => rw [he] at h; cases h
  | none =>
    obtain ⟨hs, ht, hst⟩ := checkEnds_none he
    rw [he] at h
    rcases ff_start hg s t with ⟨_, h1⟩ | ⟨_, r, h1, h2, _⟩
    · simp only [h1] at h; cases h
    · simp only [h1] at h
      rcases ffLoop_inv hg hst hs ht fuel _ r h2 with h3 | ⟨f', r', h3, h4⟩
      · simp only [h3] at h; cases h
      · simp only [h3, Except.ok.injEq, Prod.mk.injEq] at h
        obtain ⟨rfl, rfl⟩ := h
        refine ⟨h4.keys, fun w h5 h6 => ?_, fun hc => flowValue_eq hg hc _⟩
        have := h4.cons w h5 h6
        unfold net at this
        linarith

/-- Correctness of runs that never push along a reversed arc. -/
theorem ff_forward_run {g : Digraph} (hg : DWF g) (hna : NoAnti g.arcs) {s t : Name} {fuel : ℕ}
    (hrun : OnlyForward g s t fuel) {v : ℚ} {f : Flow} (h : fordFulkerson fuel g s t = .ok (v, f)) :
    Feasible g s t (fl f) ∧ ∃ S : Finset Name, (∀ x ∈ S, x ∈ g.nodes.keys) ∧ s ∈ S ∧ t ∉ S ∧
      value g s (fl f) = cutCapacity g S := by
  unfold fordFulkerson at h
  cases he : checkEnds g s t with
  | some e => rw [he] at h; cases h
  | none =>
    obtain ⟨hs, ht, hst⟩ := checkEnds_none he
    rw [he] at h
    rcases ff_start hg s t with ⟨_, h1⟩ | ⟨_, r, h1, _, h2⟩
    · simp only [h1] at h; cases h
    · simp only [h1] at h
      rcases ffLoop_forward hg hna hst hs ht fuel _ r (h2 hna) (hrun r h1) with
        h3 | ⟨f', r', S, h3, h4, h5, h6, h7, h8⟩
      · simp only [h3] at h; cases h
      · simp only [h3, Except.ok.injEq, Prod.mk.injEq] at h
        obtain ⟨rfl, rfl⟩ := h
        exact ⟨h4.feasible, S, h7, h5, h6, h8⟩

/-- C09 for runs without reversed arcs: the flow is feasible. Missing: runs that use a reversed arc,
and digraphs with opposite arcs (false, `C09_wrong`, `C09_opposite_wrong`). -/
theorem C09_forward_partial {g : Digraph} (hg : DWF g) (hna : NoAnti g.arcs) {s t : Name} {fuel : ℕ}
    (hrun : OnlyForward g s t fuel) {v : ℚ} {f : Flow} (h : fordFulkerson fuel g s t = .ok (v, f)) :
    Feasible g s t (fl f) :=
  (ff_forward_run hg hna hrun h).1

/-- C10 for runs without reversed arcs: the value is maximum and equals the capacity of a cut. -/
theorem C10_forward_partial {g : Digraph} (hg : DWF g) (hna : NoAnti g.arcs) {s t : Name}
    (hs : chars s = [s]) {fuel : ℕ}
    (hrun : OnlyForward g s t fuel) {v : ℚ} {f : Flow} (h : fordFulkerson fuel g s t = .ok (v, f)) :
    (∀ f', Feasible g s t f' → value g s f' ≤ v) ∧
    ∃ S : Finset Name, (∀ x ∈ S, x ∈ g.nodes.keys) ∧ s ∈ S ∧ t ∉ S ∧ v = cutCapacity g S := by
  obtain ⟨_, S, h1, h2, h3, h4⟩ := ff_forward_run hg hna hrun h
  have hv := (C09_conservation_partial hg h).2.2 hs
  rw [hv, h4]
  exact ⟨fun f' hf' => value_le_cut hf' S h1 h2 h3, S, h1, h2, h3, rfl⟩

theorem inTree_forward {g : Digraph} (hg : DWF g) (hna : NoAnti g.arcs) {s t : Name}
    (htree : InTree g s t) (hst : s ≠ t) (hs : s ∈ g.nodes.keys) (ht : t ∈ g.nodes.keys) (fuel : ℕ) :
    OnlyForward g s t fuel := by
  intro r hr
  rcases ff_start hg s t with ⟨_, h1⟩ | ⟨_, r', h1, _, h2⟩
  · rw [hr] at h1; cases h1
  · rw [hr] at h1; cases h1
    exact forwardRun_of_inTree hg hna hst hs ht htree fuel (h2 hna) (fun u => fl_zeroFlow g _)

/-- C09, C10 and C11 together for digraphs in which every node other than source and sink has at most
one incoming arc: the call terminates and returns a maximum flow and its value. -/
theorem C11_in_tree_partial {g : Digraph} (hg : DWF g) (hna : NoAnti g.arcs) {s t : Name}
    (htree : InTree g s t) (hst : s ≠ t) (hs : s ∈ g.nodes.keys) (ht : t ∈ g.nodes.keys)
    (hc : chars s = [s]) (hcap : ∀ a c, g.arcs.get? a = some c → 0 ≤ c) :
    ∃ fuel v f, fordFulkerson fuel g s t = .ok (v, f) ∧ f.keys = g.arcs.keys ∧
      v = value g s (fl f) ∧ MaxFlow g s t (fl f) := by
  obtain ⟨D, hD, hcD⟩ := exists_denominator g.arcs
  rcases ff_start hg s t with ⟨⟨a, c, h1, h2⟩, _⟩ | ⟨_, r, h1, _, h2⟩
  · exact absurd (hcap a c h1) (not_le.mpr h2)
  · obtain ⟨n, hn⟩ := exists_nat_gt
      ((cutCapacity g {s} - value g s (fl (zeroFlow g))) * D)
    have hDpos : (0 : ℚ) < D := by exact_mod_cast hD
    obtain ⟨f, hf⟩ := ffLoop_terminates hg hna hst hs ht htree hD hcD n (h2 hna)
      (fun u => fl_zeroFlow g _) (fun a _ => by rw [fl_zeroFlow]; exact zero_mem _) (by
        have h3 : (n : ℚ) * (1 / D) + 1 / D = (n + 1) * (1 / D) := by ring
        have h4 : cutCapacity g {s} - value g s (fl (zeroFlow g)) < n * (1 / D) := by
          rw [mul_one_div, lt_div_iff₀ hDpos]; exact hn
        have h5 : (0 : ℚ) < 1 / D := by positivity
        linarith)
    have hrun : fordFulkerson (n + 1) g s t = .ok (flowValue g s f, f) := by
      unfold fordFulkerson
      rw [checkEnds_eq, if_pos ⟨hs, ht, hst⟩]
      simp only [h1, hf]
    have hfw := inTree_forward hg hna htree hst hs ht (n + 1)
    have h6 := C09_conservation_partial hg hrun
    refine ⟨n + 1, _, f, hrun, h6.1, h6.2.2 hc, C09_forward_partial hg hna hfw hrun, fun f' hf' => ?_⟩
    rw [← h6.2.2 hc]
    exact (C10_forward_partial hg hna hc hfw hrun).1 f' hf'

/-- C11 (errors). For every digraph: `ValueError` exactly for bad end points, `ArithmeticError`
exactly when in addition some capacity is negative, and otherwise the only other outcomes are a result
or an unfinished computation — no `KeyError` or other internal failure. (The model is a function of
the digraph, which the code never assigns to.) Missing: termination in general. -/
theorem C11_errors_partial {g : Digraph} (hg : DWF g) (s t : Name) (fuel : ℕ) :
    (¬(s ∈ g.nodes.keys ∧ t ∈ g.nodes.keys ∧ s ≠ t) →
      fordFulkerson fuel g s t = .error .valueError) ∧
    ((s ∈ g.nodes.keys ∧ t ∈ g.nodes.keys ∧ s ≠ t) →
      ((∃ a c, g.arcs.get? a = some c ∧ c < 0) →
        fordFulkerson fuel g s t = .error .arithmeticError) ∧
      ((∀ a c, g.arcs.get? a = some c → 0 ≤ c) →
        fordFulkerson fuel g s t = .error .notTerminated ∨
        ∃ r, fordFulkerson fuel g s t = .ok r)) := by
  constructor
  · intro h
    unfold fordFulkerson
    rw [checkEnds_eq, if_neg h]
  · rintro ⟨hs, ht, hst⟩
    unfold fordFulkerson
    rw [checkEnds_eq, if_pos ⟨hs, ht, hst⟩]
    rcases ff_start hg s t with ⟨⟨a, c, h1, h2⟩, h3⟩ | ⟨h0, r, h1, h2, _⟩
    · simp only [h3]
      exact ⟨fun _ => trivial, fun h => absurd (h a c h1) (not_le.mpr h2)⟩
    · simp only [h1]
      refine ⟨fun ⟨a, c, e1, e2⟩ => absurd (h0 a c e1) (not_le.mpr e2), fun _ => ?_⟩
      rcases ffLoop_inv hg hst hs ht fuel _ r h2 with h3 | ⟨f', r', h3, _⟩
      · left; simp only [h3]
      · right; simp only [h3]; exact ⟨_, rfl⟩

/-! ## Preflow push -/

/-- Digraphs for which the algorithm is correct: no opposite arcs, nonnegative capacities,
one-character node names. -/
structure PreflowOk (g : Digraph) : Prop where
  wf : DWF g
  noAnti : NoAnti g.arcs
  cap : ∀ a c, g.arcs.get? a = some c → 0 ≤ c
  names : ∀ v ∈ g.nodes.keys, chars v = [v]

/-- Everything about one call with valid end points. -/
theorem preflow_result {g : Digraph} (hg : PreflowOk g) {s t : Name} (hst : s ≠ t)
    (hs : s ∈ g.nodes.keys) (ht : t ∈ g.nodes.keys) :
    (∀ fuel, preflowPush fuel g s t = .error .notTerminated ∨
      (innerNodes g s t = [] ∧ preflowPush fuel g s t = .error .unboundLocalError) ∨
      ∃ v f, preflowPush fuel g s t = .ok (v, f) ∧ f.keys = g.arcs.keys ∧ v = value g s (fl f) ∧
        Feasible g s t (fl f) ∧ ∃ S : Finset Name, (∀ x ∈ S, x ∈ g.nodes.keys) ∧ s ∈ S ∧ t ∉ S ∧
          value g s (fl f) = cutCapacity g S) ∧
    ∃ N, ∀ fuel, N ≤ fuel → preflowPush fuel g s t = preflowPush N g s t ∧
      preflowPush fuel g s t ≠ .error .notTerminated := by
  obtain ⟨D, hD, hcD⟩ := exists_denominator g.arcs
  obtain ⟨st, h1, h2, h3, h4⟩ := pInit_spec hg.wf hg.noAnti hst hs ht hg.names hg.cap hcD
  have hce : checkEnds g s t = none := by rw [checkEnds_eq, if_pos ⟨hs, ht, hst⟩]
  constructor
  · intro fuel
    unfold preflowPush
    simp only [hce, h1]
    rcases pLoop_sound hg.wf hg.noAnti hst hs ht hg.cap hD hcD fuel h2 with
      h5 | ⟨st', h5, h6, h7, h8, _, h10⟩
    · left; simp only [h5]
    · right
      by_cases hin : innerNodes g s t = []
      · left
        refine ⟨hin, ?_⟩
        have := h10 (by rw [hin]; simp)
        subst this
        simp only [h5, h4]
      · right
        have hv := h8 (by rw [h3]; exact List.length_pos_iff.mpr hin)
        refine ⟨_, st'.flow, by simp only [h5, hv], h6.keys, flowValue_eq hg.wf (hg.names s hs) _,
          h6.feasible h7, ?_⟩
        exact preflow_cut hg.wf hg.noAnti hst hs ht (h6.feasible h7) h6.hsrc h6.hsink
          (fun u v huv => h6.label u v (by rw [h6.res]; exact huv))
  · obtain ⟨N, st', h5⟩ := pLoop_terminates hg.wf hg.noAnti hst hs ht hg.cap hD hcD h2
    refine ⟨N, fun fuel hle => ?_⟩
    have h6 := pLoop_mono h5 hle
    unfold preflowPush
    simp only [hce, h1, h5, h6]
    refine ⟨trivial, ?_⟩
    cases st'.value <;> simp

theorem preflow_ends {g : Digraph} {s t : Name} {fuel : ℕ} {p : ℚ × Flow}
    (h : preflowPush fuel g s t = .ok p) : s ∈ g.nodes.keys ∧ t ∈ g.nodes.keys ∧ s ≠ t := by
  unfold preflowPush at h
  cases he : checkEnds g s t with
  | some e => rw [he] at h; cases h
  | none => exact checkEnds_none he

/-- C12. Whenever the call returns, the flow is feasible, defined on exactly the arcs, and the value
is its net flow out of the source. Missing: digraphs with opposite arcs or multi-character names, for
which it is false (`C12_opposite_wrong`, `C12_name_wrong`). -/
theorem C12_feasible_partial {g : Digraph} (hg : PreflowOk g) {s t : Name} {fuel : ℕ} {v : ℚ}
    {f : Flow} (h : preflowPush fuel g s t = .ok (v, f)) :
    f.keys = g.arcs.keys ∧ Feasible g s t (fl f) ∧ v = value g s (fl f) := by
  obtain ⟨hs, ht, hst⟩ := preflow_ends h
  rcases (preflow_result hg hst hs ht).1 fuel with h1 | ⟨_, h1⟩ | ⟨v', f', h1, h2, h3, h4, _⟩
  · rw [h] at h1; cases h1
  · rw [h] at h1; cases h1
  · rw [h] at h1; cases h1
    exact ⟨h2, h4, h3⟩

/-- C13. The returned value is the maximum flow value and the capacity of a minimum cut. -/
theorem C13_maximum_partial {g : Digraph} (hg : PreflowOk g) {s t : Name} {fuel : ℕ} {v : ℚ}
    {f : Flow} (h : preflowPush fuel g s t = .ok (v, f)) :
    (∀ f', Feasible g s t f' → value g s f' ≤ v) ∧
    ∃ S : Finset Name, (∀ x ∈ S, x ∈ g.nodes.keys) ∧ s ∈ S ∧ t ∉ S ∧ v = cutCapacity g S := by
  obtain ⟨hs, ht, hst⟩ := preflow_ends h
  rcases (preflow_result hg hst hs ht).1 fuel with h1 | ⟨_, h1⟩ | ⟨v', f', h1, _, h3, _, S, h5, h6, h7, h8⟩
  · rw [h] at h1; cases h1
  · rw [h] at h1; cases h1
  · rw [h] at h1; cases h1
    rw [h3, h8]
    exact ⟨fun f' hf' => value_le_cut hf' S h5 h6 h7, S, h5, h6, h7, rfl⟩

/-- C13. Both algorithms return the same value when Ford–Fulkerson does not use a reversed arc. -/
theorem C13_agree_partial {g : Digraph} (hg : PreflowOk g) {s t : Name} {fuel fuel' : ℕ} {v v' : ℚ}
    {f f' : Flow} (hrun : OnlyForward g s t fuel') (h : preflowPush fuel g s t = .ok (v, f))
    (h' : fordFulkerson fuel' g s t = .ok (v', f')) : v = v' := by
  obtain ⟨hs, _, _⟩ := preflow_ends h
  have a := C12_feasible_partial hg h
  have b := C09_forward_partial hg.wf hg.noAnti hrun h'
  have c := (C13_maximum_partial hg h).1 _ b
  have d := (C10_forward_partial hg.wf hg.noAnti (hg.names s hs) hrun h').1 _ a.2.1
  rw [← a.2.2] at d
  rw [← (C09_conservation_partial hg.wf h').2.2 (hg.names s hs)] at c
  exact le_antisymm d c

/-- C14. With at least one node besides source and sink the call terminates and returns a result
(the same for every sufficient number of iterations). -/
theorem C14_terminates_partial {g : Digraph} (hg : PreflowOk g) {s t : Name} (hst : s ≠ t)
    (hs : s ∈ g.nodes.keys) (ht : t ∈ g.nodes.keys)
    (hin : ∃ w ∈ g.nodes.keys, w ≠ s ∧ w ≠ t) :
    ∃ N v f, ∀ fuel, N ≤ fuel → preflowPush fuel g s t = .ok (v, f) := by
  obtain ⟨h1, N, h2⟩ := preflow_result hg hst hs ht
  rcases h1 N with h3 | ⟨h3, _⟩ | ⟨v, f, h3, _⟩
  · exact absurd h3 (h2 N (le_refl _)).2
  · obtain ⟨w, hw, hws, hwt⟩ := hin
    have : w ∈ innerNodes g s t := mem_inner.mpr ⟨hw, hws, hwt⟩
    rw [h3] at this
    cases this
  · exact ⟨N, v, f, fun fuel hle => by rw [(h2 fuel hle).1, h3]⟩

/-- C14, refuted part: if source and sink are the only nodes, every finished call with nonnegative
capacities raises `UnboundLocalError`. -/
theorem C14_two_nodes_fail {g : Digraph} (hg : PreflowOk g) {s t : Name} (hst : s ≠ t)
    (hs : s ∈ g.nodes.keys) (ht : t ∈ g.nodes.keys) (honly : ∀ w ∈ g.nodes.keys, w = s ∨ w = t) :
    ∃ N, ∀ fuel, N ≤ fuel → preflowPush fuel g s t = .error .unboundLocalError := by
  obtain ⟨h1, N, h2⟩ := preflow_result hg hst hs ht
  have hin : innerNodes g s t = [] := by
    rw [List.eq_nil_iff_forall_not_mem]
    intro w hw
    obtain ⟨a, b, c⟩ := mem_inner.mp hw
    rcases honly w a with h | h
    · exact b h
    · exact c h
  refine ⟨N, fun fuel hle => ?_⟩
  obtain ⟨D, hD, hcD⟩ := exists_denominator g.arcs
  obtain ⟨st, e1, e2, e3, e4⟩ := pInit_spec hg.wf hg.noAnti hst hs ht hg.names hg.cap hcD
  rcases h1 fuel with h3 | ⟨_, h3⟩ | ⟨v, f, h3, _⟩
  · exact absurd h3 (h2 fuel hle).2
  · exact h3
  · exfalso
    unfold preflowPush at h3
    rw [checkEnds_eq, if_pos ⟨hs, ht, hst⟩] at h3
    simp only [e1] at h3
    rcases pLoop_sound hg.wf hg.noAnti hst hs ht hg.cap hD hcD fuel e2 with
      h5 | ⟨st', h5, _, _, _, _, h10⟩
    · simp only [h5] at h3; cases h3
    · have := h10 (by rw [hin]; simp)
      subst this
      simp only [h5, e4] at h3
      cases h3

/-- C14 (errors). Bad end points raise `ValueError`. -/
theorem C14_rejects (g : Digraph) (s t : Name) (fuel : ℕ)
    (h : ¬(s ∈ g.nodes.keys ∧ t ∈ g.nodes.keys ∧ s ≠ t)) :
    preflowPush fuel g s t = .error .valueError := by
  unfold preflowPush
  rw [checkEnds_eq, if_neg h]

/-! ## Witnesses -/

/-- Dictionary of arcs with one-character names. -/
def arcs1 (l : List (Char × Char × ℚ)) : List (Arc × ℚ) := l.map fun p => (([p.1], [p.2.1]), p.2.2)

instance (g : Digraph) : Decidable (NoAnti g.arcs) :=
  decidable_of_iff (∀ a ∈ g.arcs.keys, (a.2, a.1) ∉ g.arcs.keys) ⟨fun h u v huv => h (u, v) huv,
    fun h a ha => h a.1 a.2 ha⟩

theorem preflowOk_of_ctor {l : List (Char × Char × ℚ)} {g : Digraph} (h : ctor [] (arcs1 l) [] = .ok g)
    (h1 : NoAnti g.arcs) (h2 : ∀ p ∈ g.arcs, (0 : ℚ) ≤ p.2) (h3 : ∀ v ∈ g.nodes.keys, chars v = [v]) :
    PreflowOk g :=
  ⟨ctor_spec h, h1, fun a c hac => h2 (a, c) (Dict.mem_of_get? hac), h3⟩

/-- Eight arcs on which Ford–Fulkerson pushes along a reversed arc twice. -/
def badArcs : List (Char × Char × ℚ) :=
  [('d', 'e', 1), ('d', 'a', 2), ('s', 'd', 2), ('s', 'c', 2), ('a', 't', 2), ('c', 'e', 2),
   ('d', 't', 1), ('e', 't', 1)]

/-- The digraph with the arcs `badArcs`. -/
def badGraph : Digraph := (ctor [] (arcs1 badArcs) []).toOption.getD ⟨[], [], []⟩

theorem badGraph_ctor : ctor [] (arcs1 badArcs) [] = .ok badGraph := by decide +kernel

theorem badGraph_ok : PreflowOk badGraph :=
  preflowOk_of_ctor badGraph_ctor (by decide +kernel) (by decide +kernel) (by decide +kernel)

/-- C09 is false: a digraph with nonnegative capacities and no opposite arcs for which the returned
flow is negative on an arc. -/
theorem C09_wrong : PreflowOk badGraph ∧ ∃ f, fordFulkerson 10 badGraph ['s'] ['t'] = .ok (4, f) ∧
    fl f (['d'], ['e']) = -1 ∧ ¬ Feasible badGraph ['s'] ['t'] (fl f) := by
  refine ⟨badGraph_ok, arcs1 [('d', 'e', -1), ('d', 'a', 2), ('s', 'd', 2), ('s', 'c', 2), ('a', 't', 2),
    ('c', 'e', 2), ('d', 't', 1), ('e', 't', 1)], by decide +kernel, by decide +kernel, fun h => ?_⟩
  exact absurd (h.nonneg (['d'], ['e']) 1 (by decide +kernel)) (by decide +kernel)

/-- C10 is false in both directions; first, the returned value exceeds every feasible flow value. -/
theorem C10_too_large : PreflowOk badGraph ∧
    ∃ f, fordFulkerson 10 badGraph ['s'] ['t'] = .ok (4, f) ∧
      ∀ f', Feasible badGraph ['s'] ['t'] f' → value badGraph ['s'] f' ≤ 3 := by
  obtain ⟨h0, f, h, _⟩ := C09_wrong
  refine ⟨h0, f, h, ?_⟩
  have hp : (preflowPush 200 badGraph ['s'] ['t']).toOption.map Prod.fst = some 3 := by decide +kernel
  cases hr : preflowPush 200 badGraph ['s'] ['t'] with
  | error e => rw [hr] at hp; cases hp
  | ok p =>
    obtain ⟨v, f1⟩ := p
    rw [hr] at hp
    cases hp
    exact (C13_maximum_partial h0 hr).1

/-- Twenty-one unit arcs on which Ford–Fulkerson stops too early. -/
def lowArcs : List (Char × Char × ℚ) :=
  [('s', 'v', 1), ('v', 'u', 1), ('u', 't', 1), ('s', 'p', 1), ('p', 'q', 1), ('q', 'u', 1),
   ('v', 'w', 1), ('w', 'y', 1), ('y', 'z', 1), ('z', 't', 1), ('s', 'a', 1), ('a', 'b', 1),
   ('b', 'c', 1), ('c', 'd', 1), ('d', 'v', 1), ('u', 'f', 1), ('f', 'g', 1), ('g', 'h', 1),
   ('h', 'i', 1), ('i', 'j', 1), ('j', 't', 1)]

/-- The digraph with the arcs `lowArcs`. -/
def lowGraph : Digraph := (ctor [] (arcs1 lowArcs) []).toOption.getD ⟨[], [], []⟩

theorem lowGraph_ctor : ctor [] (arcs1 lowArcs) [] = .ok lowGraph := by decide +kernel

theorem lowGraph_ok : PreflowOk lowGraph :=
  preflowOk_of_ctor lowGraph_ctor (by decide +kernel) (by decide +kernel) (by decide +kernel)

/-- C10 is false, second direction: the returned value 2 is below a feasible flow of value 3. -/
theorem C10_too_small : PreflowOk lowGraph ∧
    (∃ f, fordFulkerson 10 lowGraph ['s'] ['t'] = .ok (2, f)) ∧
    ∃ f', Feasible lowGraph ['s'] ['t'] f' ∧ value lowGraph ['s'] f' = 3 := by
  refine ⟨lowGraph_ok, ?_, ?_⟩
  · have hp : (fordFulkerson 10 lowGraph ['s'] ['t']).toOption.map Prod.fst = some 2 := by decide +kernel
    cases hr : fordFulkerson 10 lowGraph ['s'] ['t'] with
    | error e => rw [hr] at hp; cases hp
    | ok p =>
      obtain ⟨v, f1⟩ := p
      rw [hr] at hp
      cases hp
      exact ⟨f1, rfl⟩
  · have hp : (preflowPush 400 lowGraph ['s'] ['t']).toOption.map Prod.fst = some 3 := by decide +kernel
    cases hr : preflowPush 400 lowGraph ['s'] ['t'] with
    | error e => rw [hr] at hp; cases hp
    | ok p =>
      obtain ⟨v, f1⟩ := p
      rw [hr] at hp
      cases hp
      have := C12_feasible_partial lowGraph_ok hr
      exact ⟨_, this.2.1, this.2.2.symm⟩

/-- Eight arcs with one opposite pair. -/
def oppArcs : List (Char × Char × ℚ) :=
  [('s', 'u', 5), ('u', 'v', 5), ('v', 't', 5), ('s', 'a', 5), ('a', 'v', 5), ('v', 'u', 1),
   ('u', 'b', 5), ('b', 't', 5)]

/-- The digraph with the arcs `oppArcs`. -/
def oppGraph : Digraph := (ctor [] (arcs1 oppArcs) []).toOption.getD ⟨[], [], []⟩

/-- C12 is false with opposite arcs: the returned flow exceeds a capacity. -/
theorem C12_opposite_wrong : ctor [] (arcs1 oppArcs) [] = .ok oppGraph ∧
    oppGraph.arcs.get? (['v'], ['u']) = some 1 ∧
    ∃ v f, preflowPush 100 oppGraph ['s'] ['t'] = .ok (v, f) ∧ fl f (['v'], ['u']) = 5 := by
  refine ⟨by decide +kernel, by decide +kernel, ?_⟩
  have hp : (preflowPush 100 oppGraph ['s'] ['t']).toOption.map (fun p => fl p.2 (['v'], ['u'])) =
      some 5 := by decide +kernel
  cases hr : preflowPush 100 oppGraph ['s'] ['t'] with
  | error e => rw [hr] at hp; cases hp
  | ok p =>
    rw [hr] at hp
    exact ⟨p.1, p.2, rfl, by simpa [Except.toOption] using hp⟩

/-- C09 is false with opposite arcs as well. -/
theorem C09_opposite_wrong : oppGraph.arcs.get? (['v'], ['u']) = some 1 ∧
    ∃ v f, fordFulkerson 100 oppGraph ['s'] ['t'] = .ok (v, f) ∧ fl f (['v'], ['u']) = 5 := by
  refine ⟨by decide +kernel, ?_⟩
  have hp : (fordFulkerson 100 oppGraph ['s'] ['t']).toOption.map (fun p => fl p.2 (['v'], ['u'])) =
      some 5 := by decide +kernel
  cases hr : fordFulkerson 100 oppGraph ['s'] ['t'] with
  | error e => rw [hr] at hp; cases hp
  | ok p =>
    rw [hr] at hp
    exact ⟨p.1, p.2, rfl, by simpa [Except.toOption] using hp⟩

/-- Two arcs, multi-character names. -/
def longArcs : List (Arc × ℚ) := [((['s', '1'], ['a']), 1), ((['a'], ['t', '1']), 1)]

/-- The digraph with the arcs `longArcs`. -/
def longGraph : Digraph := (ctor [] longArcs []).toOption.getD ⟨[], [], []⟩

/-- C09 is false for multi-character source names: the returned value is not the net flow. -/
theorem C09_name_wrong : ctor [] longArcs [] = .ok longGraph ∧
    ∃ f, fordFulkerson 10 longGraph ['s', '1'] ['t', '1'] = .ok (0, f) ∧
      value longGraph ['s', '1'] (fl f) = 1 := by
  refine ⟨by decide +kernel, longArcs, by decide +kernel, by decide +kernel⟩

/-- C13 is false for multi-character names: the returned value is 0, the maximum at least 1. -/
theorem C13_name_wrong : ctor [] longArcs [] = .ok longGraph ∧
    (∃ f, preflowPush 10 longGraph ['s', '1'] ['t', '1'] = .ok (0, f)) ∧
    ∃ f', Feasible longGraph ['s', '1'] ['t', '1'] f' ∧ value longGraph ['s', '1'] f' = 1 := by
  refine ⟨by decide +kernel, ⟨longArcs.map fun p => (p.1, 0), by decide +kernel⟩, fl longArcs, ?_,
    by decide +kernel⟩
  have key : ∀ a c, longGraph.arcs.get? a = some c → (a, c) ∈ longArcs := by
    intro a c h
    have : longGraph.arcs = longArcs := by decide +kernel
    rw [this] at h
    exact Dict.mem_of_get? h
  refine ⟨fun a c h => ?_, fun a c h => ?_, ?_⟩
  · have := key a c h
    revert this
    have hall : ∀ p ∈ longArcs, 0 ≤ fl longArcs p.1 := by decide +kernel
    exact hall (a, c)
  · have := key a c h
    revert this
    have hall : ∀ p ∈ longArcs, fl longArcs p.1 ≤ p.2 := by decide +kernel
    exact hall (a, c)
  · decide +kernel

/-! ### Hypotheses are met by concrete digraphs -/

/-- A digraph in which both algorithms have several paths to find. -/
def okArcs : List (Char × Char × ℚ) :=
  [('s', 'a', 3), ('s', 'b', 2), ('a', 't', 2), ('b', 't', 3), ('a', 'c', 5 / 2), ('c', 't', 1 / 3)]

/-- The digraph with the arcs `okArcs`. -/
def okGraph : Digraph := (ctor [] (arcs1 okArcs) []).toOption.getD ⟨[], [], []⟩

theorem okGraph_ctor : ctor [] (arcs1 okArcs) [] = .ok okGraph := by decide +kernel

theorem okGraph_ok : PreflowOk okGraph :=
  preflowOk_of_ctor okGraph_ctor (by decide +kernel) (by decide +kernel) (by decide +kernel)

theorem okGraph_inTree : InTree okGraph ['s'] ['t'] := by
  have h : ∀ a ∈ okGraph.arcs.keys, ∀ b ∈ okGraph.arcs.keys, a.2 ≠ ['s'] → a.2 ≠ ['t'] →
      a.2 = b.2 → a.1 = b.1 := by decide +kernel
  intro u u' v h1 h2 h3 h4
  exact h (u, v) h3 (u', v) h4 h1 h2 rfl

example : ∃ fuel v f, fordFulkerson fuel okGraph ['s'] ['t'] = .ok (v, f) ∧
    f.keys = okGraph.arcs.keys ∧ v = value okGraph ['s'] (fl f) ∧ MaxFlow okGraph ['s'] ['t'] (fl f) :=
  C11_in_tree_partial okGraph_ok.wf okGraph_ok.noAnti okGraph_inTree (by decide) (by decide +kernel)
    (by decide +kernel) rfl okGraph_ok.cap

example : OnlyForward okGraph ['s'] ['t'] 10 ∧
    (fordFulkerson 10 okGraph ['s'] ['t']).toOption.map Prod.fst = some (13 / 3) ∧
    (preflowPush 100 okGraph ['s'] ['t']).toOption.map Prod.fst = some (13 / 3) :=
  ⟨inTree_forward okGraph_ok.wf okGraph_ok.noAnti okGraph_inTree (by decide) (by decide +kernel)
    (by decide +kernel) 10, by decide +kernel, by decide +kernel⟩

example : ∃ N v f, ∀ fuel, N ≤ fuel → preflowPush fuel lowGraph ['s'] ['t'] = .ok (v, f) :=
  C14_terminates_partial lowGraph_ok (by decide) (by decide +kernel) (by decide +kernel)
    ⟨['u'], by decide +kernel, by decide, by decide⟩

/-- A single arc from source to sink. -/
def twoGraph : Digraph := (ctor [] (arcs1 [('s', 't', 1)]) []).toOption.getD ⟨[], [], []⟩

example : ∃ N, ∀ fuel, N ≤ fuel → preflowPush fuel twoGraph ['s'] ['t'] = .error .unboundLocalError :=
  C14_two_nodes_fail (preflowOk_of_ctor (l := [('s', 't', 1)]) (by decide +kernel) (by decide +kernel)
    (by decide +kernel) (by decide +kernel)) (by decide) (by decide +kernel) (by decide +kernel)
    (by decide +kernel)

end Pytimize.Props
