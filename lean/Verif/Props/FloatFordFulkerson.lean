/-
C127: `ford_fulkerson` in floating point (`pytimize/graphs/_directed.py:487-566`). C09–C11 are about exact arithmetic.
-/
import Verif.Float.FordFulkerson
import Verif.Props.FloatFlow
import Verif.Props.MaxFlowOneWay

namespace Pytimize
namespace Props
open Floating
open _root_.Pytimize.Directed (Digraph Flow Arc Name)

/-- C127. Runs that use no reversed arc, with few bits: the call does what it does in exact arithmetic. Missing: other
capacities (`C127_negative_wrong`, `C127_capacity_wrong`) and runs with reversed arcs, which are wrong without rounding
(`C09_wrong`). -/
theorem C127_exact_partial {g : Digraph} (hg : PreflowOk g) {k : ℕ} (hk : FewBits g k) {sum : Flow → List Arc → ℚ}
    (hsum : BuiltinSum sum) {fuel : ℕ} {s t : Name} (hrun : OnlyForward g s t fuel) :
    fordFulkerson binary64 sum fuel g s t = Directed.fordFulkerson fuel g s t :=
  (noRounding hg hk hsum).fordFulkerson_eq (by positivity) s t fuel hrun

/-- C127. On one-way digraphs with few bits the call returns a maximum flow, its value, which is the capacity of a cut,
after at most one augmentation per arc. -/
theorem C127_maximum_partial {g : Digraph} (hg : PreflowOk g) {k : ℕ} (hk : FewBits g k) {sum : Flow → List Arc → ℚ}
    (hsum : BuiltinSum sum) {s t : Name} (hw : Directed.OneWay g s t) (hst : s ≠ t) (hs : s ∈ g.nodes.keys)
    (ht : t ∈ g.nodes.keys) :
    ∃ v f, (∀ fuel, g.arcs.length < fuel → fordFulkerson binary64 sum fuel g s t = .ok (v, f)) ∧
      f.keys = g.arcs.keys ∧ v = Directed.value g s (Directed.fl f) ∧ MaxFlow g s t (Directed.fl f) ∧
      ∃ S : Finset Name, (∀ x ∈ S, x ∈ g.nodes.keys) ∧ s ∈ S ∧ t ∉ S ∧ v = Directed.cutCapacity g S := by
  obtain ⟨v, f, h, h'⟩ := C11_one_way_partial hg.wf hg.noAnti hw hst hs ht (hg.names s hs) hg.cap
  refine ⟨v, f, fun fuel hf => ?_, h'⟩
  rw [C127_exact_partial hg hk hsum (oneWay_forward hg.wf hg.noAnti hw hst hs ht fuel)]
  exact h fuel hf

/-- C127. With any capacities that are doubles, on any digraph: `ValueError` exactly for bad end points,
`ArithmeticError` exactly for a negative capacity in addition, and otherwise there is no exception: the call returns a
flow of doubles on the arcs, or does not return (`C11_endless_wrong`). `preflow_push` has no such guarantee
(`C105_crash_wrong`). -/
theorem C127_errors {g : Digraph} (hg : Directed.DWF g) (hcap : ∀ a c, g.arcs.get? a = some c → IsDouble c)
    (sum : Flow → List Arc → ℚ) (s t : Name) (fuel : ℕ) :
    (¬(s ∈ g.nodes.keys ∧ t ∈ g.nodes.keys ∧ s ≠ t) →
      fordFulkerson binary64 sum fuel g s t = .error .valueError) ∧
    ((s ∈ g.nodes.keys ∧ t ∈ g.nodes.keys ∧ s ≠ t) →
      ((∃ a c, g.arcs.get? a = some c ∧ c < 0) →
        fordFulkerson binary64 sum fuel g s t = .error .arithmeticError) ∧
      ((∀ a c, g.arcs.get? a = some c → 0 ≤ c) →
        fordFulkerson binary64 sum fuel g s t = .error .notTerminated ∨
        ∃ v f, fordFulkerson binary64 sum fuel g s t = .ok (v, f) ∧ f.keys = g.arcs.keys ∧
          ∀ a, IsDouble (Directed.fl f a))) := by
  have e1 : resLoop binary64 (Directed.zeroFlow g) g.arcs [] =
      Directed.computeResidual g (Directed.zeroFlow g) :=
    resLoop_zero g.arcs (fun p hp => binary64_rep.mpr (hcap p.1 p.2 (Dict.get?_of_mem hg.arcsWF hp))) []
  constructor
  · intro h
    unfold fordFulkerson
    rw [Directed.checkEnds_eq, if_neg h]
  · rintro ⟨hs, ht, hst⟩
    unfold fordFulkerson
    rw [Directed.checkEnds_eq, if_pos ⟨hs, ht, hst⟩]
    simp only [e1]
    rcases Directed.ff_start hg s t with ⟨⟨a, c, h1, h2⟩, h3⟩ | ⟨h0, r, h1, h2, _⟩
    · simp only [h3]
      exact ⟨fun _ => trivial, fun h => absurd (h a c h1) (not_le.mpr h2)⟩
    · simp only [h1]
      refine ⟨fun ⟨a, c, e1, e2⟩ => absurd (h0 a c e1) (not_le.mpr e2), fun _ => ?_⟩
      have hsh : FFShape binary64 g (Directed.zeroFlow g) r :=
        ⟨h2.keys, h2.rwf, h2.sup, fun a => by rw [Directed.fl_zeroFlow]; exact binary64.rd_zero⟩
      rcases ffLoop_ok hg hst hs ht fuel _ r hsh with h3 | ⟨f', r', h3, h4⟩
      · left; simp only [h3]
      · right; simp only [h3]; exact ⟨_, f', rfl, h4.keys, fun a => binary64_rep.mp (h4.rep a)⟩

/-! ### Witnesses -/

/-- The arc into the sink takes everything but one unit; the last way round is not needed. -/
def minusArcs : List (Char × Char × ℚ) :=
  [('s', 'u', 3 / 2), ('s', 'w', 2 ^ 53 - 2), ('w', 'u', 2 ^ 53 - 2), ('s', 'y', 5), ('y', 'z', 5), ('z', 'u', 5),
   ('u', 't', 2 ^ 53 - 1)]

/-- The digraph with these arcs. -/
def minusGraph : Digraph := (Directed.ctor [] (arcs1 minusArcs) []).toOption.getD ⟨[], [], []⟩

theorem minusGraph_ok : PreflowOk minusGraph :=
  preflowOk_of_ctor (l := minusArcs) (by decide +kernel) (by decide +kernel) (by decide +kernel) (by decide +kernel)

theorem minusGraph_oneWay : Directed.OneWay minusGraph ['s'] ['t'] :=
  Directed.oneWay_of_routes minusGraph_ok.wf (by decide +kernel) (by decide +kernel)

/-- The flow returned for `minusGraph`. -/
def minusFlow : Flow :=
  [((['s'], ['u']), 3 / 2), ((['s'], ['w']), 2 ^ 53 - 2), ((['w'], ['u']), 2 ^ 53 - 2), ((['s'], ['y']), -1),
   ((['y'], ['z']), -1), ((['z'], ['u']), -1), ((['u'], ['t']), 2 ^ 53 - 1)]

/-- C127 fails on a one-way digraph whose capacities are doubles: the flow returned is negative on three arcs. The arc
`(u, t)` is overfilled by one through a rounding, its residual is then `-1`, and that is pushed along the next path. -/
theorem C127_negative_wrong : PreflowOk minusGraph ∧ Directed.OneWay minusGraph ['s'] ['t'] ∧
    (∀ p ∈ minusGraph.arcs, binary64.Rep p.2) ∧
    ∀ fuel, 4 ≤ fuel →
      fordFulkerson binary64 (sumArcs (addAll binary64) id) fuel minusGraph ['s'] ['t'] = .ok (2 ^ 53 - 1, minusFlow) ∧
      fordFulkerson binary64 (sumArcs (kahanAll binary64) id) fuel minusGraph ['s'] ['t'] = .ok (2 ^ 53 - 2, minusFlow) := by
  refine ⟨minusGraph_ok, minusGraph_oneWay, ?_, fun fuel hf => ⟨fordFulkerson_mono hf ?_, fordFulkerson_mono hf ?_⟩⟩
  · show ∀ p ∈ minusGraph.arcs, toDouble p.2 = p.2
    decide +kernel
  · decide +kernel
  · decide +kernel

/-- C127 fails: a capacity is exceeded and the value is above the maximum, for the digraph of `C105_capacity_wrong`. -/
theorem C127_capacity_wrong : ∀ fuel, 4 ≤ fuel →
    fordFulkerson binary64 (sumArcs (addAll binary64) id) fuel overGraph ['s'] ['t'] =
      .ok ((2 ^ 52 + 6) / 2 ^ 52, overFlow) ∧
    fordFulkerson binary64 (sumArcs (kahanAll binary64) id) fuel overGraph ['s'] ['t'] =
      .ok ((2 ^ 52 + 6) / 2 ^ 52, overFlow) ∧
    overGraph.arcs.get? (['u'], ['t']) = some ((2 ^ 52 + 5) / 2 ^ 52) ∧
    (Directed.fordFulkerson 4 overGraph ['s'] ['t']).toOption.map Prod.fst = some ((2 ^ 52 + 5) / 2 ^ 52) := by
  intro fuel hf
  exact ⟨fordFulkerson_mono hf (by decide +kernel), fordFulkerson_mono hf (by decide +kernel), by decide +kernel,
    by decide +kernel⟩

/-- The one-way digraph `midGraph`, with capacities in halves, has few bits. -/
example : PreflowOk midGraph ∧ Directed.OneWay midGraph ['s'] ['t'] ∧ FewBits midGraph 1 := by
  refine ⟨midGraph_ok, midGraph_oneWay, by norm_num, fun a c ha => ⟨(2 * c).num, ?_⟩, ?_⟩
  · have h : ∀ p ∈ midGraph.arcs, (2 * p.2).den = 1 := by decide +kernel
    have := h (a, c) (Dict.mem_of_get? ha)
    rw [Rat.coe_int_num_of_den_eq_one this]
    ring
  · have h : (midGraph.arcs.map Prod.snd).sum ≤ 2 ^ 53 / 2 := by decide +kernel
    simpa using h

end Props
end Pytimize
