/-
C105: `preflow_push` in floating point (`pytimize/graphs/_directed.py:335-463`). C12–C14 are about exact arithmetic. With
doubles the algorithm can crash and can exceed capacities, by at most one unit in the last place; if the capacities have a
common unit that is a power of two and their total has at most 53 bits, it computes the exact maximum flow.
-/
import Verif.Float.FlowExact
import Verif.Float.FlowBound
import Verif.Props.MaxFlowLoop

namespace Pytimize
namespace Props
open Floating
open _root_.Pytimize.Directed (Digraph Flow Arc Name)

/-- `sum` of floats, before or since Python 3.12, over a set traversed in any order. -/
def BuiltinSum (sum : Flow → List Arc → ℚ) : Prop :=
  ∃ order : List Arc → List Arc, (∀ l, (order l).Perm l) ∧
    (sum = sumArcs (addAll binary64) order ∨ sum = sumArcs (kahanAll binary64) order)

/-- Capacities that are multiples of `2 ^ -k` and add up to at most `2 ^ 53` units. Whole numbers are the case `k = 0`. -/
structure FewBits (g : Digraph) (k : ℕ) : Prop where
  exponent : k ≤ 1074
  units : ∀ a c, g.arcs.get? a = some c → ∃ j : ℤ, c = j / 2 ^ k
  total : (g.arcs.map Prod.snd).sum ≤ 2 ^ 53 / 2 ^ k

theorem noRounding {g : Digraph} (hg : PreflowOk g) {k : ℕ} (hk : FewBits g k) {sum : Flow → List Arc → ℚ}
    (hsum : BuiltinSum sum) : NoRounding binary64 sum g (2 ^ k) (2 ^ 53 / 2 ^ k) := by
  have hf := binary64_fine hk.exponent
  refine ⟨hg.wf, hg.noAnti, hg.cap, hg.names, fun a c ha => ?_, hk.total, hf, ?_⟩
  · obtain ⟨j, rfl⟩ := hk.units a c ha
    refine AddSubgroup.mem_zmultiples_iff.mpr ⟨j, ?_⟩
    rw [zsmul_eq_mul]
    push_cast
    ring
  · obtain ⟨order, ho, rfl | rfl⟩ := hsum
    · exact sumArcs_exact (addAll_eq hf) ho
    · exact sumArcs_exact (kahanAll_eq hf) ho

/-- C105. With few bits nothing is rounded: the call does what it does in exact arithmetic, for any number of iterations and
any arguments. Missing: other capacities, for which it is false (`C105_crash_wrong`, `C105_capacity_wrong`). -/
theorem C105_exact_partial {g : Digraph} (hg : PreflowOk g) {k : ℕ} (hk : FewBits g k) {sum : Flow → List Arc → ℚ}
    (hsum : BuiltinSum sum) (fuel : ℕ) (s t : Name) :
    preflowPush binary64 sum fuel g s t = Directed.preflowPush fuel g s t :=
  (noRounding hg hk hsum).preflowPush_eq (by positivity) s t fuel

/-- C105. With few bits the call finishes and returns a maximum flow, its value, which is the capacity of a cut. -/
theorem C105_maximum_partial {g : Digraph} (hg : PreflowOk g) {k : ℕ} (hk : FewBits g k) {sum : Flow → List Arc → ℚ}
    (hsum : BuiltinSum sum) {s t : Name} (hst : s ≠ t) (hs : s ∈ g.nodes.keys) (ht : t ∈ g.nodes.keys)
    (hin : ∃ w ∈ g.nodes.keys, w ≠ s ∧ w ≠ t) :
    ∃ N v f, (∀ fuel, N ≤ fuel → preflowPush binary64 sum fuel g s t = .ok (v, f)) ∧ f.keys = g.arcs.keys ∧
      MaxFlow g s t (Directed.fl f) ∧ v = Directed.value g s (Directed.fl f) ∧
      ∃ S : Finset Name, (∀ x ∈ S, x ∈ g.nodes.keys) ∧ s ∈ S ∧ t ∉ S ∧ v = Directed.cutCapacity g S := by
  obtain ⟨N, v, f, h⟩ := C14_terminates_partial hg hst hs ht hin
  have hN := h N le_rfl
  obtain ⟨a1, a2, a3⟩ := C12_feasible_partial hg hN
  obtain ⟨b1, b2⟩ := C13_maximum_partial hg hN
  refine ⟨N, v, f, fun fuel hle => ?_, a1, ⟨a2, fun f' hf' => a3 ▸ b1 f' hf'⟩, a3, b2⟩
  rw [C105_exact_partial hg hk hsum]
  exact h fuel hle

/-- C105. Every flow returned consists of doubles, is nonnegative, and exceeds no capacity by more than one unit in its last
place. This needs nothing of `sum` or the node names. Missing: that no capacity is exceeded at all, which is false
(`C105_capacity_wrong`). -/
theorem C105_bounds_partial {g : Digraph} (hg : Directed.DWF g) (hna : Directed.NoAnti g.arcs)
    (hcap : ∀ a c, g.arcs.get? a = some c → IsDouble c ∧ 0 ≤ c) {sum : Flow → List Arc → ℚ} {s t : Name} {fuel : ℕ} {v : ℚ}
    {f : Flow} (h : preflowPush binary64 sum fuel g s t = .ok (v, f)) :
    f.keys = g.arcs.keys ∧ ∀ a c, g.arcs.get? a = some c →
      0 ≤ Directed.fl f a ∧ Directed.fl f a ≤ c + 2 ^ lastBit c ∧ IsDouble (Directed.fl f a) := by
  obtain ⟨h1, h2⟩ := preflowPush_bound (M := fun c => c + 2 ^ lastBit c) hg hna
    (fun a c ha => binary64_fill (hcap a c ha).1 (hcap a c ha).2) h
  exact ⟨h1, fun a c ha => ⟨(h2 a c ha).1, (h2 a c ha).2.1, binary64_rep.mp (h2 a c ha).2.2⟩⟩

/-! ### Witnesses -/

/-- Capacities 0.5, 0.2, 0.1 and 0.3. The node `a` has no way out. -/
def crashArcs : List (Char × Char × ℚ) :=
  [('s', 'b', toDouble (5 / 10)), ('b', 'a', toDouble (2 / 10)), ('s', 'a', toDouble (1 / 10)),
   ('b', 't', toDouble (3 / 10))]

/-- The digraph with these arcs. -/
def crashGraph : Digraph := (Directed.ctor [] (arcs1 crashArcs) []).toOption.getD ⟨[], [], []⟩

theorem crashGraph_ctor : Directed.ctor [] (arcs1 crashArcs) [] = .ok crashGraph := by decide +kernel

theorem crashGraph_ok : PreflowOk crashGraph :=
  preflowOk_of_ctor crashGraph_ctor (by decide +kernel) (by decide +kernel) (by decide +kernel)

/-- C105 fails: on a digraph with capacities 0.5, 0.2, 0.1 and 0.3 the call raises `KeyError`. The excess
0.1 + 0.2 = 0.30000000000000004 of the dead end `a` is not used up when 0.1 and 0.2 are sent back, and then there is no
residual arc left at `a`. In exact arithmetic the call returns 0.3. -/
theorem C105_crash_wrong :
    (∀ fuel, 40 ≤ fuel →
      preflowPush binary64 (sumArcs (addAll binary64) id) fuel crashGraph ['s'] ['t'] = .error .keyError ∧
      preflowPush binary64 (sumArcs (kahanAll binary64) id) fuel crashGraph ['s'] ['t'] = .error .keyError) ∧
    (Directed.preflowPush 40 crashGraph ['s'] ['t']).toOption.map Prod.fst = some (toDouble (3 / 10)) := by
  have h : preflowPush binary64 (sumArcs (addAll binary64) id) 40 crashGraph ['s'] ['t'] = .error .keyError ∧
      preflowPush binary64 (sumArcs (kahanAll binary64) id) 40 crashGraph ['s'] ['t'] = .error .keyError := by
    decide +kernel
  exact ⟨fun fuel hle => ⟨preflowPush_mono hle h.1 (by simp), preflowPush_mono hle h.2 (by simp)⟩, by decide +kernel⟩

/-- Four arcs; the unit is `2 ^ -52`. -/
def overArcs : List (Char × Char × ℚ) :=
  [('s', 'u', 3 / 2 ^ 53), ('s', 'w', (2 ^ 52 + 4) / 2 ^ 52), ('w', 'u', (2 ^ 52 + 4) / 2 ^ 52),
   ('u', 't', (2 ^ 52 + 5) / 2 ^ 52)]

/-- The digraph with these arcs. -/
def overGraph : Digraph := (Directed.ctor [] (arcs1 overArcs) []).toOption.getD ⟨[], [], []⟩

theorem overGraph_ctor : Directed.ctor [] (arcs1 overArcs) [] = .ok overGraph := by decide +kernel

theorem overGraph_ok : PreflowOk overGraph :=
  preflowOk_of_ctor overGraph_ctor (by decide +kernel) (by decide +kernel) (by decide +kernel)

/-- The flow returned for `overGraph`. -/
def overFlow : Flow :=
  [((['s'], ['u']), 3 / 2 ^ 53), ((['s'], ['w']), (2 ^ 52 + 4) / 2 ^ 52), ((['w'], ['u']), (2 ^ 52 + 4) / 2 ^ 52),
   ((['u'], ['t']), (2 ^ 52 + 6) / 2 ^ 52)]

/-- C105 fails: all capacities are doubles, and the flow returned for `overGraph` sends more through the arc `(u, t)` than its
capacity, is not conserved at `u`, and its value is above the maximum. -/
theorem C105_capacity_wrong :
    (∀ p ∈ overGraph.arcs, binary64.Rep p.2) ∧
    preflowPush binary64 (sumArcs (addAll binary64) id) 40 overGraph ['s'] ['t'] =
      .ok ((2 ^ 52 + 6) / 2 ^ 52, overFlow) ∧
    preflowPush binary64 (sumArcs (kahanAll binary64) id) 40 overGraph ['s'] ['t'] =
      .ok ((2 ^ 52 + 6) / 2 ^ 52, overFlow) ∧
    overGraph.arcs.get? (['u'], ['t']) = some ((2 ^ 52 + 5) / 2 ^ 52) ∧
    (Directed.preflowPush 40 overGraph ['s'] ['t']).toOption.map Prod.fst = some ((2 ^ 52 + 5) / 2 ^ 52) := by
  refine ⟨?_, ?_⟩
  · show ∀ p ∈ overGraph.arcs, toDouble p.2 = p.2
    decide +kernel
  · decide +kernel

/-- A digraph with few bits on which the call pushes, relabels and returns excess: whole capacities. -/
example : FewBits badGraph 0 := by
  refine ⟨by norm_num, fun a c ha => ⟨c.num, ?_⟩, ?_⟩
  · have h : ∀ p ∈ badGraph.arcs, p.2.den = 1 := by decide +kernel
    have := h (a, c) (Dict.mem_of_get? ha)
    rw [pow_zero, div_one]
    exact (Rat.coe_int_num_of_den_eq_one this).symm
  · have h : (badGraph.arcs.map Prod.snd).sum = 13 := by decide +kernel
    rw [h]
    norm_num

/-- Both witnesses meet the hypotheses of the bounds. -/
example : ∀ a c, overGraph.arcs.get? a = some c → IsDouble c ∧ 0 ≤ c := by
  intro a c ha
  exact ⟨binary64_rep.mp (C105_capacity_wrong.1 (a, c) (Dict.mem_of_get? ha)), overGraph_ok.cap a c ha⟩

/-- The bound is attained: one unit in the last place above the capacity. -/
example : ((2 : ℚ) ^ 52 + 6) / 2 ^ 52 = (2 ^ 52 + 5) / 2 ^ 52 + 2 ^ lastBit ((2 ^ 52 + 5) / 2 ^ 52) := by decide +kernel

end Props
end Pytimize
