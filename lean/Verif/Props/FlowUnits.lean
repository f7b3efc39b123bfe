/-
C138: the flow algorithms keep the unit of the capacities (`pytimize/graphs/_directed.py:319-566`). Whole capacities give
whole flows; more generally capacities that are multiples of any number give flows that are.
-/
import Verif.Graph.FlowUnits
import Verif.Props.MaxFlow

namespace Pytimize
namespace Props
open _root_.Pytimize.Directed

/-- `q` is a whole number of units `u`. -/
def InUnits (u q : ℚ) : Prop := ∃ k : ℤ, q = k * u

/-- The multiples of `u`. -/
def unitGroup (u : ℚ) : AddSubgroup ℚ := AddSubgroup.zmultiples u

theorem mem_unitGroup {u q : ℚ} : q ∈ unitGroup u ↔ InUnits u q := by
  unfold unitGroup InUnits
  rw [AddSubgroup.mem_zmultiples_iff]
  constructor
  · rintro ⟨k, rfl⟩; exact ⟨k, by rw [zsmul_eq_mul]⟩
  · rintro ⟨k, rfl⟩; exact ⟨k, by rw [zsmul_eq_mul]⟩

theorem within_of_get {u : ℚ} {g : Digraph} (hg : g.arcs.WF) (h : ∀ a c, g.arcs.get? a = some c → InUnits u c) :
    Within (unitGroup u) g.arcs := fun p hp => mem_unitGroup.mpr (h p.1 p.2 (Dict.get?_of_mem hg hp))

/-- C138. Whatever digraph and nodes they are called with, if all capacities are multiples of `u` then so are the value and
every entry of the flow returned by either algorithm. -/
theorem C138_units {g : Digraph} (hg : g.arcs.WF) {u : ℚ} (h : ∀ a c, g.arcs.get? a = some c → InUnits u c)
    {s t : Name} {fuel : ℕ} {v : ℚ} {f : Flow}
    (hr : preflowPush fuel g s t = .ok (v, f) ∨ fordFulkerson fuel g s t = .ok (v, f)) :
    InUnits u v ∧ ∀ a x, f.get? a = some x → InUnits u x := by
  have hw := within_of_get hg h
  have : v ∈ unitGroup u ∧ Within (unitGroup u) f := by
    rcases hr with hr | hr
    · exact preflowPush_within hw hr
    · exact fordFulkerson_within hw hr
  exact ⟨mem_unitGroup.mp this.1, fun a x hx => mem_unitGroup.mp (this.2.get hx)⟩

/-- C138. The same of the residual digraph of a flow in units of `u`. -/
theorem C138_residual {g h : Digraph} (hg : g.arcs.WF) {u : ℚ} (hu : ∀ a c, g.arcs.get? a = some c → InUnits u c)
    {flow : Flow} (hf : ∀ p ∈ flow, InUnits u p.2) (e : createResidual g flow = .ok h) :
    ∀ a c, h.arcs.get? a = some c → InUnits u c := fun _ _ hc =>
  mem_unitGroup.mp ((createResidual_within (within_of_get hg hu) (fun p hp => mem_unitGroup.mpr (hf p hp)) e).get hc)

/-- The weight of an arc given in a call, if any. -/
def weightOf : Op → Option ℚ
  | .addArc _ w _ => some w
  | .setArcWeight _ w => some w
  | _ => none

/-- C138 from the arguments of the user: if all weights of arcs ever given, to the constructor and in later calls, are
multiples of `u`, then so are the value and the flow. Demands and weights of nodes may be anything. -/
theorem C138_history {graph : List (Name × List Name)} {arcs : List (Arc × ℚ)} {nodes : List (Name × ℚ)} {g : Digraph}
    (hc : ctor graph arcs nodes = .ok g) {u : ℚ} (ha : ∀ p ∈ arcs, InUnits u p.2) (ops : List Op)
    (ho : ∀ o ∈ ops, ∀ w, weightOf o = some w → InUnits u w) {s t : Name} {fuel : ℕ} {v : ℚ} {f : Flow}
    (hr : preflowPush fuel (run g ops) s t = .ok (v, f) ∨ fordFulkerson fuel (run g ops) s t = .ok (v, f)) :
    InUnits u v ∧ ∀ a x, f.get? a = some x → InUnits u x := by
  have hw : Within (unitGroup u) (run g ops).arcs := by
    refine run_within (ctor_within (fun p hp => mem_unitGroup.mpr (ha p hp)) hc) ops fun o h => ?_
    have := ho o h
    cases o <;> first | trivial | exact mem_unitGroup.mpr (this _ rfl)
  have : v ∈ unitGroup u ∧ Within (unitGroup u) f := by
    rcases hr with hr | hr
    · exact preflowPush_within hw hr
    · exact fordFulkerson_within hw hr
  exact ⟨mem_unitGroup.mp this.1, fun a x hx => mem_unitGroup.mp (this.2.get hx)⟩

/-- C138. So there is a maximum flow in whole numbers if the capacities are whole, and `preflow_push` returns one. -/
theorem C138_integer {g : Digraph} (hg : PreflowOk g) (h : ∀ a c, g.arcs.get? a = some c → ∃ k : ℤ, c = k) {s t : Name}
    (hst : s ≠ t) (hs : s ∈ g.nodes.keys) (ht : t ∈ g.nodes.keys) (hin : ∃ w ∈ g.nodes.keys, w ≠ s ∧ w ≠ t) :
    ∃ N v f, (∀ fuel, N ≤ fuel → preflowPush fuel g s t = .ok ((v : ℤ), f)) ∧ MaxFlow g s t (fl f) ∧
      (v : ℚ) = value g s (fl f) ∧ ∀ a c, g.arcs.get? a = some c → ∃ k : ℕ, fl f a = k ∧ (k : ℚ) ≤ c := by
  obtain ⟨N, v, f, hN⟩ := C14_terminates_partial hg hst hs ht hin
  have hr := hN N le_rfl
  obtain ⟨h1, h2, h3⟩ := C12_feasible_partial hg hr
  obtain ⟨⟨k, hk⟩, h4⟩ := C138_units hg.wf.arcsWF (u := 1)
    (fun a c hc => by obtain ⟨k, hk⟩ := h a c hc; exact ⟨k, by rw [hk, mul_one]⟩) (Or.inl hr)
  rw [mul_one] at hk
  subst hk
  refine ⟨N, k, f, hN, ⟨h2, fun f' hf' => ?_⟩, h3, fun a c hc => ?_⟩
  · rw [← h3]; exact (C13_maximum_partial hg hr).1 f' hf'
  · have hm : a ∈ f.keys := by rw [h1]; exact Dict.mem_keys_of_get? hc
    obtain ⟨x, hx⟩ := Dict.exists_get?_of_mem hm
    obtain ⟨j, hj⟩ := h4 a x hx
    have e : fl f a = j := by rw [fl, hx, hj, mul_one]; rfl
    have h0 := h2.nonneg a c hc
    rw [e] at h0
    have hj0 : 0 ≤ j := by exact_mod_cast h0
    obtain ⟨i, rfl⟩ := Int.eq_ofNat_of_zero_le hj0
    refine ⟨i, by rw [e]; simp, ?_⟩
    have := h2.cap a c hc
    rw [e] at this
    simpa using this

/-! ### The hypotheses are satisfiable -/

/-- Halves: `badGraph` with one arc set to 1/2, on which Ford–Fulkerson returns 7/2, a wrong value in the right unit. -/
example : ctor [] (arcs1 badArcs) [] = .ok badGraph ∧ (∀ p ∈ arcs1 badArcs, InUnits (1 / 2) p.2) ∧
    weightOf (.setArcWeight (['e'], ['t']) (1 / 2)) = some (1 / 2) ∧ InUnits (1 / 2) (1 / 2) ∧
    ((fordFulkerson 10 (run badGraph [.setArcWeight (['e'], ['t']) (1 / 2)]) ['s'] ['t']).toOption.map Prod.fst
      = some (7 / 2)) ∧
    ((preflowPush 200 (run badGraph [.setArcWeight (['e'], ['t']) (1 / 2)]) ['s'] ['t']).toOption.map Prod.fst
      = some (5 / 2)) := by
  refine ⟨badGraph_ctor, fun p hp => ⟨(p.2 * 2).num, ?_⟩, rfl, ⟨1, by norm_num⟩, by decide +kernel, by decide +kernel⟩
  revert p
  decide +kernel

example : PreflowOk badGraph ∧ (∀ a c, badGraph.arcs.get? a = some c → ∃ k : ℤ, c = k) ∧
    ∃ w ∈ badGraph.nodes.keys, w ≠ ['s'] ∧ w ≠ ['t'] := by
  refine ⟨badGraph_ok, fun a c h => ⟨c.num, ?_⟩, ['a'], by decide +kernel⟩
  have : ∀ p ∈ badGraph.arcs, p.2 = (p.2.num : ℚ) := by decide +kernel
  exact this (a, c) (Dict.mem_of_get? h)

end Props
end Pytimize
