/-
C152: what the residual network of a flow shows (`pytimize/graphs/_directed.py:319-353`). The sink can be reached from the
source in `create_residual(flow)` exactly if the flow is not maximum; otherwise the nodes that can be reached are the
smallest minimum cut, the nodes from which the sink cannot be reached the largest, and raising the capacity of an arc gives a
larger flow exactly if the arc would join the two ends (leaves every minimum cut), lowering it a smaller one exactly if the
arc leaves some minimum cut.
-/
import Verif.Graph.ResidualCut
import Verif.Props.FlowPaths

namespace Pytimize
namespace Props
open _root_.Pytimize.Directed

/-- Specification: a dictionary of the flow on some of the arcs (0 on the others), feasible. -/
structure FlowOn (g : Digraph) (s t : Name) (flow : Flow) : Prop where
  wf : flow.WF
  keys : ∀ a ∈ flow.keys, a ∈ g.arcs.keys
  feasible : Feasible g s t (fl flow)

/-- Specification: there is a walk from `x` to `y`. -/
def Leads (r : Digraph) : Name → Name → Prop := Relation.ReflTransGen fun u v => (u, v) ∈ r.arcs.keys

/-- Specification: `S` is a set of nodes with `s` and without `t`, and no such set has a smaller capacity. -/
def MinCut (g : Digraph) (s t : Name) (S : Finset Name) : Prop :=
  (∀ x ∈ S, x ∈ g.nodes.keys) ∧ s ∈ S ∧ t ∉ S ∧
    ∀ T : Finset Name, (∀ x ∈ T, x ∈ g.nodes.keys) → s ∈ T → t ∉ T → cutCapacity g S ≤ cutCapacity g T

variable {g r : Digraph} {s t : Name} {flow : Flow}

/-- C152: a feasible flow is accepted, and the residual network has an arc from `u` to `v` exactly if more can flow along an
arc from `u` to `v` or less along an arc from `v` to `u` — also if there are arcs in both directions. -/
theorem C152_arcs (hg : DWF g) (hf : FlowOn g s t flow) : ∃ r, createResidual g flow = .ok r ∧
    ∀ u v, (u, v) ∈ r.arcs.keys ↔
      (∃ c, g.arcs.get? (u, v) = some c ∧ fl flow (u, v) < c) ∨ ∃ c, g.arcs.get? (v, u) = some c ∧ 0 < fl flow (v, u) :=
  createResidual_slack hg hf.wf hf.keys fun a c h => ⟨hf.feasible.nonneg a c h, hf.feasible.cap a c h⟩

theorem leads_iff (hg : DWF g) (hf : FlowOn g s t flow) (hr : createResidual g flow = .ok r) :
    Leads r = SlackWalk g (fl flow) := by
  obtain ⟨r', h1, h2⟩ := C152_arcs hg hf
  rw [hr] at h1
  cases h1
  unfold Leads SlackWalk
  congr 1
  funext u v
  exact propext (h2 u v)

open Classical in
/-- The nodes reached from the source are a cut with the value of the flow, unless the sink is one of them. -/
theorem reached_cut (hg : DWF g) (hs : s ∈ g.nodes.keys) {f : Arc → ℚ} (hf : Feasible g s t f) (hn : ¬ SlackWalk g f s t) :
    ∃ R : Finset Name, (∀ x, x ∈ R ↔ SlackWalk g f s x) ∧ (∀ x ∈ R, x ∈ g.nodes.keys) ∧ value g s f = cutCapacity g R := by
  have hk : ∀ x, SlackWalk g f s x → x ∈ g.nodes.keys := fun x h => by
    cases h with
    | refl => exact hs
    | tail _ h => exact (h.ends hg.endsTail hg.endsHead).2
  have hR : ∀ x, x ∈ g.nodes.keys.toFinset.filter (fun x => SlackWalk g f s x) ↔ SlackWalk g f s x := fun x => by
    rw [Finset.mem_filter, List.mem_toFinset]
    exact ⟨And.right, fun h => ⟨hk x h, h⟩⟩
  refine ⟨_, hR, fun x hx => hk x ((hR x).mp hx), (value_eq_cut_iff hf _ (fun x hx => hk x ((hR x).mp hx))
    ((hR s).mpr .refl) fun h => hn ((hR t).mp h)).mpr fun u v hu hv h => hv ?_⟩
  exact (hR v).mpr (((hR u).mp hu).tail h)

open Classical in
/-- The nodes from which the sink is not reached are a cut with the value of the flow, unless the source is not one of them. -/
theorem reaching_cut (hs : s ∈ g.nodes.keys) {f : Arc → ℚ} (hg : DWF g) (hf : Feasible g s t f)
    (hn : ¬ SlackWalk g f s t) :
    ∃ T : Finset Name, (∀ x, x ∈ T ↔ x ∈ g.nodes.keys ∧ ¬ SlackWalk g f x t) ∧ value g s f = cutCapacity g T := by
  have hT : ∀ x, x ∈ g.nodes.keys.toFinset.filter (fun x => ¬ SlackWalk g f x t) ↔ x ∈ g.nodes.keys ∧ ¬ SlackWalk g f x t :=
    fun x => by rw [Finset.mem_filter, List.mem_toFinset]
  refine ⟨_, hT, (value_eq_cut_iff hf _ (fun x hx => ((hT x).mp hx).1) ((hT s).mpr ⟨hs, hn⟩)
    fun h => ((hT t).mp h).2 .refl).mpr fun u v hu hv h => ?_⟩
  by_cases hv' : SlackWalk g f v t
  · exact ((hT u).mp hu).2 (hv'.head h)
  · exact hv ((hT v).mpr ⟨(h.ends hg.endsTail hg.endsHead).2, hv'⟩)

theorem maxFlow_iff_walk (hg : DWF g) (hs : s ∈ g.nodes.keys) (hst : s ≠ t) {f : Arc → ℚ} (hf : Feasible g s t f) :
    MaxFlow g s t f ↔ ¬ SlackWalk g f s t := by
  constructor
  · intro h hw
    obtain ⟨f', h1, h2⟩ := larger_of_walk hst hf hw
    exact absurd (h.2 f' h1) (not_le.mpr h2)
  · intro hn
    obtain ⟨R, h1, h2, h3⟩ := reached_cut hg hs hf hn
    exact ⟨hf, fun f' hf' => h3 ▸ value_le_cut hf' R h2 ((h1 s).mpr .refl) fun h => hn ((h1 t).mp h)⟩

/-- The minimum cuts are the cuts with the value of a maximum flow. -/
theorem minCut_iff (hg : DWF g) (hs : s ∈ g.nodes.keys) (hst : s ≠ t) {f : Arc → ℚ} (hf : MaxFlow g s t f) {S : Finset Name} :
    MinCut g s t S ↔ (∀ x ∈ S, x ∈ g.nodes.keys) ∧ s ∈ S ∧ t ∉ S ∧ value g s f = cutCapacity g S := by
  have hn := (maxFlow_iff_walk hg hs hst hf.1).mp hf
  obtain ⟨R, h1, h2, h3⟩ := reached_cut hg hs hf.1 hn
  constructor
  · rintro ⟨a, b, c, d⟩
    refine ⟨a, b, c, le_antisymm (value_le_cut hf.1 S a b c) ?_⟩
    rw [h3]
    exact d R h2 ((h1 s).mpr .refl) fun h => hn ((h1 t).mp h)
  · rintro ⟨a, b, c, d⟩
    exact ⟨a, b, c, fun T hT h h' => d ▸ value_le_cut hf.1 T hT h h'⟩

/-- C152: a flow is maximum exactly if its residual network has no walk from the source to the sink. -/
theorem C152_maximum (hg : DWF g) (hs : s ∈ g.nodes.keys) (hst : s ≠ t) (hf : FlowOn g s t flow)
    (hr : createResidual g flow = .ok r) : MaxFlow g s t (fl flow) ↔ ¬ Leads r s t := by
  rw [leads_iff hg hf hr, maxFlow_iff_walk hg hs hst hf.feasible]

/-- C152: for a maximum flow, the minimum cuts are the sets of nodes with the source and without the sink that no arc of the
residual network leaves; their capacity is the value of the flow. -/
theorem C152_cuts (hg : DWF g) (hs : s ∈ g.nodes.keys) (hst : s ≠ t) (hf : FlowOn g s t flow)
    (hm : MaxFlow g s t (fl flow)) (hr : createResidual g flow = .ok r) {S : Finset Name} (hS : ∀ x ∈ S, x ∈ g.nodes.keys)
    (hsS : s ∈ S) (htS : t ∉ S) :
    (MinCut g s t S ↔ value g s (fl flow) = cutCapacity g S) ∧
      (MinCut g s t S ↔ ∀ u v, (u, v) ∈ r.arcs.keys → u ∈ S → v ∈ S) := by
  obtain ⟨r', h1, h2⟩ := C152_arcs hg hf
  rw [hr] at h1
  cases h1
  have e : MinCut g s t S ↔ value g s (fl flow) = cutCapacity g S := by
    rw [minCut_iff hg hs hst hm]
    exact ⟨fun h => h.2.2.2, fun h => ⟨hS, hsS, htS, h⟩⟩
  refine ⟨e, e.trans ((value_eq_cut_iff hf.feasible S hS hsS htS).trans ?_)⟩
  exact ⟨fun h u v huv hu => by_contra fun hv => h u v hu hv ((h2 u v).mp huv),
    fun h u v hu hv huv => hv (h u v ((h2 u v).mpr huv) hu)⟩

/-- C152: the nodes reached from the source are a minimum cut, contained in every other one; the nodes from which the sink is
not reached are a minimum cut that contains every other one. -/
theorem C152_extreme (hg : DWF g) (hs : s ∈ g.nodes.keys) (hst : s ≠ t) (hf : FlowOn g s t flow)
    (hm : MaxFlow g s t (fl flow)) (hr : createResidual g flow = .ok r) :
    (∃ R, (∀ x, x ∈ R ↔ Leads r s x) ∧ MinCut g s t R ∧ ∀ S, MinCut g s t S → R ⊆ S) ∧
    ∃ T, (∀ x, x ∈ T ↔ x ∈ g.nodes.keys ∧ ¬ Leads r x t) ∧ MinCut g s t T ∧ ∀ S, MinCut g s t S → S ⊆ T := by
  have hn := (maxFlow_iff_walk hg hs hst hf.feasible).mp hm
  rw [leads_iff hg hf hr]
  obtain ⟨R, a1, a2, a3⟩ := reached_cut hg hs hf.feasible hn
  obtain ⟨T, b1, b2⟩ := reaching_cut hs hg hf.feasible hn
  have stays : ∀ S, MinCut g s t S → ∀ x y, SlackWalk g (fl flow) x y → x ∈ S → y ∈ S := fun S hS x y hxy hx => by
    obtain ⟨c1, c2, c3, c4⟩ := (minCut_iff hg hs hst hm).mp hS
    exact hxy.stays ((value_eq_cut_iff hf.feasible S c1 c2 c3).mp c4) hx
  refine ⟨⟨R, a1, (minCut_iff hg hs hst hm).mpr ⟨a2, (a1 s).mpr .refl, fun h => hn ((a1 t).mp h), a3⟩, fun S hS x hx =>
    stays S hS s x ((a1 x).mp hx) hS.2.1⟩, T, b1, (minCut_iff hg hs hst hm).mpr ⟨fun x hx => ((b1 x).mp hx).1,
    (b1 s).mpr ⟨hs, hn⟩, fun h => ((b1 t).mp h).2 .refl, b2⟩, fun S hS x hx => (b1 x).mpr ⟨hS.1 x hx, fun h =>
    hS.2.2.1 (stays S hS x t h hx)⟩⟩

/-- C152: the nodes reached from the source, and the nodes from which the sink is reached, are the same for all maximum
flows. -/
theorem C152_same (hg : DWF g) (hs : s ∈ g.nodes.keys) (hst : s ≠ t) {flow' : Flow} {r' : Digraph} (hf : FlowOn g s t flow)
    (hf' : FlowOn g s t flow') (hm : MaxFlow g s t (fl flow)) (hm' : MaxFlow g s t (fl flow'))
    (hr : createResidual g flow = .ok r) (hr' : createResidual g flow' = .ok r') {x : Name} (hx : x ∈ g.nodes.keys) :
    (Leads r s x ↔ Leads r' s x) ∧ (Leads r x t ↔ Leads r' x t) := by
  obtain ⟨⟨R, a1, a2, a3⟩, T, b1, b2, b3⟩ := C152_extreme hg hs hst hf hm hr
  obtain ⟨⟨R', a1', a2', a3'⟩, T', b1', b2', b3'⟩ := C152_extreme hg hs hst hf' hm' hr'
  refine ⟨by rw [← a1, ← a1']; exact ⟨fun h => a3 R' a2' h, fun h => a3' R a2 h⟩, ?_⟩
  have h : x ∈ T ↔ x ∈ T' := ⟨fun h => b3' T b2 h, fun h => b3 T' b2' h⟩
  rw [b1, b1'] at h
  by_contra hc
  by_cases h1 : Leads r x t <;> by_cases h2 : Leads r' x t <;> simp [hx, h1, h2] at h hc

/-- C152: there is only one minimum cut exactly if every node is reached from the source or reaches the sink. -/
theorem C152_unique (hg : DWF g) (hs : s ∈ g.nodes.keys) (hst : s ≠ t) (hf : FlowOn g s t flow)
    (hm : MaxFlow g s t (fl flow)) (hr : createResidual g flow = .ok r) :
    (∀ S S', MinCut g s t S → MinCut g s t S' → S = S') ↔ ∀ x ∈ g.nodes.keys, Leads r s x ∨ Leads r x t := by
  obtain ⟨⟨R, a1, a2, a3⟩, T, b1, b2, b3⟩ := C152_extreme hg hs hst hf hm hr
  constructor
  · intro h x hx
    by_contra hc
    rw [not_or] at hc
    have := h R T a2 b2
    exact hc.1 ((a1 x).mp (this ▸ (b1 x).mpr ⟨hx, hc.2⟩))
  · intro h
    have hTR : T ⊆ R := fun x hx => by
      obtain ⟨h1, h2⟩ := (b1 x).mp hx
      exact (a1 x).mpr ((h x h1).resolve_right h2)
    have key : ∀ S, MinCut g s t S → S = R := fun S hS =>
      Finset.Subset.antisymm ((b3 S hS).trans hTR) (a3 S hS)
    exact fun S S' hS hS' => (key S hS).trans (key S' hS').symm

/-- C152: every maximum flow uses the arcs that leave a minimum cut fully and those that enter it not at all. -/
theorem C152_saturated (hg : DWF g) (hs : s ∈ g.nodes.keys) (hst : s ≠ t) {f : Arc → ℚ} (hf : MaxFlow g s t f)
    {S : Finset Name} (hS : MinCut g s t S) {u v : Name} {c : ℚ} (hc : g.arcs.get? (u, v) = some c) :
    (u ∈ S → v ∉ S → f (u, v) = c) ∧ (u ∉ S → v ∈ S → f (u, v) = 0) := by
  obtain ⟨h1, h2, h3, h4⟩ := (minCut_iff hg hs hst hf).mp hS
  have h5 := (value_eq_cut_iff hf.1 S h1 h2 h3).mp h4
  refine ⟨fun hu hv => le_antisymm (hf.1.cap _ _ hc) (not_lt.mp fun hlt => h5 u v hu hv (.inl ⟨c, hc, hlt⟩)), fun hu hv =>
    le_antisymm (not_lt.mp fun hlt => h5 v u hv hu (.inr ⟨c, hc, hlt⟩)) (hf.1.nonneg _ _ hc)⟩

/-- The digraph after a successful `set_arc_weight`. -/
theorem setArcWeight_arcs {u v : Name} {c x : ℚ} (hc : g.arcs.get? (u, v) = some c) :
    (setArcWeight g (u, v) x).2 = none ∧ (setArcWeight g (u, v) x).1 = { g with arcs := g.arcs.set (u, v) x } := by
  unfold setArcWeight
  rw [if_pos (hasArc_iff.mpr (Dict.mem_keys_of_get? hc))]
  exact ⟨rfl, rfl⟩

/-- C152: raising the capacity of an arc from `u` to `v` allows a larger flow exactly if `u` is reached from the source and `v`
reaches the sink in the residual network of a maximum flow. -/
theorem C152_raise (hg : DWF g) (hs : s ∈ g.nodes.keys) (hst : s ≠ t) (hf : FlowOn g s t flow)
    (hm : MaxFlow g s t (fl flow)) (hr : createResidual g flow = .ok r) {u v : Name} {c x : ℚ}
    (hc : g.arcs.get? (u, v) = some c) (hx : c < x) :
    (∃ f, Feasible (setArcWeight g (u, v) x).1 s t f ∧ value g s (fl flow) < value (setArcWeight g (u, v) x).1 s f) ↔
      Leads r s u ∧ Leads r v t := by
  have hn := (maxFlow_iff_walk hg hs hst hf.feasible).mp hm
  obtain ⟨R, a1, a2, a3⟩ := reached_cut hg hs hf.feasible hn
  obtain ⟨T, b1, b2⟩ := reaching_cut hs hg hf.feasible hn
  rw [leads_iff hg hf hr, (setArcWeight_arcs hc).2]
  have hmem : (u, v) ∈ g.arcs.keys := Dict.mem_keys_of_get? hc
  have hset : arcSet { g with arcs := g.arcs.set (u, v) x } = arcSet g := by
    ext a
    rw [mem_arcSet, mem_arcSet, Dict.keys_set, if_pos hmem]
  have hget : ∀ a, ({ g with arcs := g.arcs.set (u, v) x } : Digraph).arcs.get? a = if (u, v) = a then some x else g.arcs.get? a :=
    fun a => Dict.get?_set ..
  have hcut : ∀ S : Finset Name, ¬ (u ∈ S ∧ v ∉ S) → cutCapacity { g with arcs := g.arcs.set (u, v) x } S = cutCapacity g S := by
    intro S hS
    unfold cutCapacity
    rw [hset]
    refine Finset.sum_congr rfl fun a ha => ?_
    have : (u, v) ≠ a := fun h => hS (by have := (Finset.mem_filter.mp ha).2; rwa [← h] at this)
    rw [hget, if_neg this]
  have hin : ∀ f w, inflow { g with arcs := g.arcs.set (u, v) x } f w = inflow g f w := fun f w => by
    unfold inflow; rw [hset]
  have hout : ∀ f w, outflow { g with arcs := g.arcs.set (u, v) x } f w = outflow g f w := fun f w => by
    unfold outflow; rw [hset]
  have hval : ∀ f, value { g with arcs := g.arcs.set (u, v) x } s f = value g s f := fun f => by
    unfold value; rw [hin, hout]
  constructor
  · rintro ⟨f, h1, h2⟩
    constructor
    · by_contra hu
      have := value_le_cut h1 R a2 ((a1 s).mpr .refl) fun h => hn ((a1 t).mp h)
      rw [hcut R fun h => hu ((a1 u).mp h.1), ← a3] at this
      exact absurd h2 (not_lt.mpr this)
    · by_contra hv
      have := value_le_cut h1 T (fun y hy => ((b1 y).mp hy).1) ((b1 s).mpr ⟨hs, hn⟩) fun h => ((b1 t).mp h).2 .refl
      rw [hcut T fun h => h.2 ((b1 v).mpr ⟨hg.endsHead u v hmem, hv⟩), ← b2] at this
      exact absurd h2 (not_lt.mpr this)
  · rintro ⟨h1, h2⟩
    have hF : Feasible { g with arcs := g.arcs.set (u, v) x } s t (fl flow) := by
      refine ⟨fun a c' h => ?_, fun a c' h => ?_, fun w hw p q => by rw [hin, hout]; exact hf.feasible.cons w hw p q⟩
      · rw [hget] at h
        split at h
        · rename_i he; exact he ▸ hf.feasible.nonneg _ _ hc
        · exact hf.feasible.nonneg a c' h
      · rw [hget] at h
        split at h
        · rename_i he; cases h; exact he ▸ le_of_lt (lt_of_le_of_lt (hf.feasible.cap _ _ hc) hx)
        · exact hf.feasible.cap a c' h
    have hmono : ∀ p q, Slack g (fl flow) p q → Slack { g with arcs := g.arcs.set (u, v) x } (fl flow) p q := by
      have one : ∀ a c', g.arcs.get? a = some c' → ∃ c'', c' ≤ c'' ∧
          ({ g with arcs := g.arcs.set (u, v) x } : Digraph).arcs.get? a = some c'' := fun a c' h => by
        rw [hget]
        by_cases he : (u, v) = a
        · rw [if_pos he]
          rw [← he, hc] at h
          cases h
          exact ⟨x, le_of_lt hx, rfl⟩
        · rw [if_neg he]; exact ⟨c', le_rfl, h⟩
      rintro p q (⟨c', h, h'⟩ | ⟨c', h, h'⟩)
      · obtain ⟨c'', h3, h4⟩ := one _ _ h
        exact .inl ⟨c'', h4, lt_of_lt_of_le h' h3⟩
      · obtain ⟨c'', h3, h4⟩ := one _ _ h
        exact .inr ⟨c'', h4, h'⟩
    have hw : SlackWalk { g with arcs := g.arcs.set (u, v) x } (fl flow) s t := by
      have e : Slack { g with arcs := g.arcs.set (u, v) x } (fl flow) u v :=
        .inl ⟨x, by rw [hget, if_pos rfl], lt_of_le_of_lt (hf.feasible.cap _ _ hc) hx⟩
      exact ((Relation.ReflTransGen.mono hmono _ _ h1).tail e).trans (Relation.ReflTransGen.mono hmono _ _ h2)
    obtain ⟨f', p, q⟩ := larger_of_walk hst hF hw
    exact ⟨f', p, by rwa [hval] at q⟩

/-- C152: raising the capacity of an arc allows a larger flow exactly if the arc leaves every minimum cut. -/
theorem C152_raise_cuts (hg : DWF g) (hs : s ∈ g.nodes.keys) (hst : s ≠ t) (hf : FlowOn g s t flow)
    (hm : MaxFlow g s t (fl flow)) {u v : Name} {c x : ℚ} (hc : g.arcs.get? (u, v) = some c) (hx : c < x) :
    (∃ f, Feasible (setArcWeight g (u, v) x).1 s t f ∧ value g s (fl flow) < value (setArcWeight g (u, v) x).1 s f) ↔
      ∀ S, MinCut g s t S → u ∈ S ∧ v ∉ S := by
  obtain ⟨r, hr, -⟩ := C152_arcs hg hf
  rw [C152_raise hg hs hst hf hm hr hc hx]
  obtain ⟨⟨R, a1, a2, a3⟩, T, b1, b2, b3⟩ := C152_extreme hg hs hst hf hm hr
  constructor
  · rintro ⟨h1, h2⟩ S hS
    exact ⟨a3 S hS ((a1 u).mpr h1), fun h => ((b1 v).mp (b3 S hS h)).2 h2⟩
  · intro h
    refine ⟨(a1 u).mp (h R a2).1, by_contra fun hv => (h T b2).2 ((b1 v).mpr ⟨?_, hv⟩)⟩
    exact hg.endsHead u v (Dict.mem_keys_of_get? hc)

/-- C152: lowering the capacity of an arc, however little, makes the maximum flow smaller exactly if the arc leaves some minimum
cut; exactly if the arc is full and its head is not reached from its tail in the residual network of a maximum flow. -/
theorem C152_lower (hg : DWF g) (hs : s ∈ g.nodes.keys) (hst : s ≠ t) (hf : FlowOn g s t flow)
    (hm : MaxFlow g s t (fl flow)) (hr : createResidual g flow = .ok r) {u v : Name} {c : ℚ}
    (hc : g.arcs.get? (u, v) = some c) (h0 : 0 < c) :
    ((∀ x, 0 ≤ x → x < c → ∀ f, Feasible (setArcWeight g (u, v) x).1 s t f →
        value (setArcWeight g (u, v) x).1 s f < value g s (fl flow)) ↔ ∃ S, MinCut g s t S ∧ u ∈ S ∧ v ∉ S) ∧
      ((∃ S, MinCut g s t S ∧ u ∈ S ∧ v ∉ S) ↔ fl flow (u, v) = c ∧ ¬ Leads r u v) := by
  have hmem : (u, v) ∈ g.arcs.keys := Dict.mem_keys_of_get? hc
  have hset : ∀ x, arcSet { g with arcs := g.arcs.set (u, v) x } = arcSet g := fun x => by
    ext a
    rw [mem_arcSet, mem_arcSet, Dict.keys_set, if_pos hmem]
  have hget : ∀ x a, ({ g with arcs := g.arcs.set (u, v) x } : Digraph).arcs.get? a =
      if (u, v) = a then some x else g.arcs.get? a := fun x a => Dict.get?_set ..
  have hin : ∀ x f w, inflow { g with arcs := g.arcs.set (u, v) x } f w = inflow g f w := fun x f w => by
    unfold inflow; rw [hset]
  have hout : ∀ x f w, outflow { g with arcs := g.arcs.set (u, v) x } f w = outflow g f w := fun x f w => by
    unfold outflow; rw [hset]
  have hval : ∀ x f, value { g with arcs := g.arcs.set (u, v) x } s f = value g s f := fun x f => by
    unfold value; rw [hin, hout]
  have hF : ∀ x f, Feasible g s t f → f (u, v) ≤ x → Feasible { g with arcs := g.arcs.set (u, v) x } s t f := by
    refine fun x f h hle => ⟨fun a c' ha => ?_, fun a c' ha => ?_, fun w hw p q => by rw [hin, hout]; exact h.cons w hw p q⟩
    · rw [hget] at ha
      split at ha
      · rename_i he; exact he ▸ h.nonneg _ _ hc
      · exact h.nonneg a c' ha
    · rw [hget] at ha
      split at ha
      · rename_i he; cases ha; exact he ▸ hle
      · exact h.cap a c' ha
  have hv0 : 0 ≤ value g s (fl flow) := by
    have hz : Feasible g s t fun _ => 0 :=
      ⟨fun _ _ _ => le_rfl, fun a c' h => le_trans (hf.feasible.nonneg a c' h) (hf.feasible.cap a c' h), fun w _ _ _ => by
        simp [inflow, outflow]⟩
    have := hm.2 _ hz
    simpa [value, inflow, outflow] using this
  have e1 : (∃ S, MinCut g s t S ∧ u ∈ S ∧ v ∉ S) → ∀ x, 0 ≤ x → x < c → ∀ f, Feasible (setArcWeight g (u, v) x).1 s t f →
      value (setArcWeight g (u, v) x).1 s f < value g s (fl flow) := by
    rintro ⟨S, hS, hu, hv⟩ x _ hx f h
    obtain ⟨h1, h2, h3, h4⟩ := (minCut_iff hg hs hst hm).mp hS
    rw [(setArcWeight_arcs hc).2] at h ⊢
    refine lt_of_le_of_lt (value_le_cut h S h1 h2 h3) ?_
    rw [h4]
    unfold cutCapacity
    rw [hset]
    refine Finset.sum_lt_sum (fun a _ => ?_) ⟨(u, v), Finset.mem_filter.mpr ⟨mem_arcSet.mpr hmem, hu, hv⟩, ?_⟩
    · rw [hget]
      split
      · rename_i he; rw [← he, hc]; exact le_of_lt hx
      · exact le_rfl
    · rw [hget, if_pos rfl, hc]; exact hx
  have e2 : fl flow (u, v) = c ∧ ¬ Leads r u v → ∃ S, MinCut g s t S ∧ u ∈ S ∧ v ∉ S := by
    classical
    rw [leads_iff hg hf hr]
    rintro ⟨hfull, hn⟩
    obtain ⟨h1, h2⟩ := SlackWalk.ends hst hf.feasible hv0 hg.endsHead hg.endsTail hc (by rw [hfull]; exact h0) hn
    have hk : ∀ y, SlackWalk g (fl flow) u y → y ∈ g.nodes.keys := fun y h => by
      cases h with
      | refl => exact hg.endsTail u v hmem
      | tail _ h => exact (h.ends hg.endsTail hg.endsHead).2
    have mS : ∀ y, y ∈ g.nodes.keys.toFinset.filter (fun y => SlackWalk g (fl flow) u y) ↔ SlackWalk g (fl flow) u y :=
      fun y => by
        rw [Finset.mem_filter, List.mem_toFinset]
        exact ⟨And.right, fun h => ⟨hk y h, h⟩⟩
    refine ⟨_, (minCut_iff hg hs hst hm).mpr ⟨fun y hy => hk y ((mS y).mp hy), (mS s).mpr h1, fun h => h2 ((mS t).mp h), ?_⟩,
      (mS u).mpr .refl, fun h => hn ((mS v).mp h)⟩
    refine (value_eq_cut_iff hf.feasible _ (fun y hy => hk y ((mS y).mp hy)) ((mS s).mpr h1) fun h => h2 ((mS t).mp h)).mpr
      fun a b ha hb hab => hb ((mS b).mpr (((mS a).mp ha).tail hab))
  have e3 : (∀ x, 0 ≤ x → x < c → ∀ f, Feasible (setArcWeight g (u, v) x).1 s t f →
      value (setArcWeight g (u, v) x).1 s f < value g s (fl flow)) → fl flow (u, v) = c ∧ ¬ Leads r u v := by
    intro h
    have key : ∀ f', Feasible g s t f' → value g s f' = value g s (fl flow) → ¬ f' (u, v) < c := fun f' h1 h2 hlt => by
      have := h (f' (u, v)) (h1.nonneg _ _ hc) hlt f' (by rw [(setArcWeight_arcs hc).2]; exact hF _ _ h1 le_rfl)
      rw [(setArcWeight_arcs hc).2, hval, h2] at this
      exact lt_irrefl _ this
    have hfull : fl flow (u, v) = c := le_antisymm (hf.feasible.cap _ _ hc) (not_lt.mp (key _ hf.feasible rfl))
    refine ⟨hfull, fun hl => ?_⟩
    rw [leads_iff hg hf hr] at hl
    obtain ⟨f', h1, h2, h3⟩ := less_of_walk hf.feasible hc h0 hfull hl
    exact key f' h1 h2 h3
  exact ⟨⟨fun h => e2 (e3 h), e1⟩, fun h => e3 (e1 h), e2⟩

/-- C152: the flow returned by `preflow_push` (or by `ford_fulkerson` without using a reversed arc) is accepted by
`create_residual`, and its residual network has no walk from the source to the sink. -/
theorem C152_returned (hg : PreflowOk g) {v : ℚ} (h : Returned g s t v flow) :
    FlowOn g s t flow ∧ MaxFlow g s t (fl flow) ∧ v = value g s (fl flow) ∧
      ∃ r, createResidual g flow = .ok r ∧ ¬ Leads r s t := by
  obtain ⟨fuel, h⟩ := h
  have key : flow.keys = g.arcs.keys ∧ s ∈ g.nodes.keys ∧ s ≠ t ∧ Feasible g s t (fl flow) ∧ v = value g s (fl flow) ∧
      ∀ f', Feasible g s t f' → value g s f' ≤ v := by
    rcases h with h | ⟨h, hf⟩
    · have h1 := C12_feasible_partial hg h
      exact ⟨h1.1, (preflow_ends h).1, (preflow_ends h).2.2, h1.2.1, h1.2.2, (C13_maximum_partial hg h).1⟩
    · have hs : s ∈ g.nodes.keys ∧ s ≠ t := by
        unfold fordFulkerson at h
        cases he : checkEnds g s t with
        | some e => rw [he] at h; cases h
        | none => exact ⟨(checkEnds_none he).1, (checkEnds_none he).2.2⟩
      have h1 := C09_conservation_partial hg.wf h
      exact ⟨h1.1, hs.1, hs.2, C09_forward_partial hg.wf hg.noAnti hf h, h1.2.2 (hg.names s hs.1),
        (C10_forward_partial hg.wf hg.noAnti (hg.names s hs.1) hf h).1⟩
  obtain ⟨h1, hs, hst, h2, h3, h4⟩ := key
  have hF : FlowOn g s t flow := ⟨by rw [Dict.WF, h1]; exact hg.wf.arcsWF, fun a ha => h1 ▸ ha, h2⟩
  have hM : MaxFlow g s t (fl flow) := ⟨h2, fun f' hf' => h3 ▸ h4 f' hf'⟩
  obtain ⟨r, h5, _⟩ := C152_arcs hg.wf hF
  exact ⟨hF, hM, h3, r, h5, (C152_maximum hg.wf hs hst hF h5).mp hM⟩

/-! ### The hypotheses are satisfiable -/

/-- Nodes `s`, `a`, `b`, `t` in a row, with arcs in both directions between `a` and `b`. -/
def rowArcs : List (Char × Char × ℚ) := [('s', 'a', 2), ('a', 'b', 1), ('b', 'a', 1), ('b', 't', 2)]

/-- The digraph with the arcs `rowArcs`. -/
def rowGraph : Digraph := (ctor [] (arcs1 rowArcs) []).toOption.getD ⟨[], [], []⟩

/-- A flow of 1 along the row. -/
def rowFlow : Flow := [((['s'], ['a']), 1), ((['a'], ['b']), 1), ((['b'], ['t']), 1)]

theorem rowGraph_wf : DWF rowGraph :=
  ctor_spec (show ctor [] (arcs1 rowArcs) [] = .ok rowGraph by decide +kernel)

theorem rowFlow_on : FlowOn rowGraph ['s'] ['t'] rowFlow := by
  have h : ∀ p ∈ rowGraph.arcs, 0 ≤ fl rowFlow p.1 ∧ fl rowFlow p.1 ≤ p.2 := by decide +kernel
  exact ⟨by unfold Dict.WF; decide +kernel, by decide +kernel, fun a c hc => (h _ (Dict.mem_of_get? hc)).1,
    fun a c hc => (h _ (Dict.mem_of_get? hc)).2, by decide +kernel⟩

/-- The residual network of a flow of 1 in a row with opposite arcs; it has no walk from `s` to `t` as nothing leaves
`s` and `a`, and raising the capacity between `a` and `b` allows a larger flow. -/
example : ∃ r, createResidual rowGraph rowFlow = .ok r ∧ MaxFlow rowGraph ['s'] ['t'] (fl rowFlow) ∧
    Leads r ['s'] ['a'] ∧ Leads r ['b'] ['t'] ∧ MinCut rowGraph ['s'] ['t'] {['s'], ['a']} ∧
    ∃ f, Feasible (setArcWeight rowGraph (['a'], ['b']) 2).1 ['s'] ['t'] f ∧
      value rowGraph ['s'] (fl rowFlow) < value (setArcWeight rowGraph (['a'], ['b']) 2).1 ['s'] f := by
  obtain ⟨r, hr, h1⟩ := C152_arcs rowGraph_wf rowFlow_on
  have hs : ['s'] ∈ rowGraph.nodes.keys := by decide +kernel
  have e : cutCapacity rowGraph {['s'], ['a']} = value rowGraph ['s'] (fl rowFlow) := by decide +kernel
  have hm : MaxFlow rowGraph ['s'] ['t'] (fl rowFlow) := by
    refine ⟨rowFlow_on.feasible, fun f' hf' => ?_⟩
    rw [← e]
    exact value_le_cut hf' _ (by decide +kernel) (by decide +kernel) (by decide +kernel)
  have l1 : Leads r ['s'] ['a'] := .single ((h1 _ _).mpr (.inl ⟨2, by decide +kernel, by decide +kernel⟩))
  have l2 : Leads r ['b'] ['t'] := .single ((h1 _ _).mpr (.inl ⟨2, by decide +kernel, by decide +kernel⟩))
  exact ⟨r, hr, hm, l1, l2, (minCut_iff rowGraph_wf hs (by decide) hm).mpr ⟨by decide +kernel, by decide +kernel,
    by decide +kernel, e.symm⟩, (C152_raise rowGraph_wf hs (by decide) rowFlow_on hm hr (c := 1) (by decide +kernel)
    (by norm_num)).mpr ⟨l1, l2⟩⟩

end Props
end Pytimize
