/-
C139: how the maximum flow changes with the network (`pytimize/graphs/_directed.py:63-166, 355-566`). Raising a capacity or
adding an arc raises the value by at most that much, lowering or removing lowers it by at most that much; reversing all
arcs keeps it; multiplying all capacities multiplies it. Stated of the calls `set_arc_weight`, `add_arc` and `remove_arc`.
-/
import Verif.Props.MaxFlow

namespace Pytimize
namespace Props
open _root_.Pytimize.Directed

/-- The capacity of an arc; a pair of nodes that is not an arc has none. -/
def capOf (g : Digraph) (a : Arc) : ℚ := (g.arcs.get? a).getD 0

/-- `v` is returned by `preflow_push`, or by `ford_fulkerson` without using a reversed arc (otherwise its answers are wrong,
C10). -/
def FlowIs (g : Digraph) (s t : Name) (v : ℚ) : Prop :=
  ∃ fuel f, preflowPush fuel g s t = .ok (v, f) ∨ fordFulkerson fuel g s t = .ok (v, f) ∧ OnlyForward g s t fuel

theorem cutCapacity_eq {g : Digraph} (S : Finset Name) {T : Finset Arc} (hT : ∀ a ∈ g.arcs.keys, a ∈ T) :
    cutCapacity g S = ∑ a ∈ T with a.1 ∈ S ∧ a.2 ∉ S, capOf g a := by
  unfold cutCapacity
  refine Finset.sum_subset_zero_on_sdiff ?_ ?_ fun a _ => rfl
  · intro a ha
    rw [Finset.mem_filter] at ha ⊢
    exact ⟨hT a (mem_arcSet.mp ha.1), ha.2⟩
  · intro a ha
    rw [Finset.mem_sdiff, Finset.mem_filter, Finset.mem_filter] at ha
    have : a ∉ g.arcs.keys := fun hc => ha.2 ⟨mem_arcSet.mpr hc, ha.1.2⟩
    rw [capOf, Dict.get?_eq_none_iff.mpr this]
    rfl

/-- The value returned is the smallest capacity of a cut. -/
theorem FlowIs.cuts {g : Digraph} (hg : PreflowOk g) {s t : Name} {v : ℚ} (h : FlowIs g s t v) :
    (∀ S : Finset Name, s ∈ S → t ∉ S → v ≤ cutCapacity g S) ∧
    ∃ S : Finset Name, (∀ x ∈ S, x ∈ g.nodes.keys) ∧ s ∈ S ∧ t ∉ S ∧ v = cutCapacity g S := by
  obtain ⟨fuel, f, h⟩ := h
  have key : (∃ f', Feasible g s t f' ∧ v = value g s f') ∧ s ∈ g.nodes.keys ∧
      ∃ S : Finset Name, (∀ x ∈ S, x ∈ g.nodes.keys) ∧ s ∈ S ∧ t ∉ S ∧ v = cutCapacity g S := by
    rcases h with h | ⟨h, hf⟩
    · have h1 := C12_feasible_partial hg h
      exact ⟨⟨_, h1.2.1, h1.2.2⟩, (preflow_ends h).1, (C13_maximum_partial hg h).2⟩
    · have hs : s ∈ g.nodes.keys := by
        unfold fordFulkerson at h
        cases he : checkEnds g s t with
        | some e => rw [he] at h; cases h
        | none => exact (checkEnds_none he).1
      refine ⟨⟨_, C09_forward_partial hg.wf hg.noAnti hf h, ?_⟩, hs,
        (C10_forward_partial hg.wf hg.noAnti (hg.names s hs) hf h).2⟩
      exact (C09_conservation_partial hg.wf h).2.2 (hg.names s hs)
  obtain ⟨⟨f', h1, h2⟩, hs, h3⟩ := key
  refine ⟨fun S hS hS' => ?_, h3⟩
  have e : cutCapacity g S = cutCapacity g (S.filter (· ∈ g.nodes.keys)) := by
    unfold cutCapacity
    refine Finset.sum_congr (Finset.filter_congr fun a ha => ?_) fun _ _ => rfl
    have ha' := mem_arcSet.mp ha
    simp only [Finset.mem_filter, hg.wf.endsTail a.1 a.2 ha', hg.wf.endsHead a.1 a.2 ha', and_true]
  rw [e, h2]
  refine value_le_cut h1 _ (fun x hx => (Finset.mem_filter.mp hx).2) (Finset.mem_filter.mpr ⟨hS, hs⟩) fun hc => ?_
  exact hS' (Finset.mem_filter.mp hc).1

/-- C139. A network with at least the capacities of another has at least its maximum flow, and at most the total difference
of the capacities more. -/
theorem C139_monotone_partial {g h : Digraph} (hg : PreflowOk g) (hh : PreflowOk h) (hle : ∀ a, capOf g a ≤ capOf h a)
    {s t : Name} {v w : ℚ} (hv : FlowIs g s t v) (hw : FlowIs h s t w) :
    v ≤ w ∧ w ≤ v + ∑ a ∈ arcSet h, (capOf h a - capOf g a) := by
  obtain ⟨v1, S, hS, v2, v3, v4⟩ := hv.cuts hg
  obtain ⟨w1, S', hS', w2, w3, w4⟩ := hw.cuts hh
  have hTg : ∀ a ∈ g.arcs.keys, a ∈ arcSet g ∪ arcSet h := fun a ha =>
    Finset.mem_union_left _ (mem_arcSet.mpr ha)
  have hTh : ∀ a ∈ h.arcs.keys, a ∈ arcSet g ∪ arcSet h := fun a ha =>
    Finset.mem_union_right _ (mem_arcSet.mpr ha)
  constructor
  · refine le_trans (v1 S' w2 w3) ?_
    rw [w4, cutCapacity_eq S' hTg, cutCapacity_eq S' hTh]
    exact Finset.sum_le_sum fun a _ => hle a
  · have h1 : cutCapacity h S = v + ∑ a ∈ arcSet g ∪ arcSet h with a.1 ∈ S ∧ a.2 ∉ S, (capOf h a - capOf g a) := by
      rw [v4, cutCapacity_eq S hTg, cutCapacity_eq S hTh, ← Finset.sum_add_distrib]
      exact Finset.sum_congr rfl fun a _ => by ring
    refine le_trans (w1 S v2 v3) ?_
    rw [h1]
    refine add_le_add_right ?_ v
    have h2 : ∀ a, 0 ≤ capOf h a - capOf g a := fun a => sub_nonneg.mpr (hle a)
    refine le_trans (Finset.sum_le_sum_of_subset_of_nonneg (Finset.filter_subset _ _) fun a _ _ => h2 a) ?_
    refine le_of_eq (Finset.sum_subset_zero_on_sdiff Finset.subset_union_right ?_ fun _ _ => rfl).symm
    intro a ha
    rw [Finset.mem_sdiff, mem_arcSet] at ha
    have e : capOf h a = 0 := by rw [capOf, Dict.get?_eq_none_iff.mpr ha.2]; rfl
    have e2 : 0 ≤ capOf g a := by
      unfold capOf
      cases hc : g.arcs.get? a with
      | none => exact le_rfl
      | some c => exact hg.cap a c hc
    have := hle a
    rw [e] at this ⊢
    linarith

theorem sum_single {T : Finset Arc} {a : Arc} (ha : a ∈ T) {F : Arc → ℚ} (h : ∀ b ∈ T, b ≠ a → F b = 0) :
    ∑ b ∈ T, F b = F a := Finset.sum_eq_single_of_mem a ha h

theorem preflowOk_set {g : Digraph} (hg : PreflowOk g) {a : Arc} {x : ℚ} (hx : 0 ≤ x) : PreflowOk (setArcWeight g a x).1 := by
  have h := setArcWeight_spec hg.wf a x
  by_cases he : (setArcWeight g a x).2 = none
  · obtain ⟨h1, h2, h3⟩ := h.2.2 he
    refine ⟨h.1, fun u v huv => ?_, fun b c hb => ?_, fun v hv => hg.names v (by rw [← h3]; exact hv)⟩
    · rw [h2] at huv ⊢; exact hg.noAnti u v huv
    · unfold setArcWeight at hb
      rw [if_pos (hasArc_iff.mpr h1)] at hb
      simp only [Dict.get?_set] at hb
      split at hb
      · cases hb; exact hx
      · exact hg.cap b c hb
  · rw [h.2.1 he]; exact hg

/-- C139 for `set_arc_weight`: changing a capacity from `c` to `x` moves the maximum flow in the same direction and by at
most `|x - c|`. Missing: opposite arcs, names of several letters and runs of `ford_fulkerson` that use reversed arcs, for
which it is false (`C139_raise_wrong`). -/
theorem C139_set_partial {g : Digraph} (hg : PreflowOk g) {a : Arc} {c x : ℚ} (hc : g.arcs.get? a = some c) (hx : 0 ≤ x)
    {s t : Name} {v w : ℚ} (hv : FlowIs g s t v) (hw : FlowIs (setArcWeight g a x).1 s t w) :
    (setArcWeight g a x).2 = none ∧ (c ≤ x → v ≤ w ∧ w ≤ v + (x - c)) ∧ (x ≤ c → w ≤ v ∧ v ≤ w + (c - x)) := by
  have ha : a ∈ g.arcs.keys := Dict.mem_keys_of_get? hc
  have hh := preflowOk_set (a := a) hg hx
  have e : setArcWeight g a x = ({ g with arcs := g.arcs.set a x }, none) := by
    unfold setArcWeight
    rw [if_pos (hasArc_iff.mpr ha)]
  rw [e] at hw hh ⊢
  simp only at hw hh ⊢
  have hset : ∀ b, capOf { g with arcs := g.arcs.set a x } b = if a = b then x else capOf g b := by
    intro b
    simp only [capOf, Dict.get?_set]
    split <;> rfl
  have hca : capOf g a = c := by rw [capOf, hc]; rfl
  have hmem : ∀ b, b ∈ (g.arcs.set a x).keys ↔ b ∈ g.arcs.keys := fun b => by
    rw [Dict.keys_set, if_pos ha]
  refine ⟨trivial, fun hle => ?_, fun hle => ?_⟩
  · have := C139_monotone_partial hg hh (fun b => by
      rw [hset]; split
      · rename_i hb; rw [← hb, hca]; exact hle
      · exact le_rfl) hv hw
    rw [sum_single (a := a) (mem_arcSet.mpr ((hmem a).mpr ha)) fun b _ hb => by rw [hset, if_neg hb.symm, sub_self]] at this
    rw [hset, if_pos rfl, hca] at this
    exact this
  · have := C139_monotone_partial hh hg (fun b => by
      rw [hset]; split
      · rename_i hb; rw [← hb, hca]; exact hle
      · exact le_rfl) hw hv
    rw [sum_single (a := a) (mem_arcSet.mpr ha) fun b _ hb => by rw [hset, if_neg hb.symm, sub_self]] at this
    rw [hset, if_pos rfl, hca] at this
    exact this

/-- C139 for `add_arc`: a new arc of capacity `x` raises the maximum flow by at most `x`. -/
theorem C139_add_partial {g : Digraph} (hg : PreflowOk g) {a : Arc} {x : ℚ} {d : Demands} (hd : DemandsOk g a d)
    (hn : (addArc g a x d).2 = none) (hh : PreflowOk (addArc g a x d).1) {s t : Name} {v w : ℚ} (hv : FlowIs g s t v)
    (hw : FlowIs (addArc g a x d).1 s t w) : v ≤ w ∧ w ≤ v + x := by
  have ha : a ∉ g.arcs.keys := by
    intro hc
    unfold addArc at hn
    rw [if_pos (hasArc_iff.mpr hc)] at hn
    cases hn
  have hne : a.1 ≠ a.2 := by
    intro hc
    unfold addArc at hn
    rw [if_neg (fun h => ha (hasArc_iff.mp h)), if_pos hc] at hn
    cases hn
  obtain ⟨_, harcs, _⟩ := (addArc_spec hg.wf a x d hd).2.2 ha hne
  have hget : ∀ b, capOf (addArc g a x d).1 b = if a = b then x else capOf g b := by
    intro b
    unfold capOf
    rw [harcs, Dict.setDefault, if_neg (fun h => ha (Dict.has_iff.mp h)), Dict.get?_set]
    split <;> rfl
  have h0 : capOf g a = 0 := by rw [capOf, Dict.get?_eq_none_iff.mpr ha]; rfl
  have hmem : a ∈ (addArc g a x d).1.arcs.keys := by
    rw [harcs, Dict.mem_keys_setDefault]
    simp
  have hx : 0 ≤ x := by
    have h1 : (addArc g a x d).1.arcs.get? a = some x := by
      rw [harcs, Dict.setDefault, if_neg (fun h => ha (Dict.has_iff.mp h)), Dict.get?_set, if_pos rfl]
    exact hh.cap a x h1
  have := C139_monotone_partial hg hh (fun b => by
    rw [hget]; split
    · rename_i hb; rw [← hb, h0]; exact hx
    · exact le_rfl) hv hw
  rw [sum_single (a := a) (mem_arcSet.mpr hmem) fun b _ hb => by rw [hget, if_neg hb.symm, sub_self]] at this
  rw [hget, if_pos rfl, h0, sub_zero] at this
  exact this

/-- C139 for `remove_arc`: removing an arc of capacity `c` lowers the maximum flow by at most `c`. -/
theorem C139_remove_partial {g : Digraph} (hg : PreflowOk g) {a : Arc} {c : ℚ} (hc : g.arcs.get? a = some c) (r : Bool)
    {s t : Name} {v w : ℚ} (hv : FlowIs g s t v) (hw : FlowIs (removeArc g a r).1 s t w) : w ≤ v ∧ v ≤ w + c := by
  have ha : a ∈ g.arcs.keys := Dict.mem_keys_of_get? hc
  have hr : r = true → chars a.1 = [a.1] ∧ chars a.2 = [a.2] := fun _ =>
    ⟨hg.names _ (hg.wf.endsTail a.1 a.2 ha), hg.names _ (hg.wf.endsHead a.1 a.2 ha)⟩
  obtain ⟨hwf, _, h3⟩ := removeArc_spec hg.wf a r hr
  obtain ⟨_, harcs, hnodes⟩ := h3 ha
  have hget : ∀ b, capOf (removeArc g a r).1 b = if a = b then 0 else capOf g b := by
    intro b
    unfold capOf
    rw [harcs, Dict.get?_del hg.wf.arcsWF]
    split <;> rfl
  have hh : PreflowOk (removeArc g a r).1 := by
    refine ⟨hwf, fun u v huv => ?_, fun b x hb => ?_, fun x hx => hg.names x ((hnodes x).mp hx).1⟩
    · rw [harcs] at huv ⊢
      intro hc'
      exact hg.noAnti u v ((Dict.mem_keys_del hg.wf.arcsWF).mp huv).2 ((Dict.mem_keys_del hg.wf.arcsWF).mp hc').2
    · rw [harcs, Dict.get?_del hg.wf.arcsWF] at hb
      split at hb
      · cases hb
      · exact hg.cap b x hb
  have hca : capOf g a = c := by rw [capOf, hc]; rfl
  have := C139_monotone_partial hh hg (fun b => by
    rw [hget]; split
    · rename_i hb; rw [← hb, hca]; exact hg.cap a c hc
    · exact le_rfl) hw hv
  rw [sum_single (a := a) (mem_arcSet.mpr ha) fun b _ hb => by rw [hget, if_neg hb.symm, sub_self]] at this
  rw [hget, if_pos rfl, hca, sub_zero] at this
  exact this

/-- C139. Reversing all arcs and exchanging source and sink keeps the value. -/
theorem C139_reverse_partial {g h : Digraph} (hg : PreflowOk g) (hh : PreflowOk h)
    (harc : ∀ a b, h.arcs.get? (b, a) = g.arcs.get? (a, b)) {s t : Name} {v w : ℚ} (hv : FlowIs g s t v)
    (hw : FlowIs h t s w) : w = v := by
  have key : ∀ {g h : Digraph} {s t : Name} {v w : ℚ}, PreflowOk g → PreflowOk h →
      (∀ a b, h.arcs.get? (b, a) = g.arcs.get? (a, b)) → t ∈ g.nodes.keys → FlowIs g s t v → FlowIs h t s w →
      w ≤ v := by
    intro g h s t v w hg hh harc ht hv hw
    obtain ⟨_, S, hS, v2, v3, v4⟩ := hv.cuts hg
    refine le_trans ((hw.cuts hh).1 (g.nodes.keys.toFinset \ S) ?_ ?_) (le_of_eq ?_)
    · rw [Finset.mem_sdiff, List.mem_toFinset]; exact ⟨ht, v3⟩
    · rw [Finset.mem_sdiff]; exact fun hc => hc.2 v2
    · rw [v4]
      have hmem : ∀ a b, (b, a) ∈ h.arcs.keys ↔ (a, b) ∈ g.arcs.keys := fun a b => by
        rw [← not_iff_not, ← Dict.get?_eq_none_iff, ← Dict.get?_eq_none_iff, harc]
      unfold cutCapacity
      refine Finset.sum_nbij' (fun a => (a.2, a.1)) (fun a => (a.2, a.1)) ?_ ?_ (fun _ _ => rfl) (fun _ _ => rfl) ?_
      · rintro ⟨b, a⟩ hab
        simp only [Finset.mem_filter, mem_arcSet, Finset.mem_sdiff, List.mem_toFinset, not_and, not_not] at hab ⊢
        have h1 := (hmem a b).mp hab.1
        exact ⟨h1, hab.2.2 (hg.wf.endsTail a b h1), hab.2.1.2⟩
      · rintro ⟨a, b⟩ hab
        simp only [Finset.mem_filter, mem_arcSet, Finset.mem_sdiff, List.mem_toFinset, not_and, not_not] at hab ⊢
        exact ⟨(hmem a b).mpr hab.1, ⟨hg.wf.endsHead a b hab.1, hab.2.2⟩, fun _ => hab.2.1⟩
      · rintro ⟨b, a⟩ _
        simp only [harc]
  have hends : ∀ {g : Digraph} {s t : Name} {v : ℚ}, FlowIs g s t v → t ∈ g.nodes.keys := by
    rintro g s t v ⟨fuel, f, h | ⟨h, _⟩⟩
    · exact (preflow_ends h).2.1
    · unfold fordFulkerson at h
      cases he : checkEnds g s t with
      | some e => rw [he] at h; cases h
      | none => exact (checkEnds_none he).2.1
  exact le_antisymm (key hg hh harc (hends hv) hv hw) (key hh hg (fun a b => (harc b a).symm) (hends hw) hw hv)

/-- C139. Measuring the capacities in another unit measures the value in that unit. -/
theorem C139_scale_partial {g h : Digraph} (hg : PreflowOk g) (hh : PreflowOk h) {k : ℚ} (hk : 0 ≤ k)
    (harc : ∀ a, h.arcs.get? a = (g.arcs.get? a).map (k * ·)) {s t : Name} {v w : ℚ} (hv : FlowIs g s t v)
    (hw : FlowIs h s t w) : w = k * v := by
  obtain ⟨v1, S, hS, v2, v3, v4⟩ := hv.cuts hg
  obtain ⟨w1, S', hS', w2, w3, w4⟩ := hw.cuts hh
  have hcut : ∀ S, cutCapacity h S = k * cutCapacity g S := by
    intro S
    have hTg : ∀ a ∈ g.arcs.keys, a ∈ arcSet g ∪ arcSet h := fun a ha =>
      Finset.mem_union_left _ (mem_arcSet.mpr ha)
    have hTh : ∀ a ∈ h.arcs.keys, a ∈ arcSet g ∪ arcSet h := fun a ha =>
      Finset.mem_union_right _ (mem_arcSet.mpr ha)
    rw [cutCapacity_eq S hTg, cutCapacity_eq S hTh, Finset.mul_sum]
    refine Finset.sum_congr rfl fun a _ => ?_
    unfold capOf
    rw [harc]
    cases g.arcs.get? a <;> simp
  refine le_antisymm ?_ ?_
  · rw [v4, ← hcut]; exact w1 S v2 v3
  · rw [w4, hcut]; exact mul_le_mul_of_nonneg_left (v1 S' w2 w3) hk

/-! ### Ford–Fulkerson with reversed arcs -/

/-- The value returned by `ford_fulkerson`. -/
def ffValue (g : Digraph) (s t : Name) : Option ℚ := (fordFulkerson 10 g s t).toOption.map Prod.fst

/-- C139 is false for `ford_fulkerson`: raising the capacity of an arc from 1 to 2 lowers its answer from 4 to 3. -/
theorem C139_raise_wrong : PreflowOk badGraph ∧ badGraph.arcs.get? (['d'], ['t']) = some 1 ∧
    ffValue badGraph ['s'] ['t'] = some 4 ∧ ffValue (setArcWeight badGraph (['d'], ['t']) 2).1 ['s'] ['t'] = some 3 :=
  ⟨badGraph_ok, by decide +kernel, by decide +kernel, by decide +kernel⟩

/-- C139 is false for `ford_fulkerson`: removing an arc of capacity 1/2 lowers its answer from 4 to 3. -/
theorem C139_remove_wrong : PreflowOk (setArcWeight badGraph (['d'], ['e']) (1 / 2)).1 ∧
    (setArcWeight badGraph (['d'], ['e']) (1 / 2)).1.arcs.get? (['d'], ['e']) = some (1 / 2) ∧
    ffValue (setArcWeight badGraph (['d'], ['e']) (1 / 2)).1 ['s'] ['t'] = some 4 ∧
    ffValue (removeArc (setArcWeight badGraph (['d'], ['e']) (1 / 2)).1 (['d'], ['e']) false).1 ['s'] ['t'] = some 3 :=
  ⟨preflowOk_set badGraph_ok (by norm_num), by decide +kernel, by decide +kernel, by decide +kernel⟩

/-- `badArcs` reversed. -/
def turnedArcs : List (Char × Char × ℚ) := badArcs.map fun p => (p.2.1, p.1, p.2.2)

/-- The digraph with the arcs `turnedArcs`. -/
def turnedGraph : Digraph := (ctor [] (arcs1 turnedArcs) []).toOption.getD ⟨[], [], []⟩

theorem turnedGraph_ok : PreflowOk turnedGraph :=
  preflowOk_of_ctor (l := turnedArcs) (by decide +kernel) (by decide +kernel) (by decide +kernel) (by decide +kernel)

theorem turnedGraph_arcs (a b : Name) : turnedGraph.arcs.get? (b, a) = badGraph.arcs.get? (a, b) := by
  have h1 : turnedGraph.arcs = badGraph.arcs.map fun p => ((p.1.2, p.1.1), p.2) := by decide +kernel
  rw [h1]
  generalize badGraph.arcs = l
  induction l with
  | nil => rfl
  | cons p l ih =>
    obtain ⟨⟨u, v⟩, c⟩ := p
    simp only [List.map_cons, Dict.get?, Prod.mk.injEq, ih, and_comm]

/-- C139 is false for `ford_fulkerson`: with all arcs reversed its answer is 3 instead of 4. -/
theorem C139_reverse_wrong : PreflowOk badGraph ∧ PreflowOk turnedGraph ∧
    (∀ a b, turnedGraph.arcs.get? (b, a) = badGraph.arcs.get? (a, b)) ∧
    ffValue badGraph ['s'] ['t'] = some 4 ∧ ffValue turnedGraph ['t'] ['s'] = some 3 :=
  ⟨badGraph_ok, turnedGraph_ok, turnedGraph_arcs, by decide +kernel, by decide +kernel⟩

/-! ### The hypotheses are satisfiable -/

theorem flowIs_of {g : Digraph} {s t : Name} {v : ℚ} {fuel : ℕ}
    (h : (preflowPush fuel g s t).toOption.map Prod.fst = some v) : FlowIs g s t v := by
  cases hr : preflowPush fuel g s t with
  | error e => rw [hr] at h; cases h
  | ok p =>
    rw [hr] at h
    cases h
    exact ⟨fuel, p.2, Or.inl hr⟩

/-- Setting a capacity from 1 to 3 raises the maximum flow from 3 to 4; an arc from `c` to `t` of capacity 1/2 raises it to
7/2, removing one of capacity 2 lowers it to 1; reversed it is 3 again. -/
example : FlowIs badGraph ['s'] ['t'] 3 ∧ FlowIs (setArcWeight badGraph (['e'], ['t']) 3).1 ['s'] ['t'] 4 ∧
    DemandsOk badGraph (['c'], ['t']) .none ∧ (addArc badGraph (['c'], ['t']) (1 / 2) .none).2 = none ∧
    PreflowOk (addArc badGraph (['c'], ['t']) (1 / 2) .none).1 ∧
    FlowIs (addArc badGraph (['c'], ['t']) (1 / 2) .none).1 ['s'] ['t'] (7 / 2) ∧
    FlowIs (removeArc badGraph (['s'], ['d']) false).1 ['s'] ['t'] 1 ∧ FlowIs turnedGraph ['t'] ['s'] 3 := by
  have hd := DemandsOk_none badGraph (['c'], ['t'])
  refine ⟨flowIs_of (fuel := 200) (by decide +kernel), flowIs_of (fuel := 300) (by decide +kernel), hd, by decide +kernel,
    ⟨(addArc_spec badGraph_ok.wf _ _ _ hd).1, by decide +kernel, fun a c h => ?_, by decide +kernel⟩,
    flowIs_of (fuel := 300) (by decide +kernel), flowIs_of (fuel := 300) (by decide +kernel),
    flowIs_of (fuel := 300) (by decide +kernel)⟩
  have : ∀ p ∈ (addArc badGraph (['c'], ['t']) (1 / 2) .none).1.arcs, 0 ≤ p.2 := by decide +kernel
  exact this (a, c) (Dict.mem_of_get? h)

/-- `badGraph` with the capacities doubled. -/
def twiceGraph : Digraph := (ctor [] (arcs1 (badArcs.map fun p => (p.1, p.2.1, 2 * p.2.2))) []).toOption.getD ⟨[], [], []⟩

example : PreflowOk twiceGraph ∧ (∀ a, twiceGraph.arcs.get? a = (badGraph.arcs.get? a).map (2 * ·)) ∧
    FlowIs twiceGraph ['s'] ['t'] 6 := by
  refine ⟨preflowOk_of_ctor (l := badArcs.map fun p => (p.1, p.2.1, 2 * p.2.2)) (by decide +kernel) (by decide +kernel)
    (by decide +kernel) (by decide +kernel), fun a => ?_, flowIs_of (fuel := 300) (by decide +kernel)⟩
  have h1 : twiceGraph.arcs = badGraph.arcs.map fun p => (p.1, 2 * p.2) := by decide +kernel
  rw [h1, Dict.get?_map_val]

end Props
end Pytimize
