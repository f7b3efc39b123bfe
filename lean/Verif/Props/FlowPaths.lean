/-
C144: maximum flows count paths (`pytimize/graphs/_directed.py:355-566`). With whole capacities the value returned is the
largest number of paths from the source to the sink that use no arc more often than its capacity allows; with capacities 1
it is the largest number of paths without common arcs, and the smallest number of arcs that meet every path.
-/
import Verif.Graph.FlowPaths
import Verif.Props.Directed
import Verif.Props.FlowChange
import Verif.Props.FlowUnits

namespace Pytimize
namespace Props
open _root_.Pytimize.Directed

/-- Specification: the arcs in `p` lead from `s` to `t`, one after the other, and none is repeated. -/
def PathOf (g : Digraph) (s t : Name) (p : List Arc) : Prop :=
  p.Nodup ∧ (∀ a ∈ p, a ∈ g.arcs.keys) ∧ p.map Prod.fst ++ [t] = s :: p.map Prod.snd

/-- Specification: paths of which no arc is in more than its capacity allows. -/
structure Packing (g : Digraph) (s t : Name) (ps : List (List Arc)) : Prop where
  paths : ∀ p ∈ ps, PathOf g s t p
  cap : ∀ a c, g.arcs.get? a = some c → (ps.flatten.count a : ℚ) ≤ c

/-- All capacities are whole numbers. -/
def WholeCaps (g : Digraph) : Prop := ∀ a c, g.arcs.get? a = some c → ∃ k : ℤ, c = k

/-- All capacities are 1. -/
def UnitCaps (g : Digraph) : Prop := ∀ a c, g.arcs.get? a = some c → c = 1

/-- `v` and `f` are returned by `preflow_push`, or by `ford_fulkerson` without using a reversed arc. -/
def Returned (g : Digraph) (s t : Name) (v : ℚ) (f : Flow) : Prop :=
  ∃ fuel, preflowPush fuel g s t = .ok (v, f) ∨ fordFulkerson fuel g s t = .ok (v, f) ∧ OnlyForward g s t fuel

theorem pathOf_iff {g : Digraph} {s t : Name} {p : List Arc} :
    PathOf g s t p ↔ ArcWalk (· ∈ g.arcs.keys) s t p ∧ p.Nodup := by
  have key : ∀ {p : List Arc} {s : Name}, ArcWalk (· ∈ g.arcs.keys) s t p ↔
      (∀ a ∈ p, a ∈ g.arcs.keys) ∧ p.map Prod.fst ++ [t] = s :: p.map Prod.snd := by
    intro p
    induction p with
    | nil =>
      intro s
      constructor
      · intro h; cases h; simp
      · rintro ⟨-, h⟩
        simp only [List.map_nil, List.nil_append, List.cons.injEq, and_true] at h
        subst h; exact .nil _
    | cons a p ih =>
      intro s
      constructor
      · intro h
        cases h with
        | cons h hp =>
          obtain ⟨h1, h2⟩ := ih.mp hp
          exact ⟨List.forall_mem_cons.mpr ⟨h, h1⟩, by simp only [List.map_cons, List.cons_append, h2]⟩
      · rintro ⟨h1, h2⟩
        obtain ⟨u, v⟩ := a
        obtain ⟨h3, h4⟩ := List.forall_mem_cons.mp h1
        simp only [List.map_cons, List.cons_append, List.cons.injEq] at h2
        obtain ⟨rfl, h2⟩ := h2
        exact .cons h3 (ih.mpr ⟨h4, h2⟩)
  unfold PathOf
  rw [key]
  tauto

theorem Returned.flowIs {g : Digraph} {s t : Name} {v : ℚ} {f : Flow} (h : Returned g s t v f) : FlowIs g s t v := by
  obtain ⟨fuel, h⟩ := h
  exact ⟨fuel, f, h⟩

theorem FlowIs.ends {g : Digraph} {s t : Name} {v : ℚ} (h : FlowIs g s t v) :
    s ∈ g.nodes.keys ∧ t ∈ g.nodes.keys ∧ s ≠ t := by
  obtain ⟨fuel, f, h | ⟨h, -⟩⟩ := h
  · exact preflow_ends h
  · unfold fordFulkerson at h
    cases he : checkEnds g s t with
    | some e => rw [he] at h; cases h
    | none => exact checkEnds_none he

theorem Returned.feasible {g : Digraph} (hg : PreflowOk g) {s t : Name} {v : ℚ} {f : Flow} (h : Returned g s t v f) :
    Feasible g s t (fl f) ∧ v = value g s (fl f) ∧ f.keys = g.arcs.keys := by
  obtain ⟨hs, -, -⟩ := h.flowIs.ends
  obtain ⟨fuel, h | ⟨h, hf⟩⟩ := h
  · obtain ⟨h1, h2, h3⟩ := C12_feasible_partial hg h
    exact ⟨h2, h3, h1⟩
  · exact ⟨C09_forward_partial hg.wf hg.noAnti hf h, (C09_conservation_partial hg.wf h).2.2 (hg.names s hs),
      (C09_conservation_partial hg.wf h).1⟩

/-- A path leaves every set that contains its start but not its end. -/
theorem path_leaves {A : Arc → Prop} {s t : Name} {p : List Arc} (h : ArcWalk A s t p) {S : Finset Name} (hs : s ∈ S)
    (ht : t ∉ S) : ∃ a ∈ p, a.1 ∈ S ∧ a.2 ∉ S := by
  induction h with
  | nil s => exact (ht hs).elim
  | @cons s t u p h hp ih =>
    by_cases hu : u ∈ S
    · obtain ⟨a, ha, hb⟩ := ih hu ht
      exact ⟨a, List.mem_cons_of_mem _ ha, hb⟩
    · exact ⟨(s, u), List.mem_cons_self .., hs, hu⟩

/-! ### The properties -/

/-- C144. The flow returned consists of as many paths as its value says, if the capacities are whole: each arc is on at
most as many of them as there is flow on it. Missing: what `ford_fulkerson` returns after using a reversed arc
(`C144_many_wrong`, `C144_few_wrong`), opposite arcs and long names, as in C09-C14. -/
theorem C144_paths_partial {g : Digraph} (hg : PreflowOk g) (hw : WholeCaps g) {s t : Name} {v : ℚ} {f : Flow}
    (h : Returned g s t v f) :
    ∃ ps, (ps.length : ℚ) = v ∧ Packing g s t ps ∧
      ∀ a x, f.get? a = some x → (ps.flatten.count a : ℚ) ≤ x := by
  obtain ⟨hs, ht, hst⟩ := h.flowIs.ends
  obtain ⟨h1, h2, h3⟩ := h.feasible hg
  have hunit : InUnits 1 v ∧ ∀ a x, f.get? a = some x → InUnits 1 x := by
    obtain ⟨fuel, h⟩ := h
    exact C138_units hg.wf.arcsWF (u := 1) (fun a c hc => by obtain ⟨k, hk⟩ := hw a c hc; exact ⟨k, by rw [hk, mul_one]⟩)
      (h.imp_right And.left)
  have hwhole : ∀ a ∈ g.arcs.keys, ∃ n : ℕ, fl f a = n := by
    intro a ha
    obtain ⟨c, hc⟩ := Dict.exists_get?_of_mem ha
    obtain ⟨x, hx⟩ := Dict.exists_get?_of_mem (show a ∈ f.keys by rw [h3]; exact ha)
    obtain ⟨j, hj⟩ := hunit.2 a x hx
    have h0 := h1.nonneg a c hc
    have e : fl f a = j := by rw [fl, hx, hj, mul_one]; rfl
    rw [e] at h0
    obtain ⟨i, rfl⟩ := Int.eq_ofNat_of_zero_le (show 0 ≤ j by exact_mod_cast h0)
    exact ⟨i, by rw [e]; simp⟩
  -- the value is not negative
  have hv0 : 0 ≤ v := by
    obtain ⟨-, S, -, -, -, e⟩ := h.flowIs.cuts hg
    rw [e]
    refine Finset.sum_nonneg fun a _ => ?_
    cases hc : g.arcs.get? a with
    | none => exact le_rfl
    | some c => exact hg.cap a c hc
  obtain ⟨k, hk⟩ := hunit.1
  rw [mul_one] at hk
  rw [hk] at hv0
  obtain ⟨i, rfl⟩ := Int.eq_ofNat_of_zero_le (show 0 ≤ k by exact_mod_cast hv0)
  obtain ⟨ps, p1, p2, p3⟩ := decompose hg.wf hst hs i (fl f) hwhole h1.cons (by rw [← h2, hk]; simp)
  refine ⟨ps, by rw [p1, hk]; simp, ⟨fun p hp => pathOf_iff.mpr (p2 p hp), fun a c hc => ?_⟩, fun a x hx => ?_⟩
  · exact le_trans (p3 a (Dict.mem_keys_of_get? hc)) (h1.cap a c hc)
  · have := p3 a (by rw [← h3]; exact Dict.mem_keys_of_get? hx)
    rwa [fl, hx] at this

/-- C144. No more paths are possible, whatever the capacities. -/
theorem C144_most_partial {g : Digraph} (hg : PreflowOk g) {s t : Name} {v : ℚ} (h : FlowIs g s t v)
    {ps : List (List Arc)} (hp : Packing g s t ps) : (ps.length : ℚ) ≤ v := by
  obtain ⟨hs, ht, hst⟩ := h.ends
  obtain ⟨h1, h2⟩ := family_feasible hst (fun p hq => (pathOf_iff.mp (hp.paths p hq)).1) hp.cap
  obtain ⟨-, S, hS, s1, s2, e⟩ := h.cuts hg
  rw [e, ← h2]
  exact value_le_cut h1 S hS s1 s2

/-- C144 for capacities 1: the value is the largest number of paths without common arcs. -/
theorem C144_disjoint_partial {g : Digraph} (hg : PreflowOk g) (hu : UnitCaps g) {s t : Name} {v : ℚ}
    (h : FlowIs g s t v) :
    (∃ ps : List (List Arc), (ps.length : ℚ) = v ∧ (∀ p ∈ ps, PathOf g s t p) ∧ ps.Pairwise List.Disjoint) ∧
    ∀ ps : List (List Arc), (∀ p ∈ ps, PathOf g s t p) → ps.Pairwise List.Disjoint → (ps.length : ℚ) ≤ v := by
  constructor
  · obtain ⟨fuel, f, h⟩ := h
    obtain ⟨ps, h1, h2, -⟩ := C144_paths_partial hg (fun a c hc => ⟨1, by rw [hu a c hc]; simp⟩) ⟨fuel, h⟩
    refine ⟨ps, h1, h2.paths, ?_⟩
    have hn : ps.flatten.Nodup := by
      rw [List.nodup_iff_count_le_one]
      intro a
      by_cases ha : a ∈ ps.flatten
      · obtain ⟨p, hp, hap⟩ := List.mem_flatten.mp ha
        obtain ⟨c, hc⟩ := Dict.exists_get?_of_mem ((h2.paths p hp).2.1 a hap)
        have := h2.cap a c hc
        rw [hu a c hc] at this
        exact_mod_cast this
      · rw [List.count_eq_zero_of_not_mem ha]; exact zero_le_one
    exact (List.nodup_flatten.mp hn).2
  · intro ps hp hd
    refine C144_most_partial hg h ⟨hp, fun a c hc => ?_⟩
    rw [hu a c hc]
    have : ps.flatten.Nodup := List.nodup_flatten.mpr ⟨fun p hq => (hp p hq).1, hd⟩
    exact_mod_cast List.nodup_iff_count_le_one.mp this a

/-- C144. The value is the smallest total capacity of a set of arcs that meets every path from `s` to `t`; with
capacities 1 it is the smallest number of such arcs. -/
theorem C144_block_partial {g : Digraph} (hg : PreflowOk g) {s t : Name} {v : ℚ} (h : FlowIs g s t v) :
    (∀ F : Finset Arc, (∀ p, PathOf g s t p → ∃ a ∈ p, a ∈ F) → v ≤ ∑ a ∈ F, capOf g a) ∧
    (∃ F : Finset Arc, (∀ a ∈ F, a ∈ g.arcs.keys) ∧ (∀ p, PathOf g s t p → ∃ a ∈ p, a ∈ F) ∧ v = ∑ a ∈ F, capOf g a) ∧
    (UnitCaps g → ∀ F : Finset Arc, (∀ a ∈ F, a ∈ g.arcs.keys) → ∑ a ∈ F, capOf g a = F.card) := by
  classical
  obtain ⟨hs, ht, hst⟩ := h.ends
  obtain ⟨c1, S, hS, s1, s2, e⟩ := h.cuts hg
  have hcap0 : ∀ a, 0 ≤ capOf g a := fun a => by
    unfold capOf
    cases hc : g.arcs.get? a with
    | none => exact le_rfl
    | some c => exact hg.cap a c hc
  refine ⟨fun F hF => ?_, ⟨(arcSet g).filter fun a => a.1 ∈ S ∧ a.2 ∉ S, fun a ha => ?_, fun p hp => ?_, e⟩,
    fun hu F hF => ?_⟩
  · -- the nodes that can be reached without `F`
    let R : Finset Name := g.nodes.keys.toFinset.filter fun v => ∃ p, ArcWalk (fun a => a ∈ g.arcs.keys ∧ a ∉ F) s v p
    have hmem : ∀ v, v ∈ R ↔ v ∈ g.nodes.keys ∧ ∃ p, ArcWalk (fun a => a ∈ g.arcs.keys ∧ a ∉ F) s v p := by
      intro v; simp [R]
    have htR : t ∉ R := by
      intro hm
      obtain ⟨p, hp⟩ := ((hmem t).mp hm).2
      obtain ⟨q, hq, hn⟩ := hp.nodup
      obtain ⟨a, ha, hF'⟩ := hF q (pathOf_iff.mpr ⟨hq.mono fun a ha => (hq.arcs a ha).1, hn⟩)
      exact (hq.arcs a ha).2 hF'
    refine le_trans (c1 R ((hmem s).mpr ⟨hs, [], .nil s⟩) htR) ?_
    refine Finset.sum_le_sum_of_subset_of_nonneg (fun a ha => ?_) fun a _ _ => hcap0 a
    obtain ⟨h1, h2, h3⟩ := Finset.mem_filter.mp ha
    by_contra hnF
    obtain ⟨-, p, hp⟩ := (hmem _).mp h2
    have hm := mem_arcSet.mp h1
    exact h3 ((hmem _).mpr ⟨hg.wf.endsHead a.1 a.2 hm, _, hp.snoc ⟨hm, hnF⟩⟩)
  · exact mem_arcSet.mp (Finset.mem_filter.mp ha).1
  · obtain ⟨a, ha, h1, h2⟩ := path_leaves (pathOf_iff.mp hp).1 s1 s2
    exact ⟨a, ha, Finset.mem_filter.mpr ⟨mem_arcSet.mpr (hp.2.1 a ha), h1, h2⟩⟩
  · rw [Finset.card_eq_sum_ones, Nat.cast_sum]
    refine Finset.sum_congr rfl fun a ha => ?_
    obtain ⟨c, hc⟩ := Dict.exists_get?_of_mem (hF a ha)
    rw [capOf, hc, hu a c hc]
    simp

/-- C144 in terms of the method `cut`: the value is the smallest total capacity of `cut(S)` for a set `S` of nodes with the
source but not the sink; with capacities 1 it is the smallest `outdegree(S)`. -/
theorem C144_cut_partial {g : Digraph} (hg : PreflowOk g) {s t : Name} {v : ℚ} (h : FlowIs g s t v) :
    (∀ S : List Name, s ∈ S → t ∉ S → v ≤ ((cut g (.iter S)).map (capOf g)).sum) ∧
    (∃ S : List Name, (∀ x ∈ S, x ∈ g.nodes.keys) ∧ s ∈ S ∧ t ∉ S ∧ v = ((cut g (.iter S)).map (capOf g)).sum) ∧
    (UnitCaps g → ∀ S : List Name, ((cut g (.iter S)).map (capOf g)).sum = outdegree g (.iter S)) := by
  have e : ∀ S : List Name, ((cut g (.iter S)).map (capOf g)).sum = cutCapacity g S.toFinset := by
    intro S
    rw [← List.sum_toFinset _ (C07_cut hg.wf S).1]
    unfold cutCapacity
    refine Finset.sum_congr ?_ fun _ _ => rfl
    ext ⟨a, b⟩
    rw [List.mem_toFinset, (C07_cut hg.wf S).2, Finset.mem_filter, mem_arcSet, List.mem_toFinset, List.mem_toFinset]
  obtain ⟨c1, S, hS, s1, s2, hv⟩ := h.cuts hg
  refine ⟨fun S hs ht => ?_, ⟨S.toList, fun x hx => hS x (Finset.mem_toList.mp hx), Finset.mem_toList.mpr s1,
    fun ht => s2 (Finset.mem_toList.mp ht), ?_⟩, fun hu S => ?_⟩
  · rw [e]
    exact c1 _ (List.mem_toFinset.mpr hs) fun hc => ht (List.mem_toFinset.mp hc)
  · rw [e, Finset.toList_toFinset]; exact hv
  · have h1 : (cut g (.iter S)).map (capOf g) = (cut g (.iter S)).map fun _ => (1 : ℚ) := by
      refine List.map_congr_left fun a ha => ?_
      obtain ⟨c, hc⟩ := Dict.exists_get?_of_mem (((C07_cut hg.wf S).2 a.1 a.2).mp ha).1
      rw [capOf, hc, hu a c hc]; rfl
    rw [h1, List.map_const', List.sum_replicate, nsmul_eq_mul, mul_one]
    rfl

/-- C144. The value is positive iff there is a path along arcs of positive capacity. -/
theorem C144_positive_partial {g : Digraph} (hg : PreflowOk g) {s t : Name} {v : ℚ} (h : FlowIs g s t v) :
    0 < v ↔ ∃ p, PathOf g s t p ∧ ∀ a ∈ p, 0 < capOf g a := by
  obtain ⟨hs, ht, hst⟩ := h.ends
  constructor
  · intro hv
    obtain ⟨fuel, f, hr⟩ := h
    obtain ⟨h1, h2, h3⟩ := Returned.feasible hg ⟨fuel, hr⟩
    obtain ⟨p, hp, hn⟩ := exists_arcWalk hg.wf hs (fun a ha => h1.nonneg a _ (cap_of_mem ha)) h1.cons (h2 ▸ hv)
    refine ⟨p, pathOf_iff.mpr ⟨hp.mono fun a ha => (hp.arcs a ha).1, hn⟩, fun a ha => ?_⟩
    exact lt_of_lt_of_le (hp.arcs a ha).2 (h1.cap a _ (cap_of_mem (hp.arcs a ha).1))
  · rintro ⟨p, hp, hpos⟩
    obtain ⟨-, S, hS, s1, s2, e⟩ := h.cuts hg
    obtain ⟨a, ha, h1, h2⟩ := path_leaves (pathOf_iff.mp hp).1 s1 s2
    rw [e]
    refine Finset.sum_pos' (fun b _ => ?_) ⟨a, Finset.mem_filter.mpr ⟨mem_arcSet.mpr (hp.2.1 a ha), h1, h2⟩, hpos a ha⟩
    cases hc : g.arcs.get? b with
    | none => exact le_rfl
    | some c => exact hg.cap b c hc

/-! ### Where it fails -/

theorem lowGraph_unit : UnitCaps lowGraph := fun a c h => by
  have : ∀ p ∈ lowGraph.arcs, p.2 = (1 : ℚ) := by decide +kernel
  exact this (a, c) (Dict.mem_of_get? h)

theorem lowGraph_three : FlowIs lowGraph ['s'] ['t'] 3 := flowIs_of (fuel := 400) (by decide +kernel)

/-- C144 is false for `ford_fulkerson`: it returns 4 where no four paths fit. -/
theorem C144_many_wrong : PreflowOk badGraph ∧ WholeCaps badGraph ∧ ffValue badGraph ['s'] ['t'] = some 4 ∧
    ∀ ps, Packing badGraph ['s'] ['t'] ps → ps.length ≤ 3 := by
  refine ⟨badGraph_ok, fun a c h => ⟨c.num, ?_⟩, by decide +kernel, fun ps hp => ?_⟩
  · have : ∀ p ∈ badGraph.arcs, p.2 = (p.2.num : ℚ) := by decide +kernel
    exact this (a, c) (Dict.mem_of_get? h)
  · exact_mod_cast C144_most_partial badGraph_ok (flowIs_of (fuel := 200) (v := 3) (by decide +kernel)) hp

/-- C144 is false for `ford_fulkerson`: it returns 2 where there are three paths without common arcs. -/
theorem C144_few_wrong : PreflowOk lowGraph ∧ UnitCaps lowGraph ∧ ffValue lowGraph ['s'] ['t'] = some 2 ∧
    ∃ ps : List (List Arc), ps.length = 3 ∧ (∀ p ∈ ps, PathOf lowGraph ['s'] ['t'] p) ∧ ps.Pairwise List.Disjoint := by
  refine ⟨lowGraph_ok, lowGraph_unit, by decide +kernel, ?_⟩
  obtain ⟨⟨ps, h1, h2⟩, -⟩ := C144_disjoint_partial lowGraph_ok lowGraph_unit lowGraph_three
  exact ⟨ps, by exact_mod_cast h1, h2⟩

/-! ### The hypotheses are satisfiable -/

/-- A path in `lowGraph`, which has capacities 1 and the maximum flow 3. -/
example : PreflowOk lowGraph ∧ UnitCaps lowGraph ∧ WholeCaps lowGraph ∧ FlowIs lowGraph ['s'] ['t'] 3 ∧
    PathOf lowGraph ['s'] ['t'] [(['s'], ['v']), (['v'], ['u']), (['u'], ['t'])] :=
  ⟨lowGraph_ok, lowGraph_unit, fun a c h => ⟨1, by rw [lowGraph_unit a c h]; simp⟩, lowGraph_three, by decide +kernel,
    by decide +kernel, by decide +kernel⟩

end Props
end Pytimize
