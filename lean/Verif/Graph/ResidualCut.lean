/-
Residual networks and cuts (helper lemmas for C152): a flow is largest exactly if its residual network has no walk from the
source to the sink, and the nodes reached from the source are the smallest cut of least capacity.
-/
import Verif.Graph.FlowTheory
import Mathlib.Logic.Relation
import Mathlib.Data.Finset.Max

namespace Pytimize
namespace Directed
open Finset

/-- Specification: the flow from `u` to `v` can be increased, by using an arc from `u` to `v` more or an arc from `v` to `u`
less. -/
def Slack (g : Digraph) (f : Arc → ℚ) (u v : Name) : Prop :=
  (∃ c, g.arcs.get? (u, v) = some c ∧ f (u, v) < c) ∨ ∃ c, g.arcs.get? (v, u) = some c ∧ 0 < f (v, u)

/-- The flow from `u` to `v` can be increased, possibly along other nodes. -/
def SlackWalk (g : Digraph) (f : Arc → ℚ) : Name → Name → Prop := Relation.ReflTransGen (Slack g f)

/-- A direction in which a flow can be moved a little. -/
structure Movable (g : Digraph) (f d : Arc → ℚ) : Prop where
  up : ∀ a c, g.arcs.get? a = some c → 0 < d a → f a < c
  down : ∀ a c, g.arcs.get? a = some c → d a < 0 → 0 < f a

theorem Movable.add {g : Digraph} {f d e : Arc → ℚ} (hd : Movable g f d) (he : Movable g f e) :
    Movable g f (fun a => d a + e a) := by
  refine ⟨fun a c h h0 => ?_, fun a c h h0 => ?_⟩
  · by_cases h1 : 0 < d a
    · exact hd.up a c h h1
    · exact he.up a c h (by linarith)
  · by_cases h1 : d a < 0
    · exact hd.down a c h h1
    · exact he.down a c h (by linarith)

theorem net_add (g : Digraph) (f e : Arc → ℚ) (v : Name) : net g (fun a => f a + e a) v = net g f v + net g e v := by
  simp only [net_eq, add_mul, sum_add_distrib]

theorem net_smul (g : Digraph) (k : ℚ) (f : Arc → ℚ) (v : Name) : net g (fun a => k * f a) v = k * net g f v := by
  simp only [net_eq, mul_assoc, mul_sum]

theorem net_unit {g : Digraph} {b : Arc} (hb : b ∈ g.arcs.keys) (k : ℚ) (v : Name) :
    net g (fun a => if a = b then k else 0) v = k * ((if b.2 = v then 1 else 0) - (if b.1 = v then 1 else 0)) := by
  rw [net_eq, sum_eq_single b (fun a _ h => by rw [if_neg h, zero_mul]) fun h => absurd (mem_arcSet.mpr hb) h, if_pos rfl]

/-- The movement of one unit along a walk. -/
theorem exists_movable {g : Digraph} {f : Arc → ℚ} {s x : Name} (h : SlackWalk g f s x) :
    ∃ d, Movable g f d ∧ ∀ v, net g d v = (if x = v then 1 else 0) - (if s = v then 1 else 0) := by
  induction h with
  | refl => exact ⟨fun _ => 0, ⟨fun _ _ _ h => absurd h (lt_irrefl _), fun _ _ _ h => absurd h (lt_irrefl _)⟩, fun v => by
      rw [net_eq]; simp⟩
  | @tail y z _ hyz ih =>
    obtain ⟨d, hd, hn⟩ := ih
    have key : ∃ e, Movable g f e ∧ ∀ v, net g e v = (if z = v then 1 else 0) - (if y = v then 1 else 0) := by
      rcases hyz with ⟨c, hc, hlt⟩ | ⟨c, hc, hlt⟩
      · refine ⟨fun a => if a = (y, z) then 1 else 0, ⟨fun a c' ha h0 => ?_, fun a c' ha h0 => ?_⟩, fun v => ?_⟩
        · by_cases he : a = (y, z)
          · subst he; rw [hc] at ha; cases ha; exact hlt
          · simp [he] at h0
        · by_cases he : a = (y, z) <;> simp [he] at h0
          exact absurd h0 (by norm_num)
        · rw [net_unit (Dict.mem_keys_of_get? hc), one_mul]
      · refine ⟨fun a => if a = (z, y) then -1 else 0, ⟨fun a c' ha h0 => ?_, fun a c' ha h0 => ?_⟩, fun v => ?_⟩
        · by_cases he : a = (z, y) <;> simp [he] at h0
          exact absurd h0 (by norm_num)
        · by_cases he : a = (z, y)
          · subst he; exact hlt
          · simp [he] at h0
        · rw [net_unit (Dict.mem_keys_of_get? hc)]; ring
    obtain ⟨e, he, hne⟩ := key
    exact ⟨_, hd.add he, fun v => by rw [net_add, hn, hne]; ring⟩

/-- A feasible flow can be moved a little in a movable direction. -/
theorem exists_step {g : Digraph} {f d : Arc → ℚ} (hd : Movable g f d) (h0 : ∀ a c, g.arcs.get? a = some c → 0 ≤ f a)
    (h1 : ∀ a c, g.arcs.get? a = some c → f a ≤ c) :
    ∃ k : ℚ, 0 < k ∧ ∀ a c, g.arcs.get? a = some c → 0 ≤ f a + k * d a ∧ f a + k * d a ≤ c := by
  have one : ∀ a c, g.arcs.get? a = some c → ∃ k : ℚ, 0 < k ∧ ∀ k', 0 < k' → k' ≤ k → 0 ≤ f a + k' * d a ∧ f a + k' * d a ≤ c := by
    intro a c h
    have p0 := h0 a c h
    have p1 := h1 a c h
    rcases lt_trichotomy (d a) 0 with hd0 | hd0 | hd0
    · refine ⟨f a / (-d a), div_pos (hd.down a c h hd0) (by linarith), fun k' hk hk' => ?_⟩
      rw [le_div_iff₀ (by linarith)] at hk'
      have : k' * d a < 0 := mul_neg_of_pos_of_neg hk hd0
      constructor <;> linarith
    · exact ⟨1, one_pos, fun k' _ _ => by rw [hd0, mul_zero, add_zero]; exact ⟨p0, p1⟩⟩
    · refine ⟨(c - f a) / d a, div_pos (by linarith [hd.up a c h hd0]) hd0, fun k' hk hk' => ?_⟩
      rw [le_div_iff₀ hd0] at hk'
      have : 0 < k' * d a := mul_pos hk hd0
      constructor <;> linarith
  have all : ∀ T : Finset Arc, ∃ k : ℚ, 0 < k ∧ ∀ a ∈ T, ∀ c, g.arcs.get? a = some c →
      ∀ k', 0 < k' → k' ≤ k → 0 ≤ f a + k' * d a ∧ f a + k' * d a ≤ c := by
    intro T
    induction T using Finset.induction_on with
    | empty => exact ⟨1, one_pos, fun a ha => absurd ha (notMem_empty a)⟩
    | insert b T _ ih =>
      obtain ⟨k, hk, hT⟩ := ih
      cases hb : g.arcs.get? b with
      | none =>
        refine ⟨k, hk, fun a ha c h => ?_⟩
        rcases mem_insert.mp ha with rfl | ha
        · rw [hb] at h; cases h
        · exact hT a ha c h
      | some c0 =>
        obtain ⟨k1, hk1, hb1⟩ := one b c0 hb
        refine ⟨min k k1, lt_min hk hk1, fun a ha c h k' p q => ?_⟩
        rcases mem_insert.mp ha with rfl | ha
        · rw [hb] at h; cases h
          exact hb1 k' p (le_trans q (min_le_right ..))
        · exact hT a ha c h k' p (le_trans q (min_le_left ..))
  obtain ⟨k, hk, hT⟩ := all (arcSet g)
  exact ⟨k, hk, fun a c h => hT a (mem_arcSet.mpr (Dict.mem_keys_of_get? h)) c h k hk le_rfl⟩

/-- A walk from the source to the sink in the residual network shows a larger flow. -/
theorem larger_of_walk {g : Digraph} {s t : Name} (hst : s ≠ t) {f : Arc → ℚ} (hf : Feasible g s t f)
    (h : SlackWalk g f s t) : ∃ f', Feasible g s t f' ∧ value g s f < value g s f' := by
  obtain ⟨d, hd, hn⟩ := exists_movable h
  obtain ⟨k, hk, hk'⟩ := exists_step hd hf.nonneg hf.cap
  have e : ∀ v, net g (fun a => f a + k * d a) v = net g f v + k * ((if t = v then 1 else 0) - (if s = v then 1 else 0)) :=
    fun v => by rw [net_add g f (fun a => k * d a), net_smul, hn]
  refine ⟨fun a => f a + k * d a, ⟨fun a c h => (hk' a c h).1, fun a c h => (hk' a c h).2, fun v hv h1 h2 => ?_⟩, ?_⟩
  · have h3 := e v
    have h4 := hf.cons v hv h1 h2
    rw [if_neg (Ne.symm h2), if_neg (Ne.symm h1)] at h3
    unfold net at h3
    linarith
  · have h3 := e s
    rw [if_neg (Ne.symm hst), if_pos rfl] at h3
    unfold net at h3
    unfold value
    linarith

/-- A flow has the value of a cut exactly if nothing can be increased across it. -/
theorem value_eq_cut_iff {g : Digraph} {s t : Name} {f : Arc → ℚ} (hf : Feasible g s t f) (S : Finset Name)
    (hS : ∀ v ∈ S, v ∈ g.nodes.keys) (hs : s ∈ S) (ht : t ∉ S) :
    value g s f = cutCapacity g S ↔ ∀ u v, u ∈ S → v ∉ S → ¬ Slack g f u v := by
  rw [value_eq_cut hf.cons S hS hs ht]
  have p1 : ∀ a ∈ (arcSet g).filter (fun a => a.1 ∈ S ∧ a.2 ∉ S), f a ≤ (g.arcs.get? a).getD 0 := fun a ha =>
    hf.cap a _ (cap_of_mem (mem_arcSet.mp (mem_filter.mp ha).1))
  have p2 : ∀ a ∈ (arcSet g).filter (fun a => a.2 ∈ S ∧ a.1 ∉ S), 0 ≤ f a := fun a ha =>
    hf.nonneg a _ (cap_of_mem (mem_arcSet.mp (mem_filter.mp ha).1))
  constructor
  · intro h
    have h1 : ∑ a ∈ arcSet g with a.1 ∈ S ∧ a.2 ∉ S, f a ≤ cutCapacity g S := sum_le_sum p1
    have h2 := sum_nonneg p2
    have e1 := (sum_eq_sum_iff_of_le p1).mp (by unfold cutCapacity at h h1; linarith)
    have e2 := (sum_eq_zero_iff_of_nonneg p2).mp (by linarith)
    rintro u v hu hv (⟨c, hc, hlt⟩ | ⟨c, hc, hlt⟩)
    · have := e1 (u, v) (mem_filter.mpr ⟨mem_arcSet.mpr (Dict.mem_keys_of_get? hc), hu, hv⟩)
      rw [hc] at this
      exact absurd this (ne_of_lt hlt)
    · have := e2 (v, u) (mem_filter.mpr ⟨mem_arcSet.mpr (Dict.mem_keys_of_get? hc), hu, hv⟩)
      exact absurd this (ne_of_gt hlt)
  · intro h
    have e1 : ∑ a ∈ arcSet g with a.1 ∈ S ∧ a.2 ∉ S, f a = cutCapacity g S := by
      refine sum_congr rfl fun a ha => le_antisymm (p1 a ha) ?_
      obtain ⟨h1, h2, h3⟩ := mem_filter.mp ha
      exact not_lt.mp fun hlt => h a.1 a.2 h2 h3 (.inl ⟨_, cap_of_mem (mem_arcSet.mp h1), hlt⟩)
    have e2 : ∑ a ∈ arcSet g with a.2 ∈ S ∧ a.1 ∉ S, f a = 0 := by
      refine sum_eq_zero fun a ha => le_antisymm ?_ (p2 a ha)
      obtain ⟨h1, h2, h3⟩ := mem_filter.mp ha
      exact not_lt.mp fun hlt => h a.2 a.1 h2 h3 (.inr ⟨_, cap_of_mem (mem_arcSet.mp h1), hlt⟩)
    rw [e1, e2, sub_zero]

theorem Slack.ends {g : Digraph} (hT : ∀ u v, (u, v) ∈ g.arcs.keys → u ∈ g.nodes.keys)
    (hH : ∀ u v, (u, v) ∈ g.arcs.keys → v ∈ g.nodes.keys) {f : Arc → ℚ} {u v : Name} (h : Slack g f u v) :
    u ∈ g.nodes.keys ∧ v ∈ g.nodes.keys := by
  rcases h with ⟨c, hc, _⟩ | ⟨c, hc, _⟩
  · exact ⟨hT _ _ (Dict.mem_keys_of_get? hc), hH _ _ (Dict.mem_keys_of_get? hc)⟩
  · exact ⟨hH _ _ (Dict.mem_keys_of_get? hc), hT _ _ (Dict.mem_keys_of_get? hc)⟩

/-- A set that nothing leaves keeps walks inside. -/
theorem SlackWalk.stays {g : Digraph} {f : Arc → ℚ} {S : Finset Name} (hS : ∀ u v, u ∈ S → v ∉ S → ¬ Slack g f u v)
    {x y : Name} (h : SlackWalk g f x y) (hx : x ∈ S) : y ∈ S := by
  induction h with
  | refl => exact hx
  | tail _ hyz ih => exact by_contra fun hc => hS _ _ ih hc hyz

/-- What the source loses the sink gains. -/
theorem net_ends {g : Digraph} {s t : Name} (hst : s ≠ t) {f : Arc → ℚ} (hf : Feasible g s t f)
    (hH : ∀ u v, (u, v) ∈ g.arcs.keys → v ∈ g.nodes.keys) (hT : ∀ u v, (u, v) ∈ g.arcs.keys → u ∈ g.nodes.keys) :
    net g f s + net g f t = 0 := by
  have h2 := sum_net (g := g) f ({s, t} ∪ g.nodes.keys.toFinset)
  have h3 : ∀ a ∈ arcSet g, a.1 ∈ ({s, t} ∪ g.nodes.keys.toFinset : Finset Name) ∧
      a.2 ∈ ({s, t} ∪ g.nodes.keys.toFinset : Finset Name) := fun a ha => by
    have := mem_arcSet.mp ha
    exact ⟨mem_union_right _ (List.mem_toFinset.mpr (hT a.1 a.2 this)),
      mem_union_right _ (List.mem_toFinset.mpr (hH a.1 a.2 this))⟩
  rw [sum_eq_zero (s := (arcSet g).filter _) fun a ha => absurd (h3 a (mem_filter.mp ha).1).1 (mem_filter.mp ha).2.2,
    sum_eq_zero (s := (arcSet g).filter _) fun a ha => absurd (h3 a (mem_filter.mp ha).1).2 (mem_filter.mp ha).2.2,
    sub_zero] at h2
  rw [← h2, ← sum_pair hst]
  refine sum_subset subset_union_left fun x hx hx' => ?_
  have hxk : x ∈ g.nodes.keys := List.mem_toFinset.mp ((mem_union.mp hx).resolve_left hx')
  simp only [mem_insert, mem_singleton, not_or] at hx'
  unfold net
  rw [hf.cons x hxk hx'.1 hx'.2, sub_self]

/-- An arc with flow whose head is not reached from its tail: the source is reached from the tail, the sink is not. -/
theorem SlackWalk.ends {g : Digraph} {s t : Name} (hst : s ≠ t) {f : Arc → ℚ} (hf : Feasible g s t f)
    (hv : 0 ≤ value g s f) (hH : ∀ u v, (u, v) ∈ g.arcs.keys → v ∈ g.nodes.keys)
    (hT : ∀ u v, (u, v) ∈ g.arcs.keys → u ∈ g.nodes.keys) {u v : Name} {c : ℚ} (hc : g.arcs.get? (u, v) = some c)
    (h0 : 0 < f (u, v)) (hn : ¬ SlackWalk g f u v) : SlackWalk g f u s ∧ ¬ SlackWalk g f u t := by
  classical
  have hk : ∀ x, SlackWalk g f u x → x ∈ g.nodes.keys := fun x h => by
    cases h with
    | refl => exact hT u v (Dict.mem_keys_of_get? hc)
    | tail _ h => exact (h.ends hT hH).2
  set S := g.nodes.keys.toFinset.filter (fun x => SlackWalk g f u x) with hS
  have mS : ∀ x, x ∈ S ↔ SlackWalk g f u x := fun x => by
    rw [hS, mem_filter, List.mem_toFinset]
    exact ⟨And.right, fun h => ⟨hk x h, h⟩⟩
  have e := sum_net (g := g) f S
  have into : ∑ a ∈ arcSet g with a.2 ∈ S ∧ a.1 ∉ S, f a = 0 := by
    refine sum_eq_zero fun a ha => ?_
    obtain ⟨h1, h2, h3⟩ := mem_filter.mp ha
    have hca := cap_of_mem (mem_arcSet.mp h1)
    by_contra hne
    exact h3 ((mS _).mpr (((mS _).mp h2).tail (.inr ⟨_, hca, lt_of_le_of_ne (hf.nonneg a _ hca) (Ne.symm hne)⟩)))
  have out : f (u, v) ≤ ∑ a ∈ arcSet g with a.1 ∈ S ∧ a.2 ∉ S, f a := by
    refine single_le_sum (f := f) (fun a ha => ?_) (mem_filter.mpr ⟨mem_arcSet.mpr (Dict.mem_keys_of_get? hc),
      (mS u).mpr .refl, fun h => hn ((mS v).mp h)⟩)
    exact hf.nonneg a _ (cap_of_mem (mem_arcSet.mp (mem_filter.mp ha).1))
  have neg : ∑ x ∈ S, net g f x < 0 := by rw [e, into]; linarith
  have hne := net_ends hst hf hH hT
  have hz : ∀ x ∈ S, x ≠ s → x ≠ t → net g f x = 0 := fun x hx h1 h2 => by
    unfold net
    rw [hf.cons x (hk x ((mS x).mp hx)) h1 h2, sub_self]
  rw [← mS, ← mS]
  by_cases hs : s ∈ S
  · refine ⟨hs, fun ht => absurd neg (not_lt.mpr (le_of_eq ?_))⟩
    rw [← hne, ← sum_pair hst]
    refine sum_subset (fun x hx => ?_) fun x hx hx' => ?_
    · rcases mem_insert.mp hx with rfl | hx
      · exact hs
      · rw [mem_singleton.mp hx]; exact ht
    · simp only [mem_insert, mem_singleton, not_or] at hx'
      exact hz x hx hx'.1 hx'.2
  · exfalso
    refine absurd neg (not_lt.mpr ?_)
    by_cases ht : t ∈ S
    · rw [sum_eq_single t (fun x hx hxt => hz x hx (fun h => hs (h ▸ hx)) hxt) fun h => absurd ht h]
      unfold value at hv
      unfold net at hne ⊢
      linarith
    · exact le_of_eq (sum_eq_zero fun x hx => hz x hx (fun h => hs (h ▸ hx)) fun h => ht (h ▸ hx)).symm

/-- A walk past a full arc: another flow of the same value uses the arc less. -/
theorem less_of_walk {g : Digraph} {s t : Name} {f : Arc → ℚ} (hf : Feasible g s t f) {u v : Name} {c : ℚ}
    (hc : g.arcs.get? (u, v) = some c) (h0 : 0 < c) (hfull : f (u, v) = c) (h : SlackWalk g f u v) :
    ∃ f', Feasible g s t f' ∧ value g s f' = value g s f ∧ f' (u, v) < c := by
  obtain ⟨d, hd, hn⟩ := exists_movable h
  have he : Movable g f fun a => if a = (u, v) then -1 else 0 := by
    refine ⟨fun a c' ha h1 => ?_, fun a c' ha h1 => ?_⟩
    · by_cases h2 : a = (u, v) <;> simp [h2] at h1
      exact absurd h1 (by norm_num)
    · by_cases h2 : a = (u, v)
      · rw [h2, hfull]; exact h0
      · simp [h2] at h1
  have hduv : d (u, v) ≤ 0 := not_lt.mp fun h1 => absurd (hd.up _ c hc h1) (by rw [hfull]; exact lt_irrefl _)
  obtain ⟨k, hk, hk'⟩ := exists_step (hd.add he) hf.nonneg hf.cap
  have e : ∀ w, net g (fun a => f a + k * (d a + if a = (u, v) then -1 else 0)) w = net g f w := fun w => by
    rw [net_add g f (fun a => k * (d a + if a = (u, v) then -1 else 0)), net_smul, net_add, hn,
      net_unit (Dict.mem_keys_of_get? hc)]
    ring
  refine ⟨_, ⟨fun a c' ha => (hk' a c' ha).1, fun a c' ha => (hk' a c' ha).2, fun w hw h1 h2 => ?_⟩, ?_, ?_⟩
  · have h3 := e w
    have h4 := hf.cons w hw h1 h2
    unfold net at h3
    linarith
  · have h3 := e s
    unfold net at h3
    unfold value
    linarith
  · rw [if_pos rfl, hfull]
    nlinarith

/-! ### The arcs of `create_residual` -/

theorem resLoop_keys (flow : Flow) (l : Dict Arc ℚ) (r : Resid) (hr : RWF r) (hle : ∀ a c, (a, c) ∈ l → fl flow a ≤ c) :
    ∃ r', resLoop flow l r = .ok r' ∧ RWF r' ∧ ∀ a b, (lookup r' a b).isSome ↔ (lookup r a b).isSome ∨
      (∃ c, ((a, b), c) ∈ l ∧ fl flow (a, b) < c) ∨ ∃ c, ((b, a), c) ∈ l ∧ 0 < fl flow (b, a) := by
  induction l generalizing r with
  | nil => exact ⟨r, rfl, hr, fun a b => by simp⟩
  | cons q l ih =>
    obtain ⟨⟨u, v⟩, c⟩ := q
    have hc : ¬ c < fl flow (u, v) := not_lt.mpr (hle (u, v) c (by simp))
    set f := fl flow (u, v) with hf
    set r1 := if c > f then put r u v (c - f) else r with hr1
    set r2 := if f > 0 then put r1 v u f else r1 with hr2
    have hstep : resLoop flow (((u, v), c) :: l) r = resLoop flow l r2 := by
      conv_lhs => unfold resLoop
      exact if_neg hc
    have w1 : RWF r1 := by rw [hr1]; split; exacts [RWF_put hr _ _ _, hr]
    have w2 : RWF r2 := by rw [hr2]; split; exacts [RWF_put w1 _ _ _, w1]
    have e1 : ∀ a b, (lookup r1 a b).isSome ↔ (lookup r a b).isSome ∨ (u = a ∧ v = b) ∧ f < c := by
      intro a b
      rw [hr1]
      by_cases hcf : c > f
      · rw [if_pos hcf, lookup_put]
        by_cases h1 : u = a ∧ v = b
        · rw [if_pos h1]; simp [h1, hcf]
        · rw [if_neg h1]; simp [h1]
      · rw [if_neg hcf]
        exact ⟨Or.inl, fun h => h.resolve_right fun hh => hcf hh.2⟩
    have e2 : ∀ a b, (lookup r2 a b).isSome ↔ (lookup r1 a b).isSome ∨ (v = a ∧ u = b) ∧ 0 < f := by
      intro a b
      rw [hr2]
      by_cases hcf : f > 0
      · rw [if_pos hcf, lookup_put]
        by_cases h1 : v = a ∧ u = b
        · rw [if_pos h1]; simp [h1, hcf]
        · rw [if_neg h1]; simp [h1]
      · rw [if_neg hcf]
        exact ⟨Or.inl, fun h => h.resolve_right fun hh => hcf hh.2⟩
    obtain ⟨r', h1, h2, h3⟩ := ih r2 w2 fun a c' h => hle a c' (List.mem_cons_of_mem _ h)
    refine ⟨r', by rw [hstep, h1], h2, fun a b => ?_⟩
    rw [h3, e2, e1]
    constructor
    · rintro (((h | ⟨⟨rfl, rfl⟩, h⟩) | ⟨⟨rfl, rfl⟩, h⟩) | ⟨c', h, h'⟩ | ⟨c', h, h'⟩)
      · exact .inl h
      · exact .inr (.inl ⟨c, by simp, h⟩)
      · exact .inr (.inr ⟨c, by simp, h⟩)
      · exact .inr (.inl ⟨c', List.mem_cons_of_mem _ h, h'⟩)
      · exact .inr (.inr ⟨c', List.mem_cons_of_mem _ h, h'⟩)
    · rintro (h | ⟨c', h, h'⟩ | ⟨c', h, h'⟩)
      · exact .inl (.inl (.inl h))
      · rcases List.mem_cons.mp h with h | h
        · cases h; exact .inl (.inl (.inr ⟨⟨rfl, rfl⟩, h'⟩))
        · exact .inr (.inl ⟨c', h, h'⟩)
      · rcases List.mem_cons.mp h with h | h
        · cases h; exact .inl (.inr ⟨⟨rfl, rfl⟩, h'⟩)
        · exact .inr (.inr ⟨c', h, h'⟩)

/-- `create_residual` accepts flows within the capacities, and the arcs of the result are the pairs of nodes with slack. -/
theorem createResidual_slack {g : Digraph} (h : DWF g) {flow : Flow} (hf : flow.WF)
    (hk : ∀ a ∈ flow.keys, a ∈ g.arcs.keys)
    (hb : ∀ a c, g.arcs.get? a = some c → 0 ≤ fl flow a ∧ fl flow a ≤ c) :
    ∃ r, createResidual g flow = .ok r ∧ ∀ u v, (u, v) ∈ r.arcs.keys ↔ Slack g (fl flow) u v := by
  have n1 : ¬ flow.any (fun p => !g.arcs.has p.1 || decide (p.2 < 0)) = true := by
    rw [List.any_eq_true]
    rintro ⟨⟨b, x⟩, hm, hbad⟩
    have h1 := Dict.get?_of_mem hf hm
    have h2 := hk b (Dict.mem_keys_of_get? h1)
    obtain ⟨c, hc⟩ := Dict.exists_get?_of_mem h2
    have h3 := (hb b c hc).1
    rw [fl, h1] at h3
    simp [Dict.has_iff.mpr h2] at hbad
    exact absurd hbad (not_lt.mpr h3)
  have n2 : ¬ g.arcs.values.any (fun w => decide (w < 0)) = true := by
    rw [List.any_eq_true]
    rintro ⟨w, hw, hbad⟩
    obtain ⟨⟨b, w'⟩, hm, rfl⟩ := List.mem_map.mp hw
    have := hb b w' (Dict.get?_of_mem h.arcsWF hm)
    exact absurd (of_decide_eq_true hbad) (not_lt.mpr (le_trans this.1 this.2))
  obtain ⟨r, h1, h2, h3⟩ := resLoop_keys flow g.arcs [] RWF_nil fun a c hm => (hb a c (Dict.get?_of_mem h.arcsWF hm)).2
  have hmem : ∀ (b : Arc) c, (b, c) ∈ g.arcs ↔ g.arcs.get? b = some c := fun b c =>
    ⟨fun hm => Dict.get?_of_mem h.arcsWF hm, fun hm => Dict.mem_of_get? hm⟩
  have hkeys : ∀ u v, (u, v) ∈ (flattenResid r).keys ↔ Slack g (fl flow) u v := by
    intro u v
    have : (u, v) ∈ (flattenResid r).keys ↔ (lookup r u v).isSome := by
      rw [← not_iff_not, ← Dict.get?_eq_none_iff, flatten_get? h2]
      cases lookup r u v <;> simp
    rw [this, h3]
    unfold Slack
    simp only [hmem]
    simp [lookup, Dict.get?]
  have hloop : ∀ u v, (u, v) ∈ (flattenResid r).keys → u ≠ v := by
    intro u v huv
    rcases (hkeys u v).mp huv with ⟨c, hc, _⟩ | ⟨c, hc, _⟩
    · exact h.noLoop u v (Dict.mem_keys_of_get? hc)
    · exact (h.noLoop v u (Dict.mem_keys_of_get? hc)).symm
  obtain ⟨g', e1, e2, -⟩ := ctorArcs_ok DWF_empty (flattenResid r) (flatten_WF r) hloop
  refine ⟨g', ?_, fun u v => ?_⟩
  · unfold createResidual computeResidual
    rw [if_neg n1, if_neg n2, h1]
    simp [ctor, ctorGraph, e1, ctorNodes]
  · rw [← hkeys, ← not_iff_not, ← Dict.get?_eq_none_iff, ← Dict.get?_eq_none_iff, e2]
    simp [Digraph.empty, Dict.get?]

end Directed
end Pytimize
