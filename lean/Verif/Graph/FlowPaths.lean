/-
Flows in whole numbers as families of paths: the decomposition of a flow and the flow of a family.
-/
import Verif.Graph.FlowTheory
import Mathlib.Algebra.BigOperators.Group.List.Lemmas

namespace Pytimize
namespace Directed
open Finset

/-- A walk from `s` to `t` along arcs in `A`. -/
inductive ArcWalk (A : Arc → Prop) : Name → Name → List Arc → Prop
  | nil (s : Name) : ArcWalk A s s []
  | cons {s t u : Name} {p : List Arc} (h : A (s, u)) (hp : ArcWalk A u t p) : ArcWalk A s t ((s, u) :: p)

theorem ArcWalk.mono {A B : Arc → Prop} {s t : Name} {p : List Arc} (h : ArcWalk A s t p) (hB : ∀ a ∈ p, B a) :
    ArcWalk B s t p := by
  induction h with
  | nil s => exact .nil s
  | cons h hp ih => exact .cons (hB _ (List.mem_cons_self ..)) (ih fun a ha => hB a (List.mem_cons_of_mem _ ha))

theorem ArcWalk.arcs {A : Arc → Prop} {s t : Name} {p : List Arc} (h : ArcWalk A s t p) : ∀ a ∈ p, A a := by
  induction h with
  | nil s => simp
  | cons h hp ih => exact List.forall_mem_cons.mpr ⟨h, ih⟩

theorem ArcWalk.snoc {A : Arc → Prop} {s t u : Name} {p : List Arc} (h : ArcWalk A s t p) (ha : A (t, u)) :
    ArcWalk A s u (p ++ [(t, u)]) := by
  induction h with
  | nil s => exact .cons ha (.nil u)
  | cons h hp ih => exact .cons h (ih ha)

theorem ArcWalk.suffix {A : Arc → Prop} {t : Name} {a : Arc} {l₂ : List Arc} : ∀ {l₁ : List Arc} {s : Name},
    ArcWalk A s t (l₁ ++ a :: l₂) → ArcWalk A a.1 t (a :: l₂)
  | [], _, h => by cases h with | cons h hp => exact .cons h hp
  | _ :: _, _, h => by cases h with | cons h hp => exact ArcWalk.suffix hp

/-- A walk can be shortened to one without repeated arcs. -/
theorem ArcWalk.nodup {A : Arc → Prop} {s t : Name} {p : List Arc} (h : ArcWalk A s t p) :
    ∃ q, ArcWalk A s t q ∧ q.Nodup := by
  induction h with
  | nil s => exact ⟨[], .nil s, List.nodup_nil⟩
  | @cons s t u p h hp ih =>
    obtain ⟨q, hq, hn⟩ := ih
    by_cases hm : (s, u) ∈ q
    · obtain ⟨l₁, l₂, rfl⟩ := List.append_of_mem hm
      exact ⟨(s, u) :: l₂, hq.suffix, (List.nodup_append.mp hn).2.1⟩
    · exact ⟨(s, u) :: q, .cons h hq, List.nodup_cons.mpr ⟨hm, hn⟩⟩

/-- The net inflow of a walk. -/
theorem ArcWalk.net {g : Digraph} {s t : Name} {p : List Arc} (h : ArcWalk (· ∈ g.arcs.keys) s t p) (v : Name) :
    Directed.net g (fun a => (p.count a : ℚ)) v = (if v = t then 1 else 0) - if v = s then 1 else 0 := by
  induction h with
  | nil s => simp [net_eq]
  | @cons s t u p h hp ih =>
    rw [net_eq] at ih ⊢
    have e : ∀ a : Arc, (((s, u) :: p).count a : ℚ) = p.count a + if a = (s, u) then 1 else 0 := by
      intro a
      rw [List.count_cons]
      push_cast
      congr 1
      simp only [beq_iff_eq, eq_comm (a := a)]
    simp only [e, add_mul, sum_add_distrib, ih]
    have hm : (s, u) ∈ arcSet g := mem_arcSet.mpr h
    have e2 : ∑ a ∈ arcSet g, (if a = (s, u) then (1 : ℚ) else 0) *
        ((if a.2 = v then 1 else 0) - if a.1 = v then 1 else 0) =
        (if u = v then 1 else 0) - if s = v then 1 else 0 := by
      simp only [ite_mul, one_mul, zero_mul]
      rw [sum_ite_eq', if_pos hm]
    rw [e2]
    simp only [eq_comm (a := v)]
    ring

theorem net_sub (g : Digraph) (f h : Arc → ℚ) (v : Name) : net g (fun a => f a - h a) v = net g f v - net g h v := by
  simp only [net_eq, sub_mul, sum_sub_distrib]

theorem value_eq_net (g : Digraph) (s : Name) (f : Arc → ℚ) : value g s f = -net g f s := by
  unfold value net; ring

/-- A flow of positive value has a walk from `s` to `t` along arcs with flow. -/
theorem exists_arcWalk {g : Digraph} (hg : DWF g) {s t : Name} {f : Arc → ℚ} (hs : s ∈ g.nodes.keys)
    (h0 : ∀ a ∈ g.arcs.keys, 0 ≤ f a)
    (hf : ∀ v ∈ g.nodes.keys, v ≠ s → v ≠ t → inflow g f v = outflow g f v) (hv : 0 < value g s f) :
    ∃ p, ArcWalk (fun a => a ∈ g.arcs.keys ∧ 0 < f a) s t p ∧ p.Nodup := by
  classical
  by_contra hno
  have hno' : ¬ ∃ p, ArcWalk (fun a => a ∈ g.arcs.keys ∧ 0 < f a) s t p := fun ⟨p, hp⟩ => hno hp.nodup
  let S : Finset Name := g.nodes.keys.toFinset.filter fun v => ∃ p, ArcWalk (fun a => a ∈ g.arcs.keys ∧ 0 < f a) s v p
  have hmem : ∀ v, v ∈ S ↔ v ∈ g.nodes.keys ∧ ∃ p, ArcWalk (fun a => a ∈ g.arcs.keys ∧ 0 < f a) s v p := by
    intro v; simp [S]
  have h1 := value_eq_cut hf S (fun v hv => ((hmem v).mp hv).1) ((hmem s).mpr ⟨hs, [], .nil s⟩)
    (fun h => hno' ((hmem t).mp h).2)
  have h2 : ∑ a ∈ arcSet g with a.1 ∈ S ∧ a.2 ∉ S, f a = 0 := by
    refine sum_eq_zero fun a ha => ?_
    obtain ⟨ha1, ha2, ha3⟩ := mem_filter.mp ha
    have hm := mem_arcSet.mp ha1
    by_contra hne
    obtain ⟨-, p, hp⟩ := (hmem _).mp ha2
    exact ha3 ((hmem _).mpr ⟨hg.endsHead a.1 a.2 hm, _, hp.snoc ⟨hm, lt_of_le_of_ne (h0 a hm) (Ne.symm hne)⟩⟩)
  have h3 : 0 ≤ ∑ a ∈ arcSet g with a.2 ∈ S ∧ a.1 ∉ S, f a :=
    sum_nonneg fun a ha => h0 a (mem_arcSet.mp (mem_filter.mp ha).1)
  linarith

/-- A flow of value `k` in whole numbers contains `k` walks. -/
theorem decompose {g : Digraph} (hg : DWF g) {s t : Name} (hst : s ≠ t) (hs : s ∈ g.nodes.keys) :
    ∀ (k : ℕ) (f : Arc → ℚ), (∀ a ∈ g.arcs.keys, ∃ n : ℕ, f a = n) →
      (∀ v ∈ g.nodes.keys, v ≠ s → v ≠ t → inflow g f v = outflow g f v) → value g s f = k →
      ∃ ps : List (List Arc), ps.length = k ∧ (∀ p ∈ ps, ArcWalk (· ∈ g.arcs.keys) s t p ∧ p.Nodup) ∧
        ∀ a ∈ g.arcs.keys, (ps.flatten.count a : ℚ) ≤ f a
  | 0, f, hn, _, _ => ⟨[], rfl, by simp, fun a ha => by
      obtain ⟨n, h⟩ := hn a ha
      rw [h]; simp⟩
  | k + 1, f, hn, hf, hv => by
    obtain ⟨p, hp, hnd⟩ := exists_arcWalk hg hs (fun a ha => by
      obtain ⟨n, h⟩ := hn a ha
      rw [h]; positivity) hf (by rw [hv]; positivity)
    have hp' : ArcWalk (· ∈ g.arcs.keys) s t p := hp.mono fun a ha => (hp.arcs a ha).1
    have hle : ∀ a ∈ g.arcs.keys, ∃ n : ℕ, f a - p.count a = n := by
      intro a ha
      obtain ⟨n, h⟩ := hn a ha
      by_cases hm : a ∈ p
      · have h1 := (hp.arcs a hm).2
        rw [h] at h1
        have h2 : 0 < n := by exact_mod_cast h1
        refine ⟨n - 1, ?_⟩
        rw [h, List.count_eq_one_of_mem hnd hm]
        push_cast [Nat.cast_sub (show 1 ≤ n from h2)]
        ring
      · exact ⟨n, by rw [h, List.count_eq_zero_of_not_mem hm]; simp⟩
    obtain ⟨ps, h1, h2, h3⟩ := decompose hg hst hs k (fun a => f a - p.count a) hle
      (fun v hv' h1 h2 => by
        have e := net_sub g f (fun a => (p.count a : ℚ)) v
        rw [hp'.net, if_neg h2, if_neg h1] at e
        have := hf v hv' h1 h2
        unfold net at e
        linarith)
      (by
        rw [value_eq_net, net_sub, hp'.net, if_neg hst, if_pos rfl]
        rw [value_eq_net] at hv
        push_cast at hv
        linarith)
    refine ⟨p :: ps, by rw [List.length_cons, h1], List.forall_mem_cons.mpr ⟨⟨hp', hnd⟩, h2⟩, fun a ha => ?_⟩
    have := h3 a ha
    rw [List.flatten_cons, List.count_append]
    push_cast
    linarith

/-- The net inflow of a family of walks. -/
theorem net_family {g : Digraph} {s t : Name} : ∀ {ps : List (List Arc)},
    (∀ p ∈ ps, ArcWalk (· ∈ g.arcs.keys) s t p) → ∀ v, net g (fun a => (ps.flatten.count a : ℚ)) v =
      ps.length * ((if v = t then 1 else 0) - if v = s then 1 else 0)
  | [], _, v => by simp [net_eq]
  | p :: ps, h, v => by
    have h1 := (h p (List.mem_cons_self ..)).net v
    have h2 := net_family (fun q hq => h q (List.mem_cons_of_mem _ hq)) v
    have e : net g (fun a => ((p :: ps).flatten.count a : ℚ)) v =
        net g (fun a => (p.count a : ℚ)) v + net g (fun a => (ps.flatten.count a : ℚ)) v := by
      simp only [net_eq, List.flatten_cons, List.count_append, Nat.cast_add, add_mul, sum_add_distrib]
    rw [e, h1, h2, List.length_cons]
    push_cast
    ring

/-- The flow of a family of walks. -/
theorem family_feasible {g : Digraph} {s t : Name} (hst : s ≠ t) {ps : List (List Arc)}
    (h : ∀ p ∈ ps, ArcWalk (· ∈ g.arcs.keys) s t p)
    (hc : ∀ a c, g.arcs.get? a = some c → (ps.flatten.count a : ℚ) ≤ c) :
    Feasible g s t (fun a => (ps.flatten.count a : ℚ)) ∧ value g s (fun a => (ps.flatten.count a : ℚ)) = ps.length := by
  refine ⟨⟨fun a c _ => by positivity, hc, fun v _ h1 h2 => ?_⟩, ?_⟩
  · have := net_family h v
    rw [if_neg h1, if_neg h2] at this
    unfold net at this
    linarith
  · rw [value_eq_net, net_family h, if_neg hst, if_pos rfl]
    ring

end Directed
end Pytimize
