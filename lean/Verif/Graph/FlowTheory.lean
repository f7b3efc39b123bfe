/-
Network flow theory over the arc dictionary of a digraph: the specification of feasible flows and
their value, weak duality against cuts, and the optimality criterion used for both algorithms.
-/
import Verif.Graph.Resid
import Mathlib.Algebra.BigOperators.Group.Finset.Basic
import Mathlib.Algebra.BigOperators.Group.Finset.Piecewise
import Mathlib.Algebra.BigOperators.Ring.Finset
import Mathlib.Algebra.Order.BigOperators.Group.Finset
import Mathlib.Algebra.Group.Subgroup.ZPowers.Basic
import Mathlib.Algebra.Group.Submonoid.BigOperators
import Mathlib.Tactic.Linarith
import Mathlib.Tactic.Ring
import Mathlib.Tactic.FieldSimp
import Mathlib.Tactic.Positivity

namespace Pytimize
namespace Directed
open Finset

/-! ### Specification -/

/-- The arcs of the digraph. -/
def arcSet (g : Digraph) : Finset Arc := g.arcs.keys.toFinset

/-- Total flow on the arcs entering `v`. -/
def inflow (g : Digraph) (f : Arc → ℚ) (v : Name) : ℚ := ∑ a ∈ arcSet g with a.2 = v, f a

/-- Total flow on the arcs leaving `v`. -/
def outflow (g : Digraph) (f : Arc → ℚ) (v : Name) : ℚ := ∑ a ∈ arcSet g with a.1 = v, f a

/-- A feasible `s`-`t` flow: `0 ≤ f ≤ capacity` on every arc and conservation at every node other
than `s` and `t`. -/
structure Feasible (g : Digraph) (s t : Name) (f : Arc → ℚ) : Prop where
  nonneg : ∀ a c, g.arcs.get? a = some c → 0 ≤ f a
  cap : ∀ a c, g.arcs.get? a = some c → f a ≤ c
  cons : ∀ v ∈ g.nodes.keys, v ≠ s → v ≠ t → inflow g f v = outflow g f v

/-- The value of a flow: net flow out of the source. -/
def value (g : Digraph) (s : Name) (f : Arc → ℚ) : ℚ := outflow g f s - inflow g f s

/-- The capacity of the cut given by a set of nodes. -/
def cutCapacity (g : Digraph) (S : Finset Name) : ℚ :=
  ∑ a ∈ arcSet g with a.1 ∈ S ∧ a.2 ∉ S, (g.arcs.get? a).getD 0

/-! ### Net inflow -/

/-- Net inflow. -/
def net (g : Digraph) (f : Arc → ℚ) (v : Name) : ℚ := inflow g f v - outflow g f v

theorem net_eq (g : Digraph) (f : Arc → ℚ) (v : Name) :
    net g f v = ∑ a ∈ arcSet g, f a * ((if a.2 = v then 1 else 0) - (if a.1 = v then 1 else 0)) := by
  unfold net inflow outflow
  rw [sum_filter, sum_filter, ← sum_sub_distrib]
  refine sum_congr rfl fun a _ => ?_
  split <;> split <;> ring

theorem mem_arcSet {g : Digraph} {a : Arc} : a ∈ arcSet g ↔ a ∈ g.arcs.keys := List.mem_toFinset

/-- Sum of net inflows over a set of nodes. -/
theorem sum_net {g : Digraph} (f : Arc → ℚ) (S : Finset Name) :
    ∑ v ∈ S, net g f v =
      (∑ a ∈ arcSet g with a.2 ∈ S ∧ a.1 ∉ S, f a) - ∑ a ∈ arcSet g with a.1 ∈ S ∧ a.2 ∉ S, f a := by
  simp only [net_eq]
  rw [sum_comm]
  have : ∀ a ∈ arcSet g, ∑ v ∈ S, f a * ((if a.2 = v then 1 else 0) - (if a.1 = v then 1 else 0)) =
      (if a.2 ∈ S ∧ a.1 ∉ S then f a else 0) - (if a.1 ∈ S ∧ a.2 ∉ S then f a else 0) := by
    intro a _
    rw [← mul_sum, sum_sub_distrib, sum_ite_eq, sum_ite_eq]
    by_cases h1 : a.1 ∈ S <;> by_cases h2 : a.2 ∈ S <;> simp [h1, h2]
  rw [sum_congr rfl this, sum_sub_distrib, sum_filter, sum_filter]

/-- The value of a flow across any cut. -/
theorem value_eq_cut {g : Digraph} {s t : Name} {f : Arc → ℚ}
    (hf : ∀ v ∈ g.nodes.keys, v ≠ s → v ≠ t → inflow g f v = outflow g f v) (S : Finset Name)
    (hS : ∀ v ∈ S, v ∈ g.nodes.keys) (hs : s ∈ S) (ht : t ∉ S) :
    value g s f =
      (∑ a ∈ arcSet g with a.1 ∈ S ∧ a.2 ∉ S, f a) - ∑ a ∈ arcSet g with a.2 ∈ S ∧ a.1 ∉ S, f a := by
  have h1 : ∑ v ∈ S, net g f v = net g f s := by
    refine sum_eq_single s (fun v hv hvs => ?_) (fun h => absurd hs h)
    have hvt : v ≠ t := fun h => ht (h ▸ hv)
    unfold net
    rw [hf v (hS v hv) hvs hvt, sub_self]
  have h2 := sum_net (g := g) f S
  rw [h1] at h2
  unfold value
  unfold net at h2
  linarith

theorem cap_of_mem {g : Digraph} {a : Arc} (ha : a ∈ g.arcs.keys) :
    g.arcs.get? a = some ((g.arcs.get? a).getD 0) := by
  obtain ⟨c, hc⟩ := Dict.exists_get?_of_mem ha
  simp [hc]

/-- Weak duality: no feasible flow exceeds a cut. -/
theorem value_le_cut {g : Digraph} {s t : Name} {f : Arc → ℚ} (hf : Feasible g s t f)
    (S : Finset Name) (hS : ∀ v ∈ S, v ∈ g.nodes.keys) (hs : s ∈ S) (ht : t ∉ S) :
    value g s f ≤ cutCapacity g S := by
  rw [value_eq_cut hf.cons S hS hs ht]
  have h1 : ∑ a ∈ arcSet g with a.1 ∈ S ∧ a.2 ∉ S, f a ≤ cutCapacity g S := by
    refine sum_le_sum fun a ha => ?_
    exact hf.cap a _ (cap_of_mem (mem_arcSet.mp (mem_filter.mp ha).1))
  have h2 : 0 ≤ ∑ a ∈ arcSet g with a.2 ∈ S ∧ a.1 ∉ S, f a := by
    refine sum_nonneg fun a ha => ?_
    exact hf.nonneg a _ (cap_of_mem (mem_arcSet.mp (mem_filter.mp ha).1))
  linarith

/-- If a set containing `s` but not `t` is closed in the residual network of `f`, then `f` has the
value of that cut. -/
theorem value_eq_of_closed {g : Digraph} (hna : NoAnti g.arcs) {s t : Name} {f : Arc → ℚ}
    (hf : Feasible g s t f) (S : Finset Name) (hS : ∀ v ∈ S, v ∈ g.nodes.keys) (hs : s ∈ S)
    (ht : t ∉ S)
    (hcl : ∀ u v, u ∈ S → v ∉ S → residSpec g.arcs f u v = none) :
    value g s f = cutCapacity g S := by
  rw [value_eq_cut hf.cons S hS hs ht]
  have h1 : ∑ a ∈ arcSet g with a.1 ∈ S ∧ a.2 ∉ S, f a = cutCapacity g S := by
    refine sum_congr rfl fun a ha => ?_
    obtain ⟨u, v⟩ := a
    obtain ⟨h1, h2, h3⟩ := mem_filter.mp ha
    have hc := cap_of_mem (mem_arcSet.mp h1)
    have := hcl u v h2 h3
    unfold residSpec at this
    rw [hc] at this
    simp only at this
    split at this
    · cases this
    · rename_i hlt
      exact le_antisymm (hf.cap _ _ hc) (not_lt.mp hlt)
  have h2 : ∑ a ∈ arcSet g with a.2 ∈ S ∧ a.1 ∉ S, f a = 0 := by
    refine sum_eq_zero fun a ha => ?_
    obtain ⟨u, v⟩ := a
    obtain ⟨h1, h2, h3⟩ := mem_filter.mp ha
    have hm := mem_arcSet.mp h1
    have hc := cap_of_mem hm
    have := hcl v u h2 h3
    unfold residSpec at this
    rw [Dict.get?_eq_none_iff.mpr (hna u v hm)] at this
    simp only at this
    split at this
    · cases this
    · rename_i hlt
      have h0 := hf.nonneg _ _ hc
      by_contra hne
      exact hlt ⟨hm, lt_of_le_of_ne h0 (Ne.symm hne)⟩
  rw [h1, h2, sub_zero]

/-! ### Changing one arc -/

theorem fl_set (flow : Flow) (a b : Arc) (x : ℚ) :
    fl (flow.set a x) b = if a = b then x else fl flow b := by
  unfold fl
  rw [Dict.get?_set]
  split <;> rfl

theorem net_set {g : Digraph} {flow : Flow} {a : Arc} (ha : a ∈ g.arcs.keys) (x : ℚ) (w : Name) :
    net g (fl (flow.set a x)) w = net g (fl flow) w +
      (x - fl flow a) * ((if a.2 = w then 1 else 0) - (if a.1 = w then 1 else 0)) := by
  rw [net_eq, net_eq]
  have h : ∀ b ∈ arcSet g,
      fl (flow.set a x) b * ((if b.2 = w then 1 else 0) - (if b.1 = w then 1 else 0)) =
      fl flow b * ((if b.2 = w then 1 else 0) - (if b.1 = w then 1 else 0)) +
      if a = b then (x - fl flow a) * ((if a.2 = w then 1 else 0) - (if a.1 = w then 1 else 0))
      else 0 := by
    intro b _
    rw [fl_set]
    by_cases hab : a = b
    · subst hab; simp only [if_true]; ring
    · simp [hab]
  rw [sum_congr rfl h, sum_add_distrib, sum_ite_eq, if_pos (mem_arcSet.mpr ha)]

/-! ### The code's sums -/

theorem sumFlow_eq {l : List Arc} (h : l.Nodup) (flow : Flow) :
    sumFlow flow l = ∑ a ∈ l.toFinset, fl flow a := by
  rw [List.sum_toFinset _ h]
  rfl

theorem cut_name_toFinset {g : Digraph} (h : DWF g) {v : Name} (hv : chars v = [v]) :
    (cut g (.name v)).toFinset = (arcSet g).filter (fun a => a.1 = v) := by
  ext ⟨x, y⟩
  have hset : (NodeArg.name v).toSet = [v] := hv
  simp only [cut, List.mem_toFinset, List.mem_filter, Bool.and_eq_true, decide_eq_true_eq,
    mem_filter, mem_arcSet, hset, List.mem_singleton]
  constructor
  · rintro ⟨h1, h2, _⟩; exact ⟨h1, h2⟩
  · rintro ⟨h1, rfl⟩; exact ⟨h1, rfl, (h.noLoop _ _ h1).symm⟩

theorem ncut_name_toFinset {g : Digraph} (h : DWF g) {v : Name} (hv : chars v = [v]) :
    (ncut g (.name v)).toFinset = (arcSet g).filter (fun a => a.2 = v) := by
  ext ⟨x, y⟩
  have hset : (NodeArg.name v).toSet = [v] := hv
  simp only [ncut, List.mem_toFinset, List.mem_filter, Bool.and_eq_true, decide_eq_true_eq,
    mem_filter, mem_arcSet, hset, List.mem_singleton]
  constructor
  · rintro ⟨h1, h2, _⟩; exact ⟨h1, h2⟩
  · rintro ⟨h1, rfl⟩; exact ⟨h1, rfl, (h.noLoop _ _ h1)⟩

theorem sum_cut_name {g : Digraph} (h : DWF g) {v : Name} (hv : chars v = [v]) (flow : Flow) :
    sumFlow flow (cut g (.name v)) = outflow g (fl flow) v := by
  rw [sumFlow_eq (l := cut g (.name v)) (List.Nodup.filter _ h.arcsWF), cut_name_toFinset h hv]
  rfl

theorem sum_ncut_name {g : Digraph} (h : DWF g) {v : Name} (hv : chars v = [v]) (flow : Flow) :
    sumFlow flow (ncut g (.name v)) = inflow g (fl flow) v := by
  rw [sumFlow_eq (l := ncut g (.name v)) (List.Nodup.filter _ h.arcsWF), ncut_name_toFinset h hv]
  rfl

theorem flowValue_eq {g : Digraph} (h : DWF g) {s : Name} (hs : chars s = [s]) (flow : Flow) :
    flowValue g s flow = value g s (fl flow) := by
  unfold flowValue value
  rw [sum_cut_name h hs, sum_ncut_name h hs]

/-! ### Common denominators -/

/-- Multiples of `1/D`. -/
def Grid (D : ℕ) : AddSubgroup ℚ := AddSubgroup.zmultiples (1 / (D : ℚ))

theorem grid_pos {D : ℕ} (hD : 0 < D) {q : ℚ} (hq : q ∈ Grid D) (h : 0 < q) : 1 / (D : ℚ) ≤ q := by
  obtain ⟨k, hk⟩ := AddSubgroup.mem_zmultiples_iff.mp hq
  have hD' : (0 : ℚ) < 1 / D := by positivity
  have hk' : (k : ℚ) * (1 / D) = q := by rw [← hk]; simp
  have hkpos : (0 : ℚ) < k := by
    by_contra hc
    have : (k : ℚ) * (1 / D) ≤ 0 := mul_nonpos_of_nonpos_of_nonneg (not_lt.mp hc) hD'.le
    linarith
  have hk1 : (1 : ℤ) ≤ k := by
    have : (0 : ℤ) < k := by exact_mod_cast hkpos
    omega
  have : (1 : ℚ) ≤ k := by exact_mod_cast hk1
  calc 1 / (D : ℚ) = 1 * (1 / D) := by ring
    _ ≤ k * (1 / D) := mul_le_mul_of_nonneg_right this hD'.le
    _ = q := hk'

theorem mem_grid_of_dvd {D : ℕ} (hD : 0 < D) {q : ℚ} (h : q.den ∣ D) : q ∈ Grid D := by
  obtain ⟨m, hm⟩ := h
  refine AddSubgroup.mem_zmultiples_iff.mpr ⟨q.num * m, ?_⟩
  have hd : (q.den : ℚ) ≠ 0 := by exact_mod_cast q.den_nz
  have hm0 : (m : ℚ) ≠ 0 := by
    rintro h0
    have : m = 0 := by exact_mod_cast h0
    subst this; omega
  rw [zsmul_eq_mul, hm]
  push_cast
  conv_rhs => rw [← Rat.num_div_den q]
  field_simp

/-- A common denominator of all capacities. -/
theorem exists_denominator (arcs : Dict Arc ℚ) :
    ∃ D : ℕ, 0 < D ∧ ∀ a c, arcs.get? a = some c → c ∈ Grid D := by
  have key : ∀ l : Dict Arc ℚ, ∃ D : ℕ, 0 < D ∧ ∀ p ∈ l, (p : Arc × ℚ).2.den ∣ D := by
    intro l
    induction l with
    | nil => exact ⟨1, one_pos, by simp⟩
    | cons p l ih =>
      obtain ⟨D, hD, h⟩ := ih
      refine ⟨p.2.den * D, Nat.mul_pos p.2.den_pos hD, ?_⟩
      intro q hq
      rcases List.mem_cons.mp hq with rfl | hq
      · exact Dvd.intro _ rfl
      · exact (h q hq).trans (Dvd.intro_left _ rfl)
  obtain ⟨D, hD, h⟩ := key arcs
  exact ⟨D, hD, fun a c hac => mem_grid_of_dvd hD (h _ (Dict.mem_of_get? hac))⟩

theorem net_mem_grid {g : Digraph} {D : ℕ} {f : Arc → ℚ} (hf : ∀ a ∈ g.arcs.keys, f a ∈ Grid D)
    (v : Name) : net g f v ∈ Grid D := by
  unfold net inflow outflow
  refine AddSubgroup.sub_mem _ (sum_mem fun a ha => ?_)
    (sum_mem fun a ha => ?_)
  · exact hf a (mem_arcSet.mp (mem_filter.mp ha).1)
  · exact hf a (mem_arcSet.mp (mem_filter.mp ha).1)

end Directed
end Pytimize
