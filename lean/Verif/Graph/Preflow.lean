/-
Invariants and termination of `preflow_push`.
-/
import Verif.Graph.FordFulkerson
import Mathlib.Data.Prod.Lex
import Mathlib.Order.WellFounded
import Mathlib.Data.Finset.Card
import Mathlib.Order.Interval.Finset.Nat
import Mathlib.Algebra.Order.BigOperators.Group.Finset
import Mathlib.Algebra.Order.Floor.Semiring

namespace Pytimize
namespace Directed

open Finset

/-- The height of a node. -/
def hgt (h : Dict Name ℕ) (v : Name) : ℕ := (h.get? v).getD 0

theorem mem_inner {g : Digraph} {s t v : Name} :
    v ∈ innerNodes g s t ↔ v ∈ g.nodes.keys ∧ v ≠ s ∧ v ≠ t := by
  unfold innerNodes
  simp [List.mem_filter]

theorem inner_nodup {g : Digraph} (hg : DWF g) (s t : Name) : (innerNodes g s t).Nodup :=
  List.Nodup.filter _ hg.nodesWF

/-- Invariant of the main loop. -/
structure PInv (g : Digraph) (s t : Name) (D : ℕ) (st : PState) : Prop where
  keys : st.flow.keys = g.arcs.keys
  rwf : RWF st.residual
  res : ∀ u v, lookup st.residual u v = residSpec g.arcs (fl st.flow) u v
  nonneg : ∀ a c, g.arcs.get? a = some c → 0 ≤ fl st.flow a
  cap : ∀ a c, g.arcs.get? a = some c → fl st.flow a ≤ c
  exc : ∀ v ∈ innerNodes g s t, st.excess.get? v = some (net g (fl st.flow) v)
  excNonneg : ∀ v ∈ innerNodes g s t, 0 ≤ net g (fl st.flow) v
  hkeys : ∀ v, v ∈ st.height.keys ↔ v ∈ g.nodes.keys
  hsrc : hgt st.height s = g.nodes.length
  hsink : hgt st.height t = 0
  label : ∀ u v, lookup st.residual u v ≠ none → hgt st.height u ≤ hgt st.height v + 1
  grid : ∀ a ∈ g.arcs.keys, fl st.flow a ∈ Grid D
  done : ∀ i < st.index, ∀ v, (innerNodes g s t)[i]? = some v → net g (fl st.flow) v ≤ 0
  val : st.value = none ∨ st.value = some (flowValue g s st.flow)

theorem residSpec_joined {g : Digraph} {f : Arc → ℚ} {u v : Name}
    (h : residSpec g.arcs f u v ≠ none) : Joined g u v := by
  unfold residSpec at h
  cases hc : g.arcs.get? (u, v) with
  | some c => exact Or.inl (Dict.mem_keys_of_get? hc)
  | none =>
    rw [hc] at h
    simp only at h
    split at h
    · rename_i hq; exact Or.inr hq.1
    · exact absurd rfl h

theorem residSpec_backward {arcs : Dict Arc ℚ} {f : Arc → ℚ} {u v : Name} {x : ℚ}
    (hm : (u, v) ∉ arcs.keys) (h : residSpec arcs f u v = some x) :
    (v, u) ∈ arcs.keys ∧ x = f (v, u) ∧ 0 < x := by
  unfold residSpec at h
  rw [Dict.get?_eq_none_iff.mpr hm] at h
  simp only at h
  split at h
  · rename_i hq
    cases h
    exact ⟨hq.1, rfl, hq.2⟩
  · cases h

/-! ### Counting levels -/

theorem inner_card {g : Digraph} (hg : DWF g) {s t : Name} (hst : s ≠ t) (hs : s ∈ g.nodes.keys)
    (ht : t ∈ g.nodes.keys) : (innerNodes g s t).toFinset.card + 2 ≤ g.nodes.length := by
  have h1 : insert s (insert t (innerNodes g s t).toFinset) ⊆ g.nodes.keys.toFinset := by
    intro x hx
    simp only [mem_insert, List.mem_toFinset, mem_inner] at hx ⊢
    rcases hx with rfl | rfl | hx
    · exact hs
    · exact ht
    · exact hx.1
  have h2 := card_le_card h1
  rw [card_insert_of_notMem, card_insert_of_notMem] at h2
  · have h3 := List.toFinset_card_le g.nodes.keys
    rw [keys_length] at h3
    omega
  · simp [mem_inner]
  · simp [mem_inner, hst]

/-- An unused level among `a, …, a + n - 2`. -/
theorem empty_level {g : Digraph} (hg : DWF g) {s t : Name} (hst : s ≠ t) (hs : s ∈ g.nodes.keys)
    (ht : t ∈ g.nodes.keys) (h : Name → ℕ) (a : ℕ) :
    ∃ k, a ≤ k ∧ k + 2 ≤ a + g.nodes.length ∧ ∀ v ∈ innerNodes g s t, h v ≠ k := by
  have hc := inner_card hg hst hs ht
  have hlt : ((innerNodes g s t).toFinset.image h).card <
      (Finset.Ico a (a + g.nodes.length - 1)).card := by
    rw [Nat.card_Ico]
    have := card_image_le (s := (innerNodes g s t).toFinset) (f := h)
    omega
  obtain ⟨k, hk1, hk2⟩ := exists_mem_notMem_of_card_lt_card hlt
  rw [Finset.mem_Ico] at hk1
  refine ⟨k, hk1.1, by omega, fun v hv hvk => hk2 ?_⟩
  exact mem_image.mpr ⟨v, by simpa using hv, hvk⟩

/-- The set of nodes above an unused level is closed. -/
theorem closed_above {g : Digraph} (hg : DWF g) {s t : Name} {f : Arc → ℚ} {h : Name → ℕ} {k : ℕ}
    (hk : ∀ v ∈ g.nodes.keys, h v ≠ k)
    (label : ∀ u v, residSpec g.arcs f u v ≠ none → h u ≤ h v + 1) (u v : Name)
    (hu : u ∈ g.nodes.keys.toFinset.filter (fun w => k < h w))
    (hv : v ∉ g.nodes.keys.toFinset.filter (fun w => k < h w)) :
    residSpec g.arcs f u v = none := by
  by_contra hc
  have h1 := label u v hc
  have h2 := (joined_nodes hg (residSpec_joined hc)).2.1
  have h3 := hk v h2
  simp only [mem_filter, List.mem_toFinset] at hu hv
  have h4 : ¬ k < h v := fun h5 => hv ⟨h2, h5⟩
  omega

/-- Active nodes stay below `2n`. -/
theorem height_bound {g : Digraph} (hg : DWF g) (hna : NoAnti g.arcs) {s t : Name} (hst : s ≠ t)
    (hs : s ∈ g.nodes.keys) (ht : t ∈ g.nodes.keys) {f : Arc → ℚ} {h : Name → ℕ}
    (hcap0 : ∀ a c, g.arcs.get? a = some c → 0 ≤ c)
    (nonneg : ∀ a c, g.arcs.get? a = some c → 0 ≤ f a)
    (cap : ∀ a c, g.arcs.get? a = some c → f a ≤ c)
    (excNonneg : ∀ v ∈ innerNodes g s t, 0 ≤ net g f v)
    (hsrc : h s = g.nodes.length) (hsink : h t = 0)
    (label : ∀ u v, residSpec g.arcs f u v ≠ none → h u ≤ h v + 1)
    {v : Name} (hv : v ∈ innerNodes g s t) (hact : 0 < net g f v) : h v < 2 * g.nodes.length := by
  by_contra hge
  have hn : 2 ≤ g.nodes.length := by have := inner_card hg hst hs ht; omega
  obtain ⟨k, hk1, hk2, hk3⟩ := empty_level hg hst hs ht h (g.nodes.length + 1)
  have hk : ∀ w ∈ g.nodes.keys, h w ≠ k := by
    intro w hw
    by_cases h1 : w = s
    · subst h1; omega
    · by_cases h2 : w = t
      · subst h2; omega
      · exact hk3 w (mem_inner.mpr ⟨hw, h1, h2⟩)
  have hcl := closed_above hg (s := s) (t := t) hk label
  generalize hU : g.nodes.keys.toFinset.filter (fun w => k < h w) = U at hcl
  have hmem : ∀ w, w ∈ U ↔ w ∈ g.nodes.keys ∧ k < h w := by
    intro w; rw [← hU]; simp
  have hUin : ∀ w ∈ U, w ∈ innerNodes g s t := by
    intro w hw
    obtain ⟨h1, h2⟩ := (hmem w).mp hw
    refine mem_inner.mpr ⟨h1, ?_, ?_⟩
    · rintro rfl; omega
    · rintro rfl; omega
  have hvU : v ∈ U := (hmem v).mpr ⟨(mem_inner.mp hv).1, by omega⟩
  have hpos : 0 < ∑ w ∈ U, net g f w :=
    sum_pos' (fun w hw => excNonneg w (hUin w hw)) ⟨v, hvU, hact⟩
  rw [sum_net] at hpos
  have h1 : ∑ a ∈ arcSet g with a.2 ∈ U ∧ a.1 ∉ U, f a = 0 := by
    refine sum_eq_zero fun a ha => ?_
    obtain ⟨ha1, ha2, ha3⟩ := mem_filter.mp ha
    have hm := mem_arcSet.mp ha1
    have hr := hcl a.2 a.1 ha2 ha3
    unfold residSpec at hr
    rw [Dict.get?_eq_none_iff.mpr (hna a.1 a.2 hm)] at hr
    simp only at hr
    split at hr
    · cases hr
    · rename_i hq
      obtain ⟨c, hc⟩ := Dict.exists_get?_of_mem hm
      have : ¬ 0 < f a := fun h0 => hq ⟨hm, h0⟩
      exact le_antisymm (not_lt.mp this) (nonneg a c hc)
  have h2 : 0 ≤ ∑ a ∈ arcSet g with a.1 ∈ U ∧ a.2 ∉ U, f a := by
    refine sum_nonneg fun a ha => ?_
    obtain ⟨c, hc⟩ := Dict.exists_get?_of_mem (mem_arcSet.mp (mem_filter.mp ha).1)
    exact nonneg a c hc
  linarith

/-- A node with positive excess has a residual arc. -/
theorem active_has_residual {g : Digraph} (hna : NoAnti g.arcs) {f : Arc → ℚ}
    (nonneg : ∀ a c, g.arcs.get? a = some c → 0 ≤ f a) {v : Name} (hact : 0 < net g f v) :
    ∃ u, residSpec g.arcs f v u ≠ none := by
  by_contra hc
  push Not at hc
  have h1 : inflow g f v = 0 := by
    refine sum_eq_zero fun a ha => ?_
    obtain ⟨ha1, rfl⟩ := mem_filter.mp ha
    have hm := mem_arcSet.mp ha1
    have hr := hc a.1
    unfold residSpec at hr
    rw [Dict.get?_eq_none_iff.mpr (hna a.1 a.2 hm)] at hr
    simp only at hr
    split at hr
    · cases hr
    · rename_i hq
      obtain ⟨c, hc⟩ := Dict.exists_get?_of_mem hm
      have : ¬ 0 < f a := fun h0 => hq ⟨hm, h0⟩
      exact le_antisymm (not_lt.mp this) (nonneg a c hc)
  have h2 : 0 ≤ outflow g f v := by
    refine sum_nonneg fun a ha => ?_
    obtain ⟨c, hc⟩ := Dict.exists_get?_of_mem (mem_arcSet.mp (mem_filter.mp ha).1)
    exact nonneg a c hc
  unfold net at hact
  linarith

/-- The final preflow saturates a cut. -/
theorem preflow_cut {g : Digraph} (hg : DWF g) (hna : NoAnti g.arcs) {s t : Name} (hst : s ≠ t)
    (hs : s ∈ g.nodes.keys) (ht : t ∈ g.nodes.keys) {f : Arc → ℚ} {h : Name → ℕ}
    (hf : Feasible g s t f) (hsrc : h s = g.nodes.length) (hsink : h t = 0)
    (label : ∀ u v, residSpec g.arcs f u v ≠ none → h u ≤ h v + 1) :
    ∃ S : Finset Name, (∀ v ∈ S, v ∈ g.nodes.keys) ∧ s ∈ S ∧ t ∉ S ∧ value g s f = cutCapacity g S := by
  have hn : 2 ≤ g.nodes.length := by have := inner_card hg hst hs ht; omega
  obtain ⟨k, hk1, hk2, hk3⟩ := empty_level hg hst hs ht h 1
  have hk : ∀ w ∈ g.nodes.keys, h w ≠ k := by
    intro w hw
    by_cases h1 : w = s
    · subst h1; omega
    · by_cases h2 : w = t
      · subst h2; omega
      · exact hk3 w (mem_inner.mpr ⟨hw, h1, h2⟩)
  refine ⟨g.nodes.keys.toFinset.filter (fun w => k < h w), by simp; tauto, ?_, ?_, ?_⟩
  · simp only [mem_filter, List.mem_toFinset]
    exact ⟨hs, by omega⟩
  · simp only [mem_filter, List.mem_toFinset]
    rintro ⟨_, h2⟩
    omega
  · refine value_eq_of_closed hna hf _ (by simp; tauto) ?_ ?_
      (fun u v hu hv => closed_above hg (s := s) (t := t) hk label u v hu hv)
    · simp only [mem_filter, List.mem_toFinset]
      exact ⟨hs, by omega⟩
    · simp only [mem_filter, List.mem_toFinset]
      rintro ⟨_, h2⟩
      omega

/-! ### Scanning a residual row -/

theorem findAdmissible_spec {height : Dict Name ℕ} (hn : ℕ) (l : List (Name × ℚ))
    (hl : ∀ p ∈ l, p.1 ∈ height.keys) :
    (∃ p ∈ l, hgt height p.1 + 1 = hn ∧ findAdmissible height hn l = .ok (some p)) ∨
    ((∀ p ∈ l, hgt height p.1 + 1 ≠ hn) ∧ findAdmissible height hn l = .ok none) := by
  induction l with
  | nil => right; exact ⟨by simp, rfl⟩
  | cons p l ih =>
    obtain ⟨e, x⟩ := p
    obtain ⟨he, hhe⟩ := Dict.exists_get?_of_mem (hl (e, x) (by simp))
    have hg : hgt height e = he := by simp [hgt, hhe]
    unfold findAdmissible
    simp only at hhe
    simp only [hhe]
    by_cases hc : (he : ℤ) = (hn : ℤ) - 1
    · left
      refine ⟨(e, x), by simp, ?_, if_pos hc⟩
      simp only [hg]; omega
    · rw [if_neg hc]
      rcases ih (fun p hp => hl p (List.mem_cons_of_mem _ hp)) with ⟨p, h1, h2, h3⟩ | ⟨h1, h2⟩
      · exact Or.inl ⟨p, List.mem_cons_of_mem _ h1, h2, h3⟩
      · right
        refine ⟨?_, h2⟩
        intro p hp
        rcases List.mem_cons.mp hp with rfl | hp
        · simp only [hg]; omega
        · exact h1 p hp

theorem minHeight_spec {height : Dict Name ℕ} (l : List (Name × ℚ))
    (hl : ∀ p ∈ l, p.1 ∈ height.keys) (acc : Option ℕ) :
    ∃ acc', minHeight height l acc = .ok acc' ∧
      (∀ m, acc = some m → ∃ m', acc' = some m' ∧ m' ≤ m) ∧
      (∀ p ∈ l, ∃ m', acc' = some m' ∧ m' ≤ hgt height p.1) ∧
      (∀ m', acc' = some m' → acc = some m' ∨ ∃ p ∈ l, hgt height p.1 = m') := by
  induction l generalizing acc with
  | nil => exact ⟨acc, rfl, fun m h => ⟨m, h, le_refl _⟩, by simp, fun m' h => Or.inl h⟩
  | cons p l ih =>
    obtain ⟨e, x⟩ := p
    obtain ⟨he, hhe⟩ := Dict.exists_get?_of_mem (hl (e, x) (by simp))
    have hg : hgt height e = he := by simp [hgt, hhe]
    obtain ⟨acc', h1, h2, h3, h4⟩ := ih (fun p hp => hl p (List.mem_cons_of_mem _ hp))
      (some (match acc with
        | none => he
        | some m => min he m))
    obtain ⟨m', e1, e2⟩ := h2 _ rfl
    refine ⟨acc', ?_, ?_, ?_, ?_⟩
    · unfold minHeight
      simp only at hhe
      simp only [hhe]
      exact h1
    · rintro m rfl
      exact ⟨m', e1, le_trans e2 (min_le_right _ _)⟩
    · intro p hp
      rcases List.mem_cons.mp hp with rfl | hp
      · refine ⟨m', e1, le_trans e2 ?_⟩
        simp only [hg]
        cases acc with
        | none => exact le_refl _
        | some m => exact min_le_left _ _
      · exact h3 p hp
    · intro k hk
      rcases h4 k hk with h | ⟨p, hp, h⟩
      · simp only [Option.some.injEq] at h
        cases acc with
        | none => right; exact ⟨(e, x), by simp, by simp only [hg]; exact h⟩
        | some m =>
          have h : min he m = k := h
          rcases min_choice he m with hm | hm
          · right; exact ⟨(e, x), by simp, by simp only [hg]; rw [← h, hm]⟩
          · left; rw [← h, hm]
      · exact Or.inr ⟨p, List.mem_cons_of_mem _ hp, h⟩

/-! ### Push -/

theorem push_spec {g : Digraph} (hg : DWF g) (hna : NoAnti g.arcs) {s t : Name} {D : ℕ}
    (hcD : ∀ a c, g.arcs.get? a = some c → c ∈ Grid D) {st : PState}
    (h : PInv g s t D st) {node e : Name} {x : ℚ} (hnode : node ∈ innerNodes g s t)
    (hact : 0 < net g (fl st.flow) node) (hx : lookup st.residual node e = some x)
    (hh : hgt st.height e + 1 = hgt st.height node) :
    ∃ st' δ, push g s t st node e x = .ok st' ∧ PInv g s t D { st' with index := 0, value := none } ∧
      st'.height = st.height ∧ 0 < δ ∧ δ ∈ Grid D ∧
      (∀ w, net g (fl st'.flow) w = net g (fl st.flow) w +
        δ * ((if e = w then 1 else 0) - (if node = w then 1 else 0))) ∧
      (∀ a b, lookup st'.residual a b ≠ none → lookup st.residual a b ≠ none ∨ (a = e ∧ b = node)) ∧
      (δ = net g (fl st.flow) node ∨ lookup st'.residual node e = none) := by
  have hx' := (h.res node e).symm.trans hx
  have hj : Joined g node e := residSpec_joined (by rw [hx']; simp)
  obtain ⟨hn1, he1, hne⟩ := joined_nodes hg hj
  obtain ⟨_, hns, hnt⟩ := mem_inner.mp hnode
  have hex := h.exc node hnode
  have hexD : net g (fl st.flow) node ∈ Grid D := net_mem_grid h.grid node
  generalize hδ : min (net g (fl st.flow) node) x = δ
  have hδex : δ ≤ net g (fl st.flow) node := by rw [← hδ]; exact min_le_left _ _
  have hδx : δ ≤ x := by rw [← hδ]; exact min_le_right _ _
  have main : ∃ flow' r', pushArc g.arcs st.flow st.residual node e δ = .ok (flow', r') ∧
      flow'.keys = g.arcs.keys ∧ RWF r' ∧
      (∀ a b, lookup r' a b = residSpec g.arcs (fl flow') a b) ∧
      (∀ a c, g.arcs.get? a = some c → 0 ≤ fl flow' a) ∧
      (∀ a c, g.arcs.get? a = some c → fl flow' a ≤ c) ∧
      (∀ a b, lookup r' a b ≠ none → lookup st.residual a b ≠ none ∨ (a = e ∧ b = node)) ∧
      0 < δ ∧ δ ∈ Grid D ∧ (∀ a ∈ g.arcs.keys, fl flow' a ∈ Grid D) ∧
      (∀ w, net g (fl flow') w = net g (fl st.flow) w +
        δ * ((if e = w then 1 else 0) - (if node = w then 1 else 0))) ∧
      (δ = x → residSpec g.arcs (fl flow') node e = none) := by
    by_cases hm : (node, e) ∈ g.arcs.keys
    · have hmf : (node, e) ∈ st.flow.keys := h.keys ▸ hm
      obtain ⟨c, hc, hxc, hx0⟩ := residSpec_forward hm hx'
      obtain ⟨f, hf⟩ := Dict.exists_get?_of_mem hmf
      have hff : fl st.flow (node, e) = f := by simp [fl, hf]
      have hδ0 : 0 < δ := by rw [← hδ]; exact lt_min hact hx0
      have hxD : x ∈ Grid D := by rw [hxc]; exact sub_mem (hcD _ _ hc) (h.grid _ hm)
      have hδD : δ ∈ Grid D := by
        rw [← hδ]; rcases min_choice (net g (fl st.flow) node) x with h1 | h1 <;> rw [h1] <;> assumption
      obtain ⟨r', u1, u2, u3⟩ := updRes_spec h.rwf hne (c - (f + δ)) (f + δ)
      rw [← hff] at u3
      have b0 : 0 ≤ fl st.flow (node, e) + δ := by
        have := h.nonneg _ _ hc; linarith
      have b1 : fl st.flow (node, e) + δ ≤ c := by linarith
      refine ⟨st.flow.set (node, e) (f + δ), r', ?_, ?_, u2, ?_, ?_, ?_, ?_, hδ0, hδD, ?_, ?_, ?_⟩
      · unfold pushArc
        rw [if_pos (Dict.has_iff.mpr hmf)]
        simp only [hf, hc, u1]
      · rw [keys_set_eq hmf, h.keys]
      · rw [← hff]
        exact residSpec_push hna hm hc hne b0 b1 st.residual r' h.res u3
      · intro a ca ha
        rw [fl_set]; split
        · rw [← hff]; exact b0
        · exact h.nonneg a ca ha
      · intro a ca ha
        rw [fl_set]; split
        · rename_i hq; subst hq
          rw [hc] at ha; cases ha
          rw [← hff]; exact b1
        · exact h.cap a ca ha
      · intro a b hab
        rw [u3] at hab
        split at hab
        · rename_i hq; obtain ⟨rfl, rfl⟩ := hq
          left; rw [hx]; simp
        · split at hab
          · rename_i hq; exact Or.inr ⟨hq.1.symm, hq.2.symm⟩
          · exact Or.inl hab
      · intro a ha
        rw [fl_set]; split
        · rw [← hff]; exact add_mem (h.grid _ hm) hδD
        · exact h.grid a ha
      · intro w
        rw [net_set hm, hff]
        ring
      · intro hq
        unfold residSpec
        rw [hc, fl_set, if_pos rfl]
        simp only
        rw [if_neg]
        rw [hq, hxc, ← hff]
        linarith
    · obtain ⟨hm', hxf, hx0⟩ := residSpec_backward hm hx'
      have hmf : (e, node) ∈ st.flow.keys := h.keys ▸ hm'
      obtain ⟨c, hc⟩ := Dict.exists_get?_of_mem hm'
      obtain ⟨f, hf⟩ := Dict.exists_get?_of_mem hmf
      have hff : fl st.flow (e, node) = f := by simp [fl, hf]
      have hδ0 : 0 < δ := by rw [← hδ]; exact lt_min hact hx0
      have hxD : x ∈ Grid D := by rw [hxf]; exact h.grid _ hm'
      have hδD : δ ∈ Grid D := by
        rw [← hδ]; rcases min_choice (net g (fl st.flow) node) x with h1 | h1 <;> rw [h1] <;> assumption
      obtain ⟨r', u1, u2, u3⟩ := updRes_spec h.rwf hne.symm (c - (f - δ)) (f - δ)
      have hfd : f - δ = fl st.flow (e, node) + -δ := by rw [hff]; ring
      rw [hfd] at u3
      have b0 : 0 ≤ fl st.flow (e, node) + -δ := by linarith
      have b1 : fl st.flow (e, node) + -δ ≤ c := by
        have := h.cap _ _ hc; linarith
      refine ⟨st.flow.set (e, node) (f - δ), r', ?_, ?_, u2, ?_, ?_, ?_, ?_, hδ0, hδD, ?_, ?_, ?_⟩
      · have : ¬ st.flow.has (node, e) = true := by
          rw [Dict.has_iff, h.keys]; exact hm
        unfold pushArc
        rw [if_neg this]
        simp only [hf, hc, u1]
      · rw [keys_set_eq hmf, h.keys]
      · rw [hfd]
        exact residSpec_push hna hm' hc hne.symm b0 b1 st.residual r' h.res u3
      · intro a ca ha
        rw [fl_set]; split
        · rw [hfd]; exact b0
        · exact h.nonneg a ca ha
      · intro a ca ha
        rw [fl_set]; split
        · rename_i hq; subst hq
          rw [hc] at ha; cases ha
          rw [hfd]; exact b1
        · exact h.cap a ca ha
      · intro a b hab
        rw [u3] at hab
        split at hab
        · rename_i hq; exact Or.inr ⟨hq.1.symm, hq.2.symm⟩
        · split at hab
          · rename_i hq; obtain ⟨rfl, rfl⟩ := hq
            left; rw [hx]; simp
          · exact Or.inl hab
      · intro a ha
        rw [fl_set]; split
        · rw [hfd]; exact add_mem (h.grid _ hm') (neg_mem hδD)
        · exact h.grid a ha
      · intro w
        rw [net_set hm', hff]
        ring
      · intro hq
        unfold residSpec
        rw [Dict.get?_eq_none_iff.mpr hm]
        simp only
        rw [if_neg]
        rintro ⟨-, hp⟩
        rw [fl_set, if_pos rfl, hq, hxf, ← hff] at hp
        linarith
  obtain ⟨flow', r', m1, m2, m3, m4, m5, m6, m7, m8, m9, m10, m11, m12⟩ := main
  -- the excess dictionary
  have hexc : ∃ ex', (∀ v ∈ innerNodes g s t, ex'.get? v = some (net g (fl flow') v)) ∧
      push g s t st node e x = .ok { st with excess := ex', flow := flow', residual := r' } := by
    by_cases hei : e ≠ s ∧ e ≠ t
    · have hein : e ∈ innerNodes g s t := mem_inner.mpr ⟨he1, hei⟩
      have hee := h.exc e hein
      refine ⟨(st.excess.set node (net g (fl st.flow) node - δ)).set e (net g (fl st.flow) e + δ),
        ?_, ?_⟩
      · intro v hv
        rw [m11 v, Dict.get?_set]
        by_cases h1 : e = v
        · subst h1
          rw [if_pos rfl, if_pos rfl, if_neg hne]
          simp
        · rw [if_neg h1, if_neg h1, Dict.get?_set]
          by_cases h2 : node = v
          · subst h2
            rw [if_pos rfl, if_pos rfl]
            simp only [Option.some.injEq]; ring
          · rw [if_neg h2, if_neg h2, h.exc v hv]
            simp
      · unfold push
        simp only [hex, hδ]
        rw [m1]
        simp only [hns, hnt, ne_eq, not_false_eq_true, and_self, if_true]
        rw [if_pos hei, Dict.get?_set, if_neg hne, hee]
    · refine ⟨st.excess.set node (net g (fl st.flow) node - δ), ?_, ?_⟩
      · intro v hv
        have h1 : e ≠ v := by
          rintro rfl
          exact hei (mem_inner.mp hv).2
        rw [m11 v, Dict.get?_set, if_neg h1]
        by_cases h2 : node = v
        · subst h2
          rw [if_pos rfl, if_pos rfl]
          simp only [Option.some.injEq]; ring
        · rw [if_neg h2, if_neg h2, h.exc v hv]
          simp
      · unfold push
        simp only [hex, hδ]
        rw [m1]
        simp only [hns, hnt, ne_eq, not_false_eq_true, and_self, if_true]
        rw [if_neg hei]
  obtain ⟨ex', x1, x2⟩ := hexc
  have hkind : δ = net g (fl st.flow) node ∨ lookup r' node e = none := by
    rcases min_choice (net g (fl st.flow) node) x with h1 | h1
    · exact Or.inl (hδ.symm.trans h1)
    · exact Or.inr ((m4 node e).trans (m12 (hδ.symm.trans h1)))
  refine ⟨_, δ, x2, ?_, rfl, m8, m9, m11, m7, hkind⟩
  refine ⟨m2, m3, m4, m5, m6, x1, ?_, h.hkeys, h.hsrc, h.hsink, ?_, m10, ?_, Or.inl rfl⟩
  · intro v hv
    simp only
    rw [m11 v]
    by_cases h2 : node = v
    · subst h2
      rw [if_neg hne.symm, if_pos rfl]
      linarith
    · rw [if_neg h2]
      have := h.excNonneg v hv
      split
      · linarith
      · linarith
  · intro u v huv
    rcases m7 u v huv with h1 | ⟨rfl, rfl⟩
    · exact h.label u v h1
    · simp only; omega
  · intro i hi
    simp at hi

/-! ### One iteration -/

/-- Measure that decreases in every iteration. -/
noncomputable def pMeasure (g : Digraph) (s t : Name) (D : ℕ) (st : PState) : ℕ ×ₗ (ℕ ×ₗ ℕ) :=
  toLex (∑ v ∈ (innerNodes g s t).toFinset, (2 * g.nodes.length - hgt st.height v),
    toLex (⌊(D : ℚ) * ∑ v ∈ (innerNodes g s t).toFinset,
      net g (fl st.flow) v * (hgt st.height v : ℚ)⌋₊,
      (innerNodes g s t).length - st.index))

theorem sum_height_set {S : Finset Name} {F : Name → ℕ → ℕ} {h : Dict Name ℕ} {v : Name} {m : ℕ}
    (hv : v ∈ S) (hlt : F v m < F v (hgt h v)) :
    ∑ w ∈ S, F w (hgt (h.set v m) w) < ∑ w ∈ S, F w (hgt h w) := by
  refine sum_lt_sum (fun w _ => ?_) ⟨v, hv, ?_⟩
  · by_cases hw : v = w
    · subst hw
      simp only [hgt, Dict.get?_set, if_true, Option.getD_some]
      exact hlt.le
    · simp [hgt, Dict.get?_set, hw]
  · simpa [hgt, Dict.get?_set] using hlt

/-- What one iteration does: look at the next node, raise a node, or push to a lower node. -/
inductive Kind (g : Digraph) (s t : Name) (st : PState) (node : Name) (st' : PState) : Prop
  | next (idx : st'.index = st.index + 1) (height : st'.height = st.height) (flow : st'.flow = st.flow)
      (res : st'.residual = st.residual)
  | raise (m : ℕ) (act : 0 < net g (fl st.flow) node) (idx : st'.index = 0) (lt : hgt st.height node < m)
      (height : st'.height = st.height.set node m) (flow : st'.flow = st.flow) (res : st'.residual = st.residual)
  | push (e : Name) (δ : ℚ) (idx : st'.index = 0) (height : st'.height = st.height)
      (adm : hgt st.height e + 1 = hgt st.height node) (old : lookup st.residual node e ≠ none)
      (new : ∀ a b, lookup st'.residual a b ≠ none → lookup st.residual a b ≠ none ∨ (a = e ∧ b = node))
      (pos : 0 < δ) (net_eq : ∀ w, net g (fl st'.flow) w = net g (fl st.flow) w +
        δ * ((if e = w then 1 else 0) - (if node = w then 1 else 0)))
      (full : δ = net g (fl st.flow) node ∨ lookup st'.residual node e = none)

theorem pStep_spec {g : Digraph} (hg : DWF g) (hna : NoAnti g.arcs) {s t : Name} (hst : s ≠ t)
    (hs : s ∈ g.nodes.keys) (ht : t ∈ g.nodes.keys)
    (hcap0 : ∀ a c, g.arcs.get? a = some c → 0 ≤ c) {D : ℕ} (hD : 0 < D)
    (hcD : ∀ a c, g.arcs.get? a = some c → c ∈ Grid D) {st : PState}
    (h : PInv g s t D st) {node : Name} (hi : (innerNodes g s t)[st.index]? = some node) :
    ∃ st', pStep g s t (innerNodes g s t) st node = .ok st' ∧ PInv g s t D st' ∧
      st'.value = some (flowValue g s st'.flow) ∧
      pMeasure g s t D st' < pMeasure g s t D st ∧ Kind g s t st node st' := by
  have hnode : node ∈ innerNodes g s t := List.mem_of_getElem? hi
  obtain ⟨hn1, hns, hnt⟩ := mem_inner.mp hnode
  have hex := h.exc node hnode
  have hidx : st.index < (innerNodes g s t).length := by
    by_contra hc
    rw [List.getElem?_eq_none (not_lt.mp hc)] at hi
    cases hi
  by_cases hact : 0 < net g (fl st.flow) node
  · -- active node
    have hlab : ∀ u v, residSpec g.arcs (fl st.flow) u v ≠ none →
        hgt st.height u ≤ hgt st.height v + 1 := fun u v huv =>
      h.label u v (by rw [h.res]; exact huv)
    obtain ⟨u0, hu0⟩ := active_has_residual hna h.nonneg hact
    rw [← h.res] at hu0
    obtain ⟨d, hd⟩ : ∃ d, st.residual.get? node = some d := by
      unfold lookup at hu0
      cases hc : st.residual.get? node with
      | none => simp [hc] at hu0
      | some d => exact ⟨d, rfl⟩
    have hlook : ∀ e x, (e, x) ∈ d ↔ lookup st.residual node e = some x := by
      intro e x
      unfold lookup
      rw [hd]
      exact (Dict.get?_iff_mem (h.rwf.2 node d hd)).symm
    have hdk : ∀ p ∈ d, p.1 ∈ st.height.keys := by
      intro p hp
      rw [h.hkeys]
      have := (hlook p.1 p.2).mp hp
      rw [h.res] at this
      exact (joined_nodes hg (residSpec_joined (by rw [this]; simp))).2.1
    obtain ⟨hh, hhh⟩ := Dict.exists_get?_of_mem ((h.hkeys node).mpr hn1)
    have hhg : hgt st.height node = hh := by simp [hgt, hhh]
    rcases findAdmissible_spec hh d hdk with ⟨⟨e, x⟩, p1, p2, p3⟩ | ⟨p1, p2⟩
    · -- push
      have hx := (hlook e x).mp p1
      obtain ⟨st1, δ, q1, q2, q3, q4, q5, q6, q7, q8⟩ := push_spec hg hna hcD h hnode hact hx
        (by rw [hhg]; exact p2)
      refine ⟨{ { st1 with index := 0 } with value := some (flowValue g s st1.flow) }, ?_, ?_, rfl, ?_,
        .push e δ rfl q3 (by rw [hhg]; exact p2) (by rw [hx]; simp) q7 q4 q6 q8⟩
      · unfold pStep
        simp only [hex, gt_iff_lt, hact, if_true]
        unfold discharge
        simp only [hd, hhh, p3, q1]
      · exact ⟨q2.keys, q2.rwf, q2.res, q2.nonneg, q2.cap, q2.exc, q2.excNonneg, q2.hkeys, q2.hsrc,
          q2.hsink, q2.label, q2.grid, q2.done, Or.inr rfl⟩
      · unfold pMeasure
        simp only [q3]
        rw [Prod.Lex.toLex_lt_toLex]
        right
        refine ⟨rfl, ?_⟩
        rw [Prod.Lex.toLex_lt_toLex]
        left
        simp only
        have hsum : ∑ v ∈ (innerNodes g s t).toFinset, net g (fl st1.flow) v * (hgt st.height v : ℚ) =
            ∑ v ∈ (innerNodes g s t).toFinset, net g (fl st.flow) v * (hgt st.height v : ℚ) +
            δ * ((if e ∈ (innerNodes g s t).toFinset then (hgt st.height e : ℚ) else 0) -
              (hgt st.height node : ℚ)) := by
          simp only [q6]
          have e1 : ∀ v ∈ (innerNodes g s t).toFinset,
              (net g (fl st.flow) v + δ * ((if e = v then 1 else 0) - (if node = v then 1 else 0))) *
                (hgt st.height v : ℚ) = net g (fl st.flow) v * (hgt st.height v : ℚ) +
              δ * ((if e = v then (hgt st.height v : ℚ) else 0) -
                (if node = v then (hgt st.height v : ℚ) else 0)) := by
            intro v _
            split <;> split <;> ring
          rw [sum_congr rfl e1, sum_add_distrib, ← mul_sum, sum_sub_distrib, sum_ite_eq, sum_ite_eq,
            if_pos (show node ∈ (innerNodes g s t).toFinset by simpa using hnode)]
        have hcase : (if e ∈ (innerNodes g s t).toFinset then (hgt st.height e : ℚ) else 0) -
              (hgt st.height node : ℚ) ≤ -1 := by
          have hq : (hgt st.height e : ℚ) + 1 = hgt st.height node := by
            rw [hhg]; exact_mod_cast p2
          split
          · linarith
          · have : (0 : ℚ) ≤ hgt st.height e := by positivity
            linarith
        have hδD := grid_pos hD q5 q4
        have hDpos : (0 : ℚ) < D := by exact_mod_cast hD
        have hDδ : 1 ≤ (D : ℚ) * δ := by
          rw [div_le_iff₀ hDpos] at hδD; linarith
        have hnn : 0 ≤ ∑ v ∈ (innerNodes g s t).toFinset,
            net g (fl st1.flow) v * (hgt st.height v : ℚ) := by
          refine sum_nonneg fun v hv => mul_nonneg (q2.excNonneg v (by simpa using hv)) (by positivity)
        rw [hsum] at hnn ⊢
        generalize (∑ v ∈ (innerNodes g s t).toFinset,
          net g (fl st.flow) v * (hgt st.height v : ℚ)) = A at hnn ⊢
        generalize ((if e ∈ (innerNodes g s t).toFinset then (hgt st.height e : ℚ) else 0) -
              (hgt st.height node : ℚ)) = B at hcase hnn ⊢
        have hle : (D : ℚ) * (A + δ * B) + 1 ≤ D * A := by
          have : (D : ℚ) * δ * B ≤ D * δ * (-1) :=
            mul_le_mul_of_nonneg_left hcase (by linarith)
          nlinarith
        have h0 : 0 ≤ (D : ℚ) * (A + δ * B) := mul_nonneg hDpos.le hnn
        have := Nat.floor_le_floor hle
        rw [Nat.floor_add_one h0] at this
        omega
    · -- relabel
      obtain ⟨acc', m1, _, m3, m4⟩ := minHeight_spec d hdk none
      obtain ⟨x0, hx0⟩ := Option.ne_none_iff_exists'.mp hu0
      obtain ⟨m, rfl, _⟩ := m3 (u0, x0) ((hlook u0 x0).mpr hx0)
      have hmle : ∀ e, lookup st.residual node e ≠ none → m ≤ hgt st.height e := by
        intro e he
        obtain ⟨x, hx⟩ := Option.ne_none_iff_exists'.mp he
        obtain ⟨m', e1, e2⟩ := m3 (e, x) ((hlook e x).mpr hx)
        cases e1; exact e2
      have hhm : hh ≤ m := by
        rcases m4 m rfl with hc | ⟨p, hp, hpm⟩
        · cases hc
        · have a1 := p1 p hp
          have a2 := h.label node p.1 (by rw [(hlook p.1 p.2).mp hp]; simp)
          rw [hhg] at a2
          omega
      have hset : ∀ w, hgt (st.height.set node (m + 1)) w =
          if node = w then m + 1 else hgt st.height w := by
        intro w
        unfold hgt
        rw [Dict.get?_set]
        split <;> rfl
      have hlab' : ∀ u v, lookup st.residual u v ≠ none →
          hgt (st.height.set node (m + 1)) u ≤ hgt (st.height.set node (m + 1)) v + 1 := by
        intro u v huv
        have hne : u ≠ v := (joined_nodes hg (residSpec_joined (by rw [← h.res]; exact huv))).2.2
        rw [hset, hset]
        by_cases h1 : node = u
        · subst h1
          rw [if_pos rfl, if_neg hne]
          have := hmle v huv
          omega
        · rw [if_neg h1]
          have := h.label u v huv
          split
          · rename_i h2; subst h2; omega
          · exact this
      have hI : PInv g s t D { { st with height := st.height.set node (m + 1), index := 0 } with
          value := some (flowValue g s st.flow) } := by
        refine ⟨h.keys, h.rwf, h.res, h.nonneg, h.cap, h.exc, h.excNonneg, ?_, ?_, ?_, hlab', h.grid,
          ?_, Or.inr rfl⟩
        · intro v
          simp only [Dict.mem_keys_set, h.hkeys]
          constructor
          · rintro (rfl | h1)
            · exact hn1
            · exact h1
          · exact Or.inr
        · simp only; rw [hset, if_neg hns]; exact h.hsrc
        · simp only; rw [hset, if_neg hnt]; exact h.hsink
        · intro i hi; simp at hi
      refine ⟨_, ?_, hI, rfl, ?_, .raise (m + 1) hact rfl (by rw [hhg]; omega) rfl rfl rfl⟩
      · unfold pStep
        simp only [hex, gt_iff_lt, hact, if_true]
        unfold discharge
        simp only [hd, hhh, p2, m1]
      · unfold pMeasure
        simp only
        rw [Prod.Lex.toLex_lt_toLex]
        left
        simp only
        have hb := height_bound hg hna hst hs ht hcap0 hI.nonneg hI.cap hI.excNonneg hI.hsrc hI.hsink
          (fun u v huv => hI.label u v (by rw [hI.res]; exact huv)) hnode hact
        refine sum_height_set (F := fun _ k => 2 * g.nodes.length - k) (by simpa using hnode) ?_
        simp only at hb
        rw [hset, if_pos rfl] at hb
        omega
  · -- no excess
    refine ⟨{ { st with index := st.index + 1 } with value := some (flowValue g s st.flow) }, ?_, ?_,
      rfl, ?_, .next rfl rfl rfl rfl⟩
    · unfold pStep
      simp only [hex, gt_iff_lt, hact, if_false]
    · refine ⟨h.keys, h.rwf, h.res, h.nonneg, h.cap, h.exc, h.excNonneg, h.hkeys, h.hsrc, h.hsink,
        h.label, h.grid, ?_, Or.inr rfl⟩
      intro i hi' v hv
      simp only at hi'
      rcases Nat.lt_succ_iff_lt_or_eq.mp hi' with h1 | rfl
      · exact h.done i h1 v hv
      · rw [hi] at hv; cases hv
        exact not_lt.mp hact
    · unfold pMeasure
      simp only
      rw [Prod.Lex.toLex_lt_toLex]
      right
      refine ⟨rfl, ?_⟩
      rw [Prod.Lex.toLex_lt_toLex]
      right
      refine ⟨rfl, ?_⟩
      simp only
      omega

/-! ### The loop -/

theorem pLoop_sound {g : Digraph} (hg : DWF g) (hna : NoAnti g.arcs) {s t : Name} (hst : s ≠ t)
    (hs : s ∈ g.nodes.keys) (ht : t ∈ g.nodes.keys)
    (hcap0 : ∀ a c, g.arcs.get? a = some c → 0 ≤ c) {D : ℕ} (hD : 0 < D)
    (hcD : ∀ a c, g.arcs.get? a = some c → c ∈ Grid D) (fuel : ℕ) {st : PState}
    (h : PInv g s t D st) :
    pLoop g s t (innerNodes g s t) fuel st = .error .notTerminated ∨
    ∃ st', pLoop g s t (innerNodes g s t) fuel st = .ok st' ∧ PInv g s t D st' ∧
      (innerNodes g s t).length ≤ st'.index ∧
      (st.index < (innerNodes g s t).length → st'.value = some (flowValue g s st'.flow)) ∧
      (st.value ≠ none → st'.value = some (flowValue g s st'.flow)) ∧
      ((innerNodes g s t).length ≤ st.index → st' = st) := by
  induction fuel generalizing st with
  | zero => exact Or.inl rfl
  | succ fuel ih =>
    unfold pLoop
    cases hi : (innerNodes g s t)[st.index]? with
    | none =>
      right
      have hle : (innerNodes g s t).length ≤ st.index := by
        by_contra hc
        rw [List.getElem?_eq_getElem (not_le.mp hc)] at hi
        cases hi
      exact ⟨st, rfl, h, hle, fun hc => absurd hc (not_lt.mpr hle), fun hv => h.val.resolve_left hv,
        fun _ => rfl⟩
    | some node =>
      obtain ⟨st', h1, h2, h3, _⟩ := pStep_spec hg hna hst hs ht hcap0 hD hcD h hi
      simp only [h1]
      rcases ih h2 with h4 | ⟨st'', e1, e2, e3, e4, e5, e6⟩
      · exact Or.inl h4
      · right
        have hv := e5 (by rw [h3]; simp)
        refine ⟨st'', e1, e2, e3, fun _ => hv, fun _ => hv, fun hc => ?_⟩
        rw [List.getElem?_eq_none hc] at hi
        cases hi

theorem pLoop_terminates {g : Digraph} (hg : DWF g) (hna : NoAnti g.arcs) {s t : Name} (hst : s ≠ t)
    (hs : s ∈ g.nodes.keys) (ht : t ∈ g.nodes.keys)
    (hcap0 : ∀ a c, g.arcs.get? a = some c → 0 ≤ c) {D : ℕ} (hD : 0 < D)
    (hcD : ∀ a c, g.arcs.get? a = some c → c ∈ Grid D) {st : PState} (h : PInv g s t D st) :
    ∃ fuel st', pLoop g s t (innerNodes g s t) fuel st = .ok st' := by
  generalize hμ : pMeasure g s t D st = μ
  induction μ using WellFoundedLT.induction generalizing st with
  | ind μ ih =>
    cases hi : (innerNodes g s t)[st.index]? with
    | none =>
      refine ⟨1, st, ?_⟩
      unfold pLoop
      rw [hi]
    | some node =>
      obtain ⟨st', h1, h2, _, h4, _⟩ := pStep_spec hg hna hst hs ht hcap0 hD hcD h hi
      obtain ⟨fuel, st'', h5⟩ := ih _ (hμ ▸ h4) h2 rfl
      refine ⟨fuel + 1, st'', ?_⟩
      unfold pLoop
      simp only [hi, h1]
      exact h5

theorem pLoop_mono {g : Digraph} {s t : Name} {nodes : List Name} {fuel fuel' : ℕ} {st st' : PState}
    (h : pLoop g s t nodes fuel st = .ok st') (hle : fuel ≤ fuel') :
    pLoop g s t nodes fuel' st = .ok st' := by
  induction fuel generalizing fuel' st with
  | zero => cases h
  | succ fuel ih =>
    obtain ⟨k, rfl⟩ : ∃ k, fuel' = k + 1 := ⟨fuel' - 1, by omega⟩
    unfold pLoop at h ⊢
    cases hi : nodes[st.index]? with
    | none => rw [hi] at h; exact h
    | some node =>
      rw [hi] at h
      simp only at h ⊢
      cases hp : pStep g s t nodes st node with
      | error e => rw [hp] at h; cases h
      | ok st1 =>
        rw [hp] at h
        exact ih h (by omega)

/-! ### The start -/

theorem fl_initFlow {g : Digraph} (hg : DWF g) {s : Name} (hs : chars s = [s]) {a : Arc} {c : ℚ}
    (ha : g.arcs.get? a = some c) : fl (initFlow g s) a = if a.1 = s then c else 0 := by
  have hm : a ∈ cut g (.name s) ↔ a.1 = s := by
    rw [← List.mem_toFinset, cut_name_toFinset hg hs, mem_filter, mem_arcSet]
    exact ⟨fun h => h.2, fun h => ⟨Dict.mem_keys_of_get? ha, h⟩⟩
  unfold fl initFlow
  rw [Dict.get?_map_val, ha]
  simp only [Option.map_some, Option.getD_some, hm]

theorem initExcess_get? {g : Digraph} {s t : Name} (flow : Flow) (v : Name)
    (hv : v ∈ innerNodes g s t) : (initExcess g s t flow).get? v =
      some (sumFlow flow (ncut g (.name v)) - sumFlow flow (cut g (.name v))) := by
  unfold initExcess
  have key : ∀ (l : List Name) (acc : Dict Name ℚ), Dict.get? (l.foldl (fun ex v =>
      Dict.set ex v (sumFlow flow (ncut g (.name v)) - sumFlow flow (cut g (.name v)))) acc) v =
      if v ∈ l then some (sumFlow flow (ncut g (.name v)) - sumFlow flow (cut g (.name v)))
      else Dict.get? acc v := by
    intro l
    induction l with
    | nil => intro acc; simp
    | cons w l ih =>
      intro acc
      rw [List.foldl_cons, ih, Dict.get?_set]
      by_cases h1 : v ∈ l
      · simp [h1]
      · by_cases h2 : w = v
        · subst h2; simp
        · have : v ≠ w := fun h => h2 h.symm
          simp [h1, h2, this]
  rw [key, if_pos hv]

theorem initHeight_hgt {g : Digraph} {s v : Name} (hv : v ∈ g.nodes.keys) :
    hgt (initHeight g s) v = if v = s then g.nodes.length else 0 := by
  unfold hgt initHeight
  rw [Dict.get?_map_val]
  obtain ⟨w, hw⟩ := Dict.exists_get?_of_mem hv
  simp [hw]

theorem pInit_spec {g : Digraph} (hg : DWF g) (hna : NoAnti g.arcs) {s t : Name} (hst : s ≠ t)
    (hs : s ∈ g.nodes.keys) (ht : t ∈ g.nodes.keys) (hch : ∀ v ∈ g.nodes.keys, chars v = [v])
    (hcap0 : ∀ a c, g.arcs.get? a = some c → 0 ≤ c) {D : ℕ}
    (hcD : ∀ a c, g.arcs.get? a = some c → c ∈ Grid D) :
    ∃ st, pInit g s t = .ok st ∧ PInv g s t D st ∧ st.index = 0 ∧ st.value = none := by
  have hfl : ∀ a c, g.arcs.get? a = some c → fl (initFlow g s) a = if a.1 = s then c else 0 :=
    fun a c ha => fl_initFlow hg (hch s hs) ha
  have hcap : ∀ a c, g.arcs.get? a = some c → fl (initFlow g s) a ≤ c := by
    intro a c ha
    rw [hfl a c ha]
    split
    · exact le_refl _
    · exact hcap0 a c ha
  have hnn : ∀ a c, g.arcs.get? a = some c → 0 ≤ fl (initFlow g s) a := by
    intro a c ha
    rw [hfl a c ha]
    split
    · exact hcap0 a c ha
    · exact le_refl _
  have hnet : ∀ v, v ≠ s → 0 ≤ net g (fl (initFlow g s)) v := by
    intro v hv
    have h1 : outflow g (fl (initFlow g s)) v = 0 := by
      refine sum_eq_zero fun a ha => ?_
      obtain ⟨ha1, rfl⟩ := mem_filter.mp ha
      obtain ⟨c, hc⟩ := Dict.exists_get?_of_mem (mem_arcSet.mp ha1)
      rw [hfl a c hc, if_neg hv]
    have h2 : 0 ≤ inflow g (fl (initFlow g s)) v := by
      refine sum_nonneg fun a ha => ?_
      obtain ⟨c, hc⟩ := Dict.exists_get?_of_mem (mem_arcSet.mp (mem_filter.mp ha).1)
      exact hnn a c hc
    unfold net
    linarith
  rcases computeResidual_spec hg hna (initFlow g s) with ⟨a, c, h1, h2, _⟩ | ⟨_, r, h2, h3, h4⟩
  · exact absurd (hcap a c h1) (not_le.mpr h2)
  · refine ⟨⟨0, initExcess g s t (initFlow g s), initFlow g s, r, initHeight g s, none⟩, ?_, ?_, rfl, rfl⟩
    · unfold pInit
      simp only [h2]
    · refine ⟨Dict.keys_map_val _ _, h3, h4, hnn, hcap, ?_, ?_, ?_, ?_, ?_, ?_, ?_, ?_, Or.inl rfl⟩
      · intro v hv
        have hvn := (mem_inner.mp hv).1
        rw [initExcess_get? _ v hv, sum_cut_name hg (hch v hvn), sum_ncut_name hg (hch v hvn)]
        rfl
      · intro v hv
        exact hnet v (mem_inner.mp hv).2.1
      · intro v
        simp only [initHeight]
        rw [Dict.keys_map_val]
      · simp only; rw [initHeight_hgt hs, if_pos rfl]
      · simp only; rw [initHeight_hgt ht, if_neg hst.symm]
      · intro u v huv
        simp only at huv ⊢
        obtain ⟨hu, hv, _⟩ := joined_nodes hg (residSpec_joined (by rw [← h4]; exact huv))
        rw [initHeight_hgt hu, initHeight_hgt hv]
        by_cases hus : u = s
        · exfalso
          subst hus
          rw [h4] at huv
          apply huv
          unfold residSpec
          cases hc : g.arcs.get? (u, v) with
          | some c =>
            simp only
            rw [hfl _ _ hc, if_pos rfl, if_neg (lt_irrefl _)]
          | none =>
            simp only
            rw [if_neg]
            rintro ⟨q1, q2⟩
            obtain ⟨c, hc⟩ := Dict.exists_get?_of_mem q1
            rw [hfl _ _ hc] at q2
            simp only at q2
            split at q2
            · rename_i hq
              exact hg.noLoop _ _ q1 hq
            · exact lt_irrefl _ q2
        · rw [if_neg hus]; omega
      · intro a ha
        obtain ⟨c, hc⟩ := Dict.exists_get?_of_mem ha
        simp only
        rw [hfl a c hc]
        split
        · exact hcD a c hc
        · exact zero_mem _
      · intro i hi
        simp at hi

theorem PInv.feasible {g : Digraph} {s t : Name} {D : ℕ} {st : PState} (h : PInv g s t D st)
    (hi : (innerNodes g s t).length ≤ st.index) : Feasible g s t (fl st.flow) := by
  refine ⟨h.nonneg, h.cap, fun v hv h1 h2 => ?_⟩
  have hin : v ∈ innerNodes g s t := mem_inner.mpr ⟨hv, h1, h2⟩
  obtain ⟨i, hlt, hiv⟩ := List.getElem_of_mem hin
  have a1 := h.done i (by omega) v (by rw [List.getElem?_eq_getElem hlt, hiv])
  have a2 := h.excNonneg v hin
  unfold net at a1 a2
  linarith

end Directed
end Pytimize
