/-
The number of iterations of `preflow_push`: a potential that drops with every push and every relabelling, bounded by a
polynomial in the numbers of nodes and arcs.
-/
import Verif.Graph.Preflow

namespace Pytimize
namespace Directed
open Finset

/-! ### The potential -/

/-- The arc, or its reversal, leads one level down and has residual capacity. -/
def Ready (h : Name → ℕ) (ρ : Name → Name → Prop) (a : Arc) : Prop :=
  (ρ a.1 a.2 ∧ h a.1 = h a.2 + 1) ∨ (ρ a.2 a.1 ∧ h a.2 = h a.1 + 1)

open Classical in
/-- Bound on the number of pushes that use up an arc. -/
noncomputable def arcPot (n : ℕ) (h : Name → ℕ) (ρ : Name → Name → Prop) (a : Arc) : ℕ :=
  (4 * n - (h a.1 + h a.2)) + if Ready h ρ a then 1 else 0

open Classical in
/-- The potential. -/
noncomputable def potential (n : ℕ) (A : Finset Arc) (I : Finset Name) (h : Name → ℕ) (ρ : Name → Name → Prop)
    (act : Name → Prop) : ℕ :=
  (2 * n + 1) * ∑ a ∈ A, arcPot n h ρ a + ∑ v ∈ I, (if act v then h v else 0) + 2 * ∑ v ∈ I, (2 * n - h v)

theorem arcPot_le (n : ℕ) (h : Name → ℕ) (ρ : Name → Name → Prop) (a : Arc) : arcPot n h ρ a ≤ 4 * n + 1 := by
  unfold arcPot
  split <;> omega

open Classical in
theorem arcPot_mono {n : ℕ} {h : Name → ℕ} {ρ ρ' : Name → Name → Prop} {a : Arc} (hr : Ready h ρ' a → Ready h ρ a) :
    arcPot n h ρ' a ≤ arcPot n h ρ a := by
  unfold arcPot
  split
  · rename_i h1; rw [if_pos (hr h1)]
  · omega

section
variable {n : ℕ} {A : Finset Arc} {I : Finset Name} {h h' : Name → ℕ} {ρ ρ' : Name → Name → Prop}
  {act act' : Name → Prop}

/-- Raising an active node. -/
theorem potential_raise {v : Name} {k : ℕ} (hv : v ∈ I) (ha : act v) (hlow : ∀ w, h w ≤ 2 * n) (hk : k ≤ 2 * n)
    (hlt : h v < k) (hh : ∀ w, h' w = if v = w then k else h w) :
    potential n A I h' ρ act < potential n A I h ρ act := by
  have h1 : ∑ a ∈ A, arcPot n h' ρ a ≤ ∑ a ∈ A, arcPot n h ρ a := by
    refine sum_le_sum fun a _ => ?_
    by_cases ht : v = a.1 ∨ v = a.2
    · have l1 := hlow a.1
      have l2 := hlow a.2
      have b1 := hh a.1
      have b2 := hh a.2
      have : h a.1 + h a.2 + 1 ≤ h' a.1 + h' a.2 ∧ h' a.1 + h' a.2 ≤ 4 * n := by
        rw [b1, b2]
        rcases ht with rfl | rfl
        · rw [if_pos rfl]
          split
          · rename_i e; rw [← e]; omega
          · omega
        · rw [if_pos rfl]
          split
          · rename_i e; rw [← e]; omega
          · omega
      unfold arcPot
      split <;> split <;> omega
    · push Not at ht
      have e1 : h' a.1 = h a.1 := by rw [hh, if_neg ht.1]
      have e2 : h' a.2 = h a.2 := by rw [hh, if_neg ht.2]
      unfold arcPot Ready
      rw [e1, e2]
  have h2 := Nat.mul_le_mul_left (2 * n + 1) h1
  have h3 : ∑ w ∈ I, (2 * n - h' w) + (k - h v) = ∑ w ∈ I, (2 * n - h w) := by
    rw [← add_sum_erase I _ hv, ← add_sum_erase I (fun w => 2 * n - h w) hv]
    have e : ∑ w ∈ I.erase v, (2 * n - h' w) = ∑ w ∈ I.erase v, (2 * n - h w) :=
      sum_congr rfl fun w hw => by rw [hh, if_neg (ne_of_mem_erase hw).symm]
    rw [e, hh, if_pos rfl]
    have := hlow v
    omega
  classical
  have h4 : ∑ w ∈ I, (if act w then h' w else 0) = ∑ w ∈ I, (if act w then h w else 0) + (k - h v) := by
    rw [← add_sum_erase I _ hv, ← add_sum_erase I (fun w => if act w then h w else 0) hv]
    have e : ∑ w ∈ I.erase v, (if act w then h' w else 0) = ∑ w ∈ I.erase v, (if act w then h w else 0) :=
      sum_congr rfl fun w hw => by rw [hh, if_neg (ne_of_mem_erase hw).symm]
    rw [e]
    simp only [if_pos ha]
    rw [hh, if_pos rfl]
    omega
  unfold potential
  have h4' : ∑ w ∈ I, (@ite ℕ (act w) (Classical.propDecidable _) (h' w) 0) =
      ∑ w ∈ I, (@ite ℕ (act w) (Classical.propDecidable _) (h w) 0) + (k - h v) := by convert h4
  rw [h4']
  omega

/-- A push along `v, e`. -/
theorem potential_push {v e : Name} (hv : v ∈ I) (ha : act v) (hlow : ∀ w, h w ≤ 2 * n) (hvi : ρ v e)
    (hA : (v, e) ∈ A ∨ (e, v) ∈ A) (hadm : h e + 1 = h v) (hρ : ∀ a b, ρ' a b → ρ a b ∨ (a = e ∧ b = v))
    (hact : ∀ w, act' w → act w ∨ w = e) (hfull : ¬ act' v ∨ ¬ ρ' v e) :
    potential n A I h ρ' act' < potential n A I h ρ act := by
  classical
  have hready : ∀ a, Ready h ρ' a → Ready h ρ a := by
    intro a ha
    rcases ha with ⟨h1, h2⟩ | ⟨h1, h2⟩
    · rcases hρ _ _ h1 with h3 | ⟨h3, h4⟩
      · exact Or.inl ⟨h3, h2⟩
      · rw [h3, h4] at h2; omega
    · rcases hρ _ _ h1 with h3 | ⟨h3, h4⟩
      · exact Or.inr ⟨h3, h2⟩
      · rw [h3, h4] at h2; omega
  have h1 : ∑ a ∈ A, arcPot n h ρ' a ≤ ∑ a ∈ A, arcPot n h ρ a :=
    sum_le_sum fun a _ => arcPot_mono (hready a)
  have h2 := Nat.mul_le_mul_left (2 * n + 1) h1
  by_cases hva : act' v
  · -- the arc is used up
    have hne : ¬ ρ' v e := hfull.resolve_left (not_not.mpr hva)
    have hstrict : ∀ a, (a = (v, e) ∨ a = (e, v)) → arcPot n h ρ' a < arcPot n h ρ a := by
      intro a hq
      have r1 : Ready h ρ a := by
        rcases hq with rfl | rfl
        · exact Or.inl ⟨hvi, hadm.symm⟩
        · exact Or.inr ⟨hvi, hadm.symm⟩
      have r2 : ¬ Ready h ρ' a := by
        rcases hq with rfl | rfl
        · rintro (⟨h3, -⟩ | ⟨-, h3⟩)
          · exact hne h3
          · simp only at h3; omega
        · rintro (⟨-, h3⟩ | ⟨h3, -⟩)
          · simp only at h3; omega
          · exact hne h3
      unfold arcPot
      rw [if_pos r1, if_neg r2]
      omega
    have h3 : ∑ a ∈ A, arcPot n h ρ' a < ∑ a ∈ A, arcPot n h ρ a := by
      rcases hA with hA | hA
      · exact sum_lt_sum (fun a _ => arcPot_mono (hready a)) ⟨_, hA, hstrict _ (Or.inl rfl)⟩
      · exact sum_lt_sum (fun a _ => arcPot_mono (hready a)) ⟨_, hA, hstrict _ (Or.inr rfl)⟩
    have h4 := Nat.mul_le_mul_left (2 * n + 1) (Nat.succ_le_of_lt h3)
    have h5 : ∑ w ∈ I, (if act' w then h w else 0) ≤ ∑ w ∈ I, (if act w then h w else 0) + 2 * n := by
      have : ∀ w ∈ I, (if act' w then h w else 0) ≤ (if act w then h w else 0) + if e = w then 2 * n else 0 := by
        intro w _
        by_cases hw : act' w
        · rw [if_pos hw]
          rcases hact w hw with h6 | rfl
          · rw [if_pos h6]; omega
          · rw [if_pos rfl]; have := hlow w; omega
        · rw [if_neg hw]; omega
      refine (sum_le_sum this).trans ?_
      rw [sum_add_distrib]
      refine Nat.add_le_add_left ?_ _
      rw [sum_ite_eq]
      split <;> omega
    unfold potential
    have h5' : ∑ w ∈ I, (@ite ℕ (act' w) (Classical.propDecidable _) (h w) 0) ≤
      ∑ w ∈ I, (@ite ℕ (act w) (Classical.propDecidable _) (h w) 0) + 2 * n := by convert h5
    rw [Nat.mul_succ] at h4
    omega
  · -- the excess is used up
    have h5 : ∑ w ∈ I, (if act' w then h w else 0) + h v ≤ ∑ w ∈ I, (if act w then h w else 0) + h e := by
      have : ∀ w ∈ I, (if act' w then h w else 0) + (if v = w then h v else 0) ≤
          (if act w then h w else 0) + if e = w then h e else 0 := by
        intro w _
        by_cases hw : act' w
        · have hvw : v ≠ w := fun hq => hva (hq ▸ hw)
          rw [if_pos hw, if_neg hvw]
          rcases hact w hw with h6 | rfl
          · rw [if_pos h6]; omega
          · rw [if_pos rfl]; omega
        · rw [if_neg hw]
          by_cases hvw : v = w
          · subst hvw; rw [if_pos rfl, if_pos ha]; omega
          · rw [if_neg hvw]; omega
      have h6 := sum_le_sum this
      rw [sum_add_distrib, sum_add_distrib, sum_ite_eq, sum_ite_eq, if_pos hv] at h6
      refine h6.trans (Nat.add_le_add_left ?_ _)
      split <;> omega
    unfold potential
    have h5' : ∑ w ∈ I, (@ite ℕ (act' w) (Classical.propDecidable _) (h w) 0) + h v ≤
      ∑ w ∈ I, (@ite ℕ (act w) (Classical.propDecidable _) (h w) 0) + h e := by convert h5
    omega
end

/-! ### The loop -/

/-- The potential of a state. -/
noncomputable def statePot (g : Digraph) (s t : Name) (st : PState) : ℕ :=
  potential g.nodes.length (arcSet g) (innerNodes g s t).toFinset (hgt st.height)
    (fun u v => lookup st.residual u v ≠ none) (fun v => 0 < net g (fl st.flow) v)

/-- Iterations left. -/
noncomputable def stepsLeft (g : Digraph) (s t : Name) (st : PState) : ℕ :=
  statePot g s t st * ((innerNodes g s t).length + 1) + ((innerNodes g s t).length - st.index)

theorem raise_low {g : Digraph} (hg : DWF g) (hna : NoAnti g.arcs) {s t : Name} (hst : s ≠ t)
    (hs : s ∈ g.nodes.keys) (ht : t ∈ g.nodes.keys) (hcap0 : ∀ a c, g.arcs.get? a = some c → 0 ≤ c) {D : ℕ}
    {st : PState} (h : PInv g s t D st) {v : Name} (hv : v ∈ innerNodes g s t)
    (hact : 0 < net g (fl st.flow) v) : hgt st.height v < 2 * g.nodes.length :=
  height_bound hg hna hst hs ht hcap0 h.nonneg h.cap h.excNonneg h.hsrc h.hsink
    (fun u v huv => h.label u v (by rw [h.res]; exact huv)) hv hact

/-- Every iteration brings the end nearer. -/
theorem kind_drop {g : Digraph} (hg : DWF g) (hna : NoAnti g.arcs) {s t : Name} (hst : s ≠ t)
    (hs : s ∈ g.nodes.keys) (ht : t ∈ g.nodes.keys) (hcap0 : ∀ a c, g.arcs.get? a = some c → 0 ≤ c) {D : ℕ}
    {st st' : PState} {node : Name} (hi : (innerNodes g s t)[st.index]? = some node) (h : PInv g s t D st)
    (h' : PInv g s t D st') (hlow : ∀ w, hgt st.height w ≤ 2 * g.nodes.length) (hk : Kind g s t st node st') :
    (∀ w, hgt st'.height w ≤ 2 * g.nodes.length) ∧ stepsLeft g s t st' < stepsLeft g s t st := by
  have hnode : node ∈ innerNodes g s t := List.mem_of_getElem? hi
  have hidx : st.index < (innerNodes g s t).length := by
    by_contra hc
    rw [List.getElem?_eq_none (not_lt.mp hc)] at hi
    cases hi
  have hmem : node ∈ (innerNodes g s t).toFinset := by simpa using hnode
  have drop : statePot g s t st' < statePot g s t st → stepsLeft g s t st' < stepsLeft g s t st := by
    intro hp
    unfold stepsLeft
    have := Nat.mul_le_mul_right ((innerNodes g s t).length + 1) (Nat.succ_le_of_lt hp)
    rw [Nat.succ_mul] at this
    omega
  cases hk with
  | next idx height flow res =>
    refine ⟨by rw [height]; exact hlow, ?_⟩
    unfold stepsLeft statePot
    rw [idx, height, flow, res]
    omega
  | raise m act idx lt height flow res =>
    have hset : ∀ w, hgt st'.height w = if node = w then m else hgt st.height w := by
      intro w
      rw [height]
      unfold hgt
      rw [Dict.get?_set]
      split <;> rfl
    have hm : m < 2 * g.nodes.length := by
      have := raise_low hg hna hst hs ht hcap0 h' hnode (by rw [flow]; exact act)
      rw [hset, if_pos rfl] at this
      exact this
    refine ⟨fun w => ?_, drop ?_⟩
    · rw [hset]
      split
      · exact hm.le
      · exact hlow w
    · unfold statePot
      rw [flow, res]
      exact potential_raise hmem act hlow hm.le lt hset
  | push e δ idx height adm old new pos net_eq full =>
    refine ⟨by rw [height]; exact hlow, drop ?_⟩
    unfold statePot
    rw [height]
    have hj : Joined g node e := residSpec_joined (by rw [← h.res]; exact old)
    have hne : node ≠ e := (joined_nodes hg hj).2.2
    have hact : 0 < net g (fl st.flow) node := by
      have h1 := net_eq node
      rw [if_neg hne.symm, if_pos rfl] at h1
      have h2 := h'.excNonneg node hnode
      linarith
    refine potential_push hmem hact hlow old ?_ adm new ?_ ?_
    · rcases hj with hj | hj
      · exact Or.inl (mem_arcSet.mpr hj)
      · exact Or.inr (mem_arcSet.mpr hj)
    · intro w hw
      rw [net_eq w] at hw
      by_cases h1 : e = w
      · exact Or.inr h1.symm
      · left
        rw [if_neg h1] at hw
        split at hw
        · linarith
        · linarith
    · rcases full with h1 | h1
      · left
        rw [net_eq node, if_neg hne.symm, if_pos rfl, h1]
        linarith
      · right
        exact not_not.mpr h1

/-- The loop ends within the number of iterations left. -/
theorem pLoop_bound {g : Digraph} (hg : DWF g) (hna : NoAnti g.arcs) {s t : Name} (hst : s ≠ t)
    (hs : s ∈ g.nodes.keys) (ht : t ∈ g.nodes.keys)
    (hcap0 : ∀ a c, g.arcs.get? a = some c → 0 ≤ c) {D : ℕ} (hD : 0 < D)
    (hcD : ∀ a c, g.arcs.get? a = some c → c ∈ Grid D) {fuel : ℕ} {st : PState} (h : PInv g s t D st)
    (hlow : ∀ w, hgt st.height w ≤ 2 * g.nodes.length) (hf : stepsLeft g s t st < fuel) :
    ∃ st', pLoop g s t (innerNodes g s t) fuel st = .ok st' := by
  induction fuel generalizing st with
  | zero => omega
  | succ fuel ih =>
    unfold pLoop
    cases hi : (innerNodes g s t)[st.index]? with
    | none => exact ⟨st, rfl⟩
    | some node =>
      obtain ⟨st', h1, h2, _, _, h5⟩ := pStep_spec hg hna hst hs ht hcap0 hD hcD h hi
      obtain ⟨h6, h7⟩ := kind_drop hg hna hst hs ht hcap0 hi h h2 hlow h5
      simp only [h1]
      exact ih h2 h6 (by omega)

/-- The number of iterations at the start. -/
theorem stepsLeft_start {g : Digraph} (hg : DWF g) {s t : Name} (hst : s ≠ t) (hs : s ∈ g.nodes.keys)
    (ht : t ∈ g.nodes.keys) {st : PState} (hh : st.height = initHeight g s) :
    stepsLeft g s t st < g.nodes.length *
      ((2 * g.nodes.length + 1) * (4 * g.nodes.length + 1) * g.arcs.length + 4 * g.nodes.length ^ 2 + 1) := by
  set n := g.nodes.length with hn
  have hk : (innerNodes g s t).length + 2 ≤ n := by
    have h1 := inner_card hg hst hs ht
    rwa [List.toFinset_card_of_nodup (inner_nodup hg s t)] at h1
  have hA : (arcSet g).card ≤ g.arcs.length := by
    unfold arcSet
    refine (List.toFinset_card_le _).trans ?_
    unfold Dict.keys
    rw [List.length_map]
  have h1 : ∑ a ∈ arcSet g, arcPot n (hgt st.height) (fun u v => lookup st.residual u v ≠ none) a ≤
      g.arcs.length * (4 * n + 1) := by
    refine (sum_le_card_nsmul _ _ (4 * n + 1) fun a _ => arcPot_le _ _ _ _).trans ?_
    rw [smul_eq_mul]
    exact Nat.mul_le_mul_right _ hA
  have h2 : ∑ v ∈ (innerNodes g s t).toFinset, (2 * n - hgt st.height v) ≤ n * (2 * n) := by
    refine (sum_le_card_nsmul _ _ (2 * n) fun a _ => Nat.sub_le _ _).trans ?_
    rw [smul_eq_mul]
    refine Nat.mul_le_mul_right _ ?_
    have := inner_card hg hst hs ht
    omega
  classical
  have h3 : ∑ v ∈ (innerNodes g s t).toFinset,
      (@ite ℕ (0 < net g (fl st.flow) v) (Classical.propDecidable _) (hgt st.height v) 0) = 0 := by
    refine sum_eq_zero fun v hv => ?_
    have hv' := mem_inner.mp (by simpa using hv : v ∈ innerNodes g s t)
    rw [hh, initHeight_hgt hv'.1, if_neg hv'.2.1]
    split <;> rfl
  have h4 : statePot g s t st ≤ (2 * n + 1) * (4 * n + 1) * g.arcs.length + 4 * n ^ 2 := by
    unfold statePot potential
    rw [← hn, h3]
    have := Nat.mul_le_mul_left (2 * n + 1) h1
    have e1 : (2 * n + 1) * (g.arcs.length * (4 * n + 1)) = (2 * n + 1) * (4 * n + 1) * g.arcs.length := by ring
    have e2 : 4 * n ^ 2 = 2 * (n * (2 * n)) := by ring
    rw [e1] at this
    rw [e2]
    omega
  unfold stepsLeft
  generalize (2 * n + 1) * (4 * n + 1) * g.arcs.length + 4 * n ^ 2 = T at *
  have h5 : statePot g s t st * ((innerNodes g s t).length + 1) ≤ T * (n - 1) := Nat.mul_le_mul h4 (by omega)
  have h6 : T * (n - 1) + n ≤ n * (T + 1) := by
    obtain ⟨k, hk'⟩ : ∃ k, n = k + 1 := ⟨n - 1, by omega⟩
    rw [hk', Nat.add_sub_cancel, Nat.mul_add, Nat.add_mul, Nat.mul_comm T k]
    omega
  omega

end Directed
end Pytimize
