/-
When no rounding takes place in `preflow_push`: every number it computes is a multiple of the common unit of the
capacities and at most their total.
-/
import Verif.Float.Flow
import Mathlib.Algebra.Order.BigOperators.Group.List

namespace Pytimize
namespace Floating
open _root_.Pytimize.Directed
open Finset (sum_le_sum sum_le_sum_of_subset_of_nonneg mem_filter filter_subset)

/-- The sum of all capacities. -/
def totalCap (g : Digraph) : ℚ := (g.arcs.map Prod.snd).sum

/-- The numbers from `0` to `B` in steps of `1/D`, and their differences, are floats. -/
def FineUpTo (R : Rounding) (D : ℕ) (B : ℚ) : Prop := ∀ x ∈ Grid D, |x| ≤ B → R.rd x = x

/-- A way of adding that is exact for such numbers. -/
def SumExact (sum : Flow → List Arc → ℚ) (D : ℕ) (B : ℚ) : Prop :=
  ∀ flow l, (∀ a ∈ l, 0 ≤ fl flow a ∧ fl flow a ∈ Grid D) → sumFlow flow l ≤ B → sum flow l = sumFlow flow l

theorem binary64_fine {k : ℕ} (hk : k ≤ 1074) : FineUpTo binary64 (2 ^ k) (2 ^ 53 / 2 ^ k) := by
  intro x hx hB
  refine toDouble_of_isDouble ?_
  obtain ⟨j, hj⟩ := AddSubgroup.mem_zmultiples_iff.mp hx
  have hp : (0 : ℚ) < 2 ^ k := by positivity
  have hj' : x = (j : ℚ) * 2 ^ (-(k : ℤ)) := by
    rw [← hj, zsmul_eq_mul, zpow_neg, zpow_natCast]
    push_cast
    rw [one_div]
  refine ⟨j, -(k : ℤ), hj', ?_, by omega⟩
  rw [hj', zpow_neg, zpow_natCast, abs_mul, abs_of_pos (inv_pos.mpr hp), ← div_eq_mul_inv,
    div_le_div_iff_of_pos_right hp] at hB
  exact_mod_cast hB

/-! ### Sums -/

theorem addAll_eq {R : Rounding} {D : ℕ} {B : ℚ} (hR : FineUpTo R D B) (l : List ℚ)
    (h : ∀ x ∈ l, 0 ≤ x ∧ x ∈ Grid D) (hB : l.sum ≤ B) : addAll R l = l.sum := by
  suffices H : ∀ (l : List ℚ) (a : ℚ), 0 ≤ a → a ∈ Grid D → (∀ x ∈ l, 0 ≤ x ∧ x ∈ Grid D) → a + l.sum ≤ B →
      l.foldl (fun a x => R.rd (a + x)) a = a + l.sum by
    have := H l 0 le_rfl (zero_mem _) h (by simpa using hB)
    simpa [addAll] using this
  intro l
  induction l with
  | nil => intro a _ _ _ _; simp
  | cons x l ih =>
    intro a ha haD h hB
    rw [List.sum_cons] at hB
    have hx := h x (by simp)
    have hs : 0 ≤ l.sum := List.sum_nonneg fun y hy => (h y (by simp [hy])).1
    have e : R.rd (a + x) = a + x := by
      refine hR _ (add_mem haD hx.2) ?_
      rw [abs_of_nonneg (by linarith [hx.1])]
      linarith
    rw [List.foldl_cons, e, ih (a + x) (by linarith [hx.1]) (add_mem haD hx.2) (fun y hy => h y (by simp [hy]))
      (by linarith), List.sum_cons]
    ring

theorem kahanAll_eq {R : Rounding} {D : ℕ} {B : ℚ} (hR : FineUpTo R D B) (l : List ℚ)
    (h : ∀ x ∈ l, 0 ≤ x ∧ x ∈ Grid D) (hB : l.sum ≤ B) : kahanAll R l = l.sum := by
  suffices H : ∀ (l : List ℚ) (a : ℚ), 0 ≤ a → a ∈ Grid D → (∀ x ∈ l, 0 ≤ x ∧ x ∈ Grid D) → a + l.sum ≤ B →
      l.foldl (kahanStep R) (a, 0) = (a + l.sum, 0) by
    have := H l 0 le_rfl (zero_mem _) h (by simpa using hB)
    have hs : 0 ≤ l.sum := List.sum_nonneg fun y hy => (h y hy).1
    have hm : l.sum ∈ Grid D := list_sum_mem fun y hy => (h y hy).2
    unfold kahanAll
    rw [this]
    simp only [zero_add, add_zero]
    exact hR _ hm (by rwa [abs_of_nonneg hs])
  intro l
  induction l with
  | nil => intro a _ _ _ _; simp
  | cons x l ih =>
    intro a ha haD h hB
    rw [List.sum_cons] at hB
    have hx := h x (by simp)
    have hs : 0 ≤ l.sum := List.sum_nonneg fun y hy => (h y (by simp [hy])).1
    have e : R.rd (a + x) = a + x := by
      refine hR _ (add_mem haD hx.2) ?_
      rw [abs_of_nonneg (by linarith [hx.1])]
      linarith
    have e1 : R.rd (a - (a + x)) = -x := by
      rw [show a - (a + x) = -x by ring]
      refine hR _ (neg_mem hx.2) ?_
      rw [abs_neg, abs_of_nonneg hx.1]
      linarith
    have e2 : R.rd (x - (a + x)) = -a := by
      rw [show x - (a + x) = -a by ring]
      refine hR _ (neg_mem haD) ?_
      rw [abs_neg, abs_of_nonneg ha]
      linarith [hx.1]
    have hstep : kahanStep R (a, 0) x = (a + x, 0) := by
      unfold kahanStep
      simp only [e, e1, e2, neg_add_cancel, R.rd_zero, add_zero, ite_self]
    rw [List.foldl_cons, hstep, ih (a + x) (by linarith [hx.1]) (add_mem haD hx.2) (fun y hy => h y (by simp [hy]))
      (by linarith), List.sum_cons]
    congr 1
    ring

/-- Whatever the order in which the set is traversed. -/
theorem sumArcs_exact {add : List ℚ → ℚ} {D : ℕ} {B : ℚ}
    (hadd : ∀ l : List ℚ, (∀ x ∈ l, 0 ≤ x ∧ x ∈ Grid D) → l.sum ≤ B → add l = l.sum) {order : List Arc → List Arc}
    (ho : ∀ l, (order l).Perm l) : SumExact (sumArcs add order) D B := by
  intro flow l h hB
  have hp : ((order l).map fun a => (flow.get? a).getD 0).Perm (l.map fun a => (flow.get? a).getD 0) := (ho l).map _
  unfold sumArcs
  rw [hadd _ ?_ ?_]
  · exact hp.sum_eq
  · intro x hx
    obtain ⟨a, ha, rfl⟩ := List.mem_map.mp (hp.mem_iff.mp hx)
    exact h a ha
  · rw [hp.sum_eq]
    exact hB

/-! ### Bounds by the total -/

theorem sum_arcSet {g : Digraph} (hg : DWF g) : ∑ a ∈ arcSet g, fl g.arcs a = totalCap g := by
  unfold arcSet totalCap
  rw [List.sum_toFinset _ hg.arcsWF]
  have : ∀ l : Dict Arc ℚ, l.WF → (l.keys.map (fl l)).sum = (l.map Prod.snd).sum := by
    intro l hl
    have : l.keys.map (fl l) = l.map Prod.snd := by
      unfold Dict.keys
      rw [List.map_map]
      refine List.map_congr_left fun p hp => ?_
      have := Dict.get?_of_mem hl (k := p.1) (v := p.2) hp
      simp [fl, this]
    rw [this]
  exact this _ hg.arcsWF

theorem sub_total {g : Digraph} (hg : DWF g) {f : Arc → ℚ} (h0 : ∀ a c, g.arcs.get? a = some c → 0 ≤ f a)
    (hc : ∀ a c, g.arcs.get? a = some c → f a ≤ c) (p : Arc → Prop) [DecidablePred p] :
    0 ≤ ∑ a ∈ (arcSet g).filter p, f a ∧ ∑ a ∈ (arcSet g).filter p, f a ≤ totalCap g := by
  have hnn : ∀ a ∈ arcSet g, 0 ≤ f a := fun a ha => by
    obtain ⟨c, hc'⟩ := Dict.exists_get?_of_mem (mem_arcSet.mp ha)
    exact h0 a c hc'
  refine ⟨Finset.sum_nonneg fun a ha => hnn a (mem_filter.mp ha).1, ?_⟩
  rw [← sum_arcSet hg]
  refine (sum_le_sum_of_subset_of_nonneg (filter_subset _ _) fun a ha _ => hnn a ha).trans (sum_le_sum fun a ha => ?_)
  obtain ⟨c, hc'⟩ := Dict.exists_get?_of_mem (mem_arcSet.mp ha)
  have : fl g.arcs a = c := by simp [fl, hc']
  rw [this]
  exact hc a c hc'

theorem cap_le_total {g : Digraph} (hg : DWF g) (h0 : ∀ a c, g.arcs.get? a = some c → 0 ≤ c) {a : Arc} {c : ℚ}
    (ha : g.arcs.get? a = some c) : c ≤ totalCap g := by
  rw [← sum_arcSet hg]
  have : fl g.arcs a = c := by simp [fl, ha]
  rw [← this]
  refine Finset.single_le_sum (f := fl g.arcs) (fun b hb => ?_) (mem_arcSet.mpr (Dict.mem_keys_of_get? ha))
  obtain ⟨d, hd⟩ := Dict.exists_get?_of_mem (mem_arcSet.mp hb)
  have : fl g.arcs b = d := by simp [fl, hd]
  rw [this]
  exact h0 b d hd

theorem net_le_total {g : Digraph} (hg : DWF g) {f : Arc → ℚ} (h0 : ∀ a c, g.arcs.get? a = some c → 0 ≤ f a)
    (hc : ∀ a c, g.arcs.get? a = some c → f a ≤ c) (v : Name) : |net g f v| ≤ totalCap g := by
  have h1 := sub_total hg h0 hc (fun a => a.2 = v)
  have h2 := sub_total hg h0 hc (fun a => a.1 = v)
  unfold net inflow outflow
  rw [abs_le]
  constructor <;> linarith [h1.1, h1.2, h2.1, h2.2]

/-! ### The run -/

/-- What is assumed of the digraph and the arithmetic. -/
structure NoRounding (R : Rounding) (sum : Flow → List Arc → ℚ) (g : Digraph) (D : ℕ) (B : ℚ) : Prop where
  wf : DWF g
  noAnti : NoAnti g.arcs
  cap : ∀ a c, g.arcs.get? a = some c → 0 ≤ c
  names : ∀ v ∈ g.nodes.keys, chars v = [v]
  grid : ∀ a c, g.arcs.get? a = some c → c ∈ Grid D
  total : totalCap g ≤ B
  fine : FineUpTo R D B
  sum : SumExact sum D B

namespace NoRounding
variable {R : Rounding} {sum : Flow → List Arc → ℚ} {g : Digraph} {D : ℕ} {B : ℚ}

theorem rd_between (H : NoRounding R sum g D B) {x : ℚ} {a : Arc} {c : ℚ} (ha : g.arcs.get? a = some c)
    (hx : x ∈ Grid D) (h0 : 0 ≤ x) (hc : x ≤ c) : R.rd x = x := by
  refine H.fine x hx ?_
  rw [abs_of_nonneg h0]
  exact hc.trans ((cap_le_total H.wf H.cap ha).trans H.total)

theorem resLoop_eq (H : NoRounding R sum g D B) {flow : Flow}
    (h0 : ∀ a c, g.arcs.get? a = some c → 0 ≤ fl flow a) (hD : ∀ a ∈ g.arcs.keys, fl flow a ∈ Grid D) (l : Dict Arc ℚ)
    (hl : ∀ p ∈ l, p ∈ g.arcs) (r : Resid) : resLoop R flow l r = Directed.resLoop flow l r := by
  induction l generalizing r with
  | nil => rfl
  | cons p l ih =>
    obtain ⟨⟨u, v⟩, c⟩ := p
    have hm := Dict.get?_of_mem H.wf.arcsWF (hl ((u, v), c) (by simp))
    have h1 := h0 _ _ hm
    have h2 := hD _ (Dict.mem_keys_of_get? hm)
    unfold fl at h1 h2
    unfold resLoop Directed.resLoop
    by_cases hc : c < (flow.get? (u, v)).getD 0
    · simp only [hc, if_true]
    · simp only [hc, if_false]
      rw [H.rd_between hm (sub_mem (H.grid _ _ hm) h2) (by linarith) (by linarith)]
      exact ih (fun p hp => hl p (by simp [hp])) _

theorem flow_sums (H : NoRounding R sum g D B) {flow : Flow} (h0 : ∀ a c, g.arcs.get? a = some c → 0 ≤ fl flow a)
    (hc : ∀ a c, g.arcs.get? a = some c → fl flow a ≤ c) (hD : ∀ a ∈ g.arcs.keys, fl flow a ∈ Grid D) {v : Name}
    (hv : v ∈ g.nodes.keys) :
    sum flow (cut g (.name v)) = outflow g (fl flow) v ∧ sum flow (ncut g (.name v)) = inflow g (fl flow) v := by
  have mem1 : ∀ a ∈ cut g (.name v), 0 ≤ fl flow a ∧ fl flow a ∈ Grid D := by
    intro a ha
    have hk : a ∈ g.arcs.keys := (List.mem_filter.mp ha).1
    obtain ⟨c, hc⟩ := Dict.exists_get?_of_mem hk
    exact ⟨h0 a c hc, hD a hk⟩
  have mem2 : ∀ a ∈ ncut g (.name v), 0 ≤ fl flow a ∧ fl flow a ∈ Grid D := by
    intro a ha
    have hk : a ∈ g.arcs.keys := (List.mem_filter.mp ha).1
    obtain ⟨c, hc⟩ := Dict.exists_get?_of_mem hk
    exact ⟨h0 a c hc, hD a hk⟩
  have e1 := sum_cut_name H.wf (H.names v hv) flow
  have e2 := sum_ncut_name H.wf (H.names v hv) flow
  rw [← e1, ← e2]
  refine ⟨H.sum flow _ mem1 ?_, H.sum flow _ mem2 ?_⟩
  · rw [e1]; exact (sub_total H.wf h0 hc (fun a => a.1 = v)).2.trans H.total
  · rw [e2]; exact (sub_total H.wf h0 hc (fun a => a.2 = v)).2.trans H.total

theorem flowValue_eq (H : NoRounding R sum g D B) {flow : Flow} (h0 : ∀ a c, g.arcs.get? a = some c → 0 ≤ fl flow a)
    (hc : ∀ a c, g.arcs.get? a = some c → fl flow a ≤ c) (hD : ∀ a ∈ g.arcs.keys, fl flow a ∈ Grid D) {s : Name}
    (hs : s ∈ g.nodes.keys) : flowValue R sum g s flow = Directed.flowValue g s flow := by
  obtain ⟨e1, e2⟩ := H.flow_sums h0 hc hD hs
  have hn := net_le_total H.wf h0 hc s
  unfold flowValue Directed.flowValue
  rw [e1, e2, sum_cut_name H.wf (H.names s hs), sum_ncut_name H.wf (H.names s hs)]
  refine H.fine _ ?_ ?_
  · have := neg_mem (net_mem_grid hD s)
    rwa [show -net g (fl flow) s = outflow g (fl flow) s - inflow g (fl flow) s by unfold net; ring] at this
  · rw [abs_sub_comm]
    exact hn.trans H.total

theorem initExcess_eq (H : NoRounding R sum g D B) {flow : Flow} (h0 : ∀ a c, g.arcs.get? a = some c → 0 ≤ fl flow a)
    (hc : ∀ a c, g.arcs.get? a = some c → fl flow a ≤ c) (hD : ∀ a ∈ g.arcs.keys, fl flow a ∈ Grid D) (s t : Name) :
    initExcess R sum g s t flow = Directed.initExcess g s t flow := by
  unfold initExcess Directed.initExcess
  refine List.foldl_ext _ _ _ fun ex v hv => ?_
  have hvn := (mem_inner.mp hv).1
  obtain ⟨e1, e2⟩ := H.flow_sums h0 hc hD hvn
  rw [e1, e2, sum_cut_name H.wf (H.names v hvn), sum_ncut_name H.wf (H.names v hvn)]
  congr 1
  exact H.fine _ (net_mem_grid hD v) ((net_le_total H.wf h0 hc v).trans H.total)

theorem pInit_eq (H : NoRounding R sum g D B) {s t : Name} (hst : s ≠ t) (hs : s ∈ g.nodes.keys) (ht : t ∈ g.nodes.keys) :
    pInit R sum g s t = Directed.pInit g s t := by
  obtain ⟨st, h1, h2, _, _⟩ := pInit_spec H.wf H.noAnti hst hs ht H.names H.cap H.grid
  have hfl : st.flow = initFlow g s := by
    unfold Directed.pInit at h1
    simp only at h1
    split at h1
    · cases h1
    · cases h1; rfl
  have k0 := h2.nonneg
  have kc := h2.cap
  have kD := h2.grid
  rw [hfl] at k0 kc kD
  unfold pInit Directed.pInit Directed.computeResidual
  simp only
  rw [H.resLoop_eq k0 kD g.arcs (fun _ hp => hp) [], H.initExcess_eq k0 kc kD s t]
  rfl

theorem push_eq (H : NoRounding R sum g D B) {s t : Name} {st : PState} (h : PInv g s t D st) {node e : Name} {x : ℚ}
    (hnode : node ∈ innerNodes g s t) (hact : 0 < net g (fl st.flow) node)
    (hx : lookup st.residual node e = some x) (hh : hgt st.height e + 1 = hgt st.height node) :
    push R g s t st node e x = Directed.push g s t st node e x := by
  obtain ⟨st', δ', p1, p2, _, _, _, p6, _⟩ := push_spec H.wf H.noAnti H.grid h hnode hact hx hh
  have hx' := (h.res node e).symm.trans hx
  have hj : Joined g node e := residSpec_joined (by rw [hx']; simp)
  obtain ⟨hn1, he1, hne⟩ := joined_nodes H.wf hj
  obtain ⟨_, hns, hnt⟩ := mem_inner.mp hnode
  have hex := h.exc node hnode
  have hexD : net g (fl st.flow) node ∈ Grid D := net_mem_grid h.grid node
  have hexB := net_le_total H.wf h.nonneg h.cap node
  rw [abs_of_pos hact] at hexB
  generalize hδ : min (net g (fl st.flow) node) x = δ
  have hδex : δ ≤ net g (fl st.flow) node := by rw [← hδ]; exact min_le_left _ _
  have hδx : δ ≤ x := by rw [← hδ]; exact min_le_right _ _
  have hxD : 0 < x ∧ x ∈ Grid D := by
    by_cases hm : (node, e) ∈ g.arcs.keys
    · obtain ⟨c, hc, hxc, hx0⟩ := residSpec_forward hm hx'
      exact ⟨hx0, by rw [hxc]; exact sub_mem (H.grid _ _ hc) (h.grid _ hm)⟩
    · obtain ⟨hm', hxf, hx0⟩ := residSpec_backward hm hx'
      exact ⟨hx0, by rw [hxf]; exact h.grid _ hm'⟩
  have hδ0 : 0 < δ := by rw [← hδ]; exact lt_min hact hxD.1
  have hδD : δ ∈ Grid D := by
    rw [← hδ]
    rcases min_choice (net g (fl st.flow) node) x with h1 | h1 <;> rw [h1]
    · exact hexD
    · exact hxD.2
  have harc : pushArc R g.arcs st.flow st.residual node e δ =
      Directed.pushArc g.arcs st.flow st.residual node e δ := by
    by_cases hm : (node, e) ∈ g.arcs.keys
    · have hmf : (node, e) ∈ st.flow.keys := h.keys ▸ hm
      obtain ⟨c, hc, hxc, hx0⟩ := residSpec_forward hm hx'
      obtain ⟨f, hf⟩ := Dict.exists_get?_of_mem hmf
      have hff : fl st.flow (node, e) = f := by simp [fl, hf]
      have f0 := h.nonneg _ _ hc
      have fD := h.grid _ hm
      rw [hff] at f0 fD hxc
      have e1 : R.rd (f + δ) = f + δ := H.rd_between hc (add_mem fD hδD) (by linarith) (by linarith)
      have e2 : R.rd (c - (f + δ)) = c - (f + δ) :=
        H.rd_between hc (sub_mem (H.grid _ _ hc) (add_mem fD hδD)) (by linarith) (by linarith)
      unfold pushArc Directed.pushArc
      rw [if_pos (Dict.has_iff.mpr hmf), if_pos (Dict.has_iff.mpr hmf)]
      simp only [hf, hc, e1, e2]
      rfl
    · obtain ⟨hm', hxf, hx0⟩ := residSpec_backward hm hx'
      have hmf : (e, node) ∈ st.flow.keys := h.keys ▸ hm'
      obtain ⟨c, hc⟩ := Dict.exists_get?_of_mem hm'
      obtain ⟨f, hf⟩ := Dict.exists_get?_of_mem hmf
      have hff : fl st.flow (e, node) = f := by simp [fl, hf]
      have f0 := h.nonneg _ _ hc
      have fc := h.cap _ _ hc
      have fD := h.grid _ hm'
      rw [hff] at f0 fc fD hxf
      have e1 : R.rd (f - δ) = f - δ := H.rd_between hc (sub_mem fD hδD) (by linarith) (by linarith)
      have e2 : R.rd (c - (f - δ)) = c - (f - δ) :=
        H.rd_between hc (sub_mem (H.grid _ _ hc) (sub_mem fD hδD)) (by linarith) (by linarith)
      have hno : ¬ st.flow.has (node, e) = true := by
        rw [Dict.has_iff, h.keys]; exact hm
      unfold pushArc Directed.pushArc
      rw [if_neg hno, if_neg hno]
      simp only [hf, hc, e1, e2]
      rfl
  have hd : R.rd (net g (fl st.flow) node - δ) = net g (fl st.flow) node - δ := by
    refine H.fine _ (sub_mem hexD hδD) ?_
    rw [abs_of_nonneg (by linarith)]
    linarith [H.total]
  have hin : ∀ ee, (st.excess.set node (net g (fl st.flow) node - δ)).get? e = some ee → e ≠ s ∧ e ≠ t →
      R.rd (ee + δ) = ee + δ := by
    intro ee hee hest
    have hein : e ∈ innerNodes g s t := mem_inner.mpr ⟨he1, hest⟩
    rw [Dict.get?_set, if_neg hne, h.exc e hein] at hee
    cases hee
    have hb := net_le_total H.wf p2.nonneg p2.cap e
    have hgr := net_mem_grid p2.grid e
    have hval := p2.exc e hein
    unfold Directed.push at p1
    simp only [hex, hδ] at p1
    cases hpa : Directed.pushArc g.arcs st.flow st.residual node e δ with
    | error er => simp only [hpa] at p1; cases p1
    | ok q =>
      obtain ⟨fl', r'⟩ := q
      simp only [hpa, hns, hnt, ne_eq, not_false_eq_true, and_self, if_true] at p1
      rw [if_pos hest, Dict.get?_set, if_neg hne, h.exc e hein] at p1
      simp only [Except.ok.injEq] at p1
      subst p1
      simp only [Dict.get?_set, if_true, Option.some.injEq] at hval
      rw [hval]
      exact H.fine _ hgr (hb.trans H.total)
  unfold push Directed.push
  simp only [hex, hδ, harc]
  cases hpa : Directed.pushArc g.arcs st.flow st.residual node e δ with
  | error er => rfl
  | ok q =>
    obtain ⟨fl', r'⟩ := q
    simp only [hns, hnt, ne_eq, not_false_eq_true, and_self, if_true, hd]
    by_cases hest : e ≠ s ∧ e ≠ t
    · have hest' : ¬ e = s ∧ ¬ e = t := hest
      simp only [hest', not_false_eq_true, and_self, if_true]
      cases hee : (st.excess.set node (net g (fl st.flow) node - δ)).get? e with
      | none => rfl
      | some ee => simp only [hin ee hee hest]
    · have hest' : ¬ (¬ e = s ∧ ¬ e = t) := hest
      simp only [hest', if_false]

theorem pStep_eq (H : NoRounding R sum g D B) (hD : 0 < D) {s t : Name} (hst : s ≠ t) (hs : s ∈ g.nodes.keys)
    (ht : t ∈ g.nodes.keys) {st : PState} (h : PInv g s t D st) {node : Name}
    (hi : (innerNodes g s t)[st.index]? = some node) :
    pStep R sum g s t st node = Directed.pStep g s t (innerNodes g s t) st node := by
  have hnode : node ∈ innerNodes g s t := List.mem_of_getElem? hi
  obtain ⟨hn1, hns, hnt⟩ := mem_inner.mp hnode
  have hex := h.exc node hnode
  obtain ⟨st', q1, q2, _, _⟩ := pStep_spec H.wf H.noAnti hst hs ht H.cap hD H.grid h hi
  have hdis : 0 < net g (fl st.flow) node → discharge R g s t st node = Directed.discharge g s t st node := by
    intro hact
    unfold discharge Directed.discharge
    cases hd : st.residual.get? node with
    | none => rfl
    | some d =>
      cases hhh : st.height.get? node with
      | none => rfl
      | some hh =>
        have hlook : ∀ e x, (e, x) ∈ d ↔ lookup st.residual node e = some x := by
          intro e x
          unfold lookup
          rw [hd]
          exact (Dict.get?_iff_mem (h.rwf.2 node d hd)).symm
        have hdk : ∀ p ∈ d, p.1 ∈ st.height.keys := by
          intro p hp
          rw [h.hkeys]
          have := (hlook p.1 p.2).mp hp
          rw [h.res] at this
          exact (joined_nodes H.wf (residSpec_joined (by rw [this]; simp))).2.1
        have hhg : hgt st.height node = hh := by simp [hgt, hhh]
        rcases findAdmissible_spec hh d hdk with ⟨⟨e, x⟩, p1, p2, p3⟩ | ⟨p1, p2⟩
        · simp only [p3]
          rw [H.push_eq h hnode hact ((hlook e x).mp p1) (by rw [hhg]; exact p2)]
          rfl
        · simp only [p2]
          rfl
  unfold Directed.pStep at q1
  unfold pStep Directed.pStep
  simp only [hex] at q1 ⊢
  have hcond : (if net g (fl st.flow) node > 0 then discharge R g s t st node
      else .ok { st with index := st.index + 1 }) =
      (if net g (fl st.flow) node > 0 then Directed.discharge g s t st node
      else .ok { st with index := st.index + 1 }) := by
    split
    · rename_i hact; exact hdis hact
    · rfl
  rw [hcond]
  generalize (if net g (fl st.flow) node > 0 then Directed.discharge g s t st node
      else Except.ok { st with index := st.index + 1 }) = res at q1 ⊢
  cases res with
  | error er => cases q1
  | ok s1 =>
    simp only [Except.ok.injEq] at q1 ⊢
    subst q1
    rw [H.flowValue_eq q2.nonneg q2.cap q2.grid hs]

theorem pLoop_eq (H : NoRounding R sum g D B) (hD : 0 < D) {s t : Name} (hst : s ≠ t) (hs : s ∈ g.nodes.keys)
    (ht : t ∈ g.nodes.keys) (fuel : ℕ) {st : PState} (h : PInv g s t D st) :
    pLoop R sum g s t (innerNodes g s t) fuel st = Directed.pLoop g s t (innerNodes g s t) fuel st := by
  induction fuel generalizing st with
  | zero => rfl
  | succ fuel ih =>
    unfold pLoop Directed.pLoop
    cases hi : (innerNodes g s t)[st.index]? with
    | none => rfl
    | some node =>
      obtain ⟨st', h1, h2, _, _⟩ := pStep_spec H.wf H.noAnti hst hs ht H.cap hD H.grid h hi
      simp only [H.pStep_eq hD hst hs ht h hi, h1]
      exact ih h2

/-- The run with rounding is the run without. -/
theorem preflowPush_eq (H : NoRounding R sum g D B) (hD : 0 < D) (s t : Name) (fuel : ℕ) :
    preflowPush R sum fuel g s t = Directed.preflowPush fuel g s t := by
  unfold preflowPush Directed.preflowPush
  cases he : checkEnds g s t with
  | some e => rfl
  | none =>
    obtain ⟨hs, ht, hst⟩ := checkEnds_none he
    obtain ⟨st, h1, h2, _, _⟩ := pInit_spec H.wf H.noAnti hst hs ht H.names H.cap H.grid
    simp only [H.pInit_eq hst hs ht, h1]
    rw [H.pLoop_eq hD hst hs ht fuel h2]
    rfl

end NoRounding

/-! ### More iterations -/

theorem pLoop_mono {R : Rounding} {sum : Flow → List Arc → ℚ} {g : Digraph} {s t : Name} {nodes : List Name}
    {fuel fuel' : ℕ} {st : PState} (hle : fuel ≤ fuel') (h : pLoop R sum g s t nodes fuel st ≠ .error .notTerminated) :
    pLoop R sum g s t nodes fuel' st = pLoop R sum g s t nodes fuel st := by
  induction fuel generalizing fuel' st with
  | zero => exact absurd rfl h
  | succ fuel ih =>
    obtain ⟨k, rfl⟩ : ∃ k, fuel' = k + 1 := ⟨fuel' - 1, by omega⟩
    unfold pLoop at h ⊢
    cases hi : nodes[st.index]? with
    | none => rfl
    | some node =>
      simp only [hi] at h ⊢
      cases hs : pStep R sum g s t st node with
      | error e => rfl
      | ok s1 =>
        simp only [hs] at h ⊢
        exact ih (by omega) h

theorem preflowPush_mono {R : Rounding} {sum : Flow → List Arc → ℚ} {g : Digraph} {s t : Name} {fuel fuel' : ℕ}
    {o : Except PyErr (ℚ × Flow)} (hle : fuel ≤ fuel') (h : preflowPush R sum fuel g s t = o)
    (ho : o ≠ .error .notTerminated) : preflowPush R sum fuel' g s t = o := by
  subst h
  unfold preflowPush at ho ⊢
  cases he : checkEnds g s t with
  | some e => rfl
  | none =>
    rw [he] at ho
    simp only at ho ⊢
    cases hi : pInit R sum g s t with
    | error e => rfl
    | ok st =>
      rw [hi] at ho
      simp only at ho ⊢
      rw [pLoop_mono hle]
      intro hc
      rw [hc] at ho
      exact ho rfl

end Floating
end Pytimize
