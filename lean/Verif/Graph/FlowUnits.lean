/-
Both maximum flow algorithms only add, subtract and compare capacities (`pytimize/graphs/_directed.py:335-566`), so every
number they produce lies in every group that contains the capacities. No assumption on the digraph or the names is needed.
-/
import Verif.Graph.Directed
import Mathlib.Algebra.Group.Subgroup.Basic
import Mathlib.Algebra.Group.Submonoid.BigOperators

namespace Pytimize
namespace Directed

section
variable {G : AddSubgroup ℚ} {K : Type} [DecidableEq K]

/-- All numbers stored in a dictionary lie in the group. -/
def Within (G : AddSubgroup ℚ) (d : Dict K ℚ) : Prop := ∀ p ∈ d, p.2 ∈ G

/-- All residual capacities lie in the group. -/
def ResWithin (G : AddSubgroup ℚ) (r : Resid) : Prop := ∀ p ∈ r, Within G p.2

theorem mem_set_cases {V : Type} {d : Dict K V} {k : K} {v : V} {p : K × V} (h : p ∈ d.set k v) : p = (k, v) ∨ p ∈ d := by
  induction d with
  | nil => exact Or.inl (by simpa [Dict.set] using h)
  | cons q d ih =>
    obtain ⟨a, w⟩ := q
    unfold Dict.set at h
    split at h
    · rename_i hk
      rcases List.mem_cons.mp h with h | h
      · exact Or.inl (by rw [h, hk])
      · exact Or.inr (List.mem_cons_of_mem _ h)
    · rcases List.mem_cons.mp h with h | h
      · exact Or.inr (by rw [h]; exact List.mem_cons_self)
      · exact (ih h).imp id (List.mem_cons_of_mem _)

theorem mem_of_mem_del {V : Type} {d : Dict K V} {k : K} {p : K × V} (h : p ∈ d.del k) : p ∈ d := by
  induction d with
  | nil => exact h
  | cons q d ih =>
    obtain ⟨a, w⟩ := q
    unfold Dict.del at h
    split at h
    · exact List.mem_cons_of_mem _ h
    · rcases List.mem_cons.mp h with h | h
      · rw [h]; exact List.mem_cons_self
      · exact List.mem_cons_of_mem _ (ih h)

theorem Within.set {d : Dict K ℚ} (hd : Within G d) {k : K} {x : ℚ} (hx : x ∈ G) : Within G (d.set k x) := by
  intro p hp
  rcases mem_set_cases hp with rfl | h
  · exact hx
  · exact hd p h

theorem Within.del {d : Dict K ℚ} (hd : Within G d) (k : K) : Within G (d.del k) := fun p hp => hd p (mem_of_mem_del hp)

theorem Within.get {d : Dict K ℚ} (hd : Within G d) {k : K} {x : ℚ} (h : d.get? k = some x) : x ∈ G :=
  hd _ (Dict.mem_of_get? h)

theorem Within.getD {d : Dict K ℚ} (hd : Within G d) (k : K) : (d.get? k).getD 0 ∈ G := by
  cases h : d.get? k with
  | none => exact G.zero_mem
  | some x => exact hd.get h

omit [DecidableEq K] in
theorem Within.nil : Within G ([] : Dict K ℚ) := by
  intro p hp
  cases hp

end

variable {G : AddSubgroup ℚ}

theorem min_within {x y : ℚ} (hx : x ∈ G) (hy : y ∈ G) : min x y ∈ G := by
  rcases min_choice x y with h | h <;> rw [h] <;> assumption

theorem ResWithin.row {r : Resid} (hr : ResWithin G r) (u : Name) : Within G ((r.get? u).getD []) := by
  cases h : r.get? u with
  | none => exact Within.nil
  | some d => exact hr _ (Dict.mem_of_get? h)

theorem ResWithin.of_get {r : Resid} (hr : ResWithin G r) {u : Name} {d : Dict Name ℚ} (h : r.get? u = some d) :
    Within G d := hr _ (Dict.mem_of_get? h)

theorem ResWithin.set {r : Resid} (hr : ResWithin G r) (u : Name) {d : Dict Name ℚ} (hd : Within G d) :
    ResWithin G (r.set u d) := by
  intro p hp
  rcases mem_set_cases hp with rfl | h
  · exact hd
  · exact hr p h

theorem ResWithin.put {r : Resid} (hr : ResWithin G r) (u v : Name) {x : ℚ} (hx : x ∈ G) : ResWithin G (put r u v x) :=
  hr.set u ((hr.row u).set hx)

theorem ResWithin.lookup {r : Resid} (hr : ResWithin G r) {u v : Name} {x : ℚ} (h : lookup r u v = some x) : x ∈ G := by
  unfold Directed.lookup at h
  cases hu : r.get? u with
  | none => rw [hu] at h; cases h
  | some d =>
    rw [hu] at h
    exact (hr.of_get hu).get h

theorem ResWithin.delIn {r : Resid} (hr : ResWithin G r) (u v : Name) : ResWithin G (delIn r u v) := by
  unfold Directed.delIn
  cases hu : r.get? u with
  | none => exact hr
  | some d => exact hr.set u ((hr.of_get hu).del v)

theorem ResWithin.del {r : Resid} (hr : ResWithin G r) (u : Name) : ResWithin G (r.del u) :=
  fun p hp => hr p (mem_of_mem_del hp)

theorem resLoop_within {flow : Flow} (hf : Within G flow) (l : List (Arc × ℚ)) (hl : ∀ p ∈ l, p.2 ∈ G) {r r' : Resid}
    (hr : ResWithin G r) (h : resLoop flow l r = .ok r') : ResWithin G r' := by
  induction l generalizing r with
  | nil => cases h; exact hr
  | cons p l ih =>
    obtain ⟨⟨u, v⟩, c⟩ := p
    have hc : c ∈ G := hl _ List.mem_cons_self
    have hv := hf.getD (u, v)
    simp only [resLoop] at h
    split at h
    · cases h
    · refine ih (fun p hp => hl p (List.mem_cons_of_mem _ hp)) ?_ h
      split
      · refine ResWithin.put ?_ _ _ hv
        split
        · exact hr.put _ _ (G.sub_mem hc hv)
        · exact hr
      · split
        · exact hr.put _ _ (G.sub_mem hc hv)
        · exact hr

theorem computeResidual_within {g : Digraph} (hg : Within G g.arcs) {flow : Flow} (hf : Within G flow) {r : Resid}
    (h : computeResidual g flow = .ok r) : ResWithin G r := by
  refine resLoop_within hf g.arcs hg ?_ h
  intro p hp
  cases hp

theorem updRes_within {r r' : Resid} (hr : ResWithin G r) {u v : Name} {x y : ℚ} (hx : x ∈ G) (hy : y ∈ G)
    (h : updRes r u v x y = .ok r') : ResWithin G r' := by
  unfold updRes at h
  have h2 : ResWithin G (put (put r u v x) v u y) := (hr.put u v hx).put v u hy
  simp only at h
  split at h
  · cases h
  · rename_i a _
    have h3 : ResWithin G (if a = 0 then delIn (put (put r u v x) v u y) u v else put (put r u v x) v u y) := by
      split
      · exact h2.delIn u v
      · exact h2
    split at h
    · cases h
    · rename_i b _
      split at h
      · cases h
      · rename_i du _
        generalize hr3 : (if a = 0 then delIn (put (put r u v x) v u y) u v else put (put r u v x) v u y) = r3 at h h3
        have h4 : ResWithin G (if b = 0 then delIn r3 v u else r3) := by
          split
          · exact h3.delIn v u
          · exact h3
        generalize hr4 : (if b = 0 then delIn r3 v u else r3) = r4 at h h4
        have h5 : ResWithin G (if du.length = 0 then r4.del u else r4) := by
          split
          · exact h4.del u
          · exact h4
        split at h
        · cases h
        · cases h
          split
          · exact h5.del v
          · exact h5

theorem minWhile_within {path : Dict Name Name} {r : Resid} (hr : ResWithin G r) (fuel : ℕ) {u : Option Name} {v : Name}
    {acc : Option ℚ} (ha : ∀ x, acc = some x → x ∈ G) {δ : ℚ} (h : minWhile path r fuel u v acc = .ok (some δ)) :
    δ ∈ G := by
  induction fuel generalizing u v acc with
  | zero => cases h
  | succ fuel ih =>
    cases u with
    | none =>
      simp only [minWhile, Except.ok.injEq] at h
      exact ha _ h
    | some u =>
      simp only [minWhile] at h
      cases hl : lookup r u v with
      | none => rw [hl] at h; cases h
      | some x =>
        rw [hl] at h
        refine ih (fun y hy => ?_) h
        cases hy
        cases acc with
        | none => exact hr.lookup hl
        | some m => exact min_within (ha m rfl) (hr.lookup hl)

theorem ffPush_within {arcs : Dict Arc ℚ} (hc : Within G arcs) {flow flow' : Flow} (hf : Within G flow) {r r' : Resid}
    (hr : ResWithin G r) {u v : Name} {δ : ℚ} (hδ : δ ∈ G) (h : ffPush arcs flow r u v δ = .ok (flow', r')) :
    Within G flow' ∧ ResWithin G r' := by
  unfold ffPush at h
  split at h
  · split at h
    · rename_i f c e1 e2
      have h1 := G.add_mem (hf.get e1) hδ
      cases hu : updRes r u v (c - (f + δ)) (f + δ) with
      | error e => rw [hu] at h; cases h
      | ok r1 =>
        rw [hu] at h
        cases h
        exact ⟨hf.set h1, updRes_within hr (G.sub_mem (hc.get e2) h1) h1 hu⟩
    · cases h
  · split at h
    · rename_i f c e1 e2
      have h1 := G.sub_mem (hf.get e1) hδ
      cases hu : updRes r u v (c - (f - δ)) (f - δ) with
      | error e => rw [hu] at h; cases h
      | ok r1 =>
        rw [hu] at h
        cases h
        exact ⟨hf.set h1, updRes_within hr (G.sub_mem (hc.get e2) h1) h1 hu⟩
    · cases h

theorem augWhile_within {arcs : Dict Arc ℚ} (hc : Within G arcs) {path : Dict Name Name} {δ : ℚ} (hδ : δ ∈ G) (fuel : ℕ)
    {u : Option Name} {v : Name} {flow flow' : Flow} (hf : Within G flow) {r r' : Resid} (hr : ResWithin G r)
    (h : augWhile arcs path δ fuel u v flow r = .ok (flow', r')) : Within G flow' ∧ ResWithin G r' := by
  induction fuel generalizing u v flow r with
  | zero => cases h
  | succ fuel ih =>
    cases u with
    | none =>
      simp only [augWhile, Except.ok.injEq, Prod.mk.injEq] at h
      obtain ⟨rfl, rfl⟩ := h
      exact ⟨hf, hr⟩
    | some u =>
      simp only [augWhile] at h
      cases hp : ffPush arcs flow r u v δ with
      | error e => rw [hp] at h; cases h
      | ok p =>
        obtain ⟨f1, r1⟩ := p
        rw [hp] at h
        obtain ⟨a, b⟩ := ffPush_within hc hf hr hδ hp
        exact ih a b h

theorem ffBody_within {g : Digraph} (hc : Within G g.arcs) {sink : Name} {inner : ℕ} {path : Dict Name Name}
    {flow flow' : Flow} (hf : Within G flow) {r r' : Resid} (hr : ResWithin G r)
    (h : ffBody g sink inner path flow r = .ok (flow', r')) : Within G flow' ∧ ResWithin G r' := by
  unfold ffBody at h
  split at h
  · cases h
  · split at h
    · cases h
    · cases h
    · rename_i δ hδ
      exact augWhile_within hc (minWhile_within hr inner (fun x hx => by cases hx) hδ) inner hf hr h

theorem ffLoop_within {g : Digraph} (hc : Within G g.arcs) {source sink : Name} (fuel : ℕ) {flow flow' : Flow}
    (hf : Within G flow) {r : Resid} (hr : ResWithin G r) (h : ffLoop g source sink fuel flow r = .ok flow') :
    Within G flow' := by
  induction fuel generalizing flow r with
  | zero => cases h
  | succ fuel ih =>
    unfold ffLoop at h
    split at h
    · cases h
    · cases h; exact hf
    · split at h
      · cases h
      · rename_i f1 r1 hb
        obtain ⟨a, b⟩ := ffBody_within hc hf hr hb
        exact ih a b h

theorem sumFlow_within {flow : Flow} (hf : Within G flow) (l : List Arc) : sumFlow flow l ∈ G := by
  refine list_sum_mem fun x hx => ?_
  obtain ⟨a, _, rfl⟩ := List.mem_map.mp hx
  exact hf.getD a

theorem flowValue_within {g : Digraph} {source : Name} {flow : Flow} (hf : Within G flow) : flowValue g source flow ∈ G :=
  G.sub_mem (sumFlow_within hf _) (sumFlow_within hf _)

theorem fordFulkerson_within {fuel : ℕ} {g : Digraph} {source sink : Name} (hc : Within G g.arcs) {v : ℚ} {f : Flow}
    (h : fordFulkerson fuel g source sink = .ok (v, f)) : v ∈ G ∧ Within G f := by
  have hz : Within G (zeroFlow g) := by
    intro p hp
    obtain ⟨q, _, rfl⟩ := List.mem_map.mp hp
    exact G.zero_mem
  unfold fordFulkerson at h
  split at h
  · cases h
  · split at h
    · cases h
    · rename_i r hr
      split at h
      · cases h
      · rename_i flow hl
        simp only [Except.ok.injEq, Prod.mk.injEq] at h
        obtain ⟨rfl, rfl⟩ := h
        have hw := ffLoop_within hc fuel hz (computeResidual_within hc hz hr) hl
        exact ⟨flowValue_within hw, hw⟩

/-! ### Preflow push -/

/-- All numbers of the state lie in the group. -/
structure StateWithin (G : AddSubgroup ℚ) (s : PState) : Prop where
  excess : Within G s.excess
  flow : Within G s.flow
  residual : ResWithin G s.residual
  value : ∀ v, s.value = some v → v ∈ G

theorem pushArc_within {arcs : Dict Arc ℚ} (hc : Within G arcs) {flow flow' : Flow} (hf : Within G flow) {r r' : Resid}
    (hr : ResWithin G r) {u v : Name} {δ : ℚ} (hδ : δ ∈ G) (h : pushArc arcs flow r u v δ = .ok (flow', r')) :
    Within G flow' ∧ ResWithin G r' := by
  unfold pushArc at h
  split at h
  · split at h
    · rename_i f c e1 e2
      have h1 := G.add_mem (hf.get e1) hδ
      cases hu : updRes r u v (c - (f + δ)) (f + δ) with
      | error e => rw [hu] at h; cases h
      | ok r1 =>
        rw [hu] at h
        cases h
        exact ⟨hf.set h1, updRes_within hr (G.sub_mem (hc.get e2) h1) h1 hu⟩
    · cases h
  · split at h
    · rename_i f c e1 e2
      have h1 := G.sub_mem (hf.get e1) hδ
      cases hu : updRes r v u (c - (f - δ)) (f - δ) with
      | error e => rw [hu] at h; cases h
      | ok r1 =>
        rw [hu] at h
        cases h
        exact ⟨hf.set h1, updRes_within hr (G.sub_mem (hc.get e2) h1) h1 hu⟩
    · cases h

theorem push_within {g : Digraph} (hc : Within G g.arcs) {source sink : Name} {s s' : PState} (hs : StateWithin G s)
    {node endpoint : Name} {value : ℚ} (hv : value ∈ G) (h : push g source sink s node endpoint value = .ok s') :
    StateWithin G s' := by
  unfold push at h
  split at h
  · cases h
  · rename_i ex hex
    have hδ : min ex value ∈ G := min_within (hs.excess.get hex) hv
    simp only at h
    split at h
    · cases h
    · rename_i flow residual hp
      obtain ⟨a, b⟩ := pushArc_within hc hs.flow hs.residual hδ hp
      have h1 : ∀ e1, (if node ≠ source ∧ node ≠ sink then .ok (s.excess.set node (ex - min ex value))
          else .ok s.excess : Except PyErr (Dict Name ℚ)) = .ok e1 → Within G e1 := by
        intro e1 he
        split at he
        · cases he
          exact hs.excess.set (G.sub_mem (hs.excess.get hex) hδ)
        · cases he
          exact hs.excess
      split at h
      · cases h
      · rename_i e1 he
        have h2 := h1 e1 he
        split at h
        · split at h
          · cases h
          · rename_i ee hee
            cases h
            exact ⟨h2.set (G.add_mem (h2.get hee) hδ), a, b, hs.value⟩
        · cases h
          exact ⟨h2, a, b, hs.value⟩

theorem findAdmissible_within {height : Dict Name ℕ} {hn : ℕ} {d : List (Name × ℚ)} (hd : ∀ p ∈ d, p.2 ∈ G) {e : Name}
    {x : ℚ} (h : findAdmissible height hn d = .ok (some (e, x))) : x ∈ G := by
  induction d with
  | nil => cases h
  | cons p d ih =>
    obtain ⟨e', x'⟩ := p
    unfold findAdmissible at h
    split at h
    · cases h
    · split at h
      · cases h
        exact hd _ List.mem_cons_self
      · exact ih (fun p hp => hd p (List.mem_cons_of_mem _ hp)) h

theorem discharge_within {g : Digraph} (hc : Within G g.arcs) {source sink : Name} {s s' : PState} (hs : StateWithin G s)
    {node : Name} (h : discharge g source sink s node = .ok s') : StateWithin G s' := by
  unfold discharge at h
  split at h
  · rename_i d hn hd _
    split at h
    · cases h
    · rename_i endpoint value hfa
      split at h
      · cases h
      · rename_i s1 hp
        cases h
        have h1 := push_within hc hs (findAdmissible_within (hs.residual.of_get hd) hfa) hp
        exact ⟨h1.excess, h1.flow, h1.residual, h1.value⟩
    · split at h
      · cases h
      · cases h
      · cases h
        exact ⟨hs.excess, hs.flow, hs.residual, hs.value⟩
  · cases h

theorem pStep_within {g : Digraph} (hc : Within G g.arcs) {source sink : Name} {nodes : List Name} {s s' : PState}
    (hs : StateWithin G s) {node : Name} (h : pStep g source sink nodes s node = .ok s') : StateWithin G s' := by
  unfold pStep at h
  split at h
  · cases h
  · simp only at h
    split at h
    · cases h
    · rename_i s1 h1
      cases h
      have h2 : StateWithin G s1 := by
        split at h1
        · exact discharge_within hc hs h1
        · cases h1
          exact ⟨hs.excess, hs.flow, hs.residual, hs.value⟩
      refine ⟨h2.excess, h2.flow, h2.residual, fun v hv => ?_⟩
      cases hv
      exact flowValue_within h2.flow

theorem pLoop_within {g : Digraph} (hc : Within G g.arcs) {source sink : Name} {nodes : List Name} (fuel : ℕ)
    {s s' : PState} (hs : StateWithin G s) (h : pLoop g source sink nodes fuel s = .ok s') : StateWithin G s' := by
  induction fuel generalizing s with
  | zero => cases h
  | succ fuel ih =>
    unfold pLoop at h
    split at h
    · cases h; exact hs
    · split at h
      · cases h
      · rename_i s1 h1
        exact ih (pStep_within hc hs h1) h

theorem initExcess_within {g : Digraph} {source sink : Name} {flow : Flow} (hf : Within G flow) :
    Within G (initExcess g source sink flow) := by
  unfold initExcess
  have : ∀ (l : List Name) (d : Dict Name ℚ), Within G d → Within G (l.foldl (fun ex v =>
      Dict.set ex v (sumFlow flow (ncut g (.name v)) - sumFlow flow (cut g (.name v)))) d) := by
    intro l
    induction l with
    | nil => exact fun d hd => hd
    | cons v l ih => exact fun d hd => ih _ (hd.set (G.sub_mem (sumFlow_within hf _) (sumFlow_within hf _)))
  exact this _ _ Within.nil

theorem preflowPush_within {fuel : ℕ} {g : Digraph} {source sink : Name} (hc : Within G g.arcs) {v : ℚ} {f : Flow}
    (h : preflowPush fuel g source sink = .ok (v, f)) : v ∈ G ∧ Within G f := by
  have hi : Within G (initFlow g source) := by
    intro p hp
    obtain ⟨q, hq, rfl⟩ := List.mem_map.mp hp
    simp only
    split
    · exact hc q hq
    · exact G.zero_mem
  unfold preflowPush at h
  split at h
  · cases h
  · split at h
    · cases h
    · rename_i s hs
      have h0 : StateWithin G s := by
        unfold pInit at hs
        simp only at hs
        split at hs
        · cases hs
        · rename_i r hr
          cases hs
          exact ⟨initExcess_within hi, hi, computeResidual_within hc hi hr, fun v hv => by cases hv⟩
      split at h
      · cases h
      · rename_i s' hl
        have h1 := pLoop_within hc fuel h0 hl
        split at h
        · cases h
        · rename_i v' hv
          simp only [Except.ok.injEq, Prod.mk.injEq] at h
          obtain ⟨rfl, rfl⟩ := h
          exact ⟨h1.value _ hv, h1.flow⟩

/-! ### Building digraphs -/

theorem addNode_arcs (g : Digraph) (v : Name) (q : ℚ) : (addNode g v q).1.arcs = g.arcs := by
  unfold addNode
  split <;> rfl

theorem addEnd_arcs (g : Digraph) (v : Name) (d : Demands) (i : ℕ) : (addEnd g v d i).1.arcs = g.arcs := by
  unfold addEnd
  split
  · rfl
  · exact addNode_arcs _ _ _

theorem addArc_within {g : Digraph} (hg : Within G g.arcs) (a : Arc) {w : ℚ} (hw : w ∈ G) (d : Demands) :
    Within G (addArc g a w d).1.arcs := by
  have h1 : Within G (g.arcs.setDefault a w) := by
    unfold Dict.setDefault
    split
    · exact hg
    · exact hg.set hw
  unfold addArc
  split
  · exact hg
  · split
    · exact hg
    · simp only
      split
      · split
        · exact h1
        · split
          · rename_i g2 e he
            have := congrArg (fun p => p.1.arcs) he
            simp only [addEnd_arcs] at this
            rw [← this]
            exact h1
          · rename_i g2 he
            have := congrArg (fun p => p.1.arcs) he
            simp only [addEnd_arcs] at this
            rw [addEnd_arcs, ← this]
            exact h1
      · split
        · rw [addEnd_arcs]; exact h1
        · split
          · rw [addEnd_arcs]; exact h1
          · exact h1

theorem setArcWeight_within {g : Digraph} (hg : Within G g.arcs) (a : Arc) {w : ℚ} (hw : w ∈ G) :
    Within G (setArcWeight g a w).1.arcs := by
  unfold setArcWeight
  split
  · exact hg.set hw
  · exact hg

theorem setNodeWeight_arcs (g : Digraph) (v : Name) (w : ℚ) : (setNodeWeight g v w).1.arcs = g.arcs := by
  unfold setNodeWeight
  split <;> rfl

theorem dropNode_arcs (g : Digraph) (v : Name) : (dropNode g v).1.arcs = g.arcs := by
  unfold dropNode
  split
  · simp only
    split <;> rfl
  · rfl

theorem dropUnused_arcs (g : Digraph) (v : Name) :
    (if connections g (.name v) = 0 then dropNode g v else (g, none)).1.arcs = g.arcs := by
  split
  · exact dropNode_arcs _ _
  · rfl

theorem removeArc_within {g : Digraph} (hg : Within G g.arcs) (a : Arc) (b : Bool) :
    Within G (removeArc g a b).1.arcs := by
  have h1 := hg.del a
  unfold removeArc
  split
  · simp only
    split
    · exact h1
    · split
      · split
        · split
          · rw [dropUnused_arcs]; exact h1
          · rw [dropUnused_arcs, dropUnused_arcs]; exact h1
        · exact h1
      · exact h1
  · exact hg

/-- The weight given to an arc by a call, if any, lies in the group. -/
def OpWithin (G : AddSubgroup ℚ) : Op → Prop
  | .addArc _ w _ => w ∈ G
  | .setArcWeight _ w => w ∈ G
  | _ => True

theorem step_within {g : Digraph} (hg : Within G g.arcs) {o : Op} (ho : OpWithin G o) : Within G (step g o).1.arcs := by
  cases o with
  | addNode v q => simp only [step, addNode_arcs]; exact hg
  | addArc a w d => exact addArc_within hg a ho d
  | removeArc a b => exact removeArc_within hg a b
  | setArcWeight a w => exact setArcWeight_within hg a ho
  | setNodeWeight v w => simp only [step, setNodeWeight_arcs]; exact hg

theorem run_within {g : Digraph} (hg : Within G g.arcs) (ops : List Op) (ho : ∀ o ∈ ops, OpWithin G o) :
    Within G (run g ops).arcs := by
  unfold run
  induction ops generalizing g with
  | nil => exact hg
  | cons o ops ih =>
    exact ih (step_within hg (ho o List.mem_cons_self)) fun o' h => ho o' (List.mem_cons_of_mem _ h)

theorem ctorConns_within {g : Digraph} (hg : Within G g.arcs) (u : Name) (l : List Name) :
    Within G (ctorConns g u l).1.arcs := by
  induction l generalizing g with
  | nil => exact hg
  | cons v l ih =>
    unfold ctorConns
    have h1 := addArc_within hg (u, v) G.zero_mem .none
    split
    · exact ih hg
    · split
      · rename_i e; rw [e] at h1; exact h1
      · rename_i e; rw [e] at h1; exact ih h1

theorem ctorGraph_within {g : Digraph} (hg : Within G g.arcs) (l : List (Name × List Name)) :
    Within G (ctorGraph g l).1.arcs := by
  induction l generalizing g with
  | nil => exact hg
  | cons p l ih =>
    obtain ⟨u, vs⟩ := p
    unfold ctorGraph
    have h1 := ctorConns_within hg u vs
    have h2 : Within G (addNode g u 0).1.arcs := by rw [addNode_arcs]; exact hg
    split
    · split
      · exact ih hg
      · split
        · rename_i e; rw [e] at h2; exact h2
        · rename_i e; rw [e] at h2; exact ih h2
    · split
      · rename_i e; rw [e] at h1; exact h1
      · rename_i e; rw [e] at h1; exact ih h1

theorem ctorArcs_within {g : Digraph} (hg : Within G g.arcs) (l : List (Arc × ℚ)) (hl : ∀ p ∈ l, p.2 ∈ G) :
    Within G (ctorArcs g l).1.arcs := by
  induction l generalizing g with
  | nil => exact hg
  | cons p l ih =>
    obtain ⟨a, w⟩ := p
    have hw : w ∈ G := hl _ List.mem_cons_self
    unfold ctorArcs
    split
    rename_i g1 e1 h1
    have h2 : Within G g1.arcs := by
      split at h1
      · cases h1; exact hg
      · have := addArc_within hg a hw .none
        rw [h1] at this
        exact this
    split
    · exact h2
    · have h3 := setArcWeight_within h2 a hw
      split
      · rename_i e; rw [e] at h3; exact h3
      · rename_i e; rw [e] at h3; exact ih h3 fun p hp => hl p (List.mem_cons_of_mem _ hp)

theorem ctorNodes_within {g : Digraph} (hg : Within G g.arcs) (l : List (Name × ℚ)) :
    Within G (ctorNodes g l).1.arcs := by
  induction l generalizing g with
  | nil => exact hg
  | cons p l ih =>
    obtain ⟨v, w⟩ := p
    unfold ctorNodes
    split
    rename_i g1 e1 h1
    have h2 : Within G g1.arcs := by
      split at h1
      · cases h1; exact hg
      · have := addNode_arcs g v 0
        rw [h1] at this
        rw [this]
        exact hg
    split
    · exact h2
    · have h3 : Within G (setNodeWeight g1 v w).1.arcs := by rw [setNodeWeight_arcs]; exact h2
      split
      · rename_i e; rw [e] at h3; exact h3
      · rename_i e; rw [e] at h3; exact ih h3

theorem ctor_within {graph : List (Name × List Name)} {arcs : List (Arc × ℚ)} {nodes : List (Name × ℚ)} {g : Digraph}
    (ha : ∀ p ∈ arcs, p.2 ∈ G) (h : ctor graph arcs nodes = .ok g) : Within G g.arcs := by
  have h1 := ctorGraph_within (G := G) (g := Digraph.empty) Within.nil graph
  unfold ctor at h
  split at h
  · cases h
  · rename_i g1 e1
    rw [e1] at h1
    have h2 := ctorArcs_within h1 arcs ha
    split at h
    · cases h
    · rename_i g2 e2
      rw [e2] at h2
      have h3 := ctorNodes_within h2 nodes
      split at h
      · cases h
      · rename_i g3 e3
        rw [e3] at h3
        cases h
        exact h3

theorem createResidual_within {g h : Digraph} (hg : Within G g.arcs) {flow : Flow} (hf : Within G flow)
    (e : createResidual g flow = .ok h) : Within G h.arcs := by
  unfold createResidual at e
  split at e
  · cases e
  · split at e
    · cases e
    · split at e
      · cases e
      · rename_i r hr
        have h1 := computeResidual_within hg hf hr
        refine ctor_within ?_ e
        have inner : ∀ (u : Name) (d : List (Name × ℚ)) (acc : Dict Arc ℚ), Within G acc → (∀ q ∈ d, q.2 ∈ G) →
            Within G (d.foldl (fun acc q => Dict.set acc (u, q.1) q.2) acc) := by
          intro u d
          induction d with
          | nil => exact fun acc ha _ => ha
          | cons q d ih =>
            exact fun acc ha hd => ih _ (ha.set (hd _ List.mem_cons_self)) fun q' hq => hd q' (List.mem_cons_of_mem _ hq)
        have outer : ∀ (r : Resid) (acc : Dict Arc ℚ), Within G acc → ResWithin G r → Within G
            (r.foldl (fun acc p => p.2.foldl (fun acc q => Dict.set acc (p.1, q.1) q.2) acc) acc) := by
          intro r
          induction r with
          | nil => exact fun acc ha _ => ha
          | cons p r ih =>
            exact fun acc ha hr => ih _ (inner _ _ _ ha (hr _ List.mem_cons_self))
              fun p' hp => hr p' (List.mem_cons_of_mem _ hp)
        exact outer r [] Within.nil h1

end Directed
end Pytimize
