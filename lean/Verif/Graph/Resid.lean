/-
Lemmas about residual dictionaries: lookups after writes, `_compute_residual`, and the pruning
update shared by both max-flow algorithms.
-/
import Verif.Graph.DirectedWF

namespace Pytimize

namespace Dict
variable {K V : Type} [DecidableEq K]

theorem get?_append (p q : Dict K V) (k : K) :
    get? (p ++ q) k = (get? p k).or (get? q k) := by
  induction p with
  | nil => simp [get?]
  | cons a p ih =>
    obtain ⟨a, v⟩ := a
    by_cases h : a = k <;> simp [get?, h, ih]

theorem keys_append (p q : Dict K V) : keys (p ++ q) = keys p ++ keys q := by
  simp [keys]

theorem get?_map_val {W : Type} (d : Dict K V) (f : K × V → W) (k : K) :
    get? (d.map fun p => (p.1, f p)) k = (get? d k).map fun v => f (k, v) := by
  induction d with
  | nil => simp [get?]
  | cons a d ih =>
    obtain ⟨a, v⟩ := a
    by_cases h : a = k
    · subst h; simp [get?]
    · simp [get?, h, ih]

theorem keys_map_val {W : Type} (d : Dict K V) (f : K × V → W) :
    keys (d.map fun p => (p.1, f p)) = keys d := by
  simp [keys, Function.comp_def]

theorem get?_of_keys_eq {W : Type} {d : Dict K V} {d' : Dict K W} (h : keys d' = keys d) (k : K) :
    (get? d' k).isSome = (get? d k).isSome := by
  have h1 : has d' k = has d k := by
    rw [Bool.eq_iff_iff, has_iff, has_iff, h]
  exact h1

end Dict

namespace Directed

/-- Every row and the dictionary of rows have distinct keys. -/
def RWF (r : Resid) : Prop := r.WF ∧ ∀ u d, r.get? u = some d → d.WF

theorem RWF_nil : RWF [] := ⟨by simp [Dict.WF, Dict.keys], by simp [Dict.get?]⟩

theorem getD_WF {r : Resid} (h : RWF r) (u : Name) : ((r.get? u).getD []).WF := by
  cases hg : r.get? u with
  | none => simp [Dict.WF, Dict.keys]
  | some d => exact h.2 u d hg

theorem RWF_set {r : Resid} (h : RWF r) (u : Name) {d : Dict Name ℚ} (hd : d.WF) :
    RWF (r.set u d) := by
  refine ⟨Dict.WF_set h.1 u d, fun a e he => ?_⟩
  rw [Dict.get?_set] at he
  split at he
  · cases he; exact hd
  · exact h.2 a e he

theorem RWF_put {r : Resid} (h : RWF r) (u v : Name) (x : ℚ) : RWF (put r u v x) :=
  RWF_set h u (Dict.WF_set (getD_WF h u) v x)

theorem lookup_put (r : Resid) (u v : Name) (x : ℚ) (a b : Name) :
    lookup (put r u v x) a b = if u = a ∧ v = b then some x else lookup r a b := by
  unfold lookup put
  rw [Dict.get?_set]
  by_cases hu : u = a
  · subst hu
    simp only [if_true, Option.bind_some, Dict.get?_set, true_and]
    by_cases hv : v = b
    · simp [hv]
    · simp only [hv, if_false]
      cases r.get? u <;> simp [Dict.get?]
  · simp [hu]

theorem RWF_delIn {r : Resid} (h : RWF r) (u v : Name) : RWF (delIn r u v) := by
  unfold delIn
  split
  · exact h
  · rename_i d hd
    exact RWF_set h u (Dict.WF_del (h.2 u d hd) v)

theorem lookup_delIn {r : Resid} (h : RWF r) (u v a b : Name) :
    lookup (delIn r u v) a b = if u = a ∧ v = b then none else lookup r a b := by
  unfold delIn
  split
  · rename_i hn
    split
    · rename_i hc
      obtain ⟨rfl, rfl⟩ := hc
      simp [lookup, hn]
    · rfl
  · rename_i d hd
    unfold lookup
    rw [Dict.get?_set]
    by_cases hu : u = a
    · subst hu
      simp only [if_true, Option.bind_some, true_and, Dict.get?_del (h.2 u d hd), hd]
    · simp [hu]

theorem RWF_del {r : Resid} (h : RWF r) (u : Name) : RWF (r.del u) := by
  refine ⟨Dict.WF_del h.1 u, fun a e he => ?_⟩
  rw [Dict.get?_del h.1] at he
  split at he
  · cases he
  · exact h.2 a e he

theorem lookup_del_empty {r : Resid} (h : RWF r) (u : Name) (hu : r.get? u = some []) (a b : Name) :
    lookup (r.del u) a b = lookup r a b := by
  unfold lookup
  rw [Dict.get?_del h.1]
  by_cases hua : u = a
  · subst hua; simp [hu, Dict.get?]
  · simp [hua]

/-- What the update writes: both directions set, zeros removed. -/
theorem updRes_spec {r : Resid} (h : RWF r) {u v : Name} (huv : u ≠ v) (x y : ℚ) :
    ∃ r', updRes r u v x y = .ok r' ∧ RWF r' ∧
      ∀ a b, lookup r' a b =
        if u = a ∧ v = b then (if x = 0 then none else some x)
        else if v = a ∧ u = b then (if y = 0 then none else some y)
        else lookup r a b := by
  have w1 := RWF_put h u v x
  have w2 := RWF_put w1 v u y
  have l2 : ∀ a b, lookup (put (put r u v x) v u y) a b =
      if v = a ∧ u = b then some y else if u = a ∧ v = b then some x else lookup r a b := by
    intro a b; rw [lookup_put, lookup_put]
  have huv2 : lookup (put (put r u v x) v u y) u v = some x := by
    rw [l2, if_neg (fun hc => huv hc.1.symm), if_pos ⟨rfl, rfl⟩]
  generalize hr2 : put (put r u v x) v u y = r2 at *
  -- r3
  obtain ⟨r3, hr3, w3, l3, d3⟩ : ∃ r3, r3 = (if x = 0 then delIn r2 u v else r2) ∧ RWF r3 ∧
      (∀ a b, lookup r3 a b = if u = a ∧ v = b then (if x = 0 then none else some x)
        else lookup r2 a b) ∧ (∃ d, r3.get? u = some d) := by
    by_cases hx : x = 0
    · refine ⟨_, rfl, ?_, ?_, ?_⟩
      · rw [if_pos hx]; exact RWF_delIn w2 u v
      · intro a b
        rw [if_pos hx, lookup_delIn w2, if_pos hx]
      · rw [if_pos hx]
        unfold delIn
        cases hg : r2.get? u with
        | none => simp [lookup, hg] at huv2
        | some d => exact ⟨d.del v, by simp⟩
    · refine ⟨_, rfl, ?_, ?_, ?_⟩
      · rw [if_neg hx]; exact w2
      · intro a b
        rw [if_neg hx]
        split
        · rename_i hc
          obtain ⟨rfl, rfl⟩ := hc
          rw [huv2]
        · rfl
      · rw [if_neg hx]
        cases hg : r2.get? u with
        | none => simp [lookup, hg] at huv2
        | some d => exact ⟨d, rfl⟩
  have hvu3 : lookup r3 v u = some y := by
    rw [l3, if_neg (fun hc => huv hc.1), l2, if_pos ⟨rfl, rfl⟩]
  obtain ⟨r4, hr4, w4, l4, d4u, d4v⟩ : ∃ r4, r4 = (if y = 0 then delIn r3 v u else r3) ∧ RWF r4 ∧
      (∀ a b, lookup r4 a b = if v = a ∧ u = b then (if y = 0 then none else some y)
        else lookup r3 a b) ∧ (∃ d, r4.get? u = some d) ∧ (∃ d, r4.get? v = some d) := by
    obtain ⟨du, hdu⟩ := d3
    by_cases hy : y = 0
    · refine ⟨_, rfl, ?_, ?_, ?_, ?_⟩
      · rw [if_pos hy]; exact RWF_delIn w3 v u
      · intro a b
        rw [if_pos hy, lookup_delIn w3, if_pos hy]
      · rw [if_pos hy]
        unfold delIn
        cases hg : r3.get? v with
        | none => exact ⟨du, hdu⟩
        | some d => exact ⟨du, by simp [huv.symm, hdu]⟩
      · rw [if_pos hy]
        unfold delIn
        cases hg : r3.get? v with
        | none => simp [lookup, hg] at hvu3
        | some d => exact ⟨d.del u, by simp⟩
    · refine ⟨_, rfl, ?_, ?_, ?_, ?_⟩
      · rw [if_neg hy]; exact w3
      · intro a b
        rw [if_neg hy]
        split
        · rename_i hc
          obtain ⟨rfl, rfl⟩ := hc
          rw [hvu3]
        · rfl
      · rw [if_neg hy]; exact ⟨du, hdu⟩
      · rw [if_neg hy]
        cases hg : r3.get? v with
        | none => simp [lookup, hg] at hvu3
        | some d => exact ⟨d, rfl⟩
  obtain ⟨du, hdu⟩ := d4u
  obtain ⟨dv, hdv⟩ := d4v
  obtain ⟨r5, hr5, w5, l5, d5⟩ : ∃ r5, r5 = (if du.length = 0 then r4.del u else r4) ∧ RWF r5 ∧
      (∀ a b, lookup r5 a b = lookup r4 a b) ∧ r5.get? v = some dv := by
    by_cases hl : du.length = 0
    · refine ⟨_, rfl, ?_, ?_, ?_⟩
      · rw [if_pos hl]; exact RWF_del w4 u
      · intro a b; rw [if_pos hl]
        exact lookup_del_empty w4 u (by rw [hdu, List.eq_nil_of_length_eq_zero hl]) a b
      · rw [if_pos hl, Dict.get?_del w4.1, if_neg huv]; exact hdv
    · refine ⟨_, rfl, ?_, ?_, ?_⟩
      · rw [if_neg hl]; exact w4
      · intro a b; rw [if_neg hl]
      · rw [if_neg hl]; exact hdv
  refine ⟨if dv.length = 0 then r5.del v else r5, ?_, ?_, ?_⟩
  · unfold updRes
    simp only [hr2, huv2]
    rw [← hr3]
    simp only [hvu3]
    rw [← hr4]
    simp only [hdu]
    rw [← hr5]
    simp only [d5]
  · split
    · exact RWF_del w5 v
    · exact w5
  · intro a b
    have : lookup (if dv.length = 0 then r5.del v else r5) a b = lookup r5 a b := by
      split
      · rename_i hl
        exact lookup_del_empty w5 v (by rw [d5, List.eq_nil_of_length_eq_zero hl]) a b
      · rfl
    rw [this, l5, l4, l3, l2]
    by_cases h1 : v = a ∧ u = b
    · obtain ⟨rfl, rfl⟩ := h1
      simp [huv]
    · rw [if_neg h1, if_neg h1, if_neg h1]
      by_cases h2 : u = a ∧ v = b
      · rw [if_pos h2, if_pos h2]
      · rw [if_neg h2, if_neg h2, if_neg h2]

/-! ### `_compute_residual` -/

/-- The flow value of an arc. -/
def fl (flow : Flow) (a : Arc) : ℚ := (flow.get? a).getD 0

/-- No two arcs in opposite directions between the same nodes. -/
def NoAnti (arcs : Dict Arc ℚ) : Prop := ∀ u v, (u, v) ∈ arcs.keys → (v, u) ∉ arcs.keys

/-- Specification of the residual network of a flow `f` (no opposite arcs): the spare capacity of
an arc, or the flow on the opposite arc, if positive. -/
def residSpec (arcs : Dict Arc ℚ) (f : Arc → ℚ) (a b : Name) : Option ℚ :=
  match arcs.get? (a, b) with
  | some c => if f (a, b) < c then some (c - f (a, b)) else none
  | none => if (b, a) ∈ arcs.keys ∧ 0 < f (b, a) then some (f (b, a)) else none

theorem NoAnti.sublist {p q : Dict Arc ℚ} (h : NoAnti (p ++ q)) : NoAnti p := by
  intro u v huv hvu
  exact h u v (by rw [Dict.keys_append]; simp [huv]) (by rw [Dict.keys_append]; simp [hvu])

theorem resLoop_spec (flow : Flow) (l p : Dict Arc ℚ) (r : Resid)
    (hwf : Dict.WF (p ++ l)) (hna : NoAnti (p ++ l)) (hloop : ∀ u v, (u, v) ∈ Dict.keys l → u ≠ v)
    (hr : RWF r) (hl : ∀ a b, lookup r a b = residSpec p (fl flow) a b) :
    (∃ a c, (a, c) ∈ l ∧ c < fl flow a ∧ resLoop flow l r = .error .arithmeticError) ∨
    ((∀ a c, (a, c) ∈ l → fl flow a ≤ c) ∧ ∃ r', resLoop flow l r = .ok r' ∧ RWF r' ∧
      ∀ a b, lookup r' a b = residSpec (p ++ l) (fl flow) a b) := by
  induction l generalizing p r with
  | nil => right; exact ⟨by simp, r, rfl, hr, by simpa using hl⟩
  | cons q l ih =>
    obtain ⟨⟨u, v⟩, c⟩ := q
    have hne : u ≠ v := hloop u v (by simp [Dict.keys])
    by_cases hc : c < fl flow (u, v)
    · left
      refine ⟨(u, v), c, by simp, hc, ?_⟩
      unfold resLoop
      exact if_pos hc
    · have hwf' : Dict.WF ((p ++ [((u, v), c)]) ++ l) := by simpa using hwf
      have hna' : NoAnti ((p ++ [((u, v), c)]) ++ l) := by simpa using hna
      set f := fl flow (u, v) with hf
      -- the state after this iteration
      set r1 := if c > f then put r u v (c - f) else r with hr1
      set r2 := if f > 0 then put r1 v u f else r1 with hr2
      have hstep : resLoop flow (((u, v), c) :: l) r = resLoop flow l r2 := by
        conv_lhs => unfold resLoop
        exact if_neg hc
      have w1 : RWF r1 := by rw [hr1]; split; exacts [RWF_put hr _ _ _, hr]
      have w2 : RWF r2 := by rw [hr2]; split; exacts [RWF_put w1 _ _ _, w1]
      -- (u,v), (v,u) are not in p
      have huvp : (u, v) ∉ Dict.keys p := by
        intro hm
        have : ((p ++ ((u, v), c) :: l).map Prod.fst).Nodup := hwf
        rw [List.map_append, List.nodup_append] at this
        exact this.2.2 (u, v) hm (u, v) (by simp) rfl
      have hvup : (v, u) ∉ Dict.keys p := by
        intro hm
        exact hna v u (by rw [Dict.keys_append]; simp [hm])
          (by rw [Dict.keys_append]; simp [Dict.keys])
      have hg : ∀ k, Dict.get? (p ++ [((u, v), c)]) k =
          if (u, v) = k then some c else Dict.get? p k := by
        intro k
        rw [Dict.get?_append]
        by_cases hk : (u, v) = k
        · subst hk; simp [Dict.get?_eq_none_iff.mpr huvp, Dict.get?]
        · simp [Dict.get?, hk]
      have hk : ∀ k, k ∈ Dict.keys (p ++ [((u, v), c)]) ↔ k = (u, v) ∨ k ∈ Dict.keys p := by
        intro k; rw [Dict.keys_append]; simp [Dict.keys, or_comm]
      have hl2 : ∀ a b, lookup r2 a b = residSpec (p ++ [((u, v), c)]) (fl flow) a b := by
        intro a b
        have e1 : lookup r1 a b = if (u = a ∧ v = b) ∧ c > f then some (c - f) else lookup r a b := by
          rw [hr1]
          by_cases hcf : c > f
          · rw [if_pos hcf, lookup_put]; simp [hcf]
          · rw [if_neg hcf, if_neg (fun hh => hcf hh.2)]
        have e2 : lookup r2 a b = if (v = a ∧ u = b) ∧ f > 0 then some f else lookup r1 a b := by
          rw [hr2]
          by_cases hcf : f > 0
          · rw [if_pos hcf, lookup_put]; simp [hcf]
          · rw [if_neg hcf, if_neg (fun hh => hcf hh.2)]
        rw [e2, e1, hl]
        unfold residSpec
        rw [hg]
        simp only [hk]
        have hn1 := Dict.get?_eq_none_iff.mpr huvp
        have hn2 := Dict.get?_eq_none_iff.mpr hvup
        by_cases h1 : u = a ∧ v = b
        · obtain ⟨rfl, rfl⟩ := h1
          by_cases hcf : f < c <;> simp [hne, Ne.symm hne, hn1, hcf, ← hf, hvup]
        · by_cases h2 : v = a ∧ u = b
          · obtain ⟨rfl, rfl⟩ := h2
            by_cases hcf : 0 < f <;> simp [hne, Ne.symm hne, hn2, hcf, ← hf, huvp]
          · have h3 : ¬ (b, a) = (u, v) := fun hh => h2 (by cases hh; exact ⟨rfl, rfl⟩)
            have h4 : ¬ (u, v) = (a, b) := fun hh => h1 (by cases hh; exact ⟨rfl, rfl⟩)
            simp only [h1, h2, h3, h4, false_and, if_false, false_or]
      rw [hstep]
      rcases ih (p ++ [((u, v), c)]) r2 hwf' hna'
        (fun a b hab => hloop a b (by simp [Dict.keys] at hab ⊢; exact Or.inr hab)) w2 hl2 with
        ⟨a, c', h1, h2, h3⟩ | ⟨h1, r', h2, h3, h4⟩
      · exact Or.inl ⟨a, c', by simp [h1], h2, h3⟩
      · right
        refine ⟨?_, r', h2, h3, by simpa using h4⟩
        intro a c' hac
        rcases List.mem_cons.mp hac with hac | hac
        · cases hac; exact not_lt.mp hc
        · exact h1 a c' hac

theorem computeResidual_spec {g : Digraph} (h : DWF g) (hna : NoAnti g.arcs) (flow : Flow) :
    (∃ a c, g.arcs.get? a = some c ∧ c < fl flow a ∧
      computeResidual g flow = .error .arithmeticError) ∨
    ((∀ a c, g.arcs.get? a = some c → fl flow a ≤ c) ∧ ∃ r, computeResidual g flow = .ok r ∧ RWF r ∧
      ∀ a b, lookup r a b = residSpec g.arcs (fl flow) a b) := by
  rcases resLoop_spec flow g.arcs [] [] h.arcsWF hna h.noLoop RWF_nil
    (by intro a b; simp [lookup, residSpec, Dict.get?, Dict.keys]) with
    ⟨a, c, h1, h2, h3⟩ | ⟨h1, h2⟩
  · exact Or.inl ⟨a, c, Dict.get?_of_mem h.arcsWF h1, h2, h3⟩
  · exact Or.inr ⟨fun a c hac => h1 a c (Dict.mem_of_get? hac), h2⟩

/-! ### Flattening -/

theorem flattenRow (u : Name) (d : Dict Name ℚ) (hd : d.WF) (acc : Dict Arc ℚ) (a b : Name) :
    Dict.get? (d.foldl (fun acc q => Dict.set acc (u, q.1) q.2) acc) (a, b) =
      if u = a then (d.get? b).or (Dict.get? acc (a, b)) else Dict.get? acc (a, b) := by
  induction d generalizing acc with
  | nil => simp [Dict.get?]
  | cons q d ih =>
    obtain ⟨k, x⟩ := q
    simp only [Dict.WF, Dict.keys, List.map_cons, List.nodup_cons] at hd
    rw [List.foldl_cons, ih hd.2, Dict.get?_set]
    by_cases hu : u = a
    · subst hu
      by_cases hk : k = b
      · subst hk
        have : Dict.get? d k = none := Dict.get?_eq_none_iff.mpr hd.1
        simp [Dict.get?, this]
      · simp [Dict.get?, hk]
    · simp [hu]

theorem flattenRow_WF (u : Name) (d : Dict Name ℚ) (acc : Dict Arc ℚ) (h : acc.WF) :
    Dict.WF (d.foldl (fun acc q => Dict.set acc (u, q.1) q.2) acc) := by
  induction d generalizing acc with
  | nil => exact h
  | cons q d ih => exact ih _ (Dict.WF_set h _ _)

theorem flatten_get? {r : Resid} (h : RWF r) (a b : Name) :
    (flattenResid r).get? (a, b) = lookup r a b := by
  have key : ∀ (r : Resid) (acc : Dict Arc ℚ), RWF r →
      (∀ x y, x ∈ r.keys → Dict.get? acc (x, y) = none) →
      Dict.get? (r.foldl (fun acc p => p.2.foldl (fun acc q => Dict.set acc (p.1, q.1) q.2) acc) acc)
        (a, b) = (lookup r a b).or (Dict.get? acc (a, b)) := by
    intro r
    induction r with
    | nil => intro acc _ _; simp [lookup, Dict.get?]
    | cons q r ih =>
      obtain ⟨u, d⟩ := q
      intro acc hr hacc
      have hnd := hr.1
      simp only [Dict.WF, Dict.keys, List.map_cons, List.nodup_cons] at hnd
      have hd : d.WF := hr.2 u d (by simp [Dict.get?])
      have hr' : RWF r := by
        refine ⟨hnd.2, fun x e hx => hr.2 x e ?_⟩
        have : x ≠ u := by
          rintro rfl; exact hnd.1 (Dict.mem_keys_of_get? hx)
        simp [Dict.get?, Ne.symm this, hx]
      rw [List.foldl_cons, ih _ hr']
      · rw [flattenRow u d hd]
        unfold lookup
        by_cases hu : u = a
        · subst hu
          have : Dict.get? r u = none := Dict.get?_eq_none_iff.mpr hnd.1
          simp [this, Dict.get?]
        · simp [Dict.get?, hu]
      · intro x y hx
        rw [flattenRow u d hd]
        have hxu : u ≠ x := by rintro rfl; exact hnd.1 hx
        rw [if_neg hxu]
        exact hacc x y (by simp [Dict.keys] at hx ⊢; exact Or.inr hx)
  unfold flattenResid
  rw [key r [] h (by simp [Dict.get?])]
  simp [Dict.get?]

theorem flatten_WF (r : Resid) : (flattenResid r).WF := by
  have key : ∀ (r : Resid) (acc : Dict Arc ℚ), acc.WF →
      Dict.WF (r.foldl (fun acc p => p.2.foldl (fun acc q => Dict.set acc (p.1, q.1) q.2) acc) acc) := by
    intro r
    induction r with
    | nil => intro acc h; exact h
    | cons q r ih => intro acc h; exact ih _ (flattenRow_WF _ _ _ h)
  exact key r [] (by simp [Dict.WF, Dict.keys])

/-- The constructor from arcs alone: succeeds unless there is a self loop, and stores exactly the
given weights. -/
theorem ctorArcs_ok {g : Digraph} (h : DWF g) (l : Dict Arc ℚ) (hl : l.WF)
    (hloop : ∀ u v, (u, v) ∈ l.keys → u ≠ v) :
    ∃ g', ctorArcs g l = (g', none) ∧
      (∀ a, g'.arcs.get? a = (l.get? a).or (g.arcs.get? a)) ∧
      (∀ x, x ∈ g'.nodes.keys ↔ x ∈ g.nodes.keys ∨ ∃ y, (x, y) ∈ l.keys ∨ (y, x) ∈ l.keys) := by
  induction l generalizing g with
  | nil => exact ⟨g, rfl, by simp [Dict.get?], by simp [Dict.keys]⟩
  | cons q l ih =>
    obtain ⟨a, w⟩ := q
    simp only [Dict.WF, Dict.keys, List.map_cons, List.nodup_cons] at hl
    have hne : a.1 ≠ a.2 := hloop a.1 a.2 (by simp [Dict.keys])
    obtain ⟨g1, e1, w1, ha1, hn1, hg1⟩ : ∃ g1,
        (if hasArc g a then (g, none) else addArc g a w .none) = (g1, (none : Option PyErr)) ∧ DWF g1 ∧
        a ∈ g1.arcs.keys ∧
        (∀ x, x ∈ g1.nodes.keys ↔ x ∈ g.nodes.keys ∨ x = a.1 ∨ x = a.2) ∧
        ∀ k, k ≠ a → g1.arcs.get? k = g.arcs.get? k := by
      by_cases hc : hasArc g a = true
      · refine ⟨g, by rw [if_pos hc], h, hasArc_iff.mp hc, fun x => ?_, fun k _ => rfl⟩
        have h1 := h.endsTail a.1 a.2 (hasArc_iff.mp hc)
        have h2 := h.endsHead a.1 a.2 (hasArc_iff.mp hc)
        constructor
        · exact Or.inl
        · rintro (hx | rfl | rfl) <;> assumption
      · have hs := addArc_spec h a w .none (DemandsOk_none _ _)
        have hs2 := hs.2.2 (fun hm => hc (hasArc_iff.mpr hm)) hne
        refine ⟨(addArc g a w .none).1, ?_, hs.1, ?_, ?_, ?_⟩
        · rw [if_neg hc]; exact Prod.ext rfl hs2.1
        · rw [hs2.2.1]; exact Dict.mem_keys_setDefault.mpr (Or.inl rfl)
        · intro x; rw [hs2.2.2]; tauto
        · intro k hk; rw [hs2.2.1, Dict.get?_setDefault, if_neg (Ne.symm hk)]
    have e2 : setArcWeight g1 a w = ({ g1 with arcs := g1.arcs.set a w }, none) := by
      simp [setArcWeight, hasArc_iff.mpr ha1]
    have w2 := (setArcWeight_spec w1 a w).1
    rw [e2] at w2
    obtain ⟨g', f1, f2, f3⟩ := ih w2 hl.2 (fun u v huv => hloop u v (by
      simp only [Dict.keys, List.map_cons, List.mem_cons]; exact Or.inr huv))
    refine ⟨g', ?_, ?_, ?_⟩
    · unfold ctorArcs
      simp only [e1, e2, f1]
    · intro k
      rw [f2]
      simp only [Dict.get?_set, Dict.get?]
      by_cases hk : a = k
      · subst hk
        have : Dict.get? l a = none := Dict.get?_eq_none_iff.mpr hl.1
        simp [this]
      · simp only [hk, if_false]
        rw [hg1 k (Ne.symm hk)]
    · intro x
      rw [f3]
      simp only [hn1]
      obtain ⟨s, t⟩ := a
      simp only [Dict.keys, List.map_cons, List.mem_cons]
      constructor
      · rintro ((hx | rfl | rfl) | ⟨y, hy⟩)
        · exact Or.inl hx
        · exact Or.inr ⟨t, Or.inl (Or.inl rfl)⟩
        · exact Or.inr ⟨s, Or.inr (Or.inl rfl)⟩
        · exact Or.inr ⟨y, hy.imp Or.inr Or.inr⟩
      · rintro (hx | ⟨y, (hy | hy) | (hy | hy)⟩)
        · exact Or.inl (Or.inl hx)
        · cases hy; exact Or.inl (Or.inr (Or.inl rfl))
        · exact Or.inr ⟨y, Or.inl hy⟩
        · cases hy; exact Or.inl (Or.inr (Or.inr rfl))
        · exact Or.inr ⟨y, Or.inr hy⟩

end Directed
end Pytimize
