/-
Correctness of `_bfs_path`: the parent dictionary contains a simple residual path to the target,
or the seen set is closed.
-/
import Verif.Graph.FlowTheory
import Mathlib.Data.List.Perm.Subperm

namespace Pytimize
namespace Directed

/-- Following `parent` from `v` visits the nodes `l` in order, ends at `s`, and repeats nothing. -/
inductive Trail (parent : Dict Name Name) (s : Name) : Name → List Name → Prop
  | nil : parent.get? s = none → Trail parent s s []
  | cons {v u l} : parent.get? v = some u → v ∉ u :: l → Trail parent s u l → Trail parent s v (u :: l)

/-- The arcs of the trail, starting with the last one. -/
def arcsOf : Name → List Name → List Arc
  | _, [] => []
  | v, u :: l => (u, v) :: arcsOf u l

theorem arcsOf_mem {v : Name} {l : List Name} {p : Arc} (h : p ∈ arcsOf v l) :
    p.1 ∈ l ∧ p.2 ∈ v :: l := by
  induction l generalizing v with
  | nil => simp [arcsOf] at h
  | cons u l ih =>
    simp only [arcsOf, List.mem_cons] at h
    rcases h with rfl | h
    · simp
    · obtain ⟨h1, h2⟩ := ih h
      exact ⟨List.mem_cons_of_mem _ h1, List.mem_cons_of_mem _ h2⟩

theorem Trail.nodup {parent : Dict Name Name} {s v : Name} {l : List Name}
    (h : Trail parent s v l) : (v :: l).Nodup := by
  induction h with
  | nil => simp
  | cons _ h2 _ ih => exact List.nodup_cons.mpr ⟨h2, ih⟩

theorem Trail.mono {parent parent' : Dict Name Name} {s v : Name} {l : List Name}
    (h : Trail parent s v l) (hp : ∀ x ∈ v :: l, parent'.get? x = parent.get? x) :
    Trail parent' s v l := by
  induction h with
  | nil h1 => exact Trail.nil (by rw [hp _ (by simp)]; exact h1)
  | cons h1 h2 _ ih =>
    exact Trail.cons (by rw [hp _ (by simp)]; exact h1) h2
      (ih fun x hx => hp x (List.mem_cons_of_mem _ hx))

/-- Invariant of the search. `P u x` marks residual arcs still to be looked at, `E` is a property
of the tree arcs. -/
structure BI (r : Resid) (E : Name → Name → Prop) (N : List Name) (s t : Name)
    (queue seen : List Name) (parent : Dict Name Name) (P : Name → Name → Prop) : Prop where
  src : s ∈ seen
  tgt : t ∉ seen
  nodup : seen.Nodup
  sub : ∀ x ∈ seen, x ∈ N
  queueSub : ∀ x ∈ queue, x ∈ seen
  keysSub : ∀ x, x ∈ parent.keys → x ∈ seen
  srcKey : s ∉ parent.keys
  par : ∀ x ∈ seen, x = s ∨ ∃ y, parent.get? x = some y ∧ y ∈ seen ∧ E y x
  trail : ∀ x ∈ seen, ∃ l, Trail parent s x l ∧ (∀ y ∈ l, y ∈ seen) ∧
    ∀ p ∈ arcsOf x l, lookup r p.1 p.2 ≠ none ∧ E p.1 p.2
  explored : ∀ u ∈ seen, u ∉ queue → ∀ x, lookup r u x ≠ none → x ∈ seen ∨ P u x

/-- The target was reached: a simple residual path inside `N`. -/
def Found (r : Resid) (E : Name → Name → Prop) (N : List Name) (s t : Name)
    (p : Dict Name Name) : Prop :=
  ∃ l, l ≠ [] ∧ Trail p s t l ∧ (∀ x ∈ t :: l, x ∈ N) ∧
    ∀ q ∈ arcsOf t l, lookup r q.1 q.2 ≠ none ∧ E q.1 q.2

theorem BI.length_le {r : Resid} {E : Name → Name → Prop} {N : List Name} {s t : Name}
    {queue seen : List Name} {parent : Dict Name Name} {P : Name → Name → Prop}
    (h : BI r E N s t queue seen parent P) : seen.length ≤ N.length :=
  (List.Nodup.subperm h.nodup h.sub).length_le

theorem extend_trail {r : Resid} {E : Name → Name → Prop} {N : List Name} {s t : Name}
    {queue seen : List Name} {parent : Dict Name Name} {P : Name → Name → Prop}
    (h : BI r E N s t queue seen parent P) {cur e : Name} (he : e ∉ seen) (x : Name)
    (hx : x ∈ seen) :
    ∃ l, Trail (parent.set e cur) s x l ∧ (∀ y ∈ l, y ∈ seen) ∧
      ∀ p ∈ arcsOf x l, lookup r p.1 p.2 ≠ none ∧ E p.1 p.2 := by
  obtain ⟨l, h1, h2, h3⟩ := h.trail x hx
  refine ⟨l, h1.mono fun y hy => ?_, h2, h3⟩
  have : y ∈ seen := by
    rcases List.mem_cons.mp hy with rfl | hy
    · exact hx
    · exact h2 y hy
  rw [Dict.get?_set, if_neg]
  rintro rfl
  exact he this

theorem extend_new {r : Resid} {E : Name → Name → Prop} {N : List Name} {s t : Name}
    {queue seen : List Name} {parent : Dict Name Name} {P : Name → Name → Prop}
    (h : BI r E N s t queue seen parent P) {cur e : Name} (hcur : cur ∈ seen) (he : e ∉ seen)
    (hl : lookup r cur e ≠ none) (hE : E cur e) :
    ∃ l, l ≠ [] ∧ Trail (parent.set e cur) s e l ∧ (∀ y ∈ l, y ∈ seen) ∧
      ∀ p ∈ arcsOf e l, lookup r p.1 p.2 ≠ none ∧ E p.1 p.2 := by
  obtain ⟨l, h1, h2, h3⟩ := extend_trail h (cur := cur) he cur hcur
  have hmem : ∀ y ∈ cur :: l, y ∈ seen := by
    intro y hy
    rcases List.mem_cons.mp hy with rfl | hy
    · exact hcur
    · exact h2 y hy
  refine ⟨cur :: l, by simp, Trail.cons (by simp) (fun hc => he (hmem e hc)) h1, hmem, ?_⟩
  intro p hp
  simp only [arcsOf, List.mem_cons] at hp
  rcases hp with rfl | hp
  · exact ⟨hl, hE⟩
  · exact h3 p hp

theorem bfsFor_spec {r : Resid} {E : Name → Name → Prop} {N : List Name} {s t : Name}
    (ht : t ∈ N)
    (hN : ∀ u x, lookup r u x ≠ none → x ∈ N)
    (hE : ∀ c e, c ≠ t → (c = s ∨ ∃ y, E y c ∧ y ≠ e) → lookup r c e ≠ none → e ≠ s → E c e)
    {cur : Name} (es queue seen : List Name) (parent : Dict Name Name)
    (h : BI r E N s t queue seen parent (fun u x => u = cur ∧ x ∈ es)) (hcur : cur ∈ seen)
    (hes : ∀ x ∈ es, lookup r cur x ≠ none) :
    (∃ p, bfsFor t cur es queue seen parent = .inl p ∧ Found r E N s t p) ∨
    (∃ q sn p, bfsFor t cur es queue seen parent = .inr (q, sn, p) ∧
      BI r E N s t q sn p (fun _ _ => False) ∧
      q.length + (N.length - sn.length) = queue.length + (N.length - seen.length)) := by
  induction es generalizing queue seen parent with
  | nil =>
    right
    refine ⟨queue, seen, parent, rfl, ?_, rfl⟩
    exact { h with explored := fun u hu huq x hx => (h.explored u hu huq x hx).imp id (by simp) }
  | cons e es ih =>
    by_cases he : e ∈ seen
    · have : bfsFor t cur (e :: es) queue seen parent = bfsFor t cur es queue seen parent := by
        conv_lhs => unfold bfsFor
        rw [if_pos he]
      rw [this]
      refine ih queue seen parent ?_ hcur (fun x hx => hes x (List.mem_cons_of_mem _ hx))
      exact { h with
        explored := fun u hu huq x hx => by
          rcases h.explored u hu huq x hx with h1 | ⟨h1, h2⟩
          · exact Or.inl h1
          · rcases List.mem_cons.mp h2 with rfl | h2
            · exact Or.inl he
            · exact Or.inr ⟨h1, h2⟩ }
    · have hl := hes e (by simp)
      have hes0 : e ≠ s := fun hc => he (hc ▸ h.src)
      have hEe : E cur e := by
        refine hE cur e (fun hc => h.tgt (hc ▸ hcur)) ?_ hl hes0
        rcases h.par cur hcur with h1 | ⟨y, _, h2, h3⟩
        · exact Or.inl h1
        · exact Or.inr ⟨y, h3, fun hc => he (hc ▸ h2)⟩
      obtain ⟨l, l1, l2, l3, l4⟩ := extend_new h hcur he hl hEe
      by_cases het : e = t
      · left
        refine ⟨parent.set e cur, ?_, ?_⟩
        · conv_lhs => unfold bfsFor
          rw [if_neg he]
          simp [het]
        · subst het
          refine ⟨l, l1, l2, ?_, l4⟩
          intro x hx
          rcases List.mem_cons.mp hx with rfl | hx
          · exact ht
          · exact h.sub x (l3 x hx)
      · have hstep : bfsFor t cur (e :: es) queue seen parent =
            bfsFor t cur es (queue ++ [e]) (e :: seen) (parent.set e cur) := by
          conv_lhs => unfold bfsFor
          rw [if_neg he]
          simp [het]
        rw [hstep]
        have hBI : BI r E N s t (queue ++ [e]) (e :: seen) (parent.set e cur)
            (fun u x => u = cur ∧ x ∈ es) := by
          refine ⟨List.mem_cons_of_mem _ h.src, ?_, List.nodup_cons.mpr ⟨he, h.nodup⟩, ?_, ?_, ?_, ?_,
            ?_, ?_, ?_⟩
          · intro hc
            rcases List.mem_cons.mp hc with hc | hc
            · exact het hc.symm
            · exact h.tgt hc
          · intro x hx
            rcases List.mem_cons.mp hx with rfl | hx
            · exact hN cur _ hl
            · exact h.sub x hx
          · intro x hx
            rcases List.mem_append.mp hx with hx | hx
            · exact List.mem_cons_of_mem _ (h.queueSub x hx)
            · simp at hx; simp [hx]
          · intro x hx
            rcases Dict.mem_keys_set.mp hx with rfl | hx
            · simp
            · exact List.mem_cons_of_mem _ (h.keysSub x hx)
          · intro hc
            rcases Dict.mem_keys_set.mp hc with hc | hc
            · exact hes0 hc.symm
            · exact h.srcKey hc
          · intro x hx
            rcases List.mem_cons.mp hx with rfl | hx
            · exact Or.inr ⟨cur, by simp, List.mem_cons_of_mem _ hcur, hEe⟩
            · rcases h.par x hx with h1 | ⟨y, h1, h2, h3⟩
              · exact Or.inl h1
              · refine Or.inr ⟨y, ?_, List.mem_cons_of_mem _ h2, h3⟩
                have hxe : x ≠ e := fun hc => he (hc ▸ hx)
                rw [Dict.get?_set, if_neg (by first | exact hxe | exact hxe.symm)]
                exact h1
          · intro x hx
            rcases List.mem_cons.mp hx with rfl | hx
            · exact ⟨l, l2, fun y hy => List.mem_cons_of_mem _ (l3 y hy), l4⟩
            · obtain ⟨l', m1, m2, m3⟩ := extend_trail h (cur := cur) he x hx
              exact ⟨l', m1, fun y hy => List.mem_cons_of_mem _ (m2 y hy), m3⟩
          · intro u hu huq x hx
            have hue : u ≠ e := by
              rintro rfl; exact huq (by simp)
            have hu' : u ∈ seen := by
              rcases List.mem_cons.mp hu with hc | hc
              · exact absurd hc hue
              · exact hc
            rcases h.explored u hu' (fun hc => huq (by simp [hc])) x hx with h1 | ⟨h1, h2⟩
            · exact Or.inl (List.mem_cons_of_mem _ h1)
            · rcases List.mem_cons.mp h2 with rfl | h2
              · exact Or.inl (by simp)
              · exact Or.inr ⟨h1, h2⟩
        rcases ih (queue ++ [e]) (e :: seen) (parent.set e cur) hBI (List.mem_cons_of_mem _ hcur)
          (fun x hx => hes x (List.mem_cons_of_mem _ hx)) with h1 | ⟨q, sn, p, h1, h2, h3⟩
        · exact Or.inl h1
        · right
          refine ⟨q, sn, p, h1, h2, ?_⟩
          have hle := hBI.length_le
          rw [h3]
          simp only [List.length_append, List.length_cons, List.length_nil] at hle ⊢
          omega

theorem lookup_of_row {r : Resid} {u x : Name} (h : x ∈ ((r.get? u).getD []).keys) :
    lookup r u x ≠ none := by
  unfold lookup
  cases hg : r.get? u with
  | none => simp [hg, Dict.keys] at h
  | some d =>
    simp only [hg, Option.getD_some] at h
    obtain ⟨v, hv⟩ := Dict.exists_get?_of_mem h
    simp [hv]

theorem row_of_lookup {r : Resid} {u x : Name} (h : lookup r u x ≠ none) :
    x ∈ ((r.get? u).getD []).keys := by
  unfold lookup at h
  cases hg : r.get? u with
  | none => simp [hg] at h
  | some d =>
    simp only [hg, Option.bind_some] at h
    simp only [Option.getD_some]
    obtain ⟨v, hv⟩ := Option.ne_none_iff_exists'.mp h
    exact Dict.mem_keys_of_get? hv

/-- Outcome of a complete search. -/
theorem bfsWhile_spec {r : Resid} {E : Name → Name → Prop} {N : List Name} {s t : Name}
    (ht : t ∈ N)
    (hN : ∀ u x, lookup r u x ≠ none → x ∈ N)
    (hE : ∀ c e, c ≠ t → (c = s ∨ ∃ y, E y c ∧ y ≠ e) → lookup r c e ≠ none → e ≠ s → E c e)
    (fuel : ℕ) (queue seen : List Name) (parent : Dict Name Name)
    (h : BI r E N s t queue seen parent (fun _ _ => False))
    (hf : queue.length + (N.length - seen.length) < fuel) :
    (∃ p, bfsWhile t r fuel queue seen parent = .ok (some p) ∧ Found r E N s t p) ∨
    (bfsWhile t r fuel queue seen parent = .ok none ∧ ∃ S : List Name, s ∈ S ∧ t ∉ S ∧
      (∀ x ∈ S, x ∈ N) ∧ ∀ u ∈ S, ∀ x, lookup r u x ≠ none → x ∈ S) := by
  induction fuel generalizing queue seen parent with
  | zero => omega
  | succ fuel ih =>
    cases queue with
    | nil =>
      right
      refine ⟨rfl, seen, h.src, h.tgt, h.sub, fun u hu x hx => ?_⟩
      rcases h.explored u hu (by simp) x hx with h1 | h1
      · exact h1
      · exact h1.elim
    | cons cur queue =>
      have hcur : cur ∈ seen := h.queueSub cur (by simp)
      have hBI : BI r E N s t queue seen parent
          (fun u x => u = cur ∧ x ∈ ((r.get? cur).getD []).keys) :=
        { h with
          queueSub := fun x hx => h.queueSub x (List.mem_cons_of_mem _ hx)
          explored := fun u hu huq x hx => by
            by_cases huc : u = cur
            · subst huc; exact Or.inr ⟨rfl, row_of_lookup hx⟩
            · rcases h.explored u hu (by simp [huc, huq]) x hx with h1 | h1
              · exact Or.inl h1
              · exact h1.elim }
      unfold bfsWhile
      rcases bfsFor_spec ht hN hE _ queue seen parent hBI hcur (fun x hx => lookup_of_row hx) with
        ⟨p, h1, h2⟩ | ⟨q, sn, p, h1, h2, h3⟩
      · left; exact ⟨p, by rw [h1], h2⟩
      · rw [h1]
        refine ih q sn p h2 ?_
        simp only [List.length_cons] at hf
        omega

/-- `_bfs_path` terminates and is correct. -/
theorem bfsPath_spec {r : Resid} (E : Name → Name → Prop) {N : List Name} {s t : Name}
    (hst : s ≠ t) (hs : s ∈ N) (ht : t ∈ N)
    (hN : ∀ u x, lookup r u x ≠ none → x ∈ N)
    (hE : ∀ c e, c ≠ t → (c = s ∨ ∃ y, E y c ∧ y ≠ e) → lookup r c e ≠ none → e ≠ s → E c e)
    (fuel : ℕ) (hf : N.length < fuel) :
    (∃ p, bfsPath fuel s t r = .ok (some p) ∧ Found r E N s t p) ∨
    (bfsPath fuel s t r = .ok none ∧ ∃ S : List Name, s ∈ S ∧ t ∉ S ∧
      (∀ x ∈ S, x ∈ N) ∧ ∀ u ∈ S, ∀ x, lookup r u x ≠ none → x ∈ S) := by
  unfold bfsPath
  refine bfsWhile_spec ht hN hE fuel [s] [s] [] ?_ ?_
  · refine ⟨by simp, by simpa using hst.symm, by simp, by simpa using hs, by simp, by simp [Dict.keys],
      by simp [Dict.keys], by simp, ?_, ?_⟩
    · intro x hx
      simp at hx; subst hx
      exact ⟨[], Trail.nil (by simp [Dict.get?]), by simp, by simp [arcsOf]⟩
    · intro u hu huq
      exact absurd hu huq
  · have : 0 < N.length := List.length_pos_of_mem hs
    simp only [List.length_cons, List.length_nil]
    omega

end Directed
end Pytimize
