/-
Digraphs on which Ford–Fulkerson never pushes along a reversed arc.
-/
import Verif.Graph.FordFulkerson

namespace Pytimize
namespace Directed

/-- A route from `s` to `v` along `R` that meets no node twice; `l` are the nodes before `v`, the last one first. -/
inductive Route (R : Name → Name → Prop) (s : Name) : Name → List Name → Prop
  | nil : Route R s s []
  | cons {v u l} : R u v → v ∉ u :: l → Route R s u l → Route R s v (u :: l)

/-- The arc lies on a route from `s` to `t` that follows the arcs. -/
def Useful (g : Digraph) (s t : Name) (a : Arc) : Prop :=
  ∃ l, Route (fun u v => (u, v) ∈ g.arcs.keys) s t l ∧ a ∈ arcsOf t l

/-- A route from `s` to `t` that follows arcs, or useful arcs in the opposite direction, only follows arcs. (No pair of
routes from `s` to `t` crosses over as in the Wheatstone bridge.) -/
def OneWay (g : Digraph) (s t : Name) : Prop :=
  ∀ l, Route (fun u v => (u, v) ∈ g.arcs.keys ∨ Useful g s t (v, u)) s t l → ∀ a ∈ arcsOf t l, a ∈ g.arcs.keys

theorem Route.mono {R R' : Name → Name → Prop} {s v : Name} {l : List Name} (h : Route R s v l)
    (hR : ∀ a ∈ arcsOf v l, R' a.1 a.2) : Route R' s v l := by
  induction h with
  | nil => exact .nil
  | cons _ hn _ ih =>
    exact .cons (hR (_, _) (by simp [arcsOf])) hn (ih fun a ha => hR a (by simp [arcsOf, ha]))

theorem Route.arcs {R : Name → Name → Prop} {s v : Name} {l : List Name} (h : Route R s v l) :
    ∀ a ∈ arcsOf v l, R a.1 a.2 := by
  induction h with
  | nil => simp [arcsOf]
  | cons hr _ _ ih =>
    intro a ha
    simp only [arcsOf, List.mem_cons] at ha
    rcases ha with rfl | ha
    · exact hr
    · exact ih a ha

theorem Trail.route {p : Dict Name Name} {R : Name → Name → Prop} {s v : Name} {l : List Name} (h : Trail p s v l)
    (hR : ∀ a ∈ arcsOf v l, R a.1 a.2) : Route R s v l := by
  induction h with
  | nil => exact .nil
  | cons _ hn _ ih =>
    exact .cons (hR (_, _) (by simp [arcsOf])) hn (ih fun a ha => hR a (by simp [arcsOf, ha]))

theorem Trail.unique {p : Dict Name Name} {s v : Name} {l l' : List Name} (ha : Trail p s v l) (hb : Trail p s v l') :
    l = l' := by
  induction ha generalizing l' with
  | nil hn =>
    cases hb with
    | nil => rfl
    | cons hc _ _ => rw [hn] at hc; cases hc
  | cons hc _ _ ih =>
    cases hb with
    | nil hn => rw [hn] at hc; cases hc
    | cons hc' _ ht' => rw [hc] at hc'; cases hc'; rw [ih ht']

/-- The arcs with room left. -/
def room (g : Digraph) (f : Arc → ℚ) : ℕ := (g.arcs.filter fun p => decide (f p.1 < p.2)).length

/-- One round of the loop on such a digraph. -/
theorem oneWay_round {g : Digraph} (hg : DWF g) (hna : NoAnti g.arcs) {s t : Name} (hst : s ≠ t)
    (hs : s ∈ g.nodes.keys) (ht : t ∈ g.nodes.keys) (hw : OneWay g s t) {flow : Flow} {r : Resid}
    (h : FwdInv g s t flow r) (hz : ∀ a, fl flow a ≠ 0 → Useful g s t a) :
    bfsPath (innerFuel g) s t r = .ok none ∨
    ∃ p, bfsPath (innerFuel g) s t r = .ok (some p) ∧
      (∀ l, Trail p s t l → ∀ q ∈ arcsOf t l, q ∈ g.arcs.keys) ∧
      ∃ flow' r', ffBody g t (innerFuel g) p flow r = .ok (flow', r') ∧ FwdInv g s t flow' r' ∧
        (∀ a, fl flow' a ≠ 0 → Useful g s t a) ∧ room g (fl flow') < room g (fl flow) := by
  have hN : ∀ u x, lookup r u x ≠ none → x ∈ g.nodes.keys := fun u x hx => (joined_nodes hg (h.sup u x hx)).2.1
  have hlen : g.nodes.keys.length < innerFuel g := by
    unfold innerFuel; rw [keys_length]; omega
  rcases bfsPath_spec (r := r) (fun _ _ => True) hst hs ht hN (fun _ _ _ _ _ _ => trivial) _ hlen with
    ⟨p, h1, l, l1, l2, l3, l4⟩ | ⟨h1, -⟩
  · right
    have hfw : ∀ q ∈ arcsOf t l, q ∈ g.arcs.keys := by
      refine hw l (l2.route fun a ha => ?_)
      by_cases hm : (a.1, a.2) ∈ g.arcs.keys
      · exact Or.inl hm
      · right
        apply hz
        intro h0
        apply (l4 a ha).1
        rw [h.res]
        unfold residSpec
        rw [Dict.get?_eq_none_iff.mpr hm]
        simp [h0]
    have hroute : Route (fun u v => (u, v) ∈ g.arcs.keys) s t l := l2.route fun a ha => hfw a ha
    obtain ⟨δ, flow', r', g1, g2, g3, -, -, g6, g7, q0, hq0, c, hc, hδ⟩ :=
      ffBody_forward hg hna hst h l1 l2 l3 (fun q hq => (l4 q hq).1) hfw
    refine ⟨p, h1, fun l' hl' => hl'.unique l2 ▸ hfw, flow', r', g1, g2, fun a ha => ?_, ?_⟩
    · by_cases hm : a ∈ arcsOf t l
      · exact ⟨l, hroute, hm⟩
      · rw [g6 a fun q hq he => hm (he ▸ hq)] at ha
        exact hz a ha
    · have hle : ∀ a, fl flow a ≤ fl flow' a := fun a => by
        by_cases hm : a ∈ arcsOf t l
        · rw [g7 a hm]; linarith
        · rw [g6 a fun q hq he => hm (he ▸ hq)]
      unfold room
      have hsub : g.arcs.filter (fun p => decide (fl flow' p.1 < p.2)) =
          (g.arcs.filter fun p => decide (fl flow p.1 < p.2)).filter fun p => decide (fl flow' p.1 < p.2) := by
        rw [List.filter_filter]
        refine List.filter_congr fun p _ => ?_
        rw [Bool.eq_iff_iff]
        simp only [Bool.and_eq_true, decide_eq_true_eq]
        exact ⟨fun hp => ⟨hp, (hle p.1).trans_lt hp⟩, fun hp => hp.1⟩
      rw [hsub]
      refine List.length_filter_lt_length_iff_exists.mpr ⟨(q0, c), ?_, ?_⟩
      · rw [List.mem_filter]
        exact ⟨Dict.mem_of_get? hc, by simp; linarith⟩
      · have := g7 q0 hq0
        simp; linarith
  · exact Or.inl h1

theorem oneWay_run {g : Digraph} (hg : DWF g) (hna : NoAnti g.arcs) {s t : Name} (hst : s ≠ t)
    (hs : s ∈ g.nodes.keys) (ht : t ∈ g.nodes.keys) (hw : OneWay g s t) (fuel : ℕ) {flow : Flow} {r : Resid}
    (h : FwdInv g s t flow r) (hz : ∀ a, fl flow a ≠ 0 → Useful g s t a) : ForwardRun g s t fuel flow r := by
  induction fuel generalizing flow r with
  | zero => trivial
  | succ fuel ih =>
    unfold ForwardRun
    rcases oneWay_round hg hna hst hs ht hw h hz with h1 | ⟨p, h1, h2, flow', r', h3, h4, h5, -⟩
    · rw [h1]; trivial
    · rw [h1]
      refine ⟨h2, ?_⟩
      rw [h3]
      exact ih h4 h5

theorem oneWay_terminates {g : Digraph} (hg : DWF g) (hna : NoAnti g.arcs) {s t : Name} (hst : s ≠ t)
    (hs : s ∈ g.nodes.keys) (ht : t ∈ g.nodes.keys) (hw : OneWay g s t) (fuel : ℕ) {flow : Flow} {r : Resid}
    (h : FwdInv g s t flow r) (hz : ∀ a, fl flow a ≠ 0 → Useful g s t a) (hf : room g (fl flow) < fuel) :
    ∃ flow', ffLoop g s t fuel flow r = .ok flow' := by
  induction fuel generalizing flow r with
  | zero => omega
  | succ fuel ih =>
    unfold ffLoop
    rcases oneWay_round hg hna hst hs ht hw h hz with h1 | ⟨p, h1, h2, flow', r', h3, h4, h5, h6⟩
    · rw [h1]; exact ⟨flow, rfl⟩
    · rw [h1]
      simp only [h3]
      exact ih h4 h5 (by omega)

/-- More rounds do not change a result. -/
theorem ffLoop_mono {g : Digraph} {s t : Name} {n m : ℕ} (hm : n < m) {flow flow' : Flow} {r : Resid}
    (h : ffLoop g s t (n + 1) flow r = .ok flow') : ffLoop g s t m flow r = .ok flow' := by
  have key : ∀ n k flow r, ffLoop g s t n flow r = .ok flow' → ffLoop g s t (n + k) flow r = .ok flow' := by
    intro n
    induction n with
    | zero => intro k flow r h; cases h
    | succ n ih =>
      intro k flow r h
      rw [show n + 1 + k = (n + k) + 1 by omega]
      unfold ffLoop at h ⊢
      cases h1 : bfsPath (innerFuel g) s t r with
      | error e => rw [h1] at h; cases h
      | ok o =>
        cases o with
        | none => rw [h1] at h; exact h
        | some p =>
          simp only [h1] at h ⊢
          cases h2 : ffBody g t (innerFuel g) p flow r with
          | error e => rw [h2] at h; cases h
          | ok q =>
            simp only [h2] at h ⊢
            exact ih k q.1 q.2 h
  obtain ⟨k, rfl⟩ := Nat.exists_eq_add_of_le hm
  exact key _ k flow r h

/-! ### Sufficient conditions -/

/-- Where the last step of a route comes from. -/
theorem Route.head_mem {R : Name → Name → Prop} {s v : Name} {l : List Name} (h : Route R s v l) : s ∈ v :: l := by
  induction h with
  | nil => simp
  | cons _ _ _ ih => exact List.mem_cons_of_mem _ ih

/-- No step of a route leads to its start. -/
theorem Route.into_start {R : Name → Name → Prop} {s v : Name} {l : List Name} (h : Route R s v l) :
    ∀ a ∈ arcsOf v l, a.2 ≠ s := by
  induction h with
  | nil => simp [arcsOf]
  | @cons v u l _ hn hr ih =>
    intro a ha
    simp only [arcsOf, List.mem_cons] at ha
    rcases ha with rfl | ha
    · rintro rfl
      exact hn hr.head_mem
    · exact ih a ha

/-- No step of a route leaves its end. -/
theorem Route.out_end {R : Name → Name → Prop} {s v : Name} {l : List Name} (h : Route R s v l) :
    ∀ a ∈ arcsOf v l, a.1 ≠ v := by
  cases h with
  | nil => simp [arcsOf]
  | cons _ hn _ =>
    rintro a ha rfl
    exact hn (arcsOf_mem ha).1

/-- Inner nodes with at most one arc in. -/
theorem oneWay_of_inTree {g : Digraph} {s t : Name} (h : InTree g s t) : OneWay g s t := by
  have key : ∀ v l, Route (fun u v => (u, v) ∈ g.arcs.keys ∨ Useful g s t (v, u)) s v l → t ∉ l →
      ∀ a ∈ arcsOf v l, a ∈ g.arcs.keys := by
    intro v l hr
    induction hr with
    | nil => simp [arcsOf]
    | @cons v u l hstep hn hr ih =>
      intro ht a ha
      have ht' : t ≠ u ∧ t ∉ l := by simpa using ht
      simp only [arcsOf, List.mem_cons] at ha
      rcases ha with rfl | ha
      · refine hstep.resolve_right fun ⟨l', hl', hu⟩ => ?_
        have hus : u ≠ s := hl'.into_start _ hu
        cases hr with
        | nil => exact hus rfl
        | @cons _ w l _ _ _ =>
          have hw := ih ht'.2 (w, u) (by simp [arcsOf])
          have := h w v u hus (Ne.symm ht'.1) hw (hl'.arcs _ hu)
          subst this
          exact hn (by simp)
      · exact ih ht'.2 a ha
  intro l hl
  refine key t l hl ?_
  cases hl with
  | nil => simp
  | cons _ hn _ => exact hn

/-- Every node other than source and sink has at most one outgoing arc. -/
def OutTree (g : Digraph) (s t : Name) : Prop :=
  ∀ u v v', u ≠ s → u ≠ t → (u, v) ∈ g.arcs.keys → (u, v') ∈ g.arcs.keys → v = v'

theorem oneWay_of_outTree {g : Digraph} {s t : Name} (h : OutTree g s t) : OneWay g s t := by
  -- after a step against an arc the next step is again against an arc, and the last step is not
  have key : ∀ v l, Route (fun u v => (u, v) ∈ g.arcs.keys ∨ Useful g s t (v, u)) s v l → t ∉ l → v ≠ s →
      (∃ u, l.head? = some u ∧ (u, v) ∈ g.arcs.keys) → ∀ a ∈ arcsOf v l, a ∈ g.arcs.keys := by
    intro v l hr
    induction hr with
    | nil => simp [arcsOf]
    | @cons v u l hstep hn hr ih =>
      intro ht hvs ⟨u', hu', hm⟩ a ha
      have : u = u' := by simpa using hu'
      subst this
      have ht' : t ≠ u ∧ t ∉ l := by simpa using ht
      simp only [arcsOf, List.mem_cons] at ha
      rcases ha with rfl | ha
      · exact hm
      · cases hr with
        | nil => simp [arcsOf] at ha
        | @cons _ w l hstep' hn' hr' =>
          have hus : u ≠ s := fun e => by subst e; exact hn' hr'.head_mem
          refine ih ht'.2 hus ⟨w, rfl, ?_⟩ a ha
          refine hstep'.resolve_right fun ⟨l', hl', hu⟩ => ?_
          have := h u v w hus (Ne.symm ht'.1) hm (hl'.arcs _ hu)
          subst this
          exact hn (by simp)
  intro l hl
  cases hl with
  | nil => simp [arcsOf]
  | @cons _ u l hstep hn hr =>
    refine key t (u :: l) (.cons hstep hn hr) hn (fun e => ?_) ⟨u, rfl, ?_⟩
    · subst e; exact hn hr.head_mem
    · exact hstep.resolve_right fun ⟨l', hl', hu⟩ => hl'.out_end _ hu rfl

/-! ### Deciding it -/

/-- All routes from `s` with `k` steps, given the possible next nodes. -/
def routes (next : Name → List Name) (s : Name) : ℕ → List (Name × List Name)
  | 0 => [(s, [])]
  | k + 1 => (routes next s k).flatMap fun p =>
      ((next p.1).filter fun v => decide (v ∉ p.1 :: p.2)).map fun v => (v, p.1 :: p.2)

theorem mem_routes {R : Name → Name → Prop} {next : Name → List Name} (hR : ∀ u v, R u v → v ∈ next u) {s v : Name}
    {l : List Name} (h : Route R s v l) : (v, l) ∈ routes next s l.length := by
  induction h with
  | nil => simp [routes]
  | cons hr hn _ ih =>
    simp only [routes, List.length_cons, List.mem_flatMap, List.mem_map, List.mem_filter, decide_eq_true_eq]
    exact ⟨_, ih, _, ⟨hR _ _ hr, hn⟩, rfl⟩

theorem Route.nodup {R : Name → Name → Prop} {s v : Name} {l : List Name} (h : Route R s v l) : (v :: l).Nodup := by
  induction h with
  | nil => simp
  | cons _ hn _ ih => exact List.nodup_cons.mpr ⟨hn, ih⟩

/-- The neighbours of a node in either direction. -/
def nextTo (g : Digraph) (u : Name) : List Name := g.nodes.keys.filter fun v =>
  decide ((u, v) ∈ g.arcs.keys) || decide ((v, u) ∈ g.arcs.keys)

/-- It suffices to look at the routes along arcs in either direction. -/
theorem oneWay_of_routes {g : Digraph} (hg : DWF g) {s t : Name} (hs : s ∈ g.nodes.keys)
    (h : ∀ k < g.nodes.length, ∀ p ∈ routes (nextTo g) s k, p.1 = t → ∀ a ∈ arcsOf t p.2, a ∈ g.arcs.keys) :
    OneWay g s t := by
  intro l hl
  have hj : Route (Joined g) s t l := hl.mono fun a ha => by
    rcases hl.arcs a ha with h1 | ⟨l', h1, h2⟩
    · exact Or.inl h1
    · exact Or.inr (h1.arcs _ h2)
  have hmem : ∀ x ∈ t :: l, x ∈ g.nodes.keys := by
    have : ∀ v l, Route (Joined g) s v l → ∀ x ∈ v :: l, x ∈ g.nodes.keys := by
      intro v l hr
      induction hr with
      | nil => simpa using hs
      | cons hr _ _ ih =>
        intro x hx
        rcases List.mem_cons.mp hx with rfl | hx
        · exact (joined_nodes hg hr).2.1
        · exact ih x hx
    exact this t l hj
  have hlen := nodup_length_le hj.nodup hmem
  rw [keys_length, List.length_cons] at hlen
  refine h l.length (by omega) (t, l) (mem_routes (fun u v huv => ?_) hj) rfl
  have := joined_nodes hg huv
  rcases huv with h1 | h1 <;> simp [nextTo, h1, this.2.1]

end Directed
end Pytimize
