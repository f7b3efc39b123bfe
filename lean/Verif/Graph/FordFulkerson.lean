/-
Invariants of the main loop of `ford_fulkerson`.
-/
import Verif.Graph.Bfs
import Mathlib.Tactic.FieldSimp
import Mathlib.Algebra.Order.Archimedean.Basic
import Mathlib.Data.Rat.Floor

namespace Pytimize
namespace Directed

/-- Either orientation of the pair is an arc. -/
def Joined (g : Digraph) (u v : Name) : Prop := (u, v) ∈ g.arcs.keys ∨ (v, u) ∈ g.arcs.keys

theorem joined_nodes {g : Digraph} (h : DWF g) {u v : Name} (huv : Joined g u v) :
    u ∈ g.nodes.keys ∧ v ∈ g.nodes.keys ∧ u ≠ v := by
  rcases huv with h1 | h1
  · exact ⟨h.endsTail _ _ h1, h.endsHead _ _ h1, h.noLoop _ _ h1⟩
  · exact ⟨h.endsHead _ _ h1, h.endsTail _ _ h1, (h.noLoop _ _ h1).symm⟩

/-! ### The first residual network -/

theorem resLoop_support (g : Digraph) (flow : Flow) (l : List (Arc × ℚ)) (r : Resid)
    (hl : ∀ p ∈ l, p.1 ∈ g.arcs.keys) (hr : RWF r)
    (hs : ∀ u v, lookup r u v ≠ none → Joined g u v) :
    ((∃ p ∈ l, p.2 < fl flow p.1) ∧ resLoop flow l r = .error .arithmeticError) ∨
    ((∀ p ∈ l, fl flow p.1 ≤ p.2) ∧ ∃ r', resLoop flow l r = .ok r' ∧ RWF r' ∧
      ∀ u v, lookup r' u v ≠ none → Joined g u v) := by
  induction l generalizing r with
  | nil => exact Or.inr ⟨by simp, r, rfl, hr, hs⟩
  | cons p l ih =>
    obtain ⟨⟨u, v⟩, c⟩ := p
    have hm : (u, v) ∈ g.arcs.keys := hl ((u, v), c) (by simp)
    unfold resLoop
    by_cases hc : c < fl flow (u, v)
    · left
      refine ⟨⟨((u, v), c), by simp, hc⟩, ?_⟩
      exact if_pos hc
    · simp only
      rw [if_neg (show ¬ c < (flow.get? (u, v)).getD 0 from hc)]
      generalize hr1 : (if c > (flow.get? (u, v)).getD 0 then
        put r u v (c - (flow.get? (u, v)).getD 0) else r) = r1
      generalize hr2 : (if (flow.get? (u, v)).getD 0 > 0 then
        put r1 v u ((flow.get? (u, v)).getD 0) else r1) = r2
      have w1 : RWF r1 ∧ ∀ a b, lookup r1 a b ≠ none → Joined g a b := by
        subst hr1
        split
        · refine ⟨RWF_put hr _ _ _, fun a b hab => ?_⟩
          rw [lookup_put] at hab
          split at hab
          · rename_i hq; obtain ⟨rfl, rfl⟩ := hq; exact Or.inl hm
          · exact hs a b hab
        · exact ⟨hr, hs⟩
      have w2 : RWF r2 ∧ ∀ a b, lookup r2 a b ≠ none → Joined g a b := by
        subst hr2
        split
        · refine ⟨RWF_put w1.1 _ _ _, fun a b hab => ?_⟩
          rw [lookup_put] at hab
          split at hab
          · rename_i hq; obtain ⟨rfl, rfl⟩ := hq; exact Or.inr hm
          · exact w1.2 a b hab
        · exact w1
      rcases ih r2 (fun p hp => hl p (List.mem_cons_of_mem _ hp)) w2.1 w2.2 with
        ⟨⟨p, hp, hp'⟩, h2⟩ | ⟨h1, h2⟩
      · exact Or.inl ⟨⟨p, List.mem_cons_of_mem _ hp, hp'⟩, h2⟩
      · refine Or.inr ⟨?_, h2⟩
        intro p hp
        rcases List.mem_cons.mp hp with rfl | hp
        · exact not_lt.mp hc
        · exact h1 p hp

theorem computeResidual_support (g : Digraph) (hg : DWF g) (flow : Flow) :
    ((∃ a c, g.arcs.get? a = some c ∧ c < fl flow a) ∧
      computeResidual g flow = .error .arithmeticError) ∨
    ((∀ a c, g.arcs.get? a = some c → fl flow a ≤ c) ∧ ∃ r', computeResidual g flow = .ok r' ∧ RWF r' ∧
      ∀ u v, lookup r' u v ≠ none → Joined g u v) := by
  have hl : ∀ p ∈ g.arcs, (p : Arc × ℚ).1 ∈ g.arcs.keys := fun p hp =>
    List.mem_map.mpr ⟨p, hp, rfl⟩
  rcases resLoop_support g flow g.arcs [] hl RWF_nil (by simp [lookup, Dict.get?]) with
    ⟨⟨p, h1, h2⟩, h3⟩ | ⟨h1, h2⟩
  · exact Or.inl ⟨⟨p.1, p.2, Dict.get?_of_mem hg.arcsWF h1, h2⟩, h3⟩
  · exact Or.inr ⟨fun a c hac => h1 (a, c) (Dict.mem_of_get? hac), h2⟩

/-! ### One augmentation of an arc -/

theorem keys_set_eq {flow : Flow} {a : Arc} (ha : a ∈ flow.keys) (x : ℚ) :
    (flow.set a x).keys = flow.keys := by
  rw [Dict.keys_set, if_pos ha]

theorem ffPush_spec {g : Digraph} {flow : Flow} {r : Resid} {u v : Name} (δ : ℚ)
    (hk : flow.keys = g.arcs.keys) (hr : RWF r) (huv : u ≠ v) (hj : Joined g u v) :
    ∃ flow' r' x y, ffPush g.arcs flow r u v δ = .ok (flow', r') ∧ flow'.keys = g.arcs.keys ∧ RWF r' ∧
      (∀ w, net g (fl flow') w = net g (fl flow) w +
        δ * ((if v = w then 1 else 0) - (if u = w then 1 else 0))) ∧
      (∀ a b, lookup r' a b =
        if u = a ∧ v = b then (if x = 0 then none else some x)
        else if v = a ∧ u = b then (if y = 0 then none else some y)
        else lookup r a b) ∧
      ((u, v) ∈ g.arcs.keys → ∃ c, g.arcs.get? (u, v) = some c ∧ x = c - (fl flow (u, v) + δ) ∧
        y = fl flow (u, v) + δ ∧ flow' = flow.set (u, v) (fl flow (u, v) + δ)) := by
  by_cases hm : (u, v) ∈ g.arcs.keys
  · have hmf : (u, v) ∈ flow.keys := hk ▸ hm
    obtain ⟨c, hc⟩ := Dict.exists_get?_of_mem hm
    obtain ⟨f, hf⟩ := Dict.exists_get?_of_mem hmf
    have hff : fl flow (u, v) = f := by simp [fl, hf]
    obtain ⟨r', h1, h2, h3⟩ := updRes_spec hr huv (c - (f + δ)) (f + δ)
    refine ⟨flow.set (u, v) (f + δ), r', _, _, ?_, ?_, h2, ?_, h3, ?_⟩
    · unfold ffPush
      rw [if_pos (Dict.has_iff.mpr hmf)]
      simp only [hf, hc, h1]
    · rw [keys_set_eq hmf, hk]
    · intro w
      rw [net_set hm, hff]
      ring
    · intro _
      exact ⟨c, hc, by rw [hff], by rw [hff], by rw [hff]⟩
  · have hm' : (v, u) ∈ g.arcs.keys := hj.resolve_left hm
    have hmf : (v, u) ∈ flow.keys := hk ▸ hm'
    obtain ⟨c, hc⟩ := Dict.exists_get?_of_mem hm'
    obtain ⟨f, hf⟩ := Dict.exists_get?_of_mem hmf
    have hff : fl flow (v, u) = f := by simp [fl, hf]
    obtain ⟨r', h1, h2, h3⟩ := updRes_spec hr huv (c - (f - δ)) (f - δ)
    refine ⟨flow.set (v, u) (f - δ), r', _, _, ?_, ?_, h2, ?_, h3, fun h => absurd h hm⟩
    · unfold ffPush
      have : ¬ flow.has (u, v) = true := by
        rw [Dict.has_iff, hk]; exact hm
      rw [if_neg this]
      simp only [hf, hc, h1]
    · rw [keys_set_eq hmf, hk]
    · intro w
      rw [net_set hm', hff]
      ring

/-! ### The inner loops -/

theorem minWhile_spec {p : Dict Name Name} {s : Name} {r : Resid} {v : Name} {l : List Name}
    (ht : Trail p s v l) (hl : ∀ q ∈ arcsOf v l, lookup r q.1 q.2 ≠ none) (fuel : ℕ)
    (hf : l.length < fuel) (acc : Option ℚ) :
    ∃ acc', minWhile p r fuel (p.get? v) v acc = .ok acc' ∧
      (∀ q ∈ arcsOf v l, ∃ x m, lookup r q.1 q.2 = some x ∧ acc' = some m ∧ m ≤ x) ∧
      (∀ m, acc = some m → ∃ m', acc' = some m' ∧ m' ≤ m) ∧
      (∀ m', acc' = some m' → acc = some m' ∨ ∃ q ∈ arcsOf v l, lookup r q.1 q.2 = some m') := by
  induction ht generalizing fuel acc with
  | nil h1 =>
    obtain ⟨fuel, rfl⟩ : ∃ k, fuel = k + 1 := ⟨fuel - 1, by simp at hf; omega⟩
    refine ⟨acc, by rw [h1]; rfl, by simp [arcsOf], fun m hm => ⟨m, hm, le_refl _⟩, fun m' h => Or.inl h⟩
  | @cons v u l h1 h2 h3 ih =>
    obtain ⟨fuel, rfl⟩ : ∃ k, fuel = k + 1 := ⟨fuel - 1, by simp at hf; omega⟩
    obtain ⟨x, hx⟩ := Option.ne_none_iff_exists'.mp (hl (u, v) (by simp [arcsOf]))
    obtain ⟨acc', g1, g2, g3, g4⟩ := ih (fun q hq => hl q (by simp [arcsOf, hq])) fuel
      (by simp at hf; omega) (some (match acc with
          | none => x
          | some m => min m x))
    obtain ⟨m', e1, e2⟩ := g3 _ rfl
    refine ⟨acc', ?_, ?_, ?_, ?_⟩
    · rw [h1]
      simp only [minWhile]
      simp only at hx
      rw [hx]
      exact g1
    · intro q hq
      simp only [arcsOf, List.mem_cons] at hq
      rcases hq with rfl | hq
      · refine ⟨x, m', hx, e1, le_trans e2 ?_⟩
        cases acc with
        | none => exact le_refl _
        | some m => exact min_le_right _ _
      · exact g2 q hq
    · rintro m rfl
      exact ⟨m', e1, le_trans e2 (min_le_left _ _)⟩
    · intro k hk
      rcases g4 k hk with h | ⟨q, hq, h⟩
      · cases acc with
        | none =>
          right
          simp only [Option.some.injEq] at h
          exact ⟨(u, v), by simp [arcsOf], by rw [← h]; exact hx⟩
        | some m =>
          simp only [Option.some.injEq] at h
          rcases min_choice m x with hm | hm
          · left; rw [← h, hm]
          · right; exact ⟨(u, v), by simp [arcsOf], by rw [← h, hm]; exact hx⟩
      · exact Or.inr ⟨q, by simp [arcsOf, hq], h⟩

theorem augWhile_spec {arcs : Dict Arc ℚ} {p : Dict Name Name} {δ : ℚ} {s : Name}
    (Q : Name → List Name → Flow → Resid → Prop)
    (step : ∀ v u l flow r, v ∉ u :: l → Q v (u :: l) flow r →
      ∃ flow' r', ffPush arcs flow r u v δ = .ok (flow', r') ∧ Q u l flow' r')
    {v : Name} {l : List Name} (ht : Trail p s v l) (fuel : ℕ) (hf : l.length < fuel) (flow : Flow)
    (r : Resid) (hq : Q v l flow r) :
    ∃ flow' r', augWhile arcs p δ fuel (p.get? v) v flow r = .ok (flow', r') ∧ Q s [] flow' r' := by
  induction ht generalizing fuel flow r with
  | nil h1 =>
    obtain ⟨fuel, rfl⟩ : ∃ k, fuel = k + 1 := ⟨fuel - 1, by simp at hf; omega⟩
    exact ⟨flow, r, by rw [h1]; rfl, hq⟩
  | @cons v u l h1 h2 h3 ih =>
    obtain ⟨fuel, rfl⟩ : ∃ k, fuel = k + 1 := ⟨fuel - 1, by simp at hf; omega⟩
    obtain ⟨flow', r', g1, g2⟩ := step v u l flow r h2 hq
    obtain ⟨flow'', r'', g3, g4⟩ := ih fuel (by simp at hf; omega) flow' r' g2
    refine ⟨flow'', r'', ?_, g4⟩
    rw [h1]
    simp only [augWhile, g1]
    exact g3

theorem ffBody_spec {g : Digraph} {p : Dict Name Name} {s t : Name} {l : List Name}
    (ht : Trail p s t l) (hne : l ≠ []) (inner : ℕ) (hf : l.length < inner) (flow : Flow) (r : Resid)
    (hl : ∀ q ∈ arcsOf t l, lookup r q.1 q.2 ≠ none)
    (Q : ℚ → Name → List Name → Flow → Resid → Prop)
    (step : ∀ δ v u l flow r, v ∉ u :: l → Q δ v (u :: l) flow r →
      ∃ flow' r', ffPush g.arcs flow r u v δ = .ok (flow', r') ∧ Q δ u l flow' r')
    (h0 : ∀ δ, (∀ q ∈ arcsOf t l, ∃ x, lookup r q.1 q.2 = some x ∧ δ ≤ x) →
      (∃ q ∈ arcsOf t l, lookup r q.1 q.2 = some δ) → Q δ t l flow r) :
    ∃ δ flow' r', ffBody g t inner p flow r = .ok (flow', r') ∧ Q δ s [] flow' r' ∧
      ∃ q ∈ arcsOf t l, lookup r q.1 q.2 = some δ := by
  obtain ⟨acc', h1, h2, _, h4⟩ := minWhile_spec ht hl inner hf none
  obtain ⟨u, l', rfl⟩ : ∃ u l', l = u :: l' := by
    cases l with
    | nil => exact absurd rfl hne
    | cons u l' => exact ⟨u, l', rfl⟩
  obtain ⟨x, m, hx, rfl, hmx⟩ := h2 (u, t) (by simp [arcsOf])
  have hwit : ∃ q ∈ arcsOf t (u :: l'), lookup r q.1 q.2 = some m := by
    rcases h4 m rfl with h | h
    · cases h
    · exact h
  have hq := h0 m (fun q hq => by
    obtain ⟨x, m', g1, g2, g3⟩ := h2 q hq
    cases g2
    exact ⟨x, g1, g3⟩) hwit
  obtain ⟨flow', r', g1, g2⟩ := augWhile_spec (Q m) (step m) ht inner hf flow r hq
  refine ⟨m, flow', r', ?_, g2, hwit⟩
  have hu : p.get? t = some u := by
    cases ht with
    | cons h _ _ => exact h
  unfold ffBody
  rw [hu] at h1 g1 ⊢
  simp only [h1]
  exact g1

/-! ### Invariant that always holds -/

/-- What every run of `ford_fulkerson` maintains. -/
structure FFInv (g : Digraph) (s t : Name) (flow : Flow) (r : Resid) : Prop where
  keys : flow.keys = g.arcs.keys
  rwf : RWF r
  sup : ∀ u v, lookup r u v ≠ none → Joined g u v
  cons : ∀ w, w ≠ s → w ≠ t → net g (fl flow) w = 0

theorem lookup_after {r r' : Resid} {u v : Name} {x y : ℚ}
    (h : ∀ a b, lookup r' a b =
        if u = a ∧ v = b then (if x = 0 then none else some x)
        else if v = a ∧ u = b then (if y = 0 then none else some y)
        else lookup r a b) {g : Digraph} (hj : Joined g u v)
    (hs : ∀ a b, lookup r a b ≠ none → Joined g a b) (a b : Name) (hab : lookup r' a b ≠ none) :
    Joined g a b := by
  rw [h] at hab
  split at hab
  · rename_i hq; obtain ⟨rfl, rfl⟩ := hq; exact hj
  · split at hab
    · rename_i hq; obtain ⟨rfl, rfl⟩ := hq; exact hj.symm
    · exact hs a b hab

theorem nodup_length_le {l N : List Name} (h : l.Nodup) (hs : ∀ x ∈ l, x ∈ N) : l.length ≤ N.length :=
  (List.Nodup.subperm h hs).length_le

theorem keys_length {V : Type} (d : Dict Name V) : d.keys.length = d.length := by simp [Dict.keys]

/-- One round of the loop: it stops with a closed set or continues with the invariant. -/
theorem ff_round {g : Digraph} (hg : DWF g) {s t : Name} (hst : s ≠ t) (hs : s ∈ g.nodes.keys)
    (ht : t ∈ g.nodes.keys) {flow : Flow} {r : Resid} (h : FFInv g s t flow r) :
    bfsPath (innerFuel g) s t r = .ok none ∨
    ∃ p flow' r', bfsPath (innerFuel g) s t r = .ok (some p) ∧
      ffBody g t (innerFuel g) p flow r = .ok (flow', r') ∧ FFInv g s t flow' r' := by
  have hN : ∀ u x, lookup r u x ≠ none → x ∈ g.nodes.keys := fun u x hx =>
    (joined_nodes hg (h.sup u x hx)).2.1
  have hlen : g.nodes.keys.length < innerFuel g := by
    unfold innerFuel; rw [keys_length]; omega
  rcases bfsPath_spec (r := r) (fun _ _ => True) hst hs ht hN (fun _ _ _ _ _ _ => trivial) _ hlen with
    ⟨p, h1, l, l1, l2, l3, l4⟩ | ⟨h1, _⟩
  · right
    have hl : l.length < innerFuel g := by
      have := nodup_length_le l2.nodup l3
      simp at this; omega
    obtain ⟨δ, flow', r', g1, g2, _⟩ := ffBody_spec (g := g) l2 l1 (innerFuel g) hl flow r
      (fun q hq => (l4 q hq).1)
      (fun δ v l flow' r' => flow'.keys = g.arcs.keys ∧ RWF r' ∧
        (∀ a b, lookup r' a b ≠ none → Joined g a b) ∧ (∀ q ∈ arcsOf v l, Joined g q.1 q.2) ∧
        ∀ w, net g (fl flow') w = net g (fl flow) w +
          δ * ((if t = w then 1 else 0) - (if v = w then 1 else 0)))
      (by
        intro δ v u l flow1 r1 hv ⟨q1, q2, q3, q4, q5⟩
        have hj : Joined g u v := q4 (u, v) (by simp [arcsOf])
        have huv : u ≠ v := fun hc => hv (by simp [hc])
        obtain ⟨flow2, r2, x, y, e1, e2, e3, e4, e5, _⟩ := ffPush_spec δ q1 q2 huv hj
        refine ⟨flow2, r2, e1, e2, e3, lookup_after e5 hj q3, fun q hq => q4 q (by simp [arcsOf, hq]), ?_⟩
        intro w
        rw [e4, q5]
        ring)
      (by
        intro δ _ _
        refine ⟨h.keys, h.rwf, h.sup, fun q hq => h.sup _ _ (l4 q hq).1, ?_⟩
        intro w; ring)
    refine ⟨p, flow', r', h1, g1, g2.1, g2.2.1, g2.2.2.1, ?_⟩
    intro w hws hwt
    rw [g2.2.2.2.2 w, h.cons w hws hwt, if_neg hwt.symm, if_neg hws.symm]
    ring
  · exact Or.inl h1

theorem ffLoop_inv {g : Digraph} (hg : DWF g) {s t : Name} (hst : s ≠ t) (hs : s ∈ g.nodes.keys)
    (ht : t ∈ g.nodes.keys) (fuel : ℕ) (flow : Flow) (r : Resid) (h : FFInv g s t flow r) :
    ffLoop g s t fuel flow r = .error .notTerminated ∨
    ∃ flow' r', ffLoop g s t fuel flow r = .ok flow' ∧ FFInv g s t flow' r' := by
  induction fuel generalizing flow r with
  | zero => exact Or.inl rfl
  | succ fuel ih =>
    unfold ffLoop
    rcases ff_round hg hst hs ht h with h1 | ⟨p, flow', r', h1, h2, h3⟩
    · right
      exact ⟨flow, r, by rw [h1], h⟩
    · rw [h1]
      simp only [h2]
      exact ih flow' r' h3

/-! ### Runs that never use a reversed arc -/

/-- The stronger invariant of runs that only push along arcs of the digraph. -/
structure FwdInv (g : Digraph) (s t : Name) (flow : Flow) (r : Resid) : Prop extends
    FFInv g s t flow r where
  nonneg : ∀ a c, g.arcs.get? a = some c → 0 ≤ fl flow a
  cap : ∀ a c, g.arcs.get? a = some c → fl flow a ≤ c
  res : ∀ u v, lookup r u v = residSpec g.arcs (fl flow) u v

theorem FwdInv.feasible {g : Digraph} {s t : Name} {flow : Flow} {r : Resid}
    (h : FwdInv g s t flow r) : Feasible g s t (fl flow) :=
  ⟨h.nonneg, h.cap, fun v _ h1 h2 => by
    have := h.cons v h1 h2
    unfold net at this
    linarith⟩

theorem residSpec_forward {arcs : Dict Arc ℚ} {f : Arc → ℚ} {u v : Name} {x : ℚ}
    (hm : (u, v) ∈ arcs.keys) (h : residSpec arcs f u v = some x) :
    ∃ c, arcs.get? (u, v) = some c ∧ x = c - f (u, v) ∧ 0 < x := by
  obtain ⟨c, hc⟩ := Dict.exists_get?_of_mem hm
  unfold residSpec at h
  rw [hc] at h
  simp only at h
  split at h
  · rename_i hlt
    cases h
    exact ⟨c, hc, rfl, by linarith⟩
  · cases h

/-- Every augmenting path of the run uses arcs of the digraph only. -/
def ForwardRun (g : Digraph) (s t : Name) : ℕ → Flow → Resid → Prop
  | 0, _, _ => True
  | fuel + 1, flow, r =>
    match bfsPath (innerFuel g) s t r with
    | .ok (some path) =>
      (∀ l, Trail path s t l → ∀ q ∈ arcsOf t l, q ∈ g.arcs.keys) ∧
        match ffBody g t (innerFuel g) path flow r with
        | .ok (flow', r') => ForwardRun g s t fuel flow' r'
        | .error _ => True
    | _ => True

theorem residSpec_push {g : Digraph} (hna : NoAnti g.arcs) {flow : Flow} {u v : Name} {c δ : ℚ}
    (hm : (u, v) ∈ g.arcs.keys) (hc : g.arcs.get? (u, v) = some c) (huv : u ≠ v)
    (h0 : 0 ≤ fl flow (u, v) + δ) (h1 : fl flow (u, v) + δ ≤ c) (r r' : Resid)
    (hr : ∀ a b, lookup r a b = residSpec g.arcs (fl flow) a b)
    (hr' : ∀ a b, lookup r' a b =
        if u = a ∧ v = b then (if c - (fl flow (u, v) + δ) = 0 then none
          else some (c - (fl flow (u, v) + δ)))
        else if v = a ∧ u = b then (if fl flow (u, v) + δ = 0 then none
          else some (fl flow (u, v) + δ))
        else lookup r a b) (a b : Name) :
    lookup r' a b = residSpec g.arcs (fl (flow.set (u, v) (fl flow (u, v) + δ))) a b := by
  have hvu : (v, u) ∉ g.arcs.keys := hna u v hm
  rw [hr']
  by_cases h2 : u = a ∧ v = b
  · obtain ⟨rfl, rfl⟩ := h2
    simp only [true_and, and_self, if_true, residSpec, hc, fl_set]
    by_cases h3 : c - (fl flow (u, v) + δ) = 0
    · rw [if_pos h3, if_neg (by linarith)]
    · have : fl flow (u, v) + δ < c := lt_of_le_of_ne h1 (fun h => h3 (by linarith))
      rw [if_neg h3, if_pos this]
  · rw [if_neg h2]
    by_cases h3 : v = a ∧ u = b
    · obtain ⟨rfl, rfl⟩ := h3
      have hn : g.arcs.get? (v, u) = none := Dict.get?_eq_none_iff.mpr hvu
      simp only [true_and, and_self, if_true, residSpec, hn, fl_set, hm]
      by_cases h4 : fl flow (u, v) + δ = 0
      · rw [if_pos h4, if_neg (by linarith)]
      · have : 0 < fl flow (u, v) + δ := lt_of_le_of_ne h0 (fun h => h4 h.symm)
        rw [if_neg h4, if_pos this]
    · rw [if_neg h3, hr]
      have e1 : fl (flow.set (u, v) (fl flow (u, v) + δ)) (a, b) = fl flow (a, b) := by
        rw [fl_set, if_neg]
        intro h; cases h; exact h2 ⟨rfl, rfl⟩
      have e2 : fl (flow.set (u, v) (fl flow (u, v) + δ)) (b, a) = fl flow (b, a) := by
        rw [fl_set, if_neg]
        intro h; cases h; exact h3 ⟨rfl, rfl⟩
      unfold residSpec
      rw [e1, e2]

/-- One augmentation along a path of forward arcs. -/
theorem ffBody_forward {g : Digraph} (hg : DWF g) (hna : NoAnti g.arcs) {s t : Name} (hst : s ≠ t)
    {flow : Flow} {r : Resid} (h : FwdInv g s t flow r) {p : Dict Name Name} {l : List Name}
    (l1 : l ≠ []) (l2 : Trail p s t l) (l3 : ∀ x ∈ t :: l, x ∈ g.nodes.keys)
    (l4 : ∀ q ∈ arcsOf t l, lookup r q.1 q.2 ≠ none) (hfwd : ∀ q ∈ arcsOf t l, q ∈ g.arcs.keys) :
    ∃ δ flow' r', ffBody g t (innerFuel g) p flow r = .ok (flow', r') ∧ FwdInv g s t flow' r' ∧
      0 < δ ∧ value g s (fl flow') = value g s (fl flow) + δ ∧
      (∀ D, 0 < D → (∀ a c, g.arcs.get? a = some c → c ∈ Grid D) →
        (∀ a ∈ g.arcs.keys, fl flow a ∈ Grid D) →
        δ ∈ Grid D ∧ ∀ a ∈ g.arcs.keys, fl flow' a ∈ Grid D) ∧
      (∀ a, (∀ q ∈ arcsOf t l, q ≠ a) → fl flow' a = fl flow a) ∧
      (∀ q ∈ arcsOf t l, fl flow' q = fl flow q + δ) ∧
      ∃ q ∈ arcsOf t l, ∃ c, g.arcs.get? q = some c ∧ δ = c - fl flow q := by
  have hl : l.length < innerFuel g := by
    have := nodup_length_le l2.nodup l3
    rw [keys_length] at this
    unfold innerFuel
    simp at this; omega
  have hpos : ∀ x, ∀ q ∈ arcsOf t l, lookup r q.1 q.2 = some x →
      0 < x ∧ ∃ c, g.arcs.get? q = some c ∧ x = c - fl flow q := by
    intro x q hq hx
    rw [h.res] at hx
    obtain ⟨c, h1, h2, h3⟩ := residSpec_forward (hfwd q hq) hx
    exact ⟨h3, c, h1, h2⟩
  obtain ⟨δ, flow', r', g1, g2, q0, hq0, hδ⟩ := ffBody_spec (g := g) l2 l1 (innerFuel g) hl flow r l4
    (fun δ v l' flow' r' => flow'.keys = g.arcs.keys ∧ RWF r' ∧
      (∀ a b, lookup r' a b ≠ none → Joined g a b) ∧
      (∀ a c, g.arcs.get? a = some c → 0 ≤ fl flow' a) ∧
      (∀ a c, g.arcs.get? a = some c → fl flow' a ≤ c) ∧
      (∀ a b, lookup r' a b = residSpec g.arcs (fl flow') a b) ∧
      (∀ q ∈ arcsOf v l', q ∈ arcsOf t l ∧ ∃ x, lookup r' q.1 q.2 = some x ∧ δ ≤ x) ∧
      (∀ w, net g (fl flow') w = net g (fl flow) w +
          δ * ((if t = w then 1 else 0) - (if v = w then 1 else 0))) ∧
      (∀ D, δ ∈ Grid D → (∀ a ∈ g.arcs.keys, fl flow a ∈ Grid D) →
        ∀ a ∈ g.arcs.keys, fl flow' a ∈ Grid D) ∧
      (∀ a, (∀ q ∈ arcsOf t l, q ≠ a) → fl flow' a = fl flow a) ∧ 0 < δ ∧
      (∀ q ∈ arcsOf t l, fl flow' q = if q ∈ arcsOf v l' then fl flow q else fl flow q + δ))
    (by
      intro δ v u l' flow1 r1 hv ⟨q1, q2, q3, q4, q5, q6, q7, q8, q9, q10, q11, q12⟩
      obtain ⟨hin, x0, hx0, hδx⟩ := q7 (u, v) (by simp [arcsOf])
      have hm : (u, v) ∈ g.arcs.keys := hfwd _ hin
      have hj : Joined g u v := Or.inl hm
      have huv : u ≠ v := fun hc => hv (by simp [hc])
      obtain ⟨flow2, r2, x, y, e1, e2, e3, e4, e5, e6⟩ := ffPush_spec δ q1 q2 huv hj
      obtain ⟨c, hc, rfl, rfl, rfl⟩ := e6 hm
      obtain ⟨c', hc', hx', _⟩ := residSpec_forward hm ((q6 u v).symm.trans hx0)
      rw [hc] at hc'; cases hc'
      have b0 : 0 ≤ fl flow1 (u, v) + δ := by
        have := q4 _ _ hc; linarith
      have b1 : fl flow1 (u, v) + δ ≤ c := by linarith
      refine ⟨_, r2, e1, e2, e3, lookup_after e5 hj q3, ?_, ?_, ?_, ?_, ?_, ?_, ?_, q11, ?_⟩
      · intro a ca ha
        rw [fl_set]; split
        · exact b0
        · exact q4 a ca ha
      · intro a ca ha
        rw [fl_set]; split
        · rename_i hq; subst hq
          rw [hc] at ha; cases ha
          exact b1
        · exact q5 a ca ha
      · exact residSpec_push hna hm hc huv b0 b1 r1 r2 q6 e5
      · intro q hq
        obtain ⟨a1, x, a2, a3⟩ := q7 q (by simp [arcsOf, hq])
        refine ⟨a1, x, ?_, a3⟩
        obtain ⟨m1, m2⟩ := arcsOf_mem hq
        rw [e5, if_neg, if_neg]
        · exact a2
        · rintro ⟨rfl, _⟩
          exact hv (List.mem_cons_of_mem _ m1)
        · rintro ⟨_, rfl⟩
          exact hv m2
      · intro w
        rw [e4, q8]
        ring
      · intro D hD hf a ha
        rw [fl_set]; split
        · exact add_mem (q9 D hD hf _ hm) hD
        · exact q9 D hD hf a ha
      · intro a ha
        rw [fl_set, if_neg (ha _ hin)]
        exact q10 a ha
      · intro q hq
        have hne : (u, v) ∉ arcsOf u l' := fun hc => hv (arcsOf_mem hc).2
        rw [fl_set]
        split
        · rename_i he
          subst he
          rw [q12 _ hin, if_pos (by simp [arcsOf]), if_neg hne]
        · rename_i he
          rw [q12 q hq]
          simp [arcsOf, Ne.symm he])
    (by
      intro δ hle ⟨q, hq, hqδ⟩
      refine ⟨h.keys, h.rwf, h.sup, h.nonneg, h.cap, h.res, fun q hq => ⟨hq, hle q hq⟩, ?_, ?_, ?_,
        (hpos δ q hq hqδ).1, fun q hq => by rw [if_pos hq]⟩
      · intro w; ring
      · intro D _ hf; exact hf
      · intro a _; rfl)
  obtain ⟨hδ0, c, hc, hδc⟩ := hpos δ q0 hq0 hδ
  obtain ⟨q1, q2, q3, q4, q5, q6, _, q8, q9, q10, _, q12⟩ := g2
  refine ⟨δ, flow', r', g1, ⟨⟨q1, q2, q3, ?_⟩, q4, q5, q6⟩, hδ0, ?_, ?_, q10, fun q hq => by
    rw [q12 q hq, if_neg (by simp [arcsOf])], q0, hq0, c, hc, hδc⟩
  · intro w hws hwt
    rw [q8 w, h.cons w hws hwt, if_neg hwt.symm, if_neg hws.symm]
    ring
  · have := q8 s
    rw [if_neg hst.symm, if_pos rfl] at this
    unfold net at this
    unfold value
    linarith
  · intro D hD hcD hfD
    have hδD : δ ∈ Grid D := by
      rw [hδc]
      exact sub_mem (hcD _ _ hc) (hfD _ (hfwd q0 hq0))
    exact ⟨hδD, q9 D hδD hfD⟩

/-- When no path is left the flow saturates a cut. -/
theorem closed_cut {g : Digraph} (hna : NoAnti g.arcs) {s t : Name}
    {flow : Flow} {r : Resid} (h : FwdInv g s t flow r) (S : List Name) (hs : s ∈ S) (ht : t ∉ S)
    (hN : ∀ x ∈ S, x ∈ g.nodes.keys) (hcl : ∀ u ∈ S, ∀ x, lookup r u x ≠ none → x ∈ S) :
    value g s (fl flow) = cutCapacity g S.toFinset := by
  refine value_eq_of_closed hna h.feasible S.toFinset (by simpa using hN) (by simpa using hs)
    (by simpa using ht) ?_
  intro u v hu hv
  rw [← h.res]
  by_contra hc
  exact hv (by simpa using hcl u (by simpa using hu) v hc)

theorem ffLoop_forward {g : Digraph} (hg : DWF g) (hna : NoAnti g.arcs) {s t : Name} (hst : s ≠ t)
    (hs : s ∈ g.nodes.keys) (ht : t ∈ g.nodes.keys) (fuel : ℕ) (flow : Flow) (r : Resid)
    (h : FwdInv g s t flow r) (hrun : ForwardRun g s t fuel flow r) :
    ffLoop g s t fuel flow r = .error .notTerminated ∨
    ∃ flow' r' S, ffLoop g s t fuel flow r = .ok flow' ∧ FwdInv g s t flow' r' ∧ s ∈ S ∧ t ∉ S ∧
      (∀ x ∈ S, x ∈ g.nodes.keys) ∧ value g s (fl flow') = cutCapacity g S := by
  induction fuel generalizing flow r with
  | zero => exact Or.inl rfl
  | succ fuel ih =>
    have hN : ∀ u x, lookup r u x ≠ none → x ∈ g.nodes.keys := fun u x hx =>
      (joined_nodes hg (h.sup u x hx)).2.1
    have hlen : g.nodes.keys.length < innerFuel g := by
      unfold innerFuel; rw [keys_length]; omega
    unfold ffLoop
    unfold ForwardRun at hrun
    rcases bfsPath_spec (r := r) (fun _ _ => True) hst hs ht hN (fun _ _ _ _ _ _ => trivial) _ hlen with
      ⟨p, h1, l, l1, l2, l3, l4⟩ | ⟨h1, S, hS1, hS2, hS3, hS4⟩
    · rw [h1] at hrun ⊢
      obtain ⟨hf, hrun⟩ := hrun
      obtain ⟨δ, flow', r', g1, g2, _⟩ := ffBody_forward hg hna hst h l1 l2 l3
        (fun q hq => (l4 q hq).1) (hf l l2)
      simp only [g1] at hrun ⊢
      exact ih flow' r' g2 hrun
    · right
      refine ⟨flow, r, S.toFinset, by rw [h1], h, by simpa using hS1, by simpa using hS2,
        by simpa using hS3, closed_cut hna h S hS1 hS2 hS3 hS4⟩

/-! ### A class of digraphs where reversed arcs are never used -/

/-- Every node other than source and sink has at most one incoming arc. -/
def InTree (g : Digraph) (s t : Name) : Prop :=
  ∀ u u' v, v ≠ s → v ≠ t → (u, v) ∈ g.arcs.keys → (u', v) ∈ g.arcs.keys → u = u'

theorem inTree_round {g : Digraph} (hg : DWF g) (hna : NoAnti g.arcs) {s t : Name} (hst : s ≠ t)
    (hs : s ∈ g.nodes.keys) (ht : t ∈ g.nodes.keys) (htree : InTree g s t) {flow : Flow} {r : Resid}
    (h : FwdInv g s t flow r) (hz : ∀ u, fl flow (u, s) = 0) :
    (bfsPath (innerFuel g) s t r = .ok none ∧ ∃ S : List Name, s ∈ S ∧ t ∉ S ∧
      (∀ x ∈ S, x ∈ g.nodes.keys) ∧ ∀ u ∈ S, ∀ x, lookup r u x ≠ none → x ∈ S) ∨
    ∃ p, bfsPath (innerFuel g) s t r = .ok (some p) ∧
      (∀ l, Trail p s t l → ∀ q ∈ arcsOf t l, q ∈ g.arcs.keys) ∧
      ∃ δ flow' r', ffBody g t (innerFuel g) p flow r = .ok (flow', r') ∧ FwdInv g s t flow' r' ∧
        (∀ u, fl flow' (u, s) = 0) ∧ 0 < δ ∧ value g s (fl flow') = value g s (fl flow) + δ ∧
      (∀ D, 0 < D → (∀ a c, g.arcs.get? a = some c → c ∈ Grid D) →
        (∀ a ∈ g.arcs.keys, fl flow a ∈ Grid D) →
        δ ∈ Grid D ∧ ∀ a ∈ g.arcs.keys, fl flow' a ∈ Grid D) := by
  have hN : ∀ u x, lookup r u x ≠ none → x ∈ g.nodes.keys := fun u x hx =>
    (joined_nodes hg (h.sup u x hx)).2.1
  have hlen : g.nodes.keys.length < innerFuel g := by
    unfold innerFuel; rw [keys_length]; omega
  have hE : ∀ c e, c ≠ t → (c = s ∨ ∃ y, (y, c) ∈ g.arcs.keys ∧ y ≠ e) → lookup r c e ≠ none →
      e ≠ s → (c, e) ∈ g.arcs.keys := by
    intro c e hct hc hl hes
    by_contra hce
    have hec : (e, c) ∈ g.arcs.keys := (h.sup c e hl).resolve_left hce
    by_cases hcs : c = s
    · subst hcs
      apply hl
      rw [h.res]
      unfold residSpec
      rw [Dict.get?_eq_none_iff.mpr hce]
      simp [hz e]
    · rcases hc with hc | ⟨y, hy, hye⟩
      · exact hcs hc
      · exact hye (htree y e c hcs hct hy hec)
  rcases bfsPath_spec (r := r) (fun a b => (a, b) ∈ g.arcs.keys) hst hs ht hN hE _ hlen with
    ⟨p, h1, l, l1, l2, l3, l4⟩ | h1
  · right
    have huniq : ∀ {v l l'}, Trail p s v l → Trail p s v l' → l = l' := by
      intro v l l' ha
      induction ha generalizing l' with
      | nil hn =>
        intro hb
        cases hb with
        | nil => rfl
        | cons hc _ _ => rw [hn] at hc; cases hc
      | cons hc _ _ ih =>
        intro hb
        cases hb with
        | nil hn => rw [hn] at hc; cases hc
        | cons hc' _ ht' =>
          rw [hc] at hc'; cases hc'
          rw [ih ht']
    refine ⟨p, h1, ?_, ?_⟩
    · intro l' hl' q hq
      rw [huniq hl' l2] at hq
      exact (l4 q hq).2
    · obtain ⟨δ, flow', r', g1, g2, g3, g4, g5, g6, -⟩ := ffBody_forward hg hna hst h l1 l2 l3
        (fun q hq => (l4 q hq).1) (fun q hq => (l4 q hq).2)
      refine ⟨δ, flow', r', g1, g2, fun u => ?_, g3, g4, g5⟩
      rw [g6, hz]
      rintro q hq rfl
      have key : ∀ {v l}, Trail p s v l → ∀ q ∈ arcsOf v l, q.2 ≠ s := by
        intro v l ha
        induction ha with
        | nil => simp [arcsOf]
        | @cons v u l hc hn ht' ih =>
          intro q hq
          simp only [arcsOf, List.mem_cons] at hq
          rcases hq with rfl | hq
          · rintro hvs
            simp only at hvs
            subst hvs
            apply hn
            have : ∀ {v' l'}, Trail p v v' l' → v ∈ v' :: l' := by
              intro v' l' hb
              induction hb with
              | nil => simp
              | cons _ _ _ ih => exact List.mem_cons_of_mem _ ih
            exact this ht'
          · exact ih q hq
      exact key l2 _ hq rfl
  · exact Or.inl h1

theorem forwardRun_of_inTree {g : Digraph} (hg : DWF g) (hna : NoAnti g.arcs) {s t : Name}
    (hst : s ≠ t) (hs : s ∈ g.nodes.keys) (ht : t ∈ g.nodes.keys) (htree : InTree g s t) (fuel : ℕ)
    {flow : Flow} {r : Resid} (h : FwdInv g s t flow r) (hz : ∀ u, fl flow (u, s) = 0) :
    ForwardRun g s t fuel flow r := by
  induction fuel generalizing flow r with
  | zero => trivial
  | succ fuel ih =>
    unfold ForwardRun
    rcases inTree_round hg hna hst hs ht htree h hz with ⟨h1, _⟩ | ⟨p, h1, h2, δ, flow', r', h3, h4, h5, _⟩
    · rw [h1]; trivial
    · rw [h1]
      refine ⟨h2, ?_⟩
      rw [h3]
      exact ih h4 h5

theorem ffLoop_terminates {g : Digraph} (hg : DWF g) (hna : NoAnti g.arcs) {s t : Name}
    (hst : s ≠ t) (hs : s ∈ g.nodes.keys) (ht : t ∈ g.nodes.keys) (htree : InTree g s t) {D : ℕ}
    (hD : 0 < D) (hcD : ∀ a c, g.arcs.get? a = some c → c ∈ Grid D) (n : ℕ)
    {flow : Flow} {r : Resid} (h : FwdInv g s t flow r) (hz : ∀ u, fl flow (u, s) = 0)
    (hfD : ∀ a ∈ g.arcs.keys, fl flow a ∈ Grid D)
    (hn : cutCapacity g {s} < value g s (fl flow) + (n + 1) * (1 / D)) :
    ∃ flow', ffLoop g s t (n + 1) flow r = .ok flow' := by
  induction n generalizing flow r with
  | zero =>
    unfold ffLoop
    rcases inTree_round hg hna hst hs ht htree h hz with ⟨h1, _⟩ | ⟨p, h1, h2, δ, flow', r', h3, h4, h5, h6, h7, h8⟩
    · exact ⟨flow, by rw [h1]⟩
    · exfalso
      have hδ := grid_pos hD (h8 D hD hcD hfD).1 h6
      have := value_le_cut h4.feasible {s} (by simpa using hs) (by simp) (by simpa using hst.symm)
      rw [h7] at this
      norm_num at hn hδ
      linarith
  | succ n ih =>
    unfold ffLoop
    rcases inTree_round hg hna hst hs ht htree h hz with ⟨h1, _⟩ | ⟨p, h1, h2, δ, flow', r', h3, h4, h5, h6, h7, h8⟩
    · exact ⟨flow, by rw [h1]⟩
    · rw [h1]
      simp only [h3]
      have hδ := grid_pos hD (h8 D hD hcD hfD).1 h6
      refine ih h4 h5 (h8 D hD hcD hfD).2 ?_
      rw [h7]
      push_cast at hn ⊢
      linarith

/-! ### The start of the algorithm -/

theorem fl_zeroFlow (g : Digraph) (a : Arc) : fl (zeroFlow g) a = 0 := by
  unfold fl zeroFlow
  rw [Dict.get?_map_val]
  cases g.arcs.get? a <;> rfl

theorem net_zeroFlow (g : Digraph) (w : Name) : net g (fl (zeroFlow g)) w = 0 := by
  rw [net_eq]
  refine Finset.sum_eq_zero fun a _ => ?_
  rw [fl_zeroFlow]; ring

theorem checkEnds_none {g : Digraph} {s t : Name} (h : checkEnds g s t = none) :
    s ∈ g.nodes.keys ∧ t ∈ g.nodes.keys ∧ s ≠ t := by
  unfold checkEnds at h
  split at h
  · cases h
  · split at h
    · cases h
    · split at h
      · cases h
      · rename_i h1 h2 h3
        simp only [hasNode, Bool.not_eq_true', Bool.not_eq_false] at h1 h2
        exact ⟨Dict.has_iff.mp h1, Dict.has_iff.mp h2, h3⟩

theorem checkEnds_eq (g : Digraph) (s t : Name) :
    checkEnds g s t = if s ∈ g.nodes.keys ∧ t ∈ g.nodes.keys ∧ s ≠ t then none
      else some .valueError := by
  by_cases h : checkEnds g s t = none
  · rw [h, if_pos (checkEnds_none h)]
  · have h' : checkEnds g s t = some .valueError := by
      unfold checkEnds at h ⊢
      split
      · rfl
      · split
        · rfl
        · split
          · rfl
          · rename_i h1 h2 h3
            rw [if_neg h1, if_neg h2, if_neg h3] at h
            exact absurd rfl h
    rw [h', if_neg]
    rintro ⟨h1, h2, h3⟩
    apply h
    unfold checkEnds
    have e1 : hasNode g s = true := Dict.has_iff.mpr h1
    have e2 : hasNode g t = true := Dict.has_iff.mpr h2
    simp [e1, e2, h3]

/-- The start of the loop. -/
theorem ff_start {g : Digraph} (hg : DWF g) (s t : Name) :
    ((∃ a c, g.arcs.get? a = some c ∧ c < 0) ∧
      computeResidual g (zeroFlow g) = .error .arithmeticError) ∨
    ((∀ a c, g.arcs.get? a = some c → 0 ≤ c) ∧ ∃ r, computeResidual g (zeroFlow g) = .ok r ∧
      FFInv g s t (zeroFlow g) r ∧ (NoAnti g.arcs → FwdInv g s t (zeroFlow g) r)) := by
  rcases computeResidual_support g hg (zeroFlow g) with ⟨⟨a, c, h1, h2⟩, h3⟩ | ⟨h1, r, h2, h3, h4⟩
  · left
    rw [fl_zeroFlow] at h2
    exact ⟨⟨a, c, h1, h2⟩, h3⟩
  · right
    simp only [fl_zeroFlow] at h1
    have hi : FFInv g s t (zeroFlow g) r :=
      ⟨Dict.keys_map_val _ _, h3, h4, fun w _ _ => net_zeroFlow g w⟩
    refine ⟨h1, r, h2, hi, fun hna => ⟨hi, ?_, ?_, ?_⟩⟩
    · intro a c _; rw [fl_zeroFlow]
    · intro a c hac; rw [fl_zeroFlow]; exact h1 a c hac
    · rcases computeResidual_spec hg hna (zeroFlow g) with ⟨a, c, e1, e2, _⟩ | ⟨_, r', e2, _, e4⟩
      · rw [fl_zeroFlow] at e2
        exact absurd (h1 a c e1) (not_le.mpr e2)
      · rw [h2] at e2; cases e2
        exact e4

end Directed
end Pytimize
