/-
`ford_fulkerson` (`pytimize/graphs/_directed.py:487-566`) with a rounding after every arithmetic operation. The searches
and `min` only compare. The sums of the value are a parameter, as in `Verif/Float/Flow.lean`.
-/
import Verif.Float.FlowExact
import Verif.Graph.OneWay

namespace Pytimize
namespace Floating
open _root_.Pytimize.Directed

/-! ### Model -/

/-- One augmentation of an arc, `_directed.py:535-557`. -/
def ffPush (R : Rounding) (arcs : Dict Arc ℚ) (flow : Flow) (r : Resid) (u v : Name) (δ : ℚ) :
    Except PyErr (Flow × Resid) :=
  if flow.has (u, v) then
    match flow.get? (u, v), arcs.get? (u, v) with
    | some f, some c =>
      match updRes r u v (R.rd (c - R.rd (f + δ))) (R.rd (f + δ)) with
      | .error e => .error e
      | .ok r' => .ok (flow.set (u, v) (R.rd (f + δ)), r')
    | _, _ => .error .keyError
  else
    match flow.get? (v, u), arcs.get? (v, u) with
    | some f, some c =>
      match updRes r u v (R.rd (c - R.rd (f - δ))) (R.rd (f - δ)) with
      | .error e => .error e
      | .ok r' => .ok (flow.set (v, u) (R.rd (f - δ)), r')
    | _, _ => .error .keyError

/-- Second inner `while` of `ford_fulkerson`, `_directed.py:534-559`. -/
def augWhile (R : Rounding) (arcs : Dict Arc ℚ) (path : Dict Name Name) (δ : ℚ) : ℕ → Option Name → Name →
    Flow → Resid → Except PyErr (Flow × Resid)
  | 0, _, _, _, _ => .error .notTerminated
  | _ + 1, none, _, flow, r => .ok (flow, r)
  | fuel + 1, some u, v, flow, r =>
    match ffPush R arcs flow r u v δ with
    | .error e => .error e
    | .ok (flow', r') => augWhile R arcs path δ fuel (path.get? u) u flow' r'

/-- The body of the outer `while`, `_directed.py:522-559`. -/
def ffBody (R : Rounding) (g : Digraph) (sink : Name) (inner : ℕ) (path : Dict Name Name) (flow : Flow)
    (r : Resid) : Except PyErr (Flow × Resid) :=
  match path.get? sink with
  | none => .error .keyError
  | some u =>
    match minWhile path r inner (some u) sink none with
    | .error e => .error e
    | .ok none => .error .genericException
    | .ok (some δ) => augWhile R g.arcs path δ inner (some u) sink flow r

/-- Outer loop, `_directed.py:519-561`; one unit of fuel per search. -/
def ffLoop (R : Rounding) (g : Digraph) (source sink : Name) : ℕ → Flow → Resid → Except PyErr Flow
  | 0, _, _ => .error .notTerminated
  | fuel + 1, flow, r =>
    match bfsPath (innerFuel g) source sink r with
    | .error e => .error e
    | .ok none => .ok flow
    | .ok (some path) =>
      match ffBody R g sink (innerFuel g) path flow r with
      | .error e => .error e
      | .ok (flow', r') => ffLoop R g source sink fuel flow' r'

/-- `ford_fulkerson`, `_directed.py:487-566`. -/
def fordFulkerson (R : Rounding) (sum : Flow → List Arc → ℚ) (fuel : ℕ) (g : Digraph) (source sink : Name) :
    Except PyErr (ℚ × Flow) :=
  match checkEnds g source sink with
  | some e => .error e
  | none =>
    match resLoop R (zeroFlow g) g.arcs [] with
    | .error e => .error e
    | .ok r =>
      match ffLoop R g source sink fuel (zeroFlow g) r with
      | .error e => .error e
      | .ok flow => .ok (flowValue R sum g source flow, flow)

/-! ### No rounding on paths that follow arcs -/

theorem augWhile_eq {R : Rounding} {arcs : Dict Arc ℚ} {p : Dict Name Name} {δ : ℚ} {s v : Name} {l : List Name}
    (ht : Trail p s v l) (fuel : ℕ) (flow : Flow) (r : Resid)
    (h : ∀ q ∈ arcsOf v l, ∃ f c, flow.get? q = some f ∧ arcs.get? q = some c ∧ R.rd (f + δ) = f + δ ∧
      R.rd (c - (f + δ)) = c - (f + δ)) :
    augWhile R arcs p δ fuel (p.get? v) v flow r = Directed.augWhile arcs p δ fuel (p.get? v) v flow r := by
  induction ht generalizing fuel flow r with
  | nil h1 =>
    rw [h1]
    cases fuel <;> rfl
  | @cons v u l h1 h2 h3 ih =>
    rw [h1]
    cases fuel with
    | zero => rfl
    | succ fuel =>
      obtain ⟨f, c, hf, hc, e1, e2⟩ := h (u, v) (by simp [arcsOf])
      have hhas : flow.has (u, v) = true := Dict.has_iff.mpr (Dict.mem_keys_of_get? hf)
      have e : ffPush R arcs flow r u v δ = Directed.ffPush arcs flow r u v δ := by
        unfold ffPush Directed.ffPush
        rw [if_pos hhas, if_pos hhas]
        simp only [hf, hc, e1, e2]
        rfl
      unfold augWhile Directed.augWhile
      rw [e]
      cases hp : Directed.ffPush arcs flow r u v δ with
      | error e => rfl
      | ok q =>
        obtain ⟨flow', r'⟩ := q
        have hflow : flow' = flow.set (u, v) (f + δ) := by
          unfold Directed.ffPush at hp
          rw [if_pos hhas] at hp
          simp only [hf, hc] at hp
          split at hp
          · cases hp
          · cases hp; rfl
        refine ih fuel flow' r' fun q hq => ?_
        obtain ⟨f', c', g1, g2, g3, g4⟩ := h q (by simp [arcsOf, hq])
        refine ⟨f', c', ?_, g2, g3, g4⟩
        have hne : (u, v) ≠ q := by
          rintro rfl
          exact h2 (arcsOf_mem hq).2
        rw [hflow, Dict.get?_set, if_neg hne]
        exact g1

namespace NoRounding
variable {R : Rounding} {sum : Flow → List Arc → ℚ} {g : Digraph} {D : ℕ} {B : ℚ}

theorem ffBody_eq (H : NoRounding R sum g D B) {s t : Name} {flow : Flow} {r : Resid}
    (h : FwdInv g s t flow r) (hf : ∀ a ∈ g.arcs.keys, fl flow a ∈ Grid D) {p : Dict Name Name} {l : List Name}
    (l1 : l ≠ []) (l2 : Trail p s t l) (l3 : l.length < innerFuel g)
    (l4 : ∀ q ∈ arcsOf t l, lookup r q.1 q.2 ≠ none) (hfwd : ∀ q ∈ arcsOf t l, q ∈ g.arcs.keys) :
    ffBody R g t (innerFuel g) p flow r = Directed.ffBody g t (innerFuel g) p flow r := by
  obtain ⟨u, l', rfl⟩ : ∃ u l', l = u :: l' := by
    cases l with
    | nil => exact absurd rfl l1
    | cons u l' => exact ⟨u, l', rfl⟩
  have hu : p.get? t = some u := by
    cases l2 with
    | cons h _ _ => exact h
  obtain ⟨acc, h1, h2, -, h4⟩ := minWhile_spec l2 l4 (innerFuel g) l3 none
  unfold ffBody Directed.ffBody
  rw [hu] at h1 ⊢
  simp only [h1]
  cases acc with
  | none => rfl
  | some δ =>
    have hentry : ∀ q ∈ arcsOf t (u :: l'), ∀ x, lookup r q.1 q.2 = some x →
        ∃ c, g.arcs.get? q = some c ∧ x = c - fl flow q ∧ 0 < x := by
      intro q hq x hx
      rw [h.res] at hx
      exact residSpec_forward (hfwd q hq) hx
    have hδ : 0 < δ ∧ δ ∈ Grid D := by
      rcases h4 δ rfl with h5 | ⟨q, hq, h5⟩
      · cases h5
      · obtain ⟨c, hc, e, hpos⟩ := hentry q hq δ h5
        refine ⟨hpos, ?_⟩
        rw [e]
        exact sub_mem (H.grid _ _ hc) (hf q (hfwd q hq))
    have := augWhile_eq (R := R) (arcs := g.arcs) (δ := δ) l2 (innerFuel g) flow r fun q hq => by
      obtain ⟨x, m, hx, e, hm⟩ := h2 q hq
      cases e
      obtain ⟨c, hc, rfl, -⟩ := hentry q hq x hx
      obtain ⟨f, hfq⟩ := Dict.exists_get?_of_mem (h.keys ▸ hfwd q hq : q ∈ flow.keys)
      have hff : fl flow q = f := by simp [fl, hfq]
      rw [hff] at hm
      have h0 : 0 ≤ f := hff ▸ h.nonneg q c hc
      have hfD : f ∈ Grid D := hff ▸ hf q (hfwd q hq)
      have hsum := add_mem hfD hδ.2
      exact ⟨f, c, hfq, hc, H.rd_between hc hsum (by linarith [hδ.1]) (by linarith),
        H.rd_between hc (sub_mem (H.grid _ _ hc) hsum) (by linarith) (by linarith [hδ.1])⟩
    rw [hu] at this
    exact this

theorem ffLoop_eq (H : NoRounding R sum g D B) (hD : 0 < D) {s t : Name} (hst : s ≠ t) (hs : s ∈ g.nodes.keys)
    (ht : t ∈ g.nodes.keys) (fuel : ℕ) {flow : Flow} {r : Resid} (h : FwdInv g s t flow r)
    (hf : ∀ a ∈ g.arcs.keys, fl flow a ∈ Grid D) (hrun : ForwardRun g s t fuel flow r) :
    ffLoop R g s t fuel flow r = Directed.ffLoop g s t fuel flow r ∧
    ∀ flow', Directed.ffLoop g s t fuel flow r = .ok flow' →
      (∃ r', FwdInv g s t flow' r') ∧ ∀ a ∈ g.arcs.keys, fl flow' a ∈ Grid D := by
  induction fuel generalizing flow r with
  | zero => exact ⟨rfl, fun _ h => by cases h⟩
  | succ fuel ih =>
    have hN : ∀ u x, lookup r u x ≠ none → x ∈ g.nodes.keys := fun u x hx =>
      (joined_nodes H.wf (h.sup u x hx)).2.1
    have hlen : g.nodes.keys.length < innerFuel g := by
      unfold innerFuel; rw [keys_length]; omega
    unfold ffLoop Directed.ffLoop
    unfold ForwardRun at hrun
    rcases bfsPath_spec (r := r) (fun _ _ => True) hst hs ht hN (fun _ _ _ _ _ _ => trivial) _ hlen with
      ⟨p, h1, l, l1, l2, l3, l4⟩ | ⟨h1, -⟩
    · rw [h1] at hrun ⊢
      obtain ⟨hfw, hrun⟩ := hrun
      obtain ⟨δ, flow', r', g1, g2, -, -, g5, -⟩ := ffBody_forward H.wf H.noAnti hst h l1 l2 l3
        (fun q hq => (l4 q hq).1) (hfw l l2)
      have hl : l.length < innerFuel g := by
        have := nodup_length_le l2.nodup l3
        simp at this; omega
      have e := H.ffBody_eq h hf l1 l2 hl (fun q hq => (l4 q hq).1) (hfw l l2)
      simp only [e, g1] at hrun ⊢
      exact ih g2 (g5 D hD H.grid hf).2 hrun
    · rw [h1]
      exact ⟨rfl, fun _ e => by cases e; exact ⟨⟨r, h⟩, hf⟩⟩

/-- The run with rounding is the run without, if that uses no reversed arc. -/
theorem fordFulkerson_eq (H : NoRounding R sum g D B) (hD : 0 < D) (s t : Name) (fuel : ℕ)
    (hrun : ∀ r, computeResidual g (zeroFlow g) = .ok r → ForwardRun g s t fuel (zeroFlow g) r) :
    fordFulkerson R sum fuel g s t = Directed.fordFulkerson fuel g s t := by
  have hz0 : ∀ a c, g.arcs.get? a = some c → 0 ≤ fl (zeroFlow g) a := fun a _ _ => (fl_zeroFlow g a).ge
  have hzD : ∀ a ∈ g.arcs.keys, fl (zeroFlow g) a ∈ Grid D := fun a _ => by rw [fl_zeroFlow]; exact zero_mem _
  unfold fordFulkerson Directed.fordFulkerson
  cases he : checkEnds g s t with
  | some e => rfl
  | none =>
    obtain ⟨hs, ht, hst⟩ := checkEnds_none he
    have e1 : resLoop R (zeroFlow g) g.arcs [] = computeResidual g (zeroFlow g) :=
      H.resLoop_eq hz0 hzD g.arcs (fun _ h => h) []
    simp only [e1]
    rcases ff_start H.wf s t with ⟨-, h1⟩ | ⟨-, r, h1, -, h2⟩
    · simp only [h1]
    · simp only [h1]
      obtain ⟨e2, e3⟩ := H.ffLoop_eq hD hst hs ht fuel (h2 H.noAnti) hzD (hrun r h1)
      rw [e2]
      cases hl : Directed.ffLoop g s t fuel (zeroFlow g) r with
      | error e => rfl
      | ok flow =>
        obtain ⟨⟨r', h3⟩, h4⟩ := e3 flow hl
        simp only [H.flowValue_eq h3.nonneg h3.cap h4 hs]

end NoRounding

/-! ### What holds for every digraph -/

theorem resLoop_zero {R : Rounding} {g : Digraph} (l : Dict Arc ℚ) (hl : ∀ p ∈ l, R.Rep p.2) (r : Resid) :
    resLoop R (zeroFlow g) l r = Directed.resLoop (zeroFlow g) l r := by
  induction l generalizing r with
  | nil => rfl
  | cons p l ih =>
    obtain ⟨⟨u, v⟩, c⟩ := p
    have h0 : ((zeroFlow g).get? (u, v)).getD 0 = 0 := fl_zeroFlow g (u, v)
    have hc : R.rd c = c := hl ((u, v), c) (by simp)
    unfold resLoop Directed.resLoop
    simp only [h0, sub_zero, hc]
    split
    · rfl
    · exact ih (fun p hp => hl p (by simp [hp])) _

theorem ffPush_ok {R : Rounding} {g : Digraph} {flow : Flow} {r : Resid} {u v : Name} (δ : ℚ)
    (hk : flow.keys = g.arcs.keys) (hr : RWF r) (huv : u ≠ v) (hj : Joined g u v) :
    ∃ flow' r' x y a f, ffPush R g.arcs flow r u v δ = .ok (flow', r') ∧ flow'.keys = g.arcs.keys ∧ RWF r' ∧
      (∀ a b, lookup r' a b =
        if u = a ∧ v = b then (if x = 0 then none else some x)
        else if v = a ∧ u = b then (if y = 0 then none else some y)
        else lookup r a b) ∧ flow' = flow.set a (R.rd f) := by
  by_cases hm : (u, v) ∈ g.arcs.keys
  · have hmf : (u, v) ∈ flow.keys := hk ▸ hm
    obtain ⟨c, hc⟩ := Dict.exists_get?_of_mem hm
    obtain ⟨f, hf⟩ := Dict.exists_get?_of_mem hmf
    obtain ⟨r', h1, h2, h3⟩ := updRes_spec hr huv (R.rd (c - R.rd (f + δ))) (R.rd (f + δ))
    refine ⟨flow.set (u, v) (R.rd (f + δ)), r', _, _, (u, v), f + δ, ?_, ?_, h2, h3, rfl⟩
    · unfold ffPush
      rw [if_pos (Dict.has_iff.mpr hmf)]
      simp only [hf, hc, h1]
    · rw [keys_set_eq hmf, hk]
  · have hm' : (v, u) ∈ g.arcs.keys := hj.resolve_left hm
    have hmf : (v, u) ∈ flow.keys := hk ▸ hm'
    obtain ⟨c, hc⟩ := Dict.exists_get?_of_mem hm'
    obtain ⟨f, hf⟩ := Dict.exists_get?_of_mem hmf
    obtain ⟨r', h1, h2, h3⟩ := updRes_spec hr huv (R.rd (c - R.rd (f - δ))) (R.rd (f - δ))
    refine ⟨flow.set (v, u) (R.rd (f - δ)), r', _, _, (v, u), f - δ, ?_, ?_, h2, h3, rfl⟩
    · unfold ffPush
      have : ¬ flow.has (u, v) = true := by
        rw [Dict.has_iff, hk]; exact hm
      rw [if_neg this]
      simp only [hf, hc, h1]
    · rw [keys_set_eq hmf, hk]

/-- What every run maintains: the keys, the shape of the residual dictionary, and that the flow consists of floats. -/
structure FFShape (R : Rounding) (g : Digraph) (flow : Flow) (r : Resid) : Prop where
  keys : flow.keys = g.arcs.keys
  rwf : RWF r
  sup : ∀ u v, lookup r u v ≠ none → Joined g u v
  rep : ∀ a, R.Rep (fl flow a)

theorem augWhile_ok {R : Rounding} {g : Digraph} {p : Dict Name Name} {δ : ℚ} {s v : Name} {l : List Name}
    (ht : Trail p s v l) (fuel : ℕ) (hl : l.length < fuel) (flow : Flow) (r : Resid) (h : FFShape R g flow r)
    (hj : ∀ q ∈ arcsOf v l, Joined g q.1 q.2) :
    ∃ flow' r', augWhile R g.arcs p δ fuel (p.get? v) v flow r = .ok (flow', r') ∧ FFShape R g flow' r' := by
  induction ht generalizing fuel flow r with
  | nil h1 =>
    obtain ⟨fuel, rfl⟩ : ∃ k, fuel = k + 1 := ⟨fuel - 1, by simp at hl; omega⟩
    exact ⟨flow, r, by rw [h1]; rfl, h⟩
  | @cons v u l h1 h2 h3 ih =>
    obtain ⟨fuel, rfl⟩ : ∃ k, fuel = k + 1 := ⟨fuel - 1, by simp at hl; omega⟩
    have hjuv : Joined g u v := hj (u, v) (by simp [arcsOf])
    obtain ⟨flow1, r1, x, y, a, f, e1, e2, e3, e4, e5⟩ := ffPush_ok (R := R) δ h.keys h.rwf
      (fun hc => h2 (by simp [hc])) hjuv
    have hsh : FFShape R g flow1 r1 := by
      refine ⟨e2, e3, lookup_after e4 hjuv h.sup, fun b => ?_⟩
      rw [e5, fl_set]
      split
      · exact R.idem f
      · exact h.rep b
    obtain ⟨flow', r', g1, g2⟩ := ih fuel (by simp at hl; omega) flow1 r1 hsh
      fun q hq => hj q (by simp [arcsOf, hq])
    refine ⟨flow', r', ?_, g2⟩
    rw [h1]
    simp only [augWhile, e1]
    exact g1

theorem ffLoop_ok {R : Rounding} {g : Digraph} (hg : DWF g) {s t : Name} (hst : s ≠ t) (hs : s ∈ g.nodes.keys)
    (ht : t ∈ g.nodes.keys) (fuel : ℕ) (flow : Flow) (r : Resid) (h : FFShape R g flow r) :
    ffLoop R g s t fuel flow r = .error .notTerminated ∨
    ∃ flow' r', ffLoop R g s t fuel flow r = .ok flow' ∧ FFShape R g flow' r' := by
  induction fuel generalizing flow r with
  | zero => exact Or.inl rfl
  | succ fuel ih =>
    have hN : ∀ u x, lookup r u x ≠ none → x ∈ g.nodes.keys := fun u x hx =>
      (joined_nodes hg (h.sup u x hx)).2.1
    have hlen : g.nodes.keys.length < innerFuel g := by
      unfold innerFuel; rw [keys_length]; omega
    unfold ffLoop
    rcases bfsPath_spec (r := r) (fun _ _ => True) hst hs ht hN (fun _ _ _ _ _ _ => trivial) _ hlen with
      ⟨p, h1, l, l1, l2, l3, l4⟩ | ⟨h1, -⟩
    · have hl : l.length < innerFuel g := by
        have := nodup_length_le l2.nodup l3
        simp at this; omega
      obtain ⟨acc, m1, m2, -, -⟩ := minWhile_spec l2 (fun q hq => (l4 q hq).1) (innerFuel g) hl none
      obtain ⟨u, l', rfl⟩ : ∃ u l', l = u :: l' := by
        cases l with
        | nil => exact absurd rfl l1
        | cons u l' => exact ⟨u, l', rfl⟩
      obtain ⟨x, δ, -, rfl, -⟩ := m2 (u, t) (by simp [arcsOf])
      have hu : p.get? t = some u := by
        cases l2 with
        | cons h _ _ => exact h
      obtain ⟨flow', r', g1, g2⟩ := augWhile_ok (δ := δ) l2 (innerFuel g) hl flow r h
        fun q hq => h.sup _ _ (l4 q hq).1
      have e : ffBody R g t (innerFuel g) p flow r = .ok (flow', r') := by
        unfold ffBody
        rw [hu] at m1 g1 ⊢
        simp only [m1]
        exact g1
      rw [h1]
      simp only [e]
      exact ih flow' r' g2
    · exact Or.inr ⟨flow, r, by rw [h1], h⟩

/-- More rounds do not change a result. -/
theorem fordFulkerson_mono {R : Rounding} {sum : Flow → List Arc → ℚ} {g : Digraph} {s t : Name} {n m : ℕ}
    (hm : n ≤ m) {x : ℚ × Flow} (h : fordFulkerson R sum n g s t = .ok x) :
    fordFulkerson R sum m g s t = .ok x := by
  have key : ∀ n k flow r flow', ffLoop R g s t n flow r = .ok flow' → ffLoop R g s t (n + k) flow r = .ok flow' := by
    intro n
    induction n with
    | zero => intro k flow r flow' h; cases h
    | succ n ih =>
      intro k flow r flow' h
      rw [show n + 1 + k = (n + k) + 1 by omega]
      unfold ffLoop at h ⊢
      cases h1 : bfsPath (innerFuel g) s t r with
      | error e => rw [h1] at h; cases h
      | ok o =>
        cases o with
        | none => rw [h1] at h; exact h
        | some p =>
          simp only [h1] at h ⊢
          cases h2 : ffBody R g t (innerFuel g) p flow r with
          | error e => rw [h2] at h; cases h
          | ok q =>
            simp only [h2] at h ⊢
            exact ih k q.1 q.2 flow' h
  obtain ⟨k, rfl⟩ := Nat.exists_eq_add_of_le hm
  unfold fordFulkerson at h ⊢
  cases h1 : checkEnds g s t with
  | some e => rw [h1] at h; cases h
  | none =>
    simp only [h1] at h ⊢
    cases h2 : resLoop R (zeroFlow g) g.arcs [] with
    | error e => rw [h2] at h; cases h
    | ok r =>
      simp only [h2] at h ⊢
      cases h3 : ffLoop R g s t n (zeroFlow g) r with
      | error e => rw [h3] at h; cases h
      | ok flow =>
        simp only [h3] at h
        simp only [key n k _ _ _ h3]
        exact h

end Floating
end Pytimize
