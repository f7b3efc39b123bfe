/-
C11: a digraph with small capacities on which Ford–Fulkerson never ends.
-/
import Mathlib.Tactic.IntervalCases
import Verif.Props.MaxFlow

namespace Pytimize
namespace Props
open Directed

/-- Twelve arcs with capacities at most 3. -/
def endlessArcs : List (Char × Char × ℚ) :=
  [('c', 'e', 2), ('s', 'a', 1), ('s', 'd', 2), ('f', 't', 3), ('c', 'b', 1), ('d', 'e', 2), ('a', 'e', 1),
   ('d', 'f', 1), ('e', 't', 3), ('b', 'a', 1), ('s', 'c', 3), ('a', 'f', 2)]

/-- The digraph with the arcs `endlessArcs`. -/
def endlessGraph : Digraph := (ctor [] (arcs1 endlessArcs) []).toOption.getD ⟨[], [], []⟩

/-- The flow after the first seven augmentations, for `q = 4`. -/
def endlessFlow (q : ℚ) : Flow :=
  arcs1 [('c', 'e', 2), ('s', 'a', 1), ('s', 'd', 2), ('f', 't', 2 - q), ('c', 'b', -q), ('d', 'e', q + 2),
    ('a', 'e', -q - 1), ('d', 'f', -q), ('e', 't', 3), ('b', 'a', -q), ('s', 'c', 2 - q), ('a', 'f', 2)]

/-- The residual dictionary at that point. -/
def endlessRes (q : ℚ) : Resid :=
  [(['c'], [(['b'], q + 1), (['s'], 2 - q)]), (['s'], [(['c'], q + 1)]),
   (['f'], [(['t'], q + 1), (['a'], 2), (['d'], -q)]), (['d'], [(['f'], q + 1), (['s'], 2), (['e'], q + 2)]),
   (['a'], [(['s'], 1), (['e'], q + 2), (['b'], -q)]), (['e'], [(['a'], -q - 1), (['d'], -q), (['c'], 2)]),
   (['b'], [(['a'], q + 1), (['c'], -q)]), (['t'], [(['e'], 3), (['f'], 2 - q)])]

/-- The path found in it. -/
def endlessPath : Dict Name Name :=
  [(['c'], ['s']), (['b'], ['c']), (['a'], ['b']), (['e'], ['a']), (['d'], ['e']), (['f'], ['d']), (['t'], ['f'])]

theorem endless_path (q : ℚ) : bfsPath 10 ['s'] ['t'] (endlessRes q) = .ok (some endlessPath) := rfl

theorem endless_min {q : ℚ} (hq : 2 < q) :
    minWhile endlessPath (endlessRes q) 10 (some ['f']) ['t'] none = .ok (some (-q)) := by
  have e : minWhile endlessPath (endlessRes q) 10 (some ['f']) ['t'] none =
      .ok (some (min (min (min (min (min (min (q + 1) (q + 1)) (-q)) (q + 2)) (q + 1)) (q + 1)) (q + 1))) := rfl
  rw [e, min_self, min_eq_right (a := q + 1) (b := -q) (by linarith), min_eq_left (a := -q) (b := q + 2) (by linarith),
    min_eq_left (a := -q) (b := q + 1) (by linarith), min_eq_left (a := -q) (b := q + 1) (by linarith),
    min_eq_left (a := -q) (b := q + 1) (by linarith)]

theorem updRes_nonzero {r : Resid} {u v : Name} (huv : u ≠ v) {x y : ℚ} (hx : x ≠ 0) (hy : y ≠ 0) :
    updRes r u v x y = .ok (put (put r u v x) v u y) := by
  have h1 : lookup (put (put r u v x) v u y) u v = some x := by
    rw [lookup_put, if_neg (by rintro ⟨h, _⟩; exact huv h.symm), lookup_put, if_pos ⟨rfl, rfl⟩]
  have h2 : lookup (put (put r u v x) v u y) v u = some y := by
    rw [lookup_put, if_pos ⟨rfl, rfl⟩]
  unfold updRes
  simp only [h1, h2, if_neg hx, if_neg hy]
  unfold lookup at h1 h2
  cases hu : (put (put r u v x) v u y).get? u with
  | none => simp [hu] at h1
  | some du =>
    have hdu : du.length ≠ 0 := by
      rintro h
      rw [List.length_eq_zero_iff] at h
      subst h
      simp [hu, Dict.get?] at h1
    cases hv : (put (put r u v x) v u y).get? v with
    | none => simp [hv] at h2
    | some dv =>
      have hdv : dv.length ≠ 0 := by
        rintro h
        rw [List.length_eq_zero_iff] at h
        subst h
        simp [hv, Dict.get?] at h2
      simp only [if_neg hdu, hv, if_neg hdv]

theorem push_forward {arcs : Dict Arc ℚ} {flow : Flow} {r : Resid} {u v : Name} {δ f c x y : ℚ} (huv : u ≠ v)
    (hf : flow.get? (u, v) = some f) (hc : arcs.get? (u, v) = some c) (hx : c - (f + δ) = x) (hy : f + δ = y)
    (hx0 : x ≠ 0) (hy0 : y ≠ 0) :
    ffPush arcs flow r u v δ = .ok (flow.set (u, v) y, put (put r u v x) v u y) := by
  have hh : flow.has (u, v) = true := by unfold Dict.has; rw [hf]; rfl
  unfold ffPush
  rw [if_pos hh]
  rw [hy] at hx
  simp only [hf, hc, hy, hx, updRes_nonzero huv hx0 hy0]

theorem push_reverse {arcs : Dict Arc ℚ} {flow : Flow} {r : Resid} {u v : Name} {δ f c x y : ℚ} (huv : u ≠ v)
    (hn : flow.get? (u, v) = none) (hf : flow.get? (v, u) = some f) (hc : arcs.get? (v, u) = some c)
    (hx : c - (f - δ) = x) (hy : f - δ = y) (hx0 : x ≠ 0) (hy0 : y ≠ 0) :
    ffPush arcs flow r u v δ = .ok (flow.set (v, u) y, put (put r u v x) v u y) := by
  have hh : ¬ flow.has (u, v) = true := by unfold Dict.has; rw [hn]; simp
  unfold ffPush
  rw [if_neg hh]
  rw [hy] at hx
  simp only [hf, hc, hy, hx, updRes_nonzero huv hx0 hy0]

/-- One round from the state for `q` leads to the state for `2 q`. -/
theorem endless_body {q : ℚ} (hq : 2 < q) :
    augWhile (arcs1 endlessArcs) endlessPath (-q) 10 (some ['f']) ['t'] (endlessFlow q) (endlessRes q) =
      .ok (endlessFlow (2 * q), endlessRes (2 * q)) := by
  have n1 : 2 * q + 1 ≠ 0 := by positivity
  have n2 : 2 - 2 * q ≠ 0 := by linarith
  have n3 : -(2 * q) ≠ 0 := by linarith
  have n4 : 2 * q + 2 ≠ 0 := by positivity
  have n5 : -(2 * q) - 1 ≠ 0 := by linarith
  rw [augWhile, push_forward (f := 2 - q) (c := 3) (x := 2 * q + 1) (y := 2 - 2 * q) (by decide) (by rfl) (by rfl)
    (by ring) (by ring) n1 n2]
  simp only
  rw [show endlessPath.get? ['f'] = some ['d'] from rfl, augWhile,
    push_forward (f := -q) (c := 1) (x := 2 * q + 1) (y := -(2 * q)) (by decide) (by rfl) (by rfl)
    (by ring) (by ring) n1 n3]
  simp only
  rw [show endlessPath.get? ['d'] = some ['e'] from rfl, augWhile,
    push_reverse (f := q + 2) (c := 2) (x := -(2 * q)) (y := 2 * q + 2) (by decide) (by rfl) (by rfl) (by rfl)
    (by ring) (by ring) n3 n4]
  simp only
  rw [show endlessPath.get? ['e'] = some ['a'] from rfl, augWhile,
    push_forward (f := -q - 1) (c := 1) (x := 2 * q + 2) (y := -(2 * q) - 1) (by decide) (by rfl) (by rfl)
    (by ring) (by ring) n4 n5]
  simp only
  rw [show endlessPath.get? ['a'] = some ['b'] from rfl, augWhile,
    push_forward (f := -q) (c := 1) (x := 2 * q + 1) (y := -(2 * q)) (by decide) (by rfl) (by rfl)
    (by ring) (by ring) n1 n3]
  simp only
  rw [show endlessPath.get? ['b'] = some ['c'] from rfl, augWhile,
    push_forward (f := -q) (c := 1) (x := 2 * q + 1) (y := -(2 * q)) (by decide) (by rfl) (by rfl)
    (by ring) (by ring) n1 n3]
  simp only
  rw [show endlessPath.get? ['c'] = some ['s'] from rfl, augWhile,
    push_forward (f := 2 - q) (c := 3) (x := 2 * q + 1) (y := 2 - 2 * q) (by decide) (by rfl) (by rfl)
    (by ring) (by ring) n1 n2]
  rfl

theorem endless_graph : endlessGraph.arcs = arcs1 endlessArcs ∧ endlessGraph.nodes.length = 8 := by decide +kernel

theorem endless_loop (fuel : ℕ) {q : ℚ} (hq : 2 < q) :
    ffLoop endlessGraph ['s'] ['t'] fuel (endlessFlow q) (endlessRes q) = .error .notTerminated := by
  induction fuel generalizing q with
  | zero => rfl
  | succ fuel ih =>
    have hin : innerFuel endlessGraph = 10 := by unfold innerFuel; rw [endless_graph.2]
    rw [ffLoop, hin, endless_path]
    simp only
    have hb : ffBody endlessGraph ['t'] 10 endlessPath (endlessFlow q) (endlessRes q) =
        .ok (endlessFlow (2 * q), endlessRes (2 * q)) := by
      unfold ffBody
      rw [show endlessPath.get? ['t'] = some ['f'] from rfl]
      simp only [endless_min hq, endless_graph.1, endless_body hq]
    rw [hb]
    exact ih (by linarith)

/-- One round of the outer loop, if it finds a path. -/
def ffNext (g : Digraph) (s t : Name) (st : Flow × Resid) : Option (Flow × Resid) :=
  match bfsPath (innerFuel g) s t st.2 with
  | .ok (some path) => (ffBody g t (innerFuel g) path st.1 st.2).toOption
  | _ => none

/-- Several rounds. -/
def ffNextN (g : Digraph) (s t : Name) : ℕ → Flow × Resid → Option (Flow × Resid)
  | 0, st => some st
  | k + 1, st => (ffNext g s t st).bind (ffNextN g s t k)

theorem ffLoop_next {g : Digraph} {s t : Name} {st st' : Flow × Resid} (h : ffNext g s t st = some st') (fuel : ℕ) :
    ffLoop g s t (fuel + 1) st.1 st.2 = ffLoop g s t fuel st'.1 st'.2 := by
  unfold ffNext at h
  rw [ffLoop]
  split at h
  · rename_i path hp
    rw [hp]
    simp only
    cases hb : ffBody g t (innerFuel g) path st.1 st.2 with
    | error e => rw [hb] at h; cases h
    | ok r =>
      rw [hb] at h
      cases h
      rfl
  · cases h

theorem ffLoop_nextN {g : Digraph} {s t : Name} {j : ℕ} {st st' : Flow × Resid} (h : ffNextN g s t j st = some st')
    (fuel : ℕ) : ffLoop g s t (fuel + j) st.1 st.2 = ffLoop g s t fuel st'.1 st'.2 := by
  induction j generalizing st with
  | zero => cases h; rfl
  | succ j ih =>
    rw [ffNextN, Option.bind_eq_some_iff] at h
    obtain ⟨mid, h1, h2⟩ := h
    rw [← Nat.add_assoc, ffLoop_next h1, ih h2]

/-- The first residual dictionary. -/
def endlessStart : Resid :=
  [(['c'], [(['e'], 2), (['b'], 1)]), (['s'], [(['a'], 1), (['d'], 2), (['c'], 3)]), (['f'], [(['t'], 3)]),
   (['d'], [(['e'], 2), (['f'], 1)]), (['a'], [(['e'], 1), (['f'], 2)]), (['e'], [(['t'], 3)]), (['b'], [(['a'], 1)])]

theorem endless_start : computeResidual endlessGraph (zeroFlow endlessGraph) = .ok endlessStart := by decide +kernel

instance : DecidableEq (Dict Name ℚ) := inferInstanceAs (DecidableEq (List (Name × ℚ)))

instance : DecidableEq Resid := inferInstanceAs (DecidableEq (List (Name × Dict Name ℚ)))

instance : DecidableEq Flow := inferInstanceAs (DecidableEq (List (Arc × ℚ)))

theorem endless_seven : ffNextN endlessGraph ['s'] ['t'] 7 (zeroFlow endlessGraph, endlessStart) =
    some (endlessFlow 4, endlessRes 4) := by decide +kernel

theorem endless_first (fuel : ℕ) :
    ffLoop endlessGraph ['s'] ['t'] fuel (zeroFlow endlessGraph) endlessStart = .error .notTerminated := by
  rcases Nat.lt_or_ge fuel 7 with h | h
  · have : ∃ st, ffNextN endlessGraph ['s'] ['t'] fuel (zeroFlow endlessGraph, endlessStart) = some st := by
      rw [← Option.isSome_iff_exists]
      interval_cases fuel <;> decide +kernel
    obtain ⟨st, hst⟩ := this
    have := ffLoop_nextN hst 0
    rw [Nat.zero_add] at this
    rw [this]
    rfl
  · obtain ⟨k, rfl⟩ : ∃ k, fuel = k + 7 := ⟨fuel - 7, by omega⟩
    rw [ffLoop_nextN endless_seven k]
    exact endless_loop k (by norm_num)

theorem endless_ctor : ctor [] (arcs1 endlessArcs) [] = .ok endlessGraph := by decide +kernel

/-- C11 is false: on a digraph with twelve arcs, capacities at most 3 and no opposite arcs, `ford_fulkerson` never
ends; from the eighth search on, every round doubles the (negative) flow on some arcs. -/
theorem C11_endless_wrong : PreflowOk endlessGraph ∧ ['s'] ∈ endlessGraph.nodes.keys ∧
    ['t'] ∈ endlessGraph.nodes.keys ∧ (∀ p ∈ endlessGraph.arcs, 1 ≤ p.2 ∧ p.2 ≤ 3) ∧
    ∀ fuel, fordFulkerson fuel endlessGraph ['s'] ['t'] = .error .notTerminated := by
  refine ⟨preflowOk_of_ctor endless_ctor (by decide +kernel) (by decide +kernel) (by decide +kernel),
    by decide +kernel, by decide +kernel, by decide +kernel, fun fuel => ?_⟩
  unfold fordFulkerson
  rw [show checkEnds endlessGraph ['s'] ['t'] = none by decide +kernel]
  simp only [endless_start, endless_first]

end Props
end Pytimize
