/-
C24: `formulate_max_stable_set` (`pytimize/graphs/_undirected.py:398-428`).
-/
import Verif.Graph.StableSet
import Mathlib.Tactic.Linarith
import Mathlib.Algebra.BigOperators.Ring.Finset

namespace Pytimize.Props
open Pytimize.Undirected
open Pytimize.Directed (Name chars NodeArg)
open Pytimize.LinProg (Feas objVal)

/-- Specification: a set of vertices, no two of which are joined by an edge. -/
def StableSet (g : Ugraph) (S : Finset Name) : Prop :=
  (∀ v ∈ S, hasVertex g v = true) ∧ ∀ a ∈ S, ∀ b ∈ S, hasEdge g (a, b) = false

/-- Specification: the weight of a vertex. -/
def vertexWeight (g : Ugraph) (v : Name) : ℚ :=
  match getVertexWeight g v with
  | .ok w => w
  | .error _ => 0

/-- Specification: the program `P` with the column map `map` describes the stable sets of `g`. -/
structure DescribesStableSets (g : Ugraph) {m n : ℕ} (P : LinProg.LP m n) (map : Dict Name ℕ) : Prop where
  /-- maximisation over as many variables as vertices -/
  max : P.objective = .max
  columns : n = g.vertices.length
  /-- vertices and columns correspond one to one -/
  mapped : ∀ v, hasVertex g v = true ↔ ∃ j : Fin n, map.get? v = some (j : ℕ)
  onto : ∀ j : Fin n, ∃! v, map.get? v = some (j : ℕ)
  /-- the indicator vector of a stable set is feasible and its value is the weight of the set -/
  stable : ∀ S, StableSet g S → ∀ x : Fin n → ℚ,
    (∀ v, ∀ j : Fin n, map.get? v = some (j : ℕ) → x j = if v ∈ S then 1 else 0) →
    Feas P x ∧ objVal P x = ∑ v ∈ S, vertexWeight g v
  /-- every integral feasible point is the indicator vector of exactly one stable set -/
  integral : ∀ x : Fin n → ℚ, Feas P x → (∀ j, ∃ k : ℤ, x j = k) →
    ∃! S, StableSet g S ∧ ∀ v, ∀ j : Fin n, map.get? v = some (j : ℕ) → x j = if v ∈ S then 1 else 0

/-- C24 (graphs with an edge). Missing from the full statement: graphs without edges, for which the call
raises (`C24_edgeless_wrong`), and the empty graph (`C24_empty_none`). The first row of `A` comes from
`np.empty` (`junk`) and is dropped: the result does not depend on it. -/
theorem C24_exact_partial {g : Ugraph} (h : Weak g) {junk : List ℚ} (hj : junk.length = g.vertices.length)
    {a b : Name} (he : hasEdge g (a, b) = true) :
    ∃ m n, ∃ P : LinProg.LP m n, ∃ map, formulateMaxStableSet junk g = .ok (some (⟨⟨m, n, P⟩, none⟩, map)) ∧
      DescribesStableSets g P map := by
  have hE := hasEdge_iff.mp he
  have hne : g.edges ≠ [] := by intro hc; rw [hc] at hE; simp [Dict.keys] at hE
  have hV : g.vertices ≠ [] := by
    intro hc
    have := (h.ends _ _ hE).1
    rw [hc] at this
    simp [Dict.keys] at this
  have hmapC : ∀ {v : Name} {j : ℕ}, (mapping g).get? v = some j ↔ v ∈ g.vertices.keys ∧ col g v = j := by
    intro v j
    rw [mapping_get?]
    constructor
    · intro hs
      split at hs
      · rename_i hv
        exact ⟨hv, by rw [col_eq hv]; exact Option.some.inj hs⟩
      · cases hs
    · rintro ⟨hv, hc⟩
      rw [if_pos hv, ← col_eq hv, hc]
  have hlt : ∀ {v : Name}, v ∈ g.vertices.keys → col g v < (mapping g).length := by
    intro v hv; rw [mapping_length]; exact col_lt hv
  have honto : ∀ j : Fin (mapping g).length, ∃! v, (mapping g).get? v = some (j : ℕ) := by
    intro j
    have hj' : (j : ℕ) < g.vertices.keys.length := by rw [keys_length, ← mapping_length]; exact j.2
    refine ⟨g.vertices.keys[(j : ℕ)], hmapC.mpr ⟨List.getElem_mem hj', ?_⟩, fun v hv => ?_⟩
    · rw [col_eq (List.getElem_mem hj')]
      exact List.Nodup.idxOf_getElem h.vertsWF _ _
    · have hv := hmapC.mp hv
      have := keys_col hv.1
      rw [hv.2, List.getElem?_eq_getElem hj'] at this
      exact (Option.some.inj this).symm
  refine ⟨_, _, ssLP g, mapping g, formulate_eq hj hV hne, rfl, mapping_length g, fun v => ?_, honto, ?_, ?_⟩
  · rw [hasVertex_iff]
    exact ⟨fun hv => ⟨⟨col g v, hlt hv⟩, hmapC.mpr ⟨hv, rfl⟩⟩, fun ⟨j, hj⟩ => (hmapC.mp hj).1⟩
  · intro S hS x hx
    have hxj : ∀ j, x j = 0 ∨ x j = 1 := by
      intro j
      obtain ⟨v, hv, _⟩ := honto j
      rw [hx v j hv]
      by_cases hv : v ∈ S <;> simp [hv]
    refine ⟨(ss_feas h x).mpr ⟨fun j => ?_, fun j => ?_, ?_⟩, ?_⟩
    · rcases hxj j with hz | hz <;> rw [hz] <;> norm_num
    · rcases hxj j with hz | hz <;> rw [hz] <;> norm_num
    · intro a b hab i j hi hj
      have hends := h.ends a b hab
      rw [hx a i (hmapC.mpr ⟨hends.1, hi.symm⟩), hx b j (hmapC.mpr ⟨hends.2, hj.symm⟩)]
      by_cases ha : a ∈ S
      · by_cases hb : b ∈ S
        · have := hS.2 a ha b hb
          rw [hasEdge_iff.mpr (by rw [norm_of_lt (h.sorted a b hab)]; exact hab)] at this
          cases this
        · rw [if_pos ha, if_neg hb]; norm_num
      · rw [if_neg ha]
        split <;> norm_num
    · rw [ss_obj h x (fun v => if v ∈ S then 1 else 0) hx]
      have hw : ∀ p ∈ g.vertices, p.2 * (if p.1 ∈ S then (1 : ℚ) else 0) =
          if p.1 ∈ S then vertexWeight g p.1 else 0 := by
        intro p hp
        have hget := Dict.get?_of_mem h.vertsWF hp
        have hvw : vertexWeight g p.1 = p.2 := by
          unfold vertexWeight getVertexWeight
          rw [if_pos (hasVertex_iff.mpr (Dict.mem_keys_of_get? hget)), hget]
        rw [hvw]
        split <;> simp
      rw [List.map_congr_left hw]
      have hfin : S = g.vertices.keys.toFinset.filter (· ∈ S) := by
        ext v
        simp only [Finset.mem_filter, List.mem_toFinset]
        exact ⟨fun hv => ⟨hasVertex_iff.mp (hS.1 v hv), hv⟩, fun hv => hv.2⟩
      rw [show (List.map (fun p : Name × ℚ => if p.1 ∈ S then vertexWeight g p.1 else 0) g.vertices) =
        g.vertices.keys.map (fun v => if v ∈ S then vertexWeight g v else 0) by simp [Dict.keys]]
      rw [← List.sum_toFinset _ h.vertsWF]
      conv_rhs => rw [hfin]
      rw [Finset.sum_filter]
  · intro x hx hint
    have hf := (ss_feas h x).mp hx
    have h01 : ∀ j, x j = 0 ∨ x j = 1 := by
      intro j
      obtain ⟨k, hk⟩ := hint j
      have h0 := hf.1 j
      have h1 := hf.2.1 j
      rw [hk] at h0 h1 ⊢
      have h0' : 0 ≤ k := by exact_mod_cast h0
      have h1' : k ≤ 1 := by exact_mod_cast h1
      have : k = 0 ∨ k = 1 := by omega
      rcases this with rfl | rfl <;> simp
    have hspec : ∀ v, ∀ j : Fin (mapping g).length, (mapping g).get? v = some (j : ℕ) →
        x j = if v ∈ (g.vertices.keys.toFinset.filter fun v => ∃ j : Fin (mapping g).length,
          (mapping g).get? v = some (j : ℕ) ∧ x j = 1) then 1 else 0 := by
      intro v j hv
      have hmem : v ∈ (g.vertices.keys.toFinset.filter fun v => ∃ j : Fin (mapping g).length,
          (mapping g).get? v = some (j : ℕ) ∧ x j = 1) ↔ x j = 1 := by
        simp only [Finset.mem_filter, List.mem_toFinset]
        constructor
        · rintro ⟨_, i, hi, hxi⟩
          rw [hv] at hi
          have : j = i := Fin.ext (Option.some.inj hi)
          rw [this]; exact hxi
        · intro h1
          exact ⟨(hmapC.mp hv).1, j, hv, h1⟩
      rcases h01 j with hz | hz
      · rw [if_neg (by rw [hmem, hz]; norm_num), hz]
      · rw [if_pos (hmem.mpr hz), hz]
    refine ⟨_, ⟨⟨?_, ?_⟩, hspec⟩, ?_⟩
    · intro v hv
      rw [hasVertex_iff]
      exact List.mem_toFinset.mp (Finset.mem_filter.mp hv).1
    · intro a ha b hb
      obtain ⟨_, i, hi, hxi⟩ := Finset.mem_filter.mp ha
      obtain ⟨_, j, hj, hxj⟩ := Finset.mem_filter.mp hb
      rw [Bool.eq_false_iff]
      intro hc
      have hc := hasEdge_iff.mp hc
      have hi' := (hmapC.mp hi).2
      have hj' := (hmapC.mp hj).2
      rcases norm_cases a b with hn | hn <;> rw [hn] at hc
      · have := hf.2.2 a b hc i j hi'.symm hj'.symm
        rw [hxi, hxj] at this
        norm_num at this
      · have := hf.2.2 b a hc j i hj'.symm hi'.symm
        rw [hxi, hxj] at this
        norm_num at this
    · rintro T ⟨hT, hTx⟩
      ext v
      constructor
      · intro hv
        have hvk := hasVertex_iff.mp (hT.1 v hv)
        have hm := hmapC.mpr ⟨hvk, rfl⟩
        have := hTx v ⟨col g v, hlt hvk⟩ hm
        rw [if_pos hv] at this
        exact Finset.mem_filter.mpr ⟨List.mem_toFinset.mpr hvk, _, hm, this⟩
      · intro hv
        obtain ⟨_, i, hi, hxi⟩ := Finset.mem_filter.mp hv
        by_contra hc
        have := hTx v i hi
        rw [if_neg hc, hxi] at this
        norm_num at this

/-- C24 (consequence): the best integral point and the heaviest stable set have the same value. -/
theorem C24_optimal_partial {g : Ugraph} (h : Weak g) {junk : List ℚ}
    (hj : junk.length = g.vertices.length) {a b : Name} (he : hasEdge g (a, b) = true) :
    ∃ m n, ∃ P : LinProg.LP m n, ∃ map, formulateMaxStableSet junk g = .ok (some (⟨⟨m, n, P⟩, none⟩, map)) ∧
      ∀ r : ℚ, (∀ x, Feas P x → (∀ j, ∃ k : ℤ, x j = k) → objVal P x ≤ r) ↔
        ∀ S, StableSet g S → ∑ v ∈ S, vertexWeight g v ≤ r := by
  obtain ⟨m, n, P, map, h1, hd⟩ := C24_exact_partial h hj he
  refine ⟨m, n, P, map, h1, fun r => ⟨fun hr S hS => ?_, fun hr x hx hint => ?_⟩⟩
  · choose f hf _ using hd.onto
    have hfx : ∀ v, ∀ j : Fin n, map.get? v = some (j : ℕ) →
        (fun j => if f j ∈ S then (1 : ℚ) else 0) j = if v ∈ S then 1 else 0 := by
      intro v j hv
      have : f j = v := (hd.onto j).unique (hf j) hv
      simp only [this]
    have := hd.stable S hS _ hfx
    rw [← this.2]
    exact hr _ this.1 fun j => by
      by_cases hfj : f j ∈ S
      · exact ⟨1, by simp [hfj]⟩
      · exact ⟨0, by simp [hfj]⟩
  · obtain ⟨S, ⟨hS, hSx⟩, _⟩ := hd.integral x hx hint
    rw [(hd.stable S hS x hSx).2]
    exact hr S hS

example : ∃ g, ctor [(['a'], [['b']]), (['c'], [])] [] [(['a'], 2), (['b'], 3), (['c'], 4)] = .ok g ∧
    Weak g ∧ hasEdge g (['b'], ['a']) = true ∧ g.vertices.length = 3 := by
  refine ⟨⟨[(['a'], [['b']]), (['b'], [['a']]), (['c'], [])], [((['a'], ['b']), 0)],
    [(['a'], 2), (['b'], 3), (['c'], 4)]⟩, ?h, (ctor_uwf ?h).toWeak, by decide +kernel, rfl⟩
  decide +kernel

/-- C24 is false for every graph with vertices but no edges: the call raises `ValueError`. -/
theorem C24_edgeless_wrong {g : Ugraph} {junk : List ℚ} (hj : junk.length = g.vertices.length)
    (hv : g.vertices ≠ []) (he : g.edges = []) : formulateMaxStableSet junk g = .error .valueError := by
  have hE : isEmpty g = false := by
    unfold isEmpty
    simp only [decide_eq_false_iff_not]
    exact fun hc => hv (List.length_eq_zero_iff.mp hc)
  unfold formulateMaxStableSet
  rw [hE, he]
  obtain ⟨k, hk⟩ : ∃ k, (mapping g).length = k + 1 := by
    rw [mapping_length]
    exact Nat.exists_eq_succ_of_ne_zero (by simpa using hv)
  have hjk : junk.length = k + 1 := by rw [hj, ← mapping_length, hk]
  simp only [Bool.false_eq_true, if_false, Dict.keys, List.map_nil, Stack.vstacks, Stack.tail, hk,
    List.range_succ_eq_map, List.map_cons, Stack.vstack]
  rw [if_neg]
  rw [unitRow_length, List.length_tail, hjk]
  omega

/-- C24 is false for the empty graph: the call returns `None`. -/
theorem C24_empty_none (junk : List ℚ) : formulateMaxStableSet junk Ugraph.empty = .ok none := rfl

end Pytimize.Props
