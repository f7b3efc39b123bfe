/-
C85: `formulate_max_stable_set` followed by `branch_and_bound` finds a stable set of largest weight.
-/
import Verif.Props.StableSet
import Verif.Props.IntegerBox

namespace Pytimize.Props
open Pytimize.Undirected
open Pytimize.Directed (Name chars NodeArg)
open Pytimize.LinProg (Feas objVal WF TwoVarLP IntVec branchAndBound)

/-- The program of a graph with an edge has two variables per row. -/
theorem ss_two {g : Ugraph} (h : Weak g) (hne : g.edges ≠ []) {N : ℕ} (hN : 0 < N) (hN' : 2 * N ≤ 10 ^ 10)
    (hw : ∀ v, hasVertex g v = true → ∃ k : ℤ, (N : ℚ) * vertexWeight g v = k) : TwoPerRow (ssLP g) 1 1 := by
  have hentry : ∀ i j, (ssLP g).A i j = 0 ∨ (ssLP g).A i j = 1 := by
    intro i j
    show (((ssRows g)[i])[(j : ℕ)]?).getD 0 = 0 ∨ (((ssRows g)[i])[(j : ℕ)]?).getD 0 = 1
    have hr : (ssRows g)[i] ∈ ssRows g := List.getElem_mem i.2
    generalize (ssRows g)[i] = r at hr
    unfold ssRows at hr
    rcases List.mem_append.mp hr with hr | hr
    · obtain ⟨e, _, rfl⟩ := List.mem_map.mp hr
      rw [unitRow_get _ j.2]
      split <;> simp
    · obtain ⟨e, _, rfl⟩ := List.mem_map.mp hr
      rw [unitRow_get _ j.2]
      split <;> simp
  refine ⟨⟨.nil, .nil, by simp [ssLP], by simp [ssLP], by simp [ssLP], rfl⟩, ⟨rfl, rfl, fun i => ?_,
    ⟨N, hN, hN', fun j => ?_⟩, fun _ => ⟨1, by simp [ssLP]⟩, fun _ => by simp [ssLP], fun i j h0 => ?_, fun i => ?_, fun j => ?_⟩,
    ?_, le_rfl, by norm_num⟩
  · simp [ssLP]
  · have hj : (j : ℕ) < g.vertices.length := by rw [← mapping_length]; exact j.2
    have hmem : (g.vertices[(j : ℕ)]).1 ∈ g.vertices.keys :=
      List.mem_map_of_mem (f := Prod.fst) (List.getElem_mem hj)
    have hk : g.vertices.keys[(j : ℕ)]'(by rw [keys_length]; exact hj) = (g.vertices[(j : ℕ)]).1 := by
      simp [Dict.keys]
    have hcol : col g (g.vertices[(j : ℕ)]).1 = j := by
      rw [col_eq hmem, ← hk]
      exact List.Nodup.idxOf_getElem h.vertsWF _ _
    have hget : g.vertices.get? (g.vertices[(j : ℕ)]).1 = some (g.vertices[(j : ℕ)]).2 :=
      Dict.get?_of_mem h.vertsWF (List.getElem_mem hj)
    have hc := costs_get h.vertsWF hget
    have hjc : (j : ℕ) < (costs g).length := by rw [costs_length]; exact j.2
    rw [hcol, List.getElem?_eq_getElem hjc] at hc
    obtain ⟨k, hk⟩ := hw _ (hasVertex_iff.mpr hmem)
    refine ⟨k, ?_⟩
    rw [← hk]
    show (N : ℚ) * (costs g)[(j : ℕ)]'hjc = _
    rw [Option.some.inj hc]
    unfold vertexWeight getVertexWeight
    rw [if_pos (hasVertex_iff.mpr hmem), hget]
  · rcases hentry i j with h1 | h1
    · exact absurd h1 h0
    · exact Or.inl h1
  · have hr : (ssRows g)[i] ∈ ssRows g := List.getElem_mem i.2
    have key : ∃ a b : ℕ, ∀ j : Fin (mapping g).length, (ssLP g).A i j ≠ 0 → (j : ℕ) = a ∨ (j : ℕ) = b := by
      have e : ∀ j, (ssLP g).A i j = (((ssRows g)[i])[(j : ℕ)]?).getD 0 := fun j => rfl
      simp only [e]
      generalize (ssRows g)[i] = r at hr
      unfold ssRows at hr
      rcases List.mem_append.mp hr with hr | hr
      · obtain ⟨e, _, rfl⟩ := List.mem_map.mp hr
        refine ⟨col g e.1, col g e.2, fun j hj => ?_⟩
        rw [unitRow_get _ j.2] at hj
        by_contra hc
        push Not at hc
        exact hj (by simp [hc.1, hc.2])
      · obtain ⟨e, _, rfl⟩ := List.mem_map.mp hr
        refine ⟨e, e, fun j hj => ?_⟩
        rw [unitRow_get _ j.2] at hj
        by_contra hc
        push Not at hc
        exact hj (by simp [hc.1])
    obtain ⟨a, b, hab⟩ := key
    rw [← Finset.card_map Fin.valEmbedding]
    refine le_trans (Finset.card_le_card (t := {a, b}) fun j hj => ?_) Finset.card_le_two
    obtain ⟨j', hj', rfl⟩ := Finset.mem_map.mp hj
    have := hab j' (Finset.mem_filter.mp hj').2
    simpa using this
  · have hlen : g.edges.length + (j : ℕ) < (ssRows g).length := by
      rw [ssRows_length]
      have := j.2
      omega
    refine ⟨⟨g.edges.length + j, hlen⟩, rfl, fun k => ?_, by simp [ssLP], by simp [ssLP]⟩
    show (((ssRows g)[g.edges.length + (j : ℕ)]'hlen)[(k : ℕ)]?).getD 0 = _
    have e : (ssRows g)[g.edges.length + (j : ℕ)]'hlen = unitRow (mapping g).length [(j : ℕ)] := by
      have e1 : (ssRows g)[g.edges.length + (j : ℕ)]? = some (unitRow (mapping g).length [(j : ℕ)]) := by
        unfold ssRows
        rw [List.getElem?_append_right (by simp [Dict.keys])]
        simp [Dict.keys]
      rw [List.getElem?_eq_getElem hlen] at e1
      exact Option.some.inj e1
    rw [e, unitRow_get _ k.2]
    by_cases hkj : k = j
    · simp [hkj]
    · have : (k : ℕ) ≠ j := fun hc => hkj (Fin.ext hc)
      simp [hkj, this]
  · left
    rw [ssRows_length]
    have : 0 < g.edges.length := List.length_pos_iff.mpr hne
    omega

/-- C85 (graphs with an edge, weights with a denominator `N` of at most `5 * 10 ^ 9`): the program has a solution, branch and bound ends and returns
it, and the vertices whose entry is `1` form a stable set of largest weight, all other entries being `0`. The
numbers are bounds for the iterations of the simplex method and for the depth of the recursion. Missing: graphs
without edges, for which the formulation raises (`C24_edgeless_wrong`), and weights with larger denominators, for which
it is false (`C85_tiny_wrong`). -/
theorem C85_stable_partial {g : Ugraph} (h : Weak g) {junk : List ℚ} (hj : junk.length = g.vertices.length)
    {a b : Name} (he : hasEdge g (a, b) = true)
    (N : ℕ) (hN : 0 < N) (hN' : 2 * N ≤ 10 ^ 10)
    (hw : ∀ v, hasVertex g v = true → ∃ k : ℤ, (N : ℚ) * vertexWeight g v = k) (sf fuel : ℕ)
    (hsf : (5 * g.vertices.length + 2 * g.edges.length) ^ (2 * g.vertices.length + g.edges.length) ≤ sf)
    (hfuel : g.vertices.length < fuel) :
    ∃ I map, formulateMaxStableSet junk g = .ok (some (I, map)) ∧
      ∃ v S, branchAndBound sf fuel I = .ok (some v) ∧ v.length = g.vertices.length ∧
        (∀ u, hasVertex g u = true →
          ∃ k, map.get? u = some k ∧ v[k]? = some (if u ∈ S then (1 : ℚ) else 0)) ∧
        StableSet g S ∧ ∀ T, StableSet g T → ∑ u ∈ T, vertexWeight g u ≤ ∑ u ∈ S, vertexWeight g u := by
  have hE := hasEdge_iff.mp he
  have hne : g.edges ≠ [] := by intro hc; rw [hc] at hE; simp [Dict.keys] at hE
  have hV : g.vertices ≠ [] := by
    intro hc
    have := (h.ends _ _ hE).1
    rw [hc] at this
    simp [Dict.keys] at this
  obtain ⟨m, n, P, map, hform, hd⟩ := C24_exact_partial h hj he
  have hform' := formulate_eq hj hV hne
  have hsame := hform'.symm.trans hform
  simp only [Except.ok.injEq, Option.some.injEq, Prod.mk.injEq, LinProg.IntProgram.mk.injEq, and_true] at hsame
  have hI : TwoPerRow (⟨⟨m, n, P⟩, none⟩ : LinProg.IntProgram).prog.lp 1 1 := by
    have h1 := ss_two h hne hN hN' hw
    have : ∀ Q : LinProg.Prog, (⟨_, _, ssLP g⟩ : LinProg.Prog) = Q → TwoPerRow Q.lp 1 1 := by
      rintro Q rfl
      exact h1
    exact this _ hsame.1
  have hmn : m = g.edges.length + g.vertices.length := by
    have := congrArg LinProg.Prog.m hsame.1
    simp only [ssRows_length, mapping_length] at this
    exact this.symm
  have hn : n = g.vertices.length := hd.columns
  have hindic : ∀ T, StableSet g T → ∃ x : Fin n → ℚ, Feas P x ∧ (∀ j, ∃ k : ℤ, x j = k) ∧
      objVal P x = ∑ u ∈ T, vertexWeight g u := by
    intro T hT
    choose f hf _ using hd.onto
    have hfx : ∀ v, ∀ j : Fin n, map.get? v = some (j : ℕ) →
        (fun j => if f j ∈ T then (1 : ℚ) else 0) j = if v ∈ T then 1 else 0 := by
      intro v j hv
      have : f j = v := (hd.onto j).unique (hf j) hv
      simp only [this]
    have := hd.stable T hT _ hfx
    refine ⟨_, this.1, fun j => ?_, this.2⟩
    by_cases hfj : f j ∈ T
    · exact ⟨1, by simp [hfj]⟩
    · exact ⟨0, by simp [hfj]⟩
  refine ⟨_, _, hform, ?_⟩
  rcases C60_two_partial sf fuel ⟨⟨m, n, P⟩, none⟩ 1 1 hI hd.max (by
    simp only [mul_one]
    refine le_trans (le_of_eq ?_) hsf
    rw [hmn, hn]
    congr 1 <;> ring) (by simpa [hn] using hfuel) with ⟨x, hx, hfeas, hint, hbest⟩ | ⟨_, hno⟩
  · have hint' : ∀ j, ∃ k : ℤ, x j = k := fun j => hint j (by intro l hl; cases hl)
    obtain ⟨S, ⟨hS, hSx⟩, _⟩ := hd.integral x hfeas hint'
    refine ⟨_, S, hx, by simp [hn], fun u hu => ?_, hS, fun T hT => ?_⟩
    · obtain ⟨j, hj⟩ := (hd.mapped u).mp hu
      refine ⟨j, hj, ?_⟩
      rw [← hSx u j hj]
      simp
    · obtain ⟨y, hy, hyi, hyv⟩ := hindic T hT
      have := (hbest y hy fun j _ => hyi j).1 hd.max
      rw [← hyv, ← (hd.stable S hS x hSx).2]
      exact this
  · obtain ⟨y, hy, hyi, _⟩ := hindic ∅ ⟨by simp, by simp⟩
    exact (hno ⟨y, hy, fun j _ => hyi j⟩).elim

/-- The conditions hold for a triangle with weights, whose relaxation is optimal at a point with entries `1/2`. -/
example : ∃ g, ctor [(['a'], [['b'], ['c']]), (['b'], [['c']])] [] [(['a'], 2), (['b'], 5 / 2), (['c'], 4)] = .ok g ∧
    Weak g ∧ hasEdge g (['b'], ['a']) = true ∧ g.vertices.length = 3 ∧
    ∀ v, hasVertex g v = true → ∃ k : ℤ, ((2 : ℕ) : ℚ) * vertexWeight g v = k := by
  refine ⟨⟨[(['a'], [['b'], ['c']]), (['b'], [['a'], ['c']]), (['c'], [['a'], ['b']])],
    [((['a'], ['b']), 0), ((['a'], ['c']), 0), ((['b'], ['c']), 0)],
    [(['a'], 2), (['b'], 5 / 2), (['c'], 4)]⟩, ?h, (ctor_uwf ?h).toWeak, by decide +kernel, rfl, fun v hv => ?_⟩
  · decide +kernel
  · have := hasVertex_iff.mp hv
    simp only [Dict.keys, List.map_cons, List.map_nil, List.mem_cons, List.not_mem_nil, or_false] at this
    rcases this with rfl | rfl | rfl
    · exact ⟨4, by decide +kernel⟩
    · exact ⟨5, by decide +kernel⟩
    · exact ⟨8, by decide +kernel⟩

/-- Two adjacent vertices; `a` is heavier than `b` by `1e-11`. -/
def closeGraph : Ugraph :=
  ⟨[(['a'], [['b']]), (['b'], [['a']])], [((['a'], ['b']), 0)], [(['a'], 1 + 1 / 10 ^ 11), (['b'], 1)]⟩

/-- The vector returned by `branch_and_bound` for the formulation of a graph, and the mapping. -/
def stableAnswer (sf fuel : ℕ) (junk : List ℚ) (g : Ugraph) : Option (List ℚ × Dict Name ℕ) :=
  match formulateMaxStableSet junk g with
  | .ok (some (I, map)) =>
    match branchAndBound sf fuel I with
    | .ok (some v) => some (v, map)
    | _ => none
  | _ => none

/-- C85 is false for weights that differ by less than the tolerance: the lighter of two adjacent vertices is
chosen. -/
theorem C85_tiny_wrong : ctor [(['a'], [['b']])] [] [(['a'], 1 + 1 / 10 ^ 11), (['b'], 1)] = .ok closeGraph ∧
    stableAnswer 100 5 [0, 0] closeGraph = some ([0, 1], [(['a'], 0), (['b'], 1)]) ∧
    StableSet closeGraph {['a']} ∧ vertexWeight closeGraph ['b'] < vertexWeight closeGraph ['a'] :=
  ⟨by decide +kernel, by decide +kernel, ⟨by decide +kernel, by decide +kernel⟩, by decide +kernel⟩

end Pytimize.Props
