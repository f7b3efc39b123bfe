/-
Property C133: stable sets of bipartite graphs with `branch_and_bound` in double precision.
-/
import Verif.Float.Bipartite
import Verif.Props.FloatInteger
import Verif.Props.StableSet

namespace Pytimize.Props
open Pytimize.Undirected
open Pytimize.Directed (Name)
open Pytimize.LinProg (Feas objVal WF IntProgram)
open Pytimize.Floating

/-- Specification: the vertices can be coloured with two colours so that no edge joins vertices of the same colour. -/
def Bipartite (g : Ugraph) : Prop :=
  ∃ colour : Name → Bool, ∀ a b, hasEdge g (a, b) = true → colour a ≠ colour b

/-- The entries of the objective are the weights. -/
theorem ss_cost {g : Ugraph} (h : Weak g) (j : Fin (mapping g).length) :
    ∃ v, hasVertex g v = true ∧ (ssLP g).c j = vertexWeight g v := by
  have hj : (j : ℕ) < g.vertices.length := by rw [← mapping_length]; exact j.2
  have hmem : (g.vertices[(j : ℕ)]).1 ∈ g.vertices.keys :=
    List.mem_map_of_mem (f := Prod.fst) (List.getElem_mem hj)
  have hk : g.vertices.keys[(j : ℕ)]'(by rw [keys_length]; exact hj) = (g.vertices[(j : ℕ)]).1 := by
    simp [Dict.keys]
  have hcol : col g (g.vertices[(j : ℕ)]).1 = j := by
    rw [col_eq hmem, ← hk]
    exact List.Nodup.idxOf_getElem h.vertsWF _ _
  have hget : g.vertices.get? (g.vertices[(j : ℕ)]).1 = some (g.vertices[(j : ℕ)]).2 :=
    Dict.get?_of_mem h.vertsWF (List.getElem_mem hj)
  have hc := costs_get h.vertsWF hget
  have hjc : (j : ℕ) < (costs g).length := by rw [costs_length]; exact j.2
  rw [hcol, List.getElem?_eq_getElem hjc] at hc
  refine ⟨_, hasVertex_iff.mpr hmem, ?_⟩
  show (costs g)[(j : ℕ)]'hjc = _
  rw [Option.some.inj hc]
  unfold vertexWeight getVertexWeight
  rw [if_pos (hasVertex_iff.mpr hmem), hget]

/-- The program of a bipartite graph with integer weights is one of those of C130. -/
theorem ss_data {g : Ugraph} (h : Weak g) (hbip : Bipartite g) {γ : ℕ} (hγ : 1 ≤ γ)
    (hw : ∀ v, hasVertex g v = true → ∃ k : ℤ, vertexWeight g v = k ∧ |k| ≤ γ)
    (hr : g.vertices.length + g.edges.length ≤ 2 ^ 40)
    (hbits : (3 * g.vertices.length + 2 * g.edges.length) ^ 2 * (2 * γ) ≤ 2 ^ 53) :
    WF (ssLP g) ∧ width (ssLP g) = 3 * g.vertices.length + 2 * g.edges.length ∧ UnimodularData (ssLP g) 1 γ 0 := by
  have hwid : width (ssLP g) = 3 * g.vertices.length + 2 * g.edges.length := by
    have : (Finset.univ.filter fun i => (ssLP g).ineq i ≠ .eq).card = (ssRows g).length := by
      simp [ssLP]
    unfold width
    have h1 := ssRows_length g
    have h2 := mapping_length g
    have h3 : (ssLP g).free.length = 0 := rfl
    rw [this, h3]
    omega
  refine ⟨⟨.nil, .nil, by simp [ssLP], by simp [ssLP], by simp [ssLP], rfl⟩, hwid, ?_⟩
  obtain ⟨colour, hc⟩ := hbip
  refine ⟨ss_tu h colour fun e he => hc _ _ (hasEdge_iff.mpr ?_), fun _ => ⟨1, by simp [ssLP], by simp⟩, fun j => ?_,
    ⟨0, by simp [ssLP], by simp⟩, le_rfl, hγ, ?_, ?_⟩
  · have := h.sorted _ _ he
    unfold Undirected.norm
    rw [if_neg (not_lt.mpr (le_of_lt this))]
    exact he
  · obtain ⟨v, hv, e⟩ := ss_cost h j
    rw [e]
    exact hw v hv
  · rw [ssRows_length, mapping_length]
    omega
  · rw [hwid, add_zero]
    calc _ = (3 * g.vertices.length + 2 * g.edges.length) ^ 2 * (2 * γ) := by ring
      _ ≤ _ := hbits

/-- C133. Formulating the stable set problem of a bipartite graph with an edge and integer weights of moderate size and
solving it in double precision gives a stable set of largest weight: the entries of the result are exactly `1` for the
vertices of the set and `0` for the others. -/
theorem C133_stable {C : Libm} {L : Lapack binary64} (hL : Gaussian C L) {g : Ugraph} (h : Weak g) {junk : List ℚ}
    (hj : junk.length = g.vertices.length) {a b : Name} (he : hasEdge g (a, b) = true) (hbip : Bipartite g) {γ : ℕ}
    (hγ : 1 ≤ γ) (hw : ∀ v, hasVertex g v = true → ∃ k : ℤ, vertexWeight g v = k ∧ |k| ≤ γ)
    (hsize : g.vertices.length + g.edges.length < 10 ^ 5)
    (hbits : (3 * g.vertices.length + 2 * g.edges.length) ^ 2 * (2 * γ) ≤ 2 ^ 53) (sf fuel : ℕ)
    (hsf : (3 * g.vertices.length + 2 * g.edges.length) ^ (g.vertices.length + g.edges.length) ≤ sf) :
    ∃ I map, formulateMaxStableSet junk g = .ok (some (I, map)) ∧
      ∃ v S, fbranchAndBound L sf (fuel + 1) I = .ok (some v) ∧ v.length = g.vertices.length ∧
        (∀ u, hasVertex g u = true →
          ∃ k, map.get? u = some k ∧ v[k]? = some (if u ∈ S then (1 : ℚ) else 0)) ∧
        StableSet g S ∧ ∀ T, StableSet g T → ∑ u ∈ T, vertexWeight g u ≤ ∑ u ∈ S, vertexWeight g u := by
  have hE := hasEdge_iff.mp he
  have hne : g.edges ≠ [] := by intro hc; rw [hc] at hE; simp [Dict.keys] at hE
  have hV : g.vertices ≠ [] := by
    intro hc
    have := (h.ends _ _ hE).1
    rw [hc] at this
    simp [Dict.keys] at this
  obtain ⟨m, n, P, map, hform, hd⟩ := C24_exact_partial h hj he
  have hsame := (formulate_eq hj hV hne).symm.trans hform
  simp only [Except.ok.injEq, Option.some.injEq, Prod.mk.injEq, LinProg.IntProgram.mk.injEq, and_true] at hsame
  have hm0 : m = g.vertices.length + g.edges.length := by
    have := congrArg LinProg.Prog.m hsame.1
    simp only [ssRows_length, mapping_length] at this
    omega
  have key : WF P ∧ width P = 3 * g.vertices.length + 2 * g.edges.length ∧ UnimodularData P 1 γ 0 ∧
      ∀ i, P.ineq i = .le := by
    have : ∀ Q : LinProg.Prog, (⟨_, _, ssLP g⟩ : LinProg.Prog) = Q → WF Q.lp ∧
        width Q.lp = 3 * g.vertices.length + 2 * g.edges.length ∧ UnimodularData Q.lp 1 γ 0 ∧
        ∀ i, Q.lp.ineq i = .le := by
      rintro Q rfl
      obtain ⟨h1, h2, h3⟩ := ss_data h hbip hγ hw (by omega) hbits
      exact ⟨h1, h2, h3, fun _ => rfl⟩
    exact this _ hsame.1
  obtain ⟨hP, hwid, hdata, hle⟩ := key
  have hn : n = g.vertices.length := hd.columns
  have hindic : ∀ T, StableSet g T → ∃ x : Fin n → ℚ, Feas P x ∧ (∀ j, ∃ k : ℤ, x j = k) ∧
      objVal P x = ∑ u ∈ T, vertexWeight g u ∧ (T = ∅ → x = 0) := by
    intro T hT
    choose f hf _ using hd.onto
    have hfx : ∀ v, ∀ j : Fin n, map.get? v = some (j : ℕ) →
        (fun j => if f j ∈ T then (1 : ℚ) else 0) j = if v ∈ T then 1 else 0 := by
      intro v j hv
      have : f j = v := (hd.onto j).unique (hf j) hv
      simp only [this]
    have := hd.stable T hT _ hfx
    refine ⟨_, this.1, fun j => ?_, this.2, fun h0 => ?_⟩
    · by_cases hfj : f j ∈ T
      · exact ⟨1, by simp [hfj]⟩
      · exact ⟨0, by simp [hfj]⟩
    · subst h0
      funext j
      simp
  have hempty : StableSet g ∅ := ⟨by simp, by simp⟩
  have hzero : Feas P 0 := by
    obtain ⟨x, h1, -, -, h2⟩ := hindic ∅ hempty
    rwa [h2 rfl] at h1
  have hindep : LinProg.EqIndep P := fun y hy _ i => hy i (by rw [hle]; simp)
  refine ⟨_, _, hform, ?_⟩
  have hm : 0 < m := by
    have : 0 < g.edges.length := List.length_pos_iff.mpr hne
    omega
  -- a stable set of largest weight
  obtain ⟨S, hS, hSmax⟩ : ∃ S, StableSet g S ∧ ∀ T, StableSet g T →
      ∑ u ∈ T, vertexWeight g u ≤ ∑ u ∈ S, vertexWeight g u := by
    let V : Finset Name := g.vertices.keys.toFinset
    let F : Set (Finset Name) := {T | StableSet g T}
    have hF : F.Finite := (Finset.finite_toSet V.powerset).subset fun T hT => by
      simp only [Finset.coe_powerset, Set.mem_preimage, Set.mem_powerset_iff, Finset.coe_subset]
      intro v hv
      exact List.mem_toFinset.mpr (hasVertex_iff.mp (hT.1 v hv))
    obtain ⟨S, hS, hmax⟩ := hF.exists_maximalFor (fun T => ∑ u ∈ T, vertexWeight g u) _ ⟨∅, hempty⟩
    refine ⟨S, hS, fun T hT => ?_⟩
    by_contra hlt
    push Not at hlt
    exact absurd (hmax hT hlt.le) (not_le.mpr hlt)
  have hbest : ∃ x, BestIntegral P none x := by
    obtain ⟨x, h1, h2, h3, -⟩ := hindic S hS
    refine ⟨x, h1, fun j _ => h2 j, fun y hy hyi => ⟨fun _ => ?_, fun hc => ?_⟩⟩
    · obtain ⟨T, ⟨hT, hTx⟩, _⟩ := hd.integral y hy fun j => hyi j (by intro l hl; cases hl)
      rw [h3, (hd.stable T hT y hTx).2]
      exact hSmax T hT
    · rw [hd.max] at hc
      cases hc
  obtain ⟨x, hx, ⟨hfeas, -, hxbest⟩, hint⟩ := (C132_optimal hL (I := ⟨⟨m, n, P⟩, none⟩) hP hm hdata
    (by simp only [mul_one]; omega) (.inr (.inr ⟨fun i => by rw [hle]; simp, hzero⟩)) sf fuel (by
      show width P ^ m ≤ sf
      rw [hwid, hm0]
      exact hsf)).1 hindep hbest
  obtain ⟨U, ⟨hU, hUx⟩, _⟩ := hd.integral x hfeas hint
  refine ⟨_, U, hx, by simp [hn], fun u hu => ?_, hU, fun T hT => ?_⟩
  · obtain ⟨j, hj⟩ := (hd.mapped u).mp hu
    refine ⟨j, hj, ?_⟩
    rw [← hUx u j hj]
    simp
  · obtain ⟨y, hy, hyi, hyv, -⟩ := hindic T hT
    have := (hxbest y hy fun j _ => hyi j).1 hd.max
    rw [← hyv, ← (hd.stable U hU x hUx).2]
    exact this

/-- A cycle of four vertices with weights. -/
def squareGraph : Ugraph :=
  ⟨[(['a'], [['b'], ['d']]), (['b'], [['a'], ['c']]), (['d'], [['a'], ['c']]), (['c'], [['b'], ['d']])],
    [((['a'], ['b']), 0), ((['a'], ['d']), 0), ((['b'], ['c']), 0), ((['c'], ['d']), 0)],
    [(['a'], 3), (['b'], 2), (['d'], 4), (['c'], 1)]⟩

/-- The conditions hold for the cycle. -/
example : ∃ g, ctor [(['a'], [['b'], ['d']]), (['b'], [['c']]), (['c'], [['d']])] []
      [(['a'], 3), (['b'], 2), (['c'], 1), (['d'], 4)] = .ok g ∧
    Weak g ∧ hasEdge g (['c'], ['d']) = true ∧ Bipartite g ∧
    (∀ v, hasVertex g v = true → ∃ k : ℤ, vertexWeight g v = k ∧ |k| ≤ (4 : ℕ)) ∧
    (3 * g.vertices.length + 2 * g.edges.length) ^ 2 * (2 * 4) ≤ 2 ^ 53 := by
  refine ⟨squareGraph, ?h, (ctor_uwf ?h).toWeak, by decide +kernel, ⟨fun v => decide (v = ['a'] ∨ v = ['c']), fun a b h => ?_⟩,
    fun v hv => ?_, by decide +kernel⟩
  · decide +kernel
  · have := hasEdge_iff.mp h
    unfold Undirected.norm at this
    split at this <;>
    · simp only [Dict.keys, squareGraph, List.map_cons, List.map_nil, List.mem_cons, List.not_mem_nil, or_false,
        Prod.mk.injEq] at this
      rcases this with ⟨rfl, rfl⟩ | ⟨rfl, rfl⟩ | ⟨rfl, rfl⟩ | ⟨rfl, rfl⟩ <;> decide
  · have := hasVertex_iff.mp hv
    simp only [Dict.keys, squareGraph, List.map_cons, List.map_nil, List.mem_cons, List.not_mem_nil, or_false] at this
    rcases this with rfl | rfl | rfl | rfl
    · exact ⟨3, by decide +kernel⟩
    · exact ⟨2, by decide +kernel⟩
    · exact ⟨4, by decide +kernel⟩
    · exact ⟨1, by decide +kernel⟩

end Pytimize.Props
