/-
Property C135: `branch_and_bound` in double precision on programs that have to branch, and stable sets of graphs that are
not bipartite.
-/
import Verif.Float.DyadicBranch
import Verif.Float.Clusters
import Verif.Props.FloatDyadic
import Verif.Props.FloatStableSet
import Verif.Props.StableSetSolve

namespace Pytimize
namespace Props
open LinProg Comparator Floating Matrix

variable {m n : ℕ} {C : Libm} {L : Lapack binary64}

/-- Numbers small enough for double precision at every node of the search: subdeterminants are powers of two, the costs
are integers up to `γ`, the constant up to `ζ`, right-hand sides up to `β`, and every variable has `U` values besides
zero, so that there are at most `m + n U` rows. -/
structure SearchData (P : LP m n) (U K β γ ζ : ℕ) : Prop where
  powers : PowersOfTwo K P.A
  c : ∀ j, ∃ k : ℤ, P.c j = k ∧ |k| ≤ γ
  z : ∃ k : ℤ, P.z = k ∧ |k| ≤ ζ
  βpos : 1 ≤ β
  γpos : 1 ≤ γ
  rows : m + n * U ≤ 2 ^ 20
  ratios : (m + n * U) * β * 2 ^ (4 * K) ≤ 2 ^ 40
  bits : ((n + 2 * (m + n * U)) ^ 2 * (γ * (β + 1)) + ζ) * 2 ^ (4 * K) ≤ 2 ^ 53

theorem search_eq {G : ∀ m n : ℕ, LP m n → Prop} (hC : C.Accurate) (hL : Gaussian C L) {I : IntProgram}
    {U K β γ ζ : ℕ} (hG : NodeClass β (I.prog.m + I.prog.n * U) G)
    (hN : BoxNode G β (I.prog.m + I.prog.n * U) (I.prog.n * U) I.prog.lp)
    (hb : ∀ i, ∃ k : ℤ, I.prog.lp.b i = k ∧ |k| ≤ β) (h : SearchData I.prog.lp U K β γ ζ) (sf fuel : ℕ) :
    fbranchAndBound L sf fuel I = branchAndBound sf fuel I := by
  have hM : 0 < I.prog.m + I.prog.n * U := Nat.add_pos_left hN.rows _
  obtain ⟨hf, hv, he⟩ := fits_of (W := I.prog.n + 2 * (I.prog.m + I.prog.n * U)) hM (by omega) h.βpos h.γpos h.ratios
    h.bits
  have hlp : DyadicLP I.prog.lp K β γ ζ := ⟨h.powers, hb, h.c, h.z⟩
  refine fbranchAndBound_dyadic (γ := γ) (ζ := ζ) (D := I.prog.n * U) hG
    (fun k hk => exact_of h.βpos hk hM hf.K_le h.rows h.ratios hC hL) hf
    ⟨hN.wf, hN.free, hN.neg, hN.ineq, ⟨hN.good, hlp⟩, hN.shape, hN.depth, hN.box⟩ hv (le_trans ?_ he) fuel
  have h1 : ((I.prog.n : ℕ) : ℚ) ≤ ((I.prog.n + 2 * (I.prog.m + I.prog.n * U) : ℕ) : ℚ) := by
    exact_mod_cast Nat.le_add_right _ _
  have h2 : (0 : ℚ) ≤ ((γ : ℤ) : ℚ) := by exact_mod_cast Nat.zero_le γ
  have h3 : (0 : ℚ) ≤ ((β : ℤ) : ℚ) := by exact_mod_cast Nat.zero_le β
  gcongr

/-- C135. On a bounded integer program with two variables per row `branch_and_bound` in double precision makes the search
of exact arithmetic, node by node, and returns the same, exceptions included. -/
theorem C135_two (hC : C.Accurate) (hL : Gaussian C L) {I : IntProgram} {U K β γ ζ : ℕ}
    (h : TwoPerRow I.prog.lp β U) (hd : SearchData I.prog.lp U K β γ ζ) (sf fuel : ℕ) :
    fbranchAndBound L sf fuel I = branchAndBound sf fuel I := by
  refine search_eq hC hL (twoVarClass h.small _) h.node (fun i => ?_) hd sf fuel
  obtain ⟨k, hk⟩ := h.rows.rhsInt i
  refine ⟨k, hk, ?_⟩
  have := h.rows.rhs i
  rw [hk] at this
  exact_mod_cast this

/-- C135. So it does on any bounded integer program of moderate size whose subdeterminants are powers of two. -/
theorem C135_bounded (hC : C.Accurate) (hL : Gaussian C L) {I : IntProgram} {U K B β γ ζ : ℕ}
    (h : Bounded I.prog.lp (fun _ => 1) 1 B β U) (hd : SearchData I.prog.lp U K β γ ζ) (sf fuel : ℕ) :
    fbranchAndBound L sf fuel I = branchAndBound sf fuel I := by
  refine search_eq hC hL (detClass h.npos h.costs h.small) h.node (fun i => ?_) hd sf fuel
  obtain ⟨k, hk⟩ := h.isInt.2.1 i
  have hk' : I.prog.lp.b i = k := by
    rw [← hk]
    show _ = (((1 : ℕ) : ℚ)) * _
    rw [Nat.cast_one, one_mul]
  refine ⟨k, hk', ?_⟩
  have := h.rhs i
  rw [hk'] at this
  exact_mod_cast this

/-- C135. So a maximisation in double precision ends with a best integral point, its entries integers exactly, or with
`None` if there is no integral point. -/
theorem C135_best (hC : C.Accurate) (hL : Gaussian C L) {I : IntProgram} {U K β γ ζ : ℕ}
    (h : TwoPerRow I.prog.lp β U) (hd : SearchData I.prog.lp U K β γ ζ) (hmax : I.prog.lp.objective = .max)
    (sf fuel : ℕ) (hsf : (I.prog.n + 2 * (I.prog.m + I.prog.n * U)) ^ (I.prog.m + I.prog.n * U) ≤ sf)
    (hfuel : I.prog.n * U < fuel) :
    (∃ x : Fin I.prog.n → ℚ, fbranchAndBound L sf fuel I = .ok (some (List.ofFn x)) ∧
      BestIntegral I.prog.lp I.integral x) ∨
    (fbranchAndBound L sf fuel I = .ok none ∧ ¬ ∃ x, Feas I.prog.lp x ∧ Integral I.integral x) := by
  rw [C135_two hC hL h hd]
  exact C60_two_partial sf fuel I β U h hmax hsf hfuel

/-! ### The hypotheses are satisfiable -/

/-- `max 2 x + y` subject to `x + y <= 1`, `x - y <= 0`, `x <= 1`, `y <= 1`. -/
def searchSample : LP 4 2 :=
  ⟨!![1, 1; 1, -1; 1, 0; 0, 1], ![1, 0, 1, 1], ![2, 1], 0, .max, fun _ => .le, [], [], false⟩

theorem searchSample_two : TwoPerRow searchSample 1 1 where
  wf := ⟨by decide, by decide, by decide, by decide, by decide, by decide⟩
  shape := Or.inl (by norm_num)
  boxLe := le_rfl
  small := by norm_num
  rows :=
    { free := rfl
      neg := rfl
      ineq := by decide
      costs := ⟨1, by norm_num, by norm_num,
        fun i => ⟨(![2, 1] : Fin 2 → ℤ) i, by fin_cases i <;> simp [searchSample]⟩⟩
      rhsInt := fun i => ⟨(![1, 0, 1, 1] : Fin 4 → ℤ) i, by fin_cases i <;> simp [searchSample]⟩
      rhs := by intro i; fin_cases i <;> simp [searchSample]
      sign := by intro i j; fin_cases i <;> fin_cases j <;> simp [searchSample]
      two := fun i => le_trans (Finset.card_le_univ _) (by simp)
      box := by
        intro j
        fin_cases j
        · refine ⟨2, rfl, ?_, by simp [searchSample], by simp [searchSample]⟩
          intro k; fin_cases k <;> simp [searchSample]
        · refine ⟨3, rfl, ?_, by simp [searchSample], by simp [searchSample]⟩
          intro k; fin_cases k <;> simp [searchSample] }

theorem searchSample_data : SearchData searchSample 1 1 1 2 0 where
  powers := powers_of_le (by decide +kernel)
  c j := ⟨(![2, 1] : Fin 2 → ℤ) j, by fin_cases j <;> norm_num [searchSample], by fin_cases j <;> norm_num⟩
  z := ⟨0, by norm_num [searchSample], by norm_num⟩
  βpos := by norm_num
  γpos := by norm_num
  rows := by norm_num
  ratios := by norm_num
  bits := by decide +kernel

/-- The relaxation has the optimal solution `(1/2, 1/2)`, so that the search branches. -/
example {C : Libm} (hC : C.Accurate) :
    fbranchAndBound (eliminating C binary64) (14 ^ 6) 3 ⟨⟨4, 2, searchSample⟩, none⟩ =
      branchAndBound (14 ^ 6) 3 ⟨⟨4, 2, searchSample⟩, none⟩ :=
  C135_two (I := ⟨⟨4, 2, searchSample⟩, none⟩) hC (eliminating_gaussian _ _) searchSample_two searchSample_data _ _

/-- `max x` subject to `2 x <= 3`. -/
def floorSample : LP 1 1 := ⟨!![2], ![3], ![1], 0, .max, fun _ => .le, [], [], false⟩

theorem floorSample_bounded : Bounded floorSample (fun _ => 1) 1 2 3 2 where
  wf := ⟨by decide, by decide, by decide, by decide, by decide, by decide⟩
  free := rfl
  neg := rfl
  ineq := by intro i; simp [floorSample]
  rpos _ := by norm_num
  npos := by norm_num
  isInt := by
    refine ⟨fun i j => ⟨2, ?_⟩, fun i => ⟨3, ?_⟩, fun j => ⟨1, ?_⟩⟩
    · fin_cases i; fin_cases j; simp [floorSample, scaled]
    · fin_cases i; simp [floorSample, scaled]
    · fin_cases j; simp [floorSample, scaled]
  subdet := subdet_of_le (by decide +kernel)
  rhs := by decide +kernel
  shape := Or.inr ⟨rfl, one_pos, fun i => by simp [floorSample, rowHolds], by simp, by simp⟩
  box := by
    intro x hx j
    have h1 := hx.rows 0
    simp [floorSample, rowHolds, Matrix.mulVec, dotProduct] at h1
    fin_cases j
    show x 0 ≤ _
    push_cast; linarith
  boxLe := by norm_num
  costs := by simp
  small := by simp; norm_num

theorem floorSample_data : SearchData floorSample 2 1 3 1 0 where
  powers := powers_of_le (by decide +kernel)
  c j := ⟨1, by fin_cases j; norm_num [floorSample], by norm_num⟩
  z := ⟨0, by norm_num [floorSample], by norm_num⟩
  βpos := by norm_num
  γpos := by norm_num
  rows := by norm_num
  ratios := by norm_num
  bits := by decide +kernel

example {C : Libm} (hC : C.Accurate) : solve 100 floorSample = .ok (some [3 / 2]) ∧
    fbranchAndBound (eliminating C binary64) 100 3 ⟨⟨1, 1, floorSample⟩, none⟩ = .ok (some [1]) := by
  rw [C135_bounded (I := ⟨⟨1, 1, floorSample⟩, none⟩) hC (eliminating_gaussian _ _) floorSample_bounded
    floorSample_data]
  exact ⟨by decide +kernel, by decide +kernel⟩

end Props

namespace Props
open Undirected Floating
open _root_.Pytimize.Directed (Name)

/-- Specification: without at most `K` of its vertices the graph is bipartite. -/
def NearBipartite (g : Ugraph) (K : ℕ) : Prop :=
  ∃ T : Finset Name, T.card ≤ K ∧ ∃ colour : Name → Bool, ∀ a b, hasEdge g (a, b) = true → a ∉ T → b ∉ T →
    colour a ≠ colour b

/-- C135. Formulating the stable set problem of a graph with an edge and integer weights of moderate size - bipartite but
for `K` vertices, or with up to `3 K + 2` vertices - and solving it in double precision gives a stable set of largest weight: the entries of the result are exactly `1` for the vertices of
the set and `0` for the others, although the search meets fractional solutions. -/
theorem C135_stable {C : Libm} (hC : C.Accurate) {L : Lapack binary64} (hL : Gaussian C L) {g : Ugraph} (h : Weak g)
    {junk : List ℚ} (hj : junk.length = g.vertices.length) {a b : Name} (he : hasEdge g (a, b) = true) {K : ℕ}
    (hK : NearBipartite g K ∨ g.vertices.length ≤ 3 * K + 2) {γ : ℕ} (hγ : 1 ≤ γ)
    (hw : ∀ v, hasVertex g v = true → ∃ k : ℤ, vertexWeight g v = k ∧ |k| ≤ γ)
    (hrows : 2 * g.vertices.length + g.edges.length ≤ 2 ^ 20)
    (hratios : (2 * g.vertices.length + g.edges.length) * 2 ^ (4 * K) ≤ 2 ^ 40)
    (hbits : (5 * g.vertices.length + 2 * g.edges.length) ^ 2 * (2 * γ) * 2 ^ (4 * K) ≤ 2 ^ 53) (sf fuel : ℕ)
    (hsf : (5 * g.vertices.length + 2 * g.edges.length) ^ (2 * g.vertices.length + g.edges.length) ≤ sf)
    (hfuel : g.vertices.length < fuel) :
    ∃ I map, formulateMaxStableSet junk g = .ok (some (I, map)) ∧
      ∃ v S, fbranchAndBound L sf fuel I = .ok (some v) ∧ v.length = g.vertices.length ∧
        (∀ u, hasVertex g u = true →
          ∃ k, map.get? u = some k ∧ v[k]? = some (if u ∈ S then (1 : ℚ) else 0)) ∧
        StableSet g S ∧ ∀ T, StableSet g T → ∑ u ∈ T, vertexWeight g u ≤ ∑ u ∈ S, vertexWeight g u := by
  have hE := hasEdge_iff.mp he
  have hne : g.edges ≠ [] := by intro hc; rw [hc] at hE; simp [Dict.keys] at hE
  have hV : g.vertices ≠ [] := by
    intro hc
    have := (h.ends _ _ hE).1
    rw [hc] at this
    simp [Dict.keys] at this
  have hw1 : ∀ v, hasVertex g v = true → ∃ k : ℤ, ((1 : ℕ) : ℚ) * vertexWeight g v = k := fun v hv => by
    obtain ⟨k, hk, -⟩ := hw v hv
    exact ⟨k, by rw [hk, Nat.cast_one, one_mul]⟩
  obtain ⟨I, map, hform, hrest⟩ := C85_stable_partial h hj he 1 one_pos (by norm_num) hw1 sf fuel hsf hfuel
  have hI := (formulate_eq hj hV hne).symm.trans hform
  simp only [Except.ok.injEq, Option.some.injEq, Prod.mk.injEq] at hI
  refine ⟨I, map, hform, ?_⟩
  have heq : fbranchAndBound L sf fuel I = LinProg.branchAndBound sf fuel I := by
    rw [← hI.1]
    refine C135_two (U := 1) (K := K) (β := 1) (γ := γ) (ζ := 0) hC hL (ss_two h hne one_pos (by norm_num) hw1) ?_ sf fuel
    have hdy : PowersOfTwo K (ssLP g).A := by
      rcases hK with ⟨T, hT, colour, hcol⟩ | hK
      · refine ss_dyadic h T colour (fun e he => hcol _ _ (hasEdge_iff.mpr ?_)) hT
        have := h.sorted _ _ he
        unfold Undirected.norm
        rw [if_neg (not_lt.mpr (le_of_lt this))]
        exact he
      · exact ss_dyadic_any hK
    have e1 : (ssRows g).length + (mapping g).length * 1 = 2 * g.vertices.length + g.edges.length := by
      rw [ssRows_length, mapping_length]; omega
    refine ⟨hdy, fun j => ?_, ⟨0, rfl, by simp⟩, le_rfl, hγ, ?_, ?_, ?_⟩
    · obtain ⟨v, hv, e⟩ := ss_cost h j
      show ∃ k : ℤ, (ssLP g).c j = k ∧ _
      rw [e]
      exact hw v hv
    · show (ssRows g).length + (mapping g).length * 1 ≤ _
      rw [e1]; exact hrows
    · show ((ssRows g).length + (mapping g).length * 1) * 1 * _ ≤ _
      rw [e1, mul_one]; exact hratios
    · show (((mapping g).length + 2 * ((ssRows g).length + (mapping g).length * 1)) ^ 2 * _ + 0) * _ ≤ _
      rw [e1, mapping_length, add_zero]
      refine le_trans (le_of_eq ?_) hbits
      ring
  rw [heq]
  exact hrest

/-- A graph without loops and parallel edges has at most `V (V - 1) / 2` edges. -/
theorem edges_le {g : Ugraph} (h : Weak g) :
    2 * g.edges.length ≤ g.vertices.length * (g.vertices.length - 1) := by
  have e1 : g.edges.keys.toFinset.card = g.edges.length := by
    rw [List.toFinset_card_of_nodup h.edgesWF]; simp [Dict.keys]
  have e2 : g.vertices.keys.toFinset.card = g.vertices.length := by
    rw [List.toFinset_card_of_nodup h.vertsWF, keys_length]
  let E := g.edges.keys.toFinset
  let E' := E.map ⟨Prod.swap, Prod.swap_injective⟩
  have hmem : ∀ e ∈ E, e.1 ∈ g.vertices.keys.toFinset ∧ e.2 ∈ g.vertices.keys.toFinset ∧ e.1 < e.2 := fun e he => by
    have he := List.mem_toFinset.mp he
    obtain ⟨h1, h2⟩ := h.ends _ _ he
    exact ⟨List.mem_toFinset.mpr h1, List.mem_toFinset.mpr h2, h.sorted _ _ he⟩
  have hdisj : Disjoint E E' := by
    rw [Finset.disjoint_left]
    intro e h1 h2
    obtain ⟨f, hf, rfl⟩ := Finset.mem_map.mp h2
    exact lt_asymm (hmem _ h1).2.2 (hmem _ hf).2.2
  have hsub : E ∪ E' ⊆ g.vertices.keys.toFinset.offDiag := by
    intro e he
    rcases Finset.mem_union.mp he with he | he
    · obtain ⟨h1, h2, h3⟩ := hmem _ he
      exact Finset.mem_offDiag.mpr ⟨h1, h2, ne_of_lt h3⟩
    · obtain ⟨f, hf, rfl⟩ := Finset.mem_map.mp he
      obtain ⟨h1, h2, h3⟩ := hmem _ hf
      exact Finset.mem_offDiag.mpr ⟨h2, h1, ne_of_gt h3⟩
  have := Finset.card_le_card hsub
  rw [Finset.card_union_of_disjoint hdisj, Finset.card_map, Finset.offDiag_card, e2] at this
  have e3 : E.card = g.edges.length := e1
  rw [e3] at this
  rw [Nat.mul_sub, mul_one]
  omega

/-- C135. In particular on every graph with up to 20 vertices and integer weights up to 1000. -/
theorem C135_twenty {C : Libm} (hC : C.Accurate) {L : Lapack binary64} (hL : Gaussian C L) {g : Ugraph} (h : Weak g)
    {junk : List ℚ} (hj : junk.length = g.vertices.length) {a b : Name} (he : hasEdge g (a, b) = true)
    (hV : g.vertices.length ≤ 20) (hw : ∀ v, hasVertex g v = true → ∃ k : ℤ, vertexWeight g v = k ∧ |k| ≤ 1000)
    (sf fuel : ℕ) (hsf : 480 ^ 230 ≤ sf) (hfuel : 20 < fuel) :
    ∃ I map, formulateMaxStableSet junk g = .ok (some (I, map)) ∧
      ∃ v S, fbranchAndBound L sf fuel I = .ok (some v) ∧ v.length = g.vertices.length ∧
        (∀ u, hasVertex g u = true →
          ∃ k, map.get? u = some k ∧ v[k]? = some (if u ∈ S then (1 : ℚ) else 0)) ∧
        StableSet g S ∧ ∀ T, StableSet g T → ∑ u ∈ T, vertexWeight g u ≤ ∑ u ∈ S, vertexWeight g u := by
  have hE := edges_le h
  have hE' : g.edges.length ≤ 190 := by
    have : g.vertices.length * (g.vertices.length - 1) ≤ 20 * 19 := Nat.mul_le_mul hV (by omega)
    omega
  obtain ⟨I, map, hI, hrest⟩ := C135_stable (K := 6) (γ := 1000) hC hL h hj he (.inr (by omega)) (by norm_num)
    (by exact_mod_cast hw) (by omega) (by omega) (by
      have : (5 * g.vertices.length + 2 * g.edges.length) ^ 2 ≤ 480 ^ 2 := Nat.pow_le_pow_left (by omega) 2
      norm_num at this ⊢
      omega) sf fuel
    (le_trans (Nat.pow_le_pow_left (show _ ≤ 480 by omega) _) (le_trans (Nat.pow_le_pow_right (by norm_num)
      (show _ ≤ 230 by omega)) hsf)) (by omega)
  exact ⟨I, map, hI, hrest⟩

/-! ### The hypotheses are satisfiable -/

/-- A cycle of five vertices. -/
def pentagon : Ugraph :=
  ⟨[(['a'], [['b'], ['e']]), (['b'], [['a'], ['c']]), (['e'], [['a'], ['d']]), (['c'], [['b'], ['d']]),
      (['d'], [['c'], ['e']])],
    [((['a'], ['b']), 0), ((['a'], ['e']), 0), ((['b'], ['c']), 0), ((['c'], ['d']), 0), ((['d'], ['e']), 0)],
    [(['a'], 3), (['b'], 2), (['e'], 2), (['c'], 2), (['d'], 2)]⟩

/-- The conditions hold for the cycle, which is not bipartite. -/
example : ∃ g, ctor [(['a'], [['b'], ['e']]), (['b'], [['c']]), (['c'], [['d']]), (['d'], [['e']])] []
      [(['a'], 3), (['b'], 2), (['c'], 2), (['d'], 2), (['e'], 2)] = .ok g ∧
    Weak g ∧ hasEdge g (['c'], ['d']) = true ∧ NearBipartite g 1 ∧ ¬ Bipartite g ∧
    (∀ v, hasVertex g v = true → ∃ k : ℤ, vertexWeight g v = k ∧ |k| ≤ (3 : ℕ)) ∧
    (2 * g.vertices.length + g.edges.length) * 2 ^ (4 * 1) ≤ 2 ^ 40 ∧
    (5 * g.vertices.length + 2 * g.edges.length) ^ 2 * (2 * 3) * 2 ^ (4 * 1) ≤ 2 ^ 53 := by
  refine ⟨pentagon, ?h, (ctor_uwf ?h).toWeak, by decide +kernel,
    ⟨{['a']}, by simp, fun v => decide (v = ['b'] ∨ v = ['d']), fun a b h ha hb => ?_⟩, ?_,
    fun v hv => ?_, by decide +kernel, by decide +kernel⟩
  · decide +kernel
  · have := hasEdge_iff.mp h
    unfold Undirected.norm at this
    split at this <;>
    · simp only [Dict.keys, pentagon, List.map_cons, List.map_nil, List.mem_cons, List.not_mem_nil, or_false,
        Prod.mk.injEq] at this
      rcases this with ⟨rfl, rfl⟩ | ⟨rfl, rfl⟩ | ⟨rfl, rfl⟩ | ⟨rfl, rfl⟩ | ⟨rfl, rfl⟩ <;>
        first
        | decide
        | exact absurd (Finset.mem_singleton_self (['a'] : Name)) ha
        | exact absurd (Finset.mem_singleton_self (['a'] : Name)) hb
  · rintro ⟨colour, hc⟩
    have h1 := hc ['a'] ['b'] (by decide +kernel)
    have h2 := hc ['b'] ['c'] (by decide +kernel)
    have h3 := hc ['c'] ['d'] (by decide +kernel)
    have h4 := hc ['d'] ['e'] (by decide +kernel)
    have h5 := hc ['a'] ['e'] (by decide +kernel)
    revert h1 h2 h3 h4 h5
    cases colour ['a'] <;> cases colour ['b'] <;> cases colour ['c'] <;> cases colour ['d'] <;> cases colour ['e'] <;>
      simp
  · have := hasVertex_iff.mp hv
    simp only [Dict.keys, pentagon, List.map_cons, List.map_nil, List.mem_cons, List.not_mem_nil, or_false] at this
    rcases this with rfl | rfl | rfl | rfl | rfl
    · exact ⟨3, by decide +kernel⟩
    · exact ⟨2, by decide +kernel⟩
    · exact ⟨2, by decide +kernel⟩
    · exact ⟨2, by decide +kernel⟩
    · exact ⟨2, by decide +kernel⟩

end Props
end Pytimize
