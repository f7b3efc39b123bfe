/-
Properties C37-C41, C50 (optimal answers) and C52: the simplex method.
-/
import Verif.LP.SimplexAnswer
import Verif.LP.ExactInt
import Verif.Props.LinearBasis
import Verif.Props.LinearVerify
import Verif.Props.LinearDual

namespace Pytimize
namespace Props
open LinProg Comparator

variable {m n : ℕ}

theorem lists_math (D : Fin m → Fin n) : Lists ((colsList D).map (· + 1)) D := by
  simp [Lists, colsList, List.map_ofFn, Function.comp_def]

theorem exact_start {P : LP m n} (he : Exact P) {basis : List ℤ} (hb : isBasisFeasible P basis = .ok true) :
    0 < m ∧ ∃ B : Fin m → Fin n, toArrayIndexing basis = colsList B ∧ tol ≤ |(colSel P.A B).det| ∧
      FeasBasis P B := by
  obtain ⟨hm, B, hB, hd, h⟩ := isBasisFeasible_iff.mp hb
  have hn := isBasis_nonsing hd
  exact ⟨hm, B, hB, hd, feasBasis_of_rhs hn fun i => he.rhs_nonneg hn (h i)⟩

theorem feasible_of_feasBasis {P : LP m n} (he : Exact P) (hm : 0 < m) {D : Fin m → Fin n}
    (h : FeasBasis P D) : isBasisFeasible P ((colsList D).map (· + 1)) = .ok true :=
  isBasisFeasible_iff.mpr ⟨hm, D, toArrayIndexing_math D, he.det D h.ns, fun i =>
    lt_of_lt_of_le (by have := tol_pos; linarith) (h.rhs i)⟩

theorem optimal_of_cost {P : LP m n} (hP : WF P) (hs : P.isSef = true) {D : Fin m → Fin n} (hD : FeasBasis P D)
    (hc : ∀ j, (canon P D).c j ≤ 0) : Feas P (sol P D) ∧ ∀ x', Feas P x' → objVal P x' ≤ objVal P (sol P D) := by
  refine ⟨(feas_sef_iff hP hs).mpr ⟨sol_eq hD.ns, hD.nonneg⟩, fun x' hx' => ?_⟩
  rw [← canon_objVal (B := D) (hx'.eqs hP hs), ← canon_objVal (B := D) (sol_eq hD.ns)]
  unfold objVal
  rw [sum_off hD.ns.inj _ _ fun j hj => sol_off hD.ns hj]
  have h1 : (canon P D).c ⬝ᵥ x' ≤ 0 :=
    Finset.sum_nonpos fun j _ => mul_nonpos_of_nonpos_of_nonneg (hc j) (hx'.nonneg hP hs j)
  simp only [canon_c_basic hD.ns, zero_mul, Finset.sum_const_zero]
  linarith

theorem unbounded_of_ray {P : LP m n} (hP : WF P) (hs : P.isSef = true) {x d : Fin n → ℚ}
    (hx : Feas P x) (hd : ∀ j, 0 ≤ d j) (hA : P.A.mulVec d = 0) (hc : 0 < P.c ⬝ᵥ d) :
    (∀ t : ℚ, 0 ≤ t → Feas P (x + t • d)) ∧ ∀ M : ℚ, ∃ T : ℚ, ∀ t, T ≤ t → M < objVal P (x + t • d) := by
  refine ⟨fun t ht => (feas_sef_iff hP hs).mpr ⟨?_, fun j => ?_⟩, fun M => ?_⟩
  · rw [Matrix.mulVec_add, Matrix.mulVec_smul, hA, smul_zero, add_zero]
    exact hx.eqs hP hs
  · rw [Pi.add_apply, Pi.smul_apply, smul_eq_mul]
    exact add_nonneg (hx.nonneg hP hs j) (mul_nonneg ht (hd j))
  · refine ⟨(M - objVal P x + 1) / (P.c ⬝ᵥ d), fun t ht => ?_⟩
    rw [div_le_iff₀ hc] at ht
    unfold objVal at ht ⊢
    rw [dotProduct_add, dotProduct_smul, smul_eq_mul]
    linarith

theorem rayOf_nonneg {P : LP m n} {D : Fin m → Fin n} (hD : Nonsing P D) {k : Fin n} (hk : ∀ i, D i ≠ k)
    (hA : ∀ i, (canon P D).A i k ≤ 0) (j : Fin n) : 0 ≤ rayOf D (canon P D) k j := by
  by_cases hj : ∃ i, D i = j
  · obtain ⟨i, rfl⟩ := hj
    rw [rayOf_basic hD hk]
    have := hA i
    linarith
  · push Not at hj
    by_cases hjk : j = k
    · subst hjk; rw [rayOf_self]; norm_num
    · rw [rayOf_off hD hj hjk]

/-! ### Reading answers off -/

/-- The next basis, if the iteration says so. -/
def nextOf : Except PyErr (Iter m n) → Option (List ℤ)
  | .ok (.next l _) => some l
  | _ => none

/-- The entries of an optimal answer. -/
def optOf : Except PyErr (Answer m n) → Option (List ℚ × List ℤ × List ℚ)
  | .ok (.optimal x l y) => some (List.ofFn x, l, List.ofFn y)
  | _ => none

/-- The entries of an unbounded answer. -/
def unbOf : Except PyErr (Answer m n) → Option (List ℚ × List ℚ)
  | .ok (.unbounded x d) => some (List.ofFn x, List.ofFn d)
  | _ => none

/-- The exception, if any. -/
def errOf {α : Type} : Except PyErr α → Option PyErr
  | .error e => some e
  | .ok _ => none

theorem nextOf_some {r : Except PyErr (Iter m n)} {l : List ℤ} (h : nextOf r = some l) :
    ∃ C, r = .ok (.next l C) := by
  unfold nextOf at h
  split at h
  · rw [Option.some.injEq] at h; subst h; exact ⟨_, rfl⟩
  · cases h

theorem optOf_some {r : Except PyErr (Answer m n)} {x : Fin n → ℚ} {l : List ℤ} {y : Fin m → ℚ}
    (h : optOf r = some (List.ofFn x, l, List.ofFn y)) : r = .ok (.optimal x l y) := by
  unfold optOf at h
  split at h
  · rw [Option.some.injEq, Prod.mk.injEq, Prod.mk.injEq] at h
    rw [List.ofFn_injective h.1, h.2.1, List.ofFn_injective h.2.2]
  · cases h

theorem unbOf_some {r : Except PyErr (Answer m n)} {x d : Fin n → ℚ}
    (h : unbOf r = some (List.ofFn x, List.ofFn d)) : r = .ok (.unbounded x d) := by
  unfold unbOf at h
  split at h
  · rw [Option.some.injEq, Prod.mk.injEq] at h
    rw [List.ofFn_injective h.1, List.ofFn_injective h.2]
  · cases h

theorem errOf_some {α : Type} {r : Except PyErr α} {e : PyErr} (h : errOf r = some e) : r = .error e := by
  unfold errOf at h
  split at h
  · rw [Option.some.injEq] at h; rw [h]
  · cases h

/-! ### C37 -/

/-- The outcome of an iteration from `basis` that C37 allows. -/
def GoodIter (P : LP m n) (basis : List ℤ) : Iter m n → Prop
  | .optimal x l C => Feas P x ∧ (∀ x', Feas P x' → objVal P x' ≤ objVal P x) ∧ IsBasicSol P l x ∧
      l.Perm basis ∧ (∀ x', Feas C x' ↔ Feas P x') ∧ ∀ x', Feas P x' → objVal C x' = objVal P x'
  | .unbounded x _ C => Feas P x ∧ Unbounded P ∧ (∀ x', Feas C x' ↔ Feas P x') ∧
      ∀ x', Feas P x' → objVal C x' = objVal P x'
  | .next l C => isBasisFeasible P l = .ok true ∧
      (∃ k r : ℤ, k ∉ basis ∧ r ∈ basis ∧ ∀ z, z ∈ l ↔ z = k ∨ (z ∈ basis ∧ z ≠ r)) ∧
      (∀ x x', IsBasicSol P basis x → IsBasicSol P l x' → objVal P x ≤ objVal P x') ∧
      (∀ x', Feas C x' ↔ Feas P x') ∧ ∀ x', Feas P x' → objVal C x' = objVal P x'

/-- C37 for programs whose numbers stay clear of the tolerances. Missing: programs with tiny numbers or
near-ties in the ratio test, where the next basis may be infeasible (`C37_near_tie_wrong`). -/
theorem C37_iteration_partial (P : LP m n) (hP : WF P) (hs : P.isSef = true) (he : Exact P) (basis : List ℤ)
    (hb : isBasisFeasible P basis = .ok true) :
    ∃ r, simplexIteration P basis = .ok r ∧ GoodIter P basis r := by
  obtain ⟨hm, B, hB, hd, hF⟩ := exact_start he hb
  have hFs := hF.same (sortCols_same B)
  have hl : Lists basis B := toArrayIndexing_eq_iff.mp hB
  have hspec := simplexIteration_spec hs hm hB hd
  have hwf : WF (canon P (sortCols B)) := ⟨hP.freeSorted, hP.negSorted, hP.freeLt, hP.negLt, hP.disj, hP.sef⟩
  have hCfeas : ∀ x', Feas (canon P (sortCols B)) x' ↔ Feas P x' := fun x' => by
    rw [feas_sef_iff hwf hs, feas_sef_iff hP hs, canon_eq_iff hFs.ns]
  have hCobj : ∀ x', Feas P x' → objVal (canon P (sortCols B)) x' = objVal P x' :=
    fun x' hx' => canon_objVal (hx'.eqs hP hs)
  have hperm : ((colsList (sortCols B)).map (· + 1)).Perm basis := by
    rw [← succ_toArrayIndexing basis, hB, ← sortInt_colsList]
    exact (List.perm_insertionSort _ _).map _
  generalize hres : simplexIteration P basis = res at hspec
  cases hspec with
  | optimal hc hx =>
    have h1 := optimal_of_cost hP hs hFs fun j => by
      by_cases hj : ∃ i, sortCols B i = j
      · obtain ⟨i, rfl⟩ := hj
        rw [canon_c_basic hFs.ns]
      · exact he.lt_tol_cost hFs.ns (hc j fun i hi => hj ⟨i, hi⟩)
    exact ⟨_, rfl, h1.1, h1.2, (isBasicSol_iff (lists_math _) hFs.ns _).mpr rfl, hperm, hCfeas, hCobj⟩
  | infeasible hc j hx =>
    exfalso
    have := hFs.nonneg j
    have := tol_pos
    linarith
  | unbounded k hk hck hmin hA =>
    have hx : Feas P (sol P (sortCols B)) := (feas_sef_iff hP hs).mpr ⟨sol_eq hFs.ns, hFs.nonneg⟩
    have h1 := unbounded_of_ray hP hs hx (rayOf_nonneg hFs.ns hk fun i => he.lt_tol_piv hFs.ns (hA i))
      (rayOf_ker hFs.ns hk) (by rw [rayOf_cost hFs.ns hk]; exact lt_of_lt_of_le tol_pos hck)
    refine ⟨_, rfl, hx, fun M => ?_, hCfeas, hCobj⟩
    obtain ⟨T, hT⟩ := h1.2 M
    exact ⟨_, h1.1 (max T 0) (le_max_right _ _), hT _ (le_max_left _ _)⟩
  | next k hk hck hmin r hr hratio B' hB' hp =>
    obtain ⟨_, B'', k', r', _, hl', hstep⟩ := bland_of_next he hFs (sortCols_mono B)
      (.next k hk hck hmin r hr hratio B' hB' hp)
    have hBB : B' = B'' := colsList_inj (by
      have := congrArg toArrayIndexing hl'
      rwa [toArrayIndexing_math, toArrayIndexing_math] at this)
    subst hBB
    have hF' : FeasBasis P B' := ⟨hstep.ns', hstep.sol_nonneg⟩
    refine ⟨_, rfl, feasible_of_feasBasis he hm hF', ⟨((k : ℕ) : ℤ) + 1, ((sortCols B r : ℕ) : ℤ) + 1, ?_, ?_, ?_⟩,
      ?_, hCfeas, hCobj⟩
    · rw [hl.mem]
      rintro ⟨i, hi⟩
      obtain ⟨i', hi'⟩ := (sortCols_same B k).mp ⟨i, hi⟩
      exact hk i' hi'
    · rw [hl.mem]
      exact (sortCols_same B _).mpr ⟨r, rfl⟩
    · intro z
      constructor
      · intro hz
        rw [lists_math B', List.mem_ofFn] at hz
        obtain ⟨i, rfl⟩ := hz
        rcases (hp (B' i)).mp ⟨i, rfl⟩ with h1 | ⟨h1, h2⟩
        · left; rw [h1]
        · right
          refine ⟨(hl.mem _).mpr ((sortCols_same B _).mpr h1), fun h3 => h2 ?_⟩
          rwa [add_left_inj, Nat.cast_inj, Fin.val_inj] at h3
      · rintro (rfl | ⟨h1, h2⟩)
        · exact ((lists_math B').mem k).mpr ((hp k).mpr (Or.inl rfl))
        · rw [hl, List.mem_ofFn] at h1
          obtain ⟨i, rfl⟩ := h1
          refine ((lists_math B').mem _).mpr ((hp _).mpr (Or.inr ⟨(sortCols_same B _).mp ⟨i, rfl⟩, fun h3 => h2 ?_⟩))
          rw [h3]
    · intro x x' hx hx'
      rw [(isBasicSol_iff hl hF.ns x).mp hx, ← sol_same hF.ns (sortCols_same B),
        (isBasicSol_iff (lists_math B') hF'.ns x').mp hx']
      exact hstep.obj_le

/-- C37 holds in particular for integer data with moderate subdeterminants: at most `K` for the
coefficients and at most `L` with the right-hand side, `K²·10⁻⁸ + K·L·10⁻⁵ < 1`. -/
theorem C37_integer_partial (P : LP m n) (hP : WF P) (hs : P.isSef = true) (K L : ℕ) (hi : IntData P K L)
    (hKL : (K : ℚ) * K / 10 ^ 8 + (K : ℚ) * L / 10 ^ 5 < 1) (basis : List ℤ)
    (hb : isBasisFeasible P basis = .ok true) :
    ∃ r, simplexIteration P basis = .ok r ∧ GoodIter P basis r :=
  C37_iteration_partial P hP hs (exact_of_int hi hKL) basis hb

/-- The program `max x` subject to `x ≤ 100001`, `x ≤ 100000`, with slacks. -/
def nearTie : LP 2 3 :=
  ⟨!![1, 1, 0; 1, 0, 1], ![100001, 100000], ![1, 0, 0], 0, .max, fun _ => .eq, [], [], true⟩

theorem nearTie_wf : WF nearTie := ⟨by decide, by decide, by decide, by decide, by decide, by decide⟩

/-- C37 as stated is false: the ratios 100001 and 100000 count as equal, and the iteration moves from the
feasible basis `[2, 3]` to the infeasible basis `[1, 3]`. -/
theorem C37_near_tie_wrong :
    WF nearTie ∧ nearTie.isSef = true ∧ isBasisFeasible nearTie [2, 3] = .ok true ∧
      (∃ C, simplexIteration nearTie [2, 3] = .ok (.next [1, 3] C)) ∧
      isBasisFeasible nearTie [1, 3] = .ok false :=
  ⟨nearTie_wf, rfl, by decide +kernel, nextOf_some (by decide +kernel), by decide +kernel⟩

/-- As a consequence `simplex` reports this solvable program as infeasible (`ArithmeticError`). -/
theorem C37_near_tie_infeasible_wrong :
    (∀ fuel, (simplex (fuel + 2) nearTie [2, 3]).1 = .error .arithmeticError) ∧
      Feas nearTie ![0, 100001, 100000] := by
  constructor
  · intro fuel
    have hneg : flipRows (negRows nearTie) nearTie = nearTie := by
      have : negRows nearTie = fun _ => false := by
        funext i
        revert i
        decide +kernel
      rw [this]
      simp [flipRows]
    obtain ⟨C, hC⟩ := C37_near_tie_wrong.2.2.2.1
    have h2 : simplexIteration nearTie [1, 3] = .error .arithmeticError := errOf_some (by decide +kernel)
    have hl : simplexLoop (fuel + 2) nearTie [2, 3] = .error .arithmeticError := by
      rw [simplexLoop, hC]
      simp only
      rw [simplexLoop, h2]
    unfold simplex
    simp only [show nearTie.isSef = true from rfl, Bool.not_true, Bool.false_eq_true, if_false, hneg,
      simplexBody, hl]
  · rw [feas_sef_iff nearTie_wf rfl]
    constructor
    · funext i; revert i; decide +kernel
    · decide +kernel

/-! ### C38 -/

/-- C38 from any starting basis, with the tolerances of the code: the answer satisfies the equations
exactly, its entries are above `-1e-10`, it is the basic solution of the returned basis, the certificate
is dual feasible up to `1e-10` and has exactly the value of the answer, and no feasible point is better
by more than `1e-10` times its coordinate sum. Missing: exact optimality, see below. -/
theorem C38_optimal_partial (fuel : ℕ) (P : LP m n) (hP : WF P) (basis l : List ℤ) (x : Fin n → ℚ)
    (y : Fin m → ℚ) (h : (simplex fuel P basis).1 = .ok (.optimal x l y)) :
    P.A.mulVec x = P.b ∧ (∀ j, -(1 / 10 ^ 10) < x j) ∧ isBasis P l = .ok true ∧ IsBasicSol P l x ∧
      (∀ j, P.c j - (P.A.vecMul y) j < 1 / 10 ^ 10) ∧ y ⬝ᵥ P.b + P.z = objVal P x ∧
      ∀ x', Feas P x' → objVal P x' ≤ objVal P x + 1 / 10 ^ 10 * ∑ j, x' j := by
  obtain ⟨hm, hs, D, _, hd, rfl, rfl, rfl, hc, hx⟩ := simplex_optimal h
  have hn := isBasis_nonsing hd
  have hcost : ∀ j, P.c j - (P.A.vecMul (mult P D)) j < 1 / 10 ^ 10 := by
    intro j
    change (canon P D).c j < tol
    by_cases hj : ∃ i, D i = j
    · obtain ⟨i, rfl⟩ := hj
      rw [canon_c_basic hn]
      exact tol_pos
    · exact hc j fun i hi => hj ⟨i, hi⟩
  have hval : mult P D ⬝ᵥ P.b + P.z = objVal P (sol P D) := (objVal_sol hn).symm
  refine ⟨sol_eq hn, hx, (isBasis_iff P _).mpr ⟨hm, D, toArrayIndexing_math D, hd⟩,
    (isBasicSol_iff (lists_math D) hn _).mpr rfl, hcost, hval, fun x' hx' => ?_⟩
  have h1 : P.c ⬝ᵥ x' - mult P D ⬝ᵥ P.b ≤ 1 / 10 ^ 10 * ∑ j, x' j := by
    rw [← hx'.eqs hP hs, ← canon_c_dot, Finset.mul_sum]
    exact Finset.sum_le_sum fun j _ => mul_le_mul_of_nonneg_right (hcost j).le (hx'.nonneg hP hs j)
  rw [← hval]
  unfold objVal
  linarith

/-- C38 as stated for answers whose own numbers stay clear of the tolerance (a check on the returned `x`
and `y` only). -/
theorem C38_checked_partial (fuel : ℕ) (P : LP m n) (hP : WF P) (basis l : List ℤ) (x : Fin n → ℚ)
    (y : Fin m → ℚ) (h : (simplex fuel P basis).1 = .ok (.optimal x l y))
    (hx : ∀ j, x j ≤ -(1 / 10 ^ 10) ∨ 0 ≤ x j)
    (hy : ∀ j, P.c j - (P.A.vecMul y) j ≤ 0 ∨ 1 / 10 ^ 10 ≤ P.c j - (P.A.vecMul y) j) :
    Feas P x ∧ (∀ x', Feas P x' → objVal P x' ≤ objVal P x) ∧ isBasis P l = .ok true ∧ IsBasicSol P l x ∧
      (∀ j, P.c j ≤ (P.A.vecMul y) j) ∧ y ⬝ᵥ P.b + P.z = objVal P x := by
  obtain ⟨h1, h2, h3, h4, h5, h6, _⟩ := C38_optimal_partial fuel P hP basis l x y h
  obtain ⟨_, hs, _⟩ := simplex_optimal h
  have hyc : ∀ j, P.c j ≤ (P.A.vecMul y) j := fun j => by
    have := (hy j).resolve_right (not_le.mpr (h5 j))
    linarith
  refine ⟨(feas_sef_iff hP hs).mpr ⟨h1, fun j => (hx j).resolve_left (not_le.mpr (h2 j))⟩, fun x' hx' => ?_,
    h3, h4, hyc, h6⟩
  rw [← h6]
  unfold objVal
  have : P.c ⬝ᵥ x' ≤ y ⬝ᵥ P.b := by
    rw [← hx'.eqs hP hs, Matrix.dotProduct_mulVec]
    exact Finset.sum_le_sum fun j _ => mul_le_mul_of_nonneg_right (hyc j) (hx'.nonneg hP hs j)
  linarith

/-- C38 as stated for programs clear of the tolerances, from any starting basis. -/
theorem C38_exact_partial (fuel : ℕ) (P : LP m n) (hP : WF P) (he : Exact P) (basis l : List ℤ)
    (x : Fin n → ℚ) (y : Fin m → ℚ) (h : (simplex fuel P basis).1 = .ok (.optimal x l y)) :
    Feas P x ∧ (∀ x', Feas P x' → objVal P x' ≤ objVal P x) ∧ isBasis P l = .ok true ∧ IsBasicSol P l x ∧
      (∀ j, P.c j ≤ (P.A.vecMul y) j) ∧ y ⬝ᵥ P.b + P.z = objVal P x := by
  refine C38_checked_partial fuel P hP basis l x y h (fun j => ?_) fun j => ?_
  · obtain ⟨hm, hs, D, _, hd, rfl, rfl, rfl, hc, hx⟩ := simplex_optimal h
    have hn := isBasis_nonsing hd
    by_cases hj : ∃ i, D i = j
    · obtain ⟨i, rfl⟩ := hj
      rw [sol_apply hn]
      exact (he.rhs D hn i).symm
    · right
      rw [sol_off hn fun i hi => hj ⟨i, hi⟩]
  · obtain ⟨hm, hs, D, _, hd, rfl, rfl, rfl, hc, hx⟩ := simplex_optimal h
    exact he.cost D (isBasis_nonsing hd) j

/-- The program `max 0.5e-10 x₁` subject to `x₂ = 1`. -/
def tinyCost : LP 1 2 := ⟨!![0, 1], ![1], ![1 / (2 * 10 ^ 10), 0], 0, .max, fun _ => .eq, [], [], true⟩

theorem tinyCost_wf : WF tinyCost := ⟨by decide, by decide, by decide, by decide, by decide, by decide⟩

/-- C38 as stated is false: a positive cost below the tolerance is ignored, and an answer is reported as
optimal on an unbounded program. -/
theorem C38_tiny_cost_wrong :
    isBasisFeasible tinyCost [2] = .ok true ∧
    (simplex 1 tinyCost [2]).1 = .ok (.optimal ![0, 1] [2] ![0]) ∧ Unbounded tinyCost := by
  refine ⟨by decide +kernel, optOf_some (by decide +kernel), fun M => ?_⟩
  refine ⟨![max 0 (2 * 10 ^ 10 * M) + 2 * 10 ^ 10, 1], (feas_sef_iff tinyCost_wf rfl).mpr ⟨?_, ?_⟩, ?_⟩
  · funext i
    fin_cases i
    simp [tinyCost, Matrix.mulVec, dotProduct, Fin.sum_univ_two]
  · intro j
    fin_cases j
    · simp only [Fin.zero_eta, Matrix.cons_val_zero]
      have := le_max_left 0 (2 * 10 ^ 10 * M)
      positivity
    · simp
  · have := le_max_right 0 (2 * 10 ^ 10 * M)
    simp only [objVal, tinyCost, dotProduct, Fin.sum_univ_two, Matrix.cons_val_zero, Matrix.cons_val_one]
    have h2 : (1 : ℚ) / (2 * 10 ^ 10) * (max 0 (2 * 10 ^ 10 * M) + 2 * 10 ^ 10) =
        max 0 (2 * 10 ^ 10 * M) / (2 * 10 ^ 10) + 1 := by field_simp
    have h3 : M ≤ max 0 (2 * 10 ^ 10 * M) / (2 * 10 ^ 10) := by
      rw [le_div_iff₀ (by positivity)]
      linarith
    linarith

/-! ### C39 -/

/-- C39 from any starting basis: the reported pair `(x, d)` satisfies `A x = b`, `A d = 0`, `c.d > 0`
exactly, so that the program is unbounded along it as soon as `x` and `d` have no negative entry. -/
theorem C39_unbounded_partial (fuel : ℕ) (P : LP m n) (hP : WF P) (basis : List ℤ) (x d : Fin n → ℚ)
    (h : (simplex fuel P basis).1 = .ok (.unbounded x d)) :
    P.A.mulVec x = P.b ∧ P.A.mulVec d = 0 ∧ 0 < P.c ⬝ᵥ d ∧
      ((∀ j, 0 ≤ x j) → (∀ j, 0 ≤ d j) → (∀ t : ℚ, 0 ≤ t → Feas P (x + t • d)) ∧
        ∀ M : ℚ, ∃ T : ℚ, ∀ t, T ≤ t → M < objVal P (x + t • d)) := by
  obtain ⟨hm, hs, D, k, _, hd, rfl, rfl, hk, hc, _⟩ := simplex_unbounded h
  have hn := isBasis_nonsing hd
  have hcd : 0 < P.c ⬝ᵥ rayOf D (canon P D) k := by rw [rayOf_cost hn hk]; exact hc
  exact ⟨sol_eq hn, rayOf_ker hn hk, hcd, fun hx hd' => unbounded_of_ray hP hs
    ((feas_sef_iff hP hs).mpr ⟨sol_eq hn, hx⟩) hd' (rayOf_ker hn hk) hcd⟩

/-- C39 as stated, from a feasible basis of a program clear of the tolerances. Missing: programs with tiny
numbers, where the answer may be wrong (`C39_tiny_pivot_wrong`). -/
theorem C39_exact_partial (fuel : ℕ) (P : LP m n) (hP : WF P) (he : Exact P) (basis : List ℤ)
    (hb : isBasisFeasible P basis = .ok true) (x d : Fin n → ℚ)
    (h : (simplex fuel P basis).1 = .ok (.unbounded x d)) :
    (∀ t : ℚ, 0 ≤ t → Feas P (x + t • d)) ∧
      ∀ M : ℚ, ∃ T : ℚ, ∀ t, T ≤ t → M < objVal P (x + t • d) := by
  obtain ⟨hm, B, hB, _, hF⟩ := exact_start he hb
  obtain ⟨hs, hbody, -⟩ := simplex_sef h
  have hF' := (feasBasis_flip (negRows P)).mpr hF
  -- the run with `fuel` iterations ended, so it is the run with more iterations
  have key := simplexLoop_exact (P := flipRows (negRows P) P) hs hm (he.flip _) fuel basis B hB hF'
  unfold simplexBody at hbody
  rcases key with ⟨D, hD, hmono, hspec⟩ | ⟨hno, _⟩
  · have hDP : FeasBasis P D := (feasBasis_flip _).mp hD
    rcases hspec with ⟨_, hl⟩ | ⟨hspec, hl⟩
    · rw [hl] at hbody
      simp [toArrayIndexing_math, toCols_colsList] at hbody
    · rw [hl] at hbody
      cases hspec with
      | unbounded k' hk' hck hmin hA =>
        rw [canon_flip] at hck hmin hA
        obtain ⟨k, h1, h2, h3⟩ := argmaxPos_spec (c := (canon P D).c) ⟨k', lt_of_lt_of_le tol_pos hck⟩
        simp only [canon_flip, h1, Except.ok.injEq, Answer.unbounded.injEq, sol_flip] at hbody
        obtain ⟨rfl, rfl⟩ := hbody
        have hk : ∀ i, D i ≠ k := fun i hi => by
          rw [← hi, canon_c_basic hDP.ns] at h2
          exact lt_irrefl _ h2
        have hkk : k = k' := by
          rcases lt_trichotomy k k' with hlt | heq | hlt
          · exfalso
            have := he.lt_tol_cost hDP.ns (hmin k hlt hk)
            linarith
          · exact heq
          · exfalso
            have := h3 k' hlt
            have := tol_pos
            linarith
        subst hkk
        exact unbounded_of_ray hP hs ((feas_sef_iff hP hs).mpr ⟨sol_eq hDP.ns, hDP.nonneg⟩)
          (rayOf_nonneg hDP.ns hk fun i => he.lt_tol_piv hDP.ns (hA i)) (rayOf_ker hDP.ns hk)
          (by rw [rayOf_cost hDP.ns hk]; exact h2)
  · rw [hno] at hbody
    cases hbody

/-- The program `max x₁` subject to `0.5e-10 x₁ + x₂ = 1`. -/
def tinyPivot : LP 1 2 := ⟨!![1 / (2 * 10 ^ 10), 1], ![1], ![1, 0], 0, .max, fun _ => .eq, [], [], true⟩

theorem tinyPivot_wf : WF tinyPivot := ⟨by decide, by decide, by decide, by decide, by decide, by decide⟩

/-- C39 as stated is false: a pivot below the tolerance is ignored, and a program whose objective never
exceeds `2e10` is reported as unbounded. -/
theorem C39_tiny_pivot_wrong :
    isBasisFeasible tinyPivot [2] = .ok true ∧
    (simplex 1 tinyPivot [2]).1 = .ok (.unbounded ![0, 1] ![1, -(1 / (2 * 10 ^ 10))]) ∧
    ∀ x, Feas tinyPivot x → objVal tinyPivot x ≤ 2 * 10 ^ 10 := by
  refine ⟨by decide +kernel, unbOf_some (by decide +kernel), fun x hx => ?_⟩
  have h1 := congrFun (hx.eqs tinyPivot_wf rfl) 0
  have h2 := hx.nonneg tinyPivot_wf rfl 1
  simp only [tinyPivot, Matrix.mulVec, dotProduct, Fin.sum_univ_two, Matrix.of_apply, Matrix.cons_val_zero,
    Matrix.cons_val_one, Matrix.cons_val_fin_one] at h1
  simp only [objVal, tinyPivot, dotProduct, Fin.sum_univ_two, Matrix.cons_val_zero, Matrix.cons_val_one]
  linarith

/-! ### C40 -/

/-- C40 for programs clear of the tolerances, degenerate or not: from a feasible basis `simplex` gives an
optimal or an unbounded answer after at most `n ^ m` iterations. Missing: programs with tiny numbers, where
the method may run forever (`C40_cycle_wrong`). -/
theorem C40_terminates_partial (P : LP m n) (hs : P.isSef = true) (he : Exact P) (basis : List ℤ)
    (hb : isBasisFeasible P basis = .ok true) (fuel : ℕ) (hf : n ^ m ≤ fuel) :
    (∃ x l y, (simplex fuel P basis).1 = .ok (.optimal x l y)) ∨
      ∃ x d, (simplex fuel P basis).1 = .ok (.unbounded x d) := by
  obtain ⟨hm, B, hB, _, hF⟩ := exact_start he hb
  obtain ⟨D, _, _, h | ⟨k, _, _, _, h⟩⟩ := simplex_exact hs hm he hf hB hF
  · exact Or.inl ⟨_, _, _, h.2⟩
  · exact Or.inr ⟨_, _, h⟩

/-- C40 for integer data with moderate subdeterminants. -/
theorem C40_integer_partial (P : LP m n) (hs : P.isSef = true) (K L : ℕ) (hi : IntData P K L)
    (hKL : (K : ℚ) * K / 10 ^ 8 + (K : ℚ) * L / 10 ^ 5 < 1) (basis : List ℤ)
    (hb : isBasisFeasible P basis = .ok true) (fuel : ℕ) (hf : n ^ m ≤ fuel) :
    (∃ x l y, (simplex fuel P basis).1 = .ok (.optimal x l y)) ∨
      ∃ x d, (simplex fuel P basis).1 = .ok (.unbounded x d) :=
  C40_terminates_partial P hs (exact_of_int hi hKL) basis hb fuel hf

/-- A program with right-hand sides of size `1e-9`. -/
def cycling : LP 3 7 :=
  ⟨!![1, 0, 1, 0, 2, 3, 0; 0, 1, -3, 0, -3, -2, -3; 0, 0, 1, 1, -3, -1, -3], ![0, 2 / 10 ^ 9, 2 / 10 ^ 9],
    ![0, 0, -2, 0, 1, 3, 3], 0, .max, fun _ => .eq, [], [], true⟩

theorem cycling_iterations :
    nextOf (simplexIteration cycling [1, 2, 4]) = some [2, 4, 5] ∧
    nextOf (simplexIteration cycling [2, 4, 5]) = some [4, 5, 6] ∧
    nextOf (simplexIteration cycling [4, 5, 6]) = some [5, 6, 7] ∧
    nextOf (simplexIteration cycling [5, 6, 7]) = some [1, 6, 7] ∧
    nextOf (simplexIteration cycling [1, 6, 7]) = some [1, 2, 6] ∧
    nextOf (simplexIteration cycling [1, 2, 6]) = some [2, 3, 6] ∧
    nextOf (simplexIteration cycling [2, 3, 6]) = some [3, 4, 6] ∧
    nextOf (simplexIteration cycling [3, 4, 6]) = some [4, 5, 6] := by
  refine ⟨?_, ?_, ?_, ?_, ?_, ?_, ?_, ?_⟩ <;> decide +kernel

/-- C40 as stated is false: from a feasible basis of this program `simplex` never ends. -/
theorem C40_cycle_wrong :
    WF cycling ∧ isBasisFeasible cycling [1, 2, 4] = .ok true ∧
      ∀ fuel, (simplex fuel cycling [1, 2, 4]).1 = .error .notTerminated := by
  refine ⟨⟨by decide, by decide, by decide, by decide, by decide, by decide⟩, by decide +kernel, fun fuel => ?_⟩
  obtain ⟨h1, h2, h3, h4, h5, h6, h7, h8⟩ := cycling_iterations
  have step : ∀ {l l' : List ℤ} {k : ℕ}, nextOf (simplexIteration cycling l) = some l' →
      simplexLoop k cycling l' = .error .notTerminated →
      simplexLoop (k + 1) cycling l = .error .notTerminated := by
    intro l l' k h hl
    obtain ⟨C, hC⟩ := nextOf_some h
    rw [simplexLoop, hC]
    exact hl
  have hall : ∀ k, simplexLoop k cycling [4, 5, 6] = .error .notTerminated ∧
      simplexLoop k cycling [5, 6, 7] = .error .notTerminated ∧
      simplexLoop k cycling [1, 6, 7] = .error .notTerminated ∧
      simplexLoop k cycling [1, 2, 6] = .error .notTerminated ∧
      simplexLoop k cycling [2, 3, 6] = .error .notTerminated ∧
      simplexLoop k cycling [3, 4, 6] = .error .notTerminated := by
    intro k
    induction k with
    | zero => exact ⟨rfl, rfl, rfl, rfl, rfl, rfl⟩
    | succ k ih =>
      obtain ⟨i1, i2, i3, i4, i5, i6⟩ := ih
      exact ⟨step h3 i2, step h4 i3, step h5 i4, step h6 i5, step h7 i6, step h8 i1⟩
  have hstart : simplexLoop fuel cycling [1, 2, 4] = .error .notTerminated := by
    match fuel with
    | 0 => rfl
    | 1 => exact step h1 rfl
    | k + 2 => exact step h1 (step h2 (hall k).1)
  have hneg : flipRows (negRows cycling) cycling = cycling := by
    have : negRows cycling = fun _ => false := by
      funext i
      revert i
      decide +kernel
    rw [this]
    simp [flipRows]
  unfold simplex
  simp only [show cycling.isSef = true from rfl, Bool.not_true, Bool.false_eq_true, if_false, hneg,
    simplexBody, hstart]

/-! ### C41 -/

/-- C41 for calls of `simplex` that return. Missing: calls that raise (`C41_exception_wrong`). -/
theorem C41_returns_partial (fuel : ℕ) (P : LP m n) (basis : List ℤ) (a : Answer m n)
    (h : (simplex fuel P basis).1 = .ok a) : (simplex fuel P basis).2 = P := (simplex_sef h).2.2

/-- C41 also holds for calls that raise when no right-hand side is negative. -/
theorem C41_nonneg_partial (fuel : ℕ) (P : LP m n) (basis : List ℤ) (hb : ∀ i, 0 ≤ P.b i) :
    (simplex fuel P basis).2 = P := by
  have hneg : flipRows (negRows P) P = P := by
    have : negRows P = fun _ => false := by
      funext i
      simp [negRows, hb i]
    rw [this]
    simp [flipRows]
  unfold simplex
  split
  · rfl
  · simp only
    split
    · exact hneg
    · exact flipRows_twice _ _

/-- In every case the program afterwards has the same feasible points and objective. -/
theorem C41_equivalent_partial (fuel : ℕ) (P : LP m n) (hP : WF P) (basis : List ℤ) :
    let Q := (simplex fuel P basis).2
    Q.c = P.c ∧ Q.z = P.z ∧ ∀ x, Feas Q x ↔ Feas P x := by
  have hflip : ∀ hs : P.isSef = true, let Q := flipRows (negRows P) P
      Q.c = P.c ∧ Q.z = P.z ∧ ∀ x, Feas Q x ↔ Feas P x := by
    intro hs
    refine ⟨rfl, rfl, fun x => ?_⟩
    have hwf : WF (flipRows (negRows P) P) :=
      ⟨hP.freeSorted, hP.negSorted, hP.freeLt, hP.negLt, hP.disj, hP.sef⟩
    rw [feas_sef_iff hwf hs, feas_sef_iff hP hs, flipRows_A, flipRows_b, ← Matrix.mulVec_mulVec]
    constructor
    · rintro ⟨h1, h2⟩
      refine ⟨?_, h2⟩
      have := congrArg (signs (negRows P)).mulVec h1
      simpa only [Matrix.mulVec_mulVec, ← Matrix.mul_assoc, signs_sq, Matrix.one_mul, Matrix.one_mulVec] using this
    · rintro ⟨h1, h2⟩
      exact ⟨by rw [h1], h2⟩
  cases hs : P.isSef with
  | false => simp [simplex, hs]
  | true =>
    unfold simplex
    simp only [hs, Bool.not_true, Bool.false_eq_true, if_false]
    split
    · exact hflip hs
    · rw [flipRows_twice]; simp

/-- C41 as stated is false: a call with a wrong basis raises `ValueError` and leaves `A` and `b` negated. -/
theorem C41_exception_wrong : ∃ (P : LP 1 1) (basis : List ℤ), WF P ∧ P.isSef = true ∧
    (∀ fuel, (simplex (fuel + 1) P basis).1 = .error .valueError) ∧
    ∀ fuel, ((simplex (fuel + 1) P basis).2).b ≠ P.b ∧ ((simplex (fuel + 1) P basis).2).A ≠ P.A := by
  let P : LP 1 1 := ⟨!![-1], ![-1], ![0], 0, .max, fun _ => .eq, [], [], true⟩
  have hit : simplexIteration (flipRows (negRows P) P) [] = .error .valueError :=
    errOf_some (by decide +kernel)
  have hbody : ∀ fuel, simplexBody (fuel + 1) (flipRows (negRows P) P) (negRows P) [] = .error .valueError := by
    intro fuel
    unfold simplexBody
    rw [simplexLoop, hit]
  have hrun : ∀ fuel, simplex (fuel + 1) P [] = (.error .valueError, flipRows (negRows P) P) := by
    intro fuel
    unfold simplex
    simp only [show P.isSef = true from rfl, Bool.not_true, Bool.false_eq_true, if_false, hbody]
  refine ⟨P, [], ⟨by decide, by decide, by decide, by decide, by decide, by decide⟩, rfl, fun fuel => ?_,
    fun fuel => ⟨fun hc => ?_, fun hc => ?_⟩⟩
  · rw [hrun]
  · rw [hrun] at hc
    have := congrFun hc 0
    revert this
    decide +kernel
  · rw [hrun] at hc
    have := congrFun (congrFun hc 0) 0
    revert this
    decide +kernel

/-! ### C50, optimal answers -/

/-- C50 for optimal answers, without any assumption: the certificate returned with an optimal answer is
accepted by `verify_optimality`. -/
theorem C50_optimal (fuel : ℕ) (P : LP m n) (hP : WF P) (basis l : List ℤ) (x : Fin n → ℚ) (y : Fin m → ℚ)
    (h : (simplex fuel P basis).1 = .ok (.optimal x l y)) :
    verifyOptimality P (List.ofFn y) = .ok true := by
  obtain ⟨_, hs, _⟩ := simplex_optimal h
  rw [verifyOptimality_iff P hs]
  exact (C38_optimal_partial fuel P hP basis l x y h).2.2.2.2.1

/-! ### C52 -/

/-- C52: the certificate of an optimal answer is feasible for the dual program and the dual objective there
is the objective of the answer without its constant. Missing: the constant `z`, which `dual` drops, and
programs with tiny numbers. -/
theorem C52_strong_partial (fuel : ℕ) (P : LP m n) (hP : WF P) (he : Exact P) (basis l : List ℤ)
    (x : Fin n → ℚ) (y : Fin m → ℚ) (h : (simplex fuel P basis).1 = .ok (.optimal x l y)) :
    Feas (dual P) y ∧ objVal (dual P) y = objVal P x - P.z := by
  obtain ⟨_, _, _, _, h5, h6⟩ := C38_exact_partial fuel P hP he basis l x y h
  obtain ⟨_, hs, _⟩ := simplex_optimal h
  obtain ⟨hi, hf, hn, ho⟩ := hP.isSef_iff.mp hs
  refine ⟨⟨fun j => ?_, fun i hneg => ?_, fun i _ hfree => ?_⟩, ?_⟩
  · have e : (dual P).ineq j = .ge := by
      simp [dual, hf, hn, ho]
    rw [e]
    have : ((dual P).A.mulVec y) j = (P.A.vecMul y) j := by
      simp [dual, Matrix.mulVec_transpose]
    rw [this]
    exact h5 j
  · rw [dual_neg_iff, hi i] at hneg
    simp at hneg
  · exact absurd ((dual_free_iff P i).mpr (hi i)) hfree
  · have : objVal (dual P) y = P.b ⬝ᵥ y + 0 := rfl
    rw [this, dotProduct_comm]
    linarith

/-- C52 for programs without constant. -/
theorem C52_zero_partial (fuel : ℕ) (P : LP m n) (hP : WF P) (he : Exact P) (hz : P.z = 0) (basis l : List ℤ)
    (x : Fin n → ℚ) (y : Fin m → ℚ) (h : (simplex fuel P basis).1 = .ok (.optimal x l y)) :
    Feas (dual P) y ∧ objVal (dual P) y = objVal P x ∧ ∀ y', Feas (dual P) y' → objVal (dual P) y ≤ objVal (dual P) y' := by
  obtain ⟨h1, h2⟩ := C52_strong_partial fuel P hP he basis l x y h
  obtain ⟨h3, _⟩ := C38_exact_partial fuel P hP he basis l x y h
  obtain ⟨_, hs, _⟩ := simplex_optimal h
  obtain ⟨_, _, _, ho⟩ := hP.isSef_iff.mp hs
  rw [hz, sub_zero] at h2
  refine ⟨h1, h2, fun y' hy' => ?_⟩
  rw [h2]
  have := weak_max P ho h3 hy'
  unfold objVal
  have e1 : (dual P).z = 0 := rfl
  have e2 : (dual P).c = P.b := rfl
  rw [hz, e1, e2]
  linarith

/-- C52 as stated is false for every program with a constant `z ≠ 0`. -/
theorem C52_constant_wrong (fuel : ℕ) (P : LP m n) (hP : WF P) (hz : P.z ≠ 0) (basis l : List ℤ)
    (x : Fin n → ℚ) (y : Fin m → ℚ) (h : (simplex fuel P basis).1 = .ok (.optimal x l y)) :
    objVal (dual P) y ≠ objVal P x := by
  have h6 := (C38_optimal_partial fuel P hP basis l x y h).2.2.2.2.2.1
  intro hc
  apply hz
  have : objVal (dual P) y = P.b ⬝ᵥ y + 0 := rfl
  rw [this, dotProduct_comm] at hc
  linarith

/-! ### The hypotheses are satisfiable -/

/-- `max x₁ + x₂ + 5` subject to `x₁ + x₂ + x₃ = 4`, `2 x₁ + x₂ + x₄ = 6`. -/
def sample : LP 2 4 :=
  ⟨!![1, 1, 1, 0; 2, 1, 0, 1], ![4, 6], ![1, 1, 0, 0], 5, .max, fun _ => .eq, [], [], true⟩

theorem sample_int : IntData sample 2 6 where
  data := ⟨!![1, 1, 1, 0; 2, 1, 0, 1], ![4, 6], ![1, 1, 0, 0],
    by ext i j; fin_cases i <;> fin_cases j <;> simp [sample], by funext i; revert i; decide +kernel,
    by funext j; revert j; decide +kernel⟩
  detK := by decide +kernel
  detL := by decide +kernel

example : Exact sample ∧ isBasisFeasible sample [3, 4] = .ok true ∧
    (simplex 3 sample [3, 4]).1 = .ok (.optimal ![2, 2, 0, 0] [1, 2] ![1, 0]) :=
  ⟨exact_of_int sample_int (by norm_num), by decide +kernel, optOf_some (by decide +kernel)⟩

end Props
end Pytimize
