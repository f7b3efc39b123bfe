/-
Properties C35 and C36: bases, basic solutions, canonical forms.
-/
import Mathlib.Tactic.FinCases
import Verif.LP.SimplexProof

namespace Pytimize
namespace Props
open LinProg Comparator

variable {m n : ℕ}

/-! ### C35 -/

/-- `x` is a basic solution for the one-based list `basis`: it satisfies the equations and vanishes on
every column not in the list. -/
def IsBasicSol (P : LP m n) (basis : List ℤ) (x : Fin n → ℚ) : Prop :=
  P.A.mulVec x = P.b ∧ ∀ j : Fin n, ((j : ℕ) : ℤ) + 1 ∉ basis → x j = 0

/-- The one-based list `basis` names, in this order, the columns `B`. -/
def Lists (basis : List ℤ) (B : Fin m → Fin n) : Prop := basis = List.ofFn fun i => ((B i : ℕ) : ℤ) + 1

theorem Lists.mem {basis : List ℤ} {B : Fin m → Fin n} (h : Lists basis B) (j : Fin n) :
    ((j : ℕ) : ℤ) + 1 ∈ basis ↔ ∃ i, B i = j := by
  rw [h, List.mem_ofFn]
  refine exists_congr fun i => ?_
  rw [add_left_inj, Nat.cast_inj, Fin.val_inj]

theorem isBasicSol_iff {P : LP m n} {basis : List ℤ} {B : Fin m → Fin n} (hl : Lists basis B)
    (hB : Nonsing P B) (x : Fin n → ℚ) : IsBasicSol P basis x ↔ x = sol P B := by
  constructor
  · rintro ⟨h1, h2⟩
    refine sol_unique hB h1 fun j hj => h2 j fun hm => ?_
    obtain ⟨i, hi⟩ := (hl.mem j).mp hm
    exact hj i hi
  · rintro rfl
    refine ⟨sol_eq hB, fun j hj => sol_off hB fun i hi => hj ((hl.mem j).mpr ⟨i, hi⟩)⟩

/-- C35: on a program with rows, `is_basis` returns (never raises) and says yes exactly for lists of
`m` valid columns with determinant at least `1e-10` in absolute value. -/
theorem C35_is_basis (P : LP m n) (hm : 0 < m) (basis : List ℤ) :
    ∃ r, isBasis P basis = .ok r ∧
      (r = true ↔ ∃ B : Fin m → Fin n, Lists basis B ∧ 1 / 10 ^ 10 ≤ |(P.A.submatrix id B).det|) := by
  obtain ⟨r, hr⟩ := isBasis_total P hm basis
  refine ⟨r, hr, ?_⟩
  have h := isBasis_iff P basis
  rw [hr, Except.ok.injEq] at h
  rw [h]
  constructor
  · rintro ⟨_, B, h1, h2⟩
    exact ⟨B, toArrayIndexing_eq_iff.mp h1, h2⟩
  · rintro ⟨B, h1, h2⟩
    exact ⟨hm, B, toArrayIndexing_eq_iff.mpr h1, h2⟩

/-- C35: a basis has exactly one basic solution. -/
theorem C35_unique (P : LP m n) (basis : List ℤ) (h : isBasis P basis = .ok true) :
    ∃! x, IsBasicSol P basis x := by
  obtain ⟨_, B, hB, hd⟩ := (isBasis_iff P basis).mp h
  have hl : Lists basis B := toArrayIndexing_eq_iff.mp hB
  have hn := isBasis_nonsing hd
  exact ⟨sol P B, (isBasicSol_iff hl hn _).mpr rfl, fun x hx => (isBasicSol_iff hl hn x).mp hx⟩

/-- C35: `compute_basic_solution` returns that basic solution when the list is increasing. Missing: lists in
another order, where it is wrong (`C35_unsorted_wrong`). -/
theorem C35_compute_sorted_partial (P : LP m n) (basis : List ℤ) (hs : basis.Pairwise (· ≤ ·))
    (h : isBasis P basis = .ok true) :
    ∃ x, computeBasicSolution P basis = .ok x ∧ IsBasicSol P basis x := by
  obtain ⟨hm, B, hB, hd⟩ := (isBasis_iff P basis).mp h
  have hl : Lists basis B := toArrayIndexing_eq_iff.mp hB
  have hmono : Monotone B := by
    intro i j hij
    rcases eq_or_lt_of_le hij with rfl | hij
    · exact le_refl _
    · rw [hl, List.pairwise_ofFn] at hs
      have := hs hij
      exact_mod_cast (add_le_add_iff_right (1 : ℤ)).mp this
  refine ⟨_, computeBasicSolution_eq hm hB hd, ?_⟩
  rw [sortCols_of_mono hmono]
  exact (isBasicSol_iff hl (isBasis_nonsing hd) _).mpr rfl

/-- Without a basis, `compute_basic_solution` raises `ArithmeticError`. -/
theorem C35_compute_raises (P : LP m n) (basis : List ℤ) (h : isBasis P basis = .ok false) :
    computeBasicSolution P basis = .error .arithmeticError := by
  unfold computeBasicSolution
  rw [h]

/-- C35 is false for unsorted lists: for `A = I`, `b = (1, 2)` and the basis `[2, 1]` the returned vector is
`(2, 1)`, which does not satisfy `A x = b`. -/
theorem C35_unsorted_wrong :
    ∃ (P : LP 2 2) (basis : List ℤ) (x : Fin 2 → ℚ), WF P ∧ P.isSef = true ∧ isBasis P basis = .ok true ∧
      computeBasicSolution P basis = .ok x ∧ ¬ IsBasicSol P basis x := by
  refine ⟨⟨!![1, 0; 0, 1], ![1, 2], ![0, 0], 0, .max, fun _ => .eq, [], [], true⟩, [2, 1], ![2, 1],
    ⟨by decide, by decide, by decide, by decide, by decide, by decide⟩, rfl, by decide +kernel, ?_, ?_⟩
  · have : ∀ x : Fin 2 → ℚ, x 0 = 2 → x 1 = 1 → x = ![2, 1] := by
      intro x h0 h1
      funext i
      fin_cases i
      · exact h0
      · exact h1
    have hc : (computeBasicSolution (⟨!![1, 0; 0, 1], ![1, 2], ![0, 0], 0, .max, fun _ => .eq, [], [], true⟩ :
        LP 2 2) [2, 1]).toOption.map (fun x => (x 0, x 1)) = some (2, 1) := by decide +kernel
    cases hx : computeBasicSolution (⟨!![1, 0; 0, 1], ![1, 2], ![0, 0], 0, .max, fun _ => .eq, [], [], true⟩ :
        LP 2 2) [2, 1] with
    | error e => rw [hx] at hc; cases hc
    | ok x =>
      rw [hx] at hc
      simp only [Except.toOption, Option.map_some, Option.some.injEq, Prod.mk.injEq] at hc
      rw [this x hc.1 hc.2]
  · rintro ⟨h, _⟩
    have := congrFun h 0
    revert this
    decide +kernel

/-- C35: `is_basis_feasible` is True iff the list is a basis whose basic solution has no entry at or
below `-1e-10`. -/
theorem C35_feasible (P : LP m n) (basis : List ℤ) :
    isBasisFeasible P basis = .ok true ↔
      isBasis P basis = .ok true ∧ ∀ x, IsBasicSol P basis x → ∀ j, -(1 / 10 ^ 10) < x j := by
  rw [isBasisFeasible_iff, isBasis_iff]
  constructor
  · rintro ⟨hm, B, hB, hd, hb⟩
    refine ⟨⟨hm, B, hB, hd⟩, fun x hx j => ?_⟩
    have hn := isBasis_nonsing hd
    rw [(isBasicSol_iff (toArrayIndexing_eq_iff.mp hB) hn x).mp hx]
    by_cases hj : ∃ i, B i = j
    · obtain ⟨i, rfl⟩ := hj
      rw [sol_apply hn]
      exact hb i
    · rw [sol_off hn fun i hi => hj ⟨i, hi⟩]
      norm_num
  · rintro ⟨⟨hm, B, hB, hd⟩, h⟩
    have hn := isBasis_nonsing hd
    refine ⟨hm, B, hB, hd, fun i => ?_⟩
    have := h (sol P B) ((isBasicSol_iff (toArrayIndexing_eq_iff.mp hB) hn _).mpr rfl) (B i)
    rw [sol_apply hn] at this
    exact this

/-- C35: `is_basic_solution` accepts a vector iff its nonbasic entries are smaller than `1e-10` and
`A x` agrees with `b` up to NumPy's closeness. -/
theorem C35_is_basic_solution (P : LP m n) (hs : P.isSef = true) (basis : List ℤ)
    (hb : isBasis P basis = .ok true) (x : Fin n → ℚ) :
    isBasicSolution P (List.ofFn x) basis = .ok true ↔
      (∀ j : Fin n, ((j : ℕ) : ℤ) + 1 ∉ basis → |x j| < 1 / 10 ^ 10) ∧
      ∀ i, |(P.A.mulVec x) i - P.b i| ≤ 1 / 10 ^ 8 + 1 / 10 ^ 5 * |P.b i| := by
  have hmem : ∀ j : Fin n, ((j : ℕ) : ℤ) ∈ toArrayIndexing basis ↔ ((j : ℕ) : ℤ) + 1 ∈ basis := by
    intro j
    rw [toArrayIndexing, List.mem_map]
    constructor
    · rintro ⟨z, hz, he⟩
      rw [← he]
      simpa using hz
    · intro h
      exact ⟨_, h, by ring⟩
  simp only [isBasicSolution, hs, toVec_ofFn, hb, Bool.not_true, Bool.false_eq_true, if_false,
    Except.ok.injEq, Bool.and_eq_true, decide_eq_true_eq, isCloseToZero_iff, hmem, npIsClose_iff]
  rfl

/-- C35: in particular the basic solution itself is always accepted. -/
theorem C35_basic_accepted (P : LP m n) (hs : P.isSef = true) (basis : List ℤ)
    (hb : isBasis P basis = .ok true) (x : Fin n → ℚ) (hx : IsBasicSol P basis x) :
    isBasicSolution P (List.ofFn x) basis = .ok true := by
  refine (C35_is_basic_solution P hs basis hb x).mpr ⟨fun j hj => ?_, fun i => ?_⟩
  · rw [hx.2 j hj, abs_zero]; norm_num
  · rw [hx.1, sub_self, abs_zero]
    have := abs_nonneg (P.b i)
    positivity

/-! ### C36 -/

/-- C36: for every basis, in any order, `to_canonical_form` returns a program with the same shape, the
same feasible points and the same objective value wherever the equations hold, whose basis columns are the
unit vectors in the order listed and whose costs vanish on the basis. -/
theorem C36_canonical (P : LP m n) (hP : WF P) (hs : P.isSef = true) (basis : List ℤ)
    (hb : isBasis P basis = .ok true) :
    ∃ C, toCanonicalForm P basis = .ok C ∧ WF C ∧ C.isSef = true ∧ C.objective = P.objective ∧
      (∀ x, Feas C x ↔ Feas P x) ∧
      (∀ x, P.A.mulVec x = P.b → objVal C x = objVal P x) ∧
      ∃ B : Fin m → Fin n, Lists basis B ∧
        (∀ i k, C.A i (B k) = if i = k then 1 else 0) ∧ ∀ k, C.c (B k) = 0 := by
  obtain ⟨hm, B, hB, hd⟩ := (isBasis_iff P basis).mp hb
  have hn := isBasis_nonsing hd
  have hwf : WF (canon P B) := ⟨hP.freeSorted, hP.negSorted, hP.freeLt, hP.negLt, hP.disj, hP.sef⟩
  refine ⟨canon P B, ?_, hwf, hs, rfl, fun x => ?_, fun x hx => canon_objVal hx, B,
    toArrayIndexing_eq_iff.mp hB, fun i k => canon_col hn i k, fun k => canon_c_basic hn k⟩
  · unfold toCanonicalForm
    rw [hb, hB, toCols_colsList]
    simp [hs]
  · rw [feas_sef_iff hwf hs, feas_sef_iff hP hs, canon_eq_iff hn]

/-- C36: `to_canonical_form` raises on a program not in SEF and on lists that are not a basis. -/
theorem C36_raises (P : LP m n) (basis : List ℤ) :
    (P.isSef = false → toCanonicalForm P basis = .error .arithmeticError) ∧
    (P.isSef = true → isBasis P basis = .ok false → toCanonicalForm P basis = .error .valueError) := by
  refine ⟨fun h => by simp [toCanonicalForm, h], fun h hb => ?_⟩
  unfold toCanonicalForm
  simp [h, hb]

/-- C35/C36 are not vacuous: a program with a basis listed out of order. -/
example : isBasis (⟨!![1, 1, 1, 0; 2, 1, 0, 1], ![4, 6], ![1, 1, 0, 0], 0, .max, fun _ => .eq, [], [], true⟩ :
    LP 2 4) [4, 1] = .ok true := by decide +kernel

end Props
end Pytimize
