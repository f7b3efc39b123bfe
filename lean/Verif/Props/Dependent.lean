/-
Property C111: `__remove_dependent_rows` keeps the solutions of the system and leaves independent rows.
-/
import Mathlib.Algebra.BigOperators.Fin
import Mathlib.Algebra.Order.BigOperators.Group.Finset
import Mathlib.Data.List.Sort
import Mathlib.Tactic.Positivity
import Mathlib.Tactic.FinCases
import Verif.LP.Dependent

namespace Pytimize
namespace Props
open LinProg Comparator

variable {m n : ℕ}

/-- `x` satisfies the equation whose coefficients are the first entries of `r` and whose right side is the last. -/
def Satisfies (r : Fin (n + 1) → ℚ) (x : Fin n → ℚ) : Prop := ∑ j, r j.castSucc * x j = r (Fin.last n)

/-- No two quotients of entries of the matrix that are compared are close without being equal. -/
def Apart (M : Fin m → Fin (n + 1) → ℚ) : Prop :=
  ∀ i j c, M i 0 ≠ 0 → M j 0 ≠ 0 → M i c ≠ 0 → M j c ≠ 0 →
    |M i c / M j c - M i 0 / M j 0| ≤ 1 / 10 ^ 9 * max |M i c / M j c| |M i 0 / M j 0| →
    M i c / M j c = M i 0 / M j 0

theorem Satisfies.smul {r : Fin (n + 1) → ℚ} {x : Fin n → ℚ} (h : Satisfies r x) (q : ℚ) :
    Satisfies (q • r) x := by
  simp only [Satisfies, Pi.smul_apply, smul_eq_mul] at h ⊢
  rw [← h, Finset.mul_sum]
  exact Finset.sum_congr rfl fun j _ => by ring

theorem satisfies_zero (x : Fin n → ℚ) : Satisfies (0 : Fin (n + 1) → ℚ) x := by simp [Satisfies]

/-- C111: the result consists of rows of the system in their order, and none of them is zero. Hence every solution
of the system solves the result, without any assumption. -/
theorem C111_rows (M : Fin m → Fin (n + 1) → ℚ) :
    (removeDependentRows M).Sublist (List.ofFn M) ∧ (∀ r ∈ removeDependentRows M, r ≠ 0) ∧
    ∀ x, (∀ i, Satisfies (M i) x) → ∀ r ∈ removeDependentRows M, Satisfies r x := by
  have hsub : (removeDependentRows M).Sublist (List.ofFn M) := by
    rw [List.ofFn_eq_map]
    unfold removeDependentRows
    have hc := clearRows_cleared (List.finRange m) M
    generalize clearRows (List.finRange m) M = N at hc
    generalize List.finRange m = l
    induction l with
    | nil => simp
    | cons i l ih =>
      rw [List.map_cons, List.map_cons, List.filter_cons]
      split_ifs with h
      · rcases hc i with hi | hi
        · rw [hi]; exact ih.cons_cons _
        · rw [hi] at h; simp at h
      · exact ih.cons _
  refine ⟨hsub, ?_, ?_⟩
  · rintro r hr rfl
    have := (List.mem_filter.mp hr).2
    simp at this
  · intro x hx r hr
    obtain ⟨i, rfl⟩ := List.mem_ofFn.mp (hsub.subset hr)
    exact hx i

/-- C111: if no two quotients of entries are close without being equal, the result has exactly the solutions of the
system. Missing: systems with almost equal quotients (`C111_tolerance_wrong`). -/
theorem C111_same_solutions_partial (M : Fin m → Fin (n + 1) → ℚ) (hM : Apart M) (x : Fin n → ℚ) :
    (∀ r ∈ removeDependentRows M, Satisfies r x) ↔ ∀ i, Satisfies (M i) x := by
  refine ⟨?_, fun h => (C111_rows M).2.2 x h⟩
  intro h
  have key : Cleared M (clearRows (List.finRange m) M) ∧
      ((∀ i, Satisfies (clearRows (List.finRange m) M i) x) → ∀ i, Satisfies (M i) x) := by
    refine clearRows_ind (P := fun N => Cleared M N ∧ ((∀ i, Satisfies (N i) x) → ∀ i, Satisfies (M i) x))
      ?_ _ _ ⟨fun _ => Or.inl rfl, id⟩
    rintro N i j ⟨hc, hs⟩ hij htest
    refine ⟨hc.update j, fun hx => hs fun i' => ?_⟩
    by_cases hi' : i' = j
    · subst hi'
      have hi := hx i
      rw [Function.update_of_ne hij.ne] at hi
      rw [isMultiple_iff] at htest
      rcases htest with ⟨-, h0⟩ | ⟨h1, h2, h3⟩
      · rw [h0]; exact satisfies_zero x
      · have hNi : N i = M i := (hc i).resolve_right fun h => h1 (by rw [h]; rfl)
        have hNj : N i' = M i' := (hc i').resolve_right fun h => h2 (by rw [h]; rfl)
        rw [hNi, hNj] at h3
        rw [hNi] at h1 hi
        rw [hNj] at h2 ⊢
        have : M i' = (M i' 0 / M i 0) • M i := by
          funext c
          simp only [Pi.smul_apply, smul_eq_mul]
          rcases h3 c with ⟨ha, hb⟩ | ⟨ha, hb, hclose⟩
          · rw [ha, hb]; ring
          · have := hM i i' c h1 h2 ha hb (by simpa [mathIsClose] using hclose)
            field_simp at this ⊢
            linarith
        rw [this]
        exact hi.smul _
    · have := hx i'
      rwa [Function.update_of_ne hi'] at this
  refine key.2 fun i => ?_
  by_cases hz : clearRows (List.finRange m) M i = 0
  · rw [hz]; exact satisfies_zero x
  · refine h _ (List.mem_filter.mpr ⟨List.mem_map.mpr ⟨i, List.mem_finRange i, rfl⟩, ?_⟩)
    rw [decide_eq_true_eq]
    by_contra hcon
    push Not at hcon
    exact hz (funext hcon)

/-- Whole numbers up to 30000 have no quotients that are close without being equal. -/
theorem apart_of_int (M : Fin m → Fin (n + 1) → ℚ) (z : Fin m → Fin (n + 1) → ℤ)
    (hz : ∀ i c, M i c = z i c) (hb : ∀ i c, |M i c| ≤ 30000) : Apart M := by
  intro i j c h1 h2 h3 h4 hclose
  have hp : ∀ a b : ℚ, |a| ≤ 30000 → |b| ≤ 30000 → |a * b| ≤ 9 * 10 ^ 8 := by
    intro a b ha hb
    rw [abs_mul]
    nlinarith [abs_nonneg a, abs_nonneg b]
  have hpos : 0 < |M j c * M j 0| := abs_pos.mpr (mul_ne_zero h4 h2)
  have e1 : M i c / M j c = (M i c * M j 0) / (M j c * M j 0) := by field_simp
  have e2 : M i 0 / M j 0 = (M i 0 * M j c) / (M j c * M j 0) := by field_simp
  rw [e1, e2, ← sub_div, abs_div, abs_div, abs_div, max_div_div_right hpos.le, ← mul_div_assoc,
    div_le_div_iff_of_pos_right hpos] at hclose
  rw [e1, e2]
  have hlt : |M i c * M j 0 - M i 0 * M j c| < 1 := by
    refine lt_of_le_of_lt hclose ?_
    have := max_le (hp _ _ (hb i c) (hb j 0)) (hp _ _ (hb i 0) (hb j c))
    calc 1 / 10 ^ 9 * max |M i c * M j 0| |M i 0 * M j c| ≤ 1 / 10 ^ 9 * (9 * 10 ^ 8) := by gcongr
      _ < 1 := by norm_num
  have hint : M i c * M j 0 - M i 0 * M j c = ((z i c * z j 0 - z i 0 * z j c : ℤ) : ℚ) := by
    rw [hz, hz, hz, hz]; push_cast; ring
  rw [hint, ← Int.cast_abs] at hlt
  have h0 : |z i c * z j 0 - z i 0 * z j c| < 1 := by exact_mod_cast hlt
  rw [Int.abs_lt_one_iff] at h0
  rw [h0] at hint
  have : M i c * M j 0 = M i 0 * M j c := by
    have : M i c * M j 0 - M i 0 * M j c = 0 := by rw [hint]; norm_num
    linarith
  rw [this]

/-- C111: a system of whole numbers up to 30000 keeps exactly its solutions. -/
theorem C111_integer_partial (M : Fin m → Fin (n + 1) → ℚ) (z : Fin m → Fin (n + 1) → ℤ)
    (hz : ∀ i c, M i c = z i c) (hb : ∀ i c, |M i c| ≤ 30000) (x : Fin n → ℚ) :
    (∀ r ∈ removeDependentRows M, Satisfies r x) ↔ ∀ i, Satisfies (M i) x :=
  C111_same_solutions_partial M (apart_of_int M z hz hb) x

/-- C111: of two rows of the result the later is no multiple of the earlier one, if that has a nonzero first entry.
Missing: rows that begin with zero (`C111_leading_zero_wrong`) and dependences of three or more rows
(`C111_three_rows_wrong`). -/
theorem C111_no_multiple_partial (M : Fin m → Fin (n + 1) → ℚ) :
    (removeDependentRows M).Pairwise fun u v => u 0 ≠ 0 → ∀ q : ℚ, v ≠ q • u := by
  unfold removeDependentRows
  rw [List.pairwise_filter, List.pairwise_map]
  refine (List.pairwise_lt_finRange m).imp ?_
  intro i j hij hi hj hu q hq
  have hd := clearRows_done (List.finRange m) M i (List.mem_finRange i) j hij
  generalize clearRows (List.finRange m) M = N at *
  simp only [decide_eq_true_eq] at hi hj
  rcases hd with h | h | h
  · rw [h] at hi; simp at hi
  · rw [h] at hj; simp at hj
  · have hq0 : q ≠ 0 := by
      rintro rfl
      rw [hq] at hj; simp at hj
    have : isMultiple (N i) (N j) (List.finRange (n + 1)) 0 = true := by
      rw [isMultiple_iff]
      right
      have hv : ∀ c, N j c = q * N i c := fun c => by rw [hq]; rfl
      refine ⟨hu, by rw [hv]; exact mul_ne_zero hq0 hu, fun c => ?_⟩
      by_cases hc : N i c = 0
      · left; exact ⟨hc, by rw [hv, hc, mul_zero]⟩
      · right
        refine ⟨hc, by rw [hv]; exact mul_ne_zero hq0 hc, ?_⟩
        have : N i c / N j c = N i 0 / N j 0 := by
          rw [hv c, hv 0]; field_simp
        rw [this]
        exact mathIsClose_self _
    rw [this] at h
    exact absurd h (by simp)

/-- C111 is false: a nonzero row that begins with zero is never removed, however many copies of it there are. -/
theorem C111_leading_zero_wrong (M : Fin m → Fin (n + 1) → ℚ) (hM : ∀ i, M i 0 = 0) (hz : ∀ i, M i ≠ 0) :
    removeDependentRows M = List.ofFn M := by
  have key : clearRows (List.finRange m) M = M := by
    refine clearRows_ind (P := fun N => N = M) ?_ _ _ rfl
    rintro N i j rfl - htest
    rw [isMultiple_iff] at htest
    rcases htest with ⟨h, -⟩ | ⟨h, -⟩
    · exact absurd h (hz i)
    · exact absurd (hM i) h
  unfold removeDependentRows
  rw [key, List.ofFn_eq_map, List.filter_eq_self]
  intro r hr
  obtain ⟨i, -, rfl⟩ := List.mem_map.mp hr
  rw [decide_eq_true_eq]
  by_contra hcon
  push Not at hcon
  exact hz i (funext hcon)

/-- Twice the equation `x₂ = 1`. -/
def twiceRow : Fin 2 → Fin 3 → ℚ := fun _ => ![0, 1, 1]

example : removeDependentRows twiceRow = [![0, 1, 1], ![0, 1, 1]] :=
  C111_leading_zero_wrong twiceRow (fun _ => rfl) fun _ h => by have := congrFun h 1; simp [twiceRow] at this

/-- `x₁ = 1`, `x₂ = 1`, `x₁ + x₂ = 2`. -/
def threeRows : Fin 3 → Fin 3 → ℚ := ![![1, 0, 1], ![0, 1, 1], ![1, 1, 2]]

/-- C111 is false: a row that is the sum of two others stays. -/
theorem C111_three_rows_wrong :
    threeRows 2 = threeRows 0 + threeRows 1 ∧ removeDependentRows threeRows = List.ofFn threeRows := by
  decide +kernel

/-- `x₁ + x₂ = 1` and `x₁ + 1.0000000001 x₂ = 1`. -/
def closeRows : Fin 2 → Fin 3 → ℚ := ![![1, 1, 1], ![1, 1 + 1 / 10 ^ 10, 1]]

/-- C111 is false: of two independent equations with almost equal coefficients the second is removed, and with it
the uniqueness of the solution. -/
theorem C111_tolerance_wrong :
    removeDependentRows closeRows = [![1, 1, 1]] ∧
    (∀ x, (∀ i, Satisfies (closeRows i) x) ↔ x = ![1, 0]) ∧
    (∀ r ∈ removeDependentRows closeRows, Satisfies r ![0, 1]) := by
  have h1 : removeDependentRows closeRows = [![1, 1, 1]] := by decide +kernel
  refine ⟨h1, ?_, ?_⟩
  · intro x
    constructor
    · intro h
      have ha := h 0
      have hb := h 1
      simp [Satisfies, closeRows, Fin.sum_univ_two, Fin.last] at ha hb
      have hx1 : x 1 = 0 := by linarith
      have hx0 : x 0 = 1 := by linarith
      funext j
      fin_cases j
      · exact hx0
      · exact hx1
    · rintro rfl i
      fin_cases i <;> simp [Satisfies, closeRows, Fin.sum_univ_two, Fin.last]
  · rw [h1]
    simp [Satisfies, Fin.sum_univ_two, Fin.last]

/-- `x₁ + 2x₂ = 3`, `2x₁ + 4x₂ = 6`, `0 = 0`, `-x₁ - 2x₂ = -3`, `x₁ = 0`. -/
def mixedRows : Fin 5 → Fin 3 → ℚ := ![![1, 2, 3], ![2, 4, 6], ![0, 0, 0], ![-1, -2, -3], ![1, 0, 0]]

/-- The hypotheses of `C111_integer_partial` hold for a system with two rows to remove and a zero row. -/
example : removeDependentRows mixedRows = [![1, 2, 3], ![1, 0, 0]] ∧
    ∀ x, (∀ r ∈ [![1, 2, 3], ![1, 0, 0]], Satisfies r x) ↔ ∀ i, Satisfies (mixedRows i) x := by
  have h : removeDependentRows mixedRows = [![1, 2, 3], ![1, 0, 0]] := by decide +kernel
  refine ⟨h, fun x => ?_⟩
  rw [← h]
  exact C111_integer_partial mixedRows ![![1, 2, 3], ![2, 4, 6], ![0, 0, 0], ![-1, -2, -3], ![1, 0, 0]]
    (by decide +kernel) (by decide +kernel) x

end Props
end Pytimize
