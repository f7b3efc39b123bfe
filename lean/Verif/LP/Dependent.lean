/-
Model of `__remove_dependent_rows` (`_linear.py:1948-2013`), with the invariants of its loops.

The method is private and called by no other method (`_linear.py:1947`: "need integration"). Its parameters
`A`, `b` are the augmented matrix `np.c_[A, b]` here, the last column being `b`; the result is the list of the
rows of the augmented matrix returned. `math.isclose(v, 0)` has no absolute tolerance, so it is `v = 0`.
-/
import Mathlib.Data.Fin.VecNotation
import Mathlib.Data.List.FinRange
import Mathlib.Tactic.FieldSimp
import Mathlib.Tactic.Ring
import Mathlib.Tactic.Linarith
import Verif.Comparator

namespace Pytimize
namespace LinProg
open Comparator

variable {m k : ℕ}

/-- The loop over the columns `_linear.py:1981-1999` for rows `u` (`arr[i]`) and `v` (`arr[j]`), with the variable
`multiple`: the value of `duplicate` at its end. -/
def isMultiple (u v : Fin k → ℚ) : List (Fin k) → ℚ → Bool
  | [], _ => true
  | col :: cols, multiple =>
    if u col = 0 then
      if v col = 0 then isMultiple u v cols multiple else false
    else if v col = 0 then false
    else if (col : ℕ) = 0 then isMultiple u v cols (u col / v col)
    else if mathIsClose (u col / v col) multiple then isMultiple u v cols multiple
    else false

/-- The inner loop `_linear.py:1974-2003` over the remaining values of `j`. -/
def clearBelow (i : Fin m) : List (Fin m) → (Fin m → Fin k → ℚ) → Fin m → Fin k → ℚ
  | [], M => M
  | j :: js, M =>
    if j ≤ i then clearBelow i js M
    else if isMultiple (M i) (M j) (List.finRange k) 0 then clearBelow i js (Function.update M j 0)
    else clearBelow i js M

/-- The outer loop `_linear.py:1973-2003` over the remaining values of `i`. -/
def clearRows : List (Fin m) → (Fin m → Fin k → ℚ) → Fin m → Fin k → ℚ
  | [], M => M
  | i :: is, M => clearRows is (clearBelow i (List.finRange m) M)

/-- `__remove_dependent_rows`, `_linear.py:1948-2013`: the rows of the augmented matrix that is split into the
returned `A` and `b`. The rows are deleted from the last to the first (`_linear.py:2005-2009`), so that no
deletion moves a row still to be looked at. -/
def removeDependentRows (M : Fin m → Fin k → ℚ) : List (Fin k → ℚ) :=
  ((List.finRange m).map (clearRows (List.finRange m) M)).filter fun r => decide (∃ c, r c ≠ 0)

/-! ### The test for a multiple -/

theorem mathIsClose_self (v : ℚ) : mathIsClose v v = true := by
  simp [mathIsClose]

theorem mathIsClose_zero {v : ℚ} : mathIsClose v 0 = true ↔ v = 0 := by
  simp only [mathIsClose, decide_eq_true_eq, sub_zero, abs_zero]
  rw [max_eq_left (abs_nonneg v)]
  constructor
  · intro h
    have h0 := abs_nonneg v
    have : |v| = 0 := by linarith
    exact abs_eq_zero.mp this
  · rintro rfl
    simp

/-- What the loop over columns other than the first has found out if it ends with `duplicate`. -/
theorem isMultiple_tail {u v : Fin k → ℚ} {q : ℚ} : ∀ {cols : List (Fin k)}, (∀ c ∈ cols, (c : ℕ) ≠ 0) →
    (isMultiple u v cols q = true ↔
      ∀ c ∈ cols, (u c = 0 ∧ v c = 0) ∨ (u c ≠ 0 ∧ v c ≠ 0 ∧ mathIsClose (u c / v c) q = true))
  | [], _ => by simp [isMultiple]
  | c :: cols, h => by
    have ih := isMultiple_tail (u := u) (v := v) (q := q) (cols := cols) fun c' hc' => h c' (by simp [hc'])
    have h0 := h c (by simp)
    rw [isMultiple, List.forall_mem_cons]
    by_cases hu : u c = 0 <;> by_cases hv : v c = 0 <;> simp [hu, hv, h0, ih]

/-- The test on all columns, in closed form. -/
theorem isMultiple_iff {u v : Fin (k + 1) → ℚ} : isMultiple u v (List.finRange (k + 1)) 0 = true ↔
    (u = 0 ∧ v = 0) ∨ (u 0 ≠ 0 ∧ v 0 ≠ 0 ∧ ∀ c, (u c = 0 ∧ v c = 0) ∨
      (u c ≠ 0 ∧ v c ≠ 0 ∧ mathIsClose (u c / v c) (u 0 / v 0) = true)) := by
  have hcols : ∀ c ∈ (List.finRange k).map Fin.succ, (c : ℕ) ≠ 0 := by
    intro c hc
    obtain ⟨d, -, rfl⟩ := List.mem_map.mp hc
    simp
  rw [List.finRange_succ, isMultiple]
  by_cases hu : u 0 = 0
  · by_cases hv : v 0 = 0
    · rw [if_pos hu, if_pos hv, isMultiple_tail hcols]
      constructor
      · intro h
        left
        have key : ∀ c, u c = 0 ∧ v c = 0 := by
          intro c
          refine Fin.cases ⟨hu, hv⟩ (fun d => ?_) c
          rcases h d.succ (by simp) with h | ⟨h1, h2, h3⟩
          · exact h
          · rw [mathIsClose_zero] at h3
            exact absurd h3 (div_ne_zero h1 h2)
        exact ⟨funext fun c => (key c).1, funext fun c => (key c).2⟩
      · rintro (⟨rfl, rfl⟩ | ⟨h, -⟩)
        · intro c _; left; simp
        · exact absurd hu h
    · rw [if_pos hu, if_neg hv]
      constructor
      · intro h; simp at h
      · rintro (⟨rfl, rfl⟩ | ⟨h, -⟩)
        · simp at hv
        · exact absurd hu h
  · by_cases hv : v 0 = 0
    · rw [if_neg hu, if_pos hv]
      constructor
      · intro h; simp at h
      · rintro (⟨rfl, rfl⟩ | ⟨-, h, -⟩)
        · simp at hu
        · exact absurd hv h
    · rw [if_neg hu, if_neg hv, if_pos (by simp), isMultiple_tail hcols]
      constructor
      · intro h
        right
        refine ⟨hu, hv, fun c => Fin.cases (Or.inr ⟨hu, hv, mathIsClose_self _⟩) (fun d => ?_) c⟩
        exact h d.succ (by simp)
      · rintro (⟨rfl, rfl⟩ | ⟨-, -, h⟩)
        · simp at hu
        · intro c _; exact h c

/-! ### The loops -/

theorem clearBelow_ind {P : (Fin m → Fin k → ℚ) → Prop} {i : Fin m}
    (step : ∀ M j, P M → i < j → isMultiple (M i) (M j) (List.finRange k) 0 = true → P (Function.update M j 0)) :
    ∀ (js : List (Fin m)) (M : Fin m → Fin k → ℚ), P M → P (clearBelow i js M)
  | [], _, h => h
  | j :: js, M, h => by
    rw [clearBelow]
    split_ifs with h1 h2
    · exact clearBelow_ind step js M h
    · exact clearBelow_ind step js _ (step M j h (not_le.mp h1) h2)
    · exact clearBelow_ind step js M h

theorem clearRows_ind {P : (Fin m → Fin k → ℚ) → Prop}
    (step : ∀ M i j, P M → i < j → isMultiple (M i) (M j) (List.finRange k) 0 = true →
      P (Function.update M j 0)) :
    ∀ (is : List (Fin m)) (M : Fin m → Fin k → ℚ), P M → P (clearRows is M)
  | [], _, h => h
  | i :: is, M, h => clearRows_ind step is _ (clearBelow_ind (fun M j => step M i j) _ M h)

/-- Every row is the original one or zero. -/
def Cleared (M N : Fin m → Fin k → ℚ) : Prop := ∀ i, N i = M i ∨ N i = 0

theorem Cleared.update {M N : Fin m → Fin k → ℚ} (h : Cleared M N) (j : Fin m) :
    Cleared M (Function.update N j 0) := by
  intro i
  by_cases hij : i = j
  · subst hij; right; simp
  · rw [Function.update_of_ne hij]; exact h i

theorem Cleared.trans {M N K : Fin m → Fin k → ℚ} (h : Cleared M N) (h' : Cleared N K) :
    Cleared M K := by
  intro i
  rcases h' i with h2 | h2
  · rw [h2]; exact h i
  · exact Or.inr h2

theorem clearBelow_cleared (i : Fin m) (js : List (Fin m)) (M : Fin m → Fin k → ℚ) :
    Cleared M (clearBelow i js M) :=
  clearBelow_ind (P := Cleared M) (fun _ j h _ _ => h.update j) js M fun _ => Or.inl rfl

theorem clearRows_cleared (is : List (Fin m)) (M : Fin m → Fin k → ℚ) : Cleared M (clearRows is M) :=
  clearRows_ind (P := Cleared M) (fun _ _ j h _ _ => h.update j) is M fun _ => Or.inl rfl

theorem clearBelow_row {i : Fin m} (js : List (Fin m)) (M : Fin m → Fin k → ℚ) :
    clearBelow i js M i = M i :=
  clearBelow_ind (P := fun N => N i = M i)
    (fun N j h hij _ => by rw [Function.update_of_ne hij.ne]; exact h) js M rfl

/-- After the inner loop no row looked at and left nonzero passes the test. -/
theorem clearBelow_done {i : Fin m} : ∀ (js : List (Fin m)) (M : Fin m → Fin k → ℚ),
    ∀ j ∈ js, i < j → clearBelow i js M j = 0 ∨
      isMultiple (M i) (clearBelow i js M j) (List.finRange k) 0 = false
  | [], _, j, hj, _ => by simp at hj
  | a :: js, M, j, hj, hij => by
    rw [clearBelow]
    rcases List.mem_cons.mp hj with rfl | hj
    · rw [if_neg (not_le.mpr hij)]
      split_ifs with h2
      · left
        rcases clearBelow_cleared i js (Function.update M j 0) j with h | h
        · rw [h]; simp
        · exact h
      · rcases clearBelow_cleared i js M j with h | h
        · right; rw [h]; simpa using h2
        · exact Or.inl h
    · split_ifs with h1 h2
      · exact clearBelow_done js M j hj hij
      · have h := clearBelow_done js (Function.update M a 0) j hj hij
        rwa [Function.update_of_ne (not_le.mp h1).ne] at h
      · exact clearBelow_done js M j hj hij

/-- After the loops no two rows left nonzero pass the test. -/
theorem clearRows_done : ∀ (is : List (Fin m)) (M : Fin m → Fin k → ℚ),
    ∀ i ∈ is, ∀ j, i < j → clearRows is M i = 0 ∨ clearRows is M j = 0 ∨
      isMultiple (clearRows is M i) (clearRows is M j) (List.finRange k) 0 = false
  | [], _, i, hi, _, _ => by simp at hi
  | a :: is, M, i, hi, j, hij => by
    rw [clearRows]
    rcases List.mem_cons.mp hi with rfl | hi
    · have hd := clearBelow_done (List.finRange m) M j (List.mem_finRange j) hij
      have hc := clearRows_cleared is (clearBelow i (List.finRange m) M)
      rcases hc i with hi' | hi'
      · rcases hc j with hj' | hj'
        · rw [hi', hj', clearBelow_row]
          exact Or.inr hd
        · exact Or.inr (Or.inl hj')
      · exact Or.inl hi'
    · exact clearRows_done is _ i hi j hij

end LinProg
end Pytimize
