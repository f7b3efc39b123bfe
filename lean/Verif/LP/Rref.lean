/-
Model of `to_rref` (`_linear.py:1895-1945`) and `__is_in_rref` (`_linear.py:1849-1892`), with the loop
invariant of the elimination.

`math.isclose(v, 0)` has no absolute tolerance, so it is `v = 0`. The comparisons of loop indices by
`math.isclose` are modelled as equality, which they are below `10^9`.
-/
import Mathlib.LinearAlgebra.Matrix.Permutation
import Mathlib.LinearAlgebra.Matrix.NonsingularInverse
import Mathlib.Data.Fin.VecNotation
import Mathlib.Tactic.FieldSimp
import Mathlib.Tactic.Ring
import Mathlib.Tactic.Linarith
import Verif.Comparator

namespace Pytimize
namespace LinProg
open Comparator

variable {m n : ℕ}

/-- `arr[[r, s]] = arr[[s, r]]`, `_linear.py:1923`. -/
def swapRows (M : Matrix (Fin m) (Fin n) ℚ) (r s : Fin m) : Matrix (Fin m) (Fin n) ℚ :=
  M.submatrix (Equiv.swap r s) id

/-- `arr[row, :] /= num`, `_linear.py:1931-1932`. -/
def divideRow (M : Matrix (Fin m) (Fin n) ℚ) (row : Fin m) (col : Fin n) : Matrix (Fin m) (Fin n) ℚ :=
  fun i j => if i = row then M i j / M row col else M i j

/-- The elimination loop `_linear.py:1935-1938`; each round changes row `i` only and reads row `row`, which
no round changes. -/
def eliminate (M : Matrix (Fin m) (Fin n) ℚ) (row : Fin m) (col : Fin n) : Matrix (Fin m) (Fin n) ℚ :=
  fun i j => if i = row then M i j else M i j - M row j * (M i col / M row col)

/-- The `while` loop `_linear.py:1912-1925` with its variables `col` and `i`; the result is the array and
`col` when the loop is left. -/
def seek (row : Fin m) : ℕ → Matrix (Fin m) (Fin n) ℚ → (col i : ℕ) →
    Except PyErr (Matrix (Fin m) (Fin n) ℚ × ℕ)
  | 0, _, _, _ => .error .notTerminated
  | fuel + 1, M, col, i =>
    if h : col < n then
      if M row ⟨col, h⟩ ≠ 0 then .ok (M, col)
      else if h2 : (row : ℕ) + i < m then
        if M ⟨row + i, h2⟩ ⟨col, h⟩ ≠ 0 then .ok (swapRows M row ⟨row + i, h2⟩, col)
        else seek row fuel M col (i + 1)
      else if col + 1 = n then .ok (M, col + 1)
      else seek row fuel M (col + 1) 0
    else .error .indexError

/-- The main loop of `to_rref`, `_linear.py:1908-1943`, over the remaining rows. -/
def rrefLoop (fuel : ℕ) : List (Fin m) → Matrix (Fin m) (Fin n) ℚ → ℕ →
    Except PyErr (Matrix (Fin m) (Fin n) ℚ)
  | [], M, _ => .ok M
  | row :: rows, M, col =>
    if h : col < n then
      if mathIsClose (M row ⟨col, h⟩) 1 then
        let M' := eliminate M row ⟨col, h⟩
        if col + 1 = n then .ok M' else rrefLoop fuel rows M' (col + 1)
      else
        match seek row fuel M col 0 with
        | .error e => .error e
        | .ok (M', col') =>
          if h' : col' < n then
            let M'' := eliminate (divideRow M' row ⟨col', h'⟩) row ⟨col', h'⟩
            if col' + 1 = n then .ok M'' else rrefLoop fuel rows M'' (col' + 1)
          else .ok M'
    else .error .indexError

/-- `to_rref`, `_linear.py:1895-1945`; `fuel` bounds the rounds of each `while` loop. -/
def toRref (fuel : ℕ) (M : Matrix (Fin m) (Fin n) ℚ) : Except PyErr (Matrix (Fin m) (Fin n) ℚ) :=
  rrefLoop fuel (List.finRange m) M 0

/-- One row of `__is_in_rref`, `_linear.py:1866-1890`: `none` for `return False`, else the new value of
`has_zero_row`. -/
def rrefRow (M : Matrix (Fin m) (Fin n) ℚ) (row : Fin m) (hasZero : Bool) : List (Fin n) → Option Bool
  | [] => some true
  | col :: cols =>
    if M row col = 0 then rrefRow M row hasZero cols
    else if hasZero then none
    else if mathIsClose (M row col) 1 then
      if (List.finRange m).any fun r => !decide (r = row) && !decide (M r col = 0) then none
      else some hasZero
    else none

/-- The loop over the rows of `__is_in_rref`. -/
def rrefRows (M : Matrix (Fin m) (Fin n) ℚ) : List (Fin m) → Bool → Bool
  | [], _ => true
  | row :: rows, hasZero =>
    match rrefRow M row hasZero (List.finRange n) with
    | none => false
    | some hz => rrefRows M rows hz

/-- `__is_in_rref`, `_linear.py:1849-1892`. -/
def isInRref (M : Matrix (Fin m) (Fin n) ℚ) : Bool := rrefRows M (List.finRange m) false

/-! ### Row equivalence -/

/-- `N` arises from `M` by multiplication with an invertible matrix. -/
def RowEquiv (M N : Matrix (Fin m) (Fin n) ℚ) : Prop :=
  ∃ E F : Matrix (Fin m) (Fin m) ℚ, F * E = 1 ∧ N = E * M

theorem RowEquiv.refl (M : Matrix (Fin m) (Fin n) ℚ) : RowEquiv M M := ⟨1, 1, by simp, by simp⟩

theorem RowEquiv.trans {M N K : Matrix (Fin m) (Fin n) ℚ} (h : RowEquiv M N) (h' : RowEquiv N K) :
    RowEquiv M K := by
  obtain ⟨E, F, h1, h2⟩ := h
  obtain ⟨E', F', h3, h4⟩ := h'
  refine ⟨E' * E, F * F', ?_, by rw [h4, h2, Matrix.mul_assoc]⟩
  rw [Matrix.mul_assoc, ← Matrix.mul_assoc F', h3, Matrix.one_mul, h1]

theorem swapRows_equiv (M : Matrix (Fin m) (Fin n) ℚ) (r s : Fin m) : RowEquiv M (swapRows M r s) := by
  have h : ∀ (q : ℕ) (K : Matrix (Fin m) (Fin q) ℚ),
      swapRows K r s = swapRows (1 : Matrix (Fin m) (Fin m) ℚ) r s * K := by
    intro q K
    ext i j
    simp [swapRows, Matrix.mul_apply, Matrix.one_apply]
  refine ⟨swapRows 1 r s, swapRows 1 r s, ?_, h n M⟩
  rw [← h]
  ext i j
  have e : Equiv.swap r s (Equiv.swap r s i) = i := Equiv.swap_apply_self r s i
  exact congrFun (congrArg (1 : Matrix (Fin m) (Fin m) ℚ) e) j

theorem divideRow_equiv (M : Matrix (Fin m) (Fin n) ℚ) (row : Fin m) (col : Fin n) (h : M row col ≠ 0) :
    RowEquiv M (divideRow M row col) := by
  refine ⟨Matrix.diagonal fun i => if i = row then (M row col)⁻¹ else 1,
    Matrix.diagonal fun i => if i = row then M row col else 1, ?_, ?_⟩
  · rw [Matrix.diagonal_mul_diagonal, ← Matrix.diagonal_one]
    congr 1
    funext i
    split
    · exact mul_inv_cancel₀ h
    · simp
  · ext i j
    rw [Matrix.diagonal_mul]
    unfold divideRow
    split
    · rw [div_eq_inv_mul]
    · rw [one_mul]

theorem eliminate_equiv (M : Matrix (Fin m) (Fin n) ℚ) (row : Fin m) (col : Fin n) :
    RowEquiv M (eliminate M row col) := by
  let c : Fin m → ℚ := fun i => if i = row then 0 else M i col / M row col
  let e : Fin m → ℚ := Pi.single row 1
  have hec : Matrix.vecMulVec c e * Matrix.vecMulVec c e = 0 := by
    ext i j
    rw [Matrix.mul_apply, Matrix.zero_apply]
    refine Finset.sum_eq_zero fun k _ => ?_
    simp only [Matrix.vecMulVec_apply, c, e, Pi.single_apply]
    by_cases hk : k = row <;> simp [hk]
  refine ⟨1 - Matrix.vecMulVec c e, 1 + Matrix.vecMulVec c e, ?_, ?_⟩
  · rw [Matrix.mul_sub, Matrix.mul_one, Matrix.add_mul, Matrix.one_mul, hec, add_zero, add_sub_cancel_right]
  · ext i j
    rw [Matrix.sub_mul, Matrix.one_mul, Matrix.sub_apply]
    have : (Matrix.vecMulVec c e * M) i j = c i * M row j := by
      simp [Matrix.mul_apply, Matrix.vecMulVec_apply, e, Pi.single_apply]
    rw [this]
    simp only [eliminate, c]
    split
    · ring
    · ring

/-! ### The loop invariant -/

/-- The rows above `r` are reduced with pivot columns `p`, and from row `r` on everything left of column
`c` is zero. -/
structure Inv (M : Matrix (Fin m) (Fin n) ℚ) (r c : ℕ) (p : ℕ → ℕ) : Prop where
  lt : ∀ i < r, p i < c
  mono : ∀ i k, i < k → k < r → p i < p k
  left : ∀ i : Fin m, (i : ℕ) < r → ∀ j : Fin n, (j : ℕ) < p i → M i j = 0
  one : ∀ i : Fin m, (i : ℕ) < r → ∀ j : Fin n, (j : ℕ) = p i → mathIsClose (M i j) 1 = true
  col : ∀ i : Fin m, (i : ℕ) < r → ∀ j : Fin n, (j : ℕ) = p i → ∀ k, k ≠ i → M k j = 0
  rest : ∀ k : Fin m, r ≤ (k : ℕ) → ∀ j : Fin n, (j : ℕ) < c → M k j = 0

theorem mathIsClose_one_self : mathIsClose 1 1 = true := by
  simp [mathIsClose]

theorem ne_zero_of_close {v : ℚ} (h : mathIsClose v 1 = true) : v ≠ 0 := by
  rintro rfl
  revert h
  simp only [mathIsClose, decide_eq_true_eq]
  norm_num

/-- One more column is zero from row `r` on. -/
theorem Inv.skip {M : Matrix (Fin m) (Fin n) ℚ} {r c : ℕ} {p : ℕ → ℕ} (h : Inv M r c p)
    (hz : ∀ k : Fin m, r ≤ (k : ℕ) → ∀ j : Fin n, (j : ℕ) = c → M k j = 0) : Inv M r (c + 1) p where
  lt i hi := Nat.lt_succ_of_lt (h.lt i hi)
  mono := h.mono
  left := h.left
  one := h.one
  col := h.col
  rest k hk j hj := by
    rcases Nat.lt_succ_iff_lt_or_eq.mp hj with hj | hj
    · exact h.rest k hk j hj
    · exact hz k hk j hj

theorem Inv.swap {M : Matrix (Fin m) (Fin n) ℚ} {c : ℕ} {p : ℕ → ℕ} {row s : Fin m}
    (h : Inv M row c p) (hs : row ≤ s) : Inv (swapRows M row s) row c p := by
  have keep : ∀ i : Fin m, (i : ℕ) < row → Equiv.swap row s i = i := by
    intro i hi
    refine Equiv.swap_apply_of_ne_of_ne ?_ ?_
    · rintro rfl; exact lt_irrefl _ hi
    · rintro rfl; exact absurd hi (not_lt.mpr hs)
  have stay : ∀ k : Fin m, (row : ℕ) ≤ k → (row : ℕ) ≤ (Equiv.swap row s k : Fin m) := by
    intro k hk
    rw [Equiv.swap_apply_def]
    split_ifs
    · exact hs
    · exact le_refl _
    · exact hk
  refine ⟨h.lt, h.mono, ?_, ?_, ?_, ?_⟩
  · intro i hi j hj
    simp only [swapRows, Matrix.submatrix_apply, keep i hi, id]
    exact h.left i hi j hj
  · intro i hi j hj
    simp only [swapRows, Matrix.submatrix_apply, keep i hi, id]
    exact h.one i hi j hj
  · intro i hi j hj k hk
    simp only [swapRows, Matrix.submatrix_apply, id]
    refine h.col i hi j hj _ fun e => hk ?_
    have := congrArg (Equiv.swap row s) e
    rw [Equiv.swap_apply_self, keep i hi] at this
    exact this
  · intro k hk j hj
    simp only [swapRows, Matrix.submatrix_apply, id]
    exact h.rest _ (stay k hk) j hj

theorem seek_spec {row : Fin m} {p : ℕ → ℕ} (fuel : ℕ) : ∀ (M : Matrix (Fin m) (Fin n) ℚ) (col i : ℕ),
    Inv M row col p → col < n → (row : ℕ) + i ≤ m →
    (∀ k : Fin m, (row : ℕ) ≤ k → (k : ℕ) < row + i → ∀ j : Fin n, (j : ℕ) = col → M k j = 0) →
    (n - col) * (m + 2) < fuel + i →
    ∃ M' col', seek row fuel M col i = .ok (M', col') ∧ RowEquiv M M' ∧ Inv M' row col' p ∧ col' ≤ n ∧
      ∀ h : col' < n, M' row ⟨col', h⟩ ≠ 0 := by
  induction fuel with
  | zero =>
    intro M col i hI hc hi _ hf
    exfalso
    have : 1 * (m + 2) ≤ (n - col) * (m + 2) := Nat.mul_le_mul_right _ (by omega)
    omega
  | succ fuel ih =>
    intro M col i hI hc hi hz hf
    simp only [seek, dif_pos hc]
    by_cases h0 : M row ⟨col, hc⟩ ≠ 0
    · rw [if_pos h0]
      exact ⟨M, col, rfl, RowEquiv.refl M, hI, hc.le, fun _ => h0⟩
    · rw [if_neg h0]
      by_cases h2 : (row : ℕ) + i < m
      · rw [dif_pos h2]
        by_cases h3 : M ⟨row + i, h2⟩ ⟨col, hc⟩ ≠ 0
        · rw [if_pos h3]
          refine ⟨_, col, rfl, swapRows_equiv _ _ _, hI.swap ?_, hc.le, fun _ => ?_⟩
          · rw [Fin.le_def]; simp
          · simpa [swapRows] using h3
        · rw [if_neg h3]
          refine ih M col (i + 1) hI hc (by omega) ?_ (by omega)
          intro k hk hk' j hj
          by_cases hki : (k : ℕ) < row + i
          · exact hz k hk hki j hj
          · have e1 : k = ⟨row + i, h2⟩ := Fin.ext (by simp only; omega)
            have e2 : j = ⟨col, hc⟩ := Fin.ext hj
            rw [e1, e2]
            exact not_not.mp h3
      · rw [dif_neg h2]
        have hI' : Inv M row (col + 1) p := hI.skip fun k hk j hj => hz k hk (by omega) j hj
        by_cases h4 : col + 1 = n
        · rw [if_pos h4]
          exact ⟨M, col + 1, rfl, RowEquiv.refl M, hI', h4.le, fun h => absurd h (by omega)⟩
        · rw [if_neg h4]
          refine ih M (col + 1) 0 hI' (by omega) (by have := row.2; omega) ?_ ?_
          · intro k hk hk' j hj; omega
          · have e : n - col = (n - (col + 1)) + 1 := by omega
            rw [e, Nat.succ_mul] at hf
            omega

/-- A matrix that agrees with `M` left of column `c` and in row `row`, and has nothing else in column `c`, has one more
row reduced. -/
theorem Inv.cleared {M N : Matrix (Fin m) (Fin n) ℚ} {c : Fin n} {p : ℕ → ℕ} {row : Fin m}
    (h : Inv M row c p) (h1 : mathIsClose (M row c) 1 = true)
    (same : ∀ i : Fin m, ∀ j : Fin n, (j : ℕ) < c → N i j = M i j) (clr : ∀ k : Fin m, k ≠ row → N k c = 0)
    (selfr : ∀ j, N row j = M row j) :
    Inv N ((row : ℕ) + 1) ((c : ℕ) + 1) (Function.update p row c) := by
  have hp : ∀ i : ℕ, i < row → Function.update p (row : ℕ) (c : ℕ) i = p i := fun i hi =>
    Function.update_of_ne (ne_of_lt hi) _ _
  refine ⟨?_, ?_, ?_, ?_, ?_, ?_⟩
  · intro i hi
    rcases Nat.lt_succ_iff_lt_or_eq.mp hi with hi | rfl
    · rw [hp i hi]; exact Nat.lt_succ_of_lt (h.lt i hi)
    · rw [Function.update_self]; exact Nat.lt_succ_self _
  · intro i k hik hk
    rcases Nat.lt_succ_iff_lt_or_eq.mp hk with hk | rfl
    · rw [hp k hk, hp i (hik.trans hk)]; exact h.mono i k hik hk
    · rw [Function.update_self, hp i hik]; exact h.lt i hik
  · intro i hi j hj
    rcases Nat.lt_succ_iff_lt_or_eq.mp hi with hi | hi
    · rw [hp i hi] at hj
      rw [same i j (hj.trans (h.lt i hi))]
      exact h.left i hi j hj
    · rw [hi, Function.update_self] at hj
      rw [same i j hj]
      exact h.rest i hi.ge j hj
  · intro i hi j hj
    rcases Nat.lt_succ_iff_lt_or_eq.mp hi with hi | hi
    · rw [hp i hi] at hj
      rw [same i j (by rw [hj]; exact h.lt i hi)]
      exact h.one i hi j hj
    · rw [hi, Function.update_self] at hj
      have e1 : i = row := Fin.ext hi
      have e2 : j = c := Fin.ext hj
      rw [e1, e2, selfr]
      exact h1
  · intro i hi j hj k hk
    rcases Nat.lt_succ_iff_lt_or_eq.mp hi with hi | hi
    · rw [hp i hi] at hj
      rw [same k j (by rw [hj]; exact h.lt i hi)]
      exact h.col i hi j hj k hk
    · rw [hi, Function.update_self] at hj
      have e1 : i = row := Fin.ext hi
      have e2 : j = c := Fin.ext hj
      rw [e2]
      exact clr k (by rw [← e1]; exact hk)
  · intro k hk j hj
    rcases Nat.lt_succ_iff_lt_or_eq.mp hj with hj | hj
    · rw [same k j hj]
      exact h.rest k (by omega) j hj
    · have e2 : j = c := Fin.ext hj
      rw [e2]
      exact clr k fun e => by rw [e] at hk; omega

/-- Eliminating with a pivot close to one in column `c` reduces one more row. -/
theorem Inv.eliminate {M : Matrix (Fin m) (Fin n) ℚ} {c : Fin n} {p : ℕ → ℕ} {row : Fin m}
    (h : Inv M row c p) (h1 : mathIsClose (M row c) 1 = true) :
    Inv (eliminate M row c) ((row : ℕ) + 1) ((c : ℕ) + 1) (Function.update p row c) := by
  refine h.cleared h1 ?_ ?_ fun j => if_pos rfl
  · intro i j hj
    unfold LinProg.eliminate
    split
    · rfl
    · rw [h.rest row (le_refl _) j hj]; ring
  · intro k hk
    unfold LinProg.eliminate
    rw [if_neg hk, mul_div_cancel₀ _ (ne_zero_of_close h1), sub_self]

/-- Changing row `row` only, and no zero of it, keeps the rows above reduced. -/
theorem Inv.scaled {M N : Matrix (Fin m) (Fin n) ℚ} {c : ℕ} {p : ℕ → ℕ} {row : Fin m} (h : Inv M row c p)
    (other : ∀ i : Fin m, i ≠ row → ∀ j, N i j = M i j) (zero : ∀ j, M row j = 0 → N row j = 0) :
    Inv N row c p := by
  have ne : ∀ i : Fin m, (i : ℕ) < row → i ≠ row := fun i hi e => by rw [e] at hi; exact lt_irrefl _ hi
  have all : ∀ i j, M i j = 0 → N i j = 0 := by
    intro i j h0
    by_cases hi : i = row
    · rw [hi] at h0 ⊢; exact zero j h0
    · rw [other i hi, h0]
  refine ⟨h.lt, h.mono, ?_, ?_, ?_, ?_⟩
  · intro i hi j hj
    exact all i j (h.left i hi j hj)
  · intro i hi j hj
    rw [other i (ne i hi)]
    exact h.one i hi j hj
  · intro i hi j hj k hk
    exact all k j (h.col i hi j hj k hk)
  · intro k hk j hj
    exact all k j (h.rest k hk j hj)

theorem Inv.divide {M : Matrix (Fin m) (Fin n) ℚ} {c : Fin n} {p : ℕ → ℕ} {row : Fin m}
    (h : Inv M row c p) : Inv (divideRow M row c) row c p := by
  refine h.scaled (fun i hi j => if_neg hi) fun j h0 => ?_
  unfold divideRow
  rw [if_pos rfl, h0, zero_div]

/-- Columns beyond the last row impose nothing. -/
theorem Inv.finish {M : Matrix (Fin m) (Fin n) ℚ} {c : ℕ} {p : ℕ → ℕ} (h : Inv M m c p) (hc : c ≤ n) :
    Inv M m n p :=
  ⟨fun i hi => (h.lt i hi).trans_le hc, h.mono, h.left, h.one, h.col, fun k hk => absurd k.2 (not_lt.mpr hk)⟩

theorem rrefLoop_spec {fuel : ℕ} (hf : n * (m + 2) < fuel) (rows : List (Fin m)) :
    ∀ (M : Matrix (Fin m) (Fin n) ℚ) (r col : ℕ) (p : ℕ → ℕ), Inv M r col p → col < n → r ≤ m →
    rows = (List.finRange m).drop r →
    ∃ M' r' p', rrefLoop fuel rows M col = .ok M' ∧ RowEquiv M M' ∧ Inv M' r' n p' := by
  induction rows with
  | nil =>
    intro M r col p hI hc hr hrows
    have : r = m := by
      have := congrArg List.length hrows
      simp at this
      omega
    subst this
    exact ⟨M, r, p, rfl, RowEquiv.refl M, hI.finish hc.le⟩
  | cons row rows ih =>
    intro M r col p hI hc hr hrows
    have hlen : r < (List.finRange m).length := by
      by_contra hcon
      rw [List.drop_eq_nil_of_le (not_lt.mp hcon)] at hrows
      cases hrows
    rw [List.drop_eq_getElem_cons hlen] at hrows
    obtain ⟨hrow, hrest⟩ := List.cons.inj hrows
    have hrr : (row : ℕ) = r := by rw [hrow]; simp
    rw [List.length_finRange] at hlen
    subst hrr
    have step : ∀ (N : Matrix (Fin m) (Fin n) ℚ) (c : ℕ) (hc' : c < n), RowEquiv M N →
        Inv N ((row : ℕ) + 1) (c + 1) (Function.update p row c) →
        ∃ M' r' p', (if c + 1 = n then .ok N else rrefLoop fuel rows N (c + 1)) = .ok M' ∧
          RowEquiv M M' ∧ Inv M' r' n p' := by
      intro N c hc' he hN
      by_cases h : c + 1 = n
      · rw [if_pos h]
        exact ⟨N, _, _, rfl, he, h ▸ hN⟩
      · rw [if_neg h]
        obtain ⟨M', r', p', h1, h2, h3⟩ := ih N _ (c + 1) _ hN (by omega) (by omega) hrest
        exact ⟨M', r', p', h1, he.trans h2, h3⟩
    simp only [rrefLoop, dif_pos hc]
    by_cases h1 : mathIsClose (M row ⟨col, hc⟩) 1 = true
    · rw [if_pos h1]
      exact step _ col hc (eliminate_equiv M row ⟨col, hc⟩)
        (Inv.eliminate (c := ⟨col, hc⟩) hI h1)
    · rw [if_neg h1]
      obtain ⟨M', col', hs, he, hI', hle, hnz⟩ := seek_spec fuel M col 0 hI hc (by omega)
        (fun k hk hk' => by omega) (by
          have : (n - col) * (m + 2) ≤ n * (m + 2) := Nat.mul_le_mul_right _ (by omega)
          omega)
      simp only [hs]
      by_cases hc' : col' < n
      · rw [dif_pos hc']
        have hd : Inv (divideRow M' row ⟨col', hc'⟩) row col' p := Inv.divide (c := ⟨col', hc'⟩) hI'
        refine step _ col' hc' (he.trans ((divideRow_equiv M' row _ (hnz hc')).trans
          (eliminate_equiv _ row _))) (Inv.eliminate (c := ⟨col', hc'⟩) hd ?_)
        unfold divideRow
        rw [if_pos rfl, div_self (hnz hc')]
        exact mathIsClose_one_self
      · rw [dif_neg hc']
        have : col' = n := by omega
        subst this
        exact ⟨M', row, p, rfl, he, hI'⟩

theorem toRref_spec {fuel : ℕ} (hf : n * (m + 2) < fuel) (hn : 0 < n) (M : Matrix (Fin m) (Fin n) ℚ) :
    ∃ M' r p, toRref fuel M = .ok M' ∧ RowEquiv M M' ∧ Inv M' r n p :=
  rrefLoop_spec hf (List.finRange m) M 0 0 (fun _ => 0)
    ⟨fun i hi => absurd hi (Nat.not_lt_zero i), fun i k _ hk => absurd hk (Nat.not_lt_zero k),
      fun i hi => absurd hi (Nat.not_lt_zero _), fun i hi => absurd hi (Nat.not_lt_zero _),
      fun i hi => absurd hi (Nat.not_lt_zero _), fun k _ j hj => absurd hj (Nat.not_lt_zero _)⟩
    hn (Nat.zero_le m) rfl

end LinProg
end Pytimize
