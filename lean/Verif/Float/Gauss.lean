/-
`np.linalg.inv` and `np.linalg.det` by Gaussian elimination with partial pivoting, in floating point.

The description covers the variants of LAPACK: whatever the blocking, every entry of the factors is a number of the
matrix minus a sum of products of earlier entries, summed in some order, and possibly divided by a pivot. Libraries that
multiply with inverted blocks of the factors are not covered. The calls are at `_linear.py:655` (`det`), `803`, `1034`,
`1100` and `1706` (`inv`).
-/
import Mathlib.LinearAlgebra.Matrix.Block
import Verif.Float.SimplexIdeal

namespace Pytimize
namespace Floating
open LinProg Matrix

variable {n : ℕ} {R : Rounding}

/-! ### Model -/

/-- `s` is a possible result of `a - sum(p[k] * q[k] for k in S)`. -/
def Reduced (R : Rounding) (a : ℚ) (S : Fin n → Bool) (p q : Fin n → ℚ) (s : ℚ) : Prop :=
  Dots R ((a, 1) :: ((List.finRange n).filter S).map fun k => (-p k, q k)) s

/-- A quotient: by division, or by multiplication with the reciprocal. -/
def Quotient (R : Rounding) (a b q : ℚ) : Prop := q = R.rd (a / b) ∨ q = R.rd (a * R.rd (1 / b))

/-- `getrf`, behind `_linear.py:655, 803, 1034, 1100, 1706`: rows in the order `π`, multipliers `l` below the diagonal,
`u` on and above it; the pivot is largest in its column. -/
structure Factored (R : Rounding) (M : Matrix (Fin n) (Fin n) ℚ) (π : Equiv.Perm (Fin n))
    (l u : Matrix (Fin n) (Fin n) ℚ) : Prop where
  upper : ∀ i j, i ≤ j → Reduced R (M (π i) j) (fun k => decide (k < i)) (l i) (fun k => u k j) (u i j)
  lower : ∀ i j, j < i → ∃ s, Reduced R (M (π i) j) (fun k => decide (k < j)) (l i) (fun k => u k j) s ∧
    |s| ≤ |u j j| ∧ (u j j ≠ 0 → Quotient R s (u j j) (l i j))

/-- The logarithm and the exponential function of the C library. -/
structure Libm where
  log : ℚ → ℚ
  exp : ℚ → ℚ
  log_one : log 1 = 0
  exp_zero : exp 0 = 1

/-- `np.linalg.det`, `_linear.py:655`: the sign of the permutation and of the pivots times the exponential of the sum of
the logarithms of their absolute values; zero if a pivot is zero. -/
def DetVal (C : Libm) (R : Rounding) (M : Matrix (Fin n) (Fin n) ℚ) (d : ℚ) : Prop :=
  ∃ π l u, Factored R M π l u ∧
    (((∃ i, u i i = 0) ∧ d = 0) ∨
      ((∀ i, u i i ≠ 0) ∧
        d = R.rd ((((Equiv.Perm.sign π : ℤ) : ℚ) * ∏ i, if u i i < 0 then -1 else 1) *
          C.exp ((List.finRange n).foldl (fun acc i => R.rd (acc + C.log |u i i|)) 0))))

/-- `np.linalg.inv`, `_linear.py:803, 1034, 1100, 1706`, without an error: the systems with the columns of the identity on
the right-hand side, solved by forward and back substitution (`gesv`). -/
def InvVal (R : Rounding) (M T : Matrix (Fin n) (Fin n) ℚ) : Prop :=
  ∃ π l u, Factored R M π l u ∧ (∀ i, u i i ≠ 0) ∧ ∃ y : Matrix (Fin n) (Fin n) ℚ,
    (∀ i c, Reduced R (if π i = c then 1 else 0) (fun k => decide (k < i)) (l i) (fun k => y k c) (y i c)) ∧
    ∀ i c, ∃ s, Reduced R (y i c) (fun k => decide (i < k)) (u i) (fun k => T k c) s ∧ Quotient R s (u i i) (T i c)

/-- `np.linalg.inv` raises `LinAlgError` if a pivot is zero. -/
def InvFails (R : Rounding) (M : Matrix (Fin n) (Fin n) ℚ) : Prop := ∃ π l u, Factored R M π l u ∧ ∃ i, u i i = 0

/-- The inverses and determinants of `L` are computed by Gaussian elimination with partial pivoting. -/
structure Gaussian (C : Libm) (L : Lapack R) : Prop where
  det : ∀ {k : ℕ} (M : Matrix (Fin k) (Fin k) ℚ), DetVal C R M (L.det M)
  inv : ∀ {k : ℕ} (M : Matrix (Fin k) (Fin k) ℚ),
    (∃ T, L.inv M = .ok T ∧ InvVal R M T) ∨ (L.inv M = .error .linAlgError ∧ InvFails R M)

/-! ### Sums without rounding -/

theorem reduced_int {a : ℚ} {S : Fin n → Bool} {p q : Fin n → ℚ} {s : ℚ} (h : Reduced binary64 a S p q s)
    (hn : n < 2 ^ 53) (ha : IntUpTo 1 a) (hp : ∀ k, S k = true → IntUpTo 1 (p k))
    (hq : ∀ k, S k = true → IntUpTo 1 (q k)) : s = a - ∑ k, if S k = true then p k * q k else 0 := by
  have e1 : ∀ l : List (Fin n), total ((l.filter S).map fun k => (-p k, q k)) =
      -(l.map fun k => if S k = true then p k * q k else 0).sum := by
    intro l
    induction l with
    | nil => simp [total]
    | cons k l ih =>
      by_cases hk : S k = true
      · simp only [total, List.filter_cons_of_pos hk, List.map_cons, List.sum_cons, if_pos hk] at ih ⊢
        rw [ih]; ring
      · simp only [total, List.filter_cons_of_neg hk, List.map_cons, List.sum_cons, if_neg hk] at ih ⊢
        rw [ih]; ring
  have e2 : ∀ l : List (Fin n), size ((l.filter S).map fun k => (-p k, q k)) ≤ l.length := by
    intro l
    induction l with
    | nil => simp [size]
    | cons k l ih =>
      by_cases hk : S k = true
      · simp only [size, List.filter_cons_of_pos hk, List.map_cons, List.sum_cons, List.length_cons] at ih ⊢
        have := ((hp k hk).mul (hq k hk)).abs_le
        rw [neg_mul, abs_neg]
        push_cast at this ⊢
        linarith
      · simp only [List.filter_cons_of_neg hk, List.length_cons] at ih ⊢
        push_cast
        linarith
  have key := h.int (fun x hx => ?_) ?_
  · rw [key.1]
    have : total ((a, 1) :: ((List.finRange n).filter S).map fun k => (-p k, q k)) =
        a * 1 + total (((List.finRange n).filter S).map fun k => (-p k, q k)) := by simp [total]
    rw [this, e1, mul_one, ← List.ofFn_eq_map, List.sum_ofFn]
    ring
  · rcases List.mem_cons.mp hx with rfl | hx
    · obtain ⟨k, hk, -⟩ := ha
      exact ⟨k, 1, by rw [hk]; simp⟩
    · obtain ⟨k, hk, rfl⟩ := List.mem_map.mp hx
      have hS := (List.mem_filter.mp hk).2
      obtain ⟨c, hc, -⟩ := hp k hS
      obtain ⟨d, hd, -⟩ := hq k hS
      exact ⟨-c, d, by rw [hc, hd]; push_cast; rfl⟩
  · have : size ((a, 1) :: ((List.finRange n).filter S).map fun k => (-p k, q k)) =
        |a * 1| + size (((List.finRange n).filter S).map fun k => (-p k, q k)) := by simp [size]
    rw [this, mul_one]
    have h1 := ha.abs_le
    have h2 := e2 (List.finRange n)
    rw [List.length_finRange] at h2
    have h3 : ((n : ℚ)) + 1 ≤ 2 ^ 53 := by exact_mod_cast hn
    push_cast at h1
    linarith

theorem quotient_int {a b q : ℚ} (h : Quotient binary64 a b q) (ha : IntUpTo 1 a) (hb : IntUpTo 1 b) (h0 : b ≠ 0) :
    q = a / b := by
  have h1 := unit_inv hb h0
  have h2 : IntUpTo 1 (a * b⁻¹) := by simpa using ha.mul h1
  rcases h with h | h
  · rw [h, div_eq_mul_inv]
    exact h2.rd_eq (by norm_num)
  · rw [h, one_div, h1.rd_eq (by norm_num), div_eq_mul_inv]
    exact h2.rd_eq (by norm_num)

/-! ### Elimination in exact arithmetic -/

variable {ι κ : Type}

/-- The matrix after the elimination of column `b` with row `a`. -/
def pivotOut (X : Matrix ι κ ℚ) (a : ι) (b : κ) : Matrix ι κ ℚ := fun i j => X i j - X i b / X a b * X a j

theorem det_pivotOut (X : Matrix ι κ ℚ) (a : ι) (b : κ) (hp : X a b ≠ 0) {k : ℕ} (f : Fin k → ι) (g : Fin k → κ) :
    (X.submatrix (Fin.cons a f : Fin (k + 1) → ι) (Fin.cons b g : Fin (k + 1) → κ)).det =
      X a b * ((pivotOut X a b).submatrix f g).det := by
  set N := X.submatrix (Fin.cons a f : Fin (k + 1) → ι) (Fin.cons b g : Fin (k + 1) → κ) with hN
  have h00 : N 0 0 = X a b := rfl
  rw [← det_eq_of_forall_row_eq_smul_add_const
    (A := Matrix.of fun i j => N i j + (if i = 0 then 0 else -(N i 0 / N 0 0)) * N 0 j)
    (fun i => if i = 0 then 0 else -(N i 0 / N 0 0)) 0 (by simp) fun i j => rfl]
  rw [det_succ_column_zero, Fin.sum_univ_succ, Finset.sum_eq_zero]
  · simp only [Fin.val_zero, pow_zero, one_mul, of_apply, if_true, zero_mul, add_zero, h00]
    congr 2
    ext i j
    simp only [submatrix_apply, of_apply, Fin.succ_ne_zero, if_false, Fin.zero_succAbove, hN, Fin.cons_succ, Fin.cons_zero,
      pivotOut]
    ring
  · intro i _
    simp only [of_apply, Fin.succ_ne_zero, if_false, h00]
    field_simp
    ring

theorem tu_pivot {X : Matrix ι κ ℚ} (h : X.IsTotallyUnimodular) (a : ι) (b : κ) (hp : X a b ≠ 0) :
    (pivotOut X a b).IsTotallyUnimodular := by
  rw [isTotallyUnimodular_iff]
  intro k f g
  rw [sign_upTo]
  have e : ((pivotOut X a b).submatrix f g).det =
      (X a b)⁻¹ * (X.submatrix (Fin.cons a f : Fin (k + 1) → ι) (Fin.cons b g : Fin (k + 1) → κ)).det := by
    rw [det_pivotOut X a b hp f g, inv_mul_cancel_left₀ hp]
  rw [e]
  simpa using (unit_inv (tu_entry h a b) hp).mul (tu_det h _ _)

/-- The matrix after `t` steps of elimination. -/
def elim (X : Matrix (Fin n) κ ℚ) (p : Fin n → κ) : ℕ → Matrix (Fin n) κ ℚ
  | 0 => X
  | t + 1 => if h : t < n then pivotOut (elim X p t) ⟨t, h⟩ (p ⟨t, h⟩) else elim X p t

theorem elim_eq (X : Matrix (Fin n) κ ℚ) (p : Fin n → κ) (t : ℕ) (i : Fin n) (c : κ) :
    elim X p t i c = X i c - ∑ k : Fin n, if (k : ℕ) < t then
      elim X p k i (p k) / elim X p k k (p k) * elim X p k k c else 0 := by
  induction t with
  | zero => simp [elim]
  | succ t ih =>
    by_cases ht : t < n
    · rw [elim, dif_pos ht]
      unfold pivotOut
      rw [ih]
      have : ∀ f : Fin n → ℚ, (∑ k : Fin n, if (k : ℕ) < t + 1 then f k else 0) =
          (∑ k : Fin n, if (k : ℕ) < t then f k else 0) + f ⟨t, ht⟩ := by
        intro f
        have e : ∀ k : Fin n, (if (k : ℕ) < t + 1 then f k else 0) =
            (if (k : ℕ) < t then f k else 0) + if k = ⟨t, ht⟩ then f k else 0 := by
          intro k
          by_cases h1 : (k : ℕ) < t
          · rw [if_pos (by omega), if_pos h1, if_neg (fun h => by rw [h] at h1; simp at h1), add_zero]
          · by_cases h2 : k = ⟨t, ht⟩
            · subst h2; simp
            · have : ¬ (k : ℕ) < t + 1 := fun h => h2 (Fin.ext (by simp; omega))
              rw [if_neg this, if_neg h1, if_neg h2, add_zero]
        rw [Finset.sum_congr rfl fun k _ => e k, Finset.sum_add_distrib, Finset.sum_ite_eq' Finset.univ _ f]
        simp
      rw [this]
      ring
    · rw [elim, dif_neg ht, ih]
      congr 1
      refine Finset.sum_congr rfl fun k _ => ?_
      have := k.2
      rw [if_pos (by omega), if_pos (by omega)]

theorem elim_row_zero {X : Matrix (Fin n) κ ℚ} {p : Fin n → κ} {k : Fin n} (h0 : elim X p k k (p k) ≠ 0) {t : ℕ}
    (ht : (k : ℕ) < t) (c : κ) : elim X p t k c = 0 := by
  induction t, ht using Nat.le_induction generalizing c with
  | base =>
    rw [elim, dif_pos k.2]
    unfold pivotOut
    rw [div_self h0, one_mul, sub_self]
  | succ t _ ih =>
    rw [elim]
    split
    · unfold pivotOut
      rw [ih, ih, zero_div, zero_mul, sub_zero]
    · exact ih c

theorem elim_col_zero {X : Matrix (Fin n) κ ℚ} {p : Fin n → κ} {k : Fin n} (h0 : elim X p k k (p k) ≠ 0) {t : ℕ}
    (ht : (k : ℕ) < t) (i : Fin n) : elim X p t i (p k) = 0 := by
  induction t, ht using Nat.le_induction generalizing i with
  | base =>
    rw [elim, dif_pos k.2]
    unfold pivotOut
    rw [div_mul_cancel₀ _ h0, sub_self]
  | succ t _ ih =>
    rw [elim]
    split
    · unfold pivotOut
      rw [ih, ih, mul_zero, sub_zero]
    · exact ih i

/-- A linear relation among the columns is kept. -/
theorem elim_relation {X : Matrix (Fin n) (Fin n ⊕ Fin n) ℚ} {v : Fin n → ℚ} {c : Fin n}
    (h : ∀ i, ∑ j, X i (.inl j) * v j = X i (.inr c)) (t : ℕ) (i : Fin n) :
    ∑ j, elim X .inl t i (.inl j) * v j = elim X .inl t i (.inr c) := by
  induction t generalizing i with
  | zero => exact h i
  | succ t ih =>
    rw [elim]
    split
    · unfold pivotOut
      rw [← ih i, ← ih ⟨t, by assumption⟩, Finset.mul_sum, ← Finset.sum_sub_distrib]
      exact Finset.sum_congr rfl fun j _ => by ring
    · exact ih i

/-- A matrix with a block of zeros larger than itself. -/
theorem det_zero_of_block {A : Matrix (Fin n) (Fin n) ℚ} (T : Fin n) (h : ∀ i j, j ≤ T → T ≤ i → A i j = 0) :
    A.det = 0 := by
  rw [det_apply]
  refine Finset.sum_eq_zero fun σ _ => ?_
  obtain ⟨j, hj, hT⟩ : ∃ j ≤ T, T ≤ σ j := by
    by_contra hcon
    push Not at hcon
    have h1 : (Finset.Iic T).card ≤ (Finset.Iio T).card :=
      Finset.card_le_card_of_injOn σ (fun j hj => Finset.mem_coe.mpr (Finset.mem_Iio.mpr (hcon j (Finset.mem_Iic.mp
        (Finset.mem_coe.mp hj))))) σ.injective.injOn
    rw [Fin.card_Iic, Fin.card_Iio] at h1
    omega
  have : ∏ i, A (σ i) i = 0 := Finset.prod_eq_zero (Finset.mem_univ j) (h _ _ hj hT)
  rw [this, smul_zero]

/-- The factors after `t` steps. -/
theorem elim_factors {X : Matrix (Fin n) (Fin n ⊕ Fin n) ℚ} {t : ℕ}
    (h0 : ∀ k : Fin n, (k : ℕ) < t → elim X .inl k k (.inl k) ≠ 0) :
    X.submatrix id Sum.inl =
      (Matrix.of fun i k : Fin n => if (k : ℕ) < t then elim X .inl k i (.inl k) / elim X .inl k k (.inl k)
        else if i = k then 1 else 0) *
      Matrix.of fun k j : Fin n => if (k : ℕ) < t then elim X .inl k k (.inl j) else elim X .inl t k (.inl j) := by
  ext i j
  rw [mul_apply]
  have e := elim_eq X .inl t i (.inl j)
  have e2 : ∀ k : Fin n, (Matrix.of fun i k : Fin n => if (k : ℕ) < t then
        elim X .inl k i (.inl k) / elim X .inl k k (.inl k) else if i = k then 1 else 0) i k *
      (Matrix.of fun k j : Fin n => if (k : ℕ) < t then elim X .inl k k (.inl j) else elim X .inl t k (.inl j)) k j =
      (if (k : ℕ) < t then elim X .inl k i (.inl k) / elim X .inl k k (.inl k) * elim X .inl k k (.inl j) else 0) +
        if k = i then elim X .inl t k (.inl j) else 0 := by
    intro k
    simp only [of_apply]
    by_cases hk : (k : ℕ) < t
    · simp only [if_pos hk, elim_row_zero (h0 k hk) hk, ite_self, add_zero]
    · simp only [if_neg hk, zero_add]
      by_cases hi : i = k
      · subst hi; simp
      · simp [hi, Ne.symm hi]
  rw [Finset.sum_congr rfl fun k _ => e2 k, Finset.sum_add_distrib,
    Finset.sum_ite_eq' Finset.univ i fun k => elim X .inl t k (.inl j)]
  simp only [Finset.mem_univ, if_true, e, submatrix_apply, id_eq]
  ring

theorem elim_det_zero {X : Matrix (Fin n) (Fin n ⊕ Fin n) ℚ} {T : Fin n}
    (h0 : ∀ k : Fin n, k < T → elim X .inl k k (.inl k) ≠ 0) (hT : ∀ i, T ≤ i → elim X .inl T i (.inl T) = 0) :
    (X.submatrix id Sum.inl).det = 0 := by
  rw [elim_factors (t := T) fun k hk => h0 k hk, det_mul]
  refine mul_eq_zero_of_right _ (det_zero_of_block T fun i j hj hi => ?_)
  rw [of_apply, if_neg (by simpa using hi)]
  rcases lt_or_eq_of_le hj with hj | rfl
  · exact elim_col_zero (h0 j hj) hj i
  · exact hT i hi

theorem elim_det {X : Matrix (Fin n) (Fin n ⊕ Fin n) ℚ} (h0 : ∀ k : Fin n, elim X .inl k k (.inl k) ≠ 0) :
    (X.submatrix id Sum.inl).det = ∏ k : Fin n, elim X .inl k k (.inl k) := by
  rw [elim_factors (t := n) fun k _ => h0 k, det_mul, det_of_isLowerTriangular _ ?_, det_of_isUpperTriangular]
  · simp only [of_apply, Fin.is_lt, if_true]
    rw [Finset.prod_congr rfl fun k _ => div_self (h0 k), Finset.prod_const_one, one_mul]
  · intro i j hij
    simp only [of_apply, Fin.is_lt, if_true]
    exact elim_col_zero (h0 j) hij i
  · intro i j hij
    simp only [of_apply, Fin.is_lt, if_true]
    have : (i : ℕ) < j := hij
    rw [elim_row_zero (h0 i) this, zero_div]

/-! ### Elimination in double precision -/

/-- The matrix and the identity next to it, with the rows in the order `π`. -/
def extended (M : Matrix (Fin n) (Fin n) ℚ) (π : Equiv.Perm (Fin n)) : Matrix (Fin n) (Fin n ⊕ Fin n) ℚ :=
  (fromCols M (1 : Matrix (Fin n) (Fin n) ℚ)).submatrix π id

theorem extended_tu {M : Matrix (Fin n) (Fin n) ℚ} (h : M.IsTotallyUnimodular) (π : Equiv.Perm (Fin n)) :
    (extended M π).IsTotallyUnimodular :=
  ((fromCols_one_isTotallyUnimodular_iff M).mpr h).submatrix π id

theorem step_exact {X : Matrix (Fin n) (Fin n ⊕ Fin n) ℚ} (hX : X.IsTotallyUnimodular) (hn : n < 2 ^ 53) {T : Fin n}
    (hE : ∀ k : Fin n, k < T → (elim X .inl k).IsTotallyUnimodular ∧ elim X .inl k k (.inl k) ≠ 0)
    {i : Fin n} {c : Fin n ⊕ Fin n} {p q : Fin n → ℚ}
    (hp : ∀ k, k < T → p k = elim X .inl k i (.inl k) / elim X .inl k k (.inl k))
    (hq : ∀ k, k < T → q k = elim X .inl k k c) {s : ℚ}
    (h : Reduced binary64 (X i c) (fun k => decide (k < T)) p q s) : s = elim X .inl T i c := by
  rw [reduced_int h hn (tu_entry hX i c), elim_eq]
  · congr 1
    refine Finset.sum_congr rfl fun k _ => ?_
    by_cases hk : k < T
    · have : (k : ℕ) < T := hk
      rw [if_pos (by simpa using hk), if_pos this, hp k hk, hq k hk]
    · have : ¬ (k : ℕ) < T := hk
      rw [if_neg (by simpa using hk), if_neg this]
  · intro k hk
    have hk : k < T := by simpa using hk
    obtain ⟨h1, h2⟩ := hE k hk
    rw [hp k hk, div_eq_mul_inv]
    simpa using (tu_entry h1 i _).mul (unit_inv (tu_entry h1 k _) h2)
  · intro k hk
    have hk : k < T := by simpa using hk
    rw [hq k hk]
    exact tu_entry (hE k hk).1 k c

variable {M : Matrix (Fin n) (Fin n) ℚ} {π : Equiv.Perm (Fin n)} {l u : Matrix (Fin n) (Fin n) ℚ}

theorem factored_exact (hM : M.IsTotallyUnimodular) (hn : n < 2 ^ 53) (h : Factored binary64 M π l u) {t : ℕ}
    (ht : t ≤ n) (h0 : ∀ k : Fin n, (k : ℕ) < t → u k k ≠ 0) :
    (∀ s ≤ t, (elim (extended M π) .inl s).IsTotallyUnimodular) ∧
    (∀ k j : Fin n, (k : ℕ) < t → k ≤ j → u k j = elim (extended M π) .inl k k (.inl j)) ∧
    ∀ i k : Fin n, (k : ℕ) < t → k < i → l i k =
      elim (extended M π) .inl k i (.inl k) / elim (extended M π) .inl k k (.inl k) := by
  have hX := extended_tu hM π
  induction t with
  | zero =>
    refine ⟨fun s hs => ?_, fun k j hk => by omega, fun i k hk => by omega⟩
    rw [Nat.le_zero.mp hs]
    exact hX
  | succ t ih =>
    obtain ⟨i1, i2, i3⟩ := ih (by omega) fun k hk => h0 k (by omega)
    let T : Fin n := ⟨t, by omega⟩
    have hE : ∀ k : Fin n, k < T → (elim (extended M π) .inl k).IsTotallyUnimodular ∧
        elim (extended M π) .inl k k (.inl k) ≠ 0 := fun k hk =>
      ⟨i1 k (le_of_lt hk), by rw [← i2 k k hk le_rfl]; exact h0 k (Nat.lt_succ_of_lt hk)⟩
    have hup : ∀ j, T ≤ j → u T j = elim (extended M π) .inl t T (.inl j) := fun j hj =>
      step_exact (T := T) (i := T) (c := .inl j) hX hn hE (fun k hk => i3 T k hk hk)
        (fun k hk => i2 k j hk (le_of_lt (lt_of_lt_of_le hk hj))) (h.upper T j hj)
    have hpiv : elim (extended M π) .inl t T (.inl T) ≠ 0 := by
      rw [← hup T le_rfl]; exact h0 T (Nat.lt_succ_self t)
    refine ⟨fun s hs => ?_, fun k j hk hj => ?_, fun i k hk hi => ?_⟩
    · rcases Nat.lt_or_eq_of_le hs with hs | rfl
      · exact i1 s (by omega)
      · rw [elim, dif_pos T.2]
        exact tu_pivot (i1 t le_rfl) T (.inl T) hpiv
    · rcases Nat.lt_or_eq_of_le (Nat.lt_succ_iff.mp hk) with hk | hk
      · exact i2 k j hk hj
      · have : k = T := Fin.ext hk
        subst this
        exact hup j hj
    · rcases Nat.lt_or_eq_of_le (Nat.lt_succ_iff.mp hk) with hk | hk
      · exact i3 i k hk hi
      · have : k = T := Fin.ext hk
        subst this
        obtain ⟨s, h1, -, h2⟩ := h.lower i T hi
        have hs : s = elim (extended M π) .inl t i (.inl T) :=
          step_exact (T := T) (i := i) (c := .inl T) hX hn hE (fun k hk => i3 i k hk (lt_trans hk hi))
            (fun k hk => i2 k T hk (le_of_lt hk)) h1
        have hu : u T T ≠ 0 := h0 T (Nat.lt_succ_self t)
        have := quotient_int (h2 hu) (by rw [hs]; exact tu_entry (i1 t le_rfl) i _)
          (by rw [hup T le_rfl]; exact tu_entry (i1 t le_rfl) T _) hu
        rw [this, hs, hup T le_rfl]

theorem extended_det (M : Matrix (Fin n) (Fin n) ℚ) (π : Equiv.Perm (Fin n)) :
    ((extended M π).submatrix id Sum.inl).det = (Equiv.Perm.sign π : ℤ) * M.det := by
  rw [← det_permute]
  rfl

/-- A zero pivot means a singular matrix. -/
theorem det_of_zero_pivot (hM : M.IsTotallyUnimodular) (hn : n < 2 ^ 53) (h : Factored binary64 M π l u)
    (h0 : ∃ i, u i i = 0) : M.det = 0 := by
  obtain ⟨T, hT, hmin⟩ : ∃ T, u T T = 0 ∧ ∀ k < T, u k k ≠ 0 := by
    have hne : (Finset.univ.filter fun i => u i i = 0).Nonempty := h0.imp fun i hi => by simp [hi]
    refine ⟨_, (Finset.mem_filter.mp (Finset.min'_mem _ hne)).2, fun k hk h0 => ?_⟩
    exact absurd (Finset.min'_le _ k (by simp [h0])) (not_le.mpr hk)
  have hX := extended_tu hM π
  obtain ⟨i1, i2, i3⟩ := factored_exact hM hn h (t := T) T.2.le fun k hk => hmin k hk
  have hE : ∀ k : Fin n, k < T → (elim (extended M π) .inl k).IsTotallyUnimodular ∧
      elim (extended M π) .inl k k (.inl k) ≠ 0 := fun k hk =>
    ⟨i1 k (le_of_lt hk), by rw [← i2 k k hk le_rfl]; exact hmin k hk⟩
  have key := elim_det_zero (X := extended M π) (T := T) (fun k hk => (hE k hk).2) fun i hi => by
    rcases lt_or_eq_of_le hi with hi | rfl
    · obtain ⟨s, h1, h2, -⟩ := h.lower i T hi
      have hs : s = elim (extended M π) .inl T i (.inl T) :=
        step_exact (T := T) (i := i) (c := .inl T) hX hn hE (fun k hk => i3 i k hk (lt_trans hk hi))
          (fun k hk => i2 k T hk (le_of_lt hk)) h1
      rw [hT, abs_zero, abs_nonpos_iff] at h2
      rw [← hs, h2]
    · rw [← hT]
      exact (step_exact (T := T) (i := T) (c := .inl T) hX hn hE (fun k hk => i3 T k hk hk)
        (fun k hk => i2 k T hk (le_of_lt hk)) (h.upper T T le_rfl)).symm
  rw [extended_det] at key
  rcases mul_eq_zero.mp key with h1 | h1
  · have : (Equiv.Perm.sign π : ℤ) = 0 := by exact_mod_cast h1
    rcases Int.units_eq_one_or (Equiv.Perm.sign π) with h2 | h2 <;> rw [h2] at this <;> simp at this
  · exact h1

theorem det_of_pivots (hM : M.IsTotallyUnimodular) (hn : n < 2 ^ 53) (h : Factored binary64 M π l u)
    (h0 : ∀ i, u i i ≠ 0) : M.det = ((Equiv.Perm.sign π : ℤ) : ℚ) * ∏ i, u i i := by
  obtain ⟨i1, i2, i3⟩ := factored_exact hM hn h (t := n) le_rfl fun k _ => h0 k
  have e : ∀ k : Fin n, u k k = elim (extended M π) .inl k k (.inl k) := fun k => i2 k k k.2 le_rfl
  have key := elim_det (X := extended M π) fun k => by rw [← e]; exact h0 k
  rw [extended_det, ← Finset.prod_congr rfl fun k _ => e k] at key
  rw [← key, ← mul_assoc]
  have : ((Equiv.Perm.sign π : ℤ) : ℚ) * ((Equiv.Perm.sign π : ℤ) : ℚ) = 1 := by
    rcases Int.units_eq_one_or (Equiv.Perm.sign π) with h2 | h2 <;> rw [h2] <;> norm_num
  rw [this, one_mul]

theorem unit_cases {q : ℚ} (h : IntUpTo 1 q) (h0 : q ≠ 0) : q = 1 ∨ q = -1 := by
  obtain ⟨k, rfl, hk⟩ := h
  have := abs_le.mp hk
  have : k ≠ 0 := by rintro rfl; simp at h0
  have : k = 1 ∨ k = -1 := by omega
  rcases this with rfl | rfl <;> norm_num

/-- The determinant is exact. -/
theorem detVal_exact {C : Libm} (hM : M.IsTotallyUnimodular) (hn : n < 2 ^ 53) {d : ℚ}
    (h : DetVal C binary64 M d) : d = M.det := by
  obtain ⟨π, l, u, hF, ⟨h0, rfl⟩ | ⟨h0, rfl⟩⟩ := h
  · exact (det_of_zero_pivot hM hn hF h0).symm
  · obtain ⟨i1, i2, i3⟩ := factored_exact hM hn hF (t := n) le_rfl fun k _ => h0 k
    have hu : ∀ k, u k k = 1 ∨ u k k = -1 := fun k =>
      unit_cases (by rw [i2 k k k.2 le_rfl]; exact tu_entry (i1 k k.2.le) k _) (h0 k)
    have hlog : ∀ L : List (Fin n), L.foldl (fun acc i => binary64.rd (acc + C.log |u i i|)) 0 = 0 := by
      intro L
      induction L with
      | nil => rfl
      | cons k L ih =>
        have : |u k k| = 1 := by rcases hu k with h | h <;> rw [h] <;> norm_num
        rw [List.foldl_cons, this, C.log_one, add_zero, binary64.rd_zero]
        exact ih
    have hs : ∀ k, (if u k k < 0 then (-1 : ℚ) else 1) = u k k := by
      intro k
      rcases hu k with h | h <;> rw [h] <;> norm_num
    rw [hlog, C.exp_zero, mul_one, Finset.prod_congr rfl fun k _ => hs k, ← det_of_pivots hM hn hF h0]
    exact (tu_det_self hM).rd_eq (by norm_num)

/-- The inverse is exact. -/
theorem invVal_exact (hM : M.IsTotallyUnimodular) (hn : n < 2 ^ 53) {T : Matrix (Fin n) (Fin n) ℚ}
    (h : InvVal binary64 M T) : T = M⁻¹ := by
  obtain ⟨π, l, u, hF, h0, y, hy, hT⟩ := h
  have hX := extended_tu hM π
  obtain ⟨i1, i2, i3⟩ := factored_exact hM hn hF (t := n) le_rfl fun k _ => h0 k
  have hE : ∀ k : Fin n, (elim (extended M π) .inl k).IsTotallyUnimodular ∧
      elim (extended M π) .inl k k (.inl k) ≠ 0 := fun k =>
    ⟨i1 k k.2.le, by rw [← i2 k k k.2 le_rfl]; exact h0 k⟩
  have hy' : ∀ i c, y i c = elim (extended M π) .inl i i (.inr c) := by
    intro i
    induction i using WellFoundedLT.induction with
    | ind i ih =>
      intro c
      refine step_exact (T := i) (i := i) (c := .inr c) hX hn (fun k _ => hE k) (fun k hk => i3 i k k.2 hk)
        (fun k hk => ih k hk c) ?_
      have : extended M π i (.inr c) = if π i = c then 1 else 0 := by
        simp [extended, Matrix.one_apply]
      rw [this]
      exact hy i c
  have hdet : M.det ≠ 0 := by
    rw [det_of_pivots hM hn hF h0]
    refine mul_ne_zero ?_ (Finset.prod_ne_zero_iff.mpr fun i _ => h0 i)
    rcases Int.units_eq_one_or (Equiv.Perm.sign π) with h2 | h2 <;> rw [h2] <;> norm_num
  have hinv : ∀ i k, IntUpTo 1 (M⁻¹ i k) := fun i k => by
    rw [← npInv_eq]; exact tu_npInv hM hdet i k
  have hrel : ∀ c i, ∑ j, extended M π i (.inl j) * M⁻¹ j c = extended M π i (.inr c) := by
    intro c i
    have : (M * M⁻¹) (π i) c = (1 : Matrix (Fin n) (Fin n) ℚ) (π i) c := by
      rw [mul_nonsing_inv M (isUnit_iff_ne_zero.mpr hdet)]
    rw [mul_apply] at this
    simpa [extended] using this
  have key : ∀ i c, T i c = M⁻¹ i c := by
    intro i
    induction i using WellFoundedGT.induction with
    | ind i ih =>
      intro c
      obtain ⟨s, hs, hq⟩ := hT i c
      have hui : ∀ j, i ≤ j → IntUpTo 1 (u i j) := fun j hj => by
        rw [i2 i j i.2 hj]; exact tu_entry (i1 i i.2.le) i _
      have e1 := reduced_int hs hn (by rw [hy']; exact tu_entry (i1 i i.2.le) i _)
        (fun k hk => hui k (le_of_lt (by simpa using hk)))
        (fun k hk => by rw [ih k (by simpa using hk) c]; exact hinv k c)
      have e2 := elim_relation (hrel c) i i
      rw [← hy'] at e2
      have e3 : ∀ j, elim (extended M π) .inl i i (.inl j) * M⁻¹ j c =
          (if decide (i < j) = true then u i j * T j c else 0) + if j = i then u i j * M⁻¹ j c else 0 := by
        intro j
        rcases lt_trichotomy i j with hj | rfl | hj
        · rw [if_pos (by simpa using hj), if_neg (ne_of_gt hj), add_zero, ih j hj c, i2 i j i.2 hj.le]
        · rw [if_neg (by simp), if_pos rfl, zero_add, i2 i i i.2 le_rfl]
        · rw [if_neg (by simpa using hj.le), if_neg (ne_of_lt hj), add_zero, elim_col_zero (hE j).2 hj, zero_mul]
      rw [Finset.sum_congr rfl fun j _ => e3 j, Finset.sum_add_distrib,
        Finset.sum_ite_eq' Finset.univ i fun j => u i j * M⁻¹ j c, if_pos (Finset.mem_univ i)] at e2
      have e4 : s = u i i * M⁻¹ i c := by rw [e1, ← e2]; ring
      rw [quotient_int hq (by rw [e4]; simpa using (hui i le_rfl).mul (hinv i c)) (hui i le_rfl) (h0 i), e4,
        mul_div_cancel_left₀ _ (h0 i)]
  ext i c
  exact key i c

/-- Gaussian elimination with partial pivoting is exact on totally unimodular matrices. -/
theorem gaussian_exact {C : Libm} {L : Lapack binary64} (h : Gaussian C L) {k : ℕ} (hk : k < 2 ^ 53) :
    ExactOnUnimodular L k := by
  intro M hM
  refine ⟨detVal_exact hM hk (h.det M), fun hd => ?_⟩
  rcases h.inv M with ⟨T, h1, h2⟩ | ⟨-, π, l, u, h1, h2⟩
  · rw [h1, invVal_exact hM hk h2]
  · exact absurd (det_of_zero_pivot hM hk h1 h2) hd

/-! ### Existence -/

theorem exists_dots (R : Rounding) (p : ℚ × ℚ) (l : List (ℚ × ℚ)) : ∃ r, Dots R (p :: l) r := by
  induction l generalizing p with
  | nil => exact ⟨_, .prod p.1 p.2⟩
  | cons q l ih =>
    obtain ⟨r, hr⟩ := ih q
    exact ⟨_, .fma p.1 p.2 hr⟩

theorem exists_reduced (R : Rounding) (a : ℚ) (S : Fin n → Bool) (p q : Fin n → ℚ) : ∃ s, Reduced R a S p q s :=
  exists_dots R _ _

theorem Reduced.congr {a : ℚ} {S S' : Fin n → Bool} {p p' q q' : Fin n → ℚ} {s : ℚ} (h : Reduced R a S p q s)
    (hS : ∀ k, S k = S' k) (hp : ∀ k, S k = true → p k = p' k) (hq : ∀ k, S k = true → q k = q' k) :
    Reduced R a S' p' q' s := by
  obtain rfl : S = S' := funext hS
  unfold Reduced at h ⊢
  have : (((List.finRange n).filter S).map fun k => (-p k, q k)) =
      ((List.finRange n).filter S).map fun k => (-p' k, q' k) := by
    refine List.map_congr_left fun k hk => ?_
    have := (List.mem_filter.mp hk).2
    rw [hp k this, hq k this]
  rwa [← this]

/-- Numbers computed one after another. -/
theorem exists_sequence {r : Fin n → Fin n → Prop} (wf : WellFounded r) (F : Fin n → (Fin n → ℚ) → ℚ) :
    ∃ v : Fin n → ℚ, ∀ i, ∃ w : Fin n → ℚ, (∀ k, r k i → w k = v k) ∧ v i = F i w := by
  classical
  let v : Fin n → ℚ := wf.fix fun i ih => F i fun k => if h : r k i then ih k h else 0
  refine ⟨v, fun i => ⟨fun k => if r k i then v k else 0, fun k hk => if_pos hk, ?_⟩⟩
  show wf.fix _ i = _
  rw [wf.fix_eq]
  rfl

/-- The factors of the first `t` columns. -/
structure FactoredUpTo (R : Rounding) (M : Matrix (Fin n) (Fin n) ℚ) (t : ℕ) (π : Equiv.Perm (Fin n))
    (l u : Matrix (Fin n) (Fin n) ℚ) : Prop where
  upper : ∀ i j : Fin n, (j : ℕ) < t → i ≤ j →
    Reduced R (M (π i) j) (fun k => decide (k < i)) (l i) (fun k => u k j) (u i j)
  lower : ∀ i j : Fin n, (j : ℕ) < t → j < i →
    ∃ s, Reduced R (M (π i) j) (fun k => decide (k < j)) (l i) (fun k => u k j) s ∧
      |s| ≤ |u j j| ∧ (u j j ≠ 0 → Quotient R s (u j j) (l i j))

theorem exists_factoredUpTo (R : Rounding) (M : Matrix (Fin n) (Fin n) ℚ) {t : ℕ} (ht : t ≤ n) :
    ∃ π l u, FactoredUpTo R M t π l u := by
  induction t with
  | zero => exact ⟨1, 0, 0, fun i j h => by omega, fun i j h => by omega⟩
  | succ t ih =>
    obtain ⟨π, l, u, h⟩ := ih (by omega)
    let T : Fin n := ⟨t, by omega⟩
    obtain ⟨v, hv⟩ : ∃ v : Fin n → ℚ, ∀ i,
        Reduced R (M (π i) T) (fun k => decide (k < i) && decide (k < T)) (l i) v (v i) := by
      obtain ⟨v, hv⟩ := exists_sequence (n := n) (r := fun a b => a < b) wellFounded_lt fun i w =>
        (exists_reduced R (M (π i) T) (fun k => decide (k < i) && decide (k < T)) (l i) w).choose
      refine ⟨v, fun i => ?_⟩
      obtain ⟨w, hw, e⟩ := hv i
      rw [e]
      refine (exists_reduced R (M (π i) T) (fun k => decide (k < i) && decide (k < T)) (l i) w).choose_spec.congr
        (fun _ => rfl) (fun _ _ => rfl) fun k hk => hw k ?_
      simp only [Bool.and_eq_true, decide_eq_true_eq] at hk
      exact hk.1
    obtain ⟨a, ha, hmax⟩ := Finset.exists_max_image (Finset.Ici T) (fun i => |v i|) ⟨T, by simp⟩
    rw [Finset.mem_Ici] at ha
    have hmax : ∀ i, T ≤ i → |v i| ≤ |v a| := fun i hi => hmax i (Finset.mem_Ici.mpr hi)
    let σ : Equiv.Perm (Fin n) := Equiv.swap T a
    have σlt : ∀ i, i < T → σ i = i := fun i hi =>
      Equiv.swap_apply_of_ne_of_ne (ne_of_lt hi) (ne_of_lt (lt_of_lt_of_le hi ha))
    have σge : ∀ i, T ≤ i → T ≤ σ i := by
      intro i hi
      by_contra hlt
      rw [not_le] at hlt
      have := σlt _ hlt
      have h2 : σ i = i := σ.injective this
      rw [h2] at hlt
      exact absurd hi (not_le.mpr hlt)
    have σT : σ T = a := Equiv.swap_apply_left T a
    let l' : Matrix (Fin n) (Fin n) ℚ := fun i k => if k < T then l (σ i) k else R.rd (v (σ i) / v a)
    let u' : Matrix (Fin n) (Fin n) ℚ := fun k j => if j = T then v (σ k) else u k j
    have l1 : ∀ i k, k < T → l' i k = l (σ i) k := fun i k hk => if_pos hk
    have l2 : ∀ i, l' i T = R.rd (v (σ i) / v a) := fun i => if_neg (lt_irrefl T)
    have u1 : ∀ k j, j ≠ T → u' k j = u k j := fun k j hj => if_neg hj
    have u2 : ∀ k, u' k T = v (σ k) := fun k => if_pos rfl
    have hcol : ∀ i, T ≤ i → Reduced R (M (π (σ i)) T) (fun k => decide (k < T)) (l' i) (fun k => u' k T) (v (σ i)) := by
      intro i hi
      refine (hv (σ i)).congr (fun k => ?_) (fun k hk => ?_) fun k hk => ?_
      · by_cases hk : k < T
        · simp [hk, lt_of_lt_of_le hk (σge i hi)]
        · simp [hk]
      · simp only [Bool.and_eq_true, decide_eq_true_eq] at hk
        rw [l1 i k hk.2]
      · simp only [Bool.and_eq_true, decide_eq_true_eq] at hk
        rw [u2, σlt k hk.2]
    refine ⟨σ.trans π, l', u', fun i j hj hij => ?_, fun i j hj hij => ?_⟩
    · rw [Equiv.trans_apply]
      rcases Nat.lt_or_eq_of_le (Nat.lt_succ_iff.mp hj) with hj | hj
      · have hjT : j < T := hj
        have hiT : i < T := lt_of_le_of_lt hij hjT
        rw [σlt i hiT, u1 i j (ne_of_lt hjT)]
        refine (h.upper i j hj hij).congr (fun _ => rfl) (fun k hk => ?_) fun k _ => (u1 k j (ne_of_lt hjT)).symm
        rw [l1 i k (lt_trans (by simpa using hk) hiT), σlt i hiT]
      · obtain rfl : j = T := Fin.ext hj
        rw [u2]
        rcases lt_or_eq_of_le hij with hi | rfl
        · rw [σlt i hi]
          refine (hv i).congr (fun k => ?_) (fun k hk => ?_) fun k hk => ?_
          · by_cases hk : k < i
            · simp [hk, lt_trans hk hi]
            · simp [hk]
          · simp only [Bool.and_eq_true, decide_eq_true_eq] at hk
            rw [l1 i k hk.2, σlt i hi]
          · simp only [Bool.and_eq_true, decide_eq_true_eq] at hk
            rw [u2, σlt k hk.2]
        · exact hcol _ le_rfl
    · rw [Equiv.trans_apply]
      rcases Nat.lt_or_eq_of_le (Nat.lt_succ_iff.mp hj) with hj | hj
      · have hjT : j < T := hj
        have hσ : j < σ i := by
          rcases lt_or_ge i T with hi | hi
          · rwa [σlt i hi]
          · exact lt_of_lt_of_le hjT (σge i hi)
        obtain ⟨s, h1, h2, h3⟩ := h.lower (σ i) j hj hσ
        rw [u1 j j (ne_of_lt hjT), l1 i j hjT]
        refine ⟨s, h1.congr (fun _ => rfl) (fun k hk => ?_) fun k _ => (u1 k j (ne_of_lt hjT)).symm, h2, h3⟩
        rw [l1 i k (lt_trans (by simpa using hk) hjT)]
      · obtain rfl : j = T := Fin.ext hj
        refine ⟨v (σ i), hcol i (le_of_lt hij), ?_, fun _ => ?_⟩
        · rw [u2, σT]
          exact hmax _ (σge i (le_of_lt hij))
        · rw [u2, σT, l2]
          exact .inl rfl

theorem exists_factored (R : Rounding) (M : Matrix (Fin n) (Fin n) ℚ) : ∃ π l u, Factored R M π l u := by
  obtain ⟨π, l, u, h⟩ := exists_factoredUpTo R M (le_refl n)
  exact ⟨π, l, u, fun i j => h.upper i j j.2, fun i j => h.lower i j j.2⟩

theorem exists_detVal (C : Libm) (R : Rounding) (M : Matrix (Fin n) (Fin n) ℚ) : ∃ d, DetVal C R M d := by
  obtain ⟨π, l, u, h⟩ := exists_factored R M
  by_cases h0 : ∃ i, u i i = 0
  · exact ⟨0, π, l, u, h, .inl ⟨h0, rfl⟩⟩
  · exact ⟨_, π, l, u, h, .inr ⟨not_exists.mp h0, rfl⟩⟩

theorem exists_invVal (R : Rounding) (M : Matrix (Fin n) (Fin n) ℚ) : (∃ T, InvVal R M T) ∨ InvFails R M := by
  obtain ⟨π, l, u, h⟩ := exists_factored R M
  by_cases h0 : ∃ i, u i i = 0
  · exact .inr ⟨π, l, u, h, h0⟩
  · have hy : ∀ c, ∃ y : Fin n → ℚ, ∀ i,
        Reduced R (if π i = c then 1 else 0) (fun k => decide (k < i)) (l i) y (y i) := by
      intro c
      obtain ⟨v, hv⟩ := exists_sequence (n := n) (r := fun a b => a < b) wellFounded_lt fun i w =>
        (exists_reduced R (if π i = c then 1 else 0) (fun k => decide (k < i)) (l i) w).choose
      refine ⟨v, fun i => ?_⟩
      obtain ⟨w, hw, e⟩ := hv i
      rw [e]
      exact (exists_reduced R (if π i = c then 1 else 0) (fun k => decide (k < i)) (l i) w).choose_spec.congr
        (fun _ => rfl) (fun _ _ => rfl) fun k hk => hw k (by simpa using hk)
    choose y hy using hy
    have hx : ∀ c, ∃ x : Fin n → ℚ, ∀ i, ∃ s,
        Reduced R (y c i) (fun k => decide (i < k)) (u i) x s ∧ Quotient R s (u i i) (x i) := by
      intro c
      obtain ⟨v, hv⟩ := exists_sequence (n := n) (r := fun a b => b < a) wellFounded_gt fun i w =>
        R.rd ((exists_reduced R (y c i) (fun k => decide (i < k)) (u i) w).choose / u i i)
      refine ⟨v, fun i => ?_⟩
      obtain ⟨w, hw, e⟩ := hv i
      exact ⟨_, (exists_reduced R (y c i) (fun k => decide (i < k)) (u i) w).choose_spec.congr (fun _ => rfl)
        (fun _ _ => rfl) fun k hk => hw k (by simpa using hk), .inl e⟩
    choose x hx using hx
    exact .inl ⟨fun i c => x c i, π, l, u, h, not_exists.mp h0, fun i c => y c i, fun i c => hy c i, fun i c => hx c i⟩

open Classical in
/-- Linear algebra that sums from right to left and eliminates. -/
noncomputable def eliminating (C : Libm) (R : Rounding) : Lapack R where
  matMul M N i j := (exists_dotVal R (M i) fun l => N l j).choose
  mulVec M v i := (exists_dotVal R (M i) v).choose
  vecMul v M j := (exists_dotVal R v fun i => M i j).choose
  dot u v := (exists_dotVal R u v).choose
  inv M := if h : ∃ T, InvVal R M T then .ok h.choose else .error .linAlgError
  det M := (exists_detVal C R M).choose
  matMul_val _ _ _ _ := (exists_dotVal _ _ _).choose_spec
  mulVec_val _ _ _ := (exists_dotVal _ _ _).choose_spec
  vecMul_val _ _ _ := (exists_dotVal _ _ _).choose_spec
  dot_val _ _ := (exists_dotVal _ _ _).choose_spec

theorem eliminating_gaussian (C : Libm) (R : Rounding) : Gaussian C (eliminating C R) where
  det M := (exists_detVal C R M).choose_spec
  inv M := by
    by_cases h : ∃ T, InvVal R M T
    · exact .inl ⟨h.choose, dif_pos h, h.choose_spec⟩
    · exact .inr ⟨dif_neg h, (exists_invVal R M).resolve_left h⟩

end Floating
end Pytimize
