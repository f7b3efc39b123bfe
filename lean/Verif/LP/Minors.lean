/-
Bounds on the subdeterminants of a program carry over to its SEF and to the auxiliary program, so that
exactness of the tolerances can be read off the data the user supplies.
-/
import Mathlib.LinearAlgebra.Matrix.Determinant.Basic
import Mathlib.Algebra.Order.BigOperators.Ring.Finset
import Verif.LP.Sef
import Verif.LP.ExactInt
import Verif.LP.TwoPhaseProof

namespace Pytimize
namespace LinProg

open Matrix

variable {m n : ℕ}

/-- All square submatrices of `X` have determinant at most `K` in absolute value. -/
def SubdetLe {ι κ : Type} (K : ℕ) (X : Matrix ι κ ℚ) : Prop :=
  ∀ (k : ℕ) (r : Fin k → ι) (s : Fin k → κ), |(X.submatrix r s).det| ≤ K

theorem SubdetLe.transpose {ι κ : Type} {K : ℕ} {X : Matrix ι κ ℚ} (h : SubdetLe K X) : SubdetLe K Xᵀ := by
  intro k r s
  have := h k s r
  rwa [← det_transpose, transpose_submatrix] at this

theorem SubdetLe.one_le {ι κ : Type} {K : ℕ} {X : Matrix ι κ ℚ} (h : SubdetLe K X) : 1 ≤ K := by
  have := h 0 Fin.elim0 Fin.elim0
  simp only [det_isEmpty, abs_one] at this
  exact_mod_cast this

/-- `v` is a column of `X` up to sign, a unit vector up to sign, or zero. -/
def ColLike {ι κ : Type} [DecidableEq ι] (X : Matrix ι κ ℚ) (v : ι → ℚ) : Prop :=
  (∃ (k : κ) (e : ℤ), |e| ≤ 1 ∧ ∀ r, v r = e * X r k) ∨
    (∃ (i : ι) (e : ℤ), |e| ≤ 1 ∧ ∀ r, v r = if r = i then (e : ℚ) else 0) ∨ ∀ r, v r = 0

theorem ColLike.neg {ι κ : Type} [DecidableEq ι] {X : Matrix ι κ ℚ} {v : ι → ℚ} (h : ColLike X v) :
    ColLike X fun r => -v r := by
  rcases h with ⟨k, e, he, h⟩ | ⟨i, e, he, h⟩ | h
  · exact Or.inl ⟨k, -e, by rwa [abs_neg], fun r => by simp only [h]; push_cast; ring⟩
  · refine Or.inr (Or.inl ⟨i, -e, by rwa [abs_neg], fun r => ?_⟩)
    simp only [h]
    split <;> simp
  · exact Or.inr (Or.inr fun r => by simp only [h, neg_zero])

theorem prod_abs_le_one {ι : Type} (s : Finset ι) (f : ι → ℤ) (h : ∀ i, |f i| ≤ 1) :
    |((∏ i ∈ s, f i : ℤ) : ℚ)| ≤ 1 := by
  have : |∏ i ∈ s, f i| ≤ 1 := by
    rw [Finset.abs_prod]
    exact Finset.prod_le_one (fun i _ => abs_nonneg _) fun i _ => h i
  exact_mod_cast this

/-- Columns like those of `X` do not increase the subdeterminants. -/
theorem SubdetLe.cols {ι κ μ : Type} [DecidableEq ι] {K : ℕ} {X : Matrix ι κ ℚ} (hX : SubdetLe K X)
    {Y : Matrix ι μ ℚ} (hY : ∀ c, ColLike X fun r => Y r c) : SubdetLe K Y := by
  intro k
  induction k with
  | zero => intro r s; simp only [det_isEmpty, abs_one]; exact_mod_cast hX.one_le
  | succ k ih =>
    intro r s
    have hK : (0 : ℚ) ≤ K := Nat.cast_nonneg K
    by_cases hr : Function.Injective r
    swap
    · obtain ⟨a, b, hab, hne⟩ := Function.not_injective_iff.mp hr
      rw [det_zero_of_row_eq hne (by funext c; simp [hab]), abs_zero]
      exact hK
    by_cases hall : ∀ c, ∃ (k : κ) (e : ℤ), |e| ≤ 1 ∧ ∀ a, Y a (s c) = e * X a k
    · choose f e he hfe using hall
      have hm : Y.submatrix r s = Matrix.of fun a c => (e c : ℚ) * (X.submatrix r f) a c := by
        ext a c
        simp [hfe c]
      rw [hm, det_mul_row, abs_mul]
      have h1 := prod_abs_le_one Finset.univ e he
      rw [Int.cast_prod] at h1
      calc _ ≤ 1 * |(X.submatrix r f).det| := by gcongr
        _ ≤ K := by rw [one_mul]; exact hX _ r f
    · push Not at hall
      obtain ⟨c, hc⟩ := hall
      rcases hY (s c) with ⟨k', e, he, h⟩ | ⟨i, e, he, h⟩ | h
      · obtain ⟨a, ha⟩ := hc k' e he
        exact absurd (h a) ha
      · rw [det_succ_column _ c]
        by_cases hi : ∃ a, r a = i
        · obtain ⟨a, ha⟩ := hi
          rw [Finset.sum_eq_single a]
          · simp only [submatrix_apply, h, ha, if_true]
            rw [abs_mul, abs_mul, abs_pow, abs_neg, abs_one, one_pow, one_mul]
            have h1 : |(e : ℚ)| ≤ 1 := by exact_mod_cast he
            have h2 := ih (r ∘ a.succAbove) (s ∘ c.succAbove)
            calc _ ≤ 1 * |((Y.submatrix r s).submatrix a.succAbove c.succAbove).det| := by gcongr
              _ ≤ K := by rw [one_mul]; exact h2
          · intro b _ hb
            have : r b ≠ i := fun h0 => hb (hr (h0.trans ha.symm))
            simp [h, this]
          · simp
        · rw [Finset.sum_eq_zero, abs_zero]
          · exact hK
          · intro b _
            have : r b ≠ i := fun h0 => hi ⟨b, h0⟩
            simp [h, this]
      · rw [det_eq_zero_of_column_eq_zero c (by intro a; exact h (r a)), abs_zero]
        exact hK

/-- Changing the signs of rows does not change the subdeterminants. -/
theorem SubdetLe.flip {ι κ : Type} {K : ℕ} {X Y : Matrix ι κ ℚ} (hX : SubdetLe K X)
    (hY : ∀ i, ∃ e : ℤ, |e| ≤ 1 ∧ ∀ j, Y i j = e * X i j) : SubdetLe K Y := by
  choose e he hfe using hY
  intro k r s
  have hm : Y.submatrix r s = Matrix.of fun a c => (e (r a) : ℚ) * (X.submatrix r s) a c := by
    ext a c
    simp [hfe]
  rw [hm, det_mul_column, abs_mul]
  have h1 := prod_abs_le_one Finset.univ (fun a => e (r a)) fun a => he _
  rw [Int.cast_prod] at h1
  calc _ ≤ 1 * |(X.submatrix r s).det| := by gcongr
    _ ≤ K := by rw [one_mul]; exact hX _ r s

/-- A determinant with one column replaced. -/
theorem SubdetLe.updateCol {K : ℕ} {X : Matrix (Fin m) (Fin n) ℚ} (hX : SubdetLe K X) {b : Fin m → ℚ} {β : ℕ}
    (hb : ∀ i, |b i| ≤ β) (B : Fin m → Fin n) (i : Fin m) :
    |((X.submatrix id B).updateCol i b).det| ≤ ((m * β * K : ℕ) : ℚ) := by
  cases m with
  | zero => exact i.elim0
  | succ k =>
    rw [det_succ_column _ i]
    refine le_trans (Finset.abs_sum_le_sum_abs _ _) ?_
    have h1 : ∀ a ∈ (Finset.univ : Finset (Fin (k + 1))),
        |(-1) ^ ((a : ℕ) + (i : ℕ)) * (X.submatrix id B).updateCol i b a i *
          (((X.submatrix id B).updateCol i b).submatrix a.succAbove i.succAbove).det| ≤ (β : ℚ) * K := by
      intro a _
      rw [abs_mul, abs_mul, abs_pow, abs_neg, abs_one, one_pow, one_mul, updateCol_self]
      have h2 : ((X.submatrix id B).updateCol i b).submatrix a.succAbove i.succAbove =
          X.submatrix a.succAbove (B ∘ i.succAbove) := by
        ext p q
        simp
      rw [h2]
      exact mul_le_mul (hb a) (hX _ _ _) (abs_nonneg _) (Nat.cast_nonneg _)
    refine le_trans (Finset.sum_le_sum h1) ?_
    rw [Finset.sum_const, Finset.card_univ, Fintype.card_fin, nsmul_eq_mul]
    push_cast
    linarith

/-- All numbers of a program are integers. -/
def IsInt (P : LP m n) : Prop :=
  (∀ i j, ∃ z : ℤ, P.A i j = z) ∧ (∀ i, ∃ z : ℤ, P.b i = z) ∧ ∀ j, ∃ z : ℤ, P.c j = z

theorem intData_of {P : LP m n} (hi : IsInt P) {K β : ℕ} (hK : SubdetLe K P.A) (hb : ∀ i, |P.b i| ≤ β) :
    IntData P K (m * β * K) := by
  obtain ⟨h1, h2, h3⟩ := hi
  choose M hM using h1
  choose b hb' using h2
  choose c hc using h3
  exact ⟨⟨M, b, c, by ext i j; exact hM i j, funext hb', funext hc⟩, fun B => hK m id B, fun B i =>
    hK.updateCol hb B i⟩

/-! ### The SEF -/

theorem colLike_int {X : Matrix (Fin m) (Fin n) ℚ} (hX : ∀ i j, ∃ z : ℤ, X i j = z) {v : Fin m → ℚ}
    (h : ColLike X v) (i : Fin m) : ∃ z : ℤ, v i = z := by
  rcases h with ⟨k, e, _, h⟩ | ⟨a, e, _, h⟩ | h
  · obtain ⟨z, hz⟩ := hX i k
    exact ⟨e * z, by rw [h, hz]; push_cast; rfl⟩
  · rw [h]
    split
    · exact ⟨e, rfl⟩
    · exact ⟨0, by simp⟩
  · exact ⟨0, by rw [h]; simp⟩

/-- The columns of the arrays built by `to_sef` are columns of the program or unit vectors, up to sign. -/
theorem sefCols_like (P : LP m n) (j : ℕ) : ColLike P.A fun r => (sefCols P).A r j := by
  have hslack : ∀ (l : List (Fin m)) (s : Cols m), (∀ j, ColLike P.A fun r => s.A r j) →
      ∀ j, ColLike P.A fun r => (l.foldl (addSlack P.ineq) s).A r j := by
    intro l
    induction l with
    | nil => intro s h; exact h
    | cons i l ih =>
      intro s h
      refine ih _ fun j => ?_
      unfold addSlack
      split
      · exact h j
      · simp only
        by_cases hj : j = s.n
        · simp only [hj, if_true]
          refine Or.inr (Or.inl ⟨i, if P.ineq i = .ge then -1 else 1, by split <;> simp, fun r => ?_⟩)
          cases P.ineq i <;> simp [slackSign]
        · simp only [hj, if_false]
          exact h j
  have hsplit : ∀ (l : List ℕ) (i : ℕ) (s : Cols m), (∀ j, ColLike P.A fun r => s.A r j) →
      ∀ j, ColLike P.A fun r => (splitAll l i s).A r j := by
    intro l
    induction l with
    | nil => intro i s h; exact h
    | cons f l ih =>
      intro i s h
      refine ih _ _ fun j => ?_
      simp only [splitFree, npInsert]
      by_cases h1 : j < f + i + 1
      · simp only [h1, if_true]; exact h j
      · simp only [h1, if_false]
        by_cases h2 : j = f + i + 1
        · simp only [h2, if_true]; exact (h _).neg
        · simp only [h2, if_false]; exact h _
  have hneg : ∀ (l : List ℕ) (s : Cols m), (∀ j, ColLike P.A fun r => s.A r j) →
      ∀ j, ColLike P.A fun r => (l.foldl negColumn s).A r j := by
    intro l
    induction l with
    | nil => intro s h; exact h
    | cons k l ih =>
      intro s h
      refine ih _ fun j => ?_
      simp only [negColumn, negAt]
      by_cases h1 : j = k
      · simp only [h1, if_true, mul_neg_one]; exact (h k).neg
      · simp only [h1, if_false]; exact h j
  unfold sefCols
  refine hslack _ _ (hsplit _ _ _ (hneg _ _ fun j => ?_)) j
  simp only [colsOf, ext]
  by_cases hj : j < n
  · simp only [hj, dif_pos]
    exact Or.inl ⟨⟨j, hj⟩, 1, by simp, fun r => by simp⟩
  · simp only [hj, dif_neg, not_false_eq_true]
    exact Or.inr (Or.inr fun _ => rfl)

theorem sefCols_c_int (P : LP m n) (hc : ∀ j, ∃ z : ℤ, P.c j = z) (j : ℕ) : ∃ z : ℤ, (sefCols P).c j = z := by
  have hslack : ∀ (l : List (Fin m)) (s : Cols m), (∀ j, ∃ z : ℤ, s.c j = z) →
      ∀ j, ∃ z : ℤ, (l.foldl (addSlack P.ineq) s).c j = z := by
    intro l
    induction l with
    | nil => intro s h; exact h
    | cons i l ih =>
      intro s h
      refine ih _ fun j => ?_
      unfold addSlack
      split
      · exact h j
      · simp only
        split
        · exact ⟨0, by simp⟩
        · exact h j
  have hsplit : ∀ (l : List ℕ) (i : ℕ) (s : Cols m), (∀ j, ∃ z : ℤ, s.c j = z) →
      ∀ j, ∃ z : ℤ, (splitAll l i s).c j = z := by
    intro l
    induction l with
    | nil => intro i s h; exact h
    | cons f l ih =>
      intro i s h
      refine ih _ _ fun j => ?_
      simp only [splitFree, npInsert]
      split
      · exact h j
      · split
        · obtain ⟨z, hz⟩ := h (f + i)
          exact ⟨-z, by rw [hz]; push_cast; rfl⟩
        · exact h _
  have hneg : ∀ (l : List ℕ) (s : Cols m), (∀ j, ∃ z : ℤ, s.c j = z) →
      ∀ j, ∃ z : ℤ, (l.foldl negColumn s).c j = z := by
    intro l
    induction l with
    | nil => intro s h; exact h
    | cons k l ih =>
      intro s h
      refine ih _ fun j => ?_
      simp only [negColumn, negAt]
      split
      · obtain ⟨z, hz⟩ := h j
        exact ⟨-z, by rw [hz]; push_cast; ring⟩
      · exact h j
  unfold sefCols
  refine hslack _ _ (hsplit _ _ _ (hneg _ _ fun j => ?_)) j
  simp only [colsOf, ext]
  split
  · split
    · obtain ⟨z, hz⟩ := hc ⟨j, by assumption⟩
      exact ⟨-z, by simp only [hz]; push_cast; rfl⟩
    · exact hc _
  · exact ⟨0, by simp⟩

theorem SubdetLe.toSef {P : LP m n} {K : ℕ} (h : SubdetLe K P.A) : SubdetLe K (toSef P).lp.A := by
  cases hs : P.isSef with
  | true =>
    have e : LinProg.toSef P = ⟨n, P, none⟩ := by simp [LinProg.toSef, hs]
    rw [e]; exact h
  | false =>
    refine h.cols fun c => ?_
    have e : ∀ r, (LinProg.toSef P).lp.A r c = (sefCols P).A r c := by
      revert c
      have e' : LinProg.toSef P = ⟨(sefCols P).n,
          { A := fun r j => (sefCols P).A r j, b := P.b, c := fun j => (sefCols P).c j, z := P.z,
            objective := .max, ineq := fun _ => .eq, free := [], neg := [], isSef := true },
          some ⟨((List.finRange m).filter fun i => decide (P.ineq i ≠ .eq)).length,
            concatOf P.free 0, P.neg⟩⟩ := by simp [LinProg.toSef, hs]
      rw [e']
      intro c r
      rfl
    simp only [e]
    exact sefCols_like P c

theorem IsInt.toSef {P : LP m n} (h : IsInt P) : IsInt (toSef P).lp := by
  cases hs : P.isSef with
  | true =>
    have e : LinProg.toSef P = ⟨n, P, none⟩ := by simp [LinProg.toSef, hs]
    rw [e]; exact h
  | false =>
    have e' : LinProg.toSef P = ⟨(sefCols P).n,
        { A := fun r j => (sefCols P).A r j, b := P.b, c := fun j => (sefCols P).c j, z := P.z,
          objective := .max, ineq := fun _ => .eq, free := [], neg := [], isSef := true },
        some ⟨((List.finRange m).filter fun i => decide (P.ineq i ≠ .eq)).length,
          concatOf P.free 0, P.neg⟩⟩ := by simp [LinProg.toSef, hs]
    rw [e']
    exact ⟨fun i j => colLike_int h.1 (sefCols_like P j) i, h.2.1, fun j => sefCols_c_int P h.2.2 j⟩

theorem toSef_b (P : LP m n) : (toSef P).lp.b = P.b := by
  unfold toSef
  generalize P.isSef = b
  cases b <;> rfl

/-! ### The auxiliary program -/

theorem SubdetLe.aux {P : LP m n} {K : ℕ} (h : SubdetLe K P.A) : SubdetLe K (auxSef P).A := by
  have h1 : SubdetLe K (fun i j => if negRows P i then P.A i j * (-1) else P.A i j : Matrix (Fin m) (Fin n) ℚ) := by
    refine h.flip fun i => ⟨if negRows P i then -1 else 1, by split <;> simp, fun j => ?_⟩
    split <;> simp
  refine h1.cols fun c => ?_
  refine Fin.addCases (fun j => ?_) (fun k => ?_) c
  · refine Or.inl ⟨j, 1, by simp, fun r => ?_⟩
    simp [auxSef, auxLp]
  · refine Or.inr (Or.inl ⟨k, 1, by simp, fun r => ?_⟩)
    simp [auxSef, auxLp]

theorem IsInt.aux {P : LP m n} (h : IsInt P) : IsInt (auxSef P) := by
  refine ⟨fun i j => ?_, fun i => ?_, fun j => ?_⟩
  · refine Fin.addCases (fun j => ?_) (fun k => ?_) j
    · obtain ⟨z, hz⟩ := h.1 i j
      simp only [auxSef, auxLp, Fin.append_left]
      split
      · exact ⟨-z, by rw [hz]; push_cast; ring⟩
      · exact ⟨z, hz⟩
    · simp only [auxSef, auxLp, Fin.append_right]
      split
      · exact ⟨1, by simp⟩
      · exact ⟨0, by simp⟩
  · obtain ⟨z, hz⟩ := h.2.1 i
    simp only [auxSef, auxLp]
    split
    · exact ⟨-z, by rw [hz]; push_cast; ring⟩
    · exact ⟨z, hz⟩
  · refine Fin.addCases (fun j => ?_) (fun k => ?_) j
    · exact ⟨0, by simp [auxSef, auxLp]⟩
    · exact ⟨-1, by simp [auxSef, auxLp]⟩

theorem aux_b_le {P : LP m n} {β : ℚ} (h : ∀ i, |P.b i| ≤ β) (i : Fin m) : |(auxSef P).b i| ≤ β := by
  simp only [auxSef, auxLp]
  split
  · rw [mul_neg_one, abs_neg]; exact h i
  · exact h i

/-- Integer data with moderate subdeterminants and right-hand sides: everything the solver looks at is exact. -/
structure Moderate (P : LP m n) (K β : ℕ) : Prop where
  isInt : IsInt P
  subdet : SubdetLe K P.A
  rhs : ∀ i, |P.b i| ≤ β
  small : (K : ℚ) * K / 10 ^ 8 + (K : ℚ) * ((m * β * K : ℕ) : ℚ) / 10 ^ 5 < 1

theorem Moderate.intSef {P : LP m n} {K β : ℕ} (h : Moderate P K β) : IntData (toSef P).lp K (m * β * K) :=
  intData_of h.isInt.toSef h.subdet.toSef (by rw [toSef_b]; exact h.rhs)

theorem Moderate.exactSef {P : LP m n} {K β : ℕ} (h : Moderate P K β) : Exact (toSef P).lp :=
  exact_of_int h.intSef h.small

theorem Moderate.exactAux {P : LP m n} {K β : ℕ} (h : Moderate P K β) : Exact (auxSef (toSef P).lp) :=
  exact_of_int (intData_of h.isInt.toSef.aux h.subdet.toSef.aux
    (aux_b_le (by rw [toSef_b]; exact h.rhs))) h.small

end LinProg
end Pytimize
