/-
What an answer of `simplex` says about the program.
-/
import Verif.LP.Bland

namespace Pytimize
namespace LinProg
open Matrix Comparator

variable {m n : ℕ}

theorem npInv_transpose (M : Matrix (Fin m) (Fin m) ℚ) : npInv M.transpose = (npInv M).transpose := by
  rw [npInv_eq, npInv_eq, Matrix.transpose_nonsing_inv]

/-- The certificate of `simplex` consists of the multipliers of the basis. -/
theorem dualCert_eq (P : LP m n) (S : Fin m → Bool) (B : Fin m → Fin n) :
    dualCert (flipRows S P) S B = mult P B := by
  have hm : (signs S).vecMul (mult (flipRows S P) B) = mult P B := by
    rw [mult, mult, npInv_flip, Matrix.mulVec_transpose, Matrix.mulVec_transpose, Matrix.vecMul_vecMul,
      Matrix.mul_assoc, signs_sq, Matrix.mul_one]
    rfl
  rw [← hm]
  funext i
  rw [signs, Matrix.vecMul_diagonal]
  simp only [dualCert, npInv_transpose]
  change (if S i = true then mult (flipRows S P) B i * (-1) else mult (flipRows S P) B i) = _
  cases S i <;> simp

theorem argmaxPos_spec {c : Fin n → ℚ} (h : ∃ k, 0 < c k) :
    ∃ k, argmaxPos c = some k ∧ 0 < c k ∧ ∀ j < k, c j ≤ 0 := by
  unfold argmaxPos
  cases hf : (List.finRange n).find? fun j => decide (0 < c j) with
  | none =>
    obtain ⟨k, hk⟩ := h
    have := List.find?_eq_none.mp hf k (List.mem_finRange k)
    simp at this
    linarith
  | some k =>
    refine ⟨k, rfl, by simpa using List.find?_some hf, fun j hj => ?_⟩
    have hf' : ((List.finRange n).filter fun _ => true).find? (fun j => decide (0 < c j)) = some k := by
      rw [List.filter_true]; exact hf
    have := (find?_finRange_filter hf').2.2 j hj rfl
    simpa using this

theorem sol_flip (S : Fin m → Bool) (P : LP m n) (B : Fin m → Fin n) : sol (flipRows S P) B = sol P B := by
  unfold sol; rw [canon_flip]

theorem flipRows_isSef (S : Fin m → Bool) (P : LP m n) : (flipRows S P).isSef = P.isSef := rfl

theorem simplex_sef {fuel : ℕ} {P : LP m n} {basis : List ℤ} {a : Answer m n}
    (h : (simplex fuel P basis).1 = .ok a) :
    P.isSef = true ∧ simplexBody fuel (flipRows (negRows P) P) (negRows P) basis = .ok a ∧
      (simplex fuel P basis).2 = P := by
  unfold simplex at h ⊢
  cases hs : P.isSef with
  | false => simp [hs] at h
  | true =>
    refine ⟨rfl, ?_⟩
    simp only [hs, Bool.not_true, Bool.false_eq_true, if_false] at h ⊢
    cases hb : simplexBody fuel (flipRows (negRows P) P) (negRows P) basis with
    | error e => rw [hb] at h; cases h
    | ok a' =>
      rw [hb] at h
      refine ⟨h, ?_⟩
      exact flipRows_twice _ _

/-- An optimal answer of `simplex`, from any starting basis. -/
theorem simplex_optimal {fuel : ℕ} {P : LP m n} {basis l : List ℤ} {x : Fin n → ℚ} {y : Fin m → ℚ}
    (h : (simplex fuel P basis).1 = .ok (.optimal x l y)) :
    0 < m ∧ P.isSef = true ∧ ∃ D, Monotone D ∧ tol ≤ |(colSel P.A D).det| ∧ x = sol P D ∧
      l = (colsList D).map (· + 1) ∧ y = mult P D ∧
      (∀ j, (∀ i, D i ≠ j) → (canon P D).c j < tol) ∧ ∀ j, -tol < sol P D j := by
  obtain ⟨hs, hb, -⟩ := simplex_sef h
  unfold simplexBody at hb
  cases hl : simplexLoop fuel (flipRows (negRows P) P) basis with
  | error e => rw [hl] at hb; cases hb
  | ok r =>
    obtain ⟨D, hD, hd, hspec, hm, hnext⟩ := simplexLoop_answer fuel basis hl
    rw [hl] at hb
    rw [abs_det_flip] at hd
    refine ⟨hm, hs, D, hD, hd, ?_⟩
    cases hspec with
    | optimal hc hx =>
      simp only [toArrayIndexing_math, toCols_colsList, Except.ok.injEq, Answer.optimal.injEq] at hb
      obtain ⟨h1, h2, h3⟩ := hb
      rw [sol_flip] at h1 hx
      rw [dualCert_eq] at h3
      rw [canon_flip] at hc
      exact ⟨h1.symm, h2.symm, h3.symm, hc, hx⟩
    | unbounded k hk hck hmin hA =>
      exfalso
      simp only at hb
      split at hb
      · cases hb
      · simp at hb
    | next => exact absurd rfl (hnext _ _)

/-- An unbounded answer of `simplex`, from any starting basis. -/
theorem simplex_unbounded {fuel : ℕ} {P : LP m n} {basis : List ℤ} {x d : Fin n → ℚ}
    (h : (simplex fuel P basis).1 = .ok (.unbounded x d)) :
    0 < m ∧ P.isSef = true ∧ ∃ D k, Monotone D ∧ tol ≤ |(colSel P.A D).det| ∧ x = sol P D ∧
      d = rayOf D (canon P D) k ∧ (∀ i, D i ≠ k) ∧ 0 < (canon P D).c k ∧ (∀ j < k, (canon P D).c j ≤ 0) ∧
      ∃ k', (∀ i, D i ≠ k') ∧ tol ≤ (canon P D).c k' ∧
        (∀ j < k', (∀ i, D i ≠ j) → (canon P D).c j < tol) ∧ ∀ i, (canon P D).A i k' < tol := by
  obtain ⟨hs, hb, -⟩ := simplex_sef h
  unfold simplexBody at hb
  cases hl : simplexLoop fuel (flipRows (negRows P) P) basis with
  | error e => rw [hl] at hb; cases hb
  | ok r =>
    obtain ⟨D, hD, hd, hspec, hm, hnext⟩ := simplexLoop_answer fuel basis hl
    rw [hl] at hb
    rw [abs_det_flip] at hd
    cases hspec with
    | optimal hc hx => simp [toArrayIndexing_math, toCols_colsList] at hb
    | unbounded k' hk hck hmin hA =>
      rw [canon_flip] at hck hmin hA hb
      obtain ⟨k, h1, h2, h3⟩ := argmaxPos_spec (c := (canon P D).c) ⟨k', lt_of_lt_of_le tol_pos hck⟩
      simp only [h1, Except.ok.injEq, Answer.unbounded.injEq] at hb
      rw [sol_flip] at hb
      refine ⟨hm, hs, D, k, hD, hd, hb.1.symm, hb.2.symm, fun i hi => ?_, h2, h3, k', hk, hck, hmin, hA⟩
      rw [← hi, canon_c_basic (isBasis_nonsing hd)] at h2
      exact lt_irrefl _ h2
    | next => exact absurd rfl (hnext _ _)

theorem simplex_not_infeasible {fuel : ℕ} {P : LP m n} {basis : List ℤ} {y : Fin m → ℚ}
    (h : (simplex fuel P basis).1 = .ok (.infeasible y)) : False := by
  obtain ⟨hs, hb, -⟩ := simplex_sef h
  unfold simplexBody at hb
  split at hb
  · cases hb
  · split at hb
    · cases hb
    · simp at hb
  · split at hb
    · cases hb
    · simp at hb
  · cases hb

/-- Under `Exact`, from a feasible basis, `simplex` answers within `n ^ m` iterations. -/
theorem simplex_exact {P : LP m n} (hs : P.isSef = true) (hm : 0 < m) (he : Exact P) {fuel : ℕ}
    (hf : n ^ m ≤ fuel) {basis : List ℤ} {B : Fin m → Fin n} (hbasis : toArrayIndexing basis = colsList B)
    (hB : FeasBasis P B) :
    ∃ D, FeasBasis P D ∧ Monotone D ∧
      (((∀ j, (canon P D).c j ≤ 0) ∧
        (simplex fuel P basis).1 = .ok (.optimal (sol P D) ((colsList D).map (· + 1)) (mult P D))) ∨
       (∃ k, (∀ i, D i ≠ k) ∧ 0 < (canon P D).c k ∧ (∀ i, (canon P D).A i k ≤ 0) ∧
        (simplex fuel P basis).1 = .ok (.unbounded (sol P D) (rayOf D (canon P D) k)))) := by
  obtain ⟨D, hD, hmono, h⟩ := simplexLoop_terminates (P := flipRows (negRows P) P) hs hm (he.flip _) fuel hf
    basis B hbasis ((feasBasis_flip _).mpr hB)
  have hD' : FeasBasis P D := (feasBasis_flip _).mp hD
  have hsim : ∀ a, simplexBody fuel (flipRows (negRows P) P) (negRows P) basis = .ok a →
      (simplex fuel P basis).1 = .ok a := by
    intro a ha
    unfold simplex
    simp only [hs, Bool.not_true, Bool.false_eq_true, if_false]
    rw [ha]
  refine ⟨D, hD', hmono, ?_⟩
  rcases h with ⟨hspec, hl⟩ | ⟨hspec, hl⟩
  · left
    cases hspec with
    | optimal hc hx =>
      rw [canon_flip] at hc
      refine ⟨fun j => ?_, hsim _ ?_⟩
      · by_cases hj : ∃ i, D i = j
        · obtain ⟨i, rfl⟩ := hj
          rw [canon_c_basic hD'.ns]
        · exact he.lt_tol_cost hD'.ns (hc j fun i hi => hj ⟨i, hi⟩)
      · unfold simplexBody
        rw [hl]
        simp only [toArrayIndexing_math, toCols_colsList]
        rw [dualCert_eq, sol_flip]
  · right
    cases hspec with
    | unbounded k hk hck hmin hA =>
      rw [canon_flip] at hck hmin hA
      obtain ⟨k2, h1, h2, h3⟩ := argmaxPos_spec (c := (canon P D).c) ⟨k, lt_of_lt_of_le tol_pos hck⟩
      have hkk : k2 = k := by
        rcases lt_trichotomy k2 k with hlt | heq | hlt
        · exfalso
          have hk2 : ∀ i, D i ≠ k2 := fun i hi => by
            rw [← hi, canon_c_basic hD'.ns] at h2
            exact lt_irrefl _ h2
          have := he.lt_tol_cost hD'.ns (hmin k2 hlt hk2)
          linarith
        · exact heq
        · exfalso
          have := h3 k hlt
          have := tol_pos
          linarith
      subst hkk
      refine ⟨k2, hk, h2, fun i => he.lt_tol_piv hD'.ns (hA i), hsim _ ?_⟩
      unfold simplexBody
      rw [hl]
      simp only [canon_flip, h1, sol_flip]

end LinProg
end Pytimize
