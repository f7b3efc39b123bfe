/-
Property C148: what remains of an answer of `simplex` when the right-hand sides, the costs or the columns change.
-/
import Verif.Props.Restart

namespace Pytimize
namespace Props
open LinProg Comparator

variable {m n : ℕ}

/-- The program with other right-hand sides. -/
def withRhs (P : LP m n) (b : Fin m → ℚ) : LP m n := { P with b := b }

/-- The program with other costs. -/
def withCosts (P : LP m n) (c : Fin n → ℚ) : LP m n := { P with c := c }

/-- C148, right-hand sides: as long as the basis returned stays feasible, `simplex` started from it needs one iteration
and returns its new basic solution, the same basis and the same certificate; the value changes by the certificate times
the change. -/
theorem C148_rhs {fuel : ℕ} {P : LP m n} {basis basis' : List ℤ} {x : Fin n → ℚ} {y : Fin m → ℚ}
    (h : (simplex fuel P basis).1 = .ok (.optimal x basis' y)) (b' : Fin m → ℚ)
    (hf : isBasisFeasible (withRhs P b') basis' = .ok true) (k : ℕ) :
    ∃ x', computeBasicSolution (withRhs P b') basis' = .ok x' ∧
      (simplex (k + 1) (withRhs P b') basis').1 = .ok (.optimal x' basis' y) ∧
      objVal (withRhs P b') x' = objVal P x + ∑ i, y i * (b' i - P.b i) := by
  obtain ⟨hm, hs, D, hD, hd, rfl, rfl, rfl, hc, hx⟩ := simplex_optimal h
  have hB : toArrayIndexing ((colsList D).map (· + 1)) = colsList D := toArrayIndexing_succ _
  have hl := toArrayIndexing_eq_iff.mp hB
  have hn := isBasis_nonsing hd
  have hd' : tol ≤ |(colSel (withRhs P b').A D).det| := hd
  have hn' := isBasis_nonsing hd'
  have hfeas := ((C35_feasible _ _).mp hf).2 (sol (withRhs P b') D) ((isBasicSol_iff hl hn' _).mpr rfl)
  refine ⟨sol (withRhs P b') D, ?_,
    simplex_at_optimum (P := withRhs P b') hm hs hD hd' hc hfeas (List.Perm.refl _) k, ?_⟩
  · rw [computeBasicSolution_eq hm hB hd', sortCols_of_mono hD]; rfl
  · rw [objVal_sol hn', objVal_sol hn]
    show mult P D ⬝ᵥ b' + P.z = _
    simp only [mul_sub, Finset.sum_sub_distrib]
    show _ = mult P D ⬝ᵥ P.b + P.z + (mult P D ⬝ᵥ b' - mult P D ⬝ᵥ P.b)
    ring

/-- C148: with right-hand sides for which the basis returned is not feasible, `simplex` started from it raises
`ArithmeticError`. -/
theorem C148_rhs_infeasible {fuel : ℕ} {P : LP m n} {basis basis' : List ℤ} {x : Fin n → ℚ} {y : Fin m → ℚ}
    (h : (simplex fuel P basis).1 = .ok (.optimal x basis' y)) (b' : Fin m → ℚ)
    (hf : isBasisFeasible (withRhs P b') basis' = .ok false) (k : ℕ) :
    (simplex (k + 1) (withRhs P b') basis').1 = .error .arithmeticError := by
  obtain ⟨hm, hs, D, hD, hd, rfl, rfl, rfl, hc, hx⟩ := simplex_optimal h
  have hB : toArrayIndexing ((colsList D).map (· + 1)) = colsList D := toArrayIndexing_succ _
  have hl := toArrayIndexing_eq_iff.mp hB
  let Q := withRhs P b'
  have hs' : Q.isSef = true := hs
  have hdF : tol ≤ |(colSel (flipRows (negRows Q) Q).A D).det| := by rw [abs_det_flip]; exact hd
  have hspec := simplexIteration_spec (P := flipRows (negRows Q) Q) hs' hm hB hdF
  rw [sortCols_of_mono hD] at hspec
  have hsol : sol (flipRows (negRows Q) Q) D = sol Q D := by unfold sol; rw [canon_flip]
  have hneg : ∃ j, sol Q D j ≤ -tol := by
    by_contra hno
    push Not at hno
    have : isBasisFeasible Q ((colsList D).map (· + 1)) = .ok true :=
      (C35_feasible _ _).mpr ⟨(isBasis_iff _ _).mpr ⟨hm, D, hB, hd⟩, fun x' hx' j => by
        rw [(isBasicSol_iff (P := Q) hl (isBasis_nonsing (P := Q) hd) x').mp hx']
        exact hno j⟩
    rw [show isBasisFeasible Q _ = _ from hf] at this
    cases this
  have hit : simplexIteration (flipRows (negRows Q) Q) ((colsList D).map (· + 1)) = .error .arithmeticError := by
    generalize hr : simplexIteration (flipRows (negRows Q) Q) ((colsList D).map (· + 1)) = r at hspec
    cases hspec with
    | infeasible => rfl
    | optimal hc' hx' =>
      obtain ⟨j, hj⟩ := hneg
      have := hx' j
      rw [hsol] at this
      exact absurd this (not_lt.mpr hj)
    | unbounded k hk hck =>
      rw [canon_flip] at hck
      exact absurd (hc k hk) (not_lt.mpr hck)
    | next k hk hck =>
      rw [canon_flip] at hck
      exact absurd (hc k hk) (not_lt.mpr hck)
  show (simplex (k + 1) Q ((colsList D).map (· + 1))).1 = _
  unfold simplex simplexBody
  simp only [hs', Bool.not_true, Bool.false_eq_true, if_false]
  rw [simplexLoop, hit]

/-- C148, costs: if the costs of the basis columns stay and no other cost increases, or more generally if `y'` reproduces
the new costs of the basis columns and no other column has a reduced cost of `1e-10` or more, then `simplex` started from
the basis returned needs one iteration and returns the same solution and basis, with `y'` as certificate. -/
theorem C148_costs {fuel : ℕ} {P : LP m n} {basis basis' : List ℤ} {x : Fin n → ℚ} {y : Fin m → ℚ}
    (h : (simplex fuel P basis).1 = .ok (.optimal x basis' y)) (c' : Fin n → ℚ) (y' : Fin m → ℚ)
    (hy : ∀ j : Fin n, ((j : ℕ) : ℤ) + 1 ∈ basis' → ∑ i, y' i * P.A i j = c' j)
    (hc' : ∀ j : Fin n, ((j : ℕ) : ℤ) + 1 ∉ basis' → c' j - ∑ i, y' i * P.A i j < 1 / 10 ^ 10) (k : ℕ) :
    (simplex (k + 1) (withCosts P c') basis').1 = .ok (.optimal x basis' y') := by
  obtain ⟨hm, hs, D, hD, hd, rfl, rfl, rfl, hc, hx⟩ := simplex_optimal h
  have hB : toArrayIndexing ((colsList D).map (· + 1)) = colsList D := toArrayIndexing_succ _
  have hl := toArrayIndexing_eq_iff.mp hB
  have hn' : Nonsing (withCosts P c') D := isBasis_nonsing hd
  have he : y' = mult (withCosts P c') D := by
    have h1 : (colSel P.A D).vecMul y' = (colSel P.A D).vecMul (mult (withCosts P c') D) := by
      funext i
      exact (hy (D i) ((Lists.mem hl _).mpr ⟨i, rfl⟩)).trans (vecMul_mult hn' i).symm
    have := congrArg (fun v => (npInv (colSel P.A D)).vecMul v) h1
    simpa only [Matrix.vecMul_vecMul, mul_npInv hn', show npInv (colSel P.A D) = npInv (colSel (withCosts P c').A D) from rfl,
      show colSel P.A D = colSel (withCosts P c').A D from rfl, Matrix.vecMul_one] using this
  have hred : ∀ j, (∀ i, D i ≠ j) → (canon (withCosts P c') D).c j < tol := by
    intro j hj
    have := hc' j fun hmem => by
      obtain ⟨i, hi⟩ := (Lists.mem hl j).mp hmem
      exact hj i hi
    rw [he] at this
    exact this
  rw [he]
  exact simplex_at_optimum (P := withCosts P c') hm hs hD hd hred hx (List.Perm.refl _) k

/-- C148, costs, the simple case. -/
theorem C148_lower_costs {fuel : ℕ} {P : LP m n} {basis basis' : List ℤ} {x : Fin n → ℚ} {y : Fin m → ℚ}
    (h : (simplex fuel P basis).1 = .ok (.optimal x basis' y)) (c' : Fin n → ℚ)
    (h1 : ∀ j : Fin n, ((j : ℕ) : ℤ) + 1 ∈ basis' → c' j = P.c j) (h2 : ∀ j, c' j ≤ P.c j) (k : ℕ) :
    (simplex (k + 1) (withCosts P c') basis').1 = .ok (.optimal x basis' y) := by
  obtain ⟨hm, hs, D, hD, hd, hx0, hl0, hy0, hc, hx⟩ := simplex_optimal h
  refine C148_costs h c' y (fun j hj => ?_) (fun j hj => ?_) k
  · rw [(C146_consistent h).2.2.2.2 j hj, h1 j hj]
  · have hl := toArrayIndexing_eq_iff.mp (toArrayIndexing_succ (colsList D))
    have hred : P.c j - ∑ i, y i * P.A i j < 1 / 10 ^ 10 := by
      have := hc j fun i hi => hj (by rw [hl0]; exact (Lists.mem hl j).mpr ⟨i, hi⟩)
      rw [hy0]
      exact this
    have := h2 j
    linarith

/-! ### A new column -/

/-- The program that `add_variable` returns for a nonnegative variable. -/
def withColumn (P : LP m n) (c : ℚ) (a : Fin m → ℚ) : LP m (n + 1) :=
  { A := fun i => (Fin.snoc (α := fun _ => ℚ) (P.A i) (a i) : Fin (n + 1) → ℚ), b := P.b,
    c := (Fin.snoc (α := fun _ => ℚ) P.c c : Fin (n + 1) → ℚ), z := P.z, objective := P.objective, ineq := P.ineq,
    free := P.free, neg := P.neg, isSef := P.isSef }

theorem addVariable_eq (P : LP m n) (c : ℚ) (a : Fin m → ℚ) :
    addVariable P c (some (List.ofFn a)) false false = .ok (withColumn P c a) := by
  unfold addVariable
  simp [addVariableMark, toVec_ofFn, withColumn]

/-- The basis columns in the larger program. -/
def widen (D : Fin m → Fin n) : Fin m → Fin (n + 1) := fun i => (D i).castSucc

theorem colsList_widen (D : Fin m → Fin n) : colsList (widen D) = colsList D := by simp [colsList, widen]

theorem colSel_widen (P : LP m n) (c : ℚ) (a : Fin m → ℚ) (D : Fin m → Fin n) :
    colSel (withColumn P c a).A (widen D) = colSel P.A D := by
  funext i j
  show (Fin.snoc (α := fun _ => ℚ) (P.A i) (a i) : Fin (n + 1) → ℚ) (D j).castSucc = P.A i (D j)
  rw [Fin.snoc_castSucc]

theorem mult_widen (P : LP m n) (c : ℚ) (a : Fin m → ℚ) (D : Fin m → Fin n) :
    mult (withColumn P c a) (widen D) = mult P D := by
  unfold mult
  rw [colSel_widen]
  congr 1
  funext i
  simp [withColumn, widen]

theorem canon_c_widen (P : LP m n) (c : ℚ) (a : Fin m → ℚ) (D : Fin m → Fin n) :
    (∀ j : Fin n, (canon (withColumn P c a) (widen D)).c j.castSucc = (canon P D).c j) ∧
      (canon (withColumn P c a) (widen D)).c (Fin.last n) = c - ∑ i, mult P D i * a i := by
  refine ⟨fun j => ?_, ?_⟩
  · rw [canon_c, canon_c, mult_widen]
    simp [withColumn, Matrix.vecMul, dotProduct]
  · rw [canon_c, mult_widen]
    simp [withColumn, Matrix.vecMul, dotProduct]

theorem sol_widen {P : LP m n} {c : ℚ} {a : Fin m → ℚ} {D : Fin m → Fin n} (hn : Nonsing P D) :
    sol (withColumn P c a) (widen D) = (Fin.snoc (α := fun _ => ℚ) (sol P D) 0 : Fin (n + 1) → ℚ) := by
  have hn' : Nonsing (withColumn P c a) (widen D) := by
    unfold Nonsing
    rw [colSel_widen]
    exact hn
  refine (sol_unique hn' ?_ fun j => ?_).symm
  · funext i
    show (∑ j, (Fin.snoc (α := fun _ => ℚ) (P.A i) (a i) : Fin (n + 1) → ℚ) j *
      (Fin.snoc (α := fun _ => ℚ) (sol P D) 0 : Fin (n + 1) → ℚ) j) = P.b i
    rw [Fin.sum_univ_castSucc]
    simp only [Fin.snoc_castSucc, Fin.snoc_last, mul_zero, add_zero]
    exact congrFun (sol_eq hn) i
  · refine Fin.lastCases (fun _ => by simp) (fun j hj => ?_) j
    rw [Fin.snoc_castSucc]
    exact sol_off hn fun i hi => hj i (by rw [widen, hi])

/-- C148, a new variable whose cost is less than the certificate asks for its column (up to `1e-10`): `simplex` started
from the basis returned needs one iteration and does not use it. -/
theorem C148_column {fuel : ℕ} {P : LP m n} {basis basis' : List ℤ} {x : Fin n → ℚ} {y : Fin m → ℚ}
    (h : (simplex fuel P basis).1 = .ok (.optimal x basis' y)) (c : ℚ) (a : Fin m → ℚ)
    (hc : c - ∑ i, y i * a i < 1 / 10 ^ 10) (k : ℕ) :
    ∃ Q, addVariable P c (some (List.ofFn a)) false false = .ok Q ∧
      (simplex (k + 1) Q basis').1 = .ok (.optimal (Fin.snoc (α := fun _ => ℚ) x 0 : Fin (n + 1) → ℚ) basis' y) := by
  obtain ⟨hm, hs, D, hD, hd, rfl, rfl, rfl, hred, hx⟩ := simplex_optimal h
  have hn := isBasis_nonsing hd
  refine ⟨_, addVariable_eq P c a, ?_⟩
  rw [← sol_widen (c := c) (a := a) hn, ← mult_widen P c a D, ← colsList_widen D]
  refine simplex_at_optimum (P := withColumn P c a) (D := widen D) hm hs (fun i j hij => Fin.castSucc_le_castSucc_iff.mpr (hD hij))
    (by rw [colSel_widen]; exact hd) (fun j => ?_) (fun j => ?_) (List.Perm.refl _) k
  · refine Fin.lastCases (fun _ => ?_) (fun j hj => ?_) j
    · rw [(canon_c_widen P c a D).2]; exact hc
    · rw [(canon_c_widen P c a D).1]
      exact hred j fun i hi => hj i (by rw [widen, hi])
  · rw [sol_widen hn]
    refine Fin.lastCases ?_ (fun j => ?_) j
    · rw [Fin.snoc_last]
      have := tol_pos
      linarith
    · rw [Fin.snoc_castSucc]; exact hx j

/-- C148, a new variable whose cost is more than the certificate asks for its column: the next iteration finds the program
unbounded or takes the variable into the basis. -/
theorem C148_column_enters {fuel : ℕ} {P : LP m n} {basis basis' : List ℤ} {x : Fin n → ℚ} {y : Fin m → ℚ}
    (h : (simplex fuel P basis).1 = .ok (.optimal x basis' y)) (c : ℚ) (a : Fin m → ℚ)
    (hc : 1 / 10 ^ 10 ≤ c - ∑ i, y i * a i) :
    ∃ Q, addVariable P c (some (List.ofFn a)) false false = .ok Q ∧
      ((∃ x' B C, simplexIteration Q basis' = .ok (.unbounded x' B C)) ∨
        ∃ l C, simplexIteration Q basis' = .ok (.next l C) ∧ (n : ℤ) + 1 ∈ l) := by
  obtain ⟨hm, hs, D, hD, hd, rfl, rfl, rfl, hred, hx⟩ := simplex_optimal h
  refine ⟨_, addVariable_eq P c a, ?_⟩
  let Q := withColumn P c a
  have hB : toArrayIndexing ((colsList D).map (· + 1)) = colsList (widen D) := by
    rw [toArrayIndexing_succ, colsList_widen]
  have hD' : Monotone (widen D) := fun i j hij => Fin.castSucc_le_castSucc_iff.mpr (hD hij)
  have hspec := simplexIteration_spec (P := Q) (by exact hs) hm hB (by rw [colSel_widen]; exact hd)
  rw [sortCols_of_mono hD'] at hspec
  have hlast : ∀ i, widen D i ≠ Fin.last n := fun i => (Fin.castSucc_lt_last (D i)).ne
  have hcl : (canon Q (widen D)).c (Fin.last n) = c - ∑ i, mult P D i * a i := (canon_c_widen P c a D).2
  have hk : ∀ k : Fin (n + 1), (∀ i, widen D i ≠ k) → tol ≤ (canon Q (widen D)).c k → k = Fin.last n := by
    intro k
    refine Fin.lastCases (fun _ _ => rfl) (fun j hj hcj => ?_) k
    rw [(canon_c_widen P c a D).1] at hcj
    exact absurd hcj (not_le.mpr (hred j fun i hi => hj i (by rw [widen, hi])))
  have hnot : ¬ ∀ j, (∀ i, widen D i ≠ j) → (canon Q (widen D)).c j < tol := fun hall => by
    have := hall _ hlast
    rw [hcl] at this
    exact absurd hc (not_le.mpr this)
  show (∃ x' B C, simplexIteration Q _ = _) ∨ ∃ l C, simplexIteration Q _ = _ ∧ _
  generalize hr : simplexIteration Q ((colsList D).map (· + 1)) = r at hspec
  cases hspec with
  | optimal hc' => exact absurd hc' hnot
  | infeasible hc' => exact absurd hc' hnot
  | unbounded k hk' hck => exact .inl ⟨_, _, _, rfl⟩
  | next k hk' hck hmin r hr' hratio B' hB' hp =>
    refine .inr ⟨_, _, rfl, List.mem_map.mpr ⟨(n : ℤ), ?_, rfl⟩⟩
    obtain ⟨i, hi⟩ := (hp k).mpr (.inl rfl)
    rw [mem_colsList]
    refine ⟨i, ?_⟩
    rw [hi, hk k hk' hck]
    simp

/-! ### Not vacuous -/

example : optimum (simplex 3 restartProg [3, 4]).1 = some ([2, 2, 0, 0], [1, 2], [1, 1]) ∧
    isBasisFeasible (withRhs restartProg ![5, 6]) [1, 2] = .ok true ∧
    optimum (simplex 1 (withRhs restartProg ![5, 6]) [1, 2]).1 = some ([1, 4, 0, 0], [1, 2], [1, 1]) ∧
    isBasisFeasible (withRhs restartProg ![7, 6]) [1, 2] = .ok false := by decide +kernel

example : (∑ i, (![1, 1] : Fin 2 → ℚ) i * (![1, 3] : Fin 2 → ℚ) i = 4) ∧
    optimum (simplex 1 (withColumn restartProg 4 ![1, 3]) [1, 2]).1 = some ([2, 2, 0, 0, 0], [1, 2], [1, 1]) ∧
    optimum (simplex 1 (withColumn restartProg 5 ![1, 3]) [1, 2]).1 = none := by decide +kernel

end Props
end Pytimize
