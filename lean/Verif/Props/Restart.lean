/-
Property C146: the answer of `simplex` and `two_phase_simplex` can be reproduced from the basis returned with it.
-/
import Verif.Props.LinearBasis
import Verif.LP.TwoPhaseAnswer

namespace Pytimize
namespace Props
open LinProg Comparator

variable {m n : ℕ}

theorem colsList_perm {l : List ℤ} {D : Fin m → Fin n} (h : l.Perm (colsList D)) :
    ∃ B : Fin m → Fin n, l = colsList B ∧ (Monotone D → sortCols B = D) := by
  obtain ⟨B, hB⟩ := exists_cols (m := m) (n := n) (l := l) (by rw [h.length_eq, length_colsList]) fun z hz => by
    obtain ⟨i, rfl⟩ := mem_colsList.mp (h.mem_iff.mp hz)
    have := (D i).2
    omega
  refine ⟨B, hB, fun hD => colsList_inj ?_⟩
  rw [← sortCols_of_mono hD, ← sortInt_colsList, ← sortInt_colsList, ← hB]
  exact ((List.perm_insertionSort _ _).trans (h.trans (List.perm_insertionSort _ _).symm)).eq_of_pairwise
    (fun a b _ _ => le_antisymm) (List.pairwise_insertionSort _ _) (List.pairwise_insertionSort _ _)

/-- A basis that satisfies the optimality test is reported at once, in whatever order it is listed. -/
theorem simplex_at_optimum {P : LP m n} (hm : 0 < m) (hs : P.isSef = true) {D : Fin m → Fin n} (hD : Monotone D)
    (hd : tol ≤ |(colSel P.A D).det|) (hc : ∀ j, (∀ i, D i ≠ j) → (canon P D).c j < tol) (hx : ∀ j, -tol < sol P D j)
    {basis : List ℤ} (hb : basis.Perm ((colsList D).map (· + 1))) (fuel : ℕ) :
    (simplex (fuel + 1) P basis).1 = .ok (.optimal (sol P D) ((colsList D).map (· + 1)) (mult P D)) := by
  have hperm : (toArrayIndexing basis).Perm (colsList D) := by
    have := hb.map (· - 1 : ℤ → ℤ)
    have h2 := toArrayIndexing_succ (colsList D)
    rw [← h2]
    exact this
  obtain ⟨B, hB, hsort⟩ := colsList_perm hperm
  have hsort := hsort hD
  have hdB : tol ≤ |(colSel P.A B).det| := by rw [← abs_det_sort, hsort]; exact hd
  let S := negRows P
  have hdF : tol ≤ |(colSel (flipRows S P).A B).det| := by rw [abs_det_flip]; exact hdB
  have hspec := simplexIteration_spec (P := flipRows S P) (by exact hs) hm hB hdF
  rw [hsort] at hspec
  have hsol : sol (flipRows S P) D = sol P D := by unfold sol; rw [canon_flip]
  have hit : simplexIteration (flipRows S P) basis =
      .ok (.optimal (sol P D) ((colsList D).map (· + 1)) (canon P D)) := by
    rw [← hsol, ← canon_flip S P D]
    generalize hr : simplexIteration (flipRows S P) basis = r at hspec
    cases hspec with
    | optimal => rfl
    | infeasible hc' j hj =>
      rw [hsol] at hj
      exact absurd (hx j) (not_lt.mpr hj)
    | unbounded k hk hck =>
      rw [canon_flip] at hck
      exact absurd (hc k hk) (not_lt.mpr hck)
    | next k hk hck =>
      rw [canon_flip] at hck
      exact absurd (hc k hk) (not_lt.mpr hck)
  have hans : (simplex (fuel + 1) P basis).1 =
      .ok (.optimal (sol P D) ((colsList D).map (· + 1)) (dualCert (flipRows S P) S D)) := by
    unfold simplex simplexBody
    simp only [hs, Bool.not_true, Bool.false_eq_true, if_false]
    rw [simplexLoop, show simplexIteration (flipRows (negRows P) P) basis = _ from hit]
    simp only [toArrayIndexing_succ, toCols_colsList]
    rfl
  obtain ⟨_, _, D', _, _, _, hl, hy, _⟩ := simplex_optimal hans
  have : D' = D := colsList_inj (by
    have := congrArg toArrayIndexing hl
    rwa [toArrayIndexing_succ, toArrayIndexing_succ, eq_comm] at this)
  rw [hans, hy, this]

/-- C146: starting `simplex` again from the basis it returned, listed in any order, gives the same solution, basis and
certificate after one iteration. -/
theorem C146_restart {fuel : ℕ} {P : LP m n} {basis basis' : List ℤ} {x : Fin n → ℚ} {y : Fin m → ℚ}
    (h : (simplex fuel P basis).1 = .ok (.optimal x basis' y)) (k : ℕ) {start : List ℤ} (hp : start.Perm basis') :
    (simplex (k + 1) P start).1 = .ok (.optimal x basis' y) ∧ (simplex (k + 1) P start).2 = P := by
  obtain ⟨hm, hs, D, hD, hd, rfl, rfl, rfl, hc, hx⟩ := simplex_optimal h
  have := simplex_at_optimum hm hs hD hd hc hx hp k
  exact ⟨this, (simplex_sef this).2.2⟩

/-- C146: the same for `two_phase_simplex`: one iteration of `simplex` from the basis it returned gives its answer. -/
theorem C146_two_phase {fuel : ℕ} {P : LP m n} {basis' : List ℤ} {x : Fin n → ℚ} {y : Fin m → ℚ}
    (h : (twoPhase fuel P).1 = .ok (.optimal x basis' y)) (k : ℕ) {start : List ℤ} (hp : start.Perm basis') :
    (simplex (k + 1) P start).1 = .ok (.optimal x basis' y) := by
  obtain ⟨_, _, _, D, _, _, _, hcase⟩ := twoPhase_ok h
  rcases hcase with ⟨_, l, hl, _⟩ | h'
  · exact (C146_restart hl k hp).1
  · exfalso
    revert h'
    rintro ⟨-, h'⟩
    cases h'

/-- C146: the solution is the basic solution of the basis returned: `is_basis_feasible`, `compute_basic_solution` and
`is_basic_solution` agree with the answer, the canonical form for the basis has the value of the solution as its constant,
and the certificate reproduces the costs of the basis columns. -/
theorem C146_consistent {fuel : ℕ} {P : LP m n} {basis basis' : List ℤ} {x : Fin n → ℚ} {y : Fin m → ℚ}
    (h : (simplex fuel P basis).1 = .ok (.optimal x basis' y)) :
    isBasisFeasible P basis' = .ok true ∧ computeBasicSolution P basis' = .ok x ∧
      isBasicSolution P (List.ofFn x) basis' = .ok true ∧
      (∃ C, toCanonicalForm P basis' = .ok C ∧ C.z = objVal P x) ∧
      ∀ j : Fin n, ((j : ℕ) : ℤ) + 1 ∈ basis' → ∑ i, y i * P.A i j = P.c j := by
  obtain ⟨hm, hs, D, hD, hd, rfl, rfl, rfl, hc, hx⟩ := simplex_optimal h
  have hn := isBasis_nonsing hd
  have hB : toArrayIndexing ((colsList D).map (· + 1)) = colsList D := toArrayIndexing_succ _
  have hb : isBasis P ((colsList D).map (· + 1)) = .ok true := (isBasis_iff _ _).mpr ⟨hm, D, hB, hd⟩
  have hl := toArrayIndexing_eq_iff.mp hB
  have hsol : IsBasicSol P ((colsList D).map (· + 1)) (sol P D) := (isBasicSol_iff hl hn _).mpr rfl
  refine ⟨(C35_feasible _ _).mpr ⟨hb, fun x' hx' j => ?_⟩, ?_, C35_basic_accepted P hs _ hb _ hsol, ⟨canon P D, ?_, ?_⟩, ?_⟩
  · rw [(isBasicSol_iff hl hn x').mp hx']
    exact hx j
  · rw [computeBasicSolution_eq hm hB hd, sortCols_of_mono hD]; rfl
  · unfold toCanonicalForm
    rw [hb, hB, toCols_colsList]
    simp [hs]
  · rw [objVal_sol hn, canon_z]
  · intro j hj
    obtain ⟨i, rfl⟩ := (Lists.mem hl j).mp hj
    exact vecMul_mult hn i

/-- C146: how to read a basis: `simplex` needs only one iteration from a list iff it is a basis, its basic solution is
(within `1e-10`) nonnegative and every reduced cost is below `1e-10`. -/
theorem C146_one_iteration (P : LP m n) (hs : P.isSef = true) (hm : 0 < m) (basis : List ℤ) :
    (∃ x l y, (simplex 1 P basis).1 = .ok (.optimal x l y)) ↔
      isBasisFeasible P basis = .ok true ∧
        ∀ y : Fin m → ℚ, (∀ j : Fin n, ((j : ℕ) : ℤ) + 1 ∈ basis → ∑ i, y i * P.A i j = P.c j) →
          ∀ j : Fin n, ((j : ℕ) : ℤ) + 1 ∉ basis → P.c j - ∑ i, y i * P.A i j < 1 / 10 ^ 10 := by
  constructor
  · rintro ⟨x, l, y, h⟩
    -- the list is a basis, and the one reported is the same one sorted
    obtain ⟨_, hb, _⟩ := simplex_sef h
    have hloop : ∃ it, simplexIteration (flipRows (negRows P) P) basis = .ok it ∧ ∀ l' C, it ≠ .next l' C := by
      unfold simplexBody at hb
      rw [simplexLoop] at hb
      cases hi : simplexIteration (flipRows (negRows P) P) basis with
      | error e => simp [hi] at hb
      | ok it =>
        refine ⟨it, rfl, fun l' C he => ?_⟩
        subst he
        simp [hi, simplexLoop] at hb
    obtain ⟨it, hit, hnext⟩ := hloop
    obtain ⟨_, hB'⟩ := simplexIteration_error hit
    rw [isBasis_flip] at hB'
    obtain ⟨_, B, hB, hd⟩ := (isBasis_iff P basis).mp hB'
    have hl := toArrayIndexing_eq_iff.mp hB
    have hn := isBasis_nonsing hd
    have hss := sortCols_same B
    have hdF : tol ≤ |(colSel (flipRows (negRows P) P).A B).det| := by rw [abs_det_flip]; exact hd
    have hspec := simplexIteration_spec (P := flipRows (negRows P) P) (by exact hs) hm hB hdF
    rw [hit] at hspec
    have hsol : sol (flipRows (negRows P) P) (sortCols B) = sol P B := by
      unfold sol
      rw [canon_flip]
      exact sol_same hn hss
    cases hspec with
    | optimal hc hx =>
      rw [canon_flip, canon_c_same hn hss] at hc
      rw [hsol] at hx
      refine ⟨(C35_feasible _ _).mpr ⟨hB', fun x' hx' j => ?_⟩, fun y' hy' j hj => ?_⟩
      · rw [(isBasicSol_iff hl hn x').mp hx']
        exact hx j
      · have hy : y' = mult P B := by
          have h1 : (colSel P.A B).vecMul y' = (colSel P.A B).vecMul (mult P B) := by
            funext i
            exact (hy' (B i) ((Lists.mem hl _).mpr ⟨i, rfl⟩)).trans (vecMul_mult hn i).symm
          have := congrArg (fun v => (npInv (colSel P.A B)).vecMul v) h1
          simpa only [Matrix.vecMul_vecMul, mul_npInv hn, Matrix.vecMul_one] using this
        have := hc j fun i he => hj ((Lists.mem hl j).mpr ((hss j).mpr ⟨i, he⟩))
        rw [hy]
        exact this
    | unbounded k hk hck hmin hA =>
      exfalso
      unfold simplexBody at hb
      rw [simplexLoop, hit] at hb
      simp only at hb
      split at hb <;> cases hb
    | next => exact absurd rfl (hnext _ _)
  · rintro ⟨hf, hy⟩
    obtain ⟨hb, hfeas⟩ := (C35_feasible _ _).mp hf
    obtain ⟨_, B, hB, hd⟩ := (isBasis_iff P basis).mp hb
    have hl := toArrayIndexing_eq_iff.mp hB
    have hn := isBasis_nonsing hd
    have hss := sortCols_same B
    have hperm : basis.Perm ((colsList (sortCols B)).map (· + 1)) := by
      rw [← sortInt_colsList, ← hB, ← succ_toArrayIndexing basis, toArrayIndexing_succ]
      exact ((List.perm_insertionSort _ _).map _).symm
    refine ⟨_, _, _, simplex_at_optimum hm hs (sortCols_mono B) (by rwa [abs_det_sort]) (fun j hj => ?_) (fun j => ?_) hperm 0⟩
    · rw [canon_c_same hn hss]
      refine hy (mult P B) (fun j hj => ?_) j fun hm' => ?_
      · obtain ⟨i, rfl⟩ := (Lists.mem hl j).mp hj
        exact vecMul_mult hn i
      · obtain ⟨i, hi⟩ := (hss j).mp ((Lists.mem hl j).mp hm')
        exact hj i hi
    · rw [sol_same hn hss]
      exact hfeas _ ((isBasicSol_iff hl hn _).mpr rfl) j

/-! ### Not vacuous -/

/-- Two rows, four columns. -/
def restartProg : LP 2 4 := ⟨!![1, 1, 1, 0; 2, 1, 0, 1], ![4, 6], ![3, 2, 0, 0], 0, .max, fun _ => .eq, [], [], true⟩

/-- Solution, basis and certificate. -/
def optimum {m n : ℕ} : Except PyErr (Answer m n) → Option (List ℚ × List ℤ × List ℚ)
  | .ok (.optimal x l y) => some (List.ofFn x, l, List.ofFn y)
  | _ => none

example : optimum (simplex 3 restartProg [3, 4]).1 = some ([2, 2, 0, 0], [1, 2], [1, 1]) ∧
    optimum (simplex 1 restartProg [2, 1]).1 = some ([2, 2, 0, 0], [1, 2], [1, 1]) ∧
    optimum (simplex 1 restartProg [3, 4]).1 = none := by decide +kernel

end Props
end Pytimize
