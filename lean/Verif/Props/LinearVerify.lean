/-
Properties C47-C49: the certificate checkers.
-/
import Mathlib.Tactic.FinCases
import Mathlib.Tactic.FieldSimp
import Verif.LP.Verify

namespace Pytimize
namespace Props
open LinProg Comparator

variable {m n : ℕ}

theorem verifyInfeasibility_iff (P : LP m n) (hs : P.isSef = true) (y : Fin m → ℚ) :
    verifyInfeasibility P (List.ofFn y) = .ok true ↔
      (∀ j, -tol < (P.A.vecMul y) j) ∧ y ⬝ᵥ P.b ≤ -tol := by
  simp only [verifyInfeasibility, hs, toVec_ofFn, Bool.not_true, Bool.false_eq_true, if_false,
    Except.ok.injEq, Bool.and_eq_true, decide_eq_true_eq, pyCmp_ge_zero_iff, isNegative_iff]

theorem verifyOptimality_iff (P : LP m n) (hs : P.isSef = true) (y : Fin m → ℚ) :
    verifyOptimality P (List.ofFn y) = .ok true ↔ ∀ j, P.c j - (P.A.vecMul y) j < tol := by
  simp only [verifyOptimality, hs, toVec_ofFn, Bool.not_true, Bool.false_eq_true, if_false,
    Except.ok.injEq, decide_eq_true_eq, pyCmp_le_zero_iff]

theorem verifyUnboundedness_iff (P : LP m n) (hs : P.isSef = true) (x d : Fin n → ℚ) :
    verifyUnboundedness P (List.ofFn x) (List.ofFn d) = .ok true ↔
      isFeasible P (List.ofFn x) = .ok true ∧ tol ≤ P.c ⬝ᵥ d ∧
      (∀ i, |(P.A.mulVec d) i| ≤ 1 / 10 ^ 8) ∧ ∀ j, -tol < d j := by
  have h1 : isFeasible P (List.ofFn x) = .ok (isFeasibleVec P x) := by
    simp only [isFeasible, toVec_ofFn]
  have hc : pyCmp (P.c ⬝ᵥ d) .le 0 = true ↔ ¬ tol ≤ P.c ⬝ᵥ d := by rw [pyCmp_le_zero_iff, not_le]
  simp only [verifyUnboundedness, hs, toVec_ofFn, h1, Bool.not_true, Bool.false_eq_true, if_false,
    Except.ok.injEq]
  cases h2 : isFeasibleVec P x
  · simp
  · simp only [true_and]
    by_cases h3 : tol ≤ P.c ⬝ᵥ d
    · rw [if_neg (by rw [hc]; simpa using h3)]
      have h4 : (decide (∀ i, npIsClose ((P.A.mulVec d) i) 0 = true)) = true ↔
          ∀ i, |(P.A.mulVec d) i| ≤ 1 / 10 ^ 8 := by
        simp [npIsClose_iff]
      by_cases h5 : ∀ i, |(P.A.mulVec d) i| ≤ 1 / 10 ^ 8
      · rw [if_neg (by rw [h4.mpr h5]; simp)]
        simp only [Except.ok.injEq, decide_eq_true_eq, pyCmp_ge_zero_iff]
        tauto
      · rw [if_pos (by rw [Bool.not_eq_true', Bool.eq_false_iff]; exact fun h => h5 (h4.mp h))]
        constructor
        · intro h; cases h
        · rintro ⟨_, h, _⟩; exact absurd h h5
    · rw [if_pos (hc.mpr h3)]
      simp [h3]

/-! ### C47 -/

/-- C47, up to the tolerance: if the certificate is accepted, every feasible point has coordinate sum
larger than `-(y.b) / 1e-10`. -/
theorem C47_infeasible_partial (P : LP m n) (hP : WF P) (y : Fin m → ℚ)
    (h : verifyInfeasibility P (List.ofFn y) = .ok true) (x : Fin n → ℚ) (hx : Feas P x) :
    0 < -(y ⬝ᵥ P.b) ∧ -(y ⬝ᵥ P.b) ≤ 1 / 10 ^ 10 * ∑ j, x j := by
  have hs : P.isSef = true := by
    by_contra hs
    rw [Bool.not_eq_true] at hs
    simp [verifyInfeasibility, hs] at h
  obtain ⟨h1, h2⟩ := (verifyInfeasibility_iff P hs y).mp h
  have ht := tol_pos
  refine ⟨by linarith, ?_⟩
  have hb := hx.eqs hP hs
  rw [← hb, Matrix.dotProduct_mulVec]
  have : -(P.A.vecMul y ⬝ᵥ x) = ∑ j, -(P.A.vecMul y j) * x j := by
    rw [dotProduct, ← Finset.sum_neg_distrib]
    exact Finset.sum_congr rfl fun j _ => by ring
  rw [this, Finset.mul_sum]
  refine Finset.sum_le_sum fun j _ => mul_le_mul_of_nonneg_right ?_ (hx.nonneg hP hs j)
  have := h1 j
  unfold tol at this
  linarith

/-- C47, as stated, when no entry of `y A` is a tiny negative number. Missing: certificates relying on
the tolerance, which are accepted although the program is feasible (`C47_tolerance_wrong`). -/
theorem C47_exact_partial (P : LP m n) (hP : WF P) (y : Fin m → ℚ)
    (h : verifyInfeasibility P (List.ofFn y) = .ok true)
    (he : ∀ j, (∑ i, y i * P.A i j) ≤ -(1 / 10 ^ 10) ∨ 0 ≤ ∑ i, y i * P.A i j) :
    ¬ ∃ x, Feas P x := by
  rintro ⟨x, hx⟩
  have hs : P.isSef = true := by
    by_contra hs
    rw [Bool.not_eq_true] at hs
    simp [verifyInfeasibility, hs] at h
  obtain ⟨h1, h2⟩ := (verifyInfeasibility_iff P hs y).mp h
  have ht := tol_pos
  rw [← hx.eqs hP hs, Matrix.dotProduct_mulVec] at h2
  have : 0 ≤ P.A.vecMul y ⬝ᵥ x := Finset.sum_nonneg fun j _ => by
    refine mul_nonneg ?_ (hx.nonneg hP hs j)
    rcases he j with h | h
    · exact absurd (h1 j) (not_lt.mpr h)
    · exact h
  linarith

/-- C47: every exact Farkas certificate is accepted once its gap reaches `1e-10`. -/
theorem C47_accepts (P : LP m n) (hs : P.isSef = true) (y : Fin m → ℚ)
    (h1 : ∀ j, 0 ≤ ∑ i, y i * P.A i j) (h2 : ∑ i, y i * P.b i ≤ -(1 / 10 ^ 10)) :
    verifyInfeasibility P (List.ofFn y) = .ok true := by
  rw [verifyInfeasibility_iff P hs]
  refine ⟨fun j => lt_of_lt_of_le (neg_lt_zero.mpr tol_pos) (h1 j), h2⟩

/-- C47 is false as stated: `-0.5e-10 x = -1` is feasible, yet `y = 1` is accepted. -/
theorem C47_tolerance_wrong : ∃ (P : LP 1 1) (y : List ℚ), WF P ∧
    verifyInfeasibility P y = .ok true ∧ ∃ x, Feas P x := by
  let P : LP 1 1 := ⟨fun _ _ => -(1 / (2 * 10 ^ 10)), fun _ => -1, fun _ => 0, 0, .max, fun _ => .eq, [], [], true⟩
  have hP : WF P := ⟨List.Pairwise.nil, List.Pairwise.nil, by simp [P], by simp [P], by simp [P],
    by simp [P, sefFlag]⟩
  refine ⟨P, List.ofFn fun _ : Fin 1 => 1, hP, ?_, fun _ => 2 * 10 ^ 10, ?_⟩
  · rw [verifyInfeasibility_iff P rfl]
    refine ⟨fun j => ?_, ?_⟩
    · simp [Matrix.vecMul, dotProduct, P, tol]; norm_num
    · simp [dotProduct, P, tol]; norm_num
  · rw [feas_sef_iff hP rfl]
    refine ⟨?_, fun j => by norm_num⟩
    funext i
    simp [Matrix.mulVec, dotProduct, P]; norm_num

/-- Outside SEF the check is refused. -/
theorem C47_requires_sef (P : LP m n) (hs : P.isSef = false) (y : List ℚ) :
    verifyInfeasibility P y = .error .arithmeticError := by simp [verifyInfeasibility, hs]

/-- A concrete certificate: `x1 + x2 = -1` with `y = 1`. -/
example : verifyInfeasibility (⟨!![1, 1], ![-1], ![0, 0], 0, .max, ![.eq], [], [], true⟩ : LP 1 2) [1] = .ok true ∧
    ∀ j : Fin 2, 0 ≤ ∑ i : Fin 1, ![1] i * (!![1, 1] : Matrix (Fin 1) (Fin 2) ℚ) i j := by
  refine ⟨by decide +kernel, fun j => ?_⟩
  fin_cases j <;> simp

/-! ### C48 -/

/-- C48, as stated, when the two certificate vectors are exact: `x` feasible, `A d = 0`, `d ≥ 0`.
Missing: vectors accepted only within the tolerances (`C48_tolerance_wrong`). -/
theorem C48_exact_partial (P : LP m n) (hP : WF P) (x d : Fin n → ℚ)
    (h : verifyUnboundedness P (List.ofFn x) (List.ofFn d) = .ok true)
    (hx : Feas P x) (hd : ∀ j, 0 ≤ d j) (hA : ∀ i, ∑ j, P.A i j * d j = 0) :
    ∀ M : ℚ, ∃ t : ℚ, 0 ≤ t ∧ Feas P (fun j => x j + t * d j) ∧ M < objVal P (fun j => x j + t * d j) := by
  have hs : P.isSef = true := by
    by_contra hs
    rw [Bool.not_eq_true] at hs
    simp [verifyUnboundedness, hs] at h
  obtain ⟨_, h1, _, _⟩ := (verifyUnboundedness_iff P hs x d).mp h
  have hpos : 0 < P.c ⬝ᵥ d := lt_of_lt_of_le tol_pos h1
  intro M
  have hlin : ∀ t : ℚ, objVal P (fun j => x j + t * d j) = objVal P x + t * (P.c ⬝ᵥ d) := by
    intro t
    have : (fun j => x j + t * d j) = x + t • d := by funext j; simp
    unfold objVal
    rw [this, dotProduct_add, dotProduct_smul, smul_eq_mul]
    ring
  refine ⟨max 0 ((M - objVal P x + 1) / (P.c ⬝ᵥ d)), le_max_left _ _, ?_, ?_⟩
  · rw [feas_sef_iff hP hs] at hx ⊢
    refine ⟨?_, fun j => add_nonneg (hx.2 j) (mul_nonneg (le_max_left _ _) (hd j))⟩
    have : ∀ t : ℚ, (fun j => x j + t * d j) = x + t • d := fun t => by funext j; simp
    rw [this, Matrix.mulVec_add, Matrix.mulVec_smul, hx.1]
    have hA' : P.A.mulVec d = 0 := funext hA
    rw [hA', smul_zero, add_zero]
  · rw [hlin]
    have h2 : (M - objVal P x + 1) / (P.c ⬝ᵥ d) * (P.c ⬝ᵥ d) = M - objVal P x + 1 :=
      div_mul_cancel₀ _ (ne_of_gt hpos)
    have h3 : (M - objVal P x + 1) / (P.c ⬝ᵥ d) * (P.c ⬝ᵥ d)
        ≤ max 0 ((M - objVal P x + 1) / (P.c ⬝ᵥ d)) * (P.c ⬝ᵥ d) :=
      mul_le_mul_of_nonneg_right (le_max_right _ _) hpos.le
    linarith

/-- C48: what acceptance guarantees without exactness assumptions. -/
theorem C48_tolerance_partial (P : LP m n) (x d : Fin n → ℚ)
    (h : verifyUnboundedness P (List.ofFn x) (List.ofFn d) = .ok true) :
    isFeasible P (List.ofFn x) = .ok true ∧ 1 / 10 ^ 10 ≤ ∑ j, P.c j * d j ∧
      (∀ i, |∑ j, P.A i j * d j| ≤ 1 / 10 ^ 8) ∧ ∀ j, -(1 / 10 ^ 10) < d j := by
  have hs : P.isSef = true := by
    by_contra hs
    rw [Bool.not_eq_true] at hs
    simp [verifyUnboundedness, hs] at h
  exact (verifyUnboundedness_iff P hs x d).mp h

/-- C48: every exact certificate with gain at least `1e-10` is accepted. -/
theorem C48_accepts (P : LP m n) (hP : WF P) (hs : P.isSef = true) (x d : Fin n → ℚ) (hx : Feas P x)
    (hd : ∀ j, 0 ≤ d j) (hA : ∀ i, ∑ j, P.A i j * d j = 0) (hc : 1 / 10 ^ 10 ≤ ∑ j, P.c j * d j) :
    verifyUnboundedness P (List.ofFn x) (List.ofFn d) = .ok true := by
  rw [verifyUnboundedness_iff P hs]
  refine ⟨?_, hc, fun i => ?_, fun j => lt_of_lt_of_le (neg_lt_zero.mpr tol_pos) (hd j)⟩
  · obtain ⟨h1, h2⟩ := (feas_sef_iff hP hs).mp hx
    simp only [isFeasible, toVec_ofFn, Except.ok.injEq, isFeasibleVec, hs, if_true, Bool.and_eq_true,
      decide_eq_true_eq]
    refine ⟨fun j => ?_, fun i => ?_⟩
    · rw [pyCmp_ge_zero_iff]; exact lt_of_lt_of_le (neg_lt_zero.mpr tol_pos) (h2 j)
    · rw [h1]; exact npIsClose_self _
  · have : (P.A.mulVec d) i = 0 := hA i
    rw [this]; norm_num

/-- C48 is false as stated: `max x` subject to `1e-9 x = 0` has the single feasible point `0`, yet
`x = 0`, `d = 1` is accepted. -/
theorem C48_tolerance_wrong : ∃ (P : LP 1 1) (x d : List ℚ), WF P ∧
    verifyUnboundedness P x d = .ok true ∧ ¬ Unbounded P := by
  let P : LP 1 1 := ⟨fun _ _ => 1 / 10 ^ 9, fun _ => 0, fun _ => 1, 0, .max, fun _ => .eq, [], [], true⟩
  have hP : WF P := ⟨List.Pairwise.nil, List.Pairwise.nil, by simp [P], by simp [P], by simp [P],
    by simp [P, sefFlag]⟩
  refine ⟨P, List.ofFn fun _ : Fin 1 => 0, List.ofFn fun _ : Fin 1 => 1, hP, ?_, ?_⟩
  · rw [verifyUnboundedness_iff P rfl]
    refine ⟨?_, ?_, fun i => ?_, fun j => ?_⟩
    · simp [isFeasible, isFeasibleVec, toVec, P, pyCmp, npIsClose, Matrix.mulVec, dotProduct]
    · simp [dotProduct, P, tol]; norm_num
    · simp only [Matrix.mulVec, dotProduct, P]
      simp
      norm_num
    · simp [tol]; norm_num
  · intro h
    obtain ⟨x, hx, hM⟩ := h 0
    have h1 := congrFun (hx.eqs hP rfl) 0
    simp [Matrix.mulVec, dotProduct, P] at h1
    simp [objVal, dotProduct, P, h1] at hM

/-- Outside SEF the check is refused. -/
theorem C48_requires_sef (P : LP m n) (hs : P.isSef = false) (x d : List ℚ) :
    verifyUnboundedness P x d = .error .arithmeticError := by simp [verifyUnboundedness, hs]

/-- A concrete certificate: `max x1` subject to `x1 - x2 = 0`. -/
example : verifyUnboundedness (⟨!![1, -1], ![0], ![1, 0], 0, .max, ![.eq], [], [], true⟩ : LP 1 2) [0, 0] [1, 1]
    = .ok true := by decide +kernel

/-! ### C49 -/

/-- C49, up to the tolerance: an accepted `y` bounds the objective by `y.b + z + 1e-10 * sum(x)`. -/
theorem C49_bound_partial (P : LP m n) (hP : WF P) (y : Fin m → ℚ)
    (h : verifyOptimality P (List.ofFn y) = .ok true) (x : Fin n → ℚ) (hx : Feas P x) :
    objVal P x ≤ (∑ i, y i * P.b i) + P.z + 1 / 10 ^ 10 * ∑ j, x j := by
  have hs : P.isSef = true := by
    by_contra hs
    rw [Bool.not_eq_true] at hs
    simp [verifyOptimality, hs] at h
  have h1 := (verifyOptimality_iff P hs y).mp h
  have hb : ∑ i, y i * P.b i = P.A.vecMul y ⬝ᵥ x := by
    rw [← hx.eqs hP hs, ← Matrix.dotProduct_mulVec]; rfl
  have : P.c ⬝ᵥ x ≤ P.A.vecMul y ⬝ᵥ x + 1 / 10 ^ 10 * ∑ j, x j := by
    rw [Finset.mul_sum, dotProduct, dotProduct, ← Finset.sum_add_distrib]
    refine Finset.sum_le_sum fun j _ => ?_
    rw [← add_mul]
    refine mul_le_mul_of_nonneg_right ?_ (hx.nonneg hP hs j)
    have := h1 j
    unfold tol at this
    linarith
  rw [hb, objVal]
  linarith

/-- C49, as stated, when no reduced cost `c - y A` is a tiny positive number. Missing: vectors relying on
the tolerance (`C49_tolerance_wrong`). -/
theorem C49_exact_partial (P : LP m n) (hP : WF P) (y : Fin m → ℚ)
    (h : verifyOptimality P (List.ofFn y) = .ok true)
    (he : ∀ j, P.c j - (∑ i, y i * P.A i j) ≤ 0 ∨ 1 / 10 ^ 10 ≤ P.c j - ∑ i, y i * P.A i j)
    (x : Fin n → ℚ) (hx : Feas P x) :
    objVal P x ≤ (∑ i, y i * P.b i) + P.z ∧
    (objVal P x = (∑ i, y i * P.b i) + P.z → ∀ x', Feas P x' → objVal P x' ≤ objVal P x) := by
  have hs : P.isSef = true := by
    by_contra hs
    rw [Bool.not_eq_true] at hs
    simp [verifyOptimality, hs] at h
  have h1 := (verifyOptimality_iff P hs y).mp h
  have key : ∀ x, Feas P x → objVal P x ≤ (∑ i, y i * P.b i) + P.z := by
    intro x hx
    have hb : ∑ i, y i * P.b i = P.A.vecMul y ⬝ᵥ x := by
      rw [← hx.eqs hP hs, ← Matrix.dotProduct_mulVec]; rfl
    have : P.c ⬝ᵥ x ≤ P.A.vecMul y ⬝ᵥ x := by
      refine Finset.sum_le_sum fun j _ => mul_le_mul_of_nonneg_right ?_ (hx.nonneg hP hs j)
      rcases he j with h | h
      · have h' : P.c j - P.A.vecMul y j ≤ 0 := h
        linarith
      · exact absurd (h1 j) (not_lt.mpr h)
    rw [hb, objVal]
    linarith
  exact ⟨key x hx, fun he x' hx' => he ▸ key x' hx'⟩

/-- C49: every exactly dual feasible vector is accepted. -/
theorem C49_accepts (P : LP m n) (hs : P.isSef = true) (y : Fin m → ℚ)
    (h : ∀ j, P.c j ≤ ∑ i, y i * P.A i j) : verifyOptimality P (List.ofFn y) = .ok true := by
  rw [verifyOptimality_iff P hs]
  intro j
  have h' : P.c j ≤ P.A.vecMul y j := h j
  have := tol_pos
  linarith

/-- C49 is false as stated: `max 0.5e-10 x` subject to `0 x = 0` is unbounded, yet `y = 0` is accepted. -/
theorem C49_tolerance_wrong : ∃ (P : LP 1 1) (y x : Fin 1 → ℚ), WF P ∧
    verifyOptimality P (List.ofFn y) = .ok true ∧ Feas P x ∧ (∑ i, y i * P.b i) + P.z < objVal P x := by
  let P : LP 1 1 := ⟨fun _ _ => 0, fun _ => 0, fun _ => 1 / (2 * 10 ^ 10), 0, .max, fun _ => .eq, [], [], true⟩
  have hP : WF P := ⟨List.Pairwise.nil, List.Pairwise.nil, by simp [P], by simp [P], by simp [P],
    by simp [P, sefFlag]⟩
  refine ⟨P, fun _ => 0, fun _ => 1, hP, ?_, ?_, ?_⟩
  · rw [verifyOptimality_iff P rfl]
    intro j
    simp [Matrix.vecMul, dotProduct, P, tol]; norm_num
  · rw [feas_sef_iff hP rfl]
    refine ⟨?_, fun j => by norm_num⟩
    funext i
    simp [Matrix.mulVec, dotProduct, P]
  · simp [objVal, dotProduct, P]

/-- Outside SEF the check is refused. -/
theorem C49_requires_sef (P : LP m n) (hs : P.isSef = false) (y : List ℚ) :
    verifyOptimality P y = .error .arithmeticError := by simp [verifyOptimality, hs]

/-- A concrete certificate: `max x1` subject to `x1 + x2 = 3`, `y = 1`. -/
example : verifyOptimality (⟨!![1, 1], ![3], ![1, 0], 0, .max, ![.eq], [], [], true⟩ : LP 1 2) [1] = .ok true := by
  decide +kernel

end Props
end Pytimize
