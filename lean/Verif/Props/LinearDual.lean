/-
Properties C32-C34: conversion to standard equality form and duality.
-/
import Mathlib.Tactic.FieldSimp
import Mathlib.Tactic.FinCases
import Mathlib.Data.Matrix.Mul
import Verif.LP.Verify

namespace Pytimize
namespace Props
open LinProg Comparator

variable {m n : ℕ}

/-! ### C32 -/

/-- C32: the converted program is in standard equality form, its feasible points are mapped by the
recorded reversal onto the feasible points of the original, and objective values agree up to sign.
For a minimisation the constant is not negated: the value is `-(c.x) + z`, that is
`-(objective at x) + 2 z`. Missing from the full statement: minimisations with `z ≠ 0`, where the
values disagree (`C32_min_constant_wrong`). -/
theorem C32_to_sef_partial (P : LP m n) (hP : WF P) :
    ((toSef P).lp.isSef = true ∧ (toSef P).lp.objective = .max ∧ (∀ i, (toSef P).lp.ineq i = .eq) ∧
      (toSef P).lp.free = [] ∧ (toSef P).lp.neg = []) ∧
    (∀ s, Feas (toSef P).lp s → ∃ x : Fin n → ℚ, reverseSol (toSef P).rev s = List.ofFn x ∧ Feas P x ∧
      (P.objective = .max → objVal (toSef P).lp s = objVal P x) ∧
      (P.objective = .min → objVal (toSef P).lp s = -objVal P x + 2 * P.z)) ∧
    (∀ x : Fin n → ℚ, Feas P x → ∃ s, Feas (toSef P).lp s ∧ reverseSol (toSef P).rev s = List.ofFn x) := by
  have h1 := toSef_isSef P
  have h2 := (hP.toSef).isSef_iff.mp h1
  refine ⟨⟨h1, h2.2.2.2, h2.1, h2.2.1, h2.2.2.1⟩, ?_, ?_⟩
  · cases hs : P.isSef with
    | true =>
      have e : toSef P = ⟨n, P, none⟩ := by simp [toSef, hs]
      rw [e]
      intro s hf
      refine ⟨s, rfl, hf, fun _ => rfl, fun h => ?_⟩
      rw [(hP.isSef_iff.mp hs).2.2.2] at h
      cases h
    | false =>
      intro s hf
      have hz : (toSef P).lp.z = P.z := by unfold toSef; rw [if_neg (by simp [hs])]
      have ho := sef_obj P hP hs s
      refine ⟨_, reverseSol_eq P hP hs s, sef_back P hP hs s hf, fun h => ?_, fun h => ?_⟩
      · unfold objVal
        rw [ho, hz, sefC, if_neg (by rw [h]; simp)]
      · unfold objVal
        rw [ho, hz, sefC, if_pos h]
        have : (fun j => -P.c j) ⬝ᵥ (fun j : Fin n => backN P (ext s) j)
            = -(P.c ⬝ᵥ fun j : Fin n => backN P (ext s) j) := neg_dotProduct _ _
        rw [this]
        ring
  · intro x hf
    cases hs : P.isSef with
    | true =>
      have e : toSef P = ⟨n, P, none⟩ := by simp [toSef, hs]
      rw [e]
      exact ⟨x, hf, rfl⟩
    | false =>
      obtain ⟨s, h1, h2⟩ := sef_onto P hP hs x hf
      exact ⟨s, h1, by rw [reverseSol_eq P hP hs s, h2]⟩

/-- C32 for maximisations and for programs without constant, as stated. -/
theorem C32_no_constant_partial (P : LP m n) (hP : WF P) (h : P.objective = .max ∨ P.z = 0) (s)
    (hf : Feas (toSef P).lp s) :
    ∃ x : Fin n → ℚ, reverseSol (toSef P).rev s = List.ofFn x ∧ Feas P x ∧
      objVal (toSef P).lp s = (if P.objective = .max then objVal P x else -objVal P x) := by
  obtain ⟨x, h1, h2, h3, h4⟩ := (C32_to_sef_partial P hP).2.1 s hf
  refine ⟨x, h1, h2, ?_⟩
  cases ho : P.objective with
  | max => rw [if_pos rfl]; exact h3 ho
  | min =>
    rw [if_neg (by simp), h4 ho]
    rcases h with h | h
    · rw [ho] at h; cases h
    · rw [h]; ring

/-- C32 is false for `min x + 1`: the converted program `max -x + 1` is not the negated objective. -/
theorem C32_min_constant_wrong : ∃ (P : LP 1 1) (s : Fin (toSef P).n → ℚ) (x : Fin 1 → ℚ), WF P ∧
    Feas (toSef P).lp s ∧ Feas P x ∧ reverseSol (toSef P).rev s = List.ofFn x ∧
    objVal (toSef P).lp s ≠ -objVal P x := by
  let P : LP 1 1 := ⟨fun _ _ => 1, fun _ => 1, fun _ => 1, 1, .min, fun _ => .eq, [], [], false⟩
  have hP : WF P := ⟨List.Pairwise.nil, List.Pairwise.nil, by simp [P], by simp [P], by simp [P],
    by simp [P, sefFlag]⟩
  have hx : Feas P (fun _ => 1) := ⟨fun i => by simp [P, rowHolds, Matrix.mulVec, dotProduct],
    fun j hj => by simp [P] at hj, fun j _ _ => by norm_num⟩
  obtain ⟨s, h1, h2⟩ := (C32_to_sef_partial P hP).2.2 _ hx
  obtain ⟨x', h3, _, _, h4⟩ := (C32_to_sef_partial P hP).2.1 s h1
  have hxx : x' = fun _ => 1 := by
    have := h3.symm.trans h2
    exact List.ofFn_injective this
  refine ⟨P, s, fun _ => 1, hP, h1, hx, h2, ?_⟩
  rw [h4 rfl, hxx]
  simp [P, objVal, dotProduct]

/-- A concrete program with a free and a negative variable and an inequality satisfies the hypotheses:
its SEF has four columns and the reversal of `(1, 3, 1, 2)` is `(-2, -1)`. -/
example : (toSef (⟨!![1, 1], ![-1], ![1, 1], 0, .min, ![.le], [0], [1], false⟩ : LP 1 2)).n = 4 ∧
    reverseSol (some ⟨1, [0], [1]⟩) ![1, 3, 1, 2] = [-2, -1] ∧
    (toSef (⟨!![1, 1], ![-1], ![1, 1], 0, .min, ![.le], [0], [1], false⟩ : LP 1 2)).rev
      = some ⟨1, [0], [1]⟩ := by
  refine ⟨by decide +kernel, by decide +kernel, rfl⟩

example : WF (⟨!![1, 1], ![-1], ![1, 1], 0, .min, ![.le], [0], [1], false⟩ : LP 1 2) :=
  ⟨by simp, by simp, by simp, by simp, by simp, by simp [sefFlag]⟩

/-! ### C33 -/

theorem dual_free_iff (P : LP m n) (i : Fin m) : (i : ℕ) ∈ (dual P).free ↔ P.ineq i = .eq := by
  simp [dual]

theorem dual_neg_iff (P : LP m n) (i : Fin m) : (i : ℕ) ∈ (dual P).neg ↔
    (P.ineq i = .ge ∧ P.objective = .max) ∨ (P.ineq i = .le ∧ P.objective = .min) := by
  simp [dual]

/-- The two sums of weak duality. -/
theorem weak_sums (P : LP m n) (x : Fin n → ℚ) (y : Fin m → ℚ) :
    ∑ j, (P.A.transpose.mulVec y) j * x j = ∑ i, y i * (P.A.mulVec x) i := by
  have h1 : ∑ j, (P.A.transpose.mulVec y) j * x j = (P.A.transpose.mulVec y) ⬝ᵥ x := rfl
  have h2 : ∑ i, y i * (P.A.mulVec x) i = y ⬝ᵥ P.A.mulVec x := rfl
  rw [h1, h2, Matrix.mulVec_transpose, Matrix.dotProduct_mulVec]

/-- Weak duality for a maximisation, without the constant. -/
theorem weak_max (P : LP m n) (ho : P.objective = .max) {x : Fin n → ℚ} {y : Fin m → ℚ}
    (hx : Feas P x) (hy : Feas (dual P) y) : P.c ⬝ᵥ x ≤ P.b ⬝ᵥ y := by
  have s1 : P.c ⬝ᵥ x ≤ ∑ j, (P.A.transpose.mulVec y) j * x j := by
    refine Finset.sum_le_sum fun j _ => ?_
    have := hy.rows j
    by_cases hj : (j : ℕ) ∈ P.neg
    · simp only [dual, hj, if_true, ho, rowHolds] at this
      exact mul_le_mul_of_nonpos_right this (hx.negs j hj)
    · by_cases hf : (j : ℕ) ∈ P.free
      · simp only [dual, hj, if_false, hf, not_true, rowHolds] at this
        rw [this]
      · simp only [dual, hj, if_false, hf, not_false_eq_true, if_true, ho, rowHolds] at this
        exact mul_le_mul_of_nonneg_right this (hx.poss j hj hf)
  have s2 : ∑ i, y i * (P.A.mulVec x) i ≤ P.b ⬝ᵥ y := by
    refine Finset.sum_le_sum fun i _ => ?_
    rw [mul_comm (P.b i)]
    have := hx.rows i
    cases hq : P.ineq i
    · rw [hq] at this; simp only [rowHolds] at this; rw [this]
    · rw [hq] at this
      have hy' := hy.poss i (by rw [dual_neg_iff, hq, ho]; simp) (by rw [dual_free_iff, hq]; simp)
      exact mul_le_mul_of_nonneg_left this hy'
    · rw [hq] at this
      have hy' := hy.negs i (by rw [dual_neg_iff, hq, ho]; simp)
      exact mul_le_mul_of_nonpos_left this hy'
  rw [weak_sums] at s1
  exact s1.trans s2

/-- Weak duality for a minimisation, without the constant. -/
theorem weak_min (P : LP m n) (ho : P.objective = .min) {x : Fin n → ℚ} {y : Fin m → ℚ}
    (hx : Feas P x) (hy : Feas (dual P) y) : P.b ⬝ᵥ y ≤ P.c ⬝ᵥ x := by
  have s1 : ∑ j, (P.A.transpose.mulVec y) j * x j ≤ P.c ⬝ᵥ x := by
    refine Finset.sum_le_sum fun j _ => ?_
    have := hy.rows j
    by_cases hj : (j : ℕ) ∈ P.neg
    · simp only [dual, hj, if_true, ho, reduceCtorEq, if_false, rowHolds] at this
      exact mul_le_mul_of_nonpos_right this (hx.negs j hj)
    · by_cases hf : (j : ℕ) ∈ P.free
      · simp only [dual, hj, if_false, hf, not_true, rowHolds] at this
        rw [this]
      · simp only [dual, hj, if_false, hf, not_false_eq_true, if_true, ho, reduceCtorEq, rowHolds] at this
        exact mul_le_mul_of_nonneg_right this (hx.poss j hj hf)
  have s2 : P.b ⬝ᵥ y ≤ ∑ i, y i * (P.A.mulVec x) i := by
    refine Finset.sum_le_sum fun i _ => ?_
    rw [mul_comm (P.b i)]
    have := hx.rows i
    cases hq : P.ineq i
    · rw [hq] at this; simp only [rowHolds] at this; rw [this]
    · rw [hq] at this
      have hy' := hy.negs i (by rw [dual_neg_iff, hq, ho]; simp)
      exact mul_le_mul_of_nonpos_left this hy'
    · rw [hq] at this
      have hy' := hy.poss i (by rw [dual_neg_iff, hq, ho]; simp) (by rw [dual_free_iff, hq]; simp)
      exact mul_le_mul_of_nonneg_left this hy'
  rw [← weak_sums] at s2
  exact s2.trans s1

/-- C33: weak duality. `dual()` drops the constant, so the constant of the program has to be added
on the dual side; the statement as given holds when `z = 0` (`C33_weak_zero_partial`) and fails otherwise
(`C33_constant_wrong`). -/
theorem C33_weak_partial (P : LP m n) (x : Fin n → ℚ) (y : Fin m → ℚ) (hx : Feas P x)
    (hy : Feas (dual P) y) (u v : ℚ) (hu : evaluate P (List.ofFn x) = .ok u)
    (hv : evaluate (dual P) (List.ofFn y) = .ok v) :
    (P.objective = .max → u ≤ v + P.z) ∧ (P.objective = .min → u ≥ v + P.z) := by
  simp only [evaluate, toVec_ofFn, Except.ok.injEq] at hu hv
  have hv' : P.b ⬝ᵥ y + 0 = v := hv
  constructor <;> intro ho
  · have := weak_max P ho hx hy; linarith
  · have := weak_min P ho hx hy; linarith

theorem C33_weak_zero_partial (P : LP m n) (hz : P.z = 0) (x : Fin n → ℚ) (y : Fin m → ℚ) (hx : Feas P x)
    (hy : Feas (dual P) y) (u v : ℚ) (hu : evaluate P (List.ofFn x) = .ok u)
    (hv : evaluate (dual P) (List.ofFn y) = .ok v) :
    (P.objective = .max → u ≤ v) ∧ (P.objective = .min → u ≥ v) := by
  have := C33_weak_partial P x y hx hy u v hu hv
  rwa [hz, add_zero] at this

/-- C33 is false with a constant: `max 0 x + 1` subject to `x <= 0`. -/
theorem C33_constant_wrong : ∃ (P : LP 1 1) (x y : Fin 1 → ℚ), WF P ∧ P.objective = .max ∧ Feas P x ∧
    Feas (dual P) y ∧ evaluate P (List.ofFn x) = .ok 1 ∧ evaluate (dual P) (List.ofFn y) = .ok 0 := by
  let P : LP 1 1 := ⟨fun _ _ => 1, fun _ => 0, fun _ => 0, 1, .max, fun _ => .le, [], [], false⟩
  refine ⟨P, fun _ => 0, fun _ => 0, ⟨List.Pairwise.nil, List.Pairwise.nil, by simp [P], by simp [P],
    by simp [P], by simp [P, sefFlag]⟩, rfl, ?_, ?_, ?_, ?_⟩
  · exact ⟨fun i => by simp [P, rowHolds, Matrix.mulVec, dotProduct], fun j hj => by simp [P] at hj,
      fun j _ _ => le_rfl⟩
  · exact ⟨fun i => by simp [P, dual, rowHolds, Matrix.mulVec, dotProduct],
      fun j hj => le_rfl, fun j _ _ => le_rfl⟩
  · simp only [evaluate, toVec_ofFn]; simp [P, dotProduct]
  · simp only [evaluate, toVec_ofFn]; simp [P, dual, dotProduct]

/-- A concrete pair of feasible points: `max x1` s.t. `x1 + x2 <= 3`, `x2` negative. -/
example : Feas (⟨!![1, 1], ![3], ![1, 0], 0, .max, ![.le], [], [1], false⟩ : LP 1 2) ![3, -1] ∧
    Feas (dual (⟨!![1, 1], ![3], ![1, 1], 0, .max, ![.le], [], [1], false⟩ : LP 1 2)) ![1] := by
  constructor
  · refine ⟨fun i => ?_, fun j hj => ?_, fun j hj _ => ?_⟩
    · fin_cases i; simp [rowHolds]
    · fin_cases j
      · simp at hj
      · norm_num
    · fin_cases j
      · norm_num
      · simp at hj
  · refine ⟨fun i => ?_, fun j hj => ?_, fun j hj _ => ?_⟩
    · fin_cases i <;> simp [dual, rowHolds, Matrix.mulVec, dotProduct]
    · rw [dual_neg_iff] at hj
      fin_cases j; simp at hj
    · fin_cases j; norm_num

/-! ### C34 -/

theorem sorted_eq {l k : List ℕ} (hl : l.Pairwise (· < ·)) (hk : k.Pairwise (· < ·))
    (h : ∀ a, a ∈ l ↔ a ∈ k) : l = k := by
  have hp : l.Perm k := (List.perm_ext_iff_of_nodup (hl.imp fun h => ne_of_lt h)
    (hk.imp fun h => ne_of_lt h)).mpr h
  exact List.Perm.eq_of_pairwise (le := fun a b => a < b)
    (fun a b _ _ h1 h2 => absurd (h1.trans h2) (lt_irrefl _)) hl hk hp

/-- C34 except for the constant, which `dual()` replaces by `0`. -/
theorem C34_involution_partial (P : LP m n) (hP : WF P) : dual (dual P) = { P with z := 0 } := by
  have e1 : (dual (dual P)).objective = P.objective := by
    cases h : P.objective <;> simp [dual, h]
  have e2 : (dual (dual P)).ineq = P.ineq := by
    funext i
    have hd : (dual (dual P)).ineq i = if (i : ℕ) ∈ (dual P).neg then
        (if (dual P).objective = .max then .le else .ge)
      else if (i : ℕ) ∉ (dual P).free then (if (dual P).objective = .max then .ge else .le)
      else .eq := rfl
    simp only [hd, dual_neg_iff, dual_free_iff]
    have ho : (dual P).objective = if P.objective = .max then .min else .max := rfl
    simp only [ho]
    cases P.ineq i <;> cases P.objective <;> simp
  have ineqd : ∀ j : Fin n, (dual P).ineq j = if (j : ℕ) ∈ P.neg then (if P.objective = .max then .le else .ge)
    else if (j : ℕ) ∉ P.free then (if P.objective = .max then .ge else .le)
    else .eq := fun j => rfl
  have od : (dual P).objective = if P.objective = .max then .min else .max := rfl
  have e3 : (dual (dual P)).free = P.free := by
    refine sorted_eq (WF.dual _).freeSorted hP.freeSorted fun a => ?_
    by_cases ha : a < n
    · have := dual_free_iff (dual P) ⟨a, ha⟩
      simp only at this
      rw [this, ineqd]
      simp only
      by_cases h1 : a ∈ P.neg
      · have h2 : a ∉ P.free := fun h => hP.disj a h h1
        simp only [h1, h2, if_true]
        cases P.objective <;> simp
      · by_cases h2 : a ∈ P.free
        · simp [h1, h2]
        · simp only [h1, h2, if_false, not_false_eq_true, if_true]
          cases P.objective <;> simp
    · exact ⟨fun h => absurd ((WF.dual (dual P)).freeLt a h) ha, fun h => absurd (hP.freeLt a h) ha⟩
  have e4 : (dual (dual P)).neg = P.neg := by
    refine sorted_eq (WF.dual _).negSorted hP.negSorted fun a => ?_
    by_cases ha : a < n
    · have := dual_neg_iff (dual P) ⟨a, ha⟩
      simp only at this
      rw [this, ineqd, od]
      simp only
      by_cases h1 : a ∈ P.neg
      · simp only [h1, if_true]
        cases P.objective <;> simp
      · by_cases h2 : a ∈ P.free
        · simp [h1, h2]
        · simp only [h1, h2, if_false, not_false_eq_true, if_true]
          cases P.objective <;> simp
    · exact ⟨fun h => absurd ((WF.dual (dual P)).negLt a h) ha, fun h => absurd (hP.negLt a h) ha⟩
  have e5 : (dual (dual P)).isSef = P.isSef := by
    rw [(WF.dual (dual P)).sef, e1, e2, e3, e4, hP.sef]
  have : dual (dual P) = ⟨P.A, P.b, P.c, 0, (dual (dual P)).objective, (dual (dual P)).ineq,
    (dual (dual P)).free, (dual (dual P)).neg, (dual (dual P)).isSef⟩ := rfl
  rw [this, e1, e2, e3, e4, e5]

/-- C34 as stated, for programs without constant. -/
theorem C34_zero_partial (P : LP m n) (hP : WF P) (hz : P.z = 0) : dual (dual P) = P := by
  rw [C34_involution_partial P hP]
  cases P; simp_all

/-- C34 is false for every program with a constant. -/
theorem C34_constant_wrong (P : LP m n) (hz : P.z ≠ 0) : (dual (dual P)).z ≠ P.z := fun h => hz h.symm

/-- A concrete well-formed program with all kinds of rows and variables. -/
example : WF (⟨!![1, 1, 1; 1, 0, 2; 0, 3, 4], ![3, 1, 2], ![1, 1, 1], 0, .min, ![.le, .ge, .eq], [0], [2], false⟩
    : LP 3 3) := ⟨by simp, by simp, by simp, by simp, by simp, by decide⟩

end Props
end Pytimize
