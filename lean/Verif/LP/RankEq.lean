/-
Independent rows of the SEF in terms of the equations of the program.
-/
import Mathlib.LinearAlgebra.Matrix.Rank
import Verif.LP.Rank
import Verif.LP.Origin

namespace Pytimize
namespace LinProg

open Comparator Matrix
open Props

variable {m n : ℕ}

/-- No combination of the rows vanishes exactly if some columns form a nonsingular matrix. -/
theorem nonsing_iff_left (P : LP m n) : (∃ B, Nonsing P B) ↔ ∀ y, P.A.vecMul y = 0 → y = 0 := by
  constructor
  · rintro ⟨B, hB⟩ y hy
    have h : (colSel P.A B).vecMul y = 0 := by
      funext i
      exact congrFun hy (B i)
    exact eq_zero_of_vecMul_eq_zero hB h
  · intro h
    have hli : LinearIndependent ℚ P.A.row := by
      rw [Fintype.linearIndependent_iff]
      intro y hy i
      have : P.A.vecMul y = 0 := by
        funext j
        have := congrFun hy j
        simpa [vecMul, dotProduct, Finset.sum_apply] using this
      exact congrFun (h y this) i
    refine exists_nonsing_of_surj P fun v => ?_
    have hr : P.A.rank = m := by
      have := hli.rank_matrix
      simpa using this
    have hs : Function.Surjective P.A.mulVecLin := by
      rw [← LinearMap.range_eq_top]
      apply Submodule.eq_top_of_finrank_eq
      rw [Module.finrank_fin_fun]
      exact hr
    obtain ⟨s, hs⟩ := hs v
    exact ⟨s, hs⟩

/-- The equations of the program are independent: no combination of them vanishes. -/
def EqIndep (P : LP m n) : Prop :=
  ∀ y : Fin m → ℚ, (∀ i, P.ineq i ≠ .eq → y i = 0) → (∀ j, ∑ i, y i * P.A i j = 0) → ∀ i, y i = 0

theorem sefCols_rhs (P : LP m n) (b : Fin m → ℚ) : sefCols { P with b := b } = sefCols P := rfl

/-- What the columns of the SEF reach. -/
theorem sef_reach (P : LP m n) (hP : WF P) (hs : P.isSef = false) (b : Fin m → ℚ) {x : Fin n → ℚ}
    (h : Feas { P with b := b } x) : ∃ s, (toSef P).lp.A.mulVec s = b := by
  have hw : WF { P with b := b } := ⟨hP.freeSorted, hP.negSorted, hP.freeLt, hP.negLt, hP.disj, hP.sef⟩
  obtain ⟨s, h1, -⟩ := sef_onto _ hw hs x h
  have e1 : toSef P = ⟨(sefCols P).n,
      { A := fun r j => (sefCols P).A r j, b := P.b, c := fun j => (sefCols P).c j, z := P.z,
        objective := .max, ineq := fun _ => .eq, free := [], neg := [], isSef := true },
      some ⟨((List.finRange m).filter fun i => decide (P.ineq i ≠ .eq)).length,
        concatOf P.free 0, P.neg⟩⟩ := by simp [toSef, hs]
  have e2 : toSef { P with b := b } = ⟨(sefCols P).n,
      { A := fun r j => (sefCols P).A r j, b := b, c := fun j => (sefCols P).c j, z := P.z,
        objective := .max, ineq := fun _ => .eq, free := [], neg := [], isSef := true },
      some ⟨((List.finRange m).filter fun i => decide (P.ineq i ≠ .eq)).length,
        concatOf P.free 0, P.neg⟩⟩ := by
    simp [toSef, hs, sefCols_rhs]
    rfl
  revert s
  rw [e1, e2]
  intro s h1
  exact ⟨s, funext fun i => h1.rows i⟩

theorem sef_left (P : LP m n) (hP : WF P) (hs : P.isSef = false) (y : Fin m → ℚ) :
    (toSef P).lp.A.vecMul y = 0 ↔ (∀ i, P.ineq i ≠ .eq → y i = 0) ∧ ∀ j, ∑ i, y i * P.A i j = 0 := by
  constructor
  · intro h
    have hz : ∀ (b : Fin m → ℚ) (x : Fin n → ℚ), Feas { P with b := b } x → y ⬝ᵥ b = 0 := by
      intro b x hx
      obtain ⟨s, rfl⟩ := sef_reach P hP hs b hx
      rw [dotProduct_mulVec, h, zero_dotProduct]
    constructor
    · intro i hi
      have := hz (Pi.single i (slackSign (P.ineq i))) 0 ⟨fun r => ?_, fun j _ => le_rfl, fun j _ _ => le_rfl⟩
      · rw [dotProduct_single] at this
        rcases mul_eq_zero.mp this with h | h
        · exact h
        · revert h
          cases P.ineq i <;> simp [slackSign]
      · show rowHolds (P.ineq r) ((P.A.mulVec 0) r) ((Pi.single i (slackSign (P.ineq i)) : Fin m → ℚ) r)
        rw [mulVec_zero]
        by_cases hr : r = i
        · subst hr
          rw [Pi.single_eq_same]
          revert hi
          cases P.ineq r <;> simp [rowHolds, slackSign]
        · rw [Pi.single_eq_of_ne hr]
          cases P.ineq r <;> simp [rowHolds]
    · intro j
      let t : ℚ := if (j : ℕ) ∈ P.neg then -1 else 1
      have ht : t ≠ 0 := by
        show (if (j : ℕ) ∈ P.neg then (-1 : ℚ) else 1) ≠ 0
        split <;> norm_num
      have := hz (P.A.mulVec (Pi.single j t)) (Pi.single j t) ⟨fun r => ?_, fun k hk => ?_, fun k hk _ => ?_⟩
      · rw [dotProduct_mulVec, dotProduct_single] at this
        exact (mul_eq_zero.mp this).resolve_right ht
      · show rowHolds (P.ineq r) _ _
        cases P.ineq r <;> simp [rowHolds]
      · by_cases h : k = j
        · subst h
          rw [Pi.single_eq_same]
          show (if (k : ℕ) ∈ P.neg then (-1 : ℚ) else 1) ≤ 0
          rw [if_pos hk]
          norm_num
        · rw [Pi.single_eq_of_ne h]
      · by_cases h : k = j
        · subst h
          rw [Pi.single_eq_same]
          show 0 ≤ (if (k : ℕ) ∈ P.neg then (-1 : ℚ) else 1)
          rw [if_neg hk]
          norm_num
        · rw [Pi.single_eq_of_ne h]
  · rintro ⟨h1, h2⟩
    have h2' : P.A.vecMul y = 0 := funext fun j => h2 j
    have key : ∀ s, y ⬝ᵥ (toSef P).lp.A.mulVec s = 0 := by
      have e : toSef P = ⟨(sefCols P).n,
          { A := fun r j => (sefCols P).A r j, b := P.b, c := fun j => (sefCols P).c j, z := P.z,
            objective := .max, ineq := fun _ => .eq, free := [], neg := [], isSef := true },
          some ⟨((List.finRange m).filter fun i => decide (P.ineq i ≠ .eq)).length,
            concatOf P.free 0, P.neg⟩⟩ := by simp [toSef, hs]
      rw [e]
      intro s
      have hrow : ∀ r, (fun j : Fin (sefCols P).n => (sefCols P).A r j) ⬝ᵥ s =
          P.A.mulVec (fun j : Fin n => backN P (ext s) j) r +
            slackVal P.ineq (List.finRange m) (n + P.free.length) (ext s) r := by
        intro r
        rw [← (sef_dot P hP (ext s)).1 r, ← dotN_ext]
        exact dotN_congr (fun j hj => ext_ofNat _ _ _ hj) fun _ _ => rfl
      have : (Matrix.mulVec (fun r (j : Fin (sefCols P).n) => (sefCols P).A r j) s) =
          P.A.mulVec (fun j : Fin n => backN P (ext s) j) +
            fun r => slackVal P.ineq (List.finRange m) (n + P.free.length) (ext s) r := funext hrow
      show y ⬝ᵥ (Matrix.mulVec (fun r (j : Fin (sefCols P).n) => (sefCols P).A r j) s) = 0
      rw [this, dotProduct_add, dotProduct_mulVec, h2', zero_dotProduct, zero_add]
      refine Finset.sum_eq_zero fun r _ => ?_
      show y r * slackVal P.ineq (List.finRange m) (n + P.free.length) (ext s) r = 0
      by_cases hr : P.ineq r = .eq
      · rw [slackVal_notMem _ _ _ _ _ (Or.inr hr), mul_zero]
      · rw [h1 r hr, zero_mul]
    funext j
    have := key (Pi.single j 1)
    rw [dotProduct_mulVec, dotProduct_single, mul_one] at this
    exact this

/-- The rows of the SEF are independent exactly if the equations of the program are. -/
theorem fullRank_toSef (P : LP m n) (hP : WF P) : FullRank (toSef P).lp ↔ EqIndep P := by
  unfold FullRank
  rw [nonsing_iff_left]
  cases hs : P.isSef with
  | false =>
    constructor
    · intro h y h1 h2 i
      exact congrFun (h y ((sef_left P hP hs y).mpr ⟨h1, h2⟩)) i
    · intro h y hy
      obtain ⟨h1, h2⟩ := (sef_left P hP hs y).mp hy
      exact funext fun i => h y h1 h2 i
  | true =>
    have e : toSef P = ⟨n, P, none⟩ := by simp [toSef, hs]
    rw [e]
    constructor
    · intro h y _ h2 i
      exact congrFun (h y (funext h2)) i
    · intro h y hy
      exact funext fun i => h y (fun i hi => absurd ((hP.isSef_iff.mp hs).1 i) hi) (fun j => congrFun hy j) i

/-- The number of columns of the SEF. -/
theorem toSef_n (P : LP m n) (hP : WF P) :
    (toSef P).n = n + P.free.length + slackCount P.ineq (List.finRange m) := by
  cases hs : P.isSef with
  | false =>
    have : (toSef P).n = (sefCols P).n := by simp [toSef, hs]
    rw [this, sefCols_n]
  | true =>
    obtain ⟨h1, h2⟩ := hP.isSef_iff.mp hs
    have e : (toSef P).n = n := by simp [toSef, hs]
    have hc : slackCount P.ineq (List.finRange m) = 0 := by
      unfold slackCount
      rw [List.filter_eq_nil_iff.mpr fun i _ => by simp [h1 i]]
      rfl
    rw [e, hc]
    have : P.free = [] := by simp_all
    rw [this]
    rfl

end LinProg
end Pytimize
