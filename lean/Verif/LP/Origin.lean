/-
Programs without equations whose origin is feasible: the columns `solve` tries first are a feasible basis whenever
they are a basis.
-/
import Verif.LP.Minors
import Verif.LP.Rank
import Verif.Props.Solve

namespace Pytimize
namespace LinProg

open Comparator Matrix
open Props

variable {m n : ℕ}

theorem slackCount_all {q : Fin m → Ineq} (h : ∀ i, q i ≠ .eq) : slackCount q (List.finRange m) = m := by
  unfold slackCount
  rw [List.filter_eq_self.mpr (by simpa using h)]
  simp

theorem sef_of_ineq {P : LP m n} (hP : WF P) (hm : 0 < m) (hq : ∀ i, P.ineq i ≠ .eq) :
    P.isSef = false ∧ (toSef P).n = n + P.free.length + m := by
  have hs : P.isSef = false := by
    cases hs : P.isSef with
    | false => rfl
    | true => exact absurd ((hP.isSef_iff.mp hs).1 ⟨0, hm⟩) (hq _)
  refine ⟨hs, ?_⟩
  have : (toSef P).n = (sefCols P).n := by simp [toSef, hs]
  rw [this, sefCols_n, slackCount_all hq]

theorem origin_sign {P : LP m n} (hq : ∀ i, P.ineq i ≠ .eq) (h0 : Feas P 0) (i : Fin m) :
    0 ≤ slackSign (P.ineq i) * P.b i := by
  have h := h0.rows i
  have h1 := hq i
  rw [mulVec_zero] at h
  revert h h1
  cases P.ineq i <;> simp [rowHolds, slackSign]

/-- A solution that vanishes off the columns `B` is the basic solution. -/
theorem canon_b_of_off {P : LP m n} {B : Fin m → Fin n} (h : Nonsing P B) {w : Fin n → ℚ}
    (hw : P.A.mulVec w = P.b) (h0 : ∀ j, (∀ i, B i ≠ j) → w j = 0) (i : Fin m) : (canon P B).b i = w (B i) := by
  rw [← (canon_eq_iff h w).mpr hw]
  show (canon P B).A i ⬝ᵥ w = _
  rw [sum_off h.inj _ _ h0]
  simp [canon_col h]

theorem tried_of_origin {P : LP m n} (hP : WF P) (hq : ∀ i, P.ineq i ≠ .eq) (h0 : Feas P 0)
    (ht : isBasis (toSef P).lp (tried m (toSef P).n) = .ok true) :
    isBasisFeasible (toSef P).lp (tried m (toSef P).n) = .ok true := by
  obtain ⟨hm, B, hB, hd⟩ := (isBasis_iff _ _).mp ht
  obtain ⟨hs, hn⟩ := sef_of_ineq hP hm hq
  refine isBasisFeasible_iff.mpr ⟨hm, B, hB, hd, fun i => ?_⟩
  obtain ⟨w, hw, hz, hp⟩ := sef_slack P hP hq hs P.b
  have hlen := congrArg List.length hB
  rw [length_colsList] at hlen
  simp only [toArrayIndexing, tried, List.length_map, List.length_range] at hlen
  have hmem : ∀ j : Fin (toSef P).n, n + P.free.length ≤ j → ∃ i, B i = j := by
    intro j hj
    have : ((j : ℕ) : ℤ) ∈ colsList B := by
      rw [← hB]
      simp only [toArrayIndexing, tried, List.map_map, List.mem_map, List.mem_range, Function.comp]
      exact ⟨j - m, by have := j.2; omega, by omega⟩
    obtain ⟨i, hi⟩ := by simpa [colsList] using this
    exact ⟨i, Fin.ext (by simpa using hi)⟩
  rw [canon_b_of_off (isBasis_nonsing hd) (by rw [hw, toSef_b]) fun j hj => hz j ?_]
  · have := hp (origin_sign hq h0) (B i)
    have := tol_pos
    linarith
  · by_contra hc
    obtain ⟨i, hi⟩ := hmem j (by omega)
    exact hj i hi

end LinProg
end Pytimize
