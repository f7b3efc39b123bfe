/-
The components of a solution outside its basis are exactly zero, in exact arithmetic and in double precision.
-/
import Verif.Props.FloatFollow

namespace Pytimize
namespace Floating
open LinProg Matrix Comparator Props

variable {m n : ℕ} {R : Rounding} {L : Lapack R}

theorem assign_zero {B : Fin m → Fin n} {v : Fin m → ℚ} {j : Fin n} (hj : ∀ i, B i ≠ j) : assign B v j = 0 := by
  have key : ∀ (l : List (Fin m)) (x : Fin n → ℚ), x j = 0 →
      l.foldl (fun x i => Function.update x (B i) (v i)) x j = 0 := by
    intro l
    induction l with
    | nil => exact fun x hx => hx
    | cons i l ih =>
      intro x hx
      rw [List.foldl_cons]
      refine ih _ ?_
      rw [Function.update_of_ne (hj i).symm]
      exact hx
  exact key _ _ rfl

theorem off_of_names {B : Fin m → Fin n} {j : Fin n} (hj : ((j : ℕ) : ℤ) + 1 ∉ (colsList B).map (· + 1)) (i : Fin m) :
    B i ≠ j := by
  rintro rfl
  exact hj (List.mem_map.mpr ⟨_, List.mem_ofFn.mpr ⟨i, rfl⟩, rfl⟩)

theorem fiterStep_off {C C' : LP m n} {l' : List ℤ} {B : Fin m → Fin n} {x : Fin n → ℚ}
    (h : fiterStep L C (colsList B) B = .ok (.optimal x l' C')) {j : Fin n} (hj : ((j : ℕ) : ℤ) + 1 ∉ l') : x j = 0 := by
  unfold fiterStep at h
  split at h
  · cases h
  · simp only at h
    split at h
    · split at h
      · cases h
      · simp only [Except.ok.injEq, Iter.optimal.injEq] at h
        rw [← h.2.1] at hj
        rw [← h.1]
        exact assign_zero (off_of_names hj)
    · split at h
      · cases h
      · split at h
        · cases h
        · split at h <;> cases h

theorem fsimplexIteration_off {P C : LP m n} {l basis : List ℤ} {x : Fin n → ℚ}
    (h : fsimplexIteration L P basis = .ok (.optimal x l C)) {j : Fin n} (hj : ((j : ℕ) : ℤ) + 1 ∉ l) : x j = 0 := by
  unfold fsimplexIteration at h
  split at h
  · cases h
  · split at h
    · cases h
    · cases h
    · simp only at h
      split at h
      · cases h
      · next B ht =>
        split at h
        · cases h
        · rw [toCols_iff.mp ht] at h
          exact fiterStep_off h hj

theorem fsimplexLoop_off {P C : LP m n} {fuel : ℕ} {l basis : List ℤ} {x : Fin n → ℚ}
    (h : fsimplexLoop L fuel P basis = .ok (.optimal x l C)) {j : Fin n} (hj : ((j : ℕ) : ℤ) + 1 ∉ l) : x j = 0 := by
  induction fuel generalizing basis with
  | zero => cases h
  | succ fuel ih =>
    rw [fsimplexLoop] at h
    split at h
    · cases h
    · exact ih h
    · rename_i hr
      rw [h] at hr
      exact fsimplexIteration_off hr hj

theorem fsimplex_off {P : LP m n} {fuel : ℕ} {l basis : List ℤ} {x : Fin n → ℚ} {y : Fin m → ℚ}
    (h : (fsimplex L fuel P basis).1 = .ok (.optimal x l y)) {j : Fin n} (hj : ((j : ℕ) : ℤ) + 1 ∉ l) : x j = 0 := by
  unfold fsimplex at h
  split at h
  · cases h
  · simp only at h
    split at h
    · cases h
    · rename_i a ha
      simp only [Except.ok.injEq] at h
      subst h
      unfold fsimplexBody at ha
      split at ha
      · cases ha
      · split at ha <;> cases ha
      · rename_i x' l' C hl
        split at ha
        · cases ha
        · split at ha
          · cases ha
          · simp only [Except.ok.injEq, Answer.optimal.injEq] at ha
            rw [← ha.2.1] at hj
            rw [← ha.1]
            exact fsimplexLoop_off hl hj
      · cases ha

theorem iteration_off {P : LP m n} {l0 l : List ℤ} {x : Fin n → ℚ} {T : LP m n}
    (h : simplexIteration P l0 = .ok (.optimal x l T)) {j : Fin n} (hj : ((j : ℕ) : ℤ) + 1 ∉ l) : x j = 0 := by
  unfold simplexIteration at h
  split at h
  · cases h
  · split at h
    · cases h
    · cases h
    · simp only at h
      split at h
      · cases h
      · next B ht =>
        rw [toCols_iff.mp ht] at h
        unfold iterStep at h
        simp only at h
        split at h
        · split at h
          · cases h
          · simp only [Except.ok.injEq, Iter.optimal.injEq] at h
            rw [← h.2.1] at hj
            rw [← h.1]
            exact assign_zero (off_of_names hj)
        · split at h
          · cases h
          · split at h
            · cases h
            · split at h
              · cases h
              · cases h

/-- The end of a run of the exact method. -/
theorem simplex_last {P : LP m n} {fuel : ℕ} {basis l : List ℤ} {x : Fin n → ℚ} {y : Fin m → ℚ}
    (h : (simplex fuel P basis).1 = .ok (.optimal x l y)) :
    ∃ l0 B, Relation.ReflTransGen (Steps P) basis l0 ∧ Names l0 B ∧ tol ≤ |(colSel P.A B).det| ∧
      l = (colsList B).map (· + 1) ∧ ∀ j : Fin n, ((j : ℕ) : ℤ) + 1 ∉ l → x j = 0 := by
  unfold simplex at h
  split at h
  · cases h
  · simp only at h
    split at h
    · cases h
    · rename_i r hr
      simp only [Except.ok.injEq] at h
      subst h
      unfold simplexBody at hr
      split at hr
      · cases hr
      · split at hr <;> cases hr
      · rename_i x' l' T hl
        split at hr
        · cases hr
        · simp only [Except.ok.injEq, Answer.optimal.injEq] at hr
          obtain ⟨rfl, rfl, -⟩ := hr
          obtain ⟨l0, h1, h2⟩ := loop_last hl
          rw [steps_flip] at h1
          rw [iteration_flip] at h2
          obtain ⟨B, hb, ht, e⟩ := iteration_optimal h2
          obtain ⟨-, hN, hd⟩ := sorted_basis hb ht
          exact ⟨l0, B, h1, hN, hd, e, fun j hj => iteration_off h2 hj⟩
      · cases hr

end Floating
end Pytimize
