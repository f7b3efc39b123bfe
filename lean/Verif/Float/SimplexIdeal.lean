/-
The simplex method with rounding, if nothing is rounded, is the simplex method; and whatever is rounded, what it returns
consists of floats.
-/
import Verif.Float.SimplexExact

namespace Pytimize
namespace Floating
open LinProg Comparator Matrix

variable {m n : ℕ}

/-- An inverse and a determinant without errors. -/
def Ideal (L : Lapack exact) : Prop :=
  ∀ {k : ℕ} (M : Matrix (Fin k) (Fin k) ℚ), L.det M = M.det ∧ (M.det ≠ 0 → L.inv M = .ok M⁻¹)

variable {L : Lapack exact}

theorem cmpTol_exact (v : ℚ) (op : Op) (t : ℚ) : cmpTol exact v op t = pyCmp v op t := by
  cases op <;> rfl

theorem closeToZero_exact (v : ℚ) : closeToZero exact v = isCloseToZero v := rfl

theorem positive_exact (v : ℚ) : positive exact v = isPositive v := rfl

theorem negative_exact (v : ℚ) : negative exact v = isNegative v := rfl

theorem rd_exact (v : ℚ) : exact.rd v = v := rfl

theorem matMul_ideal {k : ℕ} (M : Matrix (Fin m) (Fin k) ℚ) (N : Matrix (Fin k) (Fin n) ℚ) : L.matMul M N = M * N := by
  ext i j
  exact dotVal_exact.mp (L.matMul_val M N i j)

theorem mulVec_ideal (M : Matrix (Fin m) (Fin n) ℚ) (v : Fin n → ℚ) : L.mulVec M v = M.mulVec v :=
  funext fun i => dotVal_exact.mp (L.mulVec_val M v i)

theorem vecMul_ideal (M : Matrix (Fin m) (Fin n) ℚ) (v : Fin m → ℚ) : L.vecMul v M = M.vecMul v :=
  funext fun j => dotVal_exact.mp (L.vecMul_val v M j)

theorem dot_ideal (u v : Fin n → ℚ) : L.dot u v = u ⬝ᵥ v := dotVal_exact.mp (L.dot_val u v)

theorem fisBasis_ideal (hL : Ideal L) (P : LP m n) (basis : List ℤ) : fisBasis L P basis = isBasis P basis := by
  unfold fisBasis isBasis
  simp only [fun B => (hL (colSel P.A B)).1, closeToZero_exact]
  rfl

theorem inv_ideal (hL : Ideal L) {M : Matrix (Fin m) (Fin m) ℚ} (h : M.det ≠ 0) : L.inv M = .ok (npInv M) := by
  rw [npInv_eq]
  exact (hL M).2 h

theorem fcanon_ideal (hL : Ideal L) {P : LP m n} {B : Fin m → Fin n} (h0 : Nonsing P B) :
    fcanon L P B = .ok (canon P B) := by
  unfold fcanon
  rw [inv_ideal hL h0]
  simp only [matMul_ideal, mulVec_ideal, vecMul_ideal, dot_ideal, rd_exact]
  rfl

theorem fflipRows_ideal (S : Fin m → Bool) (P : LP m n) : fflipRows exact S P = flipRows S P := rfl

theorem fratioTest_ideal (b Ak : Fin m → ℚ) : fratioTest exact b Ak = ratioTest b Ak := by
  have h : ∀ v o, fratioLt exact v o = ratioLt v o := fun v o => by
    cases o with
    | none => rfl
    | some t => exact cmpTol_exact v .lt t
  unfold fratioTest ratioTest
  simp only [positive_exact, rd_exact, h]

theorem fiterStep_ideal (hL : Ideal L) {P : LP m n} {B : Fin m → Fin n} (h0 : Nonsing P B) (l : List ℤ) :
    fiterStep L (canon P B) l B = iterStep (canon P B) l B := by
  have h1 : (colSel (canon P B).A B).det ≠ 0 := by rw [colSel_canon h0]; simp
  unfold fiterStep iterStep
  simp only [inv_ideal hL h1, mulVec_ideal, cmpTol_exact, positive_exact, negative_exact, fratioTest_ideal]
  rfl

theorem fsimplexIteration_ideal (hL : Ideal L) (P : LP m n) (basis : List ℤ) :
    fsimplexIteration L P basis = simplexIteration P basis := by
  unfold fsimplexIteration simplexIteration
  rw [fisBasis_ideal hL]
  cases hb : isBasis P basis with
  | error e => rfl
  | ok v =>
    cases v with
    | false => rfl
    | true =>
      simp only
      obtain ⟨hm, B', hB', hd⟩ := (isBasis_iff P basis).mp hb
      have h0' : Nonsing (flipRows (negRows P) P) (sortCols B') :=
        (nonsing_flip _).mpr ((isBasis_nonsing hd).same (sortCols_same B'))
      simp only [hB', sortInt_colsList, toCols_colsList, fflipRows_ideal, fcanon_ideal hL h0', fiterStep_ideal hL h0']

theorem fsimplexLoop_ideal (hL : Ideal L) (P : LP m n) (fuel : ℕ) (basis : List ℤ) :
    fsimplexLoop L fuel P basis = simplexLoop fuel P basis := by
  induction fuel generalizing basis with
  | zero => rfl
  | succ fuel ih =>
    rw [fsimplexLoop, simplexLoop, fsimplexIteration_ideal hL]
    cases simplexIteration P basis with
    | error e => rfl
    | ok r => cases r <;> first | rfl | exact ih _

theorem fdualCert_ideal (hL : Ideal L) {P : LP m n} (S : Fin m → Bool) {B : Fin m → Fin n} (h0 : Nonsing P B) :
    fdualCert L P S B = .ok (dualCert P S B) := by
  unfold fdualCert dualCert
  rw [inv_ideal hL (by rw [det_transpose]; exact h0)]
  simp only [mulVec_ideal, rd_exact]

theorem fsimplexBody_ideal (hL : Ideal L) (P : LP m n) (fuel : ℕ) (S : Fin m → Bool) (basis : List ℤ) :
    fsimplexBody L fuel P S basis = simplexBody fuel P S basis := by
  unfold fsimplexBody simplexBody
  rw [fsimplexLoop_ideal hL]
  cases hr : simplexLoop fuel P basis with
  | error e => rfl
  | ok r =>
    cases r with
    | unbounded x B C => rfl
    | next l C => rfl
    | optimal x l C =>
      obtain ⟨D, -, hd, hs, -, -⟩ := simplexLoop_answer fuel basis hr
      cases hs with
      | optimal hc hx =>
        simp only [toArrayIndexing_succ, toCols_colsList, fdualCert_ideal hL S (isBasis_nonsing hd)]

theorem fsimplex_ideal (hL : Ideal L) (P : LP m n) (fuel : ℕ) (basis : List ℤ) :
    fsimplex L fuel P basis = simplex fuel P basis := by
  unfold fsimplex simplex
  simp only [fflipRows_ideal, fsimplexBody_ideal hL]
  rfl

theorem fsearch_ideal (hL : Ideal L) (P : LP m n) (pb zs : List ℤ) (size : ℕ) (f : ℕ) (st : List (ℕ × List ℤ)) :
    fsearch L P pb zs size f st = search P pb zs size f st := by
  induction f generalizing st with
  | zero => rfl
  | succ f ih =>
    cases st with
    | nil => rfl
    | cons a rest =>
      obtain ⟨cur, l⟩ := a
      rw [fsearch, search, fisBasis_ideal hL]
      by_cases hl : l.length = size
      · rw [if_pos hl, if_pos hl]
        cases isBasis P (sortInt (pb ++ l)) with
        | error e => rfl
        | ok v => cases v <;> first | rfl | exact ih _
      · rw [if_neg hl, if_neg hl]
        exact ih _

theorem fcompleteBasis_ideal (hL : Ideal L) (P : LP m n) (vals : List ℚ) :
    fcompleteBasis L P vals = completeBasis P vals := by
  have e : closeToZero exact = isCloseToZero := rfl
  unfold fcompleteBasis completeBasis
  simp only [fsearch_ideal hL, e]
  rfl

theorem stored_exact (P : LP m n) : Stored exact P := ⟨fun _ _ => rfl, fun _ => rfl, fun _ => rfl, rfl⟩

theorem rep_exact (v : ℚ) : exact.Rep v := rfl

theorem ftwoPhase_ideal (hL : Ideal L) (P : LP m n) (fuel : ℕ) : ftwoPhase L fuel P = twoPhase fuel P := by
  unfold ftwoPhase twoPhase
  rw [(fauxLp_eq (rep_exact 1) (stored_exact P)).1, (ftoSef_eq (rep_exact 1) (stored_exact _)).1, toSef_aux]
  congr 1
  unfold ftwoPhaseWith twoPhaseWith
  simp only [fsimplex_ideal hL, fisBasis_ideal hL]
  cases hr : (simplex fuel (auxSef P) ((List.range m).map fun i : ℕ => (n : ℤ) + i + 1)).1 with
  | error e => rfl
  | ok a =>
    cases a with
    | unbounded x d => rfl
    | infeasible y => rfl
    | optimal x l y =>
      obtain ⟨D, h0, hD, -, -⟩ := simplex_basis hr
      simp only [dot_ideal, rd_exact, closeToZero_exact, fcompleteBasis_ideal hL, hD, toCols_colsList,
        fdualCert_ideal hL _ h0]
      rfl

theorem fmergeCode_exact (l : List ℕ) (i : ℕ) (x : ℕ → ℚ) : fmergeCode exact l i x = mergeCode l i x := by
  induction l generalizing i x with
  | nil => rfl
  | cons a l ih =>
    rw [fmergeCode, mergeCode, ih]
    rfl

theorem freverseSol_exact (r : Option Rev) {k : ℕ} (s : Fin k → ℚ) : freverseSol exact r s = reverseSol r s := by
  cases r with
  | none => rfl
  | some r =>
    have e : fnegAt exact = negAt := by funext f k j; simp [fnegAt, negAt, rd_exact]
    unfold freverseSol reverseSol
    simp only [fmergeCode_exact, e]

/-- If nothing is rounded, `fsolve` is `solve`. -/
theorem fsolve_ideal (hL : Ideal L) (P : LP m n) (fuel : ℕ) : fsolve L fuel P = solve fuel P := by
  have e : ∀ {k : ℕ}, (freverseSol exact (toSef P).rev : (Fin k → ℚ) → List ℚ) = reverseSol (toSef P).rev :=
    funext fun s => freverseSol_exact _ s
  unfold fsolve solve
  rw [ftwoPhase_ideal hL]
  by_cases hs : P.isSef = true
  · rw [if_pos hs, if_pos hs]
    rfl
  · rw [if_neg hs, if_neg hs, (ftoSef_eq (rep_exact 1) (stored_exact P)).1]
    unfold fsolveSef solveSef
    simp only [ftwoPhase_ideal hL, fsimplex_ideal hL, fisBasis_ideal hL, e]
    rfl

/-! ### Integer solutions -/

theorem mergeCode_int (l : List ℕ) (i : ℕ) {x : ℕ → ℚ} (hx : ∀ j, ∃ k : ℤ, x j = k) (j : ℕ) :
    ∃ k : ℤ, mergeCode l i x j = k := by
  induction l generalizing i x with
  | nil => exact hx j
  | cons a l ih =>
    rw [mergeCode]
    refine ih _ fun j => ?_
    unfold mergeAt
    split
    · exact hx _
    · split
      · obtain ⟨k, hk⟩ := hx (a - i)
        obtain ⟨k', hk'⟩ := hx (a - i + 1)
        exact ⟨k - k', by rw [hk, hk']; push_cast; rfl⟩
      · exact hx _

theorem negAll_int (l : List ℕ) {x : ℕ → ℚ} (hx : ∀ j, ∃ k : ℤ, x j = k) (j : ℕ) :
    ∃ k : ℤ, l.foldl negAt x j = k := by
  induction l generalizing x with
  | nil => exact hx j
  | cons a l ih =>
    rw [List.foldl_cons]
    refine ih fun j => ?_
    unfold negAt
    split
    · obtain ⟨k, hk⟩ := hx j
      exact ⟨-k, by rw [hk]; push_cast; ring⟩
    · exact hx _

theorem reverseSol_int (r : Option Rev) {k : ℕ} {s : Fin k → ℚ} (hs : ∀ j, ∃ k : ℤ, s j = k) :
    ∀ v ∈ reverseSol r s, ∃ k : ℤ, v = k := by
  intro v hv
  cases r with
  | none =>
    obtain ⟨j, rfl⟩ := List.mem_ofFn.mp hv
    exact hs j
  | some r =>
    obtain ⟨j, -, rfl⟩ := List.mem_map.mp hv
    refine negAll_int _ (mergeCode_int _ _ fun j => ?_) j
    unfold LinProg.ext
    split
    · exact hs _
    · exact ⟨0, by simp⟩

theorem solution_int {a : Answer m n} {r : Option Rev} {v : List ℚ}
    (ha : ∀ x l y, a = .optimal x l y → ∀ j, ∃ k : ℤ, x j = k) (h : a.solution.map (reverseSol r) = some v) :
    ∀ q ∈ v, ∃ k : ℤ, q = k := by
  cases a with
  | unbounded x d => cases h
  | infeasible y => cases h
  | optimal x l y =>
    simp only [Answer.solution, Option.map_some, Option.some.injEq] at h
    rw [← h]
    exact reverseSol_int r (ha x l y rfl)

/-- On tame programs `solve` returns integers. -/
theorem solve_int {L : Lapack binary64} (hL : ExactOnUnimodular L m) {P : LP m n} {β γ ζ : ℤ} (hT : Tame P β γ ζ)
    (hf : Fits m β γ ζ) (hγ : 1 ≤ γ) {fuel : ℕ} {v : List ℚ} (h : solve fuel P = .ok (some v)) :
    ∀ q ∈ v, ∃ k : ℤ, q = k := by
  have hS := hT.toSef hγ
  unfold solve at h
  split at h
  · split at h
    · cases h
    · rename_i a ha
      simp only [Except.ok.injEq] at h
      exact solution_int (r := none) (fun x l y hx j => (twoPhase_optimal hL hT hf (hx ▸ ha) j).1.int) h
  · unfold solveSef at h
    simp only at h
    split at h
    · split at h
      · cases h
      · split at h
        · cases h
        · cases h
        · rename_i a ha
          simp only [Except.ok.injEq] at h
          exact solution_int (fun x l y hx j => ((simplex_optimal hL hS hf (hx ▸ ha)).1 j).1.int) h
      · split at h
        · cases h
        · rename_i a ha
          simp only [Except.ok.injEq] at h
          exact solution_int (fun x l y hx j => (twoPhase_optimal hL hS hf (hx ▸ ha) j).1.int) h
    · split at h
      · cases h
      · rename_i a ha
        simp only [Except.ok.injEq] at h
        exact solution_int (fun x l y hx j => (twoPhase_optimal hL hS hf (hx ▸ ha) j).1.int) h

/-! ### The answers are floats -/

section
variable {R : Rounding} {L : Lapack R}

theorem Dots.rep {l : List (ℚ × ℚ)} {r : ℚ} (h : Dots R l r) : R.Rep r := by
  induction h with
  | prod u v => exact Rounding.rep_rd _
  | add _ _ _ _ => exact Rounding.rep_rd _
  | fma u v _ _ => exact Rounding.rep_rd _
  | perm _ _ ih => exact ih

theorem DotVal.rep {u v : Fin n → ℚ} {r : ℚ} (h : DotVal R u v r) : R.Rep r := by
  rcases h with ⟨-, rfl⟩ | h
  · exact R.rd_zero
  · exact h.rep

theorem assign_rep (B : Fin m → Fin n) {v : Fin m → ℚ} (hv : ∀ i, R.Rep (v i)) (j : Fin n) : R.Rep (assign B v j) := by
  have : ∀ (l : List (Fin m)) (x : Fin n → ℚ), (∀ j, R.Rep (x j)) →
      ∀ j, R.Rep (l.foldl (fun x i => Function.update x (B i) (v i)) x j) := by
    intro l
    induction l with
    | nil => intro x hx j; exact hx j
    | cons a l ih =>
      intro x hx
      rw [List.foldl_cons]
      refine ih _ fun j => ?_
      by_cases hj : j = B a
      · subst hj; rw [Function.update_self]; exact hv a
      · rw [Function.update_of_ne hj]; exact hx j
  exact this _ _ (fun _ => R.rd_zero) j

theorem fiterStep_rep {C C' : LP m n} {l l' : List ℤ} {B : Fin m → Fin n} {x : Fin n → ℚ}
    (h : fiterStep L C l B = .ok (.optimal x l' C')) (j : Fin n) : R.Rep (x j) := by
  unfold fiterStep at h
  split at h
  · cases h
  · simp only at h
    split at h
    · split at h
      · cases h
      · simp only [Except.ok.injEq, Iter.optimal.injEq] at h
        rw [← h.1]
        exact assign_rep B (fun i => (L.mulVec_val _ _ i).rep) j
    · split at h
      · cases h
      · split at h
        · cases h
        · split at h <;> cases h

theorem fsimplexIteration_rep {P C : LP m n} {l basis : List ℤ} {x : Fin n → ℚ}
    (h : fsimplexIteration L P basis = .ok (.optimal x l C)) (j : Fin n) : R.Rep (x j) := by
  unfold fsimplexIteration at h
  split at h
  · cases h
  · split at h
    · cases h
    · cases h
    · simp only at h
      split at h
      · cases h
      · split at h
        · cases h
        · exact fiterStep_rep h j

theorem fsimplexLoop_rep {P C : LP m n} {fuel : ℕ} {l basis : List ℤ} {x : Fin n → ℚ}
    (h : fsimplexLoop L fuel P basis = .ok (.optimal x l C)) (j : Fin n) : R.Rep (x j) := by
  induction fuel generalizing basis with
  | zero => cases h
  | succ fuel ih =>
    rw [fsimplexLoop] at h
    split at h
    · cases h
    · exact ih h
    · rename_i hr
      rw [h] at hr
      exact fsimplexIteration_rep hr j

theorem fsimplex_rep {P : LP m n} {fuel : ℕ} {l basis : List ℤ} {x : Fin n → ℚ} {y : Fin m → ℚ}
    (h : (fsimplex L fuel P basis).1 = .ok (.optimal x l y)) (j : Fin n) : R.Rep (x j) := by
  unfold fsimplex at h
  split at h
  · cases h
  · simp only at h
    split at h
    · cases h
    · rename_i a ha
      simp only [Except.ok.injEq] at h
      subst h
      unfold fsimplexBody at ha
      split at ha
      · cases ha
      · split at ha <;> cases ha
      · rename_i x' l' C hl
        split at ha
        · cases ha
        · split at ha
          · cases ha
          · simp only [Except.ok.injEq, Answer.optimal.injEq] at ha
            rw [← ha.1]
            exact fsimplexLoop_rep hl j
      · cases ha

theorem ftwoPhase_rep {P : LP m n} {fuel : ℕ} {l : List ℤ} {x : Fin n → ℚ} {y : Fin m → ℚ}
    (h : (ftwoPhase L fuel P).1 = .ok (.optimal x l y)) (j : Fin n) : R.Rep (x j) := by
  unfold ftwoPhase at h
  split at h
  · cases h
  · unfold ftwoPhaseWith at h
    split at h
    · cases h
    · cases h
    · cases h
    · split at h
      · split at h
        · cases h
        · exact fsimplex_rep h j
        · split at h
          · cases h
          · exact fsimplex_rep h j
      · split at h
        · cases h
        · split at h <;> cases h

theorem fmergeCode_rep (l : List ℕ) (i : ℕ) {x : ℕ → ℚ} (hx : ∀ j, R.Rep (x j)) (j : ℕ) :
    R.Rep (fmergeCode R l i x j) := by
  induction l generalizing i x with
  | nil => exact hx j
  | cons a l ih =>
    rw [fmergeCode]
    refine ih _ fun j => ?_
    unfold fmergeAt
    split
    · exact hx _
    · split
      · exact Rounding.rep_rd _
      · exact hx _

theorem fnegAll_rep (l : List ℕ) {x : ℕ → ℚ} (hx : ∀ j, R.Rep (x j)) (j : ℕ) : R.Rep (l.foldl (fnegAt R) x j) := by
  induction l generalizing x with
  | nil => exact hx j
  | cons a l ih =>
    rw [List.foldl_cons]
    refine ih fun j => ?_
    unfold fnegAt
    split
    · exact Rounding.rep_rd _
    · exact hx _

theorem freverseSol_rep (r : Option Rev) {k : ℕ} {s : Fin k → ℚ} (hs : ∀ j, R.Rep (s j)) :
    ∀ v ∈ freverseSol R r s, R.Rep v := by
  intro v hv
  cases r with
  | none =>
    obtain ⟨j, rfl⟩ := List.mem_ofFn.mp hv
    exact hs j
  | some r =>
    obtain ⟨j, -, rfl⟩ := List.mem_map.mp hv
    refine fnegAll_rep _ (fmergeCode_rep _ _ (ext_rep hs)) j

theorem solution_rep {a : Answer m n} {r : Option Rev} {v : List ℚ}
    (ha : ∀ x l y, a = .optimal x l y → ∀ j, R.Rep (x j)) (h : a.solution.map (freverseSol R r) = some v) :
    ∀ q ∈ v, R.Rep q := by
  cases a with
  | unbounded x d => cases h
  | infeasible y => cases h
  | optimal x l y =>
    simp only [Answer.solution, Option.map_some, Option.some.injEq] at h
    rw [← h]
    exact freverseSol_rep r (ha x l y rfl)

/-- Whatever is rounded: what `solve` returns is made of floats. -/
theorem fsolve_rep {P : LP m n} {fuel : ℕ} {v : List ℚ} (h : fsolve L fuel P = .ok (some v)) : ∀ q ∈ v, R.Rep q := by
  unfold fsolve at h
  split at h
  · split at h
    · cases h
    · rename_i a ha
      simp only [Except.ok.injEq] at h
      exact solution_rep (r := none) (fun x l y hx => ftwoPhase_rep (hx ▸ ha)) h
  · unfold fsolveSef at h
    simp only at h
    split at h
    · split at h
      · cases h
      · split at h
        · cases h
        · cases h
        · rename_i a ha
          simp only [Except.ok.injEq] at h
          exact solution_rep (fun x l y hx => fsimplex_rep (hx ▸ ha)) h
      · split at h
        · cases h
        · rename_i a ha
          simp only [Except.ok.injEq] at h
          exact solution_rep (fun x l y hx => ftwoPhase_rep (hx ▸ ha)) h
    · split at h
      · cases h
      · rename_i a ha
        simp only [Except.ok.injEq] at h
        exact solution_rep (fun x l y hx => ftwoPhase_rep (hx ▸ ha)) h

end

end Floating
end Pytimize
