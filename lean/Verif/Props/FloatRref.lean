/-
Property C129: `to_rref` in double precision.
-/
import Verif.Float.Rref
import Verif.Props.Rref

namespace Pytimize
namespace Props
open LinProg Comparator Floating

variable {m n : ℕ}

/-- The numbers of which the loop decides, without dividing, that they are one. -/
def undivided (R : Rounding) (fuel : ℕ) (M : Matrix (Fin m) (Fin n) ℚ) : List ℚ :=
  keptPivots R fuel (List.finRange m) M 0

/-- C129. The model with rounding is the model of C55 if nothing is rounded. -/
theorem C129_exact (fuel : ℕ) (M : Matrix (Fin m) (Fin n) ℚ) : ftoRref exact fuel M = toRref fuel M :=
  frrefLoop_exact fuel _ M 0

/-- C129. For every matrix with a column, whatever the rounding, `to_rref` returns: there is no exception and no endless
search. -/
theorem C129_returns (R : Rounding) (M : Matrix (Fin m) (Fin n) ℚ) (hn : 0 < n) {fuel : ℕ} (hf : n * (m + 2) < fuel) :
    ∃ N, ftoRref R fuel M = .ok N :=
  frrefLoop_returns R hf _ M 0 hn

/-- C129. If the numbers taken for one by the test are one, the result for a matrix of doubles consists of doubles and
is in reduced row echelon form exactly: no residue of the roundings is left where the form asks for a zero or a one.
Missing: entries near one but different (`C129_residue_wrong`), and that the result belongs to the same equations, which
is false (`C129_rank_wrong`). -/
theorem C129_shape_partial {M : Matrix (Fin m) (Fin n) ℚ} (hn : 0 < n) {fuel : ℕ} (hf : n * (m + 2) < fuel)
    (hM : ∀ i j, IsDouble (M i j)) (hk : ∀ v ∈ undivided binary64 fuel M, v = 1) :
    ∃ N, ftoRref binary64 fuel M = .ok N ∧ IsRref N ∧ (∀ i j, IsDouble (N i j)) ∧ isInRref N = true := by
  obtain ⟨N, r, p, h1, h2⟩ := ftoRref_spec (R := binary64)
    (binary64_rep.mpr (by exact_mod_cast isDouble_int (k := 1) (by norm_num))) hf hn
    (fun i j => binary64_rep.mpr (hM i j)) hk
  have hE := Inv.echelon h2.inv
  have hR : IsRref N := by
    refine ⟨hE.zeros, hE.stair, fun i j hl => ?_, hE.alone⟩
    have hi : (i : ℕ) < r := by
      by_contra hcon
      exact hl.1 (h2.inv.rest i (not_lt.mp hcon) j j.2)
    rcases lt_trichotomy (j : ℕ) (p i) with hlt | heq | hgt
    · exact absurd (h2.inv.left i hi j hlt) hl.1
    · exact h2.ones i hi j heq
    · exact absurd (hl.2 ⟨p i, h2.inv.lt i hi⟩ hgt) (ne_zero_of_close (h2.inv.one i hi _ rfl))
  exact ⟨N, h1, hR, fun i j => binary64_rep.mp (h2.rep i j), C55_accepts N hR⟩

/-! ### Witnesses -/

/-- Two equal rows. -/
def equalRows : Matrix (Fin 2) (Fin 2) ℚ := !![49, 1; 49, 1]

theorem matrix_ext_ofFn {a : Except PyErr (Matrix (Fin m) (Fin n) ℚ)} {M : Matrix (Fin m) (Fin n) ℚ}
    (h : a.toOption.map (fun R => List.ofFn fun i => List.ofFn (R i)) = some (List.ofFn fun i => List.ofFn (M i))) :
    a = .ok M := by
  cases a with
  | error e => cases h
  | ok N =>
    simp only [Except.toOption, Option.map_some, Option.some.injEq] at h
    have := List.ofFn_injective h
    congr 1
    funext i
    exact List.ofFn_injective (congrFun this i)

/-- C129 fails for the equations: the rows of `[[49, 1], [49, 1]]` are equal, and `to_rref` returns the identity, which
has the solution zero only. After the division by 49 the difference of the rows is not zero but `2^-53`, which counts
as a pivot. -/
theorem C129_rank_wrong :
    ftoRref binary64 100 equalRows = .ok 1 ∧ undivided binary64 100 equalRows = [] ∧
    toRref 100 equalRows = .ok !![1, 1 / 49; 0, 0] ∧
    (∃ x : Fin 2 → ℚ, equalRows.mulVec x = 0 ∧ (1 : Matrix (Fin 2) (Fin 2) ℚ).mulVec x ≠ 0) := by
  refine ⟨matrix_ext_ofFn (by decide +kernel), by decide +kernel, matrix_ext_ofFn (by decide +kernel),
    ![1, -49], ?_, ?_⟩
  · funext i
    fin_cases i <;> simp [equalRows, Matrix.mulVec, dotProduct, Fin.sum_univ_two]
  · intro h
    have := congrFun h 0
    simp at this

/-- A number taken for one, and one below it. -/
def residueRows : Matrix (Fin 2) (Fin 1) ℚ := !![1 + 3 / 2 ^ 52; 5254199565265582 / 2 ^ 52]

/-- C129 fails for the form, beyond the tolerance of C55, if a number taken for one is not one: the entry below is left
with a residue, and `is_in_rref` rejects the result of `to_rref`. -/
theorem C129_residue_wrong :
    ftoRref binary64 100 residueRows = .ok !![1 + 3 / 2 ^ 52; -(1 / 2 ^ 52)] ∧
    isInRref (!![1 + 3 / 2 ^ 52; -(1 / 2 ^ 52)] : Matrix (Fin 2) (Fin 1) ℚ) = false ∧
    (∀ i j, IsDouble (residueRows i j)) := by
  refine ⟨matrix_ext_ofFn (by decide +kernel), by decide +kernel, ?_⟩
  intro i j
  fin_cases i <;> fin_cases j
  · exact ⟨2 ^ 52 + 3, -52, by norm_num [residueRows], by norm_num, by norm_num⟩
  · exact ⟨5254199565265582, -52, by norm_num [residueRows], by norm_num, by norm_num⟩

/-- The hypotheses of `C129_shape_partial` are met by a matrix whose elimination rounds, with one row kept and two
divided. -/
def roundingRows : Matrix (Fin 3) (Fin 4) ℚ := !![1, 2, 0, 1; 0, 3, 1, 7; 5, 1, 1, 1]

example : undivided binary64 100 roundingRows = [1] ∧ ∀ i j, IsDouble (roundingRows i j) := by
  refine ⟨by decide +kernel, fun i j => ?_⟩
  have : ∀ i j, ∃ k : Fin 8, roundingRows i j = ((k : ℕ) : ℤ) := by decide +kernel
  obtain ⟨k, hk⟩ := this i j
  rw [hk]
  refine isDouble_int ?_
  rw [abs_of_nonneg (by positivity)]
  have := k.2
  norm_num
  omega

end Props
end Pytimize
