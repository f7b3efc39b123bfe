/-
Property C126: converting a program to standard equality form and converting a solution back, in double precision.
-/
import Verif.Float.Sef
import Verif.Props.LinearDual

namespace Pytimize
namespace Props
open LinProg Floating

variable {m n : ℕ}

theorem rep_one : binary64.Rep 1 := binary64_rep.mpr (by simpa using isDouble_int (k := 1) (by norm_num))

/-- C126, the conversion: for a program whose numbers are doubles, `to_sef` computed in doubles is `to_sef` computed
exactly, and its numbers are doubles. -/
theorem C126_to_sef {P : LP m n} (h : Stored binary64 P) :
    ftoSef binary64 P = toSef P ∧ Stored binary64 (toSef P).lp := ftoSef_eq rep_one h

/-- C126, the auxiliary program: likewise. -/
theorem C126_auxiliary {P : LP m n} (h : Stored binary64 P) :
    fauxLp binary64 P = auxLp P ∧ Stored binary64 (auxLp P) := fauxLp_eq rep_one h

/-- C126, the operations that only move numbers: the dual, a program with one more constraint and one with one more
variable are stored exactly when their ingredients are. -/
theorem C126_copies {P : LP m n} (h : Stored binary64 P) :
    Stored binary64 (dual P) ∧
    (∀ a q v Q, (∀ x ∈ a, binary64.Rep x) → binary64.Rep v → addConstraint P a q v = .ok Q → Stored binary64 Q) ∧
    (∀ k col f g Q, binary64.Rep k → (∀ l, col = some l → ∀ x ∈ l, binary64.Rep x) →
      addVariable P k col f g = .ok Q → Stored binary64 Q) := by
  have hvec : ∀ {k : ℕ} {l : List ℚ} {v : Fin k → ℚ}, toVec k l = some v → (∀ x ∈ l, binary64.Rep x) →
      ∀ i, binary64.Rep (v i) := by
    intro k l v hv hl i
    unfold toVec at hv
    split at hv
    · cases hv; exact hl _ (List.getElem_mem _)
    · cases hv
  refine ⟨⟨fun i j => h.A j i, h.c, h.b, rep_zero⟩, fun a q v Q ha hv hQ => ?_, fun k col f g Q hk hcol hQ => ?_⟩
  · unfold addConstraint at hQ
    split at hQ
    · cases hQ
    · rename_i w hw
      split at hQ
      · cases hQ
      · cases hQ
        refine ⟨fun i j => ?_, fun i => ?_, h.c, h.z⟩
        · refine Fin.lastCases ?_ (fun i => ?_) i
          · have e := congrFun (Fin.snoc_last (α := fun _ => Fin n → ℚ) w P.A) j
            exact (congrArg binary64.Rep e).mpr (hvec hw ha j)
          · have e := congrFun (Fin.snoc_castSucc (α := fun _ => Fin n → ℚ) w P.A i) j
            exact (congrArg binary64.Rep e).mpr (h.A i j)
        · refine Fin.lastCases ?_ (fun i => ?_) i
          · simp only [Fin.snoc_last]; exact hv
          · simp only [Fin.snoc_castSucc]; exact h.b i
  · have hm : Stored binary64 (addVariableMark P f g) := by
      unfold addVariableMark
      split
      · exact ⟨h.A, h.b, h.c, h.z⟩
      · split
        · exact ⟨h.A, h.b, h.c, h.z⟩
        · exact h
    have hc : ∀ x ∈ col.getD (List.replicate m 0), binary64.Rep x := by
      cases col with
      | none => intro x hx; rw [List.eq_of_mem_replicate hx]; exact rep_zero
      | some l => exact hcol l rfl
    unfold addVariable at hQ
    split at hQ
    · cases hQ
    · simp only at hQ
      split at hQ
      · cases hQ
      · rename_i w hw
        cases hQ
        refine ⟨fun i j => ?_, hm.b, fun j => ?_, hm.z⟩
        · refine Fin.lastCases ?_ (fun j => ?_) j
          · simp only [Fin.snoc_last]; exact hvec hw hc i
          · simp only [Fin.snoc_castSucc]; exact hm.A i j
        · refine Fin.lastCases ?_ (fun j => ?_) j
          · simp only [Fin.snoc_last]; exact hk
          · simp only [Fin.snoc_castSucc]; exact hm.c j

/-- C126, the way back, for any vector of doubles: every entry is the exact entry, rounded once. -/
theorem C126_back {P : LP m n} (hP : WF P) {s : Fin (toSef P).n → ℚ} (hs : ∀ j, binary64.Rep (s j)) :
    freverseSol binary64 (toSef P).rev s = (reverseSol (toSef P).rev s).map binary64.rd := freverse_rd hP hs

/-- C126, the way back for a vector that is zero outside a basis, as the answers of the simplex method are: nothing is
rounded. -/
theorem C126_basic {P : LP m n} (hP : WF P) {s : Fin (toSef P).n → ℚ} (hs : ∀ j, binary64.Rep (s j))
    {B : Fin m → Fin (toSef P).n} (hB : ((toSef P).lp.A.submatrix id B).det ≠ 0)
    (h0 : ∀ j, j ∉ Set.range B → s j = 0) :
    freverseSol binary64 (toSef P).rev s = reverseSol (toSef P).rev s := freverse_basic hP hs hB h0

/-- C126, both ways: a basic feasible solution in doubles of the converted program comes back as a feasible solution of
the program itself with the same objective value (up to the constant of a minimisation, see C32). -/
theorem C126_round_trip {P : LP m n} (hP : WF P) (hd : Stored binary64 P) {s : Fin (toSef P).n → ℚ}
    (hs : ∀ j, binary64.Rep (s j)) {B : Fin m → Fin (toSef P).n}
    (hB : ((toSef P).lp.A.submatrix id B).det ≠ 0) (h0 : ∀ j, j ∉ Set.range B → s j = 0)
    (hf : Feas (toSef P).lp s) :
    ftoSef binary64 P = toSef P ∧
    ∃ x : Fin n → ℚ, freverseSol binary64 (toSef P).rev s = List.ofFn x ∧ Feas P x ∧
      (P.objective = .max → objVal (toSef P).lp s = objVal P x) ∧
      (P.objective = .min → objVal (toSef P).lp s = -objVal P x + 2 * P.z) := by
  rw [C126_basic hP hs hB h0]
  exact ⟨(C126_to_sef hd).1, (C32_to_sef_partial P hP).2.1 s hf⟩

/-- A case: `min -x1 + 2 x2` with `x1 + x2 >= 1/2`, `x1` free and `x2 <= 0`; the basic solution with `x1 = 1/2`. -/
def splitExample : LP 1 2 :=
  ⟨!![1, 1], ![1 / 2], ![-1, 2], 0, .min, fun _ => .ge, [0], [1], false⟩

example : WF splitExample ∧ Stored binary64 splitExample ∧ (toSef splitExample).n = 4 ∧
    ∀ s : Fin (toSef splitExample).n → ℚ, ∀ j0 : Fin (toSef splitExample).n, (j0 : ℕ) = 0 →
      (s = fun j => if j = j0 then 1 / 2 else 0) →
      (∀ j, binary64.Rep (s j)) ∧ ((toSef splitExample).lp.A.submatrix id fun _ : Fin 1 => j0).det ≠ 0 ∧
      Feas (toSef splitExample).lp s ∧ ∀ j, j ∉ Set.range (fun _ : Fin 1 => j0) → s j = 0 := by
  have hhalf : binary64.Rep (1 / 2) := binary64_rep.mpr ⟨1, -1, by norm_num, by norm_num, by norm_num⟩
  have hint : ∀ k : ℤ, |k| ≤ 2 ^ 53 → binary64.Rep (k : ℚ) := fun k hk => binary64_rep.mpr (isDouble_int hk)
  have h1 := hint 1 (by norm_num)
  have h2 := hint 2 (by norm_num)
  refine ⟨⟨by decide, by decide, by decide, by decide, by decide, by decide⟩, ⟨fun i j => ?_, fun i => ?_, fun j => ?_,
    rep_zero⟩, by decide +kernel, fun s j0 hj hs => ?_⟩
  · fin_cases i; fin_cases j <;> simpa [splitExample] using h1
  · fin_cases i; simpa [splitExample] using hhalf
  · fin_cases j
    · simpa [splitExample] using h1.neg
    · simpa [splitExample] using h2
  · have hj0 : j0 = (0 : Fin 4) := Fin.ext hj
    subst hs hj0
    refine ⟨fun j => ?_, ?_, ?_, fun j hj => ?_⟩
    · show binary64.Rep (if j = _ then 1 / 2 else 0)
      split
      · exact hhalf
      · exact rep_zero
    · have : ((toSef splitExample).lp.A.submatrix id fun _ : Fin 1 => (0 : Fin 4)).det = 1 := by decide +kernel
      rw [this]; norm_num
    · refine ⟨?_, ?_, ?_⟩
      · intro i
        have hi : i = 0 := Subsingleton.elim _ _
        subst hi
        show (_ : ℚ) = _
        decide +kernel
      · decide +kernel
      · decide +kernel
    · have : j ≠ (0 : Fin 4) := fun h => hj ⟨0, h.symm⟩
      exact if_neg this

/-- Why the basis: a vector that uses both halves of a split variable can be rounded. With `x1 = 1 - 2^-60` the answer
is `1`. -/
theorem C126_nonbasic : ∃ s : Fin (toSef splitExample).n → ℚ, (∀ j, binary64.Rep (s j)) ∧
    freverseSol binary64 (toSef splitExample).rev s ≠ reverseSol (toSef splitExample).rev s := by
  let s : Fin (toSef splitExample).n → ℚ := fun j => if (j : ℕ) = 0 then 1 else if (j : ℕ) = 1 then 1 / 2 ^ 60 else 0
  have hs : ∀ j, binary64.Rep (s j) := by
    intro j
    show binary64.Rep (if (j : ℕ) = 0 then 1 else if (j : ℕ) = 1 then 1 / 2 ^ 60 else 0)
    split
    · exact rep_one
    · split
      · exact binary64_rep.mpr ⟨1, -60, by norm_num, by norm_num, by norm_num⟩
      · exact rep_zero
  refine ⟨s, hs, ?_⟩
  have h : reverseSol (toSef splitExample).rev s = [1 - 1 / 2 ^ 60, 0] := by
    with_unfolding_all rfl
  rw [freverse_rd ⟨by decide, by decide, by decide, by decide, by decide, by decide⟩ hs, h]
  decide +kernel

end Props
end Pytimize
