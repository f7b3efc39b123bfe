/-
C86: the operations an `IntegerProgram` inherits; C59, C60 and C74 for totally unimodular data.
-/
import Verif.Props.IntegerBox
import Verif.LP.Slackness

namespace Pytimize
namespace Props

open Comparator LinProg Matrix

variable {m n : ℕ}

/-! ### Total unimodularity -/

/-- With totally unimodular data every solution returned by `solve` is integral. -/
theorem unimodular_integral {sf N β : ℕ} {P : LP m n} (hP : WF P) (h : Decimal P (fun _ => 1) N 1 β) {x : Fin n → ℚ}
    (hx : solve sf P = .ok (some (List.ofFn x))) (j : Fin n) : ∃ k : ℤ, x j = k := by
  obtain ⟨s, basis, l, y, hsim, hx⟩ := solve_some hx
  obtain ⟨hm, hs, D, _, hd, rfl, rfl, rfl, hc, hx'⟩ := simplex_optimal hsim
  have hn := isBasis_nonsing hd
  obtain ⟨d, hd0, hdK, hz⟩ := scaled_sol_frac h.rpos h.intSef hn
  refine reverse_closed (S := fun a => ∃ z : ℤ, a = z) hP
    (fun a ⟨z, h⟩ => ⟨-z, by rw [h]; push_cast; rfl⟩)
    (fun a b ⟨z, h⟩ ⟨w, h'⟩ => ⟨z - w, by rw [h, h']; push_cast; rfl⟩) (fun j => ?_) hx.symm j
  obtain ⟨z, hz⟩ := hz j
  have hd1 : |d| ≤ 1 := by
    have : |(d : ℚ)| ≤ (1 : ℤ) := by simpa using hdK
    exact_mod_cast this
  have hd2 : d = 1 ∨ d = -1 := by
    rw [abs_le] at hd1
    omega
  rcases hd2 with rfl | rfl
  · exact ⟨z, by rw [← hz]; simp⟩
  · exact ⟨-z, by push_cast; rw [← hz]; simp⟩

theorem firstFractional_of_integral (integral : Option (List ℤ)) : ∀ (v : List ℚ) (i : ℕ),
    (∀ q ∈ v, ∃ k : ℤ, q = k) → firstFractional integral i v = none := by
  intro v
  induction v with
  | nil => intro i _; rfl
  | cons q v ih =>
    intro i h
    obtain ⟨k, hk⟩ := h q (by simp)
    have hq : isInteger q = true := (C03_isInteger_iff q).mpr ⟨k, by rw [hk]; simp⟩
    unfold firstFractional
    rw [hq]
    simp only [Bool.not_true, Bool.and_false, Bool.false_eq_true, if_false]
    exact ih _ fun p hp => h p (by simp [hp])

/-- Branch and bound does not branch on totally unimodular data. -/
theorem unimodular_bab {sf fuel N β : ℕ} {I : IntProgram} (hP : WF I.prog.lp)
    (h : Decimal I.prog.lp (fun _ => 1) N 1 β) :
    branchAndBound sf (fuel + 1) I = solve sf I.prog.lp := by
  unfold branchAndBound
  rw [relax_eq I hP]
  simp only
  rw [branch]
  generalize hs : solve sf I.prog.lp = r
  rcases r with e | _ | v
  · rfl
  · rfl
  · obtain ⟨x, rfl, _⟩ := C44_data_partial sf _ hP _ N 1 β h v hs
    simp only [evaluate, toVec_ofFn]
    rw [firstFractional_of_integral]
    · rfl
    · intro q hq
      obtain ⟨j, rfl⟩ := (List.mem_ofFn' _ _).mp hq
      exact unimodular_integral hP h hs j

/-- C59 and C60 for totally unimodular rows with integer right-hand sides and costs with a denominator, either objective, every sign class and equations: a returned
vector is a best integral point. Missing: other data. -/
theorem C60_unimodular_partial (sf fuel : ℕ) (I : IntProgram) (hP : WF I.prog.lp) (N β : ℕ)
    (h : Decimal I.prog.lp (fun _ => 1) N 1 β) (v : List ℚ) (hv : branchAndBound sf fuel I = .ok (some v)) :
    ∃ x : Fin I.prog.n → ℚ, v = List.ofFn x ∧ BestIntegral I.prog.lp I.integral x := by
  cases fuel with
  | zero =>
    unfold branchAndBound at hv
    rw [relax_eq I hP] at hv
    simp [branch] at hv
  | succ f =>
    rw [unimodular_bab hP h] at hv
    obtain ⟨x, rfl, hx⟩ := C44_data_partial sf _ hP _ N 1 β h v hv
    exact ⟨x, rfl, hx.1, fun j _ => unimodular_integral hP h hv j, fun y hy _ => hx.2 y hy⟩

/-- C60 and C74 for totally unimodular rows with integer right-hand sides, either objective: branch and bound returns a best integral
point at the first level when the relaxation has an optimal solution. Missing: equations, and as many variables
(free ones counted twice) as rows with an infeasible origin. -/
theorem C60_unimodular_complete_partial (I : IntProgram) (hP : WF I.prog.lp) (hm : 0 < I.prog.m)
    (hq : ∀ i, I.prog.lp.ineq i ≠ .eq) (N β : ℕ)
    (h : Decimal I.prog.lp (fun _ => 1) N 1 β)
    (hshape : I.prog.n + I.prog.lp.free.length ≠ I.prog.m ∨ Feas I.prog.lp 0) (sf fuel : ℕ)
    (hf : (I.prog.n + I.prog.lp.free.length + 2 * I.prog.m) ^ I.prog.m ≤ sf) (hopt : ∃ x, Optimal I.prog.lp x) :
    ∃ x, branchAndBound sf (fuel + 1) I = .ok (some (List.ofFn x)) ∧ BestIntegral I.prog.lp I.integral x := by
  obtain ⟨x, hx, _⟩ := C45_data_partial I.prog.lp hP hm hq _ N 1 β h hshape sf hf hopt
  rw [← unimodular_bab (fuel := fuel) (I := I) hP h] at hx
  obtain ⟨y, hy, hb⟩ := C60_unimodular_partial sf (fuel + 1) I hP N β h _ hx
  exact ⟨y, by rw [hx, hy], hb⟩

/-! ### C86 -/

/-- C86, the part that holds for every program: the inherited `optimal_value` bounds the values of the integral
points, and it is the best of them when the inherited `solve` happens to return an integral vector. Missing: it
is the value of the relaxation otherwise (`C86_value_wrong`). -/
theorem C86_bound_partial (sf : ℕ) (I : IntProgram) (hP : WF I.prog.lp) (he : Exact (toSef I.prog.lp).lp) (q : ℚ)
    (h : intOptimalValue sf I = .ok (some q)) :
    (∀ y, Feas I.prog.lp y → Integral I.integral y →
      (I.prog.lp.objective = .max → objVal I.prog.lp y ≤ q) ∧
      (I.prog.lp.objective = .min → q ≤ objVal I.prog.lp y)) ∧
    ∃ x : Fin I.prog.n → ℚ, intSolve sf I = .ok (some (List.ofFn x)) ∧ objVal I.prog.lp x = q ∧
      (Integral I.integral x → BestIntegral I.prog.lp I.integral x) := by
  unfold intOptimalValue optimalValue at h
  generalize hs : solve sf I.prog.lp = r at h
  match r, h with
  | .ok (some v), h =>
    obtain ⟨x, rfl, hx⟩ := C44_sound_partial sf I.prog.lp hP he v hs
    simp only [evaluate, toVec_ofFn, Except.ok.injEq, Option.some.injEq] at h
    have hq : objVal I.prog.lp x = q := h
    refine ⟨fun y hy _ => ?_, x, hs, hq, fun hi => ⟨hx.1, hi, fun y hy _ => hx.2 y hy⟩⟩
    rw [← hq]
    exact hx.2 y hy

/-- C86 for totally unimodular rows with integer right-hand sides: `optimal_value` is the value of a best integral point. -/
theorem C86_unimodular_partial (sf : ℕ) (I : IntProgram) (hP : WF I.prog.lp) (N β : ℕ)
    (h : Decimal I.prog.lp (fun _ => 1) N 1 β) (q : ℚ) (hq : intOptimalValue sf I = .ok (some q)) :
    ∃ x, BestIntegral I.prog.lp I.integral x ∧ objVal I.prog.lp x = q := by
  obtain ⟨_, x, hs, hv, hb⟩ := C86_bound_partial sf I hP h.exactSef q hq
  exact ⟨x, hb fun j _ => unimodular_integral hP h hs j, hv⟩

/-- The integer program `max 1.1 x` subject to `2 x <= 3`, `x <= 2.5`. -/
def boxInt : IntProgram := ⟨⟨2, 1, boxSample⟩, none⟩

/-- C86 is false for `solve` and `optimal_value`: the answers are those of the relaxation, `3/2` with value
`1.65`, although the best integral point is `1` with value `1.1`. -/
theorem C86_value_wrong : WF boxInt.prog.lp ∧ intSolve 100 boxInt = .ok (some [3 / 2]) ∧
    intOptimalValue 100 boxInt = .ok (some (33 / 20)) ∧
    BestIntegral boxInt.prog.lp boxInt.integral ![1] ∧ objVal boxInt.prog.lp ![1] = 11 / 10 := by
  refine ⟨boxSample_bounded.wf, by decide +kernel, by decide +kernel, ?_, by decide +kernel⟩
  rcases C60_bounded_partial 10000 3 boxInt (fun _ => 2) 10 2 5 2 boxSample_bounded rfl
    (by show (1 + 2 * (2 + 1 * 2)) ^ (2 + 1 * 2) ≤ 10000; norm_num)
    (by show 1 * 2 < 3; norm_num) with ⟨x, h1, h2⟩ | ⟨h1, _⟩
  · have h3 : branchAndBound 10000 3 boxInt = .ok (some [1]) := by decide +kernel
    rw [h3] at h1
    simp only [Except.ok.injEq, Option.some.injEq] at h1
    have : x = ![1] := List.ofFn_injective (by rw [← h1]; rfl)
    rw [← this]
    exact h2
  · have h3 : branchAndBound 10000 3 boxInt = .ok (some [1]) := by decide +kernel
    rw [h3] at h1
    cases h1

/-- C86 is false for `copy`: the copy of an integer program is a linear program, whatever the program, so that the
call `branch_and_bound` on it raises `AttributeError`. -/
theorem C86_copy_wrong (sf fuel : ℕ) (I : IntProgram) :
    callBranchAndBound sf fuel (intCopy I) = .error .attributeError := rfl

/-! ### The hypotheses are satisfiable -/

/-- `min 0.25 x - 0.25 y` subject to `x - y >= -2`, `y <= 3`, `x + 0 y >= 0`: the rows are an interval matrix. -/
def tuSample : LP 3 2 :=
  ⟨!![1, -1; 0, 1; 1, 0], ![-2, 3, 0], ![1 / 4, -1 / 4], 0, .min, ![.ge, .le, .ge], [], [], false⟩

theorem tuSample_moderate : Decimal tuSample (fun _ => 1) 4 1 3 where
  rpos _ := by norm_num
  npos := by norm_num
  isInt := by
    refine ⟨fun i j => ?_, fun i => ?_, fun j => ?_⟩
    · exact ⟨(!![1, -1; 0, 1; 1, 0] : Matrix (Fin 3) (Fin 2) ℤ) i j, by
        fin_cases i <;> fin_cases j <;> simp [tuSample, scaled]⟩
    · exact ⟨(![-2, 3, 0] : Fin 3 → ℤ) i, by fin_cases i <;> simp [tuSample, scaled]⟩
    · exact ⟨(![1, -1] : Fin 2 → ℤ) j, by fin_cases j <;> norm_num [tuSample, scaled]⟩
  subdet := subdet_of_le (by decide +kernel)
  rhs := by decide +kernel
  costs := by norm_num
  small := by norm_num

/-- The conditions of `C60_unimodular_complete_partial` hold for a minimisation program with value `-1/2`. -/
example : WF tuSample ∧ Decimal tuSample (fun _ => 1) 4 1 3 ∧ (∀ i, tuSample.ineq i ≠ .eq) ∧ 2 + tuSample.free.length ≠ 3 ∧
    Optimal tuSample ![1, 3] := by
  refine ⟨⟨by decide, by decide, by decide, by decide, by decide, by decide⟩, tuSample_moderate, by decide,
    by decide, ⟨⟨fun i => ?_, fun j hj => by simp [tuSample] at hj, fun j _ _ => ?_⟩,
    fun x hx => ⟨fun h => by simp [tuSample] at h, fun _ => ?_⟩⟩⟩
  · fin_cases i <;> norm_num [tuSample, rowHolds, mulVec, dotProduct, Fin.sum_univ_two]
  · fin_cases j <;> simp
  · have := hx.rows 0
    simp [tuSample, rowHolds, mulVec, dotProduct, Fin.sum_univ_two] at this
    simp [tuSample, objVal, dotProduct, Fin.sum_univ_two]
    linarith

end Props
end Pytimize
