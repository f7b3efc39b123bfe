/-
Property C119: answers that pass the checks of a program in floating point.
-/
import Verif.Props.FloatLinear

namespace Pytimize
namespace Props
open LinProg Comparator Floating

variable {m n : ℕ}

/-- C119: if `is_feasible(x)` and `verify_optimality(y)` answer True and `evaluate(x)` returns `r`, then `x` satisfies the
constraints up to the tolerances, and no feasible point is better than `r` by more than the gap `y b + z - r` and the
rounding errors. -/
theorem C119_certified {R : Rounding} (hR : Fine R) (P : LP m n) (hP : WF P) (hs : P.isSef = true) {x : Fin n → ℚ}
    {y : Fin m → ℚ} {r : ℚ} (hx : FeasAnswer R P x true) (hy : OptimalAnswer R P y true) (hr : EvalAnswer R P x r) :
    (∀ j, -(101 / 100 / 10 ^ 10) < x j) ∧
    (∀ i, |∑ j, P.A i j * x j - P.b i| ≤ rowSlack R P x i + 101 / 100 / 10 ^ 8 + 101 / 100 / 10 ^ 5 * |P.b i|) ∧
    |r - objVal P x| ≤ (1 + R.u) * R.slack n (∑ j, |P.c j * x j|) + R.u * |objVal P x| + R.tiny ∧
    ∀ x', Feas P x' → objVal P x' ≤ r + (∑ i, y i * P.b i + P.z - r) + ∑ j, (102 / 100 / 10 ^ 10 + colSlack R P y j) * x' j ∧
      objVal P x' - objVal P x ≤ (∑ i, y i * P.b i + P.z - r) + ∑ j, (102 / 100 / 10 ^ 10 + colSlack R P y j) * x' j +
        ((1 + R.u) * R.slack n (∑ j, |P.c j * x j|) + R.u * |objVal P x| + R.tiny) := by
  obtain ⟨h1, h2⟩ := C103_sef_sound hR P hs x hx
  have h3 := (C103_evaluate P x hr).1
  refine ⟨h1, h2, h3, fun x' hx' => ?_⟩
  have h4 := C104_optimal hR P hP hs y hy x' hx'
  have h5 := (abs_le.mp h3).2
  exact ⟨by linarith, by linarith⟩

/-- C119, integers: in double arithmetic, for integer data and integer vectors of moderate size, the three checks decide
optimality: if `is_feasible(x)` and `verify_optimality(y)` answer True and `evaluate(x)` equals `y b + z`, then `x` is an
optimal solution; and if `x` and `y` are feasible for the program and its dual with the same value, the checks pass. -/
theorem C119_integer (P : LP m n) (hP : WF P) (hs : P.isSef = true) (hA : ∀ i j, ∃ k : ℤ, P.A i j = k)
    (hb : ∀ i, ∃ k : ℤ, P.b i = k) (hc : ∀ j, ∃ k : ℤ, P.c j = k) (hz : ∃ k : ℤ, P.z = k) {x : Fin n → ℚ}
    {y : Fin m → ℚ} (hx : ∀ j, ∃ k : ℤ, x j = k) (hy : ∀ i, ∃ k : ℤ, y i = k)
    (hAx : ∀ i, ∑ j, |P.A i j * x j| ≤ 5 * 10 ^ 8) (hbs : ∀ i, |P.b i| ≤ 90000) (hyA : ∀ j, ∑ i, |y i * P.A i j| ≤ 2 ^ 53)
    (hcx : ∑ j, |P.c j * x j| + |P.z| ≤ 2 ^ 53) {feasible accepted : Bool} {r : ℚ}
    (h1 : FeasAnswer binary64 P x feasible) (h2 : OptimalAnswer binary64 P y accepted) (h3 : EvalAnswer binary64 P x r) :
    (feasible = true ∧ accepted = true ∧ r = ∑ i, y i * P.b i + P.z) ↔
      (Feas P x ∧ (∀ j, P.c j ≤ ∑ i, y i * P.A i j) ∧ ∀ j, x j = 0 ∨ P.c j = ∑ i, y i * P.A i j) := by
  have k1 := C103_integer P hP hA hb hx hAx hbs h1
  obtain ⟨k2, _⟩ := C104_integer_optimal P hP hs hA hc hy hyA h2
  have k3 := (C103_evaluate P x h3).2 rfl hc hz hx hcx
  rw [k1, k2, k3]
  refine and_congr_right fun hf => and_congr_right fun hd => ?_
  have e : ∑ i, y i * P.b i = ∑ j, (∑ i, y i * P.A i j) * x j := by
    have : y ⬝ᵥ P.b = P.A.vecMul y ⬝ᵥ x := by rw [← hf.eqs hP hs, Matrix.dotProduct_mulVec]
    exact this
  have ho : objVal P x = ∑ j, P.c j * x j + P.z := rfl
  rw [ho, e, add_left_inj]
  have hterm : ∀ j ∈ Finset.univ, P.c j * x j ≤ (∑ i, y i * P.A i j) * x j := fun j _ =>
    mul_le_mul_of_nonneg_right (hd j) (hf.nonneg hP hs j)
  rw [Finset.sum_eq_sum_iff_of_le hterm]
  refine forall_congr' fun j => ?_
  simp only [Finset.mem_univ, true_imp_iff]
  constructor
  · intro h
    by_cases h0 : x j = 0
    · exact Or.inl h0
    · exact Or.inr (mul_right_cancel₀ h0 h)
  · rintro (h | h)
    · rw [h, mul_zero, mul_zero]
    · rw [h]

/-- C119, integers: passing the checks means being optimal. -/
theorem C119_optimal (P : LP m n) (hP : WF P) (hs : P.isSef = true) (hA : ∀ i j, ∃ k : ℤ, P.A i j = k)
    (hb : ∀ i, ∃ k : ℤ, P.b i = k) (hc : ∀ j, ∃ k : ℤ, P.c j = k) (hz : ∃ k : ℤ, P.z = k) {x : Fin n → ℚ}
    {y : Fin m → ℚ} (hx : ∀ j, ∃ k : ℤ, x j = k) (hy : ∀ i, ∃ k : ℤ, y i = k)
    (hAx : ∀ i, ∑ j, |P.A i j * x j| ≤ 5 * 10 ^ 8) (hbs : ∀ i, |P.b i| ≤ 90000) (hyA : ∀ j, ∑ i, |y i * P.A i j| ≤ 2 ^ 53)
    (hcx : ∑ j, |P.c j * x j| + |P.z| ≤ 2 ^ 53) (h1 : FeasAnswer binary64 P x true) (h2 : OptimalAnswer binary64 P y true)
    (h3 : EvalAnswer binary64 P x (∑ i, y i * P.b i + P.z)) :
    Feas P x ∧ ∀ x', Feas P x' → objVal P x' ≤ objVal P x := by
  have k1 := (C103_integer P hP hA hb hx hAx hbs h1).mp rfl
  have k2 := (C104_integer_optimal P hP hs hA hc hy hyA h2).2 rfl
  have k3 := (C103_evaluate P x h3).2 rfl hc hz hx hcx
  exact ⟨k1, fun x' hx' => k3 ▸ k2 x' hx'⟩

/-- A program meeting the hypotheses: `max x₁` subject to `x₁ + x₂ = 1`, the point `(1, 0)` and the certificate `1`; every
possible run of the checks passes. -/
example : ∀ feasible accepted r,
    FeasAnswer binary64 (⟨!![1, 1], ![1], ![1, 0], 0, .max, ![.eq], [], [], true⟩ : LP 1 2) ![1, 0] feasible →
    OptimalAnswer binary64 (⟨!![1, 1], ![1], ![1, 0], 0, .max, ![.eq], [], [], true⟩ : LP 1 2) ![1] accepted →
    EvalAnswer binary64 (⟨!![1, 1], ![1], ![1, 0], 0, .max, ![.eq], [], [], true⟩ : LP 1 2) ![1, 0] r →
    feasible = true ∧ accepted = true ∧ r = 1 := by
  intro feasible accepted r h1 h2 h3
  have hP : WF (⟨!![1, 1], ![1], ![1, 0], 0, .max, ![.eq], [], [], true⟩ : LP 1 2) :=
    ⟨List.Pairwise.nil, List.Pairwise.nil, by simp, by simp, by simp, by simp [sefFlag]⟩
  have h01 : ∀ j : Fin 2, ∃ k : ℤ, (![1, 0] : Fin 2 → ℚ) j = k := by
    intro j
    fin_cases j
    · exact ⟨1, by simp⟩
    · exact ⟨0, by simp⟩
  have := (C119_integer _ hP rfl (fun i j => ?_) (fun i => ⟨1, ?_⟩) h01 ⟨0, by simp⟩ h01 (fun i => ⟨1, ?_⟩) (fun i => ?_)
    (fun i => ?_) (fun j => ?_) ?_ h1 h2 h3).mpr ⟨(feas_sef_iff hP rfl).mpr ⟨?_, fun j => ?_⟩, fun j => ?_, fun j => ?_⟩
  · simpa using this
  · fin_cases i
    fin_cases j <;> exact ⟨1, by simp⟩
  · fin_cases i; simp
  · fin_cases i; simp
  · fin_cases i; simp; norm_num
  · fin_cases i; simp
  · fin_cases j <;> · simp; norm_num
  · simp; norm_num
  · funext i
    fin_cases i
    simp [Matrix.mulVec, dotProduct]
  · fin_cases j <;> simp
  · fin_cases j <;> simp
  · fin_cases j <;> simp

end Props
end Pytimize
