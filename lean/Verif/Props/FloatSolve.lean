/-
Property C130: `solve` in double precision on totally unimodular programs.
-/
import Verif.Float.SimplexIdeal
import Verif.Props.SolveExact

namespace Pytimize
namespace Props
open LinProg Comparator Floating Matrix

variable {m n : ℕ}

/-- The number of columns the solver works with: those of the standard equality form and the artificial ones. -/
def width (P : LP m n) : ℕ := n + P.free.length + (Finset.univ.filter fun i => P.ineq i ≠ .eq).card + m

/-- A totally unimodular program with integers up to `β` on the right-hand side, up to `γ` in the objective and up to
`ζ` as the constant, small enough for double precision. -/
structure UnimodularData (P : LP m n) (β γ ζ : ℕ) : Prop where
  tu : P.A.IsTotallyUnimodular
  b : ∀ i, ∃ k : ℤ, P.b i = k ∧ |k| ≤ β
  c : ∀ j, ∃ k : ℤ, P.c j = k ∧ |k| ≤ γ
  z : ∃ k : ℤ, P.z = k ∧ |k| ≤ ζ
  βpos : 1 ≤ β
  γpos : 1 ≤ γ
  ratios : m * β ≤ 2 ^ 40
  bits : width P ^ 2 * (γ * (β + 1)) + ζ ≤ 2 ^ 53

theorem UnimodularData.tame {P : LP m n} {β γ ζ : ℕ} (h : UnimodularData P β γ ζ) : Tame P β γ ζ :=
  ⟨h.tu, h.b, h.c, h.z⟩

theorem UnimodularData.fits {P : LP m n} {β γ ζ : ℕ} (h : UnimodularData P β γ ζ) (hm : 0 < m) :
    Fits m β γ ζ ∧ (width P : ℤ) * (m * β) ≤ 2 ^ 53 := by
  have hw : m ≤ width P := Nat.le_add_left _ _
  have hb := h.bits
  have h1 := h.βpos
  have h2 := h.γpos
  have h3 := h.ratios
  have k1 : m * m ≤ width P ^ 2 := by rw [pow_two]; exact Nat.mul_le_mul hw hw
  have k2 : width P * m ≤ width P ^ 2 := by rw [pow_two]; exact Nat.mul_le_mul le_rfl hw
  have k3 : m ≤ m * m := Nat.le_mul_of_pos_left m hm
  have k4 : m * m * (γ * (β + 1)) ≤ width P ^ 2 * (γ * (β + 1)) := Nat.mul_le_mul_right _ k1
  have k5 : width P * m * (γ * (β + 1)) ≤ width P ^ 2 * (γ * (β + 1)) := Nat.mul_le_mul_right _ k2
  have k6 : 1 ≤ m * m := Nat.mul_pos hm hm
  have e1 : m * m * (γ * (β + 1)) = m * (m * γ * β) + m * (m * γ) := by ring
  have k7 : m * (m * γ) ≤ m * (m * γ * β) := by
    refine Nat.mul_le_mul_left _ (Nat.le_mul_of_pos_right _ h1)
  have k8 : γ ≤ m * (m * γ) := by rw [← mul_assoc]; exact Nat.le_mul_of_pos_left γ k6
  have k9 : m ≤ m * γ := Nat.le_mul_of_pos_right m h2
  have k10 : m * γ ≤ m * (m * γ) := Nat.le_mul_of_pos_left _ hm
  have k11 : width P * (m * β) ≤ width P * m * (γ * (β + 1)) := by
    rw [mul_assoc]
    refine Nat.mul_le_mul_left _ (Nat.mul_le_mul_left _ ?_)
    calc β ≤ β + 1 := Nat.le_succ _
      _ ≤ γ * (β + 1) := Nat.le_mul_of_pos_left _ h2
  refine ⟨⟨by positivity, by positivity, ?_, ?_, ?_, ?_, ?_⟩, ?_⟩
  · have : m ≤ 2 ^ 53 := by omega
    exact_mod_cast this
  · exact_mod_cast h3
  · have : m * γ ≤ 2 ^ 53 := by omega
    exact_mod_cast this
  · have : γ + m * (m * γ) ≤ 2 ^ 53 := by omega
    exact_mod_cast this
  · have : m * (m * γ * β) + ζ ≤ 2 ^ 53 := by omega
    exact_mod_cast this
  · have : width P * (m * β) ≤ 2 ^ 53 := by omega
    exact_mod_cast this

/-- C130. The model with rounding is the model of C01-C109 if nothing is rounded. -/
theorem C130_exact {L : Lapack exact} (hL : Ideal L) (fuel : ℕ) (P : LP m n) : fsolve L fuel P = solve fuel P :=
  fsolve_ideal hL P fuel

/-- C130. On a totally unimodular program with integer numbers `simplex` in double precision, in whatever order NumPy
sums, takes every decision and returns every number of exact arithmetic. -/
theorem C130_simplex {L : Lapack binary64} (hL : ExactOnUnimodular L m) {P : LP m n} (hm : 0 < m) {β γ ζ : ℕ}
    (h : UnimodularData P β γ ζ) (fuel : ℕ) (basis : List ℤ) :
    fsimplex L fuel P basis = simplex fuel P basis :=
  fsimplex_eq hL h.tame (h.fits hm).1 fuel basis

/-- C130. So does `two_phase_simplex`. -/
theorem C130_two_phase {L : Lapack binary64} (hL : ExactOnUnimodular L m) {P : LP m n} (hm : 0 < m) {β γ ζ : ℕ}
    (h : UnimodularData P β γ ζ) (fuel : ℕ) : ftwoPhase L fuel P = twoPhase fuel P := by
  obtain ⟨hf, hv⟩ := h.fits hm
  refine ftwoPhase_eq hL h.tame hf (by exact_mod_cast h.γpos) ?_ ?_ fuel
  · have h3 := h.ratios
    have : β ≤ m * β := Nat.le_mul_of_pos_left _ hm
    have : β ≤ 2 ^ 53 := by omega
    exact_mod_cast this
  · have hw : n + m ≤ width P := by unfold width; omega
    have : ((n + m : ℕ) : ℤ) * (m * β) ≤ width P * (m * β) :=
      mul_le_mul_of_nonneg_right (by exact_mod_cast hw) (by positivity)
    exact this.trans hv

/-- C130. And `solve`, with the conversion to standard equality form and back. -/
theorem C130_solve {L : Lapack binary64} (hL : ExactOnUnimodular L m) {P : LP m n} (hP : WF P) (hm : 0 < m) {β γ ζ : ℕ}
    (h : UnimodularData P β γ ζ) (fuel : ℕ) : fsolve L fuel P = solve fuel P := by
  obtain ⟨hf, hv⟩ := h.fits hm
  refine fsolve_eq hL hP h.tame hf (by exact_mod_cast h.γpos) ?_ ?_ fuel
  · have h3 := h.ratios
    have : β ≤ m * β := Nat.le_mul_of_pos_left _ hm
    have : β ≤ 2 ^ 53 := by omega
    exact_mod_cast this
  · rw [toSef_n P hP, slackCount_card]
    exact hv

/-- C130. If the right-hand sides are moreover below the size at which `np.isclose` takes different integers for equal,
`solve` in double precision answers as it should: with an optimal solution, made of integers, if the program has one,
with `None` if it has none. (`Regular` and the linear independence of the equality constraints are needed in exact
arithmetic already, see C109.) -/
theorem C130_optimal {L : Lapack binary64} (hL : ExactOnUnimodular L m) {P : LP m n} (hP : WF P) (hm : 0 < m)
    {β γ ζ : ℕ} (h : UnimodularData P β γ ζ) (hb : m * β < 10 ^ 5) (hreg : Regular P) (fuel : ℕ)
    (hf : width P ^ m ≤ fuel) :
    (EqIndep P → (∃ x, Optimal P x) →
      ∃ x, fsolve L fuel P = .ok (some (List.ofFn x)) ∧ Optimal P x ∧ ∀ j, ∃ k : ℤ, x j = k) ∧
    (EqIndep P → (¬ ∃ x, Optimal P x) → fsolve L fuel P = .ok none) ∧
    ((¬ ∃ x, Feas P x) → fsolve L fuel P = .ok none) ∧
    (¬ EqIndep P → (∃ x, Feas P x) → fsolve L fuel P = .error .valueError) := by
  have hd : Decimal P (fun _ => 1) 1 1 β := Moderate.decimal
    { isInt := h.tame.isInt
      subdet := (tu_iff.mp h.tu).2
      rhs := fun i => by
        obtain ⟨k, hk, hk2⟩ := h.b i
        rw [hk]
        exact_mod_cast hk2
      small := by
        have h1 : m * β * 1 ≤ 99999 := by omega
        have h2 : ((m * β * 1 : ℕ) : ℚ) ≤ 99999 := by exact_mod_cast h1
        push_cast at h2 ⊢
        norm_num at h2 ⊢
        linarith }
  have key := C109_partial P hP hm _ 1 1 β hd hreg fuel hf
  rw [← C130_solve hL hP hm h fuel] at key
  refine ⟨fun h1 h2 => ?_, key.2⟩
  obtain ⟨x, h3, h4⟩ := key.1 h1 h2
  refine ⟨x, h3, h4, fun j => ?_⟩
  rw [C130_solve hL hP hm h fuel] at h3
  exact solve_int hL h.tame (h.fits hm).1 (by exact_mod_cast h.γpos) h3 _ (List.mem_ofFn.mpr ⟨j, rfl⟩)

/-- C130. For any program, whatever the linear algebra does: the numbers `solve` returns are doubles. -/
theorem C130_doubles {L : Lapack binary64} {P : LP m n} {fuel : ℕ} {v : List ℚ}
    (h : fsolve L fuel P = .ok (some v)) : ∀ q ∈ v, IsDouble q := fun q hq =>
  binary64_rep.mp (fsolve_rep h q hq)

/-! ### Witnesses -/

/-- `max x` subject to `3 x <= 1`. -/
def thirds : LP 1 1 := ⟨!![3], ![1], ![1], 0, .max, ![.le], [], [], false⟩

/-- Without total unimodularity the answer need not be exact, however good the linear algebra: the optimum may not be a
double. -/
theorem C130_thirds_wrong : WF thirds ∧ solve 2 thirds = .ok (some [1 / 3]) ∧
    ∀ (L : Lapack binary64) (fuel : ℕ), fsolve L fuel thirds ≠ .ok (some [1 / 3]) := by
  refine ⟨⟨by decide, by decide, by decide, by decide, by decide, by decide⟩, by decide +kernel, fun L fuel h => ?_⟩
  have h1 : binary64.rd (1 / 3) = 1 / 3 := fsolve_rep h _ (List.mem_singleton.mpr rfl)
  exact absurd h1 (by decide +kernel)

/-! ### The hypotheses are satisfiable -/

/-- Linear algebra that sums in one of the possible orders and inverts exactly. -/
noncomputable def referenceLapack : Lapack binary64 where
  matMul M N i j := (exists_dotVal binary64 (M i) fun l => N l j).choose
  mulVec M v i := (exists_dotVal binary64 (M i) v).choose
  vecMul v M j := (exists_dotVal binary64 v fun i => M i j).choose
  dot u v := (exists_dotVal binary64 u v).choose
  inv M := .ok M⁻¹
  det M := M.det
  matMul_val _ _ _ _ := (exists_dotVal _ _ _).choose_spec
  mulVec_val _ _ _ := (exists_dotVal _ _ _).choose_spec
  vecMul_val _ _ _ := (exists_dotVal _ _ _).choose_spec
  dot_val _ _ := (exists_dotVal _ _ _).choose_spec

example : ExactOnUnimodular referenceLapack m := fun _ _ => ⟨rfl, fun _ => rfl⟩

/-- Lots to buy over three days, with limits on neighbouring days. -/
def intervalSample : LP 2 3 :=
  ⟨!![1, 1, 0; 0, 1, 1], ![40000, 50000], ![2, 3, 2], 7, .max, ![.le, .eq], [2], [0], false⟩

theorem intervalSample_data : UnimodularData intervalSample 50000 3 7 where
  tu := tu_iff.mpr ⟨fun i j => ⟨(!![1, 1, 0; 0, 1, 1] : Matrix (Fin 2) (Fin 3) ℤ) i j, by
    fin_cases i <;> fin_cases j <;> norm_num [intervalSample]⟩, subdet_of_le (by decide +kernel)⟩
  b i := ⟨(![40000, 50000] : Fin 2 → ℤ) i, by fin_cases i <;> norm_num [intervalSample], by
    fin_cases i <;> norm_num⟩
  c j := ⟨(![2, 3, 2] : Fin 3 → ℤ) j, by fin_cases j <;> norm_num [intervalSample], by fin_cases j <;> norm_num⟩
  z := ⟨7, by norm_num [intervalSample], by norm_num⟩
  βpos := by norm_num
  γpos := by norm_num
  ratios := by norm_num
  bits := by decide +kernel

example : WF intervalSample ∧ Regular intervalSample :=
  ⟨⟨by decide, by decide, by decide, by decide, by decide, by decide⟩, Or.inr (Or.inl (by decide))⟩

/-- Its answer, in double precision. -/
example : fsolve referenceLapack 100 intervalSample = .ok (some [0, 40000, 10000]) := by
  rw [C130_solve (fun _ _ => ⟨rfl, fun _ => rfl⟩)
    ⟨by decide, by decide, by decide, by decide, by decide, by decide⟩ (by norm_num) intervalSample_data]
  decide +kernel

end Props
end Pytimize
