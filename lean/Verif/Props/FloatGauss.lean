/-
Property C131: `np.linalg.inv` and `np.linalg.det` on totally unimodular matrices, and what follows for the solver.
-/
import Mathlib.Analysis.SpecialFunctions.Log.Basic
import Mathlib.Data.List.Permutation
import Verif.Float.Gauss
import Verif.Props.FloatSolve
import Verif.Props.LinearBasis

namespace Pytimize
namespace Props
open LinProg Comparator Floating Matrix

variable {m n : ℕ} {C : Libm} {L : Lapack binary64}

/-- C131. Gaussian elimination with partial pivoting in double precision, in any order of the sums, is exact on a totally
unimodular matrix: the determinant is the determinant, the inverse the inverse, and `LinAlgError` is raised exactly if
the matrix is singular. -/
theorem C131_linalg (hL : Gaussian C L) (hm : m < 2 ^ 53) (M : Matrix (Fin m) (Fin m) ℚ)
    (hM : M.IsTotallyUnimodular) :
    L.det M = M.det ∧ L.inv M = if M.det = 0 then .error .linAlgError else .ok M⁻¹ := by
  obtain ⟨h1, h2⟩ := gaussian_exact hL hm M hM
  refine ⟨h1, ?_⟩
  split
  · next h0 =>
    rcases hL.inv M with ⟨T, -, π, l, u, h3, h4, -⟩ | ⟨h3, -⟩
    · rw [det_of_pivots hM hm h3 h4] at h0
      rcases mul_eq_zero.mp h0 with h | h
      · rcases Int.units_eq_one_or (Equiv.Perm.sign π) with h5 | h5 <;> rw [h5] at h <;> norm_num at h
      · exact absurd h (Finset.prod_ne_zero_iff.mpr fun i _ => h4 i)
    · exact h3
  · next h0 => exact h2 h0

/-- C131. `is_basis` in double precision says yes exactly to lists of linearly independent columns. -/
theorem C131_is_basis (hL : Gaussian C L) {P : LP m n} (hm : 0 < m) (hm2 : m < 2 ^ 53)
    (hA : P.A.IsTotallyUnimodular) (basis : List ℤ) :
    ∃ r, fisBasis L P basis = .ok r ∧
      (r = true ↔ ∃ B : Fin m → Fin n, Lists basis B ∧ LinearIndependent ℚ fun i => P.A.col (B i)) := by
  let Q : LP m n := { P with b := 0, c := 0, z := 0 }
  have hT : Tame Q 0 0 0 := ⟨hA, fun _ => ⟨0, by simp [Q], by simp⟩, fun _ => ⟨0, by simp [Q], by simp⟩,
    0, by simp [Q], by simp⟩
  have e : fisBasis L P basis = isBasis P basis := fisBasis_eq (gaussian_exact hL hm2) hT basis
  obtain ⟨r, h1, h2⟩ := C35_is_basis P hm basis
  refine ⟨r, e.trans h1, h2.trans (exists_congr fun B => and_congr_right fun _ => ?_)⟩
  have hd : (P.A.submatrix id B).det ≠ 0 ↔ LinearIndependent ℚ fun i => P.A.col (B i) := by
    rw [← isUnit_iff_ne_zero, ← isUnit_iff_isUnit_det, ← linearIndependent_cols_iff_isUnit]
    rfl
  rw [← hd]
  have hi := tu_det_self (hA.submatrix id B)
  constructor
  · intro h h0
    rw [h0] at h
    norm_num at h
  · intro h0
    rcases unit_cases hi h0 with h | h <;> rw [h] <;> norm_num

/-- C131. With it nothing is left to assume in C130: `simplex`, `two_phase_simplex` and `solve` in double precision do
what they do in exact arithmetic. -/
theorem C131_solve (hL : Gaussian C L) {P : LP m n} (hP : WF P) (hm : 0 < m) {β γ ζ : ℕ}
    (h : UnimodularData P β γ ζ) (fuel : ℕ) :
    (∀ basis, fsimplex L fuel P basis = simplex fuel P basis) ∧ ftwoPhase L fuel P = twoPhase fuel P ∧
      fsolve L fuel P = solve fuel P := by
  have hm2 : m < 2 ^ 53 := by
    have := h.ratios
    have : m ≤ m * β := Nat.le_mul_of_pos_right m h.βpos
    omega
  have hE := gaussian_exact hL hm2
  exact ⟨C130_simplex hE hm h fuel, C130_two_phase hE hm h fuel, C130_solve hE hP hm h fuel⟩

/-- C131. And `solve` returns an integral optimal solution if there is one and `None` if there is none. -/
theorem C131_optimal (hL : Gaussian C L) {P : LP m n} (hP : WF P) (hm : 0 < m) {β γ ζ : ℕ}
    (h : UnimodularData P β γ ζ) (hb : m * β < 10 ^ 5) (hreg : Regular P) (fuel : ℕ) (hf : width P ^ m ≤ fuel) :
    (EqIndep P → (∃ x, Optimal P x) →
      ∃ x, fsolve L fuel P = .ok (some (List.ofFn x)) ∧ Optimal P x ∧ ∀ j, ∃ k : ℤ, x j = k) ∧
    (EqIndep P → (¬ ∃ x, Optimal P x) → fsolve L fuel P = .ok none) ∧
    ((¬ ∃ x, Feas P x) → fsolve L fuel P = .ok none) ∧
    (¬ EqIndep P → (∃ x, Feas P x) → fsolve L fuel P = .error .valueError) := by
  have hm2 : m < 2 ^ 53 := by
    have : m ≤ m * β := Nat.le_mul_of_pos_right m h.βpos
    omega
  exact C130_optimal (gaussian_exact hL hm2) hP hm h hb hreg fuel hf

/-! ### Witnesses -/

theorem dots_one {R : Rounding} {l : List (ℚ × ℚ)} {r : ℚ} (h : Dots R l r) {x : ℚ × ℚ} (hl : l = [x]) :
    r = R.rd (x.1 * x.2) := by
  induction h with
  | prod u v => rw [List.cons.injEq] at hl; rw [← hl.1]
  | add h1 h2 =>
    have a := h1.ne_nil
    have b := h2.ne_nil
    have := congrArg List.length hl
    simp at this
    omega
  | fma u v h1 =>
    have a := h1.ne_nil
    have := congrArg List.length hl
    simp at this
    simp [this] at a
  | perm hp _ ih => exact ih (List.perm_singleton.mp (hl ▸ hp))

theorem dots_two {R : Rounding} {l : List (ℚ × ℚ)} {r : ℚ} (h : Dots R l r) {x y : ℚ × ℚ} (hl : l.Perm [x, y]) :
    r = R.rd (R.rd (x.1 * x.2) + R.rd (y.1 * y.2)) ∨ r = R.rd (x.1 * x.2 + R.rd (y.1 * y.2)) ∨
      r = R.rd (y.1 * y.2 + R.rd (x.1 * x.2)) := by
  have two : ∀ {a b : ℚ × ℚ}, [a, b].Perm [x, y] → (a = x ∧ b = y) ∨ (a = y ∧ b = x) := by
    intro a b hp
    rcases List.perm_pair.mp hp with h | h <;> simp only [List.cons.injEq, and_true] at h
    · exact .inl h
    · exact .inr h
  induction h with
  | prod u v => simpa using hl.length_eq
  | @add l1 l2 r s h1 h2 =>
    have a := h1.ne_nil
    have b := h2.ne_nil
    have := hl.length_eq
    simp at this
    obtain ⟨p, rfl⟩ := List.length_eq_one_iff.mp (show l1.length = 1 by omega)
    obtain ⟨q, rfl⟩ := List.length_eq_one_iff.mp (show l2.length = 1 by omega)
    rw [dots_one h1 rfl, dots_one h2 rfl]
    rcases two hl with ⟨rfl, rfl⟩ | ⟨rfl, rfl⟩
    · exact .inl rfl
    · exact .inl (by rw [add_comm])
  | @fma l1 r u v h1 =>
    have := hl.length_eq
    simp at this
    obtain ⟨p, rfl⟩ := List.length_eq_one_iff.mp this
    rw [dots_one h1 rfl]
    rcases two hl with ⟨rfl, rfl⟩ | ⟨rfl, rfl⟩
    · exact .inr (.inl rfl)
    · exact .inr (.inr rfl)
  | perm hp _ ih => exact ih (hp.trans hl)

theorem reduced_zero {R : Rounding} {a : ℚ} {S : Fin n → Bool} {p q : Fin n → ℚ} {s : ℚ} (h : Reduced R a S p q s)
    (hS : (List.finRange n).filter S = []) : s = R.rd (a * 1) := by
  unfold Reduced at h
  rw [hS] at h
  exact dots_one h (x := (a, 1)) rfl

theorem reduced_one {R : Rounding} {a : ℚ} {S : Fin n → Bool} {p q : Fin n → ℚ} {s : ℚ} (h : Reduced R a S p q s)
    {k : Fin n} (hS : (List.finRange n).filter S = [k]) :
    s = R.rd (R.rd (a * 1) + R.rd (-p k * q k)) ∨ s = R.rd (a * 1 + R.rd (-p k * q k)) ∨
      s = R.rd (-p k * q k + R.rd (a * 1)) := by
  unfold Reduced at h
  rw [hS] at h
  exact dots_two h (x := (a, 1)) (y := (-p k, q k)) (List.Perm.refl _)

/-- Two rows, one a multiple of the other. -/
def multiples : Matrix (Fin 2) (Fin 2) ℚ := !![49, 49; 1, 1]

/-- Without total unimodularity a singular matrix need not be recognised: the inverse of this one is computed without an
error, by whatever variant of the elimination. -/
theorem C131_singular_wrong (hL : Gaussian C L) : multiples.det = 0 ∧ ∃ T, L.inv multiples = .ok T := by
  refine ⟨by simp [multiples, det_fin_two], ?_⟩
  rcases hL.inv multiples with ⟨T, h, -⟩ | ⟨-, π, l, u, hF, i, hi⟩
  · exact ⟨T, h⟩
  exfalso
  have f0 : ((List.finRange 2).filter fun k => decide (k < (0 : Fin 2))) = [] := by decide
  have f1 : ((List.finRange 2).filter fun k => decide (k < (1 : Fin 2))) = [0] := by decide
  have e0 := reduced_zero (hF.upper 0 0 le_rfl) f0
  have e1 := reduced_zero (hF.upper 0 1 (by decide)) f0
  obtain ⟨s, hs, h1, h2⟩ := hF.lower 1 0 (by decide)
  have e2 := reduced_zero hs f0
  have e3 := reduced_one (hF.upper 1 1 le_rfl) f1
  have r49 : binary64.rd (49 * 1) = 49 := by decide +kernel
  have r1 : binary64.rd (1 * 1) = 1 := by decide +kernel
  have hπ : π 0 = 0 ∧ π 1 = 1 := by
    have : π 0 ≠ π 1 := fun h => absurd (π.injective h) (by decide)
    by_contra hne
    have hp : π 0 = 1 ∧ π 1 = 0 := by omega
    rw [e2, e0, hp.1, hp.2] at h1
    simp only [multiples, of_apply, cons_val_zero, cons_val_one] at h1
    rw [r49, r1] at h1
    norm_num at h1
  rw [hπ.1] at e0 e1
  rw [hπ.2] at e2 e3
  simp only [multiples, of_apply, cons_val_zero, cons_val_one] at e0 e1 e2 e3
  rw [r49] at e0 e1
  rw [r1] at e2
  have e4 : l 1 0 = binary64.rd (1 / 49) := by
    rcases h2 (by rw [e0]; norm_num) with h | h
    · rw [h, e0, e2]
    · rw [h, e0, e2, one_mul, binary64.idem]
  rw [e4, e1] at e3
  have k1 : binary64.rd (binary64.rd (1 * 1) + binary64.rd (-binary64.rd (1 / 49) * 49)) ≠ 0 := by decide +kernel
  have k2 : binary64.rd (1 * 1 + binary64.rd (-binary64.rd (1 / 49) * 49)) ≠ 0 := by decide +kernel
  have k3 : binary64.rd (-binary64.rd (1 / 49) * 49 + binary64.rd (1 * 1)) ≠ 0 := by decide +kernel
  have h11 : u 1 1 ≠ 0 := by
    rcases e3 with h | h | h <;> rw [h] <;> assumption
  have h00 : u 0 0 ≠ 0 := by rw [e0]; norm_num
  fin_cases i
  · exact h00 hi
  · exact h11 hi

/-! ### The hypotheses are satisfiable -/

/-- Logarithm and exponential function, rounded down to sixty binary places. -/
noncomputable def fixedPoint : Libm where
  log x := (⌊Real.log x * 2 ^ 60⌋ : ℚ) / 2 ^ 60
  exp x := (⌊Real.exp x * 2 ^ 60⌋ : ℚ) / 2 ^ 60
  log_one := by simp
  exp_zero := by
    have : ⌊Real.exp ((0 : ℚ) : ℝ) * 2 ^ 60⌋ = 2 ^ 60 := by
      rw [Rat.cast_zero, Real.exp_zero, one_mul]
      exact_mod_cast Int.floor_natCast (R := ℝ) (2 ^ 60)
    rw [this]
    norm_num

example : Gaussian fixedPoint (eliminating fixedPoint binary64) := eliminating_gaussian _ _

/-- The answer to the example of C130, with eliminations. -/
example : fsolve (eliminating fixedPoint binary64) 100 intervalSample = .ok (some [0, 40000, 10000]) := by
  rw [(C131_solve (eliminating_gaussian _ _) ⟨by decide, by decide, by decide, by decide, by decide, by decide⟩
    (by norm_num) intervalSample_data 100).2.2]
  decide +kernel

end Props
end Pytimize
