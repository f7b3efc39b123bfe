/-
Property C134: `solve` in double precision on programs whose subdeterminants are powers of two.
-/
import Verif.Float.DyadicSimplex
import Verif.Props.FloatGauss

namespace Pytimize
namespace Props
open LinProg Comparator Floating Matrix

variable {m n : ℕ} {C : Libm} {L : Lapack binary64}

/-- Specification: all subdeterminants are, up to a common factor, `0` or `±1, ±2, ±4, …, ±2ᴷ`. -/
def PowersOfTwo {ι κ : Type} (K : ℕ) (X : Matrix ι κ ℚ) : Prop :=
  ∃ d : ℚ, d ≠ 0 ∧ ∀ (k : ℕ) (r : Fin k → ι) (s : Fin k → κ),
    d * (X.submatrix r s).det = 0 ∨ ∃ j ≤ K, |d * (X.submatrix r s).det| = 2 ^ j

/-- A program of this kind with integers up to `β` on the right-hand side, up to `γ` in the objective and up to `ζ` as
the constant, small enough for double precision. -/
structure DyadicData (P : LP m n) (K β γ ζ : ℕ) : Prop where
  powers : PowersOfTwo K P.A
  b : ∀ i, ∃ k : ℤ, P.b i = k ∧ |k| ≤ β
  c : ∀ j, ∃ k : ℤ, P.c j = k ∧ |k| ≤ γ
  z : ∃ k : ℤ, P.z = k ∧ |k| ≤ ζ
  βpos : 1 ≤ β
  γpos : 1 ≤ γ
  rows : m ≤ 2 ^ 20
  ratios : m * β * 2 ^ (4 * K) ≤ 2 ^ 40
  bits : (width P ^ 2 * (γ * (β + 1)) + ζ) * 2 ^ (4 * K) ≤ 2 ^ 53

theorem DyadicData.lp {P : LP m n} {K β γ ζ : ℕ} (h : DyadicData P K β γ ζ) : DyadicLP P K β γ ζ :=
  ⟨h.powers, h.b, h.c, h.z⟩

/-- What follows for `m` rows and `W` columns. -/
theorem fits_of {W K β γ ζ : ℕ} (hm : 0 < m) (hw : m ≤ W) (h1 : 1 ≤ β) (h2 : 1 ≤ γ)
    (h3 : m * β * 2 ^ (4 * K) ≤ 2 ^ 40) (hb : (W ^ 2 * (γ * (β + 1)) + ζ) * 2 ^ (4 * K) ≤ 2 ^ 53) :
    DyadicFits m K β γ ζ ∧ (W : ℚ) * (m * (2 ^ K * (β : ℤ))) * 2 ^ K ≤ 2 ^ 53 ∧
      (W * ((γ : ℤ) * (m * (2 ^ K * (β : ℤ)))) + (ζ : ℤ)) * 2 ^ K ≤ (2 : ℚ) ^ 53 := by
  have hK : K ≤ 10 := by
    by_contra hc
    have h4 : 2 ^ 44 ≤ 2 ^ (4 * K) := Nat.pow_le_pow_right (by norm_num) (by omega)
    have h5 : 2 ^ (4 * K) ≤ m * β * 2 ^ (4 * K) := Nat.le_mul_of_pos_left _ (Nat.mul_pos hm h1)
    have : (2 : ℕ) ^ 44 ≤ 2 ^ 40 := h4.trans (h5.trans h3)
    norm_num at this
  have e2 : 2 ^ (2 * K) = 2 ^ K * 2 ^ K := by rw [two_mul, pow_add]
  have e4 : 2 ^ (4 * K) = 2 ^ K * 2 ^ K * (2 ^ K * 2 ^ K) := by
    rw [← pow_add, ← pow_add]; congr 1; omega
  have hp : 1 ≤ 2 ^ K := Nat.one_le_two_pow
  generalize hN : 2 ^ K = N at *
  have hN1 : 1 ≤ N * N := Nat.mul_pos hp hp
  have k1 : m * m ≤ W ^ 2 := by rw [pow_two]; exact Nat.mul_le_mul hw hw
  have k2 : W * m ≤ W ^ 2 := by rw [pow_two]; exact Nat.mul_le_mul le_rfl hw
  have k6 : 1 ≤ m * m := Nat.mul_pos hm hm
  rw [e4] at hb
  have c1 : (γ + m * (m * γ * (N * N))) * (N * N) ≤ 2 ^ 53 := by
    refine le_trans ?_ hb
    have a1 : γ ≤ m * m * γ * (N * N) := by
      calc γ ≤ m * m * γ := Nat.le_mul_of_pos_left γ k6
        _ ≤ _ := Nat.le_mul_of_pos_right _ hN1
    calc (γ + m * (m * γ * (N * N))) * (N * N) ≤ (m * m * γ * (N * N) + m * (m * γ * (N * N))) * (N * N) := by gcongr
      _ = m * m * (γ * (1 + 1)) * (N * N * (N * N)) := by ring
      _ ≤ (W ^ 2 * (γ * (β + 1)) + ζ) * (N * N * (N * N)) := by
        refine Nat.mul_le_mul_right _ (le_trans ?_ (Nat.le_add_right _ _))
        gcongr
  have c2 : (m * (m * γ * β * N) + ζ) * N ≤ 2 ^ 53 := by
    refine le_trans ?_ hb
    calc (m * (m * γ * β * N) + ζ) * N ≤ (m * (m * γ * β * N) + ζ * N) * N := by
          gcongr; exact Nat.le_mul_of_pos_right _ hp
      _ = (m * m * (γ * β) + ζ) * (N * N) := by ring
      _ ≤ (W ^ 2 * (γ * (β + 1)) + ζ) * (N * N * (N * N)) := by
        refine Nat.mul_le_mul ?_ (Nat.le_mul_of_pos_right _ hN1)
        gcongr
        omega
  have c3 : W * (m * (N * β)) * N ≤ 2 ^ 53 := by
    refine le_trans ?_ hb
    calc W * (m * (N * β)) * N = W * m * β * (N * N) := by ring
      _ ≤ (W ^ 2 * (γ * (β + 1)) + ζ) * (N * N * (N * N)) := by
        refine Nat.mul_le_mul (le_trans ?_ (Nat.le_add_right _ _)) (Nat.le_mul_of_pos_right _ hN1)
        refine Nat.mul_le_mul k2 (le_trans (Nat.le_succ β) (Nat.le_mul_of_pos_left _ h2))
  have c4 : (W * (γ * (m * (N * β))) + ζ) * N ≤ 2 ^ 53 := by
    refine le_trans ?_ hb
    calc (W * (γ * (m * (N * β))) + ζ) * N ≤ (W * (γ * (m * (N * β))) + ζ * N) * N := by
          gcongr; exact Nat.le_mul_of_pos_right _ hp
      _ = (W * m * (γ * β) + ζ) * (N * N) := by ring
      _ ≤ (W ^ 2 * (γ * (β + 1)) + ζ) * (N * N * (N * N)) := by
        refine Nat.mul_le_mul ?_ (Nat.le_mul_of_pos_right _ hN1)
        gcongr
        omega
  refine ⟨⟨by omega, by exact_mod_cast h1, by exact_mod_cast h2, by exact_mod_cast h3, ?_, ?_⟩, ?_, ?_⟩
  · have e2' : (2 : ℤ) ^ (2 * K) = ((N * N : ℕ) : ℤ) := by rw [← e2]; push_cast; rfl
    rw [e2']
    exact_mod_cast c1
  · have e' : (2 : ℤ) ^ K = (N : ℤ) := by rw [← hN]; push_cast; rfl
    rw [e']
    exact_mod_cast c2
  · have e' : (2 : ℚ) ^ K = (N : ℚ) := by rw [← hN]; push_cast; rfl
    rw [e']
    exact_mod_cast c3
  · have e' : (2 : ℚ) ^ K = (N : ℚ) := by rw [← hN]; push_cast; rfl
    rw [e']
    exact_mod_cast c4

theorem DyadicData.fits {P : LP m n} {K β γ ζ : ℕ} (h : DyadicData P K β γ ζ) (hm : 0 < m) :
    DyadicFits m K β γ ζ ∧ (width P : ℚ) * (m * (2 ^ K * (β : ℤ))) * 2 ^ K ≤ 2 ^ 53 :=
  (fits_of hm (Nat.le_add_left _ _) h.βpos h.γpos h.ratios h.bits).imp id And.left

theorem exact_of {k K β : ℕ} (h1 : 1 ≤ β) (hk : k ≤ m) (hm : 0 < m) (hK : K ≤ 16) (hr : m ≤ 2 ^ 20)
    (h3 : m * β * 2 ^ (4 * K) ≤ 2 ^ 40) (hC : C.Accurate) (hL : Gaussian C L) : ExactOnDyadic L k K := by
  have h4 : ((k + 1 : ℕ) : ℚ) * 2 ^ (4 * K) ≤ 2 ^ 53 := by
    have h2 : (k + 1) * 2 ^ (4 * K) ≤ 2 * (m * β * 2 ^ (4 * K)) := by
      rw [← mul_assoc]
      refine Nat.mul_le_mul_right _ ?_
      have : m ≤ m * β := Nat.le_mul_of_pos_right m h1
      omega
    have : (k + 1) * 2 ^ (4 * K) ≤ 2 ^ 53 := by
      refine h2.trans ?_
      calc 2 * (m * β * 2 ^ (4 * K)) ≤ 2 * 2 ^ 40 := Nat.mul_le_mul_left _ h3
        _ ≤ 2 ^ 53 := by norm_num
    exact_mod_cast this
  exact gaussian_dyadic hC hL (by push_cast at h4; exact h4) hK (by omega)

theorem DyadicData.exact {P : LP m n} {K β γ ζ : ℕ} (h : DyadicData P K β γ ζ) (hm : 0 < m) (hC : C.Accurate)
    (hL : Gaussian C L) : ExactOnDyadic L m K :=
  exact_of h.βpos le_rfl hm (h.fits hm).1.K_le h.rows h.ratios hC hL

/-- C134. If all subdeterminants of a matrix are powers of two, `np.linalg.inv` by Gaussian elimination in double
precision, in any order of the sums, is the inverse, and `LinAlgError` is raised exactly for a singular matrix. -/
theorem C134_linalg (hL : Gaussian C L) {K : ℕ} (hK : K ≤ 16) (hm : (m + 1) * 2 ^ (4 * K) ≤ 2 ^ 53)
    (M : Matrix (Fin m) (Fin m) ℚ) (hM : PowersOfTwo K M) :
    L.inv M = if M.det = 0 then .error .linAlgError else .ok M⁻¹ := by
  have hk : ((m : ℚ) + 1) * 2 ^ (4 * K) ≤ 2 ^ 53 := by exact_mod_cast hm
  rcases hL.inv M with ⟨T, h1, h2⟩ | ⟨h1, π, l, u, h2, h3⟩
  · rw [h1, invVal_dyadic hM hk (by omega) h2, if_neg]
    obtain ⟨π, l, u, h3, h4, -⟩ := h2
    rw [dyadic_pivots hM hk (by omega) h3 h4]
    refine mul_ne_zero ?_ (Finset.prod_ne_zero_iff.mpr fun i _ => h4 i)
    rcases Int.units_eq_one_or (Equiv.Perm.sign π) with h5 | h5 <;> rw [h5] <;> norm_num
  · rw [h1, if_pos (dyadic_zero_pivot hM hk (by omega) h2 h3)]

/-- C134. `is_basis` in double precision says yes exactly to lists of linearly independent columns, although the
determinant is computed with logarithms. -/
theorem C134_is_basis (hC : C.Accurate) (hL : Gaussian C L) {P : LP m n} {K : ℕ} (hK : K ≤ 16) (hm : 0 < m)
    (hm2 : m ≤ 2 ^ 20) (hm3 : (m + 1) * 2 ^ (4 * K) ≤ 2 ^ 53) (hA : PowersOfTwo K P.A) (basis : List ℤ) :
    ∃ r, fisBasis L P basis = .ok r ∧
      (r = true ↔ ∃ B : Fin m → Fin n, Lists basis B ∧ LinearIndependent ℚ fun i => P.A.col (B i)) := by
  let Q : LP m n := { P with b := 0, c := 0, z := 0 }
  have hT : DyadicLP Q K 0 0 0 := ⟨hA, fun _ => ⟨0, by simp [Q], by simp⟩, fun _ => ⟨0, by simp [Q], by simp⟩,
    0, by simp [Q], by simp⟩
  have e : fisBasis L P basis = isBasis P basis :=
    Dy.fisBasis_eq (gaussian_dyadic hC hL (by exact_mod_cast hm3) hK hm2) hT basis
  obtain ⟨r, h1, h2⟩ := C35_is_basis P hm basis
  refine ⟨r, e.trans h1, h2.trans (exists_congr fun B => and_congr_right fun _ => ?_)⟩
  have hd : (P.A.submatrix id B).det ≠ 0 ↔ LinearIndependent ℚ fun i => P.A.col (B i) := by
    rw [← isUnit_iff_ne_zero, ← isUnit_iff_isUnit_det, ← linearIndependent_cols_iff_isUnit]
    rfl
  rw [← hd]
  constructor
  · intro h h0
    rw [h0] at h
    norm_num at h
  · intro h0
    have hp : TwoPow K (P.A.submatrix id B).det := (hT.cols B).det_self
    have := hp.low h0
    have h3 : (2 : ℚ) ^ K ≤ 2 ^ 16 := pow_le_pow_right₀ (by norm_num) hK
    have h4 : (0 : ℚ) < 2 ^ K := by positivity
    refine le_trans (one_div_le_one_div_of_le h4 (h3.trans (by norm_num))) this

/-- C134. On a program with such a matrix `simplex`, `two_phase_simplex` and `solve` in double precision do what they do
in exact arithmetic, whatever the order of the sums. -/
theorem C134_solve (hC : C.Accurate) (hL : Gaussian C L) {P : LP m n} (hP : WF P) (hm : 0 < m) {K β γ ζ : ℕ}
    (h : DyadicData P K β γ ζ) (fuel : ℕ) :
    (∀ basis, fsimplex L fuel P basis = simplex fuel P basis) ∧ ftwoPhase L fuel P = twoPhase fuel P ∧
      fsolve L fuel P = solve fuel P := by
  obtain ⟨hf, hv⟩ := h.fits hm
  have hE := h.exact hm hC hL
  refine ⟨Dy.fsimplex_eq hE h.lp hf fuel, Dy.ftwoPhase_eq hE h.lp hf ?_ fuel, Dy.fsolve_eq hE hP h.lp hf ?_ fuel⟩
  · refine le_trans ?_ hv
    have hw : n + m ≤ width P := by unfold width; omega
    have hw' : ((n + m : ℕ) : ℚ) ≤ width P := by exact_mod_cast hw
    gcongr
  · rw [toSef_n P hP, slackCount_card]
    exact hv

/-- C134. And `solve` returns an optimal solution if there is one, with denominators up to `2ᴷ`, and `None` if there is
none. -/
theorem C134_optimal (hC : C.Accurate) (hL : Gaussian C L) {P : LP m n} (hP : WF P) (hm : 0 < m) {K β γ ζ : ℕ}
    (h : DyadicData P K β γ ζ) (hA : ∀ i j, ∃ k : ℤ, P.A i j = k)
    (hsub : ∀ (k : ℕ) (r : Fin k → Fin m) (s : Fin k → Fin n), |(P.A.submatrix r s).det| ≤ 2 ^ K)
    (hb : (m * β + 1) * 4 ^ K < 10 ^ 5) (hreg : Regular P) (fuel : ℕ) (hf : width P ^ m ≤ fuel) :
    (EqIndep P → (∃ x, Optimal P x) →
      ∃ x, fsolve L fuel P = .ok (some (List.ofFn x)) ∧ Optimal P x ∧ ∀ j, ∃ k : ℤ, x j * 2 ^ K = k) ∧
    (EqIndep P → (¬ ∃ x, Optimal P x) → fsolve L fuel P = .ok none) ∧
    ((¬ ∃ x, Feas P x) → fsolve L fuel P = .ok none) ∧
    (¬ EqIndep P → (∃ x, Feas P x) → fsolve L fuel P = .error .valueError) := by
  have hd : Decimal P (fun _ => 1) 1 (2 ^ K) β := Moderate.decimal
    { isInt := ⟨hA, fun i => (h.b i).imp fun _ h => h.1, fun j => (h.c j).imp fun _ h => h.1⟩
      subdet := fun k r s => by push_cast; exact hsub k r s
      rhs := fun i => by
        obtain ⟨k, hk, hk2⟩ := h.b i
        rw [hk]
        exact_mod_cast hk2
      small := by
        have e4 : (4 : ℚ) ^ K = 2 ^ K * 2 ^ K := by rw [← mul_pow]; norm_num
        have h2 : ((m : ℚ) * β + 1) * 4 ^ K < 10 ^ 5 := by exact_mod_cast hb
        have h3 : (0 : ℚ) < 2 ^ K * 2 ^ K := by positivity
        rw [e4] at h2
        push_cast
        have e : (2 : ℚ) ^ K * 2 ^ K / 10 ^ 8 + 2 ^ K * (m * β * 2 ^ K) / 10 ^ 5 =
          ((m * β + 1 / 1000) * (2 ^ K * 2 ^ K)) / 10 ^ 5 := by ring
        rw [e, div_lt_one (by norm_num)]
        nlinarith }
  have key := C109_partial P hP hm _ 1 (2 ^ K) β hd hreg fuel hf
  have hs := (C134_solve hC hL hP hm h fuel).2.2
  rw [← hs] at key
  refine ⟨fun h1 h2 => ?_, key.2⟩
  obtain ⟨x, h3, h4⟩ := key.1 h1 h2
  refine ⟨x, h3, h4, fun j => ?_⟩
  rw [hs] at h3
  exact (Dy.solve_grid (h.exact hm hC hL) hP h.lp (h.fits hm).1 h3 _ (List.mem_ofFn.mpr ⟨j, rfl⟩)).1

/-! ### The hypotheses are satisfiable -/

/-- Only submatrices with at most `n` columns matter. -/
theorem powers_of_le {K : ℕ} {X : Matrix (Fin m) (Fin n) ℚ} (h : ∀ k : Fin (n + 1),
    ∀ (r : Fin k → Fin m) (s : Fin k → Fin n), (X.submatrix r s).det = 0 ∨
      ∃ j : Fin (K + 1), |(X.submatrix r s).det| = 2 ^ (j : ℕ)) : PowersOfTwo K X := by
  refine ⟨1, one_ne_zero, fun k r s => ?_⟩
  rw [one_mul]
  by_cases hk : k ≤ n
  · exact (h ⟨k, by omega⟩ r s).imp id fun ⟨j, hj⟩ => ⟨j, by omega, hj⟩
  · left
    have : ¬ Function.Injective s := fun hi => hk (by simpa using Fintype.card_le_of_injective s hi)
    obtain ⟨a, b, hab, hne⟩ := Function.not_injective_iff.mp this
    exact det_zero_of_column_eq hne (by intro c; simp [hab])

/-- The stable sets of a triangle, relaxed. -/
def triangleSample : LP 3 3 :=
  ⟨!![1, 1, 0; 0, 1, 1; 1, 0, 1], ![1, 1, 1], ![5, 4, 3], 0, .max, ![.le, .le, .le], [], [], false⟩

theorem triangleSample_data : DyadicData triangleSample 1 1 5 0 where
  powers := powers_of_le (by decide +kernel)
  b i := ⟨1, by fin_cases i <;> simp [triangleSample], by simp⟩
  c j := ⟨(![5, 4, 3] : Fin 3 → ℤ) j, by fin_cases j <;> norm_num [triangleSample], by fin_cases j <;> norm_num⟩
  z := ⟨0, by norm_num [triangleSample], by norm_num⟩
  βpos := by norm_num
  γpos := by norm_num
  rows := by norm_num
  ratios := by norm_num
  bits := by decide +kernel

/-- Its answer in double precision is not integral. -/
example {C : Libm} (hC : C.Accurate) :
    fsolve (eliminating C binary64) 100 triangleSample = .ok (some [1 / 2, 1 / 2, 1 / 2]) := by
  rw [(C134_solve hC (eliminating_gaussian _ _) ⟨by decide, by decide, by decide, by decide, by decide, by decide⟩
    (by norm_num) triangleSample_data 100).2.2]
  decide +kernel

example : ∃ C : Libm, C.Accurate := exists_accurate

end Props
end Pytimize
