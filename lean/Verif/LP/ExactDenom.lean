/-
Programs whose basic solutions have a common small denominator stay clear of the tolerances, whatever their
size.
-/
import Verif.LP.ExactInt
import Verif.LP.Minors
import Verif.LP.Scale

namespace Pytimize
namespace LinProg
open Matrix Comparator

variable {m n : ℕ}

/-- `v` has integer entries. -/
def IntVec {ι : Type} (v : ι → ℚ) : Prop := ∀ i, ∃ z : ℤ, v i = z

/-- Integer rows, and costs with denominator `N`. -/
def IntRows (N : ℕ) (P : LP m n) : Prop := IsInt (scaled (fun _ => 1) N P)

theorem IntRows.entry {N : ℕ} {P : LP m n} (h : IntRows N P) (i : Fin m) (j : Fin n) : ∃ z : ℤ, P.A i j = z := by
  obtain ⟨z, hz⟩ := h.1 i j
  exact ⟨z, by rw [← hz]; simp [scaled]⟩

theorem IntRows.rhs {N : ℕ} {P : LP m n} (h : IntRows N P) (i : Fin m) : ∃ z : ℤ, P.b i = z := by
  obtain ⟨z, hz⟩ := h.2.1 i
  exact ⟨z, by rw [← hz]; simp [scaled]⟩

theorem IntRows.cost {N : ℕ} {P : LP m n} (h : IntRows N P) (j : Fin n) : ∃ z : ℤ, (N : ℚ) * P.c j = z := h.2.2 j

/-- Every vector supported on a basis that solves the equations with an integer right-hand side has entries
with denominator `q`. -/
def Denom (q : ℕ) (P : LP m n) : Prop :=
  ∀ B, Nonsing P B → ∀ x : Fin n → ℚ, (∀ j, (∀ i, B i ≠ j) → x j = 0) → IntVec (P.A.mulVec x) →
    ∀ j, ∃ z : ℤ, (q : ℚ) * x j = z

theorem Denom.rhs {q N : ℕ} {P : LP m n} (h : Denom q P) (hi : IntRows N P) {B : Fin m → Fin n} (hB : Nonsing P B)
    (j : Fin n) : ∃ z : ℤ, (q : ℚ) * sol P B j = z :=
  h B hB _ (fun _ hj => sol_off hB hj) (by rw [sol_eq hB]; exact hi.rhs) j

theorem Denom.entry {q N : ℕ} {P : LP m n} (h : Denom q P) (hi : IntRows N P) {B : Fin m → Fin n} (hB : Nonsing P B)
    (i : Fin m) (j : Fin n) : ∃ z : ℤ, (q : ℚ) * (canon P B).A i j = z := by
  have h1 := h B hB (assign B fun i => (canon P B).A i j) (fun _ hj => assign_off hB.inj _ hj) (by
    rw [mulVec_assign hB.inj]
    have : (colSel P.A B).mulVec (fun i => (canon P B).A i j) = fun r => P.A r j := by
      funext r
      exact congrFun (congrFun (mul_canon_A hB) r) j
    rw [this]
    exact fun r => hi.entry r j) (B i)
  rwa [assign_apply hB.inj] at h1

/-- An entry of a canonical form is at most `q`: its inverse is an entry of another one. -/
theorem Denom.entry_le {q N : ℕ} {P : LP m n} (h : Denom q P) (hq : 0 < q) (hi : IntRows N P) {B : Fin m → Fin n}
    (hB : Nonsing P B) (r : Fin m) {k : Fin n} (hk : ∀ i, B i ≠ k) : |(canon P B).A r k| ≤ q := by
  by_cases h0 : (canon P B).A r k = 0
  · rw [h0, abs_zero]; exact Nat.cast_nonneg q
  have hU : Pivot B r k (Function.update B r k) := by
    intro j
    constructor
    · rintro ⟨i, rfl⟩
      by_cases hir : i = r
      · left; simp [hir]
      · right
        rw [Function.update_of_ne hir]
        exact ⟨⟨i, rfl⟩, fun he => hir (hB.inj he)⟩
    · rintro (rfl | ⟨⟨i, rfl⟩, hir⟩)
      · exact ⟨r, by simp⟩
      · exact ⟨i, by rw [Function.update_of_ne]; rintro rfl; exact hir rfl⟩
  have hN := hU.nonsing hB hk h0
  obtain ⟨z, hz⟩ := h _ hN (((canon P B).A r k)⁻¹ • rayOf B (canon P B) k + Pi.single (B r) 1)
    (by
      intro j hj
      have hjk : j ≠ k := by
        rintro rfl
        exact hj r (by simp)
      by_cases hjr : j = B r
      · subst hjr
        simp only [Pi.add_apply, Pi.smul_apply, smul_eq_mul, rayOf_basic hB hk, Pi.single_eq_same]
        field_simp
        ring
      · have hjB : ∀ i, B i ≠ j := by
          intro i he
          have hir : i ≠ r := by rintro rfl; exact hjr he.symm
          exact hj i (by rw [Function.update_of_ne hir]; exact he)
        simp [rayOf_off hB hjB hjk, hjr])
    (by
      rw [Matrix.mulVec_add, Matrix.mulVec_smul, rayOf_ker hB hk, smul_zero, zero_add]
      intro i
      rw [Matrix.mulVec_single_one]
      exact hi.entry i _) k
  simp only [Pi.add_apply, Pi.smul_apply, smul_eq_mul, rayOf_self, mul_one, Pi.single_eq_of_ne' (hk r),
    add_zero] at hz
  have hz0 : z ≠ 0 := by
    rintro rfl
    rw [Int.cast_zero] at hz
    rcases mul_eq_zero.mp hz with hq' | hq'
    · exact hq.ne' (by exact_mod_cast hq')
    · exact h0 (inv_eq_zero.mp hq')
  have h1 : (1 : ℚ) ≤ |(z : ℚ)| := by exact_mod_cast Int.one_le_abs hz0
  rw [← hz, abs_mul, abs_inv, Nat.abs_cast, ← div_eq_mul_inv, le_div_iff₀ (abs_pos.mpr h0), one_mul] at h1
  exact h1

/-- Multiples of `1 / q` are zero or at least the tolerance. -/
theorem denom_clear {q : ℕ} (hq : 0 < q) (hq' : (q : ℚ) ≤ 10 ^ 10) {x : ℚ} (h : ∃ z : ℤ, (q : ℚ) * x = z)
    (hx : 0 < x) : tol ≤ x := by
  obtain ⟨z, hz⟩ := h
  have hq0 : (0 : ℚ) < q := by exact_mod_cast hq
  have hz1 : (1 : ℚ) ≤ z := by
    have : (0 : ℚ) < z := by rw [← hz]; positivity
    have : 0 < z := by exact_mod_cast this
    exact_mod_cast this
  unfold tol
  rw [← hz] at hz1
  have : 1 / (q : ℚ) ≤ x := by rw [div_le_iff₀ hq0]; linarith
  exact le_trans (one_div_le_one_div_of_le hq0 hq') this

/-- Different fractions with small integer terms are told apart by the tolerance. -/
theorem frac_apart {u₁ v₁ u₂ v₂ : ℤ} (p₁ : 0 < v₁) (p₂ : 0 < v₂) (n₁ : 0 ≤ u₁)
    (hlt : (u₁ : ℚ) / v₁ < (u₂ : ℚ) / v₂) (hs : (v₁ : ℚ) * v₂ / 10 ^ 8 + (v₁ : ℚ) * u₂ / 10 ^ 5 < 1) :
    closeTo ((u₁ : ℚ) / v₁) ((u₂ : ℚ) / v₂) = false := by
  have p₁' : (0 : ℚ) < v₁ := by exact_mod_cast p₁
  have p₂' : (0 : ℚ) < v₂ := by exact_mod_cast p₂
  have n₁' : (0 : ℚ) ≤ u₁ := by exact_mod_cast n₁
  have hr2p : 0 < (u₂ : ℚ) / v₂ := lt_of_le_of_lt (div_nonneg n₁' p₁'.le) hlt
  have hint : (u₁ : ℚ) * v₂ + 1 ≤ u₂ * v₁ := by
    rw [div_lt_div_iff₀ p₁' p₂'] at hlt
    have : u₁ * v₂ < u₂ * v₁ := by exact_mod_cast hlt
    exact_mod_cast this
  have hdiff : (u₁ : ℚ) / v₁ - u₂ / v₂ ≤ -(1 / (v₁ * v₂)) := by
    rw [div_sub_div _ _ p₁'.ne' p₂'.ne', ← neg_div, div_le_div_iff_of_pos_right (mul_pos p₁' p₂')]
    linarith
  have hbound : 1 / 10 ^ 8 + 1 / 10 ^ 5 * ((u₂ : ℚ) / v₂) < 1 / (v₁ * v₂) := by
    rw [lt_div_iff₀ (mul_pos p₁' p₂')]
    have e : (1 / 10 ^ 8 + 1 / 10 ^ 5 * ((u₂ : ℚ) / v₂)) * (v₁ * v₂) =
        v₁ * v₂ / 10 ^ 8 + v₁ * u₂ / 10 ^ 5 := by
      field_simp
    rw [e]
    exact hs
  unfold closeTo
  rw [if_neg hr2p.ne']
  unfold npIsClose
  rw [decide_eq_false_iff_not, not_le, abs_of_pos hr2p]
  refine lt_of_lt_of_le hbound ?_
  rw [abs_sub_comm]
  refine le_trans ?_ (le_abs_self _)
  linarith

/-- Integer rows, costs with denominator `N`, basic solutions with denominator `q` and feasible basic solutions bounded by `R`: the
tolerances make no difference. -/
theorem exact_of_denom {P : LP m n} {q R N : ℕ} (hq : 0 < q) (hN : 0 < N) (hqN : q * N ≤ 10 ^ 10) (hi : IntRows N P) (hd : Denom q P)
    (hR : ∀ B, FeasBasis P B → ∀ j, sol P B j ≤ R)
    (hs : (q : ℚ) ^ 4 / 10 ^ 8 + (q : ℚ) ^ 3 * R / 10 ^ 5 < 1) : Exact P := by
  have hq0 : (0 : ℚ) < q := by exact_mod_cast hq
  have hq1 : (1 : ℚ) ≤ q := by exact_mod_cast hq
  have hq4 : (q : ℚ) ≤ 10 ^ 10 := by
    by_contra hlt
    push Not at hlt
    have h0 : (0 : ℚ) ≤ (q : ℚ) ^ 3 * R / 10 ^ 5 := by positivity
    have h1 : ((10 : ℚ) ^ 10) ^ 4 ≤ (q : ℚ) ^ 4 := by gcongr
    have h2 : ((10 : ℚ) ^ 10) ^ 4 / 10 ^ 8 ≤ (q : ℚ) ^ 4 / 10 ^ 8 := by gcongr
    norm_num at h2 h0 hs
    linarith
  have hb : ∀ B, Nonsing P B → ∀ i, ∃ z : ℤ, (q : ℚ) * (canon P B).b i = z := by
    intro B hB i
    rw [← sol_apply hB]
    exact hd.rhs hi hB _
  have hneg : ∀ {x : ℚ}, (∃ z : ℤ, (q : ℚ) * x = z) → ∃ z : ℤ, (q : ℚ) * -x = z :=
    fun ⟨z, hz⟩ => ⟨-z, by rw [mul_neg, hz]; push_cast; rfl⟩
  refine ⟨fun B hB => ?_, fun B hB j => ?_, fun B hB i j => ?_, fun B hB i => ?_, fun B hB i => ?_,
    fun B hB hf k hk => ?_⟩
  · choose M hM using hi.entry
    have hc : colSel P.A B = ((Matrix.of M).submatrix id B).map ((↑) : ℤ → ℚ) := by
      ext i j
      exact hM i (B j)
    have h0 : (colSel P.A B).det ≠ 0 := hB
    rw [hc, det_cast] at h0 ⊢
    have h1 : ((Matrix.of M).submatrix id B).det ≠ 0 := by exact_mod_cast h0
    have h2 : (1 : ℚ) ≤ |(((Matrix.of M).submatrix id B).det : ℚ)| := by exact_mod_cast Int.one_le_abs h1
    have h3 : tol ≤ 1 := by unfold tol; norm_num
    linarith
  · by_cases h0 : (canon P B).c j ≤ 0
    · exact Or.inl h0
    · refine Or.inr (denom_clear (q := q * N) (Nat.mul_pos hq hN) (by exact_mod_cast hqN) ?_ (not_le.mp h0))
      rw [canon_c_sum]
      choose c hc using hi.cost
      choose w hw using fun i => hd.entry hi hB i j
      refine ⟨q * c j - ∑ i, c (B i) * w i, ?_⟩
      rw [mul_sub, Finset.mul_sum]
      push_cast
      rw [mul_assoc, hc]
      congr 1
      refine Finset.sum_congr rfl fun i _ => ?_
      rw [← hw, ← hc]
      ring
  · by_cases h0 : (canon P B).A i j ≤ 0
    · exact Or.inl h0
    · exact Or.inr (denom_clear hq hq4 (hd.entry hi hB i j) (not_le.mp h0))
  · by_cases h0 : 0 ≤ (canon P B).b i
    · exact Or.inl h0
    · have := denom_clear hq hq4 (hneg (hb B hB i)) (by linarith)
      exact Or.inr (by linarith)
  · by_cases h0 : (canon P B).b i ≤ 0
    · exact Or.inl h0
    · exact Or.inr (denom_clear hq hq4 (hb B hB i) (not_le.mp h0))
  · intro i i' hpi hpi' hlt
    have hp : 0 < (canon P B).A i k := lt_of_lt_of_le tol_pos hpi
    have hp' : 0 < (canon P B).A i' k := lt_of_lt_of_le tol_pos hpi'
    obtain ⟨u₁, e₁⟩ := hb B hB i
    obtain ⟨u₂, e₂⟩ := hb B hB i'
    obtain ⟨v₁, f₁⟩ := hd.entry hi hB i k
    obtain ⟨v₂, f₂⟩ := hd.entry hi hB i' k
    have hr : ∀ a b : ℚ, b / a = (q * b) / (q * a) := fun a b => (mul_div_mul_left b a hq0.ne').symm
    have hle : ∀ r, 0 < (canon P B).A r k → (q : ℚ) * (canon P B).A r k ≤ q ^ 2 := by
      intro r hr
      have := hd.entry_le hq hi hB r hk
      rw [abs_of_pos hr] at this
      rw [pow_two]
      gcongr
    have hu : (q : ℚ) * (canon P B).b i' ≤ q * R := by
      have := hR B (feasBasis_of_rhs hB hf) (B i')
      rw [sol_apply hB] at this
      gcongr
    have hv₁ : (0 : ℚ) < v₁ := by rw [← f₁]; positivity
    have hv₂ : (0 : ℚ) < v₂ := by rw [← f₂]; positivity
    have hu₁ : (0 : ℚ) ≤ u₁ := by rw [← e₁]; exact mul_nonneg hq0.le (hf i)
    have hu₂ : (0 : ℚ) ≤ u₂ := by rw [← e₂]; exact mul_nonneg hq0.le (hf i')
    rw [hr _ ((canon P B).b i), hr _ ((canon P B).b i'), e₁, e₂, f₁, f₂] at hlt ⊢
    have g₁ := hle i hp
    have g₂ := hle i' hp'
    rw [f₁] at g₁
    rw [f₂] at g₂
    rw [e₂] at hu
    refine frac_apart (by exact_mod_cast hv₁) (by exact_mod_cast hv₂) (by exact_mod_cast hu₁) hlt
      (lt_of_le_of_lt ?_ hs)
    have h1 : (v₁ : ℚ) * v₂ ≤ q ^ 2 * q ^ 2 := by gcongr
    have h2 : (v₁ : ℚ) * u₂ ≤ q ^ 2 * (q * R) := by gcongr
    have e1 : (q : ℚ) ^ 4 = q ^ 2 * q ^ 2 := by ring
    have e2 : (q : ℚ) ^ 3 * R = q ^ 2 * (q * R) := by ring
    rw [e1, e2]
    gcongr

end LinProg
end Pytimize
