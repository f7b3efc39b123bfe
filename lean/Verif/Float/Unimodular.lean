/-
Integers of bounded size, totally unimodular matrices, and comparisons of integers, for the simplex method in double
precision.
-/
import Mathlib.LinearAlgebra.Matrix.Determinant.TotallyUnimodular
import Verif.Float.Simplex
import Verif.Float.WholeProgram
import Verif.LP.Minors

namespace Pytimize
namespace Floating
open LinProg Comparator Matrix

variable {m n : ℕ}

/-! ### Bounded integers -/

theorem IntUpTo.abs_le {B : ℤ} {q : ℚ} (h : IntUpTo B q) : |q| ≤ B := by
  obtain ⟨k, rfl, hk⟩ := h
  exact_mod_cast hk

theorem IntUpTo.of_abs {B : ℤ} {q : ℚ} (h : ∃ k : ℤ, q = k) (hq : |q| ≤ B) : IntUpTo B q := by
  obtain ⟨k, rfl⟩ := h
  exact ⟨k, rfl, by exact_mod_cast hq⟩

theorem IntUpTo.neg {B : ℤ} {q : ℚ} (h : IntUpTo B q) : IntUpTo B (-q) := by
  obtain ⟨k, rfl, hk⟩ := h
  exact ⟨-k, by push_cast; rfl, by rwa [abs_neg]⟩

theorem IntUpTo.nonneg {B : ℤ} {q : ℚ} (h : IntUpTo B q) : 0 ≤ B := by
  obtain ⟨k, -, hk⟩ := h
  exact (abs_nonneg k).trans hk

theorem IntUpTo.mul {B C : ℤ} {a b : ℚ} (ha : IntUpTo B a) (hb : IntUpTo C b) : IntUpTo (B * C) (a * b) := by
  have h0 := ha.nonneg
  obtain ⟨k, rfl, hk⟩ := ha
  obtain ⟨l, rfl, hl⟩ := hb
  exact ⟨k * l, by push_cast; rfl, by rw [abs_mul]; exact mul_le_mul hk hl (abs_nonneg _) h0⟩

theorem IntUpTo.add {B C : ℤ} {a b : ℚ} (ha : IntUpTo B a) (hb : IntUpTo C b) : IntUpTo (B + C) (a + b) := by
  obtain ⟨k, rfl, hk⟩ := ha
  obtain ⟨l, rfl, hl⟩ := hb
  exact ⟨k + l, by push_cast; rfl, (abs_add_le k l).trans (add_le_add hk hl)⟩

theorem IntUpTo.sum {B : ℤ} {f : Fin m → ℚ} (h : ∀ i, IntUpTo B (f i)) : IntUpTo (m * B) (∑ i, f i) := by
  choose k hk hB using h
  refine ⟨∑ i, k i, by rw [Int.cast_sum]; exact Finset.sum_congr rfl fun i _ => hk i, ?_⟩
  refine (Finset.abs_sum_le_sum_abs _ _).trans ((Finset.sum_le_sum fun i _ => hB i).trans ?_)
  simp

theorem IntUpTo.rd_eq {B : ℤ} (hB : B ≤ 2 ^ 53) {q : ℚ} (h : IntUpTo B q) : binary64.rd q = q := (h.mono hB).rep

/-- Products of bounded integer vectors are exact. -/
theorem DotVal.upTo {B C : ℤ} {u v : Fin m → ℚ} {r : ℚ} (h : DotVal binary64 u v r) (hu : ∀ i, IntUpTo B (u i))
    (hv : ∀ i, IntUpTo C (v i)) (hs : m * (B * C) ≤ 2 ^ 53) : r = ∑ i, u i * v i ∧ IntUpTo (m * (B * C)) r := by
  have e : r = ∑ i, u i * v i := by
    refine h.int (fun i => (hu i).int) (fun i => (hv i).int) ?_
    refine (Finset.sum_le_sum fun i _ => ((hu i).mul (hv i)).abs_le).trans ?_
    simp only [Finset.sum_const, Finset.card_univ, Fintype.card_fin, nsmul_eq_mul]
    exact_mod_cast hs
  refine ⟨e, ?_⟩
  rw [e]
  exact IntUpTo.sum fun i => (hu i).mul (hv i)

/-! ### Totally unimodular matrices -/

theorem sign_upTo {q : ℚ} : q ∈ Set.range SignType.cast ↔ IntUpTo 1 q := by
  constructor
  · rintro ⟨s, rfl⟩
    cases s
    · exact ⟨0, by simp, by norm_num⟩
    · exact ⟨-1, by simp, by norm_num⟩
    · exact ⟨1, by simp, by norm_num⟩
  · rintro ⟨k, rfl, hk⟩
    have := abs_le.mp hk
    have : k = -1 ∨ k = 0 ∨ k = 1 := by omega
    rcases this with rfl | rfl | rfl
    · exact ⟨-1, by simp⟩
    · exact ⟨0, by simp⟩
    · exact ⟨1, by simp⟩

variable {ι κ : Type}

theorem tu_entry {M : Matrix ι κ ℚ} (h : M.IsTotallyUnimodular) (i : ι) (j : κ) : IntUpTo 1 (M i j) :=
  sign_upTo.mp (h.apply i j)

theorem tu_det {M : Matrix ι κ ℚ} (h : M.IsTotallyUnimodular) {k : ℕ} (f : Fin k → ι) (g : Fin k → κ) :
    IntUpTo 1 (M.submatrix f g).det :=
  sign_upTo.mp ((isTotallyUnimodular_iff M).mp h k f g)

theorem tu_det_self {M : Matrix (Fin m) (Fin m) ℚ} (h : M.IsTotallyUnimodular) : IntUpTo 1 M.det := by
  simpa using tu_det h id id

/-- Total unimodularity in terms of `SubdetLe`. -/
theorem tu_iff {M : Matrix (Fin m) (Fin n) ℚ} :
    M.IsTotallyUnimodular ↔ (∀ i j, ∃ z : ℤ, M i j = z) ∧ SubdetLe 1 M := by
  constructor
  · intro h
    exact ⟨fun i j => (tu_entry h i j).int, fun k r s => by simpa using (tu_det h r s).abs_le⟩
  · rintro ⟨h1, h2⟩
    rw [isTotallyUnimodular_iff]
    intro k f g
    rw [sign_upTo]
    refine IntUpTo.of_abs ?_ (by simpa using h2 k f g)
    choose Z hZ using h1
    have e : M.submatrix f g = (Matrix.of fun i j => Z (f i) (g j)).map ((↑) : ℤ → ℚ) := by
      ext i j
      simp [hZ]
    exact ⟨_, by rw [e]; exact det_cast _⟩

theorem unit_inv {d : ℚ} (h : IntUpTo 1 d) (h0 : d ≠ 0) : IntUpTo 1 d⁻¹ := by
  obtain ⟨k, rfl, hk⟩ := h
  have := abs_le.mp hk
  have : k ≠ 0 := by rintro rfl; simp at h0
  have : k = -1 ∨ k = 1 := by omega
  rcases this with rfl | rfl
  · exact ⟨-1, by norm_num, by norm_num⟩
  · exact ⟨1, by norm_num, by norm_num⟩

theorem tu_npInv {M : Matrix (Fin m) (Fin m) ℚ} (h : M.IsTotallyUnimodular) (h0 : M.det ≠ 0) (i k : Fin m) :
    IntUpTo 1 (npInv M i k) := by
  have e : npInv M i k = (npInv M).mulVec (Pi.single k 1) i := by simp
  rw [e, npInv_mulVec]
  have e2 : M.updateCol i (Pi.single k 1) =
      (fromCols M (1 : Matrix (Fin m) (Fin m) ℚ)).submatrix id (fun j => if j = i then .inr k else .inl j) := by
    ext r j
    by_cases hj : j = i
    · subst hj
      simp [Matrix.one_apply, Pi.single_apply]
    · simp [hj]
  rw [e2]
  simpa using (unit_inv (tu_det_self h) h0).mul (tu_det h.fromCols_one id _)

theorem tu_one : (1 : Matrix (Fin m) (Fin m) ℚ).IsTotallyUnimodular := by
  rw [tu_iff]
  refine ⟨fun i j => ?_, ?_⟩
  · rw [Matrix.one_apply]
    split
    · exact ⟨1, by simp⟩
    · exact ⟨0, by simp⟩
  · have h : (Matrix.of fun (i : Fin m) (j : Fin 0) => (j.elim0 : ℚ)).IsTotallyUnimodular := by
      rw [isTotallyUnimodular_iff]
      intro k f g
      rcases k with _ | k
      · rw [sign_upTo, det_isEmpty]; exact ⟨1, by simp, by norm_num⟩
      · exact (g 0).elim0
    have h2 := h.fromCols_one.submatrix id (Sum.inr : Fin m → Fin 0 ⊕ Fin m)
    have e : (fromCols (Matrix.of fun (i : Fin m) (j : Fin 0) => (j.elim0 : ℚ)) (1 : Matrix (Fin m) (Fin m) ℚ)).submatrix
        id Sum.inr = 1 := by
      ext i j
      simp
    rw [e] at h2
    intro k r s
    simpa using (tu_det h2 r s).abs_le

/-! ### Comparisons of integers -/

theorem closeToZero_int {v : ℚ} (h : ∃ k : ℤ, v = k) : closeToZero binary64 v = isCloseToZero v := by
  obtain ⟨k, rfl⟩ := h
  have hb := zeroTol_bounds fine_binary64
  unfold closeToZero isCloseToZero tol
  rw [decide_eq_decide]
  by_cases hk : k = 0
  · subst hk
    simp only [Int.cast_zero, abs_zero]
    exact ⟨fun _ => by norm_num, fun _ => zeroTol_pos fine_binary64⟩
  · have h1 : (1 : ℚ) ≤ |(k : ℚ)| := by exact_mod_cast Int.one_le_abs hk
    constructor
    · intro h; norm_num at hb; linarith
    · intro h; norm_num at h; linarith

theorem cmp_zero_int {v : ℚ} (h : ∃ k : ℤ, v = k) (op : Op) : cmpTol binary64 v op 0 = pyCmp v op 0 := by
  have := closeToZero_int h
  cases op <;> simp [cmpTol, pyCmp, close, closeTo, this]

theorem positive_int {v : ℚ} (h : ∃ k : ℤ, v = k) : positive binary64 v = isPositive v := cmp_zero_int h .gt

theorem negative_int {v : ℚ} (h : ∃ k : ℤ, v = k) : negative binary64 v = isNegative v := cmp_zero_int h .lt

theorem rd_err {x : ℚ} : |binary64.rd x - x| ≤ 1 / 2 ^ 53 * |x| + 1 / 10 ^ 30 := by
  have h1 := binary64.err x
  have h2 := fine_binary64.tiny_le
  have h3 : binary64.u = 1 / 2 ^ 53 := rfl
  rw [h3] at h1
  linarith

/-- The tolerance of `np.isclose` never decides between integers of this size in another way. -/
theorem npClose_int {a b : ℚ} (ha : IntUpTo (2 ^ 40) a) (hb : IntUpTo (2 ^ 40) b) :
    npClose binary64 a b = npIsClose a b := by
  have hr : binary64.rd (a - b) = a - b := (ha.sub hb).rd_eq (by norm_num)
  have hB := hb.abs_le
  push_cast at hB
  have hB0 := abs_nonneg b
  have hd : ∃ d : ℤ, |a - b| = d := by
    obtain ⟨k, hk⟩ := (ha.sub hb).int
    exact ⟨|k|, by rw [hk]; push_cast; rfl⟩
  have hβ : ∃ q : ℤ, |b| = q := by
    obtain ⟨k, hk⟩ := hb.int
    exact ⟨|k|, by rw [hk]; push_cast; rfl⟩
  unfold npClose npIsClose
  rw [hr, decide_eq_decide]
  obtain ⟨d, hd⟩ := hd
  obtain ⟨q, hq⟩ := hβ
  rw [hd, hq]
  rw [hq] at hB hB0
  clear hd hq hr
  have e1 := abs_le.mp (rd_err (x := 1 / 10 ^ 8))
  have e2 := abs_le.mp (rd_err (x := 1 / 10 ^ 5))
  generalize binary64.rd (1 / 10 ^ 8) = s at *
  generalize binary64.rd (1 / 10 ^ 5) = t at *
  rw [abs_of_nonneg (by norm_num : (0 : ℚ) ≤ 1 / 10 ^ 8)] at e1
  rw [abs_of_nonneg (by norm_num : (0 : ℚ) ≤ 1 / 10 ^ 5)] at e2
  have t0 : 0 ≤ t := by norm_num at e2 ⊢; linarith [e2.1]
  have p1 : |t * q - 1 / 10 ^ 5 * q| ≤ 1 / 10 ^ 8 / 8 := by
    rw [← sub_mul, abs_mul, abs_of_nonneg hB0]
    have : |t - 1 / 10 ^ 5| ≤ 1 / 2 ^ 53 * (1 / 10 ^ 5) + 1 / 10 ^ 30 := abs_le.mpr e2
    exact (mul_le_mul this hB hB0 (by norm_num)).trans (by norm_num)
  have p1' := abs_le.mp p1
  have e3 := abs_le.mp (rd_err (x := t * q))
  rw [abs_of_nonneg (mul_nonneg t0 hB0)] at e3
  generalize binary64.rd (t * q) = w at *
  have q5 : (1 : ℚ) / 10 ^ 5 * q ≤ 11 * 10 ^ 6 := by
    refine (mul_le_mul_of_nonneg_left hB (by norm_num)).trans ?_
    norm_num
  have w1 : |w - t * q| ≤ 1 / 10 ^ 8 / 4 := by
    rw [abs_le]
    norm_num at *
    constructor <;> linarith [e3.1, e3.2, p1'.1, p1'.2]
  have w1' := abs_le.mp w1
  have x0 : 0 ≤ s + w := by
    norm_num at *
    have : (0 : ℚ) ≤ 1 / 100000 * q := by positivity
    linarith [e1.1, w1'.1, p1'.1]
  have e4 := abs_le.mp (rd_err (x := s + w))
  rw [abs_of_nonneg x0] at e4
  generalize binary64.rd (s + w) = v at *
  have v1 : |v - (s + w)| ≤ 1 / 10 ^ 8 / 4 := by
    rw [abs_le]
    norm_num at *
    constructor <;> linarith [e4.1, e4.2, w1'.1, w1'.2, p1'.1, p1'.2, e1.1, e1.2]
  have v1' := abs_le.mp v1
  by_cases h : 10 ^ 5 * d ≤ q
  · have h' : (10 : ℚ) ^ 5 * d ≤ q := by exact_mod_cast h
    constructor <;> intro _ <;> norm_num at * <;> linarith [v1'.1, w1'.1, p1'.1, e1.1]
  · have h' : (q : ℚ) + 1 ≤ 10 ^ 5 * d := by exact_mod_cast (by omega : q + 1 ≤ 10 ^ 5 * d)
    constructor <;> intro _ <;> norm_num at * <;> linarith [v1'.1, v1'.2, w1'.2, p1'.2, e1.2]

theorem cmp_int {a b : ℚ} (ha : IntUpTo (2 ^ 40) a) (hb : IntUpTo (2 ^ 40) b) (op : Op) :
    cmpTol binary64 a op b = pyCmp a op b := by
  have h : close binary64 a b = closeTo a b := by
    unfold close closeTo
    split
    · exact closeToZero_int ha.int
    · exact npClose_int ha hb
  cases op <;> simp [cmpTol, pyCmp, h]

end Floating
end Pytimize
