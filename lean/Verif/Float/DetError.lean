/-
How far the product of the computed pivots, and the determinant that `np.linalg.det` (`_linear.py:655`) makes of it, is
from the determinant of the matrix.
-/
import Verif.Float.GaussError
import Verif.Float.DyadicGauss

namespace Pytimize
namespace Floating
open LinProg Matrix

variable {n : ℕ} {R : Rounding}

/-! ### Determinants of nearby matrices -/

theorem prod_perturb {ι : Type} {x y : ι → ℚ} {a e : ℚ} (s : Finset ι) (ha : 0 ≤ a) (he : 0 ≤ e)
    (hx : ∀ i ∈ s, |x i| ≤ a) (hy : ∀ i ∈ s, |y i - x i| ≤ e) :
    |∏ i ∈ s, y i - ∏ i ∈ s, x i| ≤ (a + e) ^ s.card - a ^ s.card ∧ |∏ i ∈ s, x i| ≤ a ^ s.card := by
  classical
  induction s using Finset.induction_on with
  | empty => simp
  | insert k s hk ih =>
    obtain ⟨h1, h2⟩ := ih (fun i hi => hx i (Finset.mem_insert_of_mem hi)) fun i hi => hy i (Finset.mem_insert_of_mem hi)
    have h3 := hx k (Finset.mem_insert_self k s)
    have h4 := hy k (Finset.mem_insert_self k s)
    rw [Finset.prod_insert hk, Finset.prod_insert hk, Finset.card_insert_of_notMem hk]
    have hp : (0 : ℚ) ≤ a ^ s.card := pow_nonneg ha _
    constructor
    · have e1 : y k * ∏ i ∈ s, y i - x k * ∏ i ∈ s, x i =
          y k * (∏ i ∈ s, y i - ∏ i ∈ s, x i) + (y k - x k) * ∏ i ∈ s, x i := by ring
      have h5 : |y k| ≤ a + e := by
        have := abs_add_le (y k - x k) (x k)
        rw [sub_add_cancel] at this
        linarith
      rw [e1]
      refine (abs_add_le _ _).trans ?_
      rw [abs_mul, abs_mul]
      have h6 := mul_le_mul h5 h1 (abs_nonneg _) (by linarith)
      have h7 := mul_le_mul h4 h2 (abs_nonneg _) he
      refine (add_le_add h6 h7).trans (le_of_eq ?_)
      rw [pow_succ, pow_succ]
      ring
    · rw [abs_mul, pow_succ, mul_comm]
      exact mul_le_mul h2 h3 (abs_nonneg _) hp

theorem abs_sign (σ : Equiv.Perm (Fin n)) : |((Equiv.Perm.sign σ : ℤ) : ℚ)| = 1 := by
  rcases Int.units_eq_one_or (Equiv.Perm.sign σ) with h2 | h2 <;> rw [h2] <;> norm_num

theorem abs_sum_perm {f : Equiv.Perm (Fin n) → ℚ} {c : ℚ} (h : ∀ σ, |f σ| ≤ c) :
    |∑ σ, f σ| ≤ (n.factorial : ℚ) * c := by
  refine (Finset.abs_sum_le_sum_abs _ _).trans ((Finset.sum_le_sum fun σ _ => h σ).trans (le_of_eq ?_))
  rw [Finset.sum_const, Finset.card_univ, Fintype.card_perm, Fintype.card_fin, nsmul_eq_mul]

/-- The determinants of two matrices with nearby entries. -/
theorem det_perturb {A B : Matrix (Fin n) (Fin n) ℚ} {a e : ℚ} (ha0 : 0 ≤ a) (he : 0 ≤ e) (ha : ∀ i j, |A i j| ≤ a)
    (hB : ∀ i j, |B i j - A i j| ≤ e) : |B.det - A.det| ≤ (n.factorial : ℚ) * ((a + e) ^ n - a ^ n) := by
  rw [det_apply', det_apply', ← Finset.sum_sub_distrib]
  refine abs_sum_perm fun σ => ?_
  rw [← mul_sub, abs_mul, abs_sign, one_mul]
  have := (prod_perturb (x := fun i => A (σ i) i) (y := fun i => B (σ i) i) Finset.univ ha0 he
    (fun i _ => ha _ _) fun i _ => hB _ _).1
  rwa [Finset.card_univ, Fintype.card_fin] at this

/-- The determinant of a matrix that makes a vector small. -/
theorem det_kernel {A : Matrix (Fin n) (Fin n) ℚ} {a e : ℚ} (he : 0 ≤ e) (ha : ∀ i j, |A i j| ≤ a) {v : Fin n → ℚ}
    {k : Fin n} (hv : 0 < |v k|) (h : ∀ i, |∑ j, A i j * v j| ≤ n * (e * |v k|)) :
    |A.det| ≤ (n.factorial : ℚ) * ((a + e) ^ n - a ^ n) := by
  have ha0 : 0 ≤ a := (abs_nonneg _).trans (ha k k)
  have e1 : A.det * v k = (A.updateCol k (A.mulVec v)).det := by
    have h1 : A.cramer (A.mulVec v) = A.det • v := by
      rw [cramer_eq_adjugate_mulVec, mulVec_mulVec, adjugate_mul, smul_mulVec, one_mulVec]
    have := congrFun h1 k
    rw [cramer_apply] at this
    rw [this]
    simp
  have e2 : |(A.updateCol k (A.mulVec v)).det| ≤ (n.factorial : ℚ) * (a ^ (n - 1) * (n * (e * |v k|))) := by
    rw [det_apply']
    refine abs_sum_perm fun σ => ?_
    rw [abs_mul, abs_sign, one_mul, Finset.abs_prod, ← Finset.mul_prod_erase _ _ (Finset.mem_univ k), mul_comm]
    refine mul_le_mul ?_ ?_ (abs_nonneg _) (pow_nonneg ha0 _)
    · refine (Finset.prod_le_prod (g := fun _ => a) (fun i _ => abs_nonneg _) fun i hi => ?_).trans (le_of_eq ?_)
      · rw [updateCol_ne (Finset.ne_of_mem_erase hi)]
        exact ha _ _
      · rw [Finset.prod_const, Finset.card_erase_of_mem (Finset.mem_univ k), Finset.card_univ, Fintype.card_fin]
    · rw [updateCol_self]
      exact h _
  rw [← e1, abs_mul] at e2
  have e3 : |A.det| ≤ (n.factorial : ℚ) * (a ^ (n - 1) * (n * e)) := by
    refine le_of_mul_le_mul_right (e2.trans (le_of_eq ?_)) hv
    ring
  refine e3.trans (mul_le_mul_of_nonneg_left ?_ (by positivity))
  have hb : ∀ N : ℕ, a ^ (N + 1) + (N + 1) * (a ^ N * e) ≤ (a + e) ^ (N + 1) := by
    intro N
    induction N with
    | zero => simp
    | succ N ih =>
      have h2 := mul_le_mul_of_nonneg_right ih (show 0 ≤ a + e by linarith)
      have h3 : 0 ≤ (N + 1) * (a ^ N * e) * e := by positivity
      rw [pow_succ (a + e) (N + 1)]
      refine le_trans ?_ h2
      push_cast
      have e4 : (a ^ (N + 1) + (N + 1) * (a ^ N * e)) * (a + e) =
          a ^ (N + 1 + 1) + (N + 1 + 1) * (a ^ (N + 1) * e) + (N + 1) * (a ^ N * e) * e := by ring
      linarith
  obtain ⟨N, rfl⟩ : ∃ N, n = N + 1 := ⟨n - 1, by have := k.isLt; omega⟩
  have := hb N
  rw [Nat.add_sub_cancel]
  push_cast
  linarith

/-! ### The product of the pivots -/

/-- The error of the factors. -/
def factorErr (R : Rounding) (n : ℕ) (a μ : ℚ) : ℚ := relErr R n μ * (a + 2 * n * μ) + absErr R n μ

/-- What the product of the pivots can be away from the determinant of a matrix with entries up to `a`. -/
def detErr (R : Rounding) (n : ℕ) (a μ : ℚ) : ℚ := (n.factorial : ℚ) * ((a + factorErr R n a μ) ^ n - a ^ n)

theorem factorErr_nonneg {a μ : ℚ} (ha : 0 ≤ a) (hμ : 0 ≤ μ) : 0 ≤ factorErr R n a μ := by
  have h1 : 0 ≤ relErr R n μ := relErr_nonneg hμ
  have h2 : 0 ≤ absErr R n μ := absErr_nonneg hμ
  unfold factorErr
  positivity

variable {M : Matrix (Fin n) (Fin n) ℚ} {π : Equiv.Perm (Fin n)} {l u : Matrix (Fin n) (Fin n) ℚ} {a μ : ℚ}

theorem det_factors (π : Equiv.Perm (Fin n)) (l u : Matrix (Fin n) (Fin n) ℚ) :
    ((unitLower l * upperPart u).submatrix π.symm id).det = ((Equiv.Perm.sign π : ℤ) : ℚ) * ∏ i, u i i := by
  have h1 : (unitLower l).det = 1 := by
    rw [det_of_isLowerTriangular _ ?_]
    · refine Finset.prod_eq_one fun i _ => ?_
      simp [unitLower]
    · intro i j hij
      have hij : i < j := hij
      simp [unitLower, not_lt.mpr hij.le, hij.ne']
  have h2 : (upperPart u).det = ∏ i, u i i := by
    rw [det_of_isUpperTriangular ?_]
    · exact Finset.prod_congr rfl fun i _ => by simp [upperPart]
    · intro i j hij
      have hij : j < i := hij
      simp [upperPart, not_le.mpr hij]
  rw [det_permute, det_mul, h1, h2, one_mul, Equiv.Perm.sign_symm]

/-- The product of the pivots. -/
theorem pivots_error (hF : Factored R M π l u) (ha0 : 0 ≤ a) (ha : ∀ i j, |M i j| ≤ a) (hg : relErr R n μ ≤ 1 / 2)
    (ht : R.tiny ≤ 1 / 2) (hμ0 : 0 ≤ μ) (hμ : ∀ i j, i ≤ j → (∀ k < i, u k k ≠ 0) → |u i j| ≤ μ) :
    |((Equiv.Perm.sign π : ℤ) : ℚ) * ∏ i, u i i - M.det| ≤ detErr R n a μ := by
  have hg0 : 0 ≤ relErr R n μ := relErr_nonneg hμ0
  by_cases hz : ∃ i, u i i = 0
  · obtain ⟨v, k, hv, -, hk⟩ := near_kernel hF hz ha hg ht hμ0 hμ
    obtain ⟨i, hi⟩ := hz
    have hp : ∏ i, u i i = 0 := Finset.prod_eq_zero (Finset.mem_univ i) hi
    rw [hp, mul_zero, zero_sub, abs_neg]
    exact det_kernel (factorErr_nonneg ha0 hμ0) ha hv hk
  · push Not at hz
    rw [← det_factors π l u]
    refine det_perturb ha0 (factorErr_nonneg ha0 hμ0) ha fun i j => ?_
    obtain ⟨i, rfl⟩ := π.surjective i
    rw [submatrix_apply, Equiv.symm_apply_apply, id, mul_apply]
    refine (factored_error_at hF hμ0 i j fun _ => hμ j j le_rfl fun k _ => hz k).trans ?_
    have hs : ∑ k, |unitLower l i k * upperPart u k j| ≤ n * (2 * μ) := by
      refine sum_le_card fun k => ?_
      rw [abs_mul]
      refine mul_le_mul (unitLower_le hF (hz k) (hμ k k le_rfl fun k' _ => hz k') hg ht) ?_ (abs_nonneg _) (by norm_num)
      unfold upperPart
      split
      · next h => exact hμ k j h fun k' _ => hz k'
      · simpa using hμ0
    unfold factorErr
    refine add_le_add_left (mul_le_mul_of_nonneg_left ?_ hg0) _
    linarith [ha (π i) j]

/-! ### Logarithms -/

/-- What is assumed of the C library for arguments far below zero. -/
def Libm.Underflows (C : Libm) : Prop := ∀ x : ℚ, x ≤ -700 → |C.exp x| ≤ 1 / 10 ^ 100

/-- The sum of the logarithms of the pivots, in terms of the sum of their absolute values. -/
theorem logs_error {C : Libm} (hC : C.Accurate) {v : Fin n → ℚ} (hv : ∀ i, 0 < v i) {B : ℝ} (hB : 1 ≤ B)
    (hl : ∀ i, 1 + |Real.log (v i)| ≤ B) (L : List (Fin n)) : ∀ (acc : ℚ) (S : ℝ) (i : ℕ),
    |(acc : ℝ) - S| ≤ i * B / 2 ^ 39 → |S| + (L.map fun i => |Real.log (v i)|).sum ≤ B → i + L.length ≤ 2 ^ 20 →
    |((L.foldl (fun acc i => binary64.rd (acc + C.log (v i))) acc : ℚ) : ℝ) -
      (S + (L.map fun i => Real.log (v i)).sum)| ≤ ((i + L.length : ℕ) : ℝ) * B / 2 ^ 39 := by
  induction L with
  | nil => intro acc S i h1 _ _; simpa using h1
  | cons k L ih =>
    intro acc S i h1 h2 h3
    rw [List.foldl_cons, List.map_cons, List.sum_cons, ← add_assoc]
    rw [List.map_cons, List.sum_cons] at h2
    have h4 := hC.log_err (v k) (hv k)
    have h5 := hl k
    rw [List.length_cons] at h3
    have h6 : (i : ℝ) ≤ 2 ^ 20 := by exact_mod_cast (by omega : i ≤ 2 ^ 20)
    have hr := rd_err (x := acc + C.log (v k))
    have hr' : |((binary64.rd (acc + C.log (v k)) : ℚ) : ℝ) - ((acc : ℝ) + C.log (v k))| ≤
        1 / 2 ^ 53 * |(acc : ℝ) + C.log (v k)| + 1 / 10 ^ 30 := by
      have := (Rat.cast_le (K := ℝ)).mpr hr
      push_cast at this
      exact this
    generalize ((binary64.rd (acc + C.log (v k)) : ℚ)) = w at *
    have e := ih w (S + Real.log (v k)) (i + 1) ?_ ?_ (by omega)
    · rw [List.length_cons, show i + (L.length + 1) = i + 1 + L.length by omega]
      exact e
    · push_cast
      have hs : 0 ≤ (L.map fun i => |Real.log (v i)|).sum :=
        List.sum_nonneg fun x hx => by obtain ⟨j, -, rfl⟩ := List.mem_map.mp hx; exact abs_nonneg _
      have h7 : |(C.log (v k) : ℝ) - Real.log (v k)| ≤ B / 2 ^ 40 :=
        h4.trans (div_le_div_of_nonneg_right h5 (by norm_num))
      have h9 : (i : ℝ) * B / 2 ^ 39 ≤ B := by
        rw [div_le_iff₀ (by norm_num), mul_comm]
        exact mul_le_mul_of_nonneg_left (h6.trans (by norm_num)) (by linarith)
      generalize (C.log (v k) : ℝ) = x at *
      generalize (L.map fun i => |Real.log (v i)|).sum = σ at *
      generalize Real.log (v k : ℝ) = y at *
      generalize (acc : ℝ) = a at *
      generalize (w : ℝ) = b at *
      have h10 : |a + x| ≤ 4 * B := by
        have q1 : a + x = (a - S) + (x - y) + (S + y) := by ring
        have q2 := abs_add_le ((a - S) + (x - y)) (S + y)
        have q3 := abs_add_le (a - S) (x - y)
        have q4 := abs_add_le S y
        rw [q1]
        have : B / 2 ^ 40 ≤ B := div_le_self (by linarith) (by norm_num)
        linarith
      have q5 := abs_add_le (b - (a + x)) ((a - S) + (x - y))
      have q6 := abs_add_le (a - S) (x - y)
      rw [show b - (a + x) + ((a - S) + (x - y)) = b - (S + y) by ring] at q5
      rw [add_mul, one_mul, add_div]
      generalize (i : ℝ) * B / 2 ^ 39 = r at *
      norm_num at *
      linarith
    · have := abs_add_le S (Real.log (v k))
      linarith

/-- The exponential of the sum of the logarithms. -/
theorem exp_error {C : Libm} (hC : C.Accurate) (hU : C.Underflows) (hn : n ≤ 100) {v : Fin n → ℚ} (hv : ∀ i, 0 < v i)
    (hbig : ∀ i, v i ≤ 2 ^ 502) (hP : ∏ i, v i ≤ 2 ^ 990) :
    |C.exp ((List.finRange n).foldl (fun acc i => binary64.rd (acc + C.log (v i))) 0) - ∏ i, v i| ≤
      (∏ i, v i) / 2 ^ 13 + 1 / 10 ^ 29 := by
  have hv' : ∀ i, (0 : ℝ) < v i := fun i => by exact_mod_cast hv i
  have hp : 0 < ∏ i, v i := Finset.prod_pos fun i _ => hv i
  have hp' : (0 : ℝ) < ((∏ i, v i : ℚ) : ℝ) := by exact_mod_cast hp
  have l2 : Real.log 2 ≤ 7 / 10 := by linarith [Real.log_two_lt_d9]
  have l20 : 0 < Real.log 2 := Real.log_pos (by norm_num)
  set S := Real.log ((∏ i, v i : ℚ) : ℝ) with hS
  have hS' : S = ∑ i, Real.log (v i) := by
    rw [hS]
    push_cast
    rw [Real.log_prod]
    exact fun i _ => (hv' i).ne'
  have hlog : ∀ i, Real.log (v i) ≤ 352 := by
    intro i
    have h1 : ((v i : ℚ) : ℝ) ≤ 2 ^ 502 := by exact_mod_cast hbig i
    have h2 := Real.log_le_log (hv' i) h1
    rw [Real.log_pow] at h2
    push_cast at h2
    linarith
  have hS690 : S ≤ 690 := by
    have h1 : ((∏ i, v i : ℚ) : ℝ) ≤ 2 ^ 990 := by exact_mod_cast hP
    have h2 := Real.log_le_log hp' h1
    rw [Real.log_pow, show ((990 : ℕ) : ℝ) = 990 by norm_num, ← hS] at h2
    linarith [Real.log_two_lt_d9]
  have hsum : ∑ i, |Real.log (v i)| ≤ 70400 - S := by
    rw [hS']
    have h1 : ∀ i, |Real.log (v i)| ≤ 704 - Real.log (v i) := fun i => by
      have := hlog i
      rw [abs_le]
      constructor <;> linarith
    have h2 := Finset.sum_le_sum fun i (_ : i ∈ Finset.univ) => h1 i
    rw [Finset.sum_sub_distrib, Finset.sum_const, Finset.card_univ, Fintype.card_fin, nsmul_eq_mul] at h2
    have : (n : ℝ) ≤ 100 := by exact_mod_cast hn
    linarith
  have key := logs_error hC hv (B := 70401 - S) (by linarith) (fun i => by
    have := Finset.single_le_sum (f := fun i => |Real.log (v i)|) (fun i _ => abs_nonneg _) (Finset.mem_univ i)
    linarith) (List.finRange n) 0 0 0 (by simp) (by
      rw [abs_zero, zero_add, ← List.ofFn_eq_map, List.sum_ofFn]
      linarith) (by rw [List.length_finRange]; omega)
  rw [← List.ofFn_eq_map, List.sum_ofFn, ← hS', List.length_finRange, zero_add, zero_add] at key
  generalize (List.finRange n).foldl (fun acc i => binary64.rd (acc + C.log (v i))) 0 = w at *
  have hnear : |(w : ℝ) - S| ≤ (70401 - S) / 2 ^ 32 := by
    refine key.trans ?_
    have h1 : (n : ℝ) ≤ 128 := by exact_mod_cast (by omega : n ≤ 128)
    have h2 := mul_le_mul_of_nonneg_right h1 (show 0 ≤ 70401 - S by linarith)
    norm_num
    linarith
  have hexpS : Real.exp S = ((∏ i, v i : ℚ) : ℝ) := Real.exp_log hp'
  have goal : |(C.exp w : ℝ) - ((∏ i, v i : ℚ) : ℝ)| ≤ ((∏ i, v i : ℚ) : ℝ) / 2 ^ 13 + 1 / 10 ^ 29 := by
    rw [← hexpS]
    clear hP hbig key
    have ha := abs_le.mp hnear
    have small : Real.exp (-99) ≤ 1 / 10 ^ 30 := by
      have h1 : Real.exp (-99) = (Real.exp 1 ^ 99)⁻¹ := by
        rw [← Real.exp_nat_mul, ← Real.exp_neg]
        norm_num
      have h2 : (2.7 : ℝ) ≤ Real.exp 1 := by linarith [Real.exp_one_gt_d9]
      have h3 : (2.7 : ℝ) ^ 99 ≤ Real.exp 1 ^ 99 := pow_le_pow_left₀ (by norm_num) h2 99
      rw [h1, one_div]
      refine inv_anti₀ (by norm_num) (le_trans (by norm_num) h3)
    have e0 := Real.exp_pos S
    rcases le_or_gt (-100) S with hlow | hlow
    · have h1 : |(w : ℝ) - S| ≤ 1 / 2 ^ 15 := hnear.trans (by norm_num; linarith)
      have h2 := abs_le.mp h1
      have h3 := hC.exp_err w (by
        have : |(w : ℝ)| ≤ 700 := by
          rw [abs_le]
          norm_num at h2
          constructor <;> linarith [h2.1, h2.2]
        exact_mod_cast this)
      have h4 := Real.abs_exp_sub_one_le (x := (w : ℝ) - S) (h1.trans (by norm_num))
      have h5 : Real.exp w = Real.exp S * Real.exp ((w : ℝ) - S) := by rw [← Real.exp_add]; congr 1; ring
      have h6 : |Real.exp w - Real.exp S| ≤ Real.exp S * (2 * (1 / 2 ^ 15)) := by
        rw [h5, show Real.exp S * Real.exp ((w : ℝ) - S) - Real.exp S = Real.exp S * (Real.exp ((w : ℝ) - S) - 1) by ring,
          abs_mul, abs_of_pos e0]
        exact mul_le_mul_of_nonneg_left (h4.trans (by linarith)) e0.le
      have h7 := abs_add_le ((C.exp w : ℝ) - Real.exp w) (Real.exp w - Real.exp S)
      rw [sub_add_sub_cancel] at h7
      have h8 := abs_le.mp h6
      norm_num at *
      linarith
    · have h1 : (w : ℝ) ≤ -99 := by
        norm_num at ha
        linarith [ha.2]
      have h2 : Real.exp S ≤ 1 / 10 ^ 30 := (Real.exp_le_exp.mpr (by linarith)).trans small
      have h3 : |(C.exp w : ℝ)| ≤ 2 / 10 ^ 30 := by
        rcases le_or_gt (-700) w with hw | hw
        · have h4 := hC.exp_err w (by
            have : w ≤ -99 := by exact_mod_cast h1
            rw [abs_le]
            constructor <;> linarith)
          have h5 : Real.exp (w : ℝ) ≤ 1 / 10 ^ 30 := (Real.exp_le_exp.mpr h1).trans small
          have h6 := abs_add_le ((C.exp w : ℝ) - Real.exp w) (Real.exp w)
          rw [sub_add_cancel, abs_of_pos (Real.exp_pos _)] at h6
          norm_num at *
          linarith
        · have h4 := (Rat.cast_le (K := ℝ)).mpr (hU w hw.le)
          push_cast at h4
          exact h4.trans (by norm_num)
      have h4 := abs_sub (C.exp w : ℝ) (Real.exp S)
      rw [abs_of_pos e0] at h4
      have h5 : 0 ≤ Real.exp S / 2 ^ 13 := by positivity
      norm_num at *
      linarith
  have := goal
  rw [← Rat.cast_le (K := ℝ)]
  push_cast at this ⊢
  exact this

/-- The determinant as it is returned. -/
theorem detVal_error {C : Libm} (hC : C.Accurate) (hU : C.Underflows) (hn : n ≤ 100)
    (hbig : ∀ i, |u i i| ≤ 2 ^ 502) (h0 : ∀ i, u i i ≠ 0) (hP : |∏ i, u i i| ≤ 2 ^ 990) :
    |binary64.rd ((((Equiv.Perm.sign π : ℤ) : ℚ) * ∏ i, if u i i < 0 then -1 else 1) *
        C.exp ((List.finRange n).foldl (fun acc i => binary64.rd (acc + C.log |u i i|)) 0)) -
      ((Equiv.Perm.sign π : ℤ) : ℚ) * ∏ i, u i i| ≤ |∏ i, u i i| / 2 ^ 12 + 1 / 10 ^ 20 := by
  rw [Finset.abs_prod] at hP ⊢
  have h1 := exp_error hC hU hn (v := fun i => |u i i|) (fun i => abs_pos.mpr (h0 i)) hbig hP
  have hs : ∏ i, u i i = (∏ i, if u i i < 0 then (-1 : ℚ) else 1) * ∏ i, |u i i| := by
    rw [← Finset.prod_mul_distrib]
    refine Finset.prod_congr rfl fun i _ => ?_
    split
    · next h => rw [abs_of_neg h]; ring
    · next h => rw [abs_of_nonneg (not_lt.mp h), one_mul]
  rw [hs, ← mul_assoc]
  have s1 : |((Equiv.Perm.sign π : ℤ) : ℚ) * ∏ i, if u i i < 0 then (-1 : ℚ) else 1| = 1 := by
    rw [abs_mul, abs_sign, one_mul, Finset.abs_prod]
    exact Finset.prod_eq_one fun i _ => by split <;> norm_num
  have hP0 : 0 ≤ ∏ i, |u i i| := Finset.prod_nonneg fun i _ => abs_nonneg _
  generalize C.exp ((List.finRange n).foldl (fun acc i => binary64.rd (acc + C.log |u i i|)) 0) = w at *
  generalize ((Equiv.Perm.sign π : ℤ) : ℚ) * ∏ i, (if u i i < 0 then (-1 : ℚ) else 1) = s at *
  generalize ∏ i, |u i i| = p at *
  have h2 := rd_err (x := s * w)
  rw [abs_mul, s1, one_mul] at h2
  have h3 : |s * w - s * p| = |w - p| := by rw [← mul_sub, abs_mul, s1, one_mul]
  have h4 := abs_add_le (binary64.rd (s * w) - s * w) (s * w - s * p)
  rw [sub_add_sub_cancel, h3] at h4
  have h5 := abs_add_le (w - p) p
  rw [sub_add_cancel, abs_of_nonneg hP0] at h5
  clear hP s1 h3
  norm_num at *
  linarith

/-- Such a library exists. -/
theorem exists_libm : ∃ C : Libm, C.Accurate ∧ C.Underflows := by
  obtain ⟨C, hC⟩ := exists_accurate
  refine ⟨⟨C.log, fun x => if x < -700 then 0 else C.exp x, C.log_one, ?_⟩, ⟨hC.log_err, fun x hx => ?_⟩,
    fun x hx => ?_⟩
  · rw [if_neg (by norm_num)]
    exact C.exp_zero
  · have := (abs_le.mp hx).1
    show |(((if x < -700 then 0 else C.exp x : ℚ)) : ℝ) - _| ≤ _
    rw [if_neg (by linarith)]
    exact hC.exp_err x hx
  · show |if x < -700 then 0 else C.exp x| ≤ _
    split
    · norm_num
    · have e : x = -700 := by linarith
      subst e
      have h1 := hC.exp_err (-700) (by norm_num)
      have h2 : Real.exp ((-700 : ℚ) : ℝ) ≤ 1 / 10 ^ 101 := by
        have h3 : Real.exp (-250) = (Real.exp 1 ^ 250)⁻¹ := by
          rw [← Real.exp_nat_mul, ← Real.exp_neg]
          norm_num
        have h4 : (2.7 : ℝ) ≤ Real.exp 1 := by linarith [Real.exp_one_gt_d9]
        have h5 : (2.7 : ℝ) ^ 250 ≤ Real.exp 1 ^ 250 := pow_le_pow_left₀ (by norm_num) h4 250
        refine (Real.exp_le_exp.mpr (show ((-700 : ℚ) : ℝ) ≤ -250 by norm_num)).trans ?_
        rw [h3, one_div]
        exact inv_anti₀ (by norm_num) (le_trans (by norm_num) h5)
      have h6 := abs_add_le ((C.exp (-700) : ℝ) - Real.exp ((-700 : ℚ) : ℝ)) (Real.exp ((-700 : ℚ) : ℝ))
      rw [sub_add_cancel, abs_of_pos (Real.exp_pos _)] at h6
      have h7 : |(C.exp (-700) : ℝ)| ≤ 1 / 10 ^ 100 := by
        have h8 : Real.exp ((-700 : ℚ) : ℝ) / 2 ^ 40 ≤ Real.exp ((-700 : ℚ) : ℝ) :=
          div_le_self (Real.exp_pos _).le (by norm_num)
        generalize Real.exp ((-700 : ℚ) : ℝ) = y at *
        norm_num at *
        linarith
      rw [← Rat.cast_le (K := ℝ)]
      push_cast
      exact h7

/-! ### Short sums -/

theorem Dots.one {l : List (ℚ × ℚ)} {r : ℚ} (h : Dots R l r) : ∀ {x : ℚ × ℚ}, l = [x] → r = R.rd (x.1 * x.2) := by
  induction h with
  | prod u v =>
    rintro x hx
    cases hx
    rfl
  | @add l m r s h1 h2 _ _ =>
    intro x hx
    have a1 := h1.ne_nil
    have a2 := h2.ne_nil
    have := congrArg List.length hx
    simp at this
    omega
  | @fma l r u v h1 _ =>
    intro x hx
    have a1 := h1.ne_nil
    have := congrArg List.length hx
    simp only [List.length_cons, List.length_nil] at this
    omega
  | perm hp _ ih =>
    intro x hx
    subst hx
    exact ih (List.perm_singleton.mp hp)

theorem perm_pair {α : Type} {p q x y : α} (h : [p, q].Perm [x, y]) : (p = x ∧ q = y) ∨ (p = y ∧ q = x) := by
  have h1 : p ∈ [x, y] := h.mem_iff.mp (by simp)
  rcases List.mem_pair.mp h1 with rfl | rfl
  · have := List.perm_singleton.mp ((List.perm_cons p).mp h)
    exact .inl ⟨rfl, by simpa using this⟩
  · have := List.perm_singleton.mp ((List.perm_cons p).mp (h.trans (List.Perm.swap _ _ _)))
    exact .inr ⟨rfl, by simpa using this⟩

theorem Dots.two {l : List (ℚ × ℚ)} {r : ℚ} (h : Dots R l r) : ∀ {x y : ℚ × ℚ}, l.Perm [x, y] →
    r = R.rd (R.rd (x.1 * x.2) + R.rd (y.1 * y.2)) ∨ r = R.rd (x.1 * x.2 + R.rd (y.1 * y.2)) ∨
      r = R.rd (y.1 * y.2 + R.rd (x.1 * x.2)) := by
  induction h with
  | prod u v =>
    intro x y hx
    have := hx.length_eq
    simp at this
  | @add l m r s h1 h2 _ _ =>
    intro x y hx
    have a1 := h1.ne_nil
    have a2 := h2.ne_nil
    have := hx.length_eq
    simp at this
    obtain ⟨p, rfl⟩ := List.length_eq_one_iff.mp (show l.length = 1 by omega)
    obtain ⟨q, rfl⟩ := List.length_eq_one_iff.mp (show m.length = 1 by omega)
    rw [h1.one rfl, h2.one rfl]
    rcases perm_pair hx with ⟨rfl, rfl⟩ | ⟨rfl, rfl⟩
    · exact .inl rfl
    · exact .inl (by rw [add_comm])
  | @fma l r u v h1 _ =>
    intro x y hx
    have := hx.length_eq
    simp at this
    obtain ⟨q, rfl⟩ := List.length_eq_one_iff.mp this
    rw [h1.one rfl]
    rcases perm_pair hx with ⟨rfl, rfl⟩ | ⟨rfl, rfl⟩
    · exact .inr (.inl rfl)
    · exact .inr (.inr rfl)
  | perm hp _ ih =>
    intro x y hx
    exact ih (hp.trans hx)

theorem reduced_none {a : ℚ} {S : Fin n → Bool} {p q : Fin n → ℚ} {s : ℚ} (h : Reduced R a S p q s)
    (hS : (List.finRange n).filter S = []) : s = R.rd (a * 1) := by
  unfold Reduced at h
  rw [hS] at h
  exact h.one rfl

theorem reduced_single {a : ℚ} {S : Fin n → Bool} {p q : Fin n → ℚ} {s : ℚ} (h : Reduced R a S p q s) {k : Fin n}
    (hS : (List.finRange n).filter S = [k]) :
    s = R.rd (R.rd (a * 1) + R.rd (-p k * q k)) ∨ s = R.rd (a * 1 + R.rd (-p k * q k)) ∨
      s = R.rd (-p k * q k + R.rd (a * 1)) := by
  unfold Reduced at h
  rw [hS] at h
  exact h.two (List.Perm.refl _)

end Floating
end Pytimize
