/-
Matrices whose subdeterminants are zero or powers of two, up to sign.
-/
import Verif.Float.Grid
import Verif.Float.SimplexExact
import Verif.LP.IntegerBox

namespace Pytimize
namespace Floating
open LinProg Comparator Matrix

variable {m n K : ℕ} {q : ℚ}

/-! ### Powers of two -/

/-- Zero, or `±2ʲ` with `0 ≤ j ≤ K`. -/
def Pow (K : ℕ) (q : ℚ) : Prop := q = 0 ∨ ∃ j : ℕ, j ≤ K ∧ |q| = 2 ^ j

/-- Zero, or `±2ʲ` with `|j| ≤ K`. -/
def TwoPow (K : ℕ) (q : ℚ) : Prop := q = 0 ∨ ∃ j : ℤ, |j| ≤ K ∧ |q| = 2 ^ j

theorem Pow.neg (h : Pow K q) : Pow K (-q) := by
  rcases h with rfl | h
  · exact .inl neg_zero
  · exact .inr (by rwa [abs_neg])

theorem Pow.div {a b : ℚ} (ha : Pow K a) (hb : Pow K b) (h0 : b ≠ 0) : TwoPow K (a / b) := by
  rcases ha with rfl | ⟨i, hi, ha⟩
  · exact .inl (zero_div _)
  · rcases hb with rfl | ⟨j, hj, hb⟩
    · exact absurd rfl h0
    · refine .inr ⟨(i : ℤ) - j, by rw [abs_le]; omega, ?_⟩
      rw [abs_div, ha, hb, zpow_sub₀ (by norm_num), zpow_natCast, zpow_natCast]

theorem TwoPow.grid (h : TwoPow K q) : Grid K (2 ^ K) q := by
  rcases h with rfl | ⟨j, hj, h⟩
  · exact Grid.zero (by positivity)
  · obtain ⟨h1, h2⟩ := abs_le.mp hj
    refine ⟨?_, ?_⟩
    · have hk : |q| * 2 ^ K = ((2 ^ (j + K).toNat : ℤ) : ℚ) := by
        rw [h, ← zpow_natCast, ← zpow_add₀ (by norm_num)]
        push_cast
        rw [← zpow_natCast, Int.toNat_of_nonneg (by omega)]
      rcases abs_choice q with hq | hq
      · exact ⟨_, by rw [← hk, hq]⟩
      · exact ⟨-2 ^ (j + K).toNat, by rw [Int.cast_neg, ← hk, hq]; ring⟩
    · rw [h, ← zpow_natCast]
      exact zpow_le_zpow_right₀ (by norm_num) h2

theorem TwoPow.mul {L : ℕ} {a b : ℚ} (ha : TwoPow K a) (hb : TwoPow L b) : TwoPow (K + L) (a * b) := by
  rcases ha with rfl | ⟨i, hi, ha⟩
  · exact .inl (zero_mul _)
  · rcases hb with rfl | ⟨j, hj, hb⟩
    · exact .inl (mul_zero _)
    · refine .inr ⟨i + j, ?_, ?_⟩
      · push_cast
        exact (abs_add_le _ _).trans (add_le_add hi hj)
      · rw [abs_mul, ha, hb, zpow_add₀ (by norm_num)]

theorem TwoPow.inv (h : TwoPow K q) : TwoPow K q⁻¹ := by
  rcases h with rfl | ⟨j, hj, h⟩
  · exact .inl inv_zero
  · exact .inr ⟨-j, by rwa [abs_neg], by rw [abs_inv, h, zpow_neg]⟩

theorem TwoPow.div {L : ℕ} {a b : ℚ} (ha : TwoPow K a) (hb : TwoPow L b) : TwoPow (K + L) (a / b) := by
  rw [div_eq_mul_inv]; exact ha.mul hb.inv

theorem TwoPow.mono {L : ℕ} (h : TwoPow K q) (hL : K ≤ L) : TwoPow L q := by
  rcases h with rfl | ⟨j, hj, h⟩
  · exact .inl rfl
  · exact .inr ⟨j, hj.trans (by exact_mod_cast hL), h⟩

theorem TwoPow.rd_eq (h : TwoPow K q) (hK : K ≤ 1000) : binary64.rd q = q := by
  rcases h with rfl | ⟨j, hj, h⟩
  · exact binary64.rd_zero
  · refine binary64_rep.mpr ?_
    obtain ⟨h1, h2⟩ := abs_le.mp hj
    rcases abs_choice q with hq | hq
    · exact ⟨1, j, by rw [← hq, h]; simp, by norm_num, by omega⟩
    · refine ⟨-1, j, ?_, by norm_num, by omega⟩
      rw [← h, hq]
      simp

theorem TwoPow.low (h : TwoPow K q) (h0 : q ≠ 0) : 1 / 2 ^ K ≤ |q| := by
  rcases h with rfl | ⟨j, hj, h⟩
  · exact absurd rfl h0
  · rw [h, one_div, ← zpow_natCast, ← zpow_neg]
    exact zpow_le_zpow_right₀ (by norm_num) (abs_le.mp hj).1

/-! ### The class of matrices -/

/-- Every square submatrix has a determinant in `S`. -/
def SubdetIn {ι κ : Type} (S : ℚ → Prop) (X : Matrix ι κ ℚ) : Prop :=
  ∀ (k : ℕ) (r : Fin k → ι) (s : Fin k → κ), S (X.submatrix r s).det

section In
variable {S : ℚ → Prop} {ι κ μ : Type}

theorem sign_mem (h0 : S 0) (hn : ∀ q, S q → S (-q)) {e : ℤ} (he : |e| ≤ 1) (hq : S q) : S (e * q) := by
  have := abs_le.mp he
  have : e = -1 ∨ e = 0 ∨ e = 1 := by omega
  rcases this with rfl | rfl | rfl
  · simpa using hn q hq
  · simpa using h0
  · simpa using hq

theorem SubdetIn.transpose {X : Matrix ι κ ℚ} (h : SubdetIn S X) : SubdetIn S Xᵀ := by
  intro k r s
  have := h k s r
  rwa [← det_transpose, transpose_submatrix] at this

theorem SubdetIn.cols [DecidableEq ι] (h0 : S 0) (hn : ∀ q, S q → S (-q)) {X : Matrix ι κ ℚ} (hX : SubdetIn S X)
    {Y : Matrix ι μ ℚ} (hY : ∀ c, ColLike X fun r => Y r c) : SubdetIn S Y := by
  intro k
  induction k with
  | zero =>
    intro r s
    have := hX 0 Fin.elim0 Fin.elim0
    rwa [det_isEmpty] at this ⊢
  | succ k ih =>
    intro r s
    by_cases hr : Function.Injective r
    swap
    · obtain ⟨a, b, hab, hne⟩ := Function.not_injective_iff.mp hr
      rw [det_zero_of_row_eq hne (by funext c; simp [hab])]
      exact h0
    by_cases hall : ∀ c, ∃ (k : κ) (e : ℤ), |e| ≤ 1 ∧ ∀ a, Y a (s c) = e * X a k
    · choose f e he hfe using hall
      have hm : Y.submatrix r s = Matrix.of fun a c => (e c : ℚ) * (X.submatrix r f) a c := by
        ext a c
        simp [hfe c]
      rw [hm, det_mul_row]
      have h1 := prod_abs_le_one Finset.univ e he
      rw [← Int.cast_prod]
      exact sign_mem h0 hn (by exact_mod_cast h1) (hX _ r f)
    · push Not at hall
      obtain ⟨c, hc⟩ := hall
      rcases hY (s c) with ⟨k', e, he, h⟩ | ⟨i, e, he, h⟩ | h
      · obtain ⟨a, ha⟩ := hc k' e he
        exact absurd (h a) ha
      · rw [det_succ_column _ c]
        by_cases hi : ∃ a, r a = i
        · obtain ⟨a, ha⟩ := hi
          rw [Finset.sum_eq_single a]
          · simp only [submatrix_apply, h, ha, if_true]
            have h2 := sign_mem h0 hn he (ih (r ∘ a.succAbove) (s ∘ c.succAbove))
            rw [mul_assoc]
            rcases neg_one_pow_eq_or ℚ ((a : ℕ) + c) with h3 | h3 <;> rw [h3]
            · rw [one_mul]; exact h2
            · rw [neg_one_mul]; exact hn _ h2
          · intro b _ hb
            have : r b ≠ i := fun h0 => hb (hr (h0.trans ha.symm))
            simp [h, this]
          · simp
        · rw [Finset.sum_eq_zero]
          · exact h0
          · intro b _
            have : r b ≠ i := fun h0 => hi ⟨b, h0⟩
            simp [h, this]
      · rw [det_eq_zero_of_column_eq_zero c (by intro a; exact h (r a))]
        exact h0

theorem SubdetIn.flip (h0 : S 0) (hn : ∀ q, S q → S (-q)) {X Y : Matrix ι κ ℚ} (hX : SubdetIn S X)
    (hY : ∀ i, ∃ e : ℤ, |e| ≤ 1 ∧ ∀ j, Y i j = e * X i j) : SubdetIn S Y := by
  choose e he hfe using hY
  intro k r s
  have hm : Y.submatrix r s = Matrix.of fun a c => (e (r a) : ℚ) * (X.submatrix r s) a c := by
    ext a c
    simp [hfe]
  rw [hm, det_mul_column]
  have h1 := prod_abs_le_one Finset.univ (fun a => e (r a)) fun a => he _
  rw [← Int.cast_prod]
  exact sign_mem h0 hn (by exact_mod_cast h1) (hX _ r s)

end In

/-- Up to a common factor, every square submatrix has determinant zero or `±2ʲ` with `0 ≤ j ≤ K`. -/
def Dyadic {ι κ : Type} (K : ℕ) (X : Matrix ι κ ℚ) : Prop := ∃ d : ℚ, d ≠ 0 ∧ SubdetIn (fun q => Pow K (d * q)) X

section Class
variable {ι κ μ ν : Type} {X : Matrix ι κ ℚ}

theorem pow_zero_mem (d : ℚ) : Pow K (d * 0) := .inl (mul_zero d)

theorem pow_neg_mem (d q : ℚ) (h : Pow K (d * q)) : Pow K (d * -q) := by rw [mul_neg]; exact h.neg

theorem Dyadic.transpose (h : Dyadic K X) : Dyadic K Xᵀ := h.imp fun _ h => ⟨h.1, h.2.transpose⟩

theorem Dyadic.submatrix (h : Dyadic K X) (f : μ → ι) (g : ν → κ) : Dyadic K (X.submatrix f g) := by
  obtain ⟨d, h0, h⟩ := h
  refine ⟨d, h0, fun k r s => ?_⟩
  rw [submatrix_submatrix]
  exact h k _ _

theorem Dyadic.cols [DecidableEq ι] (h : Dyadic K X) {Y : Matrix ι μ ℚ} (hY : ∀ c, ColLike X fun r => Y r c) :
    Dyadic K Y := h.imp fun d h => ⟨h.1, h.2.cols (pow_zero_mem d) (pow_neg_mem d) hY⟩

theorem Dyadic.flip (h : Dyadic K X) {Y : Matrix ι κ ℚ} (hY : ∀ i, ∃ e : ℤ, |e| ≤ 1 ∧ ∀ j, Y i j = e * X i j) :
    Dyadic K Y := h.imp fun d h => ⟨h.1, h.2.flip (pow_zero_mem d) (pow_neg_mem d) hY⟩

theorem Dyadic.ratio (h : Dyadic K X) {k l : ℕ} (f : Fin k → ι) (g : Fin k → κ) (f' : Fin l → ι) (g' : Fin l → κ)
    (h0 : (X.submatrix f' g').det ≠ 0) : TwoPow K ((X.submatrix f g).det / (X.submatrix f' g').det) := by
  obtain ⟨d, hd, h⟩ := h
  have := (h k f g).div (h l f' g') (mul_ne_zero hd h0)
  rwa [mul_div_mul_left _ _ hd] at this

theorem Dyadic.det (h : Dyadic K X) {k : ℕ} (f : Fin k → ι) (g : Fin k → κ) : TwoPow K (X.submatrix f g).det := by
  have e := det_isEmpty (A := X.submatrix (Fin.elim0 : Fin 0 → ι) (Fin.elim0 : Fin 0 → κ))
  have := h.ratio f g (Fin.elim0 : Fin 0 → ι) (Fin.elim0 : Fin 0 → κ) (by rw [e]; norm_num)
  rwa [e, div_one] at this

theorem Dyadic.entry (h : Dyadic K X) (i : ι) (j : κ) : TwoPow K (X i j) := by
  have := h.det (k := 1) (fun _ => i) (fun _ => j)
  simpa using this

theorem Dyadic.quot (h : Dyadic K X) (i a : ι) (j b : κ) (h0 : X a b ≠ 0) : TwoPow K (X i j / X a b) := by
  have := h.ratio (k := 1) (l := 1) (fun _ => i) (fun _ => j) (fun _ => a) (fun _ => b) (by simpa using h0)
  simpa using this

theorem Dyadic.det_self {M : Matrix (Fin m) (Fin m) ℚ} (h : Dyadic K M) : TwoPow K M.det := by
  simpa using h.det id id

theorem Dyadic.fromCols_one {M : Matrix (Fin m) κ ℚ} (h : Dyadic K M) :
    Dyadic K (fromCols M (1 : Matrix (Fin m) (Fin m) ℚ)) := by
  refine h.cols fun c => ?_
  rcases c with c | c
  · exact .inl ⟨c, 1, by norm_num, fun r => by simp⟩
  · exact .inr (.inl ⟨c, 1, by norm_num, fun r => by simp [Matrix.one_apply]⟩)

theorem Dyadic.npInv {M : Matrix (Fin m) (Fin m) ℚ} (h : Dyadic K M) (h0 : M.det ≠ 0) (i k : Fin m) :
    TwoPow K (npInv M i k) := by
  have e : LinProg.npInv M i k = (LinProg.npInv M).mulVec (Pi.single k 1) i := by simp
  rw [e, npInv_mulVec]
  have e2 : M.updateCol i (Pi.single k 1) =
      (fromCols M (1 : Matrix (Fin m) (Fin m) ℚ)).submatrix id (fun j => if j = i then .inr k else .inl j) := by
    ext r j
    by_cases hj : j = i
    · subst hj
      simp [Matrix.one_apply, Pi.single_apply]
    · simp [hj]
  have e3 : M.det = ((fromCols M (1 : Matrix (Fin m) (Fin m) ℚ)).submatrix id Sum.inl).det := rfl
  rw [e2, ← div_eq_inv_mul, e3]
  exact h.fromCols_one.ratio _ _ _ _ (by rw [← e3]; exact h0)

theorem dyadic_of_tu {M : Matrix ι κ ℚ} (h : M.IsTotallyUnimodular) : Dyadic K M := by
  refine ⟨1, one_ne_zero, fun k f g => ?_⟩
  show Pow K (1 * _)
  rw [one_mul]
  obtain ⟨z, hz, h1⟩ := tu_det h f g
  by_cases h0 : z = 0
  · exact .inl (by rw [hz, h0]; simp)
  · refine .inr ⟨0, Nat.zero_le _, ?_⟩
    have : |z| = 1 := le_antisymm h1 (Int.one_le_abs h0)
    rw [hz, pow_zero]
    exact_mod_cast this

theorem Dyadic.toSef {P : LP m n} (h : Dyadic K P.A) : Dyadic K (toSef P).lp.A := by
  cases hs : P.isSef with
  | true =>
    have e : LinProg.toSef P = ⟨n, P, none⟩ := by simp [LinProg.toSef, hs]
    rw [e]; exact h
  | false =>
    refine h.cols fun c => ?_
    have e : ∀ r, (LinProg.toSef P).lp.A r c = (sefCols P).A r c := by
      revert c
      have e' : LinProg.toSef P = ⟨(sefCols P).n,
          { A := fun r j => (sefCols P).A r j, b := P.b, c := fun j => (sefCols P).c j, z := P.z,
            objective := .max, ineq := fun _ => .eq, free := [], neg := [], isSef := true },
          some ⟨((List.finRange m).filter fun i => decide (P.ineq i ≠ .eq)).length,
            concatOf P.free 0, P.neg⟩⟩ := by simp [LinProg.toSef, hs]
      rw [e']
      intro c r
      rfl
    simp only [e]
    exact sefCols_like P c

theorem Dyadic.aux {P : LP m n} (h : Dyadic K P.A) : Dyadic K (auxSef P).A := by
  have h1 : Dyadic K (fun i j => if negRows P i then P.A i j * (-1) else P.A i j : Matrix (Fin m) (Fin n) ℚ) := by
    refine h.flip fun i => ⟨if negRows P i then -1 else 1, by split <;> simp, fun j => ?_⟩
    split <;> simp
  refine h1.cols fun c => ?_
  refine Fin.addCases (fun j => ?_) (fun k => ?_) c
  · refine Or.inl ⟨j, 1, by simp, fun r => ?_⟩
    simp [auxSef, auxLp]
  · refine Or.inr (Or.inl ⟨k, 1, by simp, fun r => ?_⟩)
    simp [auxSef, auxLp]

theorem Dyadic.child {P : LP m n} (h : Dyadic K P.A) (pos : ℕ) (op : Ineq) (k : ℚ) :
    Dyadic K (child P pos op k).A := by
  have h1 : Dyadic K (LinProg.child P pos op k).Aᵀ := by
    refine h.transpose.cols fun c => ?_
    refine Fin.lastCases ?_ (fun i => ?_) c
    · have e : (LinProg.child P pos op k).A (Fin.last m) = fun j : Fin n => if (j : ℕ) = pos then 1 else 0 :=
        Fin.snoc_last (α := fun _ => Fin n → ℚ) _ _
      by_cases hp : pos < n
      · refine Or.inr (Or.inl ⟨⟨pos, hp⟩, 1, by simp, fun r => ?_⟩)
        show (LinProg.child P pos op k).A (Fin.last m) r = _
        rw [e]
        simp [Fin.ext_iff]
      · refine Or.inr (Or.inr fun r => ?_)
        show (LinProg.child P pos op k).A (Fin.last m) r = _
        rw [e]
        have := r.2
        simp only
        rw [if_neg (by omega)]
    · have e : (LinProg.child P pos op k).A i.castSucc = P.A i := Fin.snoc_castSucc (α := fun _ => Fin n → ℚ) _ _ _
      refine Or.inl ⟨i, 1, by simp, fun r => ?_⟩
      show (LinProg.child P pos op k).A i.castSucc r = _ * P.A i r
      rw [e]
      simp
  have := h1.transpose
  rwa [transpose_transpose] at this

end Class

end Floating
end Pytimize
