/-
Programs with fractions: multiplying rows and costs by natural numbers changes no canonical form (up to the scale
of the costs), so that exactness can be read off a program with integer data.
-/
import Verif.LP.IntegerProof
import Verif.LP.Minors

namespace Pytimize
namespace LinProg
open Matrix Comparator

variable {m n : ℕ}

/-- Row `i` multiplied by `r i` and the costs by `N`. -/
def scaled (r : Fin m → ℕ) (N : ℕ) (P : LP m n) : LP m n :=
  { P with A := fun i j => r i * P.A i j, b := fun i => r i * P.b i, c := fun j => N * P.c j }

theorem det_scale (r : Fin m → ℕ) (X : Matrix (Fin m) (Fin m) ℚ) :
    (Matrix.of fun i j => (r i : ℚ) * X i j).det = ((∏ i, r i : ℕ) : ℚ) * X.det := by
  rw [det_mul_column]
  push_cast
  rfl

theorem scaled_det (r : Fin m → ℕ) (N : ℕ) (P : LP m n) (B : Fin m → Fin n) :
    (colSel (scaled r N P).A B).det = ((∏ i, r i : ℕ) : ℚ) * (colSel P.A B).det := det_scale r _

theorem scaled_updateCol (r : Fin m → ℕ) (N : ℕ) (P : LP m n) (B : Fin m → Fin n) (i : Fin m) (v : Fin m → ℚ) :
    ((colSel (scaled r N P).A B).updateCol i fun k => r k * v k).det =
      ((∏ i, r i : ℕ) : ℚ) * ((colSel P.A B).updateCol i v).det := by
  rw [← det_scale]
  congr 1
  ext a k
  by_cases hk : k = i
  · subst hk; simp
  · simp only [Matrix.updateCol_ne hk, Matrix.of_apply]
    rfl

variable {r : Fin m → ℕ} {N : ℕ} {P : LP m n}

theorem prod_pos_q (hr : ∀ i, 0 < r i) : (0 : ℚ) < ((∏ i, r i : ℕ) : ℚ) := by
  have : 0 < ∏ i, r i := Finset.prod_pos fun i _ => hr i
  exact_mod_cast this

theorem scaled_nonsing (hr : ∀ i, 0 < r i) {B : Fin m → Fin n} : Nonsing (scaled r N P) B ↔ Nonsing P B := by
  unfold Nonsing
  rw [scaled_det, Ne, mul_eq_zero, not_or]
  exact ⟨fun h => h.2, fun h => ⟨(prod_pos_q hr).ne', h⟩⟩

theorem scaled_canon_A (hr : ∀ i, 0 < r i) (B : Fin m → Fin n) (i : Fin m) (j : Fin n) :
    (canon (scaled r N P) B).A i j = (canon P B).A i j := by
  rw [canon_A_cramer, canon_A_cramer, scaled_det]
  have := scaled_updateCol r N P B i fun k => P.A k j
  have e : ((colSel (scaled r N P).A B).updateCol i fun i => (scaled r N P).A i j).det =
      ((∏ i, r i : ℕ) : ℚ) * ((colSel P.A B).updateCol i fun k => P.A k j).det := this
  rw [e, mul_inv, mul_mul_mul_comm, inv_mul_cancel₀ (prod_pos_q hr).ne', one_mul]

theorem scaled_canon_b (hr : ∀ i, 0 < r i) (B : Fin m → Fin n) (i : Fin m) :
    (canon (scaled r N P) B).b i = (canon P B).b i := by
  rw [canon_b_cramer, canon_b_cramer, scaled_det]
  have e : ((colSel (scaled r N P).A B).updateCol i (scaled r N P).b).det =
      ((∏ i, r i : ℕ) : ℚ) * ((colSel P.A B).updateCol i P.b).det := scaled_updateCol r N P B i P.b
  rw [e, mul_inv, mul_mul_mul_comm, inv_mul_cancel₀ (prod_pos_q hr).ne', one_mul]

theorem scaled_canon_c (hr : ∀ i, 0 < r i) (B : Fin m → Fin n) (j : Fin n) :
    (canon (scaled r N P) B).c j = N * (canon P B).c j := by
  rw [canon_c_sum, canon_c_sum, mul_sub, Finset.mul_sum]
  congr 1
  refine Finset.sum_congr rfl fun i _ => ?_
  rw [scaled_canon_A hr]
  show (N : ℚ) * P.c (B i) * _ = _
  ring

/-- Exactness of a program from that of a multiple. -/
theorem exact_of_scaled (hr : ∀ i, 0 < r i) (h : Exact (scaled r N P))
    (hdet : ∀ B, Nonsing P B → tol ≤ |(colSel P.A B).det|)
    (hcost : ∀ B, Nonsing P B → ∀ j, (canon P B).c j ≤ 0 ∨ tol ≤ (canon P B).c j) : Exact P := by
  refine ⟨hdet, hcost, fun B hB i j => ?_, fun B hB i => ?_, fun B hB i => ?_, fun B hB hf k hk => ?_⟩
  · have := h.piv B ((scaled_nonsing hr).mpr hB) i j
    rwa [scaled_canon_A hr] at this
  · have := h.rhs B ((scaled_nonsing hr).mpr hB) i
    rwa [scaled_canon_b hr] at this
  · have := h.rhsPos B ((scaled_nonsing hr).mpr hB) i
    rwa [scaled_canon_b hr] at this
  · have := h.ratio B ((scaled_nonsing hr).mpr hB) (fun i => by rw [scaled_canon_b hr]; exact hf i) k hk
    have e1 : (canon (scaled r N P) B).b = (canon P B).b := funext fun i => scaled_canon_b hr B i
    have e2 : (fun i => (canon (scaled r N P) B).A i k) = fun i => (canon P B).A i k :=
      funext fun i => scaled_canon_A hr B i k
    rwa [e1, e2] at this

theorem small_le {K L : ℕ} (hKL : (K : ℚ) * K / 10 ^ 8 + (K : ℚ) * L / 10 ^ 5 < 1) : (K : ℚ) ≤ 10 ^ 4 := by
  by_contra hlt
  push Not at hlt
  have h0 : (0 : ℚ) ≤ (K : ℚ) * L / 10 ^ 5 := by positivity
  have h1 : (10 : ℚ) ^ 4 * 10 ^ 4 ≤ (K : ℚ) * K := by gcongr
  have h2 : (10 : ℚ) ^ 4 * 10 ^ 4 / 10 ^ 8 ≤ (K : ℚ) * K / 10 ^ 8 := by gcongr
  norm_num at h2 h0 hKL
  linarith

/-- Reduced costs as fractions. -/
theorem canon_c_frac {K L : ℕ} (h : IntData P K L) {B : Fin m → Fin n} (hB : Nonsing P B) (j : Fin n) :
    ∃ d z : ℤ, d ≠ 0 ∧ |(d : ℚ)| ≤ K ∧ (canon P B).c j = (d : ℚ)⁻¹ * z := by
  obtain ⟨M, b, c, hA, hb, hc⟩ := h.data
  have hcol : colSel P.A B = (M.submatrix id B).map ((↑) : ℤ → ℚ) := by rw [hA]; rfl
  have hdet : (colSel P.A B).det = ((M.submatrix id B).det : ℚ) := by rw [hcol, det_cast]
  have hd : ((M.submatrix id B).det : ℚ) ≠ 0 := by rw [← hdet]; exact hB
  refine ⟨(M.submatrix id B).det, (M.submatrix id B).det * c j -
    ∑ i, c (B i) * ((M.submatrix id B).updateCol i fun i => M i j).det, by exact_mod_cast hd, ?_, ?_⟩
  · rw [← hdet]; exact h.detK B
  · rw [canon_c_sum, hc, Int.cast_sub, Int.cast_mul, Int.cast_sum, mul_sub, ← mul_assoc, inv_mul_cancel₀ hd, one_mul,
      Finset.mul_sum]
    congr 1
    refine Finset.sum_congr rfl fun i _ => ?_
    have hup : ((colSel P.A B).updateCol i fun i => P.A i j).det =
        (((M.submatrix id B).updateCol i fun i => M i j).det : ℚ) := by
      rw [← det_cast, Matrix.map_updateCol, hcol, hA]
      rfl
    rw [canon_A_cramer, hdet, hup, Int.cast_mul]
    ring

/-- A program is exact when a multiple has integer data with moderate subdeterminants. -/
theorem exact_of_frac (hr : ∀ i, 0 < r i) (hN : 0 < N) {K L : ℕ} (h : IntData (scaled r N P) K L)
    (hKL : (K : ℚ) * K / 10 ^ 8 + (K : ℚ) * L / 10 ^ 5 < 1) (hR : ∏ i, r i ≤ 10 ^ 10) (hKN : K * N ≤ 10 ^ 10) :
    Exact P := by
  have hNq : (0 : ℚ) < N := by exact_mod_cast hN
  refine exact_of_scaled hr (exact_of_int h hKL) (fun B hB => ?_) (fun B hB j => ?_)
  · obtain ⟨M, b, c, hA, hb, hc⟩ := h.data
    have hcol : colSel (scaled r N P).A B = (M.submatrix id B).map ((↑) : ℤ → ℚ) := by rw [hA]; rfl
    have hd := scaled_det r N P B
    rw [hcol, det_cast] at hd
    have hn : Nonsing (scaled r N P) B := (scaled_nonsing hr).mpr hB
    unfold Nonsing at hn
    rw [hcol, det_cast] at hn
    have hn' : (M.submatrix id B).det ≠ 0 := by exact_mod_cast hn
    have h1 : (1 : ℚ) ≤ |(((M.submatrix id B).det : ℤ) : ℚ)| := by exact_mod_cast Int.one_le_abs hn'
    rw [hd, abs_mul, abs_of_pos (prod_pos_q hr)] at h1
    have h2 : ((∏ i, r i : ℕ) : ℚ) ≤ 10 ^ 10 := by exact_mod_cast hR
    have h3 : (1 : ℚ) ≤ 10 ^ 10 * |(colSel P.A B).det| := by
      refine le_trans h1 ?_
      gcongr
    unfold tol
    rw [div_le_iff₀ (by norm_num)]
    linarith
  · by_cases h0 : (canon P B).c j ≤ 0
    · exact Or.inl h0
    · right
      obtain ⟨d, z, hd, hdK, e⟩ := canon_c_frac h ((scaled_nonsing hr).mpr hB) j
      rw [scaled_canon_c hr] at e
      have hpos : 0 < (N : ℚ) * (canon P B).c j := mul_pos hNq (not_le.mp h0)
      have h1 := int_frac hd hdK (by rw [← e]; exact hpos)
      rw [← e] at h1
      have hK : (0 : ℚ) < K := lt_of_lt_of_le (abs_pos.mpr (by exact_mod_cast hd)) hdK
      rw [div_le_iff₀ hK] at h1
      have h2 : ((K * N : ℕ) : ℚ) ≤ 10 ^ 10 := by exact_mod_cast hKN
      push_cast at h2
      have h3 : (K : ℚ) * N * (canon P B).c j ≤ 10 ^ 10 * (canon P B).c j := by
        have := (not_le.mp h0).le
        gcongr
      unfold tol
      rw [div_le_iff₀ (by norm_num)]
      linarith

/-- Basic solutions as fractions. -/
theorem scaled_sol_frac (hr : ∀ i, 0 < r i) {K L : ℕ} (h : IntData (scaled r N P) K L) {B : Fin m → Fin n}
    (hB : Nonsing P B) : ∃ d : ℤ, d ≠ 0 ∧ |(d : ℚ)| ≤ K ∧ ∀ j, ∃ z : ℤ, d * sol P B j = z := by
  obtain ⟨d, h1, h2, h3⟩ := sol_frac h ((scaled_nonsing hr).mpr hB)
  refine ⟨d, h1, h2, fun j => ?_⟩
  have e : sol (scaled r N P) B = sol P B := by
    unfold sol
    rw [show (canon (scaled r N P) B).b = (canon P B).b from funext fun i => scaled_canon_b hr B i]
  rw [← e]
  exact h3 j

/-! ### The SEF and the auxiliary program of a program with fractions -/

/-- Multiples of numbers that `to_sef` produces out of the costs. -/
theorem sefCols_c_closed (P : LP m n) {S : ℚ → Prop} (h0 : S 0) (hneg : ∀ a, S a → S (-a))
    (hc : ∀ j, S (P.c j)) (j : ℕ) : S ((sefCols P).c j) := by
  have hslack : ∀ (l : List (Fin m)) (s : Cols m), (∀ j, S (s.c j)) →
      ∀ j, S ((l.foldl (addSlack P.ineq) s).c j) := by
    intro l
    induction l with
    | nil => intro s h; exact h
    | cons i l ih =>
      intro s h
      refine ih _ fun j => ?_
      unfold addSlack
      split
      · exact h j
      · simp only
        split
        · exact h0
        · exact h j
  have hsplit : ∀ (l : List ℕ) (i : ℕ) (s : Cols m), (∀ j, S (s.c j)) → ∀ j, S ((splitAll l i s).c j) := by
    intro l
    induction l with
    | nil => intro i s h; exact h
    | cons f l ih =>
      intro i s h
      refine ih _ _ fun j => ?_
      simp only [splitFree, npInsert]
      split
      · exact h j
      · split
        · exact hneg _ (h (f + i))
        · exact h _
  have hnegs : ∀ (l : List ℕ) (s : Cols m), (∀ j, S (s.c j)) → ∀ j, S ((l.foldl negColumn s).c j) := by
    intro l
    induction l with
    | nil => intro s h; exact h
    | cons k l ih =>
      intro s h
      refine ih _ fun j => ?_
      simp only [negColumn, negAt]
      split
      · rw [mul_neg_one]; exact hneg _ (h j)
      · exact h j
  unfold sefCols
  refine hslack _ _ (hsplit _ _ _ (hnegs _ _ fun j => ?_)) j
  simp only [colsOf, ext]
  split
  · split
    · exact hneg _ (hc _)
    · exact hc _
  · exact h0

theorem isInt_scaled_sef (h : IsInt (scaled r N P)) : IsInt (scaled r N (toSef P).lp) := by
  have hA : ∀ i j, ∃ z : ℤ, (r i : ℚ) * P.A i j = z := h.1
  have hb : ∀ i, ∃ z : ℤ, (r i : ℚ) * P.b i = z := h.2.1
  have hc : ∀ j, ∃ z : ℤ, (N : ℚ) * P.c j = z := h.2.2
  cases hs : P.isSef with
  | true =>
    have e : LinProg.toSef P = ⟨n, P, none⟩ := by simp [LinProg.toSef, hs]
    rw [e]; exact h
  | false =>
    have e' : LinProg.toSef P = ⟨(sefCols P).n,
        { A := fun r j => (sefCols P).A r j, b := P.b, c := fun j => (sefCols P).c j, z := P.z,
          objective := .max, ineq := fun _ => .eq, free := [], neg := [], isSef := true },
        some ⟨((List.finRange m).filter fun i => decide (P.ineq i ≠ .eq)).length,
          concatOf P.free 0, P.neg⟩⟩ := by simp [LinProg.toSef, hs]
    rw [e']
    refine ⟨fun i j => ?_, hb, fun j => ?_⟩
    · show ∃ z : ℤ, (r i : ℚ) * (sefCols P).A i j = z
      rcases sefCols_like P j with ⟨k, e, _, h⟩ | ⟨a, e, _, h⟩ | h
      · obtain ⟨z, hz⟩ := hA i k
        have h : (sefCols P).A i j = _ := h i
        exact ⟨e * z, by rw [h]; push_cast; rw [← hz]; ring⟩
      · have h : (sefCols P).A i j = _ := h i
        rw [h]
        split
        · exact ⟨r i * e, by push_cast; rfl⟩
        · exact ⟨0, by simp⟩
      · have h : (sefCols P).A i j = _ := h i
        exact ⟨0, by rw [h]; simp⟩
    · exact sefCols_c_closed P (S := fun a => ∃ z : ℤ, (N : ℚ) * a = z) ⟨0, by simp⟩
        (fun a ⟨z, h⟩ => ⟨-z, by rw [mul_neg, h]; push_cast; rfl⟩) hc j

theorem isInt_scaled_aux (h : IsInt (scaled r N P)) : IsInt (scaled r N (auxSef P)) := by
  refine ⟨fun i j => ?_, fun i => ?_, fun j => ?_⟩
  · show ∃ z : ℤ, (r i : ℚ) * (auxSef P).A i j = z
    refine Fin.addCases (fun j => ?_) (fun k => ?_) j
    · obtain ⟨z, hz⟩ := h.1 i j
      have hz : (r i : ℚ) * P.A i j = z := hz
      simp only [auxSef, auxLp, Fin.append_left]
      split
      · exact ⟨-z, by push_cast; rw [← hz]; ring⟩
      · exact ⟨z, hz⟩
    · simp only [auxSef, auxLp, Fin.append_right]
      split
      · exact ⟨r i, by simp⟩
      · exact ⟨0, by simp⟩
  · show ∃ z : ℤ, (r i : ℚ) * (auxSef P).b i = z
    obtain ⟨z, hz⟩ := h.2.1 i
    have hz : (r i : ℚ) * P.b i = z := hz
    simp only [auxSef, auxLp]
    split
    · exact ⟨-z, by push_cast; rw [← hz]; ring⟩
    · exact ⟨z, hz⟩
  · show ∃ z : ℤ, (N : ℚ) * (auxSef P).c j = z
    refine Fin.addCases (fun j => ?_) (fun k => ?_) j
    · exact ⟨0, by simp [auxSef, auxLp]⟩
    · exact ⟨-N, by simp [auxSef, auxLp]⟩

theorem intData_scaled (hi : IsInt (scaled r N P)) {K β : ℕ} (hK : SubdetLe K P.A) (hb : ∀ i, |P.b i| ≤ β) :
    IntData (scaled r N P) ((∏ i, r i) * K) ((∏ i, r i) * (m * β * K)) := by
  obtain ⟨h1, h2, h3⟩ := hi
  choose M hM using h1
  choose b hb' using h2
  choose c hc using h3
  refine ⟨⟨M, b, c, by ext i j; exact hM i j, funext hb', funext hc⟩, fun B => ?_, fun B i => ?_⟩
  · have := scaled_det r N P B
    unfold colSel at this
    rw [show (scaled r N P).A.submatrix id B = (scaled r N P).A.submatrix id B from rfl]
    rw [this, abs_mul, Nat.abs_cast, Nat.cast_mul]
    have h := hK m id B
    gcongr
  · have e : (((scaled r N P).A.submatrix id B).updateCol i (scaled r N P).b).det =
        ((∏ i, r i : ℕ) : ℚ) * ((P.A.submatrix id B).updateCol i P.b).det := scaled_updateCol r N P B i P.b
    rw [e, abs_mul, Nat.abs_cast, Nat.cast_mul]
    have h := hK.updateCol hb B i
    gcongr

/-- Numbers with denominators: row `i` has denominator `r i`, the costs have denominator `N`, the subdeterminants
of the matrix are at most `K` and the right-hand sides at most `β`, all within the precision of the tolerances. For
`r = 1` and `N = 1` these are programs with integer data. -/
structure Decimal (P : LP m n) (r : Fin m → ℕ) (N K β : ℕ) : Prop where
  rpos : ∀ i, 0 < r i
  npos : 0 < N
  isInt : IsInt (scaled r N P)
  subdet : SubdetLe K P.A
  rhs : ∀ i, |P.b i| ≤ β
  costs : ((∏ i, r i) * K) * N ≤ 10 ^ 10
  small : (((∏ i, r i) * K : ℕ) : ℚ) * (((∏ i, r i) * K : ℕ) : ℚ) / 10 ^ 8 +
    (((∏ i, r i) * K : ℕ) : ℚ) * (((∏ i, r i) * (m * β * K) : ℕ) : ℚ) / 10 ^ 5 < 1

theorem Decimal.prod_le {K β : ℕ} (h : Decimal P r N K β) : ∏ i, r i ≤ 10 ^ 10 := by
  have h1 := small_le h.small
  have h2 : (∏ i, r i) * K ≤ 10 ^ 4 := by exact_mod_cast h1
  have h3 := h.subdet.one_le
  nlinarith

theorem Decimal.intSef {K β : ℕ} (h : Decimal P r N K β) :
    IntData (scaled r N (toSef P).lp) ((∏ i, r i) * K) ((∏ i, r i) * (m * β * K)) :=
  intData_scaled (isInt_scaled_sef h.isInt) h.subdet.toSef (by rw [toSef_b]; exact h.rhs)

theorem Decimal.exactSef {K β : ℕ} (h : Decimal P r N K β) : Exact (toSef P).lp :=
  exact_of_frac h.rpos h.npos h.intSef h.small h.prod_le h.costs

theorem Decimal.exactAux {K β : ℕ} (h : Decimal P r N K β) : Exact (auxSef (toSef P).lp) :=
  exact_of_frac h.rpos h.npos (intData_scaled (isInt_scaled_aux (isInt_scaled_sef h.isInt)) h.subdet.toSef.aux
    (aux_b_le (by rw [toSef_b]; exact h.rhs))) h.small h.prod_le h.costs

theorem Moderate.decimal {K β : ℕ} (h : Moderate P K β) : Decimal P (fun _ => 1) 1 K β where
  rpos _ := one_pos
  npos := one_pos
  isInt := by
    obtain ⟨h1, h2, h3⟩ := h.isInt
    exact ⟨fun i j => by simpa [scaled] using h1 i j, fun i => by simpa [scaled] using h2 i,
      fun j => by simpa [scaled] using h3 j⟩
  subdet := h.subdet
  rhs := h.rhs
  costs := by
    have h1 := small_le h.small
    have h2 : K ≤ 10 ^ 4 := by exact_mod_cast h1
    simp only [Finset.prod_const_one, one_mul, mul_one]
    omega
  small := by simpa using h.small

end LinProg
end Pytimize
