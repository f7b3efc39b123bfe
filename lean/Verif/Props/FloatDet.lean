/-
Property C156: the error of `np.linalg.det` in double precision, and what `is_basis` makes of it.
-/
import Verif.Float.DetError
import Verif.Props.FloatInverse

namespace Pytimize
namespace Props
open LinProg Floating Matrix Comparator

variable {m n : ℕ} {C : Libm} {L : Lapack binary64} {M : Matrix (Fin n) (Fin n) ℚ} {a : ℚ}

/-! ### Specification -/

/-- The error of the elimination in a determinant of size `n` with entries up to `a`. -/
def detAccuracy (n : ℕ) (a : ℚ) : ℚ := 20 * n.factorial * n ^ 2 * (n + 2) * 4 ^ n * a ^ n / 2 ^ 52

/-- Sizes for which the bound means something and nothing overflows. -/
structure SmallSquare (n : ℕ) (a : ℚ) : Prop extends Moderate n a where
  digits : 20 * (n : ℚ) ^ 2 * (n + 2) * 4 ^ n ≤ 2 ^ 52
  noOverflow : (n.factorial : ℚ) * a ^ n ≤ 2 ^ 980

/-! ### Determinants -/

theorem pow_le_two {x : ℚ} (hx : 0 ≤ x) (N : ℕ) (h : 2 * (N * x) ≤ 1) : (1 + x) ^ N ≤ 1 + 2 * (N * x) := by
  induction N with
  | zero => simp
  | succ N ih =>
    push_cast at h ⊢
    have h0 : 0 ≤ (N : ℚ) * x := by positivity
    have h1 := ih (by linarith)
    rw [pow_succ]
    have h2 := mul_le_mul_of_nonneg_right h1 (show 0 ≤ 1 + x by linarith)
    have h3 : 2 * (N * x) * x ≤ 1 * x := mul_le_mul_of_nonneg_right (by linarith) hx
    linarith

theorem detErr_le (hs : SmallSquare n a) : detErr binary64 n a (growthBound binary64 n a) ≤ detAccuracy n a := by
  obtain ⟨c1, c2, c3, c4⟩ := double_constants hs.toModerate
  have hn1 : (1 : ℚ) ≤ n := by exact_mod_cast hs.pos
  have ha0 : 0 ≤ a := le_trans (by decide +kernel) hs.low
  have hμ0 := growthBound_nonneg (R := binary64) (n := n) ha0
  have hg0 : 0 ≤ relErr binary64 n (growthBound binary64 n a) := relErr_nonneg hμ0
  have hE0 := factorErr_nonneg (R := binary64) (n := n) ha0 hμ0
  have q : (4 : ℚ) ≤ 4 ^ n := by
    calc (4 : ℚ) = 4 ^ 1 := by norm_num
      _ ≤ 4 ^ n := pow_le_pow_right₀ (by norm_num) hs.pos
  have hτa : absErr binary64 n (growthBound binary64 n a) ≤ a / 2 ^ 52 := by
    refine c4.trans (le_trans (show (1 : ℚ) / 2 ^ 500 ≤ 1 / 2 ^ 300 / 2 ^ 52 by decide +kernel) ?_)
    exact div_le_div_of_nonneg_right hs.low (by norm_num)
  have hd := hs.digits
  have hE : factorErr binary64 n a (growthBound binary64 n a) ≤ a * (10 * n * (n + 2) * 4 ^ n / 2 ^ 52) := by
    unfold factorErr
    clear c1 c4 hs hE0 hd
    generalize growthBound binary64 n a = μ at *
    generalize relErr binary64 n μ = g at *
    generalize absErr binary64 n μ = τ at *
    generalize (4 : ℚ) ^ n = F at *
    have hε : (0 : ℚ) < 1 / 2 ^ 52 := by norm_num
    rw [div_eq_mul_one_div] at c3 hτa
    rw [div_eq_mul_one_div _ ((2 : ℚ) ^ 52)]
    generalize (1 : ℚ) / 2 ^ 52 = ε at *
    have hF0 : 0 ≤ F := by linarith
    have hnF : 4 ≤ n * F := by nlinarith
    have hn0 : (0 : ℚ) ≤ n := by linarith
    have s1 : a + 2 * n * μ ≤ a * (1 + 6 * (n * F)) := by nlinarith
    have s2 : g * (a + 2 * n * μ) ≤ (n + 2) * ε * (a * (1 + 6 * (n * F))) :=
      mul_le_mul c3 s1 (by positivity) (by positivity)
    have s3 : (n + 2) * (1 + 6 * (n * F)) + 1 ≤ (n + 2) * (10 * (n * F)) := by nlinarith
    have s4 := mul_le_mul_of_nonneg_left s3 (mul_nonneg ha0 hε.le)
    linarith
  unfold detErr detAccuracy
  generalize factorErr binary64 n a (growthBound binary64 n a) = E at *
  have hx : (0 : ℚ) ≤ 10 * n * (n + 2) * 4 ^ n / 2 ^ 52 := by positivity
  have hp := pow_le_two hx n (by
    rw [show 2 * ((n : ℚ) * (10 * n * (n + 2) * 4 ^ n / 2 ^ 52)) = 20 * (n : ℚ) ^ 2 * (n + 2) * 4 ^ n / 2 ^ 52 by ring]
    exact (div_le_one (by norm_num)).mpr hd)
  have h1 : (a + E) ^ n ≤ a ^ n * (1 + 2 * (n * (10 * n * (n + 2) * 4 ^ n / 2 ^ 52))) := by
    calc (a + E) ^ n ≤ (a * (1 + 10 * n * (n + 2) * 4 ^ n / 2 ^ 52)) ^ n :=
          pow_le_pow_left₀ (by linarith) (by linarith) n
      _ = a ^ n * (1 + 10 * n * (n + 2) * 4 ^ n / 2 ^ 52) ^ n := mul_pow _ _ _
      _ ≤ _ := mul_le_mul_of_nonneg_left hp (pow_nonneg ha0 n)
  have h2 : (a + E) ^ n - a ^ n ≤ a ^ n * (2 * (n * (10 * n * (n + 2) * 4 ^ n / 2 ^ 52))) := by linarith
  refine (mul_le_mul_of_nonneg_left h2 (Nat.cast_nonneg _)).trans (le_of_eq ?_)
  ring

theorem detAccuracy_le (hs : SmallSquare n a) : detAccuracy n a ≤ n.factorial * a ^ n := by
  have ha0 : 0 ≤ a := le_trans (by decide +kernel) hs.low
  have h := mul_le_mul_of_nonneg_left hs.digits (show 0 ≤ (n.factorial : ℚ) * a ^ n by positivity)
  unfold detAccuracy
  rw [div_le_iff₀ (by norm_num)]
  linarith

/-- Entries up to `a` limit the determinant. -/
theorem abs_det_le (ha0 : 0 ≤ a) (ha : ∀ i j, |M i j| ≤ a) : |M.det| ≤ n.factorial * a ^ n := by
  rw [det_apply']
  refine abs_sum_perm fun σ => ?_
  rw [abs_mul, abs_sign, one_mul]
  have := (prod_perturb (x := fun i => M (σ i) i) (y := fun i => M (σ i) i) (e := 0) Finset.univ ha0 le_rfl
    (fun i _ => ha _ _) (by simp)).2
  rwa [Finset.card_univ, Fintype.card_fin] at this

/-- C156. The determinant that `np.linalg.det` returns: the first term is the error of the elimination, the second that of
logarithms and exponential function. -/
theorem C156_det (hC : C.Accurate) (hU : C.Underflows) (hL : Gaussian C L) (hs : SmallSquare n a)
    (ha : ∀ i j, |M i j| ≤ a) :
    |L.det M - M.det| ≤ 2 * detAccuracy n a + |M.det| / 2 ^ 12 + 1 / 10 ^ 20 := by
  obtain ⟨c1, c2, c3, c4⟩ := double_constants hs.toModerate
  have ha0 : 0 ≤ a := le_trans (by decide +kernel) hs.low
  have hn : (n : ℚ) ≤ 100 := by exact_mod_cast hs.size
  have hμ0 := growthBound_nonneg (R := binary64) (n := n) ha0
  have hg : relErr binary64 n (growthBound binary64 n a) ≤ 1 / 2 := by
    refine c3.trans ?_
    rw [div_le_iff₀ (by norm_num)]
    norm_num
    linarith
  have hA0 : 0 ≤ detAccuracy n a := by unfold detAccuracy; positivity
  obtain ⟨π, l, u, hF, hd⟩ := hL.det M
  have hμ : ∀ i j, i ≤ j → (∀ k < i, u k k ≠ 0) → |u i j| ≤ growthBound binary64 n a :=
    fun i j hij h0 => growth hF ha c1 hg i j hij h0
  have key := (pivots_error hF ha0 ha hg c1 hμ0 hμ).trans (detErr_le hs)
  rcases hd with ⟨⟨i, hi⟩, hd⟩ | ⟨h0, hd⟩
  · have hp : ∏ i, u i i = 0 := Finset.prod_eq_zero (Finset.mem_univ i) hi
    rw [hp, mul_zero] at key
    rw [hd]
    have : 0 ≤ |M.det| / 2 ^ 12 := by positivity
    have h20 : (0 : ℚ) < 1 / 10 ^ 20 := by positivity
    linarith
  · have hpe : |∏ i, u i i| = |((Equiv.Perm.sign π : ℤ) : ℚ) * ∏ i, u i i| := by rw [abs_mul, abs_sign, one_mul]
    have hle : |∏ i, u i i| ≤ |M.det| + detAccuracy n a := by
      rw [hpe]
      have := abs_add_le (((Equiv.Perm.sign π : ℤ) : ℚ) * ∏ i, u i i - M.det) M.det
      rw [sub_add_cancel] at this
      linarith
    have hbig : |∏ i, u i i| ≤ 2 ^ 990 := by
      refine hle.trans ((add_le_add ((abs_det_le ha0 ha).trans hs.noOverflow)
        ((detAccuracy_le hs).trans hs.noOverflow)).trans ?_)
      decide +kernel
    have hu : ∀ i, |u i i| ≤ 2 ^ 502 := fun i => by
      refine (hμ i i le_rfl fun k _ => h0 k).trans (c2.trans ?_)
      have h4 : (4 : ℚ) ^ n ≤ 4 ^ 100 := pow_le_pow_right₀ (by norm_num) hs.size
      refine (mul_le_mul (mul_le_mul_of_nonneg_left h4 (by norm_num)) hs.high ha0 (by positivity)).trans ?_
      decide +kernel
    have h1 := detVal_error (π := π) hC hU hs.size hu h0 hbig
    rw [← hd] at h1
    have h2 := abs_add_le (L.det M - ((Equiv.Perm.sign π : ℤ) : ℚ) * ∏ i, u i i)
      (((Equiv.Perm.sign π : ℤ) : ℚ) * ∏ i, u i i - M.det)
    rw [sub_add_sub_cancel] at h2
    clear hbig hpe
    generalize |∏ i, u i i| = p at *
    generalize |M.det| = d at *
    generalize detAccuracy n a = A at *
    have h3 : p / 2 ^ 12 ≤ (d + A) / 2 ^ 12 := div_le_div_of_nonneg_right hle (by norm_num)
    have h4 : A / 2 ^ 12 ≤ A := div_le_self hA0 (by norm_num)
    rw [add_div] at h3
    linarith

/-! ### Bases -/

/-- The computed determinant is close to zero if the exact one is, and only then, unless it is near the tolerance. -/
theorem det_close (hC : C.Accurate) (hU : C.Underflows) (hL : Gaussian C L) (hs : SmallSquare n a)
    (ha : ∀ i j, |M i j| ≤ a)
    (hgap : 2 / 10 ^ 10 + 3 * detAccuracy n a ≤ |M.det| ∨ |M.det| + 3 * detAccuracy n a ≤ 9 / 10 ^ 11) :
    closeToZero binary64 (L.det M) = isCloseToZero M.det := by
  have key := C156_det hC hU hL hs ha
  have ha0 : 0 ≤ a := le_trans (by decide +kernel) hs.low
  have hA0 : 0 ≤ detAccuracy n a := by unfold detAccuracy; positivity
  have hb := zeroTol_bounds fine_binary64
  have h1 := abs_sub_abs_le_abs_sub (L.det M) M.det
  have h2 := abs_sub_abs_le_abs_sub M.det (L.det M)
  rw [abs_sub_comm] at h2
  unfold closeToZero isCloseToZero tol
  rw [decide_eq_decide]
  generalize |L.det M - M.det| = δ at *
  generalize |L.det M| = x at *
  generalize |M.det| = y at *
  generalize detAccuracy n a = A at *
  generalize zeroTol binary64 = z at *
  clear hs
  rcases hgap with h | h <;> norm_num at * <;> constructor <;> intro h3 <;> linarith [hb.1, hb.2]

/-- C156. `is_basis` answers in double precision what it answers in exact arithmetic, unless the determinant of the
columns is near the tolerance. -/
theorem C156_is_basis (hC : C.Accurate) (hU : C.Underflows) (hL : Gaussian C L) {P : LP m n} (hs : SmallSquare m a)
    (hA : ∀ i j, |P.A i j| ≤ a) (basis : List ℤ)
    (hgap : ∀ B : Fin m → Fin n, Lists basis B → 2 / 10 ^ 10 + 3 * detAccuracy m a ≤ |(P.A.submatrix id B).det| ∨
      |(P.A.submatrix id B).det| + 3 * detAccuracy m a ≤ 9 / 10 ^ 11) :
    fisBasis L P basis = isBasis P basis := by
  unfold fisBasis isBasis
  dsimp only
  split
  · rfl
  · split
    · rfl
    · cases h2 : toCols m n (sortInt (toArrayIndexing basis)) with
      | none => rfl
      | some B =>
        obtain ⟨B', h3, rfl⟩ := toCols_sortInt.mp h2
        have h4 := hgap B' (toArrayIndexing_eq_iff.mp h3)
        dsimp only
        rw [det_close (M := colSel P.A (sortCols B')) hC hU hL hs (fun i j => hA i _) (by rw [abs_det_sort]; exact h4)]

theorem one_le_abs_det (hM : ∀ i j, ∃ z : ℤ, M i j = z) (h : M.det ≠ 0) : 1 ≤ |M.det| := by
  choose N hN using hM
  let N : Matrix (Fin n) (Fin n) ℤ := N
  have e : M = (Int.castRingHom ℚ).mapMatrix N := by
    ext i j
    exact hN i j
  rw [e, ← RingHom.map_det] at h ⊢
  have h1 : N.det ≠ 0 := by
    rintro h0
    rw [h0, map_zero] at h
    exact h rfl
  rw [eq_intCast, ← Int.cast_abs]
  exact_mod_cast Int.one_le_abs h1

theorem lists_unique {basis : List ℤ} {B B' : Fin m → Fin n} (h : Lists basis B) (h' : Lists basis B') : B = B' := by
  unfold Lists at h h'
  rw [h] at h'
  have := List.ofFn_injective h'
  funext i
  have h2 := congrFun this i
  rw [add_left_inj, Nat.cast_inj, Fin.val_inj] at h2
  exact h2

/-- C156. For a matrix of integers: linearly independent columns are accepted. -/
theorem C156_accepts (hC : C.Accurate) (hU : C.Underflows) (hL : Gaussian C L) {P : LP m n} (hs : SmallSquare m a)
    (hA : ∀ i j, |P.A i j| ≤ a) (hint : ∀ i j, ∃ z : ℤ, P.A i j = z) (hacc : 3 * detAccuracy m a ≤ 1 / 2)
    {basis : List ℤ} {B : Fin m → Fin n} (hB : Lists basis B) (hi : LinearIndependent ℚ fun i => P.A.col (B i)) :
    fisBasis L P basis = .ok true := by
  have hd : (P.A.submatrix id B).det ≠ 0 := by
    rw [← isUnit_iff_ne_zero, ← isUnit_iff_isUnit_det, ← linearIndependent_cols_iff_isUnit]
    exact hi
  have h1 : 1 ≤ |(P.A.submatrix id B).det| := one_le_abs_det (fun i j => hint i (B j)) hd
  have e : fisBasis L P basis = isBasis P basis := by
    refine C156_is_basis hC hU hL hs hA basis fun B' hB' => .inl ?_
    have : B' = B := lists_unique hB' hB
    rw [this]
    refine le_trans ?_ h1
    generalize detAccuracy m a = A at *
    norm_num at *
    linarith
  obtain ⟨r, h2, h3⟩ := C35_is_basis P hs.pos basis
  rw [e, h2, h3.mpr ⟨B, hB, le_trans (by norm_num) h1⟩]

/-- C156. For a small matrix of integers `is_basis` in double precision says yes exactly to lists of linearly independent
columns. -/
theorem C156_integers (hC : C.Accurate) (hU : C.Underflows) (hL : Gaussian C L) {P : LP m n} (hs : SmallSquare m a)
    (hA : ∀ i j, |P.A i j| ≤ a) (hint : ∀ i j, ∃ z : ℤ, P.A i j = z) (hacc : 3 * detAccuracy m a ≤ 9 / 10 ^ 11)
    (basis : List ℤ) :
    ∃ r, fisBasis L P basis = .ok r ∧
      (r = true ↔ ∃ B : Fin m → Fin n, Lists basis B ∧ LinearIndependent ℚ fun i => P.A.col (B i)) := by
  have h01 : ∀ B : Fin m → Fin n, (P.A.submatrix id B).det ≠ 0 → 1 ≤ |(P.A.submatrix id B).det| :=
    fun B => one_le_abs_det fun i j => hint i (B j)
  have e : fisBasis L P basis = isBasis P basis := by
    refine C156_is_basis hC hU hL hs hA basis fun B _ => ?_
    by_cases hd : (P.A.submatrix id B).det = 0
    · right
      rw [hd, abs_zero, zero_add]
      exact hacc
    · left
      refine le_trans ?_ (h01 B hd)
      generalize detAccuracy m a = A at *
      norm_num at *
      linarith
  obtain ⟨r, h1, h2⟩ := C35_is_basis P hs.pos basis
  refine ⟨r, e.trans h1, h2.trans (exists_congr fun B => and_congr_right fun _ => ?_)⟩
  have hd : (P.A.submatrix id B).det ≠ 0 ↔ LinearIndependent ℚ fun i => P.A.col (B i) := by
    rw [← isUnit_iff_ne_zero, ← isUnit_iff_isUnit_det, ← linearIndependent_cols_iff_isUnit]
    rfl
  rw [← hd]
  constructor
  · intro h h0
    rw [h0] at h
    norm_num at h
  · intro h0
    exact le_trans (by norm_num) (h01 B h0)

/-! ### A singular matrix taken for a basis -/

/-- A program with two equal columns. -/
def equalColumns : LP 2 2 where
  A := !![49 * 2 ^ 20, 49 * 2 ^ 20; 2 ^ 20, 2 ^ 20]
  b := 0
  c := 0
  z := 0
  ineq _ := .eq
  neg := []
  free := []
  objective := .max
  isSef := true

/-- What is left of the lower right entry is the error of `1/49`. -/
theorem equal_pivots {π : Equiv.Perm (Fin 2)} {l u : Matrix (Fin 2) (Fin 2) ℚ}
    (h : Factored binary64 equalColumns.A π l u) :
    u 0 0 = 49 * 2 ^ 20 ∧ 1 / 2 ^ 35 ≤ u 1 1 ∧ u 1 1 ≤ 1 := by
  have h00 := reduced_none (h.upper 0 0 le_rfl) (by decide)
  have h01 := reduced_none (h.upper 0 1 (by decide)) (by decide)
  obtain ⟨s, hs, hsu, hq⟩ := h.lower 1 0 (by decide)
  have hs := reduced_none hs (by decide)
  have hπ : π 0 = 0 ∧ π 1 = 1 := by
    have h2 : ∀ π : Equiv.Perm (Fin 2), (π 0 = 0 ∧ π 1 = 1) ∨ (π 0 = 1 ∧ π 1 = 0) := by decide
    rcases h2 π with h0 | ⟨h0, h1⟩
    · exact h0
    · rw [h0] at h00
      rw [h1] at hs
      rw [hs, h00] at hsu
      exact absurd hsu (by decide +kernel)
  rw [hπ.1] at h00 h01
  rw [hπ.2] at hs
  have e00 : u 0 0 = 49 * 2 ^ 20 := h00.trans (by decide +kernel)
  have e01 : u 0 1 = 49 * 2 ^ 20 := h01.trans (by decide +kernel)
  have es : s = 2 ^ 20 := hs.trans (by decide +kernel)
  have el : l 1 0 = binary64.rd (1 / 49) := by
    rcases hq (by rw [e00]; norm_num) with h1 | h1 <;> rw [h1, es, e00] <;> decide +kernel
  refine ⟨e00, ?_⟩
  have h11 := reduced_single (h.upper 1 1 le_rfl) (k := 0) (by decide)
  rw [hπ.2, el, e01] at h11
  rcases h11 with h1 | h1 | h1 <;> rw [h1] <;> decide +kernel

/-- C156. The bound on the entries cannot be left out: with a factor of a million, `is_basis` takes two equal columns for
a basis. -/
theorem C156_singular_wrong (hC : C.Accurate) (hU : C.Underflows) (hL : Gaussian C L) :
    (equalColumns.A.submatrix id ![0, 1]).det = 0 ∧ isBasis equalColumns [1, 2] = .ok false ∧
      fisBasis L equalColumns [1, 2] = .ok true := by
  refine ⟨by decide +kernel, by decide +kernel, ?_⟩
  have hd : closeToZero binary64 (L.det equalColumns.A) = false := by
    obtain ⟨π, l, u, hF, hd⟩ := hL.det equalColumns.A
    obtain ⟨h0, h1, h2⟩ := equal_pivots hF
    have hu0 : ∀ i, u i i ≠ 0 := by
      intro i
      fin_cases i
      · show u 0 0 ≠ 0
        rw [h0]
        norm_num
      · show u 1 1 ≠ 0
        intro h
        rw [h] at h1
        norm_num at h1
    rcases hd with ⟨⟨i, hi⟩, -⟩ | ⟨-, hd⟩
    · exact absurd hi (hu0 i)
    have h1' : 0 < u 1 1 := lt_of_lt_of_le (by norm_num) h1
    have hp : |∏ i, u i i| = 49 * 2 ^ 20 * u 1 1 := by
      rw [Fin.prod_univ_two, h0, abs_of_pos (by positivity)]
    have key := detVal_error (π := π) (u := u) hC hU (by norm_num) (fun i => ?_) hu0 (by
      rw [hp]
      refine (mul_le_mul_of_nonneg_left h2 (by norm_num)).trans ?_
      decide +kernel)
    · rw [← hd] at key
      have h3 := abs_sub_abs_le_abs_sub (((Equiv.Perm.sign π : ℤ) : ℚ) * ∏ i, u i i) (L.det equalColumns.A)
      rw [abs_sub_comm, abs_mul, abs_sign, one_mul] at h3
      rw [hp] at h3 key
      have hb := (zeroTol_bounds fine_binary64).2
      unfold closeToZero
      rw [decide_eq_false_iff_not, not_lt]
      clear hp hd hF hu0 hL
      generalize |L.det equalColumns.A| = x at *
      generalize zeroTol binary64 = z at *
      norm_num at *
      linarith
    · fin_cases i
      · show |u 0 0| ≤ 2 ^ 502
        rw [h0]
        decide +kernel
      · show |u 1 1| ≤ 2 ^ 502
        rw [abs_of_pos h1']
        exact h2.trans (by decide +kernel)
  have e : fisBasis L equalColumns [1, 2] = .ok (!closeToZero binary64 (L.det (colSel equalColumns.A ![0, 1]))) := by
    have h1 : toCols 2 2 (sortInt (toArrayIndexing [1, 2])) = some ![0, 1] := by decide +kernel
    unfold fisBasis
    dsimp only
    rw [if_neg (by decide +kernel), if_neg (by decide +kernel), h1]
  have e2 : colSel equalColumns.A ![0, 1] = equalColumns.A := by decide +kernel
  rw [e, e2, hd]
  rfl

/-! ### Cases -/

/-- The hypotheses hold for the program of C154 and for some C library. -/
example {C : Libm} {L : Lapack binary64} (hC : C.Accurate) (hU : C.Underflows) (hL : Gaussian C L) :
    fisBasis L fifthsSample [2, 1] = .ok true ∧ |L.det (fifthsSample.A.submatrix id ![0, 1]) - 5| ≤ 1 / 100 := by
  have hs : SmallSquare 2 3 := ⟨⟨by norm_num, by norm_num, by decide +kernel, by decide +kernel⟩, by decide +kernel,
    by decide +kernel⟩
  have hint : ∀ i j, (fifthsSample.A i j).den = 1 := by decide +kernel
  constructor
  · obtain ⟨r, h1, h2⟩ := C156_integers hC hU hL (P := fifthsSample) hs (by decide +kernel)
      (fun i j => ⟨_, ((Rat.den_eq_one_iff _).mp (hint i j)).symm⟩) (by decide +kernel) [2, 1]
    rw [h1, h2.mpr ⟨![1, 0], by with_unfolding_all rfl, ?_⟩]
    have hd : (fifthsSample.A.submatrix id ![1, 0]).det ≠ 0 := by decide +kernel
    rw [← isUnit_iff_ne_zero, ← isUnit_iff_isUnit_det, ← linearIndependent_cols_iff_isUnit] at hd
    exact hd
  · have h := C156_det (M := fifthsSample.A.submatrix id ![0, 1]) hC hU hL hs (by decide +kernel)
    have e : (fifthsSample.A.submatrix id ![0, 1]).det = 5 := by decide +kernel
    rw [e] at h
    exact h.trans (by decide +kernel)

example : ∃ (C : Libm) (L : Lapack binary64), C.Accurate ∧ C.Underflows ∧ Gaussian C L := by
  obtain ⟨C, h1, h2⟩ := exists_libm
  exact ⟨C, eliminating C binary64, h1, h2, eliminating_gaussian _ _⟩

end Props
end Pytimize
