/-
Gaussian elimination in double precision is exact on matrices whose subdeterminants are powers of two, up to sign.
-/
import Mathlib.Analysis.SpecialFunctions.Log.Basic
import Mathlib.Analysis.SpecialFunctions.Log.Deriv
import Mathlib.Analysis.Complex.ExponentialBounds
import Verif.Float.Dyadic
import Verif.Float.Gauss

namespace Pytimize
namespace Floating
open LinProg Comparator Matrix

variable {n K : ℕ}

/-! ### Sums and quotients -/

theorem reduced_dyadic {a : ℚ} {S : Fin n → Bool} {p q : Fin n → ℚ} {s : ℚ} (h : Reduced binary64 a S p q s)
    (hn : ((n : ℚ) + 1) * 2 ^ (4 * K) ≤ 2 ^ 53) (hK : K ≤ 100) (ha : TwoPow (2 * K) a)
    (hp : ∀ k, S k = true → TwoPow K (p k)) (hq : ∀ k, S k = true → TwoPow K (q k)) :
    s = a - ∑ k, if S k = true then p k * q k else 0 := by
  have hg : ∀ k, S k = true → Grid (2 * K) (2 ^ (2 * K)) (p k * q k) := fun k hk => by
    have := ((hp k hk).mul (hq k hk)).grid
    rwa [← two_mul] at this
  have e1 : ∀ l : List (Fin n), total ((l.filter S).map fun k => (-p k, q k)) =
      -(l.map fun k => if S k = true then p k * q k else 0).sum := by
    intro l
    induction l with
    | nil => simp [total]
    | cons k l ih =>
      by_cases hk : S k = true
      · simp only [total, List.filter_cons_of_pos hk, List.map_cons, List.sum_cons, if_pos hk] at ih ⊢
        rw [ih]; ring
      · simp only [total, List.filter_cons_of_neg hk, List.map_cons, List.sum_cons, if_neg hk] at ih ⊢
        rw [ih]; ring
  have e2 : ∀ l : List (Fin n), size ((l.filter S).map fun k => (-p k, q k)) ≤ l.length * 2 ^ (2 * K) := by
    intro l
    induction l with
    | nil => simp [size]
    | cons k l ih =>
      have h0 : (0 : ℚ) < 2 ^ (2 * K) := by positivity
      by_cases hk : S k = true
      · simp only [size, List.filter_cons_of_pos hk, List.map_cons, List.sum_cons, List.length_cons] at ih ⊢
        have := (hg k hk).2
        rw [neg_mul, abs_neg]
        push_cast at this ⊢
        linarith
      · simp only [List.filter_cons_of_neg hk, List.length_cons] at ih ⊢
        push_cast
        linarith
  have key := Dots.grid (s := 2 * K) h (fun x hx => ?_) ?_ (by omega)
  · rw [key.1]
    have : total ((a, 1) :: ((List.finRange n).filter S).map fun k => (-p k, q k)) =
        a * 1 + total (((List.finRange n).filter S).map fun k => (-p k, q k)) := by simp [total]
    rw [this, e1, mul_one, ← List.ofFn_eq_map, List.sum_ofFn]
    ring
  · rcases List.mem_cons.mp hx with rfl | hx
    · rw [mul_one]; exact ha.grid.1
    · obtain ⟨k, hk, rfl⟩ := List.mem_map.mp hx
      have := (hg k (List.mem_filter.mp hk).2).neg.1
      rwa [← neg_mul] at this
  · have : size ((a, 1) :: ((List.finRange n).filter S).map fun k => (-p k, q k)) =
        |a * 1| + size (((List.finRange n).filter S).map fun k => (-p k, q k)) := by simp [size]
    rw [this, mul_one]
    have h1 := ha.grid.2
    have h2 := e2 (List.finRange n)
    rw [List.length_finRange] at h2
    have h3 : (|a| + size (((List.finRange n).filter S).map fun k => (-p k, q k))) ≤ ((n : ℚ) + 1) * 2 ^ (2 * K) := by
      linarith
    refine (mul_le_mul_of_nonneg_right h3 (by positivity)).trans ?_
    rw [mul_assoc, ← pow_add, show 2 * K + 2 * K = 4 * K by omega]
    exact hn

theorem quotient_dyadic {L : ℕ} {a b q : ℚ} (h : Quotient binary64 a b q) (ha : TwoPow L a) (hb : TwoPow K b)
    (hL : L + K ≤ 1000) : q = a / b := by
  rcases h with h | h
  · rw [h, (ha.div hb).rd_eq hL]
  · rw [h, one_div, hb.inv.rd_eq (by omega), (ha.mul hb.inv).rd_eq hL, div_eq_mul_inv]

/-! ### Elimination -/

theorem Dyadic.pivot {ι κ : Type} {X : Matrix ι κ ℚ} (h : Dyadic K X) (a : ι) (b : κ) (hp : X a b ≠ 0) :
    Dyadic K (pivotOut X a b) := by
  obtain ⟨d, hd, h⟩ := h
  refine ⟨d * X a b, mul_ne_zero hd hp, fun k f g => ?_⟩
  have key : (X.submatrix (Fin.cons a f : Fin (k + 1) → ι) (Fin.cons b g : Fin (k + 1) → κ)).det =
      X a b * ((pivotOut X a b).submatrix f g).det := det_pivotOut X a b hp f g
  show Pow K (d * X a b * _)
  rw [mul_assoc, ← key]
  exact h _ _ _

theorem extended_dyadic {M : Matrix (Fin n) (Fin n) ℚ} (h : Dyadic K M) (π : Equiv.Perm (Fin n)) :
    Dyadic K (extended M π) := h.fromCols_one.submatrix π id

theorem step_dyadic {X : Matrix (Fin n) (Fin n ⊕ Fin n) ℚ} (hX : Dyadic K X)
    (hn : ((n : ℚ) + 1) * 2 ^ (4 * K) ≤ 2 ^ 53) (hK : K ≤ 100) {T : Fin n}
    (hE : ∀ k : Fin n, k < T → Dyadic K (elim X .inl k) ∧ elim X .inl k k (.inl k) ≠ 0)
    {i : Fin n} {c : Fin n ⊕ Fin n} {p q : Fin n → ℚ}
    (hp : ∀ k, k < T → p k = elim X .inl k i (.inl k) / elim X .inl k k (.inl k))
    (hq : ∀ k, k < T → q k = elim X .inl k k c) {s : ℚ}
    (h : Reduced binary64 (X i c) (fun k => decide (k < T)) p q s) : s = elim X .inl T i c := by
  rw [reduced_dyadic h hn hK ((hX.entry i c).mono (by omega)), elim_eq]
  · congr 1
    refine Finset.sum_congr rfl fun k _ => ?_
    by_cases hk : k < T
    · have : (k : ℕ) < T := hk
      rw [if_pos (by simpa using hk), if_pos this, hp k hk, hq k hk]
    · have : ¬ (k : ℕ) < T := hk
      rw [if_neg (by simpa using hk), if_neg this]
  · intro k hk
    have hk : k < T := by simpa using hk
    obtain ⟨h1, h2⟩ := hE k hk
    rw [hp k hk]
    exact h1.quot _ _ _ _ h2
  · intro k hk
    have hk : k < T := by simpa using hk
    rw [hq k hk]
    exact (hE k hk).1.entry k c

variable {M : Matrix (Fin n) (Fin n) ℚ} {π : Equiv.Perm (Fin n)} {l u : Matrix (Fin n) (Fin n) ℚ}

theorem factored_dyadic (hM : Dyadic K M) (hn : ((n : ℚ) + 1) * 2 ^ (4 * K) ≤ 2 ^ 53) (hK : K ≤ 100)
    (h : Factored binary64 M π l u) {t : ℕ} (ht : t ≤ n) (h0 : ∀ k : Fin n, (k : ℕ) < t → u k k ≠ 0) :
    (∀ s ≤ t, Dyadic K (elim (extended M π) .inl s)) ∧
    (∀ k j : Fin n, (k : ℕ) < t → k ≤ j → u k j = elim (extended M π) .inl k k (.inl j)) ∧
    ∀ i k : Fin n, (k : ℕ) < t → k < i → l i k =
      elim (extended M π) .inl k i (.inl k) / elim (extended M π) .inl k k (.inl k) := by
  have hX := extended_dyadic hM π
  induction t with
  | zero =>
    refine ⟨fun s hs => ?_, fun k j hk => by omega, fun i k hk => by omega⟩
    rw [Nat.le_zero.mp hs]
    exact hX
  | succ t ih =>
    obtain ⟨i1, i2, i3⟩ := ih (by omega) fun k hk => h0 k (by omega)
    let T : Fin n := ⟨t, by omega⟩
    have hE : ∀ k : Fin n, k < T → Dyadic K (elim (extended M π) .inl k) ∧
        elim (extended M π) .inl k k (.inl k) ≠ 0 := fun k hk =>
      ⟨i1 k (le_of_lt hk), by rw [← i2 k k hk le_rfl]; exact h0 k (Nat.lt_succ_of_lt hk)⟩
    have hup : ∀ j, T ≤ j → u T j = elim (extended M π) .inl t T (.inl j) := fun j hj =>
      step_dyadic (T := T) (i := T) (c := .inl j) hX hn hK hE (fun k hk => i3 T k hk hk)
        (fun k hk => i2 k j hk (le_of_lt (lt_of_lt_of_le hk hj))) (h.upper T j hj)
    have hpiv : elim (extended M π) .inl t T (.inl T) ≠ 0 := by
      rw [← hup T le_rfl]; exact h0 T (Nat.lt_succ_self t)
    refine ⟨fun s hs => ?_, fun k j hk hj => ?_, fun i k hk hi => ?_⟩
    · rcases Nat.lt_or_eq_of_le hs with hs | rfl
      · exact i1 s (by omega)
      · rw [elim, dif_pos T.2]
        exact (i1 t le_rfl).pivot T (.inl T) hpiv
    · rcases Nat.lt_or_eq_of_le (Nat.lt_succ_iff.mp hk) with hk | hk
      · exact i2 k j hk hj
      · have : k = T := Fin.ext hk
        subst this
        exact hup j hj
    · rcases Nat.lt_or_eq_of_le (Nat.lt_succ_iff.mp hk) with hk | hk
      · exact i3 i k hk hi
      · have : k = T := Fin.ext hk
        subst this
        obtain ⟨s, h1, -, h2⟩ := h.lower i T hi
        have hs : s = elim (extended M π) .inl t i (.inl T) :=
          step_dyadic (T := T) (i := i) (c := .inl T) hX hn hK hE (fun k hk => i3 i k hk (lt_trans hk hi))
            (fun k hk => i2 k T hk (le_of_lt hk)) h1
        have hu : u T T ≠ 0 := h0 T (Nat.lt_succ_self t)
        have := quotient_dyadic (L := K) (K := K) (h2 hu) (by rw [hs]; exact (i1 t le_rfl).entry i _)
          (by rw [hup T le_rfl]; exact (i1 t le_rfl).entry T _) (by omega)
        rw [this, hs, hup T le_rfl]

/-- A zero pivot means a singular matrix. -/
theorem dyadic_zero_pivot (hM : Dyadic K M) (hn : ((n : ℚ) + 1) * 2 ^ (4 * K) ≤ 2 ^ 53) (hK : K ≤ 100)
    (h : Factored binary64 M π l u) (h0 : ∃ i, u i i = 0) : M.det = 0 := by
  obtain ⟨T, hT, hmin⟩ : ∃ T, u T T = 0 ∧ ∀ k < T, u k k ≠ 0 := by
    have hne : (Finset.univ.filter fun i => u i i = 0).Nonempty := h0.imp fun i hi => by simp [hi]
    refine ⟨_, (Finset.mem_filter.mp (Finset.min'_mem _ hne)).2, fun k hk h0 => ?_⟩
    exact absurd (Finset.min'_le _ k (by simp [h0])) (not_le.mpr hk)
  have hX := extended_dyadic hM π
  obtain ⟨i1, i2, i3⟩ := factored_dyadic hM hn hK h (t := T) T.2.le fun k hk => hmin k hk
  have hE : ∀ k : Fin n, k < T → Dyadic K (elim (extended M π) .inl k) ∧
      elim (extended M π) .inl k k (.inl k) ≠ 0 := fun k hk =>
    ⟨i1 k (le_of_lt hk), by rw [← i2 k k hk le_rfl]; exact hmin k hk⟩
  have key := elim_det_zero (X := extended M π) (T := T) (fun k hk => (hE k hk).2) fun i hi => by
    rcases lt_or_eq_of_le hi with hi | rfl
    · obtain ⟨s, h1, h2, -⟩ := h.lower i T hi
      have hs : s = elim (extended M π) .inl T i (.inl T) :=
        step_dyadic (T := T) (i := i) (c := .inl T) hX hn hK hE (fun k hk => i3 i k hk (lt_trans hk hi))
          (fun k hk => i2 k T hk (le_of_lt hk)) h1
      rw [hT, abs_zero, abs_nonpos_iff] at h2
      rw [← hs, h2]
    · rw [← hT]
      exact (step_dyadic (T := T) (i := T) (c := .inl T) hX hn hK hE (fun k hk => i3 T k hk hk)
        (fun k hk => i2 k T hk (le_of_lt hk)) (h.upper T T le_rfl)).symm
  rw [extended_det] at key
  rcases mul_eq_zero.mp key with h1 | h1
  · have : (Equiv.Perm.sign π : ℤ) = 0 := by exact_mod_cast h1
    rcases Int.units_eq_one_or (Equiv.Perm.sign π) with h2 | h2 <;> rw [h2] at this <;> simp at this
  · exact h1

theorem dyadic_pivots (hM : Dyadic K M) (hn : ((n : ℚ) + 1) * 2 ^ (4 * K) ≤ 2 ^ 53) (hK : K ≤ 100)
    (h : Factored binary64 M π l u) (h0 : ∀ i, u i i ≠ 0) : M.det = ((Equiv.Perm.sign π : ℤ) : ℚ) * ∏ i, u i i := by
  obtain ⟨i1, i2, i3⟩ := factored_dyadic hM hn hK h (t := n) le_rfl fun k _ => h0 k
  have e : ∀ k : Fin n, u k k = elim (extended M π) .inl k k (.inl k) := fun k => i2 k k k.2 le_rfl
  have key := elim_det (X := extended M π) fun k => by rw [← e]; exact h0 k
  rw [extended_det, ← Finset.prod_congr rfl fun k _ => e k] at key
  rw [← key, ← mul_assoc]
  have : ((Equiv.Perm.sign π : ℤ) : ℚ) * ((Equiv.Perm.sign π : ℤ) : ℚ) = 1 := by
    rcases Int.units_eq_one_or (Equiv.Perm.sign π) with h2 | h2 <;> rw [h2] <;> norm_num
  rw [this, one_mul]

/-- The inverse is exact. -/
theorem invVal_dyadic (hM : Dyadic K M) (hn : ((n : ℚ) + 1) * 2 ^ (4 * K) ≤ 2 ^ 53) (hK : K ≤ 100)
    {T : Matrix (Fin n) (Fin n) ℚ} (h : InvVal binary64 M T) : T = M⁻¹ := by
  obtain ⟨π, l, u, hF, h0, y, hy, hT⟩ := h
  have hX := extended_dyadic hM π
  obtain ⟨i1, i2, i3⟩ := factored_dyadic hM hn hK hF (t := n) le_rfl fun k _ => h0 k
  have hE : ∀ k : Fin n, Dyadic K (elim (extended M π) .inl k) ∧
      elim (extended M π) .inl k k (.inl k) ≠ 0 := fun k =>
    ⟨i1 k k.2.le, by rw [← i2 k k k.2 le_rfl]; exact h0 k⟩
  have hy' : ∀ i c, y i c = elim (extended M π) .inl i i (.inr c) := by
    intro i
    induction i using WellFoundedLT.induction with
    | ind i ih =>
      intro c
      refine step_dyadic (T := i) (i := i) (c := .inr c) hX hn hK (fun k _ => hE k) (fun k hk => i3 i k k.2 hk)
        (fun k hk => ih k hk c) ?_
      have : extended M π i (.inr c) = if π i = c then 1 else 0 := by
        simp [extended, Matrix.one_apply]
      rw [this]
      exact hy i c
  have hdet : M.det ≠ 0 := by
    rw [dyadic_pivots hM hn hK hF h0]
    refine mul_ne_zero ?_ (Finset.prod_ne_zero_iff.mpr fun i _ => h0 i)
    rcases Int.units_eq_one_or (Equiv.Perm.sign π) with h2 | h2 <;> rw [h2] <;> norm_num
  have hinv : ∀ i k, TwoPow K (M⁻¹ i k) := fun i k => by
    rw [← npInv_eq]; exact hM.npInv hdet i k
  have hrel : ∀ c i, ∑ j, extended M π i (.inl j) * M⁻¹ j c = extended M π i (.inr c) := by
    intro c i
    have : (M * M⁻¹) (π i) c = (1 : Matrix (Fin n) (Fin n) ℚ) (π i) c := by
      rw [mul_nonsing_inv M (isUnit_iff_ne_zero.mpr hdet)]
    rw [mul_apply] at this
    simpa [extended] using this
  have key : ∀ i c, T i c = M⁻¹ i c := by
    intro i
    induction i using WellFoundedGT.induction with
    | ind i ih =>
      intro c
      obtain ⟨s, hs, hq⟩ := hT i c
      have hui : ∀ j, i ≤ j → TwoPow K (u i j) := fun j hj => by
        rw [i2 i j i.2 hj]; exact (i1 i i.2.le).entry i _
      have e1 := reduced_dyadic hs hn hK (by rw [hy']; exact ((i1 i i.2.le).entry i _).mono (by omega))
        (fun k hk => hui k (le_of_lt (by simpa using hk)))
        (fun k hk => by rw [ih k (by simpa using hk) c]; exact hinv k c)
      have e2 := elim_relation (hrel c) i i
      rw [← hy'] at e2
      have e3 : ∀ j, elim (extended M π) .inl i i (.inl j) * M⁻¹ j c =
          (if decide (i < j) = true then u i j * T j c else 0) + if j = i then u i j * M⁻¹ j c else 0 := by
        intro j
        rcases lt_trichotomy i j with hj | rfl | hj
        · rw [if_pos (by simpa using hj), if_neg (ne_of_gt hj), add_zero, ih j hj c, i2 i j i.2 hj.le]
        · rw [if_neg (by simp), if_pos rfl, zero_add, i2 i i i.2 le_rfl]
        · rw [if_neg (by simpa using hj.le), if_neg (ne_of_lt hj), add_zero, elim_col_zero (hE j).2 hj, zero_mul]
      rw [Finset.sum_congr rfl fun j _ => e3 j, Finset.sum_add_distrib,
        Finset.sum_ite_eq' Finset.univ i fun j => u i j * M⁻¹ j c, if_pos (Finset.mem_univ i)] at e2
      have e4 : s = u i i * M⁻¹ i c := by rw [e1, ← e2]; ring
      rw [quotient_dyadic hq (by rw [e4]; exact (hui i le_rfl).mul (hinv i c)) (hui i le_rfl) (by omega), e4,
        mul_div_cancel_left₀ _ (h0 i)]
  ext i c
  exact key i c

/-! ### Determinants -/

/-- What is assumed of the C library: a relative error of at most `2⁻⁴⁰`. -/
structure Libm.Accurate (C : Libm) : Prop where
  log_err : ∀ x : ℚ, 0 < x → |(C.log x : ℝ) - Real.log x| ≤ (1 + |Real.log x|) / 2 ^ 40
  exp_err : ∀ x : ℚ, |x| ≤ 700 → |(C.exp x : ℝ) - Real.exp x| ≤ Real.exp x / 2 ^ 40

theorem log_twoPow {q : ℚ} (h : TwoPow K q) (h0 : q ≠ 0) (hK : K ≤ 16) : |Real.log ((|q| : ℚ) : ℝ)| ≤ 16 := by
  rcases h with rfl | ⟨j, hj, h⟩
  · exact absurd rfl h0
  · rw [h]
    push_cast
    rw [Real.log_zpow, abs_mul]
    have h1 : |(j : ℝ)| ≤ 16 := by
      have : |j| ≤ 16 := hj.trans (by exact_mod_cast hK)
      exact_mod_cast this
    have h2 : |Real.log 2| ≤ 1 := by
      rw [abs_of_pos (Real.log_pos (by norm_num))]
      linarith [Real.log_two_lt_d9]
    calc |(j : ℝ)| * |Real.log 2| ≤ 16 * 1 := mul_le_mul h1 h2 (abs_nonneg _) (by norm_num)
      _ = 16 := by norm_num

/-- The sum of the logarithms of the pivots. -/
theorem logs_near {C : Libm} (hC : C.Accurate) {v : Fin n → ℚ} (hv : ∀ i, 0 < v i)
    (hl : ∀ i, |Real.log (v i)| ≤ 16) (L : List (Fin n)) : ∀ (acc : ℚ) (S : ℝ) (i : ℕ), |(acc : ℝ) - S| ≤ i / 2 ^ 27 →
    |S| ≤ i * 16 → i + L.length ≤ 2 ^ 20 →
    |((L.foldl (fun acc i => binary64.rd (acc + C.log (v i))) acc : ℚ) : ℝ) -
      (S + (L.map fun i => Real.log (v i)).sum)| ≤ ((i + L.length : ℕ) : ℝ) / 2 ^ 27 := by
  induction L with
  | nil => intro acc S i h1 _ _; simpa using h1
  | cons k L ih =>
    intro acc S i h1 h2 h3
    rw [List.foldl_cons, List.map_cons, List.sum_cons, ← add_assoc]
    have h4 := hC.log_err (v k) (hv k)
    have h5 := hl k
    rw [List.length_cons] at h3
    have h6 : (i : ℝ) ≤ 2 ^ 20 := by exact_mod_cast (by omega : i ≤ 2 ^ 20)
    have hr := rd_err (x := acc + C.log (v k))
    have hr' : |((binary64.rd (acc + C.log (v k)) : ℚ) : ℝ) - ((acc : ℝ) + C.log (v k))| ≤
        1 / 2 ^ 53 * |(acc : ℝ) + C.log (v k)| + 1 / 10 ^ 30 := by
      have := (Rat.cast_le (K := ℝ)).mpr hr
      push_cast at this
      exact this
    generalize ((binary64.rd (acc + C.log (v k)) : ℚ)) = w at *
    have e := ih w (S + Real.log (v k)) (i + 1) ?_ ?_ (by omega)
    · rw [List.length_cons, show i + (L.length + 1) = i + 1 + L.length by omega]
      exact e
    · push_cast
      have h7 : |(C.log (v k) : ℝ) - Real.log (v k)| ≤ 17 / 2 ^ 40 := h4.trans (by
        have : 1 + |Real.log (v k)| ≤ 17 := by linarith
        exact div_le_div_of_nonneg_right this (by norm_num))
      generalize (C.log (v k) : ℝ) = x at *
      generalize Real.log (v k : ℝ) = y at *
      generalize (acc : ℝ) = a at *
      generalize (w : ℝ) = b at *
      generalize (i : ℝ) = r at *
      have a1 := abs_le.mp h1
      have a2 := abs_le.mp h2
      have a5 := abs_le.mp h5
      have a7 := abs_le.mp h7
      have h8 : |a + x| ≤ 2 ^ 25 := by
        rw [abs_le]
        norm_num at *
        constructor <;> linarith [a1.1, a1.2, a2.1, a2.2, a5.1, a5.2, a7.1, a7.2]
      have a8 := abs_le.mp hr'
      rw [abs_le]
      norm_num at *
      constructor <;> linarith [a1.1, a1.2, a7.1, a7.2, a8.1, a8.2]
    · push_cast
      refine (abs_add_le _ _).trans ?_
      linarith

theorem detVal_dyadic {C : Libm} (hC : C.Accurate) (hM : Dyadic K M) (hn : ((n : ℚ) + 1) * 2 ^ (4 * K) ≤ 2 ^ 53)
    (hK : K ≤ 16) (hn' : n ≤ 2 ^ 20) {d : ℚ} (h : DetVal C binary64 M d) :
    closeToZero binary64 d = isCloseToZero M.det := by
  obtain ⟨π, l, u, hF, ⟨h0, rfl⟩ | ⟨h0, rfl⟩⟩ := h
  · rw [dyadic_zero_pivot hM hn (by omega) hF h0]
    exact closeToZero_int ⟨0, by simp⟩
  · obtain ⟨i1, i2, i3⟩ := factored_dyadic hM hn (by omega) hF (t := n) le_rfl fun k _ => h0 k
    have hu : ∀ k, TwoPow K (u k k) := fun k => by
      rw [i2 k k k.2 le_rfl]; exact (i1 k k.2.le).entry k _
    have hdet := dyadic_pivots hM hn (by omega) hF h0
    have habs : |M.det| = ∏ i, |u i i| := by
      rw [hdet, abs_mul, Finset.abs_prod]
      have : |((Equiv.Perm.sign π : ℤ) : ℚ)| = 1 := by
        rcases Int.units_eq_one_or (Equiv.Perm.sign π) with h2 | h2 <;> rw [h2] <;> norm_num
      rw [this, one_mul]
    have hd0 : M.det ≠ 0 := by
      rw [← abs_pos, habs]
      exact Finset.prod_pos fun i _ => abs_pos.mpr (h0 i)
    have hlow := hM.det_self.low hd0
    have hlow' : 1 / 2 ^ 16 ≤ |M.det| :=
      (one_div_le_one_div_of_le (by positivity) (pow_le_pow_right₀ (by norm_num) hK)).trans hlow
    have hsum := logs_near hC (v := fun i => |u i i|) (fun i => abs_pos.mpr (h0 i))
      (fun i => log_twoPow (hu i) (h0 i) hK) (List.finRange n) 0 0 0 (by simp) (by simp)
      (by rw [List.length_finRange]; omega)
    have hlog : ((List.finRange n).map fun i => Real.log ((|u i i| : ℚ) : ℝ)).sum = Real.log ((|M.det| : ℚ) : ℝ) := by
      rw [habs, ← List.ofFn_eq_map, List.sum_ofFn]
      push_cast
      rw [Real.log_prod]
      intro i _
      have := h0 i
      exact abs_ne_zero.mpr (by exact_mod_cast this)
    rw [hlog, List.length_finRange, zero_add, zero_add] at hsum
    have hnum : (n : ℝ) / 2 ^ 27 ≤ 1 / 2 ^ 7 := by
      have : (n : ℝ) ≤ 2 ^ 20 := by exact_mod_cast hn'
      calc (n : ℝ) / 2 ^ 27 ≤ 2 ^ 20 / 2 ^ 27 := div_le_div_of_nonneg_right this (by norm_num)
        _ = 1 / 2 ^ 7 := by norm_num
    have hsum' := abs_le.mp (hsum.trans hnum)
    have hlogdet := abs_le.mp (log_twoPow hM.det_self hd0 hK)
    generalize hv : (List.finRange n).foldl (fun acc i => binary64.rd (acc + C.log |u i i|)) 0 = v at *
    have hv700 : |v| ≤ 700 := by
      have : |(v : ℝ)| ≤ 700 := by
        rw [abs_le]
        norm_num at *
        constructor <;> linarith [hsum'.1, hsum'.2, hlogdet.1, hlogdet.2]
      exact_mod_cast this
    have hexp := abs_le.mp (hC.exp_err v hv700)
    have hpos : (0 : ℝ) < ((|M.det| : ℚ) : ℝ) := by exact_mod_cast abs_pos.mpr hd0
    have hge : ((|M.det| : ℚ) : ℝ) * (1 - 1 / 2 ^ 7) ≤ Real.exp v := by
      have h1 : Real.log ((|M.det| : ℚ) : ℝ) + (-(1 / 2 ^ 7)) ≤ v := by linarith [hsum'.1]
      have h2 := Real.exp_le_exp.mpr h1
      rw [Real.exp_add, Real.exp_log hpos] at h2
      refine le_trans (mul_le_mul_of_nonneg_left ?_ hpos.le) h2
      have := Real.add_one_le_exp (-(1 / 2 ^ 7 : ℝ))
      linarith
    have hlowR : (1 : ℝ) / 2 ^ 16 ≤ ((|M.det| : ℚ) : ℝ) := by
      have := (Rat.cast_le (K := ℝ)).mpr hlow'
      push_cast at this ⊢
      exact this
    have hCe : (1 : ℝ) / 2 ^ 17 ≤ C.exp v := by
      norm_num at *
      linarith [hexp.1]
    have hCe' : (1 : ℚ) / 2 ^ 17 ≤ C.exp v := by
      rw [← Rat.cast_le (K := ℝ)]
      push_cast
      exact hCe
    have hnear : isCloseToZero M.det = false := by
      unfold isCloseToZero tol
      rw [decide_eq_false_iff_not, not_lt]
      refine le_trans (by norm_num) hlow'
    rw [hnear]
    unfold closeToZero
    rw [decide_eq_false_iff_not, not_lt]
    have hb := (zeroTol_bounds fine_binary64).2
    have hx : ∀ x : ℚ, |x| = C.exp v → zeroTol binary64 ≤ |binary64.rd x| := by
      intro x hx
      have h1 := rd_err (x := x)
      have h2 := abs_sub_abs_le_abs_sub x (binary64.rd x)
      rw [abs_sub_comm] at h2
      rw [hx] at h1 h2
      norm_num at *
      linarith
    refine hx _ ?_
    rw [abs_mul, abs_mul, Finset.abs_prod]
    have s1 : |((Equiv.Perm.sign π : ℤ) : ℚ)| = 1 := by
      rcases Int.units_eq_one_or (Equiv.Perm.sign π) with h2 | h2 <;> rw [h2] <;> norm_num
    have s2 : ∏ i, |if u i i < 0 then (-1 : ℚ) else 1| = 1 :=
      Finset.prod_eq_one fun i _ => by split <;> norm_num
    rw [s1, s2, one_mul, one_mul, abs_of_pos (lt_of_lt_of_le (by norm_num) hCe')]

/-- What the simplex method needs of `np.linalg.det` and `np.linalg.inv`: a determinant that is zero is recognised, and
inverses are exact, on matrices of size `m` with subdeterminants that are powers of two. -/
def ExactOnDyadic (L : Lapack binary64) (m K : ℕ) : Prop :=
  ∀ M : Matrix (Fin m) (Fin m) ℚ, Dyadic K M → closeToZero binary64 (L.det M) = isCloseToZero M.det ∧
    (M.det ≠ 0 → L.inv M = .ok M⁻¹)

/-- Gaussian elimination with partial pivoting is exact on such matrices. -/
theorem gaussian_dyadic {C : Libm} (hC : C.Accurate) {L : Lapack binary64} (h : Gaussian C L) {k : ℕ}
    (hk : ((k : ℚ) + 1) * 2 ^ (4 * K) ≤ 2 ^ 53) (hK : K ≤ 16) (hk' : k ≤ 2 ^ 20) : ExactOnDyadic L k K := by
  intro M hM
  refine ⟨detVal_dyadic hC hM hk hK hk' (h.det M), fun hd => ?_⟩
  rcases h.inv M with ⟨T, h1, h2⟩ | ⟨-, π, l, u, h1, h2⟩
  · rw [h1, invVal_dyadic hM hk (by omega) h2]
  · exact absurd (dyadic_zero_pivot hM hk (by omega) h1 h2) hd

/-- Accurate functions exist. -/
theorem exists_accurate : ∃ C : Libm, C.Accurate := by
  have near : ∀ (x ε : ℝ), 0 < ε → ∃ q : ℚ, |(q : ℝ) - x| ≤ ε := fun x ε hε => by
    obtain ⟨q, h1, h2⟩ := exists_rat_btwn (show x - ε < x + ε by linarith)
    exact ⟨q, abs_le.mpr ⟨by linarith, by linarith⟩⟩
  choose lg hlg using fun x : ℚ => near (Real.log x) ((1 + |Real.log x|) / 2 ^ 40) (by positivity)
  choose ex hex using fun x : ℚ => near (Real.exp x) (Real.exp x / 2 ^ 40) (by positivity)
  refine ⟨⟨fun x => if x = 1 then 0 else lg x, fun x => if x = 0 then 1 else ex x, if_pos rfl, if_pos rfl⟩,
    fun x _ => ?_, fun x _ => ?_⟩
  · show |(((if x = 1 then 0 else lg x : ℚ)) : ℝ) - _| ≤ _
    split
    · subst_vars; simp
    · exact hlg x
  · show |(((if x = 0 then 1 else ex x : ℚ)) : ℝ) - _| ≤ _
    split
    · subst_vars; simp
    · exact hex x

end Floating
end Pytimize
