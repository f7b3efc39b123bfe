/-
Properties C102-C104: comparisons, `is_feasible`, `evaluate` and the certificate checks in floating point.
-/
import Verif.Float.Linear

namespace Pytimize
namespace Props
open LinProg Comparator Floating

variable {m n : ℕ}

/-! ### C102 -/

/-- C102: for every float exactly one of `is_negative`, `is_close_to_zero`, `is_positive` holds. -/
theorem C102_trichotomy {R : Rounding} (hR : Fine R) (v : ℚ) :
    (negative R v = true ∧ closeToZero R v = false ∧ positive R v = false) ∨
    (negative R v = false ∧ closeToZero R v = true ∧ positive R v = false) ∨
    (negative R v = false ∧ closeToZero R v = false ∧ positive R v = true) := by
  have ht := zeroTol_pos hR
  have hN : negative R v = false ↔ ¬ v ≤ -zeroTol R := by rw [← negative_iff hR]; simp
  have hP : positive R v = false ↔ ¬ zeroTol R ≤ v := by rw [← positive_iff hR]; simp
  have hz : closeToZero R v = true ↔ |v| < zeroTol R := by simp [closeToZero]
  have hZ : closeToZero R v = false ↔ ¬ |v| < zeroTol R := by rw [← hz]; simp
  rw [negative_iff hR, positive_iff hR, hz, hN, hP, hZ]
  by_cases h1 : v ≤ -zeroTol R
  · left
    refine ⟨h1, ?_, by linarith⟩
    rw [not_lt, abs_of_neg (by linarith)]; linarith
  · by_cases h2 : zeroTol R ≤ v
    · right; right
      refine ⟨h1, ?_, h2⟩
      rw [not_lt, abs_of_pos (by linarith)]; exact h2
    · right; left
      refine ⟨h1, ?_, h2⟩
      rw [abs_lt]; constructor <;> linarith

/-- C102: the sign tests are mirror images of each other. -/
theorem C102_neg_swap {R : Rounding} (hR : Fine R) (v : ℚ) : negative R v = positive R (-v) := by
  rw [Bool.eq_iff_iff, negative_iff hR, positive_iff hR]
  constructor <;> intro h <;> linarith

/-- C102: `<=` is the negation of `>`, and `>=` that of `<`, for every test value; equal numbers are never told apart. -/
theorem C102_complement (R : Rounding) (hR : Fine R) (v t : ℚ) :
    cmpTol R v .le t = !cmpTol R v .gt t ∧ cmpTol R v .ge t = !cmpTol R v .lt t ∧ cmpTol R t .le t = true ∧ cmpTol R t .ge t = true ∧
      cmpTol R t .lt t = false ∧ cmpTol R t .gt t = false := by
  have hself : close R t t = true := by
    unfold close
    split
    · rename_i h; subst h; simp [closeToZero, zeroTol_pos hR]
    · exact npClose_complete hR (by rw [sub_self, abs_zero]; have := abs_nonneg t; positivity)
  refine ⟨?_, ?_, by simp [cmpTol, hself], by simp [cmpTol, hself], by simp [cmpTol, hself], by simp [cmpTol, hself]⟩
  · simp only [cmpTol, Bool.not_and, Bool.not_not]
    rw [show decide (v ≤ t) = !decide (v > t) by rw [← decide_not]; congr 1; simp]
  · simp only [cmpTol, Bool.not_and, Bool.not_not]
    rw [show decide (v ≥ t) = !decide (v < t) by rw [← decide_not]; congr 1; simp]

/-- C102: the error bounds. The zero test is exact to two digits, the others may err within one percent of NumPy's and
Python's tolerances. -/
theorem C102_bounds {R : Rounding} (hR : Fine R) (v t : ℚ) :
    (closeToZero R v = true → |v| < 101 / 100 / 10 ^ 10) ∧ (|v| < 99 / 100 / 10 ^ 10 → closeToZero R v = true) ∧
    (npClose R v t = true → |v - t| ≤ 101 / 100 / 10 ^ 8 + 101 / 100 / 10 ^ 5 * |t|) ∧
    (|v - t| ≤ 99 / 100 / 10 ^ 8 + 99 / 100 / 10 ^ 5 * |t| → npClose R v t = true) ∧
    (mathClose R v t = true → |v - t| ≤ 101 / 100 / 10 ^ 9 * max |v| |t| + 3 * R.tiny) ∧
    (|v - t| + 3 * R.tiny ≤ 99 / 100 / 10 ^ 9 * max |v| |t| → mathClose R v t = true) := by
  obtain ⟨h1, h2⟩ := zeroTol_bounds hR
  simp only [closeToZero, decide_eq_true_eq]
  exact ⟨fun h => h.trans_le h2, fun h => h.trans_le h1, npClose_sound hR, npClose_complete hR, mathClose_sound hR,
    mathClose_near hR⟩

/-- C102: `is_integer` loses nothing to rounding: for every double it tells whether an integer is closer than the
tolerance of the zero test. -/
theorem C102_integer {v : ℚ} (hv : IsDouble v) :
    integral binary64 v = true ↔ ∃ k : ℤ, |v - k| < toDouble (1 / 10 ^ 10) := by
  have hT : toDouble (1 / 10 ^ 10) = zeroTol binary64 := rfl
  rw [hT]
  obtain ⟨t1, t2⟩ := zeroTol_bounds fine_binary64
  have tsmall : zeroTol binary64 < 1 / 4 := lt_of_le_of_lt t2 (by norm_num)
  have ha : IsDouble |v| := by
    rcases abs_choice v with h | h <;> rw [h]
    · exact hv
    · exact binary64_rep.mp (binary64_rep.mpr hv).neg
  have h0 := abs_nonneg v
  have hr : binary64.rd (|v| - (⌊|v|⌋ : ℤ)) = |v| - (⌊|v|⌋ : ℤ) := toDouble_of_isDouble (isDouble_fract ha h0)
  have f1 := Int.floor_le |v|
  have f2 := Int.lt_floor_add_one |v|
  have key : integral binary64 v = true ↔ ∃ k : ℤ, |(|v| - k)| < zeroTol binary64 := by
    simp only [integral, hr]
    split
    · rename_i hgt
      have hd : binary64.rd (1 - (|v| - (⌊|v|⌋ : ℤ))) = 1 - (|v| - (⌊|v|⌋ : ℤ)) :=
        toDouble_of_isDouble (isDouble_one_sub (isDouble_fract ha h0) hgt (by linarith))
      rw [hd]
      simp only [closeToZero, decide_eq_true_eq]
      rw [abs_of_nonneg (by linarith)]
      constructor
      · intro h
        refine ⟨⌊|v|⌋ + 1, ?_⟩
        push_cast
        rw [abs_lt]
        constructor <;> linarith
      · rintro ⟨k, hk⟩
        obtain ⟨k1, k2⟩ := abs_lt.mp hk
        have : (⌊|v|⌋ : ℚ) < k := by linarith
        have : ⌊|v|⌋ < k := by exact_mod_cast this
        have : ((⌊|v|⌋ + 1 : ℤ) : ℚ) ≤ k := by exact_mod_cast this
        push_cast at this
        linarith
    · rename_i hle
      push Not at hle
      simp only [closeToZero, decide_eq_true_eq]
      rw [abs_of_nonneg (by linarith)]
      constructor
      · intro h
        exact ⟨⌊|v|⌋, by rw [abs_of_nonneg (by linarith)]; exact h⟩
      · rintro ⟨k, hk⟩
        obtain ⟨k1, k2⟩ := abs_lt.mp hk
        have : (k : ℚ) < (⌊|v|⌋ + 1 : ℤ) := by push_cast; linarith
        have : k < ⌊|v|⌋ + 1 := by exact_mod_cast this
        have : (k : ℚ) ≤ ⌊|v|⌋ := by exact_mod_cast (by omega : k ≤ ⌊|v|⌋)
        linarith
  rw [key]
  rcases le_total 0 v with h | h
  · rw [abs_of_nonneg h]
  · rw [abs_of_nonpos h]
    constructor
    · rintro ⟨k, hk⟩
      refine ⟨-k, ?_⟩
      rw [← abs_neg]
      push_cast
      rwa [show -(v - -(k : ℚ)) = -v - k by ring]
    · rintro ⟨k, hk⟩
      refine ⟨-k, ?_⟩
      rw [← abs_neg]
      push_cast
      rwa [show -(-v - -(k : ℚ)) = v - k by ring]

/-- Double arithmetic and exact arithmetic meet the hypothesis. -/
example : Fine binary64 ∧ Fine exact := ⟨fine_binary64, fine_exact⟩

/-! ### C103 -/

/-- What rounding can do to row `i`. -/
def rowSlack (R : Rounding) (P : LP m n) (x : Fin n → ℚ) (i : Fin m) : ℚ := R.slack n (∑ j, |P.A i j * x j|)

/-- The error terms in double arithmetic: with up to a million variables, `n * 2 ^ -52` times the sum of the absolute
values, and a term that is far below every double of interest. -/
theorem C103_slack (hn : n ≤ 10 ^ 6) {s : ℚ} (hs : 0 ≤ s) :
    binary64.slack n s ≤ n / 2 ^ 52 * s + n / 2 ^ 1072 := by
  have hu : binary64.u = 1 / 2 ^ 53 := rfl
  have ht : binary64.tiny = 1 / 2 ^ 1075 := rfl
  have bern : ∀ k : ℕ, k ≤ 10 ^ 6 → (1 + binary64.u) ^ k ≤ 1 + 2 * k * binary64.u := by
    intro k
    induction k with
    | zero => intro _; simp
    | succ k ih =>
      intro hk
      have h1 := ih (by omega)
      have h0 := binary64.u_nonneg
      rw [pow_succ]
      have hk' : (k : ℚ) ≤ 10 ^ 6 := by exact_mod_cast (show k ≤ 10 ^ 6 by omega)
      have h2 : 2 * (k : ℚ) * binary64.u ≤ 1 := by
        rw [hu]
        have : (10 : ℚ) ^ 6 * 2 ≤ 2 ^ 53 := by norm_num
        rw [mul_one_div, div_le_one (by positivity)]
        linarith
      push_cast
      nlinarith
  have hb := bern n hn
  have h2 : (1 + binary64.u) ^ n ≤ 2 := by
    refine hb.trans ?_
    rw [hu]
    have hk' : (n : ℚ) ≤ 10 ^ 6 := by exact_mod_cast hn
    have : 2 * (n : ℚ) * (1 / 2 ^ 53) ≤ 1 := by
      have : (10 : ℚ) ^ 6 * 2 ≤ 2 ^ 53 := by norm_num
      rw [mul_one_div, div_le_one (by positivity)]
      linarith
    linarith
  unfold Rounding.slack
  refine add_le_add ?_ ?_
  · refine mul_le_mul_of_nonneg_right ?_ hs
    rw [hu] at hb ⊢
    have : 2 * (n : ℚ) * (1 / 2 ^ 53) = n / 2 ^ 52 := by
      rw [show (2 : ℚ) ^ 53 = 2 ^ 52 * 2 by norm_num]; field_simp
    linarith
  · have h3 : 2 * (n : ℚ) * (1 + binary64.u) ^ n * binary64.tiny ≤ 2 * n * 2 * binary64.tiny :=
      mul_le_mul_of_nonneg_right (mul_le_mul_of_nonneg_left h2 (by positivity)) binary64.tiny_nonneg
    refine h3.trans ?_
    rw [ht]
    have e : (2 : ℚ) ^ 1075 = 2 ^ 1072 * 8 := by
      have : ∀ k : ℕ, (2 : ℚ) ^ (k + 3) = 2 ^ k * 8 := fun k => by rw [pow_add]; norm_num
      exact this 1072
    have h0 : (0 : ℚ) < 2 ^ 1072 := by positivity
    rw [e]
    generalize (2 : ℚ) ^ 1072 = q at h0 ⊢
    have : 2 * (n : ℚ) * 2 * (1 / (q * 8)) = n / q / 2 := by field_simp; ring
    rw [this]
    exact half_le_self (div_nonneg (Nat.cast_nonneg n) h0.le)

/-- C103, programs that are not in SEF: if `is_feasible` says `True`, the sign restrictions hold exactly and the
constraints up to rounding (and, for equations, Python's tolerance). -/
theorem C103_sound {R : Rounding} (hR : Fine R) (P : LP m n) (hs : P.isSef = false) (x : Fin n → ℚ)
    (h : FeasAnswer R P x true) :
    (∀ j : Fin n, (j : ℕ) ∈ P.neg → x j ≤ 0) ∧ (∀ j : Fin n, (j : ℕ) ∉ P.neg → (j : ℕ) ∉ P.free → 0 ≤ x j) ∧
    ∀ i, (P.ineq i = .le → ∑ j, P.A i j * x j ≤ P.b i + rowSlack R P x i) ∧
      (P.ineq i = .ge → P.b i - rowSlack R P x i ≤ ∑ j, P.A i j * x j) ∧
      (P.ineq i = .eq → |∑ j, P.A i j * x j - P.b i| ≤
        2 * rowSlack R P x i + 102 / 100 / 10 ^ 9 * |P.b i| + 4 * R.tiny) := by
  obtain ⟨v, hv, he⟩ := h
  simp only [feasTest, hs, Bool.false_eq_true, if_false] at he
  have he := he.symm
  simp only [Bool.and_eq_true, decide_eq_true_eq] at he
  obtain ⟨h1, h2⟩ := he
  refine ⟨fun j hj => by have := h1 j; rwa [if_pos hj] at this, fun j hj hj' => ?_, fun i => ?_⟩
  · have := h1 j
    rwa [if_neg hj, if_pos hj'] at this
  · have hr := h2 i
    have herr := (hv i).error
    have hsl : 0 ≤ rowSlack R P x i := Rounding.slack_nonneg n (Finset.sum_nonneg fun j _ => abs_nonneg _)
    have herr' : |v i - ∑ j, P.A i j * x j| ≤ rowSlack R P x i := herr
    obtain ⟨e1, e2⟩ := abs_le.mp herr'
    refine ⟨fun hi => ?_, fun hi => ?_, fun hi => ?_⟩
    · simp [rowTest, hi] at hr
      linarith
    · simp [rowTest, hi] at hr
      linarith
    · rw [hi] at hr
      have hm := mathClose_sound hR hr
      have ht0 := R.tiny_nonneg
      have hb := abs_nonneg (P.b i)
      have hmax : max |v i| |P.b i| ≤ |P.b i| + |v i - P.b i| := by
        refine max_le ?_ (by linarith [abs_nonneg (v i - P.b i)])
        have := abs_add_le (v i - P.b i) (P.b i)
        rw [sub_add_cancel] at this
        linarith
      have hd : |v i - P.b i| ≤ 102 / 100 / 10 ^ 9 * |P.b i| + 4 * R.tiny := by
        have := mul_le_mul_of_nonneg_left hmax (show (0 : ℚ) ≤ 101 / 100 / 10 ^ 9 by norm_num)
        norm_num at this hm ⊢
        linarith
      have := abs_add_le (-(v i - ∑ j, P.A i j * x j)) (v i - P.b i)
      rw [show -(v i - ∑ j, P.A i j * x j) + (v i - P.b i) = ∑ j, P.A i j * x j - P.b i by ring, abs_neg] at this
      linarith

/-- C103, programs that are not in SEF: a point that satisfies the sign restrictions, the inequalities with room for
the rounding errors and the equations up to Python's tolerance less the rounding errors is accepted. -/
theorem C103_accepts {R : Rounding} (hR : Fine R) (P : LP m n) (hs : P.isSef = false) (x : Fin n → ℚ)
    (hneg : ∀ j : Fin n, (j : ℕ) ∈ P.neg → x j ≤ 0)
    (hpos : ∀ j : Fin n, (j : ℕ) ∉ P.neg → (j : ℕ) ∉ P.free → 0 ≤ x j)
    (hle : ∀ i, P.ineq i = .le → ∑ j, P.A i j * x j + rowSlack R P x i ≤ P.b i)
    (hge : ∀ i, P.ineq i = .ge → P.b i ≤ ∑ j, P.A i j * x j - rowSlack R P x i)
    (heq : ∀ i, P.ineq i = .eq →
      |∑ j, P.A i j * x j - P.b i| + rowSlack R P x i + 3 * R.tiny ≤ 99 / 100 / 10 ^ 9 * |P.b i|) {ans : Bool} (h : FeasAnswer R P x ans) : ans = true := by
  obtain ⟨v, hv, rfl⟩ := h
  simp only [feasTest, hs, Bool.false_eq_true, if_false, Bool.and_eq_true, decide_eq_true_eq]
  refine ⟨fun j => ?_, fun i => ?_⟩
  · split
    · exact hneg j ‹_›
    · split
      · exact hpos j ‹_› ‹_›
      · trivial
  · obtain ⟨e1, e2⟩ := abs_le.mp (hv i).error
    have e1' : -rowSlack R P x i ≤ v i - ∑ j, P.A i j * x j := e1
    have e2' : v i - ∑ j, P.A i j * x j ≤ rowSlack R P x i := e2
    cases hi : P.ineq i with
    | le =>
      have := hle i hi
      simp only [rowTest, Bool.not_eq_true', decide_eq_false_iff_not, gt_iff_lt, not_lt]
      linarith
    | ge =>
      have := hge i hi
      simp only [rowTest, Bool.not_eq_true', decide_eq_false_iff_not, not_lt]
      linarith
    | eq =>
      refine mathClose_near hR ?_
      have h1 := heq i hi
      have h2 := abs_add_le (v i - ∑ j, P.A i j * x j) (∑ j, P.A i j * x j - P.b i)
      rw [sub_add_sub_cancel] at h2
      have h3 : |v i - ∑ j, P.A i j * x j| ≤ rowSlack R P x i := (hv i).error
      have h4 := mul_le_mul_of_nonneg_left (le_max_right |v i| |P.b i|) (show (0 : ℚ) ≤ 99 / 100 / 10 ^ 9 by norm_num)
      linarith

/-- C103, programs in SEF: what `True` guarantees. -/
theorem C103_sef_sound {R : Rounding} (hR : Fine R) (P : LP m n) (hs : P.isSef = true) (x : Fin n → ℚ)
    (h : FeasAnswer R P x true) :
    (∀ j, -(101 / 100 / 10 ^ 10) < x j) ∧
    ∀ i, |∑ j, P.A i j * x j - P.b i| ≤ rowSlack R P x i + 101 / 100 / 10 ^ 8 + 101 / 100 / 10 ^ 5 * |P.b i| := by
  obtain ⟨v, hv, he⟩ := h
  simp only [feasTest, hs, if_true] at he
  have he := he.symm
  simp only [Bool.and_eq_true, decide_eq_true_eq, cmp_ge hR] at he
  obtain ⟨h1, h2⟩ := he
  refine ⟨fun j => by have := h1 j; have := (zeroTol_bounds hR).2; linarith, fun i => ?_⟩
  have hr := npClose_sound hR (h2 i)
  have herr : |v i - ∑ j, P.A i j * x j| ≤ rowSlack R P x i := (hv i).error
  have := abs_add_le (-(v i - ∑ j, P.A i j * x j)) (v i - P.b i)
  rw [show -(v i - ∑ j, P.A i j * x j) + (v i - P.b i) = ∑ j, P.A i j * x j - P.b i by ring, abs_neg] at this
  linarith

/-- C103, programs in SEF: every feasible point is accepted if the rounding errors stay within NumPy's tolerance; in
double arithmetic (`C103_slack`), if `n * ∑ j, |A i j * x j|` is at most 40 million for every row. -/
theorem C103_sef_accepts {R : Rounding} (hR : Fine R) (P : LP m n) (hP : WF P) (hs : P.isSef = true) (x : Fin n → ℚ)
    (hx : Feas P x) (hsl : ∀ i, rowSlack R P x i ≤ 99 / 100 / 10 ^ 8 + 99 / 100 / 10 ^ 5 * |P.b i|) {ans : Bool}
    (h : FeasAnswer R P x ans) : ans = true := by
  obtain ⟨v, hv, rfl⟩ := h
  obtain ⟨h1, h2⟩ := (feas_sef_iff hP hs).mp hx
  simp only [feasTest, hs, if_true, Bool.and_eq_true, decide_eq_true_eq, cmp_ge hR]
  refine ⟨fun j => by have := h2 j; have := zeroTol_pos hR; linarith, fun i => npClose_complete hR ?_⟩
  have e : ∑ j, P.A i j * x j = P.b i := congrFun h1 i
  have := (hv i).error
  rw [e] at this
  exact this.trans (hsl i)

theorem int_lt_one {a b : ℚ} (ha : ∃ k : ℤ, a = k) (hb : ∃ k : ℤ, b = k) (h : |a - b| < 1) : a = b := by
  obtain ⟨k, rfl⟩ := ha
  obtain ⟨l, rfl⟩ := hb
  have : |k - l| < 1 := by exact_mod_cast h
  have : k - l = 0 := Int.abs_lt_one_iff.mp this
  have : k = l := by omega
  rw [this]

theorem int_sum {ι : Type} (s : Finset ι) {u v : ι → ℚ} (hu : ∀ i, ∃ k : ℤ, u i = k) (hv : ∀ i, ∃ k : ℤ, v i = k) :
    ∃ k : ℤ, ∑ i ∈ s, u i * v i = k := by
  choose a ha using hu
  choose b hb using hv
  refine ⟨∑ i ∈ s, a i * b i, ?_⟩
  push_cast
  exact Finset.sum_congr rfl fun i _ => by rw [ha, hb]

theorem int_ge_zero {v t : ℚ} (hv : ∃ k : ℤ, v = k) (ht : t < 1) (h : -t < v) : 0 ≤ v := by
  obtain ⟨k, rfl⟩ := hv
  have : (-1 : ℚ) < k := by linarith
  have : -1 < k := by exact_mod_cast this
  exact_mod_cast (by omega : 0 ≤ k)

/-- C103, integers: in double arithmetic, for integer data and an integer point of moderate size, `is_feasible` answers
exactly, whatever the order of summation. -/
theorem C103_integer (P : LP m n) (hP : WF P) (hA : ∀ i j, ∃ k : ℤ, P.A i j = k) (hb : ∀ i, ∃ k : ℤ, P.b i = k)
    {x : Fin n → ℚ} (hx : ∀ j, ∃ k : ℤ, x j = k) (hsize : ∀ i, ∑ j, |P.A i j * x j| ≤ 5 * 10 ^ 8)
    (hbs : ∀ i, |P.b i| ≤ 90000) {ans : Bool} (h : FeasAnswer binary64 P x ans) : ans = true ↔ Feas P x := by
  obtain ⟨v, hv, rfl⟩ := h
  have hR := fine_binary64
  have hve : ∀ i, v i = ∑ j, P.A i j * x j := fun i => (hv i).int (hA i) hx ((hsize i).trans (by norm_num))
  have hvi : ∀ i, ∃ k : ℤ, v i = k := fun i => hve i ▸ int_sum _ (hA i) hx
  have hvb : ∀ i, |v i| ≤ 5 * 10 ^ 8 := fun i => by
    rw [hve]; exact (Finset.abs_sum_le_sum_abs _ _).trans (hsize i)
  have htol : zeroTol binary64 < 1 := lt_of_le_of_lt (zeroTol_bounds hR).2 (by norm_num)
  have htiny : binary64.tiny ≤ 1 / 10 ^ 30 := hR.tiny_le
  cases hs : P.isSef with
  | true =>
    rw [feas_sef_iff hP hs]
    simp only [feasTest, hs, if_true, Bool.and_eq_true, decide_eq_true_eq, cmp_ge hR]
    constructor
    · rintro ⟨h1, h2⟩
      refine ⟨funext fun i => ?_, fun j => int_ge_zero (hx j) htol (h1 j)⟩
      show ∑ j, P.A i j * x j = P.b i
      rw [← hve]
      refine int_lt_one (hvi i) (hb i) (lt_of_le_of_lt (npClose_sound hR (h2 i)) ?_)
      have := hbs i
      norm_num
      linarith
    · rintro ⟨h1, h2⟩
      refine ⟨fun j => by have := h2 j; have := zeroTol_pos hR; linarith, fun i => npClose_complete hR ?_⟩
      have e : ∑ j, P.A i j * x j = P.b i := congrFun h1 i
      rw [hve, e, sub_self, abs_zero]
      have := abs_nonneg (P.b i)
      positivity
  | false =>
    have hrow : ∀ i, rowTest binary64 (P.ineq i) (v i) (P.b i) = true ↔
        rowHolds (P.ineq i) ((P.A.mulVec x) i) (P.b i) := by
      intro i
      have e : (P.A.mulVec x) i = v i := (hve i).symm
      rw [e]
      cases P.ineq i with
      | le => simp [rowTest, rowHolds]
      | ge => simp [rowTest, rowHolds]
      | eq =>
        refine ⟨fun h => int_lt_one (hvi i) (hb i) ?_, fun h => mathClose_complete h⟩
        refine lt_of_le_of_lt (mathClose_sound hR h) ?_
        have h1 : max |v i| |P.b i| ≤ 5 * 10 ^ 8 := max_le (hvb i) ((hbs i).trans (by norm_num))
        have h2 := mul_le_mul_of_nonneg_left h1 (show (0 : ℚ) ≤ 101 / 100 / 10 ^ 9 by norm_num)
        norm_num at h2 htiny ⊢
        linarith
    simp only [feasTest, hs, Bool.false_eq_true, if_false, Bool.and_eq_true, decide_eq_true_eq, hrow]
    constructor
    · rintro ⟨h1, h2⟩
      refine ⟨h2, fun j hj => by have := h1 j; rwa [if_pos hj] at this, fun j hj hj' => ?_⟩
      have := h1 j
      rwa [if_neg hj, if_pos hj'] at this
    · rintro ⟨h1, h2, h3⟩
      refine ⟨fun j => ?_, h1⟩
      split
      · exact h2 j ‹_›
      · split
        · exact h3 j ‹_› ‹_›
        · trivial

/-- C103: the error of `evaluate`, and no error for integers. -/
theorem C103_evaluate {R : Rounding} (P : LP m n) (x : Fin n → ℚ) {r : ℚ} (h : EvalAnswer R P x r) :
    |r - objVal P x| ≤ (1 + R.u) * R.slack n (∑ j, |P.c j * x j|) + R.u * |objVal P x| + R.tiny ∧
    (R = binary64 → (∀ j, ∃ k : ℤ, P.c j = k) → (∃ k : ℤ, P.z = k) → (∀ j, ∃ k : ℤ, x j = k) →
      ∑ j, |P.c j * x j| + |P.z| ≤ 2 ^ 53 → r = objVal P x) := by
  obtain ⟨v, hv, rfl⟩ := h
  have ho : objVal P x = ∑ j, P.c j * x j + P.z := rfl
  refine ⟨?_, ?_⟩
  · have he := hv.error
    have h1 : |(v + P.z) - objVal P x| ≤ R.slack n (∑ j, |P.c j * x j|) := by
      rw [ho, add_sub_add_right_eq_sub]; exact he
    have := round_step (R := R) h1 (le_refl |objVal P x|)
    linarith
  · rintro rfl hc ⟨k, hz⟩ hx hs
    have e := hv.int hc hx (by have := abs_nonneg P.z; linarith)
    obtain ⟨l, hl⟩ := int_sum Finset.univ hc hx
    rw [ho, e, hl, hz]
    have hk : |((l + k : ℤ) : ℚ)| ≤ 2 ^ 53 := by
      push_cast
      rw [← hl, ← hz]
      exact (abs_add_le _ _).trans ((add_le_add (Finset.abs_sum_le_sum_abs _ _) le_rfl).trans hs)
    have := toDouble_of_isDouble (isDouble_int (k := l + k) (by exact_mod_cast hk))
    push_cast at this
    exact this

/-- There is always an answer, and a concrete program meets the hypotheses of `C103_integer`:
`x₁ + 2 x₂ <= 4` at `(2, 1)`. -/
example : (∃ ans, FeasAnswer binary64 (⟨!![1, 2], ![4], ![0, 0], 0, .max, ![.le], [], [], false⟩ : LP 1 2) ![2, 1] ans) ∧
    ∀ i, ∑ j, |(!![1, 2] : Matrix (Fin 1) (Fin 2) ℚ) i j * ![2, 1] j| ≤ 5 * 10 ^ 8 := by
  refine ⟨?_, fun i => ?_⟩
  · choose v hv using fun i => exists_dotVal binary64
      ((⟨!![1, 2], ![4], ![0, 0], 0, .max, ![.le], [], [], false⟩ : LP 1 2).A i) ![2, 1]
    exact ⟨_, v, hv, rfl⟩
  · simp [Fin.sum_univ_two]
    norm_num

/-! ### C104 -/

/-- What rounding can do to column `j` of `y A`. -/
def colSlack (R : Rounding) (P : LP m n) (y : Fin m → ℚ) (j : Fin n) : ℚ := R.slack m (∑ i, |y i * P.A i j|)

/-- C104: an accepted certificate of infeasibility rules out all feasible points but those with huge coordinates. -/
theorem C104_infeasible {R : Rounding} (hR : Fine R) (P : LP m n) (hP : WF P) (hs : P.isSef = true) (y : Fin m → ℚ)
    (h : InfeasAnswer R P y true) (x : Fin n → ℚ) (hx : Feas P x) :
    99 / 100 / 10 ^ 10 - R.slack m (∑ i, |y i * P.b i|) ≤ ∑ j, (101 / 100 / 10 ^ 10 + colSlack R P y j) * x j := by
  obtain ⟨v, w, hv, hw, he⟩ := h
  have he := he.symm
  simp only [Bool.and_eq_true, decide_eq_true_eq, cmp_ge hR, negative_iff hR] at he
  obtain ⟨h1, h2⟩ := he
  obtain ⟨t1, t2⟩ := zeroTol_bounds hR
  obtain ⟨w1, w2⟩ := abs_le.mp hw.error
  have hyb : ∑ i, y i * P.b i ≤ -(99 / 100 / 10 ^ 10) + R.slack m (∑ i, |y i * P.b i|) := by linarith
  have hb := hx.eqs hP hs
  have e : ∑ i, y i * P.b i = ∑ j, (∑ i, y i * P.A i j) * x j := by
    have : y ⬝ᵥ P.b = P.A.vecMul y ⬝ᵥ x := by rw [← hb, Matrix.dotProduct_mulVec]
    exact this
  have hsum : -∑ j, (∑ i, y i * P.A i j) * x j ≤ ∑ j, (101 / 100 / 10 ^ 10 + colSlack R P y j) * x j := by
    rw [← Finset.sum_neg_distrib]
    refine Finset.sum_le_sum fun j _ => ?_
    rw [← neg_mul]
    refine mul_le_mul_of_nonneg_right ?_ (hx.nonneg hP hs j)
    obtain ⟨v1, v2⟩ := abs_le.mp (hv j).error
    have v2' : v j - ∑ i, y i * P.A i j ≤ colSlack R P y j := v2
    have := h1 j
    linarith
  linarith

/-- C104: an accepted certificate of optimality bounds the objective. -/
theorem C104_optimal {R : Rounding} (hR : Fine R) (P : LP m n) (hP : WF P) (hs : P.isSef = true) (y : Fin m → ℚ)
    (h : OptimalAnswer R P y true) (x : Fin n → ℚ) (hx : Feas P x) :
    objVal P x ≤ ∑ i, y i * P.b i + P.z + ∑ j, (102 / 100 / 10 ^ 10 + colSlack R P y j) * x j := by
  obtain ⟨v, hv, he⟩ := h
  have he := he.symm
  simp only [decide_eq_true_eq, cmp_le hR] at he
  obtain ⟨t1, t2⟩ := zeroTol_bounds hR
  have ht := hR.tiny_le
  have hb := hx.eqs hP hs
  have e : ∑ i, y i * P.b i = ∑ j, (∑ i, y i * P.A i j) * x j := by
    have : y ⬝ᵥ P.b = P.A.vecMul y ⬝ᵥ x := by rw [← hb, Matrix.dotProduct_mulVec]
    exact this
  have hsum : ∑ j, P.c j * x j ≤
      ∑ j, (∑ i, y i * P.A i j) * x j + ∑ j, (102 / 100 / 10 ^ 10 + colSlack R P y j) * x j := by
    rw [← Finset.sum_add_distrib]
    refine Finset.sum_le_sum fun j _ => ?_
    rw [← add_mul]
    refine mul_le_mul_of_nonneg_right ?_ (hx.nonneg hP hs j)
    obtain ⟨v1, v2⟩ := abs_le.mp (hv j).error
    have v2' : v j - ∑ i, y i * P.A i j ≤ colSlack R P y j := v2
    have hj := he j
    have hd : P.c j - v j ≤ 102 / 100 / 10 ^ 10 := by
      rcases le_total (P.c j - v j) 0 with h0 | h0
      · exact h0.trans (by norm_num)
      · have := (rd_bounds hR h0).1
        norm_num at t2 ht this ⊢
        linarith
    linarith
  have ho : objVal P x = ∑ j, P.c j * x j + P.z := rfl
  rw [ho, e]
  linarith

/-- C104: what an accepted certificate of unboundedness satisfies. -/
theorem C104_unbounded {R : Rounding} (hR : Fine R) (P : LP m n) (x d : Fin n → ℚ) (h : UnboundedAnswer R P x d true) :
    FeasAnswer R P x true ∧ 99 / 100 / 10 ^ 10 - R.slack n (∑ j, |P.c j * d j|) ≤ ∑ j, P.c j * d j ∧
    (∀ i, |∑ j, P.A i j * d j| ≤ 101 / 100 / 10 ^ 8 + rowSlack R P d i) ∧ ∀ j, -(101 / 100 / 10 ^ 10) < d j := by
  obtain ⟨feasible, v, w, hf, hv, hw, he⟩ := h
  obtain ⟨t1, t2⟩ := zeroTol_bounds hR
  cases feasible with
  | false => simp at he
  | true =>
    simp only [Bool.not_true, Bool.false_eq_true, if_false] at he
    split at he
    · cases he
    · rename_i h1
      split at he
      · cases he
      · rename_i h2
        have he := he.symm
        simp only [decide_eq_true_eq, cmp_ge hR] at he
        rw [cmp_le hR, not_lt] at h1
        simp only [Bool.not_eq_true', decide_eq_false_iff_not, not_not] at h2
        obtain ⟨w1, w2⟩ := abs_le.mp hw.error
        refine ⟨hf, by linarith, fun i => ?_, fun j => by have := he j; linarith⟩
        have h3 := npClose_sound hR (h2 i)
        rw [sub_zero, abs_zero, mul_zero, add_zero] at h3
        have h4 : |v i - ∑ j, P.A i j * d j| ≤ rowSlack R P d i := (hv i).error
        have := abs_add_le (v i) (-(v i - ∑ j, P.A i j * d j))
        rw [show v i + -(v i - ∑ j, P.A i j * d j) = ∑ j, P.A i j * d j by ring, abs_neg] at this
        linarith

/-- C104: certificates that hold with room for the rounding errors are accepted. -/
theorem C104_accepts {R : Rounding} (hR : Fine R) (P : LP m n) {ans : Bool} :
    (∀ y, (∀ j, colSlack R P y j - 98 / 100 / 10 ^ 10 ≤ ∑ i, y i * P.A i j) →
      ∑ i, y i * P.b i + R.slack m (∑ i, |y i * P.b i|) ≤ -(101 / 100 / 10 ^ 10) → InfeasAnswer R P y ans → ans = true) ∧
    (∀ y, (∀ j, P.c j + colSlack R P y j ≤ ∑ i, y i * P.A i j + 98 / 100 / 10 ^ 10) → OptimalAnswer R P y ans →
      ans = true) ∧
    (∀ x d, (∀ feasible, FeasAnswer R P x feasible → feasible = true) →
      101 / 100 / 10 ^ 10 + R.slack n (∑ j, |P.c j * d j|) ≤ ∑ j, P.c j * d j →
      (∀ i, |∑ j, P.A i j * d j| + rowSlack R P d i ≤ 99 / 100 / 10 ^ 8) → (∀ j, -(98 / 100 / 10 ^ 10) ≤ d j) →
      UnboundedAnswer R P x d ans → ans = true) := by
  obtain ⟨t1, t2⟩ := zeroTol_bounds hR
  have t3 : 98 / 100 / 10 ^ 10 < zeroTol R := lt_of_lt_of_le (by norm_num) t1
  refine ⟨?_, ?_, ?_⟩
  · rintro y h1 h2 ⟨v, w, hv, hw, rfl⟩
    simp only [Bool.and_eq_true, decide_eq_true_eq, cmp_ge hR, negative_iff hR]
    refine ⟨fun j => ?_, ?_⟩
    · obtain ⟨e1, e2⟩ := abs_le.mp (hv j).error
      have e1' : -colSlack R P y j ≤ v j - ∑ i, y i * P.A i j := e1
      have := h1 j
      linarith
    · obtain ⟨e1, e2⟩ := abs_le.mp hw.error
      linarith
  · rintro y h1 ⟨v, hv, rfl⟩
    simp only [decide_eq_true_eq, cmp_le hR]
    intro j
    obtain ⟨e1, e2⟩ := abs_le.mp (hv j).error
    have e1' : -colSlack R P y j ≤ v j - ∑ i, y i * P.A i j := e1
    have h2 := h1 j
    have h3 : P.c j - v j ≤ 98 / 100 / 10 ^ 10 := by linarith
    refine lt_of_le_of_lt (R.mono h3) (lt_of_le_of_lt (rd_bounds hR (by norm_num)).2 (lt_of_lt_of_le ?_ t1))
    have := hR.tiny_le
    norm_num at this ⊢
    linarith
  · rintro x d hf h1 h2 h3 ⟨feasible, v, w, hfe, hv, hw, rfl⟩
    obtain rfl := hf feasible hfe
    obtain ⟨e1, e2⟩ := abs_le.mp hw.error
    have c1 : ¬ cmpTol R w .le 0 = true := by rw [cmp_le hR]; linarith
    have c2 : ∀ i, npClose R (v i) 0 = true := fun i => by
      refine npClose_complete hR ?_
      rw [sub_zero, abs_zero, mul_zero, add_zero]
      have h4 : |v i - ∑ j, P.A i j * d j| ≤ rowSlack R P d i := (hv i).error
      have h5 := abs_add_le (v i - ∑ j, P.A i j * d j) (∑ j, P.A i j * d j)
      rw [sub_add_cancel] at h5
      have := h2 i
      linarith
    have c3 : ∀ j, cmpTol R (d j) .ge 0 = true := fun j => by rw [cmp_ge hR]; have := h3 j; linarith
    simp [c1, c2, c3]

/-- C104, integers: in double arithmetic a certificate of infeasibility with integer data is accepted exactly if it is a
Farkas certificate, so the program is infeasible. -/
theorem C104_integer_infeasible (P : LP m n) (hP : WF P) (hs : P.isSef = true) (hA : ∀ i j, ∃ k : ℤ, P.A i j = k)
    (hb : ∀ i, ∃ k : ℤ, P.b i = k) {y : Fin m → ℚ} (hy : ∀ i, ∃ k : ℤ, y i = k)
    (h1 : ∀ j, ∑ i, |y i * P.A i j| ≤ 2 ^ 53) (h2 : ∑ i, |y i * P.b i| ≤ 2 ^ 53) {ans : Bool}
    (h : InfeasAnswer binary64 P y ans) :
    (ans = true ↔ (∀ j, 0 ≤ ∑ i, y i * P.A i j) ∧ ∑ i, y i * P.b i < 0) ∧ (ans = true → ¬ ∃ x, Feas P x) := by
  have hR := fine_binary64
  have htol : zeroTol binary64 < 1 := lt_of_le_of_lt (zeroTol_bounds hR).2 (by norm_num)
  have h0 := zeroTol_pos hR
  have key : ans = true ↔ (∀ j, 0 ≤ ∑ i, y i * P.A i j) ∧ ∑ i, y i * P.b i < 0 := by
    obtain ⟨v, w, hv, hw, rfl⟩ := h
    have hve : ∀ j, v j = ∑ i, y i * P.A i j := fun j => (hv j).int hy (fun i => hA i j) (h1 j)
    have hwe : w = ∑ i, y i * P.b i := hw.int hy hb h2
    simp only [Bool.and_eq_true, decide_eq_true_eq, cmp_ge hR, negative_iff hR, hve, hwe]
    refine and_congr (forall_congr' fun j => ⟨int_ge_zero (int_sum _ hy fun i => hA i j) htol, fun h => by linarith⟩)
      ⟨fun h => by linarith, fun h => ?_⟩
    obtain ⟨k, hk⟩ := int_sum Finset.univ hy hb
    rw [hk] at h ⊢
    have : k < 0 := by exact_mod_cast h
    have : (k : ℚ) ≤ -1 := by exact_mod_cast (by omega : k ≤ -1)
    linarith
  refine ⟨key, fun ha ⟨x, hx⟩ => ?_⟩
  obtain ⟨c1, c2⟩ := key.mp ha
  have e : ∑ i, y i * P.b i = ∑ j, (∑ i, y i * P.A i j) * x j := by
    have : y ⬝ᵥ P.b = P.A.vecMul y ⬝ᵥ x := by rw [← hx.eqs hP hs, Matrix.dotProduct_mulVec]
    exact this
  have : 0 ≤ ∑ j, (∑ i, y i * P.A i j) * x j :=
    Finset.sum_nonneg fun j _ => mul_nonneg (c1 j) (hx.nonneg hP hs j)
  linarith

/-- C104, integers: `verify_optimality` accepts exactly the dual feasible vectors, and these bound the objective. -/
theorem C104_integer_optimal (P : LP m n) (hP : WF P) (hs : P.isSef = true) (hA : ∀ i j, ∃ k : ℤ, P.A i j = k)
    (hc : ∀ j, ∃ k : ℤ, P.c j = k) {y : Fin m → ℚ} (hy : ∀ i, ∃ k : ℤ, y i = k)
    (h1 : ∀ j, ∑ i, |y i * P.A i j| ≤ 2 ^ 53) {ans : Bool} (h : OptimalAnswer binary64 P y ans) :
    (ans = true ↔ ∀ j, P.c j ≤ ∑ i, y i * P.A i j) ∧
    (ans = true → ∀ x, Feas P x → objVal P x ≤ ∑ i, y i * P.b i + P.z) := by
  have hR := fine_binary64
  have htol : zeroTol binary64 < 1 := lt_of_le_of_lt (zeroTol_bounds hR).2 (by norm_num)
  have h0 := zeroTol_pos hR
  have key : ans = true ↔ ∀ j, P.c j ≤ ∑ i, y i * P.A i j := by
    obtain ⟨v, hv, rfl⟩ := h
    have hve : ∀ j, v j = ∑ i, y i * P.A i j := fun j => (hv j).int hy (fun i => hA i j) (h1 j)
    simp only [decide_eq_true_eq, cmp_le hR, hve]
    refine forall_congr' fun j => ⟨fun h => ?_, fun h => ?_⟩
    · by_contra hgt
      push Not at hgt
      obtain ⟨k, hk⟩ := int_sum Finset.univ hy fun i => hA i j
      obtain ⟨l, hl⟩ := hc j
      rw [hk, hl] at hgt h
      have : k < l := by exact_mod_cast hgt
      have h1 : ((1 : ℤ) : ℚ) ≤ (l : ℚ) - k := by exact_mod_cast (by omega : 1 ≤ l - k)
      have := Rounding.le_rd (R := binary64) (binary64_rep.mpr (isDouble_int (k := 1) (by norm_num))) h1
      push_cast at this
      linarith
    · exact lt_of_le_of_lt (Rounding.rd_nonpos (by linarith)) h0
  refine ⟨key, fun ha x hx => ?_⟩
  have e : ∑ i, y i * P.b i = ∑ j, (∑ i, y i * P.A i j) * x j := by
    have : y ⬝ᵥ P.b = P.A.vecMul y ⬝ᵥ x := by rw [← hx.eqs hP hs, Matrix.dotProduct_mulVec]
    exact this
  have : ∑ j, P.c j * x j ≤ ∑ j, (∑ i, y i * P.A i j) * x j :=
    Finset.sum_le_sum fun j _ => mul_le_mul_of_nonneg_right (key.mp ha j) (hx.nonneg hP hs j)
  have ho : objVal P x = ∑ j, P.c j * x j + P.z := rfl
  rw [ho, e]
  linarith

/-- C104, integers: `verify_unboundedness` accepts exactly a feasible point with an improving ray, and the program is
unbounded. -/
theorem C104_integer_unbounded (P : LP m n) (hP : WF P) (hs : P.isSef = true) (hA : ∀ i j, ∃ k : ℤ, P.A i j = k)
    (hb : ∀ i, ∃ k : ℤ, P.b i = k) (hc : ∀ j, ∃ k : ℤ, P.c j = k) {x d : Fin n → ℚ} (hx : ∀ j, ∃ k : ℤ, x j = k)
    (hd : ∀ j, ∃ k : ℤ, d j = k) (h1 : ∀ i, ∑ j, |P.A i j * x j| ≤ 5 * 10 ^ 8) (hbs : ∀ i, |P.b i| ≤ 90000)
    (h2 : ∀ i, ∑ j, |P.A i j * d j| ≤ 2 ^ 53) (h3 : ∑ j, |P.c j * d j| ≤ 2 ^ 53) {ans : Bool}
    (h : UnboundedAnswer binary64 P x d ans) :
    (ans = true ↔ Feas P x ∧ 0 < ∑ j, P.c j * d j ∧ (∀ i, ∑ j, P.A i j * d j = 0) ∧ ∀ j, 0 ≤ d j) ∧
    (ans = true → ∀ M, ∃ z, Feas P z ∧ M < objVal P z) := by
  have hR := fine_binary64
  have htol : zeroTol binary64 < 1 := lt_of_le_of_lt (zeroTol_bounds hR).2 (by norm_num)
  have h0 := zeroTol_pos hR
  have key : ans = true ↔
      Feas P x ∧ 0 < ∑ j, P.c j * d j ∧ (∀ i, ∑ j, P.A i j * d j = 0) ∧ ∀ j, 0 ≤ d j := by
    obtain ⟨feasible, v, w, hf, hv, hw, rfl⟩ := h
    have hfe := C103_integer P hP hA hb hx h1 hbs hf
    have hve : ∀ i, v i = ∑ j, P.A i j * d j := fun i => (hv i).int (hA i) hd (h2 i)
    have hwe : w = ∑ j, P.c j * d j := hw.int hc hd h3
    have e1 : cmpTol binary64 w .le 0 = true ↔ ¬ 0 < ∑ j, P.c j * d j := by
      rw [cmp_le hR, hwe, not_lt]
      obtain ⟨k, hk⟩ := int_sum Finset.univ hc hd
      rw [hk]
      refine ⟨fun h => ?_, fun h => lt_of_le_of_lt h h0⟩
      have : (k : ℚ) < 1 := by linarith
      have : k < 1 := by exact_mod_cast this
      exact_mod_cast (by omega : k ≤ 0)
    have e2 : (∀ i, npClose binary64 (v i) 0 = true) ↔ ∀ i, ∑ j, P.A i j * d j = 0 := by
      refine forall_congr' fun i => ⟨fun h => ?_, fun h => npClose_complete hR ?_⟩
      · have := npClose_sound hR h
        rw [abs_zero, mul_zero, add_zero] at this
        rw [← hve]
        exact int_lt_one (hve i ▸ int_sum _ (hA i) hd) ⟨0, by simp⟩ (lt_of_le_of_lt this (by norm_num))
      · rw [hve, h]; norm_num
    have e3 : (∀ j, cmpTol binary64 (d j) .ge 0 = true) ↔ ∀ j, 0 ≤ d j :=
      forall_congr' fun j => by
        rw [cmp_ge hR]
        exact ⟨int_ge_zero (hd j) htol, fun h => by linarith⟩
    cases feasible with
    | false => simp only [Bool.false_eq_true, false_iff] at hfe; simp [hfe]
    | true =>
      simp only [true_iff] at hfe
      simp only [Bool.not_true, Bool.false_eq_true, if_false, hfe, true_and]
      by_cases q1 : 0 < ∑ j, P.c j * d j
      · have q1' : ¬ cmpTol binary64 w .le 0 = true := fun h => e1.mp h q1
        rw [if_neg q1']
        by_cases q2 : ∀ i, npClose binary64 (v i) 0 = true
        · rw [if_neg (by simp [q2])]
          simp only [decide_eq_true_eq, e3, q1, true_and, e2.mp q2, implies_true]
        · rw [if_pos (by rw [Bool.not_eq_true', decide_eq_false_iff_not]; exact q2)]
          rw [e2] at q2
          simp [q2]
      · rw [if_pos (e1.mpr q1)]
        simp [q1]
  refine ⟨key, fun ha M => ?_⟩
  obtain ⟨c1, c2, c3, c4⟩ := key.mp ha
  obtain ⟨g1, g2⟩ := (feas_sef_iff hP hs).mp c1
  set g := ∑ j, P.c j * d j with hg
  set t := max 0 ((M - objVal P x + 1) / g) with ht
  have t0 : 0 ≤ t := le_max_left _ _
  refine ⟨fun j => x j + t * d j, (feas_sef_iff hP hs).mpr ⟨funext fun i => ?_, fun j => ?_⟩, ?_⟩
  · have a1 : ∑ j, P.A i j * x j = P.b i := congrFun g1 i
    show ∑ j, P.A i j * (x j + t * d j) = P.b i
    have : ∑ j, P.A i j * (x j + t * d j) = ∑ j, P.A i j * x j + t * ∑ j, P.A i j * d j := by
      rw [Finset.mul_sum, ← Finset.sum_add_distrib]
      exact Finset.sum_congr rfl fun j _ => by ring
    rw [this, a1, c3, mul_zero, add_zero]
  · exact add_nonneg (g2 j) (mul_nonneg t0 (c4 j))
  · have : objVal P (fun j => x j + t * d j) = objVal P x + t * g := by
      show ∑ j, P.c j * (x j + t * d j) + P.z = (∑ j, P.c j * x j + P.z) + t * g
      have : ∑ j, P.c j * (x j + t * d j) = ∑ j, P.c j * x j + t * g := by
        rw [hg, Finset.mul_sum, ← Finset.sum_add_distrib]
        exact Finset.sum_congr rfl fun j _ => by ring
      rw [this]; ring
    rw [this]
    have a1 : (M - objVal P x + 1) / g * g = M - objVal P x + 1 := div_mul_cancel₀ _ (ne_of_gt c2)
    have a2 : (M - objVal P x + 1) / g * g ≤ t * g := mul_le_mul_of_nonneg_right (le_max_right _ _) c2.le
    linarith

/-- A program meeting the hypotheses: `x₁ + x₂ = -1` with the certificate `1`. -/
example : ∀ ans, InfeasAnswer binary64 (⟨!![1, 1], ![-1], ![0, 0], 0, .max, ![.eq], [], [], true⟩ : LP 1 2) ![1] ans →
    ans = true := by
  intro ans h
  have hP : WF (⟨!![1, 1], ![-1], ![0, 0], 0, .max, ![.eq], [], [], true⟩ : LP 1 2) :=
    ⟨List.Pairwise.nil, List.Pairwise.nil, by simp, by simp, by simp, by simp [sefFlag]⟩
  refine (C104_integer_infeasible _ hP rfl (fun i j => ?_) (fun i => ⟨-1, ?_⟩) (fun i => ⟨1, ?_⟩) (fun j => ?_) ?_ h).1.mpr
    ⟨fun j => ?_, ?_⟩
  · fin_cases i
    fin_cases j <;> exact ⟨1, by simp⟩
  · fin_cases i; simp
  · fin_cases i; simp
  · fin_cases j <;> · simp; norm_num
  · simp; norm_num
  · fin_cases j <;> simp
  · simp

end Props
end Pytimize
