/-
Properties C87-C89: what is printed for numbers and programs. The reader of the text is in `LP/FormatSpec.lean`.
-/
import Verif.LP.ReprProof
import Mathlib.Algebra.Order.Ring.Abs

namespace Pytimize
namespace Props
open LinProg

variable {m n : ℕ}

/-! ### C87: numbers -/

/-- C87: `_format_number` never raises; what it prints is a numeral whose value is the number up to the stated
accuracy, and the two lengths are those of the parts before and behind its point. -/
theorem C87_accurate (q : ℚ) : ∃ s x y v, formatNumber q = .ok (s, x.length, y.length) ∧
    s = x ++ '.' :: y ∧ '.' ∉ x ∧ '.' ∉ y ∧ readNum s = some v ∧ Shows v q :=
  ⟨numberText q, intPart q, decPart q, shown q, formatNumber_eq q, numberText_parts q, intPart_point q,
    decPart_point q, readNum_numberText q, shown_close q⟩

/-- C87: the printed number has the sign of the number, and is zero only for numbers below `1e-10`. -/
theorem C87_sign (q : ℚ) : ∃ s a d v, formatNumber q = .ok (s, a, d) ∧ readNum s = some v ∧
    (v = 0 ↔ |q| < 1 / 10 ^ 10) ∧ (0 < v ↔ 1 / 10 ^ 10 ≤ q) ∧ (v < 0 ↔ q ≤ -(1 / 10 ^ 10)) := by
  refine ⟨_, _, _, shown q, formatNumber_eq q, readNum_numberText q, ?_⟩
  have h := shown_close q
  unfold Shows at h
  split_ifs at h with h1
  · have h2 := abs_lt.mp h1
    rw [h]
    refine ⟨⟨fun _ => h1, fun _ => rfl⟩, ?_, ?_⟩
    · exact ⟨fun h => absurd h (lt_irrefl _), fun h => absurd h2.2 (not_lt.mpr h)⟩
    · exact ⟨fun h => absurd h (lt_irrefl _), fun h => absurd h2.1 (not_lt.mpr h)⟩
  · have h2 := abs_le.mp h
    have ht : (0 : ℚ) < 1 / 10 ^ 10 := by norm_num
    rcases le_or_gt 0 q with hq | hq
    · rw [abs_of_nonneg hq] at h1 h2
      have h1 := not_lt.mp h1
      have hv : 0 < shown q := by linarith
      refine ⟨⟨fun h => absurd h hv.ne', fun h => ?_⟩, ⟨fun _ => h1, fun _ => hv⟩,
        ⟨fun h => absurd h (not_lt.mpr hv.le), fun h => by linarith⟩⟩
      rw [abs_of_nonneg hq] at h
      exact absurd h (not_lt.mpr h1)
    · rw [abs_of_neg hq] at h1 h2
      have h1 := not_lt.mp h1
      have hv : shown q < 0 := by linarith
      refine ⟨⟨fun h => absurd h hv.ne, fun h => ?_⟩, ⟨fun h => absurd h (not_lt.mpr hv.le), fun h => by linarith⟩,
        ⟨fun _ => by linarith, fun _ => hv⟩⟩
      rw [abs_of_neg hq] at h
      exact absurd h (not_lt.mpr h1)

/-- C87: numbers with at most three decimals and at most `1e10` are printed exactly. -/
theorem C87_exact {q : ℚ} (h : ∃ k : ℤ, q * 1000 = k) (hle : |q| ≤ 10 ^ 10) :
    ∃ s a d, formatNumber q = .ok (s, a, d) ∧ readNum s = some q := by
  obtain ⟨k, hk⟩ := h
  exact ⟨_, _, _, formatNumber_eq q, numberText_exact hk hle⟩

/-- C87: an integer up to `1e10` is printed as its decimal digits followed by a point. -/
theorem C87_integer {k : ℤ} (hle : |k| ≤ 10 ^ 10) :
    ∃ a d, formatNumber k = .ok ((toString k).toList ++ ['.'], a, d) := by
  refine ⟨(intPart (k : ℚ)).length, (decPart (k : ℚ)).length, ?_⟩
  rw [formatNumber_eq]
  unfold formatted
  congr 2
  have habs : |(k : ℚ)| = (k.natAbs : ℤ) := by
    push_cast
    rfl
  have hz : ∀ z : ℕ, (Comparator.isCloseToZero (z : ℤ) = true) → z = 0 := by
    intro z h
    rw [Comparator.isCloseToZero_iff, Comparator.tol] at h
    have h1 : |(z : ℚ)| < 1 := by push_cast at h; exact h.trans (by norm_num)
    rw [abs_of_nonneg (Nat.cast_nonneg _)] at h1
    have : z < 1 := by exact_mod_cast h1
    omega
  have hmag : magnitudeText |(k : ℚ)| = natChars k.natAbs ++ ['.'] := by
    rw [habs]
    unfold magnitudeText
    by_cases h1 : Comparator.isCloseToZero ((k.natAbs : ℤ) : ℚ) = true
    · rw [if_pos h1, hz _ h1]
      decide
    · rw [if_neg h1, if_neg, if_pos, roundEven_int, Int.toNat_natCast]
      · unfold Comparator.isInteger
        have e : |((k.natAbs : ℤ) : ℚ)| = ((k.natAbs : ℤ) : ℚ) := abs_of_nonneg (by positivity)
        simp only [e, Int.floor_intCast, sub_self]
        rw [if_neg (by norm_num)]
        exact Comparator.isCloseToZero_iff.mpr (by simpa using Comparator.tol_pos)
      · rw [← habs]
        push Not
        exact_mod_cast hle
  rw [numberText_eq, hmag]
  cases k with
  | ofNat j =>
    rw [if_neg]
    · show natChars j ++ ['.'] = (toString (j : ℕ)).toList ++ ['.']
      rw [Nat.toString_eq_ofList_toDigits, String.toList_ofList]; rfl
    · rw [isNegative_iff]
      push Not
      have : (0 : ℚ) ≤ ((Int.ofNat j : ℤ) : ℚ) := by simp
      linarith [show (0 : ℚ) < 1 / 10 ^ 10 by norm_num]
  | negSucc j =>
    rw [if_pos]
    · show '-' :: (natChars (j + 1) ++ ['.']) = ("-" ++ toString (j + 1 : ℕ)).toList ++ ['.']
      rw [String.toList_append, Nat.toString_eq_ofList_toDigits]
      simp only [String.toList_ofList]
      rfl
    · rw [isNegative_iff]
      have : ((Int.negSucc j : ℤ) : ℚ) ≤ -1 := by
        rw [Int.cast_negSucc]
        push_cast
        linarith [show (0 : ℚ) ≤ j from Nat.cast_nonneg _]
      linarith [show (1 / 10 ^ 10 : ℚ) ≤ 1 by norm_num]

example : formatNumber (-2 / 3) = .ok ("-0.6667".toList, 2, 4) := by decide +kernel
example : formatNumber (123456 / 1000) = .ok ("123.456".toList, 3, 3) := by decide +kernel
example : formatNumber (99996 / 100000) = .ok ("1.0".toList, 1, 1) := by decide +kernel
example : formatNumber 123456789012 = .ok ("1.235e+11".toList, 1, 7) := by decide +kernel
example : formatNumber (1 / 30000) = .ok ("3.333e-05".toList, 1, 7) := by decide +kernel

/-! ### C88: programs -/

theorem mem_declared_neg {P : LP m n} (h : WF P) (k : ℕ) :
    k ∈ declared n (P.neg.map (· + 1)) ↔ ∃ j, k = j + 1 ∧ j ∈ P.neg := by
  unfold declared
  rw [List.length_map]
  split_ifs with hl
  · have hall : ∀ j, j < n → j ∈ P.neg := by
      have hnd : P.neg.Nodup := h.negSorted.imp fun h => Nat.ne_of_lt h
      have hsub : P.neg.toFinset ⊆ Finset.range n := by
        intro j hj
        exact Finset.mem_range.mpr (h.negLt j (List.mem_toFinset.mp hj))
      have hcard : P.neg.toFinset = Finset.range n := by
        apply Finset.eq_of_subset_of_card_le hsub
        rw [List.toFinset_card_of_nodup hnd, hl, Finset.card_range]
      intro j hj
      rw [← List.mem_toFinset, hcard]
      exact Finset.mem_range.mpr hj
    rw [List.mem_range'_1]
    constructor
    · rintro ⟨h1, h2⟩
      exact ⟨k - 1, by omega, hall _ (by omega)⟩
    · rintro ⟨j, rfl, hj⟩
      have := h.negLt j hj
      omega
  · rw [List.mem_map]
    exact ⟨fun ⟨j, hj, e⟩ => ⟨j, e.symm, hj⟩, fun ⟨j, e, hj⟩ => ⟨j, hj, e.symm⟩⟩

theorem mem_positiveNames {P : LP m n} (k : ℕ) :
    k ∈ positiveNames P ↔ ∃ j < n, k = j + 1 ∧ j ∉ P.neg ∧ j ∉ P.free := by
  unfold positiveNames
  rw [List.mem_filter, List.mem_range'_1]
  simp only [Bool.and_eq_true, Bool.not_eq_true', decide_eq_false_iff_not]
  constructor
  · rintro ⟨⟨h1, h2⟩, h3, h4⟩
    exact ⟨k - 1, by omega, by omega, h3, h4⟩
  · rintro ⟨j, hj, rfl, h3, h4⟩
    exact ⟨by omega, by simpa using h3, by simpa using h4⟩

theorem mem_declared_pos {P : LP m n} (k : ℕ) :
    k ∈ declared n (positiveNames P) ↔ ∃ j < n, k = j + 1 ∧ j ∉ P.neg ∧ j ∉ P.free := by
  unfold declared
  split_ifs with hl
  · have : positiveNames P = List.range' 1 n := by
      unfold positiveNames at hl ⊢
      rw [List.filter_eq_self]
      have h := List.length_filter_eq_length_iff.mp (hl.trans (List.length_range' (s := 1) (step := 1)).symm)
      exact h
    rw [← this]
    exact mem_positiveNames k
  · exact mem_positiveNames k

theorem agrees_of {R : ℚ → ℚ → Prop} {P : LP m n} (h : WF P) (hc : ∀ j, R (shown (P.c j)) (P.c j))
    (hz : R (shownConstant P) P.z) (hA : ∀ i j, R (shown (P.A i j)) (P.A i j)) (hb : ∀ i, R (shown (P.b i)) (P.b i)) :
    Agrees R (shownProgram P) P := by
  have hvec : ∀ {k : ℕ} (v : Fin k → ℚ), (∀ j, R (shown (v j)) (v j)) →
      List.Forall₂ R ((List.finRange k).map fun j => shown (v j)) (List.ofFn v) := by
    intro k v hv
    rw [List.ofFn_eq_map, List.forall₂_map_left_iff, List.forall₂_map_right_iff, List.forall₂_same]
    exact fun j _ => hv j
  refine ⟨rfl, hvec P.c hc, hz, ?_, mem_declared_neg h, mem_declared_pos⟩
  show List.Forall₂ _ ((List.finRange m).map _) _
  rw [List.forall₂_map_left_iff, List.forall₂_same]
  exact fun i _ => ⟨hvec (P.A i) (hA i), rfl, hb i⟩

/-- C88: the text printed for a program with at least one constraint reads back as that program, with numbers
as accurate as C87 says. -/
theorem C88_readable {P : LP m n} (h : WF P) (hm : m ≠ 0) :
    ∃ s S, reprText P = .ok s ∧ readProgram s = some S ∧ Agrees Shows S P := by
  refine ⟨shownText P, shownProgram P, ?_, readProgram_shownText P, ?_⟩
  · rw [reprText_eq, if_neg hm]
  · exact agrees_of h (fun _ => shown_close _) (constant_close P) (fun _ _ => shown_close _) fun _ => shown_close _

/-- Numbers that are printed exactly. -/
def ThreeDecimals (q : ℚ) : Prop := (∃ k : ℤ, q * 1000 = k) ∧ |q| ≤ 10 ^ 10

theorem shown_exact {q : ℚ} (h : ThreeDecimals q) : shown q = q := by
  obtain ⟨⟨k, hk⟩, hle⟩ := h
  unfold shown
  rw [numberText_exact hk hle]
  rfl

/-- C88: if the data have at most three decimals, the text reads back as exactly that program. -/
theorem C88_exact {P : LP m n} (h : WF P) (hm : m ≠ 0) (hc : ∀ j, ThreeDecimals (P.c j)) (hz : ThreeDecimals P.z)
    (hA : ∀ i j, ThreeDecimals (P.A i j)) (hb : ∀ i, ThreeDecimals (P.b i)) :
    ∃ s S, reprText P = .ok s ∧ readProgram s = some S ∧ Agrees Eq S P := by
  refine ⟨shownText P, shownProgram P, ?_, readProgram_shownText P, ?_⟩
  · rw [reprText_eq, if_neg hm]
  · refine agrees_of h (fun j => shown_exact (hc j)) ?_ (fun i j => shown_exact (hA i j)) fun i => shown_exact (hb i)
    have ha : ThreeDecimals |P.z| := by
      obtain ⟨⟨k, hk⟩, hle⟩ := hz
      refine ⟨⟨|k|, ?_⟩, by rw [abs_abs]; exact hle⟩
      rw [Int.cast_abs, ← hk, abs_mul]
      norm_num
    unfold shownConstant
    rw [shown_exact ha]
    split_ifs with h1 h2
    · obtain ⟨⟨k, hk⟩, -⟩ := hz
      have h3 := Comparator.isCloseToZero_iff.mp h1
      rw [Comparator.tol] at h3
      have h4 : |(k : ℚ)| < 1 := by
        rw [← hk, abs_mul]
        norm_num at h3 ⊢
        linarith
      have h4 : |k| < 1 := by exact_mod_cast h4
      have h5 : k = 0 := Int.abs_lt_one_iff.mp h4
      rw [h5] at hk
      push_cast at hk
      linarith
    · have := isNegative_iff.mp h2
      rw [abs_of_neg (lt_of_le_of_lt this (by norm_num)), neg_neg]
    · have hz' : 0 ≤ P.z := by
        by_contra hn
        apply h2
        rw [isNegative_iff]
        have h3 : ¬ |P.z| < 1 / 10 ^ 10 := fun h => h1 (Comparator.isCloseToZero_iff.mpr h)
        rw [abs_of_neg (not_le.mp hn)] at h3
        linarith [not_lt.mp h3]
      exact abs_of_nonneg hz'

/-- The lines of the table. -/
def tableLines (s : List Char) : List (List Char) := (s.splitOn '\n').filter fun l => l.head? = some '['

theorem tableLines_shownText (P : LP m n) : tableLines (shownText P) = (List.finRange m).map (shownLine P) := by
  unfold tableLines
  rw [shownText_lines]
  have h0 : (shownObjective P).head? = some 'M' := by
    rw [shownObjective_eq]
    unfold goalChars
    split <;> rfl
  rw [List.filter_cons_of_neg (by rw [h0]; decide), List.filter_cons_of_neg (by decide),
    List.filter_cons_of_neg (by decide), List.filter_append]
  have h1 : ((List.finRange m).map (shownLine P)).filter (fun l => l.head? = some '[') =
      (List.finRange m).map (shownLine P) := by
    rw [List.filter_eq_self]
    intro l hl
    obtain ⟨i, -, rfl⟩ := List.mem_map.mp hl
    rw [shownLine_eq]
    rfl
  have h2 : (signLines n '≤' (P.neg.map (· + 1)) ++ signLines n '≥' (positiveNames P) ++ [[]]).filter
      (fun l : List Char => l.head? = some '[') = [] := by
    rw [List.filter_eq_nil_iff]
    intro l hl
    simp only [List.mem_append, List.mem_singleton] at hl
    rcases hl with (hl | hl) | rfl
    · rw [signLines_head hl]; decide
    · rw [signLines_head hl]; decide
    · decide
  rw [h1, h2, List.append_nil]

theorem columnSpaces_le {l : List (List Char × ℕ × ℕ)} {f : List Char × ℕ × ℕ} (h : f ∈ l) :
    f.2.1 ≤ (columnSpaces l).1 ∧ f.2.2 ≤ (columnSpaces l).2 := by
  induction l with
  | nil => simp at h
  | cons g l ih =>
    obtain ⟨e, a, d⟩ := g
    unfold columnSpaces
    rcases List.mem_cons.mp h with rfl | h
    · exact ⟨le_max_left _ _, le_max_left _ _⟩
    · exact ⟨(ih h).1.trans (le_max_right _ _), (ih h).2.trans (le_max_right _ _)⟩

theorem noPoint_map {s : List Char} (h : '.' ∉ s) : s.map (· == '.') = List.replicate s.length false := by
  rw [List.eq_replicate_iff]
  refine ⟨by simp, fun b hb => ?_⟩
  obtain ⟨c, hc, rfl⟩ := List.mem_map.mp hb
  simp only [beq_eq_false_iff_ne]
  rintro rfl
  exact h hc

theorem cell_points {iw dw : ℕ} {q : ℚ} (hi : (intPart q).length ≤ iw) (hd : (decPart q).length ≤ dw) :
    (cellText iw dw (formatted q)).map (· == '.') = List.replicate iw false ++ true :: List.replicate dw false := by
  rw [cellText_eq, numberText_parts]
  simp only [List.map_append, List.map_cons, noPoint_map (intPart_point q), noPoint_map (decPart_point q),
    List.map_replicate]
  have e1 : (' ' == '.') = false := by decide
  have e2 : ('.' == '.') = true := by decide
  rw [e1, e2, ← List.append_assoc, List.replicate_append_replicate, List.append_assoc, List.cons_append,
    List.replicate_append_replicate]
  congr 2
  · omega
  · congr 1; omega

theorem join_map (f : Char → Bool) (sep : List Char) (l : List (List Char)) :
    (joinChars sep l).map f = List.intercalate (sep.map f) (l.map (List.map f)) := by
  induction l with
  | nil => rfl
  | cons a l ih =>
    cases l with
    | nil => simp [joinChars]
    | cons b l =>
      rw [joinChars, List.map_append, List.map_append, ih]
      rw [List.map_cons, List.map_cons, List.map_cons, List.intercalate_cons_cons]
      · simp

theorem count_intercalate (l : List (List Bool)) :
    (List.intercalate [false, false] l).count true = (l.map (List.count true)).sum := by
  induction l with
  | nil => rfl
  | cons a l ih =>
    cases l with
    | nil => simp
    | cons b l =>
      rw [List.intercalate_cons_cons, List.count_append, List.count_append, ih]
      simp

/-- Where the points of the cells of a row stand. -/
noncomputable def cellPoints (P : LP m n) : List Bool :=
  List.intercalate [false, false] ((List.finRange n).map fun j =>
    List.replicate (columnSpaces ((List.finRange m).map fun r => formatted (P.A r j))).1 false ++
      true :: List.replicate (columnSpaces ((List.finRange m).map fun r => formatted (P.A r j))).2 false)

theorem rowCells_points (P : LP m n) (i : Fin m) : (rowCells P i).map (· == '.') = cellPoints P := by
  unfold rowCells cellPoints
  rw [join_map, List.map_map]
  congr 1
  apply List.map_congr_left
  intro j _
  have := columnSpaces_le (List.mem_map.mpr ⟨i, List.mem_finRange i, rfl⟩ :
    formatted (P.A i j) ∈ (List.finRange m).map fun r => formatted (P.A r j))
  exact cell_points this.1 this.2

theorem rowRhs_points (P : LP m n) (i : Fin m) : (rowRhs P i).map (· == '.') =
    List.replicate (columnSpaces ((List.finRange m).map fun r => formatted (P.b r))).1 false ++
      true :: List.replicate (columnSpaces ((List.finRange m).map fun r => formatted (P.b r))).2 false := by
  have := columnSpaces_le (List.mem_map.mpr ⟨i, List.mem_finRange i, rfl⟩ :
    formatted (P.b i) ∈ (List.finRange m).map fun r => formatted (P.b r))
  exact cell_points this.1 this.2

/-- C88: the table is aligned: there is one line per constraint, all lines have their decimal points in the same
columns (one for each coefficient and one for the right-hand side) and the same length. -/
theorem C88_aligned (P : LP m n) (hm : m ≠ 0) : ∃ s, reprText P = .ok s ∧ (tableLines s).length = m ∧
    ∃ pattern : List Bool, pattern.count true = n + 1 ∧ ∀ l ∈ tableLines s, l.map (· == '.') = pattern := by
  refine ⟨shownText P, by rw [reprText_eq, if_neg hm], by rw [tableLines_shownText]; simp, ?_⟩
  refine ⟨false :: (cellPoints P ++ false :: (List.replicate 9 false ++ false ::
    (List.replicate (columnSpaces ((List.finRange m).map fun r => formatted (P.b r))).1 false ++
      true :: List.replicate (columnSpaces ((List.finRange m).map fun r => formatted (P.b r))).2 false ++ [false]))),
    ?_, ?_⟩
  · have hc : (cellPoints P).count true = n := by
      unfold cellPoints
      rw [count_intercalate, List.map_map]
      have : (List.finRange n).map (List.count true ∘ fun j =>
          List.replicate (columnSpaces ((List.finRange m).map fun r => formatted (P.A r j))).1 false ++
            true :: List.replicate (columnSpaces ((List.finRange m).map fun r => formatted (P.A r j))).2 false) =
          (List.finRange n).map fun _ => 1 := by
        apply List.map_congr_left
        intro j _
        simp [List.count_replicate]
      rw [this]
      simp
    simp [hc, List.count_replicate]
  · intro l hl
    rw [tableLines_shownText] at hl
    obtain ⟨i, -, rfl⟩ := List.mem_map.mp hl
    have hmid : (middle P i).map (· == '.') = List.replicate 9 false :=
      noPoint_map (s := middle P i) (middle_not_mem P i (by decide))
    rw [shownLine_eq]
    simp only [List.nil_append, List.map_cons, List.map_append, rowCells_points, rowRhs_points, hmid, List.map_nil]
    rfl

/-- `min -1.5 x₁ + x₂ - 2` subject to `x₁ + 0.25 x₂ >= 3`, `10 x₁ - x₂ = -4`, `x₂ <= 0`. -/
def printSample2 : LP 2 2 :=
  { A := ![![1, 1 / 4], ![10, -1]], b := ![3, -4], c := ![-3 / 2, 1], z := -2, objective := .min
    ineq := ![.ge, .eq], free := [], neg := [1], isSef := false }

example : reprText printSample2 = .ok
    "Min [-1.5 1.]x - 2.\nSubject To:\n\n[ 1.   0.25]     ≥   [ 3.]\n[10.  -1.  ]x    =   [-4.]\nx₂ ≤ 0\nx₁ ≥ 0\n".toList := by
  decide +kernel

example : ∀ i j, ThreeDecimals (printSample2.A i j) := by
  have h : ∀ q ∈ [(1 : ℚ), 1 / 4, 10, -1], ThreeDecimals q := by
    simp only [List.forall_mem_cons, List.not_mem_nil, false_implies, implies_true, and_true]
    exact ⟨⟨⟨1000, by norm_num⟩, by norm_num⟩, ⟨⟨250, by norm_num⟩, by norm_num [abs_of_pos]⟩,
      ⟨⟨10000, by norm_num⟩, by norm_num [abs_of_pos]⟩, ⟨⟨-1000, by norm_num⟩, by norm_num⟩⟩
  intro i j
  apply h
  fin_cases i <;> fin_cases j <;> simp [printSample2]

example : WF printSample2 := ⟨by decide, by decide, by decide, by decide, by decide, by decide⟩

/-- C88: a program without constraints cannot be printed: `UnboundLocalError`. -/
theorem C88_norows (P : LP 0 n) : reprText P = .error .unboundLocalError := by
  rw [reprText_eq, if_pos rfl]

/-! ### C89: integer programs -/

/-- C89, partial: printing an integer program drops the line feeds at the end of the text of the linear program
and, if all variables are integral, appends `x ∈ Z` to the last line; it raises only if printing the linear
program does. Missing: the text does not show which variables are integral (`C89_wrong`). -/
theorem C89_text_partial (I : IntProgram) {s : List Char} (h : reprText I.prog.lp = .ok s) :
    ∃ t k, s = t ++ List.replicate k '\n' ∧ t.getLast? ≠ some '\n' ∧
      intReprText I = .ok (if I.integral = none then t ++ ['x', ' ', '∈', ' ', 'Z'] else t) := by
  refine ⟨s.rdropWhile (· == '\n'), (s.rtakeWhile (· == '\n')).length, ?_, ?_, ?_⟩
  · have hr : s.rtakeWhile (· == '\n') = List.replicate (s.rtakeWhile (· == '\n')).length '\n' := by
      rw [List.eq_replicate_iff]
      refine ⟨rfl, fun c hc => ?_⟩
      simpa using List.mem_rtakeWhile_imp hc
    rw [← hr, List.rdropWhile_append_rtakeWhile]
  · intro hl
    have h0 : s.rdropWhile (· == '\n') ≠ [] := by
      intro h
      rw [h] at hl
      simp at hl
    have h1 : (s.rdropWhile (· == '\n')).getLast h0 = '\n' := by
      rw [List.getLast?_eq_some_getLast h0] at hl
      exact Option.some.inj hl
    have := List.rdropWhile_last_not (p := (· == '\n')) s h0
    rw [h1] at this
    simp at this
  · unfold intReprText
    rw [h]
    rfl

/-- C89 is false, first: if the integral variables are listed, the text does not depend on which they are. -/
theorem C89_wrong (P : Prog) (l l' : List ℤ) : intReprText ⟨P, some l⟩ = intReprText ⟨P, some l'⟩ := rfl

/-- `max x` subject to `x <= 1` and `x >= 0`. -/
def printSample : LP 1 1 :=
  { A := fun _ _ => 1, b := fun _ => 1, c := fun _ => 1, z := 0, objective := .max, ineq := fun _ => .le, free := [],
    neg := [], isSef := false }

/-- C89 is false, second: `x ∈ Z` is appended to the line of the signs, which then reads `x ≥ 0x ∈ Z`. -/
theorem C89_run_on_wrong : ∃ t, intReprText ⟨⟨1, 1, printSample⟩, none⟩ = .ok (t ++ ['\n', 'x', ' ', '≥', ' ', '0', 'x', ' ', '∈', ' ', 'Z']) ∧
    readProgram (t ++ ['\n', 'x', ' ', '≥', ' ', '0', 'x', ' ', '∈', ' ', 'Z']) = none := by
  refine ⟨['M', 'a', 'x', ' ', '[', '1', '.', ']', 'x', '\n', 'S', 'u', 'b', 'j', 'e', 'c', 't', ' ', 'T', 'o', ':',
    '\n', '\n', '[', '1', '.', ']', 'x', ' ', ' ', ' ', ' ', '≤', ' ', ' ', ' ', '[', '1', '.', ']'], ?_, ?_⟩
  · decide +kernel
  · decide +kernel

end Props
end Pytimize
