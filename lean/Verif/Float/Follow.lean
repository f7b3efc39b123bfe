/-
The simplex method in floating point takes the decisions of the exact simplex method when no decision is close.
-/
import Verif.Float.SimplexExact
import Verif.Float.SimplexIdeal

namespace Pytimize
namespace Floating
open LinProg Comparator

variable {m n : ℕ} {R : Rounding}

/-! ### Comparisons -/

theorem cmp_lt_false (hR : Fine R) {v t : ℚ} (h : t - v ≤ 9 / 10 ^ 11) : cmpTol R v .lt t = false := by
  by_cases hv : v < t
  · have h2 : close R v t = true := by
      unfold close
      have h3 : |v - t| ≤ 9 / 10 ^ 11 := by rw [abs_sub_comm, abs_of_pos (by linarith)]; exact h
      split
      · next h0 =>
        subst h0
        rw [sub_zero] at h3
        unfold closeToZero
        have := (zeroTol_bounds hR).1
        rw [decide_eq_true_eq]
        refine lt_of_le_of_lt h3 (lt_of_lt_of_le (by norm_num) this)
      · refine npClose_complete hR (h3.trans ?_)
        have := abs_nonneg t
        norm_num
        linarith
    simp [cmpTol, h2]
  · simp [cmpTol, hv]

theorem cmp_lt_true (hR : Fine R) {v t : ℚ} (h : 2 / 10 ^ 8 + 2 / 10 ^ 5 * |t| ≤ t - v) : cmpTol R v .lt t = true := by
  have ht := abs_nonneg t
  have hv : v < t := by
    have : (0 : ℚ) < 2 / 10 ^ 8 := by norm_num
    have : (0 : ℚ) ≤ 2 / 10 ^ 5 * |t| := by positivity
    linarith
  have h2 : close R v t = false := by
    rw [Bool.eq_false_iff]
    intro hc
    unfold close at hc
    split at hc
    · next h0 =>
      subst h0
      unfold closeToZero at hc
      rw [decide_eq_true_eq, abs_of_neg hv] at hc
      have := (zeroTol_bounds hR).2
      norm_num at h this hc
      linarith
    · have h3 := npClose_sound hR hc
      rw [abs_sub_comm, abs_of_pos (by linarith)] at h3
      norm_num at h h3
      linarith
  simp [cmpTol, h2, hv]

/-- The answers of the two comparisons with zero. -/
theorem le_zero_low (hR : Fine R) {v : ℚ} (h : v ≤ 9 / 10 ^ 11) : cmpTol R v .le 0 = true :=
  (cmp_le hR).mpr (lt_of_le_of_lt h (lt_of_lt_of_le (by norm_num) (zeroTol_bounds hR).1))

theorem le_zero_high (hR : Fine R) {v : ℚ} (h : 11 / 10 ^ 11 ≤ v) : cmpTol R v .le 0 = false := by
  rw [Bool.eq_false_iff, Ne, cmp_le hR, not_lt]
  exact (zeroTol_bounds hR).2.trans (le_trans (by norm_num) h)

theorem positive_low (hR : Fine R) {v : ℚ} (h : v ≤ 9 / 10 ^ 11) : positive R v = false := by
  rw [Bool.eq_false_iff, Ne, positive_iff hR, not_le]
  exact lt_of_le_of_lt h (lt_of_lt_of_le (by norm_num) (zeroTol_bounds hR).1)

theorem positive_high (hR : Fine R) {v : ℚ} (h : 11 / 10 ^ 11 ≤ v) : positive R v = true :=
  (positive_iff hR).mpr ((zeroTol_bounds hR).2.trans (le_trans (by norm_num) h))

theorem negative_low (hR : Fine R) {v : ℚ} (h : v ≤ -(11 / 10 ^ 11)) : negative R v = true := by
  rw [negative_iff hR]
  have := (zeroTol_bounds hR).2
  norm_num at h this
  linarith

theorem negative_high (hR : Fine R) {v : ℚ} (h : -(9 / 10 ^ 11) ≤ v) : negative R v = false := by
  rw [Bool.eq_false_iff, Ne, negative_iff hR, not_le]
  have := (zeroTol_bounds hR).1
  norm_num at h this
  linarith

/-! ### One iteration -/

/-- Two tables with nearly the same numbers. -/
structure TableNear (ε δ : ℚ) (C Q : LP m n) : Prop where
  A : ∀ i j, |Q.A i j - C.A i j| ≤ ε
  b : ∀ i, |Q.b i - C.b i| ≤ ε
  c : ∀ j, |Q.c j - C.c j| ≤ δ

/-- `t - v` is either far below the tolerance of a comparison or far above. -/
def Apart (ρ v t : ℚ) : Prop := t - v + 2 * ρ ≤ 9 / 10 ^ 11 ∨ 2 / 10 ^ 8 + 2 / 10 ^ 5 * |t| + 3 * ρ ≤ t - v

/-- No decision of an iteration with the table `C` is close: with `ε` for the accuracy of the table, `δ` for that
of the objective function, `ρ` for that of the ratios, `ξ` for that of the solution; `α` is the least entry of the entering
column that counts. Either all reduced costs are clearly not positive and every component of the solution is clearly
negative or clearly not; or some reduced cost is clearly positive and those before it clearly are not, and the ratio test in
its column leaves no doubt. -/
def Clear (ε δ α ρ ξ : ℚ) (C : LP m n) (B : Fin m → Fin n) : Prop :=
  ((∀ j, (∀ i, B i ≠ j) → C.c j + δ ≤ 9 / 10 ^ 11) ∧
    ∀ i, -(9 / 10 ^ 11) + ξ ≤ C.b i ∨ C.b i + ξ ≤ -(11 / 10 ^ 11)) ∨
  ∃ k, (∀ i, B i ≠ k) ∧ 11 / 10 ^ 11 + δ ≤ C.c k ∧ (∀ j < k, (∀ i, B i ≠ j) → C.c j + δ ≤ 9 / 10 ^ 11) ∧
    (∀ i, C.A i k + ε ≤ 9 / 10 ^ 11 ∨ α ≤ C.A i k) ∧
    ∀ i i', i' < i → α ≤ C.A i k → α ≤ C.A i' k → Apart ρ (C.b i / C.A i k) (C.b i' / C.A i' k)

/-- The same outcome, up to `ξ` in the solution and `ε`, `δ` in the table that an unbounded answer is read from. -/
def Follows (ε δ ξ : ℚ) : Except PyErr (Iter m n) → Except PyErr (Iter m n) → Prop
  | .error e, .error e' => e = e'
  | .ok (.optimal x l _), .ok (.optimal x' l' _) => l = l' ∧ ∀ j, |x j - x' j| ≤ ξ
  | .ok (.unbounded x B Q), .ok (.unbounded x' B' C) => B = B' ∧ (∀ j, |x j - x' j| ≤ ξ) ∧ TableNear ε δ C Q
  | .ok (.next l _), .ok (.next l' _) => l = l'
  | _, _ => False

theorem Apart.follow (hR : Fine R) {ρ v t v' t' : ℚ} (h : Apart ρ v t) (hv : |v' - v| ≤ ρ) (ht : |t' - t| ≤ ρ) :
    cmpTol R v' .lt t' = pyCmp v .lt t := by
  have hρ : 0 ≤ ρ := (abs_nonneg _).trans hv
  rw [← cmpTol_exact]
  obtain ⟨v1, v2⟩ := abs_le.mp hv
  obtain ⟨t1, t2⟩ := abs_le.mp ht
  rcases h with h | h
  · rw [cmp_lt_false hR (by linarith), cmp_lt_false fine_exact (by linarith)]
  · have h3 : |t'| ≤ |t| + ρ := by
      have := abs_add_le (t' - t) t
      rw [sub_add_cancel] at this
      linarith
    rw [cmp_lt_true hR (by norm_num at h ⊢; linarith), cmp_lt_true fine_exact (by linarith)]

theorem ratio_follow (hR : Fine R) {b Ak b' Ak' : Fin m → ℚ} {ρ : ℚ}
    (hpos : ∀ i, positive R (Ak' i) = isPositive (Ak i))
    (hval : ∀ i, isPositive (Ak i) = true → |R.rd (b' i / Ak' i) - b i / Ak i| ≤ ρ)
    (hcmp : ∀ i i', i' < i → isPositive (Ak i) = true → isPositive (Ak i') = true → Apart ρ (b i / Ak i) (b i' / Ak i')) :
    (fratioTest R b' Ak').2 = (ratioTest b Ak).2 := by
  have key : ∀ (l : List (Fin m)) (s s' : Option ℚ × Option (Fin m)), l.Pairwise (· < ·) →
      (s = (none, none) ∧ s' = (none, none) ∨ ∃ i, (∀ j ∈ l, i < j) ∧ isPositive (Ak i) = true ∧
        s = (some (R.rd (b' i / Ak' i)), some i) ∧ s' = (some (b i / Ak i), some i)) →
      (l.foldl (fun s i => if positive R (Ak' i) then
        if fratioLt R (R.rd (b' i / Ak' i)) s.1 then (some (R.rd (b' i / Ak' i)), some i) else s else s) s).2 =
      (l.foldl (fun s i => if isPositive (Ak i) then
        if ratioLt (b i / Ak i) s.1 then (some (b i / Ak i), some i) else s else s) s').2 := by
    intro l
    induction l with
    | nil =>
      rintro s s' - (⟨rfl, rfl⟩ | ⟨i, -, -, rfl, rfl⟩)
      · rfl
      · rfl
    | cons i l ih =>
      intro s s' hl hs
      obtain ⟨hl1, hl2⟩ := List.pairwise_cons.mp hl
      have hs' : s = (none, none) ∧ s' = (none, none) ∨ ∃ i, (∀ j ∈ l, i < j) ∧ isPositive (Ak i) = true ∧
          s = (some (R.rd (b' i / Ak' i)), some i) ∧ s' = (some (b i / Ak i), some i) := by
        rcases hs with h | ⟨i', h, h'⟩
        · exact Or.inl h
        · exact Or.inr ⟨i', fun j hj => h j (List.mem_cons_of_mem _ hj), h'⟩
      rw [List.foldl_cons, List.foldl_cons, hpos i]
      by_cases hp : isPositive (Ak i) = true
      · rw [if_pos hp, if_pos hp]
        have hlt : fratioLt R (R.rd (b' i / Ak' i)) s.1 = ratioLt (b i / Ak i) s'.1 := by
          rcases hs with ⟨rfl, rfl⟩ | ⟨i', hlt, hi', rfl, rfl⟩
          · rfl
          · exact (hcmp i i' (hlt i List.mem_cons_self) hp hi').follow hR (hval i hp) (hval i' hi')
        rw [hlt]
        by_cases hl : ratioLt (b i / Ak i) s'.1 = true
        · rw [if_pos hl, if_pos hl]
          exact ih _ _ hl2 (Or.inr ⟨i, hl1, hp, rfl, rfl⟩)
        · rw [if_neg hl, if_neg hl]
          exact ih _ _ hl2 hs'
      · rw [if_neg hp, if_neg hp]
        exact ih _ _ hl2 hs'
  unfold fratioTest ratioTest
  exact key _ _ _ (List.pairwise_lt_finRange m) (Or.inl ⟨rfl, rfl⟩)

theorem find_first {l : List (Fin n)} (hl : l.Pairwise (· < ·)) {f : Fin n → Bool} {k : Fin n} (hk : k ∈ l)
    (hf : f k = true) (hlt : ∀ j ∈ l, j < k → f j = false) : l.find? f = some k := by
  induction l with
  | nil => cases hk
  | cons a l ih =>
    obtain ⟨h1, h2⟩ := List.pairwise_cons.mp hl
    rw [List.find?_cons]
    rcases List.mem_cons.mp hk with rfl | hk
    · rw [hf]
    · rw [hlt a List.mem_cons_self (h1 k hk)]
      exact ih h2 hk fun j hj => hlt j (List.mem_cons_of_mem _ hj)

/-- An iteration on a table with nearly the same numbers takes the same decisions. -/
theorem iter_follow {L : Lapack R} (hR : Fine R) {C Q : LP m n} {B : Fin m → Fin n} {T : Matrix (Fin m) (Fin m) ℚ}
    {ε δ α ρ ξ : ℚ} (hB : Function.Injective B) (hone : colSel C.A B = 1) (hinv : L.inv (colSel Q.A B) = .ok T)
    (hx : ∀ i, |L.mulVec T Q.b i - C.b i| ≤ ξ) (hnear : TableNear ε δ C Q) (hε : 0 ≤ ε) (hα : 11 / 10 ^ 11 + ε ≤ α) (hξ : 0 ≤ ξ)
    (hval : ∀ i k, α ≤ C.A i k → |R.rd (Q.b i / Q.A i k) - C.b i / C.A i k| ≤ ρ) (hclear : Clear ε δ α ρ ξ C B) :
    Follows ε δ ξ (fiterStep L Q (colsList B) B) (iterStep C (colsList B) B) := by
  have hmv : (npInv (colSel C.A B)).mulVec C.b = C.b := by rw [hone, npInv_one, Matrix.one_mulVec]
  have hx' : ∀ j, |assign B (L.mulVec T Q.b) j - assign B C.b j| ≤ ξ := by
    intro j
    by_cases hj : ∃ i, B i = j
    · obtain ⟨i, rfl⟩ := hj
      rw [assign_apply hB, assign_apply hB]
      exact hx i
    · push Not at hj
      rw [assign_off hB _ hj, assign_off hB _ hj, sub_zero, abs_zero]
      exact hξ
  have hnb : ∀ j : Fin n, (!decide (((j : ℕ) : ℤ) ∈ colsList B)) = true ↔ ∀ i, B i ≠ j := by
    intro j
    rw [Bool.not_eq_true', decide_eq_false_iff_not, mem_colsList']
    push Not
    rfl
  unfold fiterStep iterStep
  simp only [hinv, hmv]
  rcases hclear with ⟨hlow, hbasics⟩ | ⟨k, hk, hkc, hbefore, hcol, hratios⟩
  · have hneg : ∀ j, negative R (assign B (L.mulVec T Q.b) j) = isNegative (assign B C.b j) := by
      intro j
      rw [← negative_exact]
      obtain ⟨e1, e2⟩ := abs_le.mp (hx' j)
      by_cases hj : ∃ i, B i = j
      · obtain ⟨i, rfl⟩ := hj
        rw [assign_apply hB C.b] at e1 e2 ⊢
        rcases hbasics i with h | h
        · rw [negative_high hR (by linarith), negative_high fine_exact (by linarith)]
        · rw [negative_low hR (by linarith), negative_low fine_exact (by linarith)]
      · push Not at hj
        rw [assign_off hB _ hj, assign_off hB _ hj, negative_high hR (by norm_num), negative_high fine_exact (by norm_num)]
    have g1 : (((List.finRange n).filter fun j : Fin n => !decide (((j : ℕ) : ℤ) ∈ colsList B)).all
        fun j => cmpTol R (Q.c j) .le 0) = true := by
      rw [List.all_eq_true]
      intro j hj
      obtain ⟨e1, e2⟩ := abs_le.mp (hnear.c j)
      have := hlow j ((hnb j).mp (List.mem_filter.mp hj).2)
      rw [le_zero_low hR (by linarith)]
    have g2 : (((List.finRange n).filter fun j : Fin n => !decide (((j : ℕ) : ℤ) ∈ colsList B)).all
        fun j => pyCmp (C.c j) .le 0) = true := by
      rw [List.all_eq_true]
      intro j hj
      have hδ : 0 ≤ δ := (abs_nonneg _).trans (hnear.c j)
      have := hlow j ((hnb j).mp (List.mem_filter.mp hj).2)
      rw [← cmpTol_exact, le_zero_low fine_exact (by linarith)]
    rw [if_pos g1, if_pos g2]
    simp only [hneg]
    split
    · rfl
    · exact ⟨rfl, hx'⟩
  · have hmem : k ∈ (List.finRange n).filter fun j : Fin n => !decide (((j : ℕ) : ℤ) ∈ colsList B) :=
      List.mem_filter.mpr ⟨List.mem_finRange k, (hnb k).mpr hk⟩
    obtain ⟨ek1, ek2⟩ := abs_le.mp (hnear.c k)
    have hδ : 0 ≤ δ := (abs_nonneg _).trans (hnear.c k)
    have hsorted : ((List.finRange n).filter fun j : Fin n => !decide (((j : ℕ) : ℤ) ∈ colsList B)).Pairwise (· < ·) :=
      (List.pairwise_lt_finRange n).filter _
    have f1 : (((List.finRange n).filter fun j : Fin n => !decide (((j : ℕ) : ℤ) ∈ colsList B)).find?
        fun j => positive R (Q.c j)) = some k := by
      refine find_first hsorted hmem (positive_high hR (by linarith)) fun j hj hjk => ?_
      obtain ⟨e1, e2⟩ := abs_le.mp (hnear.c j)
      have := hbefore j hjk ((hnb j).mp (List.mem_filter.mp hj).2)
      exact positive_low hR (by linarith)
    have f2 : (((List.finRange n).filter fun j : Fin n => !decide (((j : ℕ) : ℤ) ∈ colsList B)).find?
        fun j => isPositive (C.c j)) = some k := by
      refine find_first hsorted hmem (positive_high fine_exact (by linarith)) fun j hj hjk => ?_
      have := hbefore j hjk ((hnb j).mp (List.mem_filter.mp hj).2)
      exact positive_low fine_exact (by linarith)
    have g1 : ¬ (((List.finRange n).filter fun j : Fin n => !decide (((j : ℕ) : ℤ) ∈ colsList B)).all
        fun j => cmpTol R (Q.c j) .le 0) = true := by
      rw [List.all_eq_true]
      intro h
      have := h k hmem
      rw [le_zero_high hR (by linarith)] at this
      cases this
    have g2 : ¬ (((List.finRange n).filter fun j : Fin n => !decide (((j : ℕ) : ℤ) ∈ colsList B)).all
        fun j => pyCmp (C.c j) .le 0) = true := by
      rw [List.all_eq_true]
      intro h
      have := h k hmem
      rw [← cmpTol_exact, le_zero_high fine_exact (by linarith)] at this
      cases this
    rw [if_neg g1, if_neg g2, f1, f2]
    simp only
    have hA : ∀ i, cmpTol R (Q.A i k) .le 0 = pyCmp (C.A i k) .le 0 := by
      intro i
      obtain ⟨e1, e2⟩ := abs_le.mp (hnear.A i k)
      rw [← cmpTol_exact]
      rcases hcol i with h | h
      · rw [le_zero_low hR (by linarith), le_zero_low fine_exact (by linarith)]
      · rw [le_zero_high hR (by linarith), le_zero_high fine_exact (by linarith)]
    have hAp : ∀ i, positive R (Q.A i k) = isPositive (C.A i k) := by
      intro i
      obtain ⟨e1, e2⟩ := abs_le.mp (hnear.A i k)
      rw [← positive_exact]
      rcases hcol i with h | h
      · rw [positive_low hR (by linarith), positive_low fine_exact (by linarith)]
      · rw [positive_high hR (by linarith), positive_high fine_exact (by linarith)]
    have hαi : ∀ i, isPositive (C.A i k) = true → α ≤ C.A i k := by
      intro i hi
      rcases hcol i with h | h
      · rw [← positive_exact, positive_low fine_exact (by linarith)] at hi
        cases hi
      · exact h
    have hr := ratio_follow (b := C.b) (Ak := fun i => C.A i k) (b' := Q.b) (Ak' := fun i => Q.A i k) (ρ := ρ) hR hAp
      (fun i hi => hval i k (hαi i hi)) fun i i' hii hi hi' => hratios i i' hii (hαi i hi) (hαi i' hi')
    simp only [hA, hr]
    split
    · exact ⟨rfl, hx', hnear⟩
    · cases (ratioTest C.b fun i => C.A i k).2 with
      | none => rfl
      | some r => rfl

end Floating
end Pytimize
