/-
Lemmas about the printed program: the text read back.
-/
import Verif.LP.FormatProof
import Verif.Props.Parser

namespace Pytimize
namespace Props
open LinProg

variable {m n : ℕ}

/-! ### Words, brackets, lines -/

theorem words_nil : words [] = [] := by simp [words]

theorem words_append_space (s t : List Char) : words (s ++ ' ' :: t) = words s ++ words t := by
  unfold words
  rw [List.splitOn_append_cons_self, List.filter_append]

theorem words_space (s : List Char) : words (' ' :: s) = words s := by
  have := words_append_space [] s
  rw [words_nil] at this
  exact this

theorem words_spaces (k : ℕ) (s : List Char) : words (List.replicate k ' ' ++ s) = words s := by
  induction k with
  | zero => rfl
  | succ k ih => rw [List.replicate_succ, List.cons_append, words_space, ih]

theorem words_spaces_right (k : ℕ) (s : List Char) : words (s ++ List.replicate k ' ') = words s := by
  induction k with
  | zero => simp
  | succ k ih =>
    rw [List.replicate_succ, words_append_space]
    have h := words_spaces k []
    rw [List.append_nil] at h
    rw [h, words_nil, List.append_nil]

theorem words_word {w : List Char} (h0 : w ≠ []) (h : ' ' ∉ w) : words w = [w] := by
  unfold words
  rw [List.splitOn_eq_singleton h]
  simp [h0]

theorem inside_eq {p b t : List Char} (hp : '[' ∉ p) (hb : ']' ∉ b) : inside (p ++ '[' :: (b ++ ']' :: t)) = b := by
  unfold inside
  have h1 : (p ++ '[' :: (b ++ ']' :: t)).dropWhile (· ≠ '[') = '[' :: (b ++ ']' :: t) := by
    rw [List.dropWhile_append_of_pos]
    · simp
    · intro x hx
      simp only [ne_eq, decide_not, Bool.not_eq_true', decide_eq_false_iff_not]
      rintro rfl; exact hp hx
  rw [h1, List.tail_cons, List.takeWhile_append_of_pos]
  · simp
  · intro x hx
    simp only [ne_eq, decide_not, Bool.not_eq_true', decide_eq_false_iff_not]
    rintro rfl; exact hb hx

theorem behind_eq {p t : List Char} (hp : ']' ∉ p) : behind (p ++ ']' :: t) = t := by
  unfold behind
  rw [List.dropWhile_append_of_pos]
  · simp
  · intro x hx
    simp only [ne_eq, decide_not, Bool.not_eq_true', decide_eq_false_iff_not]
    rintro rfl; exact hp hx

theorem lines_flatten (rows : List (List Char)) (t : List Char) (h : ∀ r ∈ rows, '\n' ∉ r) :
    ((rows.map (· ++ ['\n'])).flatten ++ t).splitOn '\n' = rows ++ t.splitOn '\n' := by
  induction rows with
  | nil => rfl
  | cons r rows ih =>
    have hr := h r (by simp)
    rw [List.map_cons, List.flatten_cons, List.append_assoc, List.append_assoc, List.cons_append, List.nil_append,
      List.splitOn_append_cons_self_of_not_mem hr, ih fun r hr => h r (by simp [hr]), List.cons_append]

theorem mapM_some {α β : Type} {f : α → Option β} {g : α → β} {l : List α} (h : ∀ x ∈ l, f x = some (g x)) :
    l.mapM f = some (l.map g) := by
  induction l with
  | nil => rfl
  | cons a l ih =>
    rw [List.mapM_cons, h a (by simp), ih fun x hx => h x (by simp [hx])]
    rfl

/-! ### Numbers -/

/-- The number read from the printed form. -/
def shown (q : ℚ) : ℚ := (readNum (numberText q)).getD 0

theorem readNum_numberText (q : ℚ) : readNum (numberText q) = some (shown q) := by
  obtain ⟨v, a, d, -, -, -, hv, -⟩ := numberText_spec q
  unfold shown
  rw [hv]; rfl

theorem shown_close (q : ℚ) : Shows (shown q) q := by
  obtain ⟨v, a, d, -, -, -, hv, hc⟩ := numberText_spec q
  unfold Shows shown
  rw [hv]
  exact hc

theorem numChar_ne {c x : Char} (h : NumChar c) (hx : x.isDigit = false ∧ x ≠ '-' ∧ x ≠ 'e' ∧ x ≠ '+') : c ≠ x := by
  rintro rfl
  rcases h with h | h | h | h
  · rw [hx.1] at h; exact Bool.noConfusion h
  · exact hx.2.1 h
  · exact hx.2.2.1 h
  · exact hx.2.2.2 h

theorem numberText_not_mem {q : ℚ} {x : Char}
    (hx : (x.isDigit = false ∧ x ≠ '-' ∧ x ≠ 'e' ∧ x ≠ '+') ∧ x ≠ '.') : x ∉ numberText q := by
  obtain ⟨v, a, d, hs, -, hc, -, -⟩ := numberText_spec q
  rw [hs]
  intro h
  rcases List.mem_append.mp h with h | h
  · exact numChar_ne (hc x (by simp [h])) hx.1 rfl
  · rcases List.mem_cons.mp h with h | h
    · exact hx.2 h
    · exact numChar_ne (hc x (by simp [h])) hx.1 rfl

theorem numberText_ne_nil (q : ℚ) : numberText q ≠ [] := by
  obtain ⟨v, a, d, hs, -, -, -, -⟩ := numberText_spec q
  rw [hs]; simp

theorem formatNumber_ok (q : ℚ) : ∃ a d : List Char, numberText q = a ++ '.' :: d ∧ '.' ∉ a ∧ '.' ∉ d ∧
    formatNumber q = .ok (numberText q, a.length, d.length) := by
  obtain ⟨v, a, d, hs, h0, hc, -, -⟩ := numberText_spec q
  have ha : '.' ∉ a := fun h => numChar_ne (hc '.' (by simp [h])) (by decide) rfl
  have hd : '.' ∉ d := fun h => numChar_ne (hc '.' (by simp [h])) (by decide) rfl
  refine ⟨a, d, hs, ha, hd, ?_⟩
  unfold formatNumber
  simp only
  have hsp : (numberText q).splitOn '.' = [a, d] := by
    rw [hs, List.splitOn_append_cons_self_of_not_mem ha, List.splitOn_eq_singleton hd]
  rw [hsp]

/-- The characters before the point. -/
noncomputable def intPart (q : ℚ) : List Char := (formatNumber_ok q).choose

/-- The characters behind the point. -/
noncomputable def decPart (q : ℚ) : List Char := (formatNumber_ok q).choose_spec.choose

/-- What `_format_number` returns. -/
noncomputable def formatted (q : ℚ) : List Char × ℕ × ℕ := (numberText q, (intPart q).length, (decPart q).length)

theorem numberText_parts (q : ℚ) : numberText q = intPart q ++ '.' :: decPart q :=
  (formatNumber_ok q).choose_spec.choose_spec.1

theorem intPart_point (q : ℚ) : '.' ∉ intPart q := (formatNumber_ok q).choose_spec.choose_spec.2.1

theorem decPart_point (q : ℚ) : '.' ∉ decPart q := (formatNumber_ok q).choose_spec.choose_spec.2.2.1

theorem formatNumber_eq (q : ℚ) : formatNumber q = .ok (formatted q) :=
  (formatNumber_ok q).choose_spec.choose_spec.2.2.2

theorem formatAll_eq {ι : Type} [Fintype ι] (v : ι → ℚ) : formatAll v = .ok fun i => formatted (v i) := by
  unfold formatAll
  have h : ∀ i, (formatNumber (v i)).toOption.isSome := fun i => by rw [formatNumber_eq]; rfl
  rw [dif_pos h]
  congr 1
  funext i
  simp only [formatNumber_eq]
  rfl

/-! ### Cells -/

theorem cellText_eq (iw dw : ℕ) (q : ℚ) :
    cellText iw dw (formatted q) = List.replicate (iw - (intPart q).length) ' ' ++ numberText q ++
      List.replicate (dw - (decPart q).length) ' ' := by
  unfold cellText formatted
  simp only
  have h1 : (numberText q).take ((intPart q).length + 1) = intPart q ++ ['.'] := by
    rw [numberText_parts, List.take_append]
    simp
  have h2 : (numberText q).drop ((numberText q).length - (decPart q).length) = decPart q := by
    rw [numberText_parts, List.length_append, List.length_cons,
      show (intPart q).length + ((decPart q).length + 1) - (decPart q).length = (intPart q).length + 1 by omega,
      List.drop_append]
    simp
  rw [h1, h2]
  conv_rhs => rw [numberText_parts]
  by_cases h : (decPart q).length = 0
  · rw [if_pos h, h]
    have : decPart q = [] := List.eq_nil_of_length_eq_zero h
    simp [this]
  · rw [if_neg h]
    simp

theorem cell_words (iw dw : ℕ) (q : ℚ) : words (cellText iw dw (formatted q)) = [numberText q] := by
  rw [cellText_eq, words_spaces_right, words_spaces, words_word (numberText_ne_nil q) (numberText_not_mem (by decide))]

theorem cell_not_mem {iw dw : ℕ} {q : ℚ} {x : Char}
    (hx : (x.isDigit = false ∧ x ≠ '-' ∧ x ≠ 'e' ∧ x ≠ '+') ∧ x ≠ '.') (hs : x ≠ ' ') :
    x ∉ cellText iw dw (formatted q) := by
  rw [cellText_eq]
  simp only [List.mem_append, List.mem_replicate, not_or, not_and]
  exact ⟨⟨fun _ => hs, numberText_not_mem hx⟩, fun _ => hs⟩

theorem join_words (sep : List Char) (hsep : sep = [' '] ∨ sep = [' ', ' ']) {α : Type} (l : List α)
    (f : α → List Char) (g : α → List Char) (h : ∀ x ∈ l, words (f x) = [g x]) :
    words (joinChars sep (l.map f)) = l.map g := by
  induction l with
  | nil => simp [joinChars, words_nil]
  | cons a l ih =>
    have ih := ih fun x hx => h x (by simp [hx])
    have ha := h a (by simp)
    cases l with
    | nil => simp [joinChars, ha]
    | cons b l =>
      have e : joinChars sep ((a :: b :: l).map f) = f a ++ sep ++ joinChars sep ((b :: l).map f) := rfl
      rw [e]
      rcases hsep with rfl | rfl
      · rw [List.append_assoc, List.cons_append, List.nil_append, words_append_space, ha, ih]; rfl
      · rw [List.append_assoc, List.cons_append, List.cons_append, List.nil_append, words_append_space,
          words_space, ha, ih]; rfl

theorem join_not_mem {x : Char} {sep : List Char} (hs : x ∉ sep) {l : List (List Char)} (h : ∀ s ∈ l, x ∉ s) :
    x ∉ joinChars sep l := by
  induction l with
  | nil => simp [joinChars]
  | cons a l ih =>
    cases l with
    | nil => simpa [joinChars] using h a (by simp)
    | cons b l =>
      rw [joinChars]
      simp only [List.mem_append, not_or]
      exact ⟨⟨h a (by simp), hs⟩, ih fun s hs' => h s (by simp [hs'])⟩
      simp

/-! ### Rows -/

/-- The cells of the printed row `i`. -/
noncomputable def rowCells (P : LP m n) (i : Fin m) : List Char :=
  joinChars [' ', ' '] ((List.finRange n).map fun j =>
    cellText (columnSpaces ((List.finRange m).map fun r => formatted (P.A r j))).1
      (columnSpaces ((List.finRange m).map fun r => formatted (P.A r j))).2 (formatted (P.A i j)))

/-- The printed right-hand side of row `i`. -/
noncomputable def rowRhs (P : LP m n) (i : Fin m) : List Char :=
  cellText (columnSpaces ((List.finRange m).map fun r => formatted (P.b r))).1
    (columnSpaces ((List.finRange m).map fun r => formatted (P.b r))).2 (formatted (P.b i))

/-- The printed row `i`. -/
noncomputable def shownLine (P : LP m n) (i : Fin m) : List Char :=
  rowLine P (fun i j => formatted (P.A i j)) (fun i => formatted (P.b i)) i

/-- What stands between the brackets of a row. -/
def middle (P : LP m n) (i : Fin m) : List Char :=
  (if (i : ℕ) = m / 2 then 'x' else ' ') :: [' ', ' ', ' ', ' ', opChar (P.ineq i), ' ', ' ', ' ']

theorem shownLine_eq (P : LP m n) (i : Fin m) :
    shownLine P i = [] ++ '[' :: (rowCells P i ++ ']' :: (middle P i ++ '[' :: (rowRhs P i ++ ']' :: []))) := by
  unfold shownLine rowLine middle rowCells rowRhs
  simp

theorem rowCells_not_mem (P : LP m n) (i : Fin m) {x : Char}
    (hx : (x.isDigit = false ∧ x ≠ '-' ∧ x ≠ 'e' ∧ x ≠ '+') ∧ x ≠ '.') (hs : x ≠ ' ') : x ∉ rowCells P i := by
  unfold rowCells
  apply join_not_mem
  · simp [hs]
  · intro s h
    obtain ⟨j, -, rfl⟩ := List.mem_map.mp h
    exact cell_not_mem hx hs

theorem rowRhs_not_mem (P : LP m n) (i : Fin m) {x : Char}
    (hx : (x.isDigit = false ∧ x ≠ '-' ∧ x ≠ 'e' ∧ x ≠ '+') ∧ x ≠ '.') (hs : x ≠ ' ') : x ∉ rowRhs P i :=
  cell_not_mem hx hs

theorem middle_not_mem (P : LP m n) (i : Fin m) {x : Char} (hx : x ≠ 'x' ∧ x ≠ ' ' ∧ x ≠ '≥' ∧ x ≠ '≤' ∧ x ≠ '=') :
    x ∉ middle P i := by
  unfold middle
  have h1 : x ≠ (if (i : ℕ) = m / 2 then 'x' else ' ') := by split <;> simp [hx]
  have h2 : x ≠ opChar (P.ineq i) := by
    unfold opChar
    cases P.ineq i <;> simp [hx]
  simp [h1, h2, hx]

theorem shownLine_newline (P : LP m n) (i : Fin m) : '\n' ∉ shownLine P i := by
  rw [shownLine_eq]
  simp only [List.nil_append, List.mem_cons, List.mem_append, not_or, List.not_mem_nil, not_false_eq_true, and_true]
  exact ⟨by decide, rowCells_not_mem P i (by decide) (by decide), by decide, middle_not_mem P i (by decide), by decide,
    rowRhs_not_mem P i (by decide) (by decide), by decide⟩

theorem readOp_behind (P : LP m n) (i : Fin m) :
    readOp (middle P i ++ '[' :: (rowRhs P i ++ ']' :: [])) = some (P.ineq i) := by
  have h0 : (rowRhs P i).filter (fun c => c = '≥' ∨ c = '≤' ∨ c = '=') = [] := by
    rw [List.filter_eq_nil_iff]
    intro c hc
    simp only [decide_eq_true_eq, not_or]
    refine ⟨?_, ?_, ?_⟩ <;> rintro rfl
    · exact rowRhs_not_mem P i (by decide) (by decide) hc
    · exact rowRhs_not_mem P i (by decide) (by decide) hc
    · exact rowRhs_not_mem P i (by decide) (by decide) hc
  have h1 : (middle P i).filter (fun c => c = '≥' ∨ c = '≤' ∨ c = '=') = [opChar (P.ineq i)] := by
    unfold middle opChar
    split <;> cases P.ineq i <;> decide
  unfold readOp
  rw [List.filter_append, h1, List.filter_cons_of_neg (by decide), List.filter_append, h0]
  unfold opChar
  cases P.ineq i <;> rfl

/-- A printed row read back. -/
theorem readRow_shownLine (P : LP m n) (i : Fin m) :
    readRow (shownLine P i) = some ⟨(List.finRange n).map fun j => shown (P.A i j), P.ineq i, shown (P.b i)⟩ := by
  have hw : words (inside (shownLine P i)) = (List.finRange n).map fun j => numberText (P.A i j) := by
    rw [shownLine_eq, inside_eq (by simp) (rowCells_not_mem P i (by decide) (by decide))]
    exact join_words _ (Or.inr rfl) _ _ _ fun j _ => cell_words _ _ _
  have hb : behind (shownLine P i) = middle P i ++ '[' :: (rowRhs P i ++ ']' :: []) := by
    rw [shownLine_eq, List.nil_append, ← List.cons_append]
    refine behind_eq ?_
    simp only [List.mem_cons, not_or]
    exact ⟨by decide, rowCells_not_mem P i (by decide) (by decide)⟩
  have hr : words (inside (behind (shownLine P i))) = [numberText (P.b i)] := by
    rw [hb, inside_eq (middle_not_mem P i (by decide)) (rowRhs_not_mem P i (by decide) (by decide))]
    exact cell_words _ _ _
  unfold readRow
  rw [hw, List.mapM_map, mapM_some (f := readNum ∘ fun j => numberText (P.A i j)) (g := fun j => shown (P.A i j)) fun j _ => readNum_numberText _]
  rw [hr, hb, readOp_behind]
  simp only [readNum_numberText]
  rfl

/-! ### The objective -/

/-- The printed objective. -/
def shownObjective (P : LP m n) : List Char :=
  objectiveLine P ((List.finRange n).map fun j => numberText (P.c j)) (numberText |P.z|)

/-- `Max ` / `Min `. -/
def goalChars (P : LP m n) : List Char :=
  if P.objective = .min then ['M', 'i', 'n', ' '] else ['M', 'a', 'x', ' ']

/-- The printed constant. -/
def constantChars (P : LP m n) : List Char :=
  if Comparator.isCloseToZero P.z then []
  else ' ' :: (if Comparator.isNegative P.z then '-' else '+') :: ' ' :: numberText |P.z|

theorem shownObjective_eq (P : LP m n) :
    shownObjective P = goalChars P ++ '[' :: (joinChars [' '] ((List.finRange n).map fun j => numberText (P.c j)) ++
      ']' :: ('x' :: constantChars P)) := by
  unfold shownObjective objectiveLine goalChars constantChars
  split <;> simp

theorem costs_not_mem (P : LP m n) {x : Char}
    (hx : (x.isDigit = false ∧ x ≠ '-' ∧ x ≠ 'e' ∧ x ≠ '+') ∧ x ≠ '.') (hs : x ≠ ' ') :
    x ∉ joinChars [' '] ((List.finRange n).map fun j => numberText (P.c j)) := by
  apply join_not_mem
  · simp [hs]
  · intro s h
    obtain ⟨j, -, rfl⟩ := List.mem_map.mp h
    exact numberText_not_mem hx

theorem goal_not_mem (P : LP m n) {x : Char} (h : x ∉ ['M', 'i', 'n', 'a', 'x', ' ']) : x ∉ goalChars P := by
  unfold goalChars
  simp only [List.mem_cons, not_or] at h
  split <;> simp [h]

theorem constant_not_mem (P : LP m n) {x : Char}
    (hx : (x.isDigit = false ∧ x ≠ '-' ∧ x ≠ 'e' ∧ x ≠ '+') ∧ x ≠ '.') (hs : x ≠ ' ') : x ∉ constantChars P := by
  unfold constantChars
  split
  · simp
  · simp only [List.mem_cons, not_or]
    refine ⟨hs, ?_, hs, numberText_not_mem hx⟩
    split
    · exact hx.1.2.1
    · exact hx.1.2.2.2

theorem objective_words (P : LP m n) :
    (words (inside (shownObjective P))).mapM readNum = some ((List.finRange n).map fun j => shown (P.c j)) := by
  rw [shownObjective_eq, inside_eq (goal_not_mem P (by decide)) (costs_not_mem P (by decide) (by decide)),
    join_words [' '] (Or.inl rfl) _ _ (fun j => numberText (P.c j))
      fun j _ => words_word (numberText_ne_nil _) (numberText_not_mem (by decide)),
    List.mapM_map, mapM_some (f := readNum ∘ fun j => numberText (P.c j)) (g := fun j => shown (P.c j)) fun j _ => readNum_numberText _]

theorem objective_goal (P : LP m n) : readGoal (shownObjective P) = some P.objective := by
  rw [shownObjective_eq]
  unfold readGoal goalChars
  cases h : P.objective <;> rfl

/-- The constant read from the text. -/
def shownConstant (P : LP m n) : ℚ :=
  if Comparator.isCloseToZero P.z then 0
  else if Comparator.isNegative P.z then -shown |P.z| else shown |P.z|

theorem objective_constant (P : LP m n) : readConstant (behind (shownObjective P)) = some (shownConstant P) := by
  have hb : behind (shownObjective P) = 'x' :: constantChars P := by
    rw [shownObjective_eq, show ∀ b t : List Char, goalChars P ++ '[' :: (b ++ ']' :: t) =
      (goalChars P ++ '[' :: b) ++ ']' :: t from fun b t => by simp]
    refine behind_eq ?_
    simp only [List.mem_append, List.mem_cons, not_or]
    exact ⟨goal_not_mem P (by decide), by decide, costs_not_mem P (by decide) (by decide)⟩
  rw [hb]
  unfold readConstant constantChars shownConstant
  by_cases h1 : Comparator.isCloseToZero P.z = true
  · rw [if_pos h1, if_pos h1, words_word (by simp) (by simp)]
    rfl
  · rw [if_neg h1, if_neg h1]
    have hw : ∀ c : Char, c ≠ ' ' → words ('x' :: ' ' :: c :: ' ' :: numberText |P.z|) =
        [['x'], [c], numberText |P.z|] := by
      intro c hc
      have e : 'x' :: ' ' :: c :: ' ' :: numberText |P.z| = ['x'] ++ ' ' :: ([c] ++ ' ' :: numberText |P.z|) := rfl
      rw [e, words_append_space, words_append_space, words_word (by simp) (by simp),
        words_word (by simp) (by simpa using Ne.symm hc),
        words_word (numberText_ne_nil _) (numberText_not_mem (by decide))]
      rfl
    by_cases h2 : Comparator.isNegative P.z = true
    · rw [if_pos h2, if_pos h2, hw _ (by decide)]
      simp only [readNum_numberText]
      rfl
    · rw [if_neg h2, if_neg h2, hw _ (by decide)]
      simp only [readNum_numberText]

theorem constant_close (P : LP m n) : Shows (shownConstant P) P.z := by
  unfold shownConstant
  split_ifs with h1 h2
  · have := Comparator.isCloseToZero_iff.mp h1
    unfold Shows
    rw [if_pos (by rw [Comparator.tol] at this; exact this)]
  · have hz : P.z < 0 := by
      unfold Comparator.isNegative Comparator.pyCmp at h2
      simp only [Bool.and_eq_true, decide_eq_true_eq] at h2
      exact h2.2
    have hs := shown_close |P.z|
    unfold Shows at hs ⊢
    rw [abs_abs] at hs
    split_ifs at hs ⊢ with h3
    · rw [hs, neg_zero]
    · rw [← abs_neg]
      have e : -(-shown |P.z| - P.z) = shown |P.z| - |P.z| := by rw [abs_of_neg hz]; ring
      rw [e]
      exact hs
  · have hz : 0 ≤ P.z := by
      by_contra hc
      apply h2
      unfold Comparator.isNegative Comparator.pyCmp
      simp only [Bool.and_eq_true, decide_eq_true_eq, Bool.not_eq_true']
      exact ⟨by simpa [Comparator.closeTo] using h1, lt_of_not_ge hc⟩
    have hs := shown_close |P.z|
    rw [abs_of_nonneg hz] at hs ⊢
    exact hs

/-! ### The signs -/

theorem subscript_append (s t : List Char) : Parser.subscript (s ++ t) = Parser.subscript s ++ Parser.subscript t := by
  simp [Parser.subscript]

theorem subscript_cons {c : Char} (h : c.isDigit = false) (s : List Char) :
    Parser.subscript (c :: s) = c :: Parser.subscript s := by
  simp only [Parser.subscript, List.map_cons]
  rw [lookup_other h]
  rfl

theorem subscript_char {c : Char} (h : c.isDigit = true) :
    ((Parser.subscriptTable.lookup c).getD c).toNat = c.toNat - 48 + 0x2080 ∧ c.toNat - 48 ≤ 9 := by
  obtain ⟨d, hd, rfl⟩ := digit_cases h
  rw [lookup_digit d hd]
  have : ∀ d < 10, (subscriptDigit d).toNat = (Char.ofNat (48 + d)).toNat - 48 + 0x2080 ∧
      (Char.ofNat (48 + d)).toNat - 48 ≤ 9 := by decide
  exact this d hd

theorem readSubscript_eq {s : List Char} (h0 : s ≠ []) (h : ∀ c ∈ s, c.isDigit = true) :
    readSubscript (Parser.subscript s) = some (digitsVal s) := by
  unfold readSubscript
  have hall : (Parser.subscript s).all (fun c => 0x2080 ≤ c.toNat ∧ c.toNat ≤ 0x2089) = true := by
    rw [List.all_eq_true]
    intro c hc
    obtain ⟨d, hd, rfl⟩ := List.mem_map.mp hc
    have := subscript_char (h d hd)
    simp only [decide_eq_true_eq]
    omega
  have hne : Parser.subscript s ≠ [] := by
    unfold Parser.subscript
    simpa using h0
  rw [if_pos ⟨hne, hall⟩]
  have key : ∀ (t : List Char), (∀ c ∈ t, c.isDigit = true) → ∀ a : ℕ,
      (Parser.subscript t).foldl (fun a c => 10 * a + (c.toNat - 0x2080)) a =
        t.foldl (fun a c => 10 * a + (c.toNat - 48)) a := by
    intro t
    induction t with
    | nil => intro _ a; simp [Parser.subscript]
    | cons c t ih =>
      intro ht a
      have hc := (subscript_char (ht c (by simp))).1
      have e : Parser.subscript (c :: t) = ((Parser.subscriptTable.lookup c).getD c) :: Parser.subscript t := rfl
      rw [e, List.foldl_cons, List.foldl_cons, hc, Nat.add_sub_cancel]
      exact ih (fun c hc => ht c (by simp [hc])) _
  exact congrArg some (key s h 0)

/-- The printed name of variable `i`. -/
def nameOf (i : ℕ) : List Char := 'x' :: Parser.subscript (natChars i)

theorem subscript_natChars_char {i : ℕ} {c : Char} (h : c ∈ Parser.subscript (natChars i)) :
    0x2080 ≤ c.toNat ∧ c.toNat ≤ 0x2089 := by
  obtain ⟨d, hd, rfl⟩ := List.mem_map.mp h
  have := subscript_char (natChars_digit d hd)
  omega

theorem subscript_natChars_not_mem {i : ℕ} {c : Char} (h : c.toNat < 0x2080 ∨ 0x2089 < c.toNat) :
    c ∉ Parser.subscript (natChars i) := by
  intro hc
  have := subscript_natChars_char hc
  omega

theorem nameOf_not_mem {i : ℕ} {c : Char} (h : (c.toNat < 0x2080 ∨ 0x2089 < c.toNat) ∧ c ≠ 'x') : c ∉ nameOf i := by
  unfold nameOf
  simp only [List.mem_cons, not_or]
  exact ⟨h.2, subscript_natChars_not_mem h.1⟩

theorem readName_nameOf (i : ℕ) : readName (nameOf i) = some i ∧ readName (nameOf i ++ [',']) = some i := by
  have hf : (nameOf i).filter (· ≠ ',') = nameOf i := by
    rw [List.filter_eq_self]
    intro c hc
    simp only [ne_eq, decide_not, Bool.not_eq_true', decide_eq_false_iff_not]
    rintro rfl
    exact nameOf_not_mem (by decide) hc
  have hr : readSubscript (Parser.subscript (natChars i)) = some i := by
    rw [readSubscript_eq natChars_ne_nil natChars_digit, digitsVal_natChars]
  constructor
  · unfold readName
    rw [hf]
    exact hr
  · unfold readName
    rw [List.filter_append, hf, List.filter_cons_of_neg (by decide), List.filter_nil, List.append_nil]
    exact hr

theorem nameList_cons (i : ℕ) (l : List ℕ) :
    nameList (i :: l) = nameOf i ++ (if l = [] then [] else [',', ' '] ++ nameList l) := by
  unfold nameList
  cases l with
  | nil =>
    simp only [List.map_cons, List.map_nil, joinChars, if_pos, List.append_nil]
    rw [subscript_cons (by decide)]; rfl
  | cons j l =>
    rw [if_neg (by simp)]
    have e : joinChars [',', ' '] ((i :: j :: l).map fun i => 'x' :: natChars i) =
        ('x' :: natChars i) ++ [',', ' '] ++ joinChars [',', ' '] ((j :: l).map fun i => 'x' :: natChars i) := rfl
    rw [e, subscript_append, subscript_append, subscript_cons (by decide), List.append_assoc]
    rfl

theorem nameList_not_mem {l : List ℕ} {c : Char} (h : ((c.toNat < 0x2080 ∨ 0x2089 < c.toNat) ∧ c ≠ 'x') ∧
    c ≠ ',' ∧ c ≠ ' ') : c ∉ nameList l := by
  induction l with
  | nil => simp [nameList, joinChars, Parser.subscript]
  | cons i l ih =>
    rw [nameList_cons]
    simp only [List.mem_append, not_or]
    refine ⟨nameOf_not_mem h.1, ?_⟩
    split
    · simp
    · simp only [List.mem_append, List.mem_cons, not_or, List.not_mem_nil, not_false_eq_true, and_true]
      exact ⟨⟨h.2.1, h.2.2⟩, ih⟩

/-- The words of a list of names. -/
def nameWords : List ℕ → List (List Char)
  | [] => []
  | [i] => [nameOf i]
  | i :: l => (nameOf i ++ [',']) :: nameWords l

theorem nameList_words (l : List ℕ) : words (nameList l) = nameWords l := by
  induction l with
  | nil => simp [nameList, joinChars, Parser.subscript, words_nil, nameWords]
  | cons i l ih =>
    rw [nameList_cons]
    cases l with
    | nil =>
      rw [if_pos rfl, List.append_nil, nameWords, words_word (by simp [nameOf]) (nameOf_not_mem (by decide))]
    | cons j l =>
      rw [if_neg (by simp), show nameOf i ++ ([',', ' '] ++ nameList (j :: l)) =
        (nameOf i ++ [',']) ++ ' ' :: nameList (j :: l) by simp, words_append_space, ih,
        words_word (by simp) (by simpa using nameOf_not_mem (by decide))]
      rfl

theorem nameWords_read (l : List ℕ) : (nameWords l).mapM readName = some l := by
  induction l with
  | nil => rfl
  | cons i l ih =>
    cases l with
    | nil =>
      rw [nameWords, List.mapM_cons, (readName_nameOf i).1]
      rfl
    | cons j l =>
      rw [nameWords, List.mapM_cons, (readName_nameOf i).2, ih]
      · rfl
      · simp

theorem nameWords_ne (l : List ℕ) : nameWords l ≠ [['x']] := by
  have hn : ∀ i, nameOf i ≠ ['x'] := by
    intro i h
    unfold nameOf at h
    have : Parser.subscript (natChars i) = [] := by simpa using h
    unfold Parser.subscript at this
    exact natChars_ne_nil (List.map_eq_nil_iff.mp this)
  cases l with
  | nil => simp [nameWords]
  | cons i l =>
    cases l with
    | nil => simp only [nameWords, ne_eq, List.cons.injEq, and_true]; exact hn i
    | cons j l =>
      rw [nameWords]
      · intro h
        have := (List.cons.inj h).1
        simp [nameOf] at this
      · simp

/-- The sign lines that are printed. -/
def signLines (n : ℕ) (rel : Char) (names : List ℕ) : List (List Char) :=
  if names.length = n then [['x', ' ', rel, ' ', '0']]
  else if 0 < names.length then [nameList names ++ [' ', rel, ' ', '0']] else []

theorem signLine_eq (n : ℕ) (rel : Char) (names : List ℕ) :
    signLine n rel names = ((signLines n rel names).map (· ++ ['\n'])).flatten := by
  unfold signLine signLines
  split_ifs <;> simp

/-- What a line of signs declares. -/
def declared (n : ℕ) (names : List ℕ) : List ℕ := if names.length = n then List.range' 1 n else names

theorem readNames_all (n : ℕ) {rel : Char} (h : rel = '≤' ∨ rel = '≥') :
    readNames n rel ['x', ' ', rel, ' ', '0'] = some (List.range' 1 n) := by
  unfold readNames
  have : words (['x', ' ', rel, ' ', '0'].takeWhile (· ≠ rel)) = [['x']] := by
    have e : ['x', ' ', rel, ' ', '0'].takeWhile (· ≠ rel) = ['x'] ++ ' ' :: [] := by
      rcases h with rfl | rfl <;> decide
    rw [e, words_append_space, words_word (by simp) (by simp), words_nil]
    rfl
  rw [this]
  rfl

theorem readNames_list (n : ℕ) {rel : Char} (h : rel = '≤' ∨ rel = '≥') (names : List ℕ) :
    readNames n rel (nameList names ++ [' ', rel, ' ', '0']) = some names := by
  have hrel : rel ∉ nameList names := by rcases h with rfl | rfl <;> exact nameList_not_mem (by decide)
  have e : words ((nameList names ++ [' ', rel, ' ', '0']).takeWhile (· ≠ rel)) = nameWords names := by
    have e1 : (nameList names ++ [' ', rel, ' ', '0']).takeWhile (· ≠ rel) = nameList names ++ ' ' :: [] := by
      rw [List.takeWhile_append_of_pos]
      · rcases h with rfl | rfl <;> rfl
      · intro x hx
        simp only [ne_eq, decide_not, Bool.not_eq_true', decide_eq_false_iff_not]
        rintro rfl; exact hrel hx
    rw [e1, words_append_space, nameList_words, words_nil, List.append_nil]
  unfold readNames
  rw [e]
  split
  · rename_i heq
    exact absurd heq (nameWords_ne names)
  · exact nameWords_read names

theorem signLines_line {n : ℕ} {rel : Char} {names : List ℕ} {l : List Char} (h : l ∈ signLines n rel names) :
    l = ['x', ' ', rel, ' ', '0'] ∨ ∃ i t, names = i :: t ∧ l = nameList names ++ [' ', rel, ' ', '0'] := by
  unfold signLines at h
  split_ifs at h with h1 h2
  · exact Or.inl (by simpa using h)
  · right
    cases names with
    | nil => simp at h2
    | cons i t => exact ⟨i, t, rfl, by simpa using h⟩
  · simp at h

theorem signLines_mem {n : ℕ} {rel : Char} {names : List ℕ} {l : List Char} (h : l ∈ signLines n rel names) {c : Char}
    (hc : (((c.toNat < 0x2080 ∨ 0x2089 < c.toNat) ∧ c ≠ 'x') ∧ c ≠ ',' ∧ c ≠ ' ') ∧ c ≠ '0') : c ∈ l ↔ c = rel := by
  rcases signLines_line h with rfl | ⟨i, t, -, rfl⟩
  · simp [hc.1.1.2, hc.1.2.2, hc.2]
  · simp [hc.1.2.2, hc.2, nameList_not_mem hc.1]

theorem signLines_head {n : ℕ} {rel : Char} {names : List ℕ} {l : List Char} (h : l ∈ signLines n rel names) :
    l.head? = some 'x' := by
  rcases signLines_line h with rfl | ⟨i, t, rfl, rfl⟩
  · rfl
  · rw [nameList_cons]; rfl

theorem readSigns_eq (n : ℕ) {rel other : Char} (names others : List ℕ)
    (h : rel = '≤' ∧ other = '≥' ∨ rel = '≥' ∧ other = '≤') (pre post : List (List Char))
    (hpre : pre = [] ∨ pre = signLines n other others) (hpost : post = [[]] ∨ post = signLines n other others ++ [[]]) :
    readSigns n rel (pre ++ signLines n rel names ++ post) = some (declared n names) := by
  have hrel : rel = '≤' ∨ rel = '≥' := by rcases h with ⟨h, -⟩ | ⟨h, -⟩ <;> simp [h]
  have hne : rel ≠ other := by rcases h with ⟨rfl, rfl⟩ | ⟨rfl, rfl⟩ <;> decide
  have hchar : (((rel.toNat < 0x2080 ∨ 0x2089 < rel.toNat) ∧ rel ≠ 'x') ∧ rel ≠ ',' ∧ rel ≠ ' ') ∧ rel ≠ '0' := by
    rcases hrel with rfl | rfl <;> decide
  have hother : (signLines n other others).filter (rel ∈ ·) = [] := by
    rw [List.filter_eq_nil_iff]
    intro l hl
    rw [decide_eq_true_eq, signLines_mem hl hchar]
    exact hne
  have hown : (signLines n rel names).filter (rel ∈ ·) = signLines n rel names := by
    rw [List.filter_eq_self]
    intro l hl
    rw [decide_eq_true_eq, signLines_mem hl hchar]
  have h1 : pre.filter (rel ∈ ·) = [] := by
    rcases hpre with rfl | rfl
    · rfl
    · exact hother
  have h2 : post.filter (rel ∈ ·) = [] := by
    rcases hpost with rfl | rfl
    · simp
    · rw [List.filter_append, hother]; simp
  unfold readSigns
  rw [List.filter_append, List.filter_append, h1, h2, hown, List.nil_append, List.append_nil]
  unfold signLines declared
  split_ifs with h3 h4
  · simp only
    rw [if_pos, readNames_all n hrel]
    rcases hrel with rfl | rfl <;> decide
  · simp only
    rw [if_pos, readNames_list n hrel]
    have hm : rel ∉ nameList names := nameList_not_mem hchar.1
    rw [List.dropWhile_append_of_pos]
    · rcases hrel with rfl | rfl <;> rfl
    · intro x hx
      simp only [ne_eq, decide_not, Bool.not_eq_true', decide_eq_false_iff_not]
      rintro rfl; exact hm hx
  · have : names = [] := List.eq_nil_of_length_eq_zero (by omega)
    rw [this]

/-! ### The whole text -/

/-- The printed text. -/
noncomputable def shownText (P : LP m n) : List Char :=
  shownObjective P ++ '\n' :: (['S', 'u', 'b', 'j', 'e', 'c', 't', ' ', 'T', 'o', ':'] ++ '\n' :: ([] ++ '\n' ::
    (((((List.finRange m).map (shownLine P) ++ signLines n '≤' (P.neg.map (· + 1)) ++
      signLines n '≥' (positiveNames P)).map (· ++ ['\n'])).flatten) ++ [])))

theorem reprText_eq (P : LP m n) :
    reprText P = if m = 0 then .error .unboundLocalError else .ok (shownText P) := by
  unfold reprText
  rw [formatAll_eq, formatNumber_eq, formatAll_eq, formatAll_eq]
  simp only [bind, Except.bind, signLine_eq]
  split
  · rfl
  · congr 1
    unfold shownText shownObjective
    simp only [List.map_append, List.flatten_append, List.map_map, List.append_nil, List.append_assoc, List.cons_append,
      List.nil_append]
    rfl

theorem newline_objective (P : LP m n) : '\n' ∉ shownObjective P := by
  rw [shownObjective_eq]
  simp only [List.mem_append, List.mem_cons, not_or]
  exact ⟨goal_not_mem P (by decide), by decide, costs_not_mem P (by decide) (by decide), by decide, by decide,
    constant_not_mem P (by decide) (by decide)⟩

theorem shownText_lines (P : LP m n) :
    (shownText P).splitOn '\n' = shownObjective P :: ['S', 'u', 'b', 'j', 'e', 'c', 't', ' ', 'T', 'o', ':'] :: [] ::
      ((List.finRange m).map (shownLine P) ++ (signLines n '≤' (P.neg.map (· + 1)) ++
        signLines n '≥' (positiveNames P) ++ [[]])) := by
  have hs : ∀ rel names, rel ≠ '\n' → ∀ l ∈ signLines n rel names, '\n' ∉ l := by
    intro rel names hr l hl h
    exact hr ((signLines_mem hl (by decide)).mp h).symm
  unfold shownText
  rw [List.splitOn_append_cons_self_of_not_mem (newline_objective P),
    List.splitOn_append_cons_self_of_not_mem (by decide), List.splitOn_append_cons_self_of_not_mem (by simp),
    lines_flatten]
  · simp
  · intro r hr
    simp only [List.mem_append, List.mem_map] at hr
    rcases hr with (⟨i, -, rfl⟩ | h) | h
    · exact shownLine_newline P i
    · exact hs _ _ (by decide) r h
    · exact hs _ _ (by decide) r h

/-- The program read from its text. -/
def shownProgram (P : LP m n) : Shown :=
  ⟨P.objective, (List.finRange n).map fun j => shown (P.c j), shownConstant P,
    (List.finRange m).map fun i => ⟨(List.finRange n).map fun j => shown (P.A i j), P.ineq i, shown (P.b i)⟩,
    declared n (P.neg.map (· + 1)), declared n (positiveNames P)⟩

theorem readProgram_shownText (P : LP m n) : readProgram (shownText P) = some (shownProgram P) := by
  have hrow : ∀ i, (shownLine P i).head? = some '[' := fun i => by rw [shownLine_eq]; rfl
  have hsign : ∀ l ∈ signLines n '≤' (P.neg.map (· + 1)) ++ signLines n '≥' (positiveNames P) ++ [[]],
      l.head? ≠ some '[' := by
    intro l hl
    simp only [List.mem_append, List.mem_singleton] at hl
    rcases hl with (hl | hl) | rfl
    · rw [signLines_head hl]; decide
    · rw [signLines_head hl]; decide
    · decide
  have hs1 := readSigns_eq n (rel := '≤') (other := '≥') (P.neg.map (· + 1)) (positiveNames P) (by simp) []
    (signLines n '≥' (positiveNames P) ++ [[]]) (by simp) (by simp)
  have hs2 := readSigns_eq n (rel := '≥') (other := '≤') (positiveNames P) (P.neg.map (· + 1)) (by simp)
    (signLines n '≤' (P.neg.map (· + 1))) [[]] (by simp) (by simp)
  rw [List.nil_append, ← List.append_assoc] at hs1
  unfold readProgram
  rw [shownText_lines]
  generalize hS : signLines n '≤' (P.neg.map (· + 1)) ++ signLines n '≥' (positiveNames P) ++ [[]] = S at *
  have ht : ((List.finRange m).map (shownLine P) ++ S).takeWhile (fun l => l.head? = some '[') =
      (List.finRange m).map (shownLine P) := by
    rw [List.takeWhile_append_of_pos]
    · cases S with
      | nil => simp
      | cons a S => simp [hsign a (by simp)]
    · intro l hl
      obtain ⟨i, -, rfl⟩ := List.mem_map.mp hl
      simp [hrow]
  have hd : ((List.finRange m).map (shownLine P) ++ S).dropWhile (fun l => l.head? = some '[') = S := by
    rw [List.dropWhile_append_of_pos]
    · cases S with
      | nil => simp
      | cons a S => simp [hsign a (by simp)]
    · intro l hl
      obtain ⟨i, -, rfl⟩ := List.mem_map.mp hl
      simp [hrow]
  simp only [objective_goal, objective_words, objective_constant, ht, hd]
  rw [List.mapM_map, mapM_some (f := readRow ∘ shownLine P) fun i _ => readRow_shownLine P i]
  simp only [bind, Option.bind, List.length_map, List.length_finRange, hs1, hs2]
  rfl

end Props
end Pytimize
