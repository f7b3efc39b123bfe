/-
Linear expressions as text, and the behaviour of `LinearParser` on them.
-/
import Verif.Parser.GraphProof

namespace Pytimize
namespace Parser

/-! ### Specification: what a linear expression looks like -/

/-- A term `3x_1`, `4.5x_2`: a decimal coefficient and the digits of the index. -/
structure TermText where
  coef : Dec
  idx : List Char

def TermText.Ok (ch : Chars) (t : TermText) : Prop := t.coef.Ok ch ∧ IsDigits ch t.idx

def TermText.text (t : TermText) : List Char := t.coef.text ++ 'x' :: '_' :: t.idx

/-- An expression: the first term, with or without a minus sign, and further terms each preceded by a sign. -/
def linText (neg : Bool) (t : TermText) (l : List (Char × TermText)) : List Char :=
  (if neg then ['-'] else []) ++ (t.text ++ l.flatMap fun p => p.1 :: p.2.text)

/-- The terms are well formed and the characters between them are among those given. -/
def LinOk (ch : Chars) (seps : List Char) (t : TermText) (l : List (Char × TermText)) : Prop :=
  t.Ok ch ∧ ∀ p ∈ l, p.1 ∈ seps ∧ p.2.Ok ch

/-- The index and the signed coefficient of a term. -/
def TermText.entry (ch : Chars) (neg : Bool) (t : TermText) : ℕ × ℚ :=
  (digitsValue ch t.idx, if neg then -t.coef.value ch else t.coef.value ch)

/-- The indices and coefficients of an expression, in order. -/
def entries (ch : Chars) (neg : Bool) (t : TermText) (l : List (Char × TermText)) : List (ℕ × ℚ) :=
  t.entry ch neg :: l.map fun p => p.2.entry ch (p.1 == '-')

/-! ### The language of the pattern -/

theorem lang_term {ch : Chars} {w : List Char} :
    (reLinTerm ch).Lang w ↔ ∃ t : TermText, t.Ok ch ∧ w = t.text := by
  unfold reLinTerm reDigit
  constructor
  · rintro ⟨u, v, hu, ⟨a, b, ha, ⟨p, q, hp, hq, rfl⟩, rfl⟩, rfl⟩
    rw [lang_lit] at ha hp
    subst ha hp
    obtain ⟨d, hd, rfl⟩ := lang_num.mp hu
    exact ⟨⟨d, q⟩, ⟨hd, lang_plus.mp hq⟩, rfl⟩
  · rintro ⟨⟨d, i⟩, ⟨h1, h2⟩, rfl⟩
    exact ⟨d.text, _, lang_num.mpr ⟨d, h1, rfl⟩, ⟨['x'], _, lang_lit.mpr rfl,
      ⟨['_'], i, lang_lit.mpr rfl, lang_plus.mpr h2, rfl⟩, rfl⟩, rfl⟩

theorem pure_term {ch : Chars} : (reLinTerm ch).Pure :=
  ⟨⟨⟨trivial, trivial⟩, trivial, trivial, trivial⟩, trivial, trivial, trivial, trivial⟩

theorem lang_lin {ch : Chars} {s : List Char} :
    (Re.seq (.opt (.lit '-')) (.seq (reLinTerm ch)
      (.star (.seq (.cls fun c => c == '+' || c == '|' || c == '-') (reLinTerm ch))))).Lang s ↔
    ∃ neg t l, LinOk ch ['+', '|', '-'] t l ∧ s = linText neg t l := by
  constructor
  · rintro ⟨u, v, hu, ⟨a, b, ha, ⟨ws, hws, rfl⟩, rfl⟩, rfl⟩
    obtain ⟨t, ht, rfl⟩ := lang_term.mp ha
    have : ∃ l : List (Char × TermText), (∀ p ∈ l, p.1 ∈ ['+', '|', '-'] ∧ p.2.Ok ch) ∧
        ws.flatten = l.flatMap fun p => p.1 :: p.2.text := by
      induction ws with
      | nil => exact ⟨[], by simp, rfl⟩
      | cons w ws ih =>
        obtain ⟨l, h1, h2⟩ := ih fun u hu => hws u (List.mem_cons_of_mem _ hu)
        obtain ⟨a, b, ⟨c, hc, rfl⟩, hb, rfl⟩ := hws w (List.mem_cons_self ..)
        obtain ⟨f, hf, rfl⟩ := lang_term.mp hb
        refine ⟨(c, f) :: l, ?_, ?_⟩
        · intro p hp
          rcases List.mem_cons.mp hp with rfl | hp
          · refine ⟨?_, hf⟩
            simpa [or_assoc] using hc
          · exact h1 p hp
        · rw [List.flatten_cons, h2]; rfl
    obtain ⟨l, h1, h2⟩ := this
    rw [h2]
    rcases hu with hu | rfl
    · rw [lang_lit] at hu
      subst hu
      exact ⟨true, t, l, ⟨ht, h1⟩, rfl⟩
    · exact ⟨false, t, l, ⟨ht, h1⟩, rfl⟩
  · rintro ⟨neg, t, l, ⟨ht, hl⟩, rfl⟩
    refine ⟨if neg then ['-'] else [], _, ?_, ⟨t.text, _, lang_term.mpr ⟨t, ht, rfl⟩,
      ⟨l.map fun p => p.1 :: p.2.text, ?_, rfl⟩, rfl⟩, rfl⟩
    · cases neg
      · exact Or.inr rfl
      · exact Or.inl (lang_lit.mpr rfl)
    · intro u hu
      obtain ⟨p, hp, rfl⟩ := List.mem_map.mp hu
      refine ⟨[p.1], _, ⟨p.1, ?_, rfl⟩, lang_term.mpr ⟨p.2, (hl p hp).2, rfl⟩, rfl⟩
      have := (hl p hp).1
      simpa [or_assoc] using this

theorem validate_iff {ch : Chars} {s : List Char} : validateExpression ch s = true ↔
    ∃ neg t l, LinOk ch ['+', '|', '-'] t l ∧ (s = linText neg t l ∨ s = linText neg t l ++ ['\n']) := by
  unfold validateExpression reLinValid
  rw [match_full (show Re.Pure (.seq (.opt (.lit '-')) (.seq (reLinTerm ch)
    (.star (.seq (.cls fun c => c == '+' || c == '|' || c == '-') (reLinTerm ch))))) from
      ⟨trivial, pure_term, trivial, pure_term⟩)]
  simp only [lang_lin]
  constructor
  · rintro (⟨neg, t, l, h, e⟩ | ⟨w, ⟨neg, t, l, h, rfl⟩, e⟩)
    · exact ⟨neg, t, l, h, Or.inl e⟩
    · exact ⟨neg, t, l, h, Or.inr e⟩
  · rintro ⟨neg, t, l, h, e | e⟩
    · exact Or.inl ⟨neg, t, l, h, e⟩
    · exact Or.inr ⟨_, ⟨neg, t, l, h, rfl⟩, e⟩

/-! ### The matches found -/

/-- The groups captured for a term with its sign, `none` if the pattern does not see one. -/
def TermText.caps (t : TermText) (sign : Option Char) : List (ℕ × List Char) :=
  [(3, t.idx), (2, t.coef.text)] ++ match sign with
    | none => []
    | some c => [(1, [c])]

theorem First.termBody {ch : Chars} {t : TermText} (ht : t.Ok ch) {q : List Char} (hq : Stops ch.isDigit q)
    {b : Bool} {k : List (ℕ × List Char)} :
    First (.seq (.group 2 (reNum ch)) (.seq (.lit 'x') (.seq (.lit '_') (.group 3 (.plus (reDigit ch))))))
      ⟨b, t.text ++ q, k⟩ ⟨false, q, (3, t.idx) :: (2, t.coef.text) :: k⟩ := by
  obtain ⟨d, i⟩ := t
  simp only [TermText.text, List.append_assoc, List.cons_append]
  exact ((First.num ht.1 (stops_cons (digit_x ch)) (stops_cons (by decide))).group rfl).seq
    (First.lit.seq (First.lit.seq ((First.plus ht.2.1 ht.2.2 hq).group rfl)))

/-- The text of a term begins with a digit. -/
theorem term_head {ch : Chars} {t : TermText} (ht : t.Ok ch) : ∃ c r, t.text = c :: r ∧ ch.isDigit c = true := by
  obtain ⟨⟨ip, fp⟩, i⟩ := t
  obtain ⟨⟨⟨h1, h2⟩, _⟩, _⟩ := ht
  cases ip with
  | nil => exact (h1 rfl).elim
  | cons c ip =>
    refine ⟨c, ?_, ?_, h2 c (List.mem_cons_self ..)⟩
    · exact (match fp with | none => ip | some f => ip ++ '.' :: f) ++ 'x' :: '_' :: i
    · cases fp <;> simp [TermText.text, Dec.text]

theorem digit_plus (ch : Chars) : ch.isDigit '+' = false := by
  unfold Chars.isDigit; rw [(ch.ascii '+' (by decide)).2.1]; decide
theorem digit_minus (ch : Chars) : ch.isDigit '-' = false := not_digit_of_not_word (word_dash ch)
theorem digit_bar (ch : Chars) : ch.isDigit '|' = false := by
  unfold Chars.isDigit; rw [(ch.ascii '|' (by decide)).2.1]; decide
theorem digit_newline (ch : Chars) : ch.isDigit '\n' = false :=
  not_digit_of_not_word (space_not_word (space_newline ch))

theorem first_plain {ch : Chars} {t : TermText} (ht : t.Ok ch) {q : List Char} (hq : Stops ch.isDigit q) {b : Bool} :
    First (reLinGroups ch) ⟨b, t.text ++ q, []⟩ ⟨false, q, t.caps none⟩ := by
  obtain ⟨c, r, e, hc⟩ := term_head ht
  have h1 : run (.group 1 (.alt (.lit '+') (.lit '-'))) ⟨b, t.text ++ q, []⟩ = [] := by
    rw [e]
    apply group_fail
    have hp : c ≠ '+' := by rintro rfl; rw [digit_plus] at hc; cases hc
    have hm : c ≠ '-' := by rintro rfl; rw [digit_minus] at hc; cases hc
    simp [run, Re.lit, hp, hm]
  exact (First.opt_none h1).seq (First.termBody ht hq)

theorem first_signed {ch : Chars} {t : TermText} (ht : t.Ok ch) {q : List Char} (hq : Stops ch.isDigit q) {b : Bool}
    {c : Char} (hc : c = '+' ∨ c = '-') :
    First (reLinGroups ch) ⟨b, c :: (t.text ++ q), []⟩ ⟨false, q, t.caps (some c)⟩ := by
  have h1 : First (.alt (.lit '+') (.lit '-')) ⟨b, c :: (t.text ++ q), []⟩ ⟨false, t.text ++ q, []⟩ := by
    rcases hc with rfl | rfl <;> simp [First, run, Re.lit]
  exact (First.opt_some (h1.group (w := [c]) rfl)).seq (First.termBody ht hq)

/-- No term begins here. -/
theorem lin_fail {ch : Chars} {b : Bool} {s : List Char}
    (h : Stops (fun c => ch.isDigit c || c == '+' || c == '-') s) : run (reLinGroups ch) ⟨b, s, []⟩ = [] := by
  have hd : Stops ch.isDigit s := fun c r e => by have := h c r e; simp at this; tauto
  have h1 : run (.group 1 (.alt (.lit '+') (.lit '-'))) ⟨b, s, []⟩ = [] := by
    apply group_fail
    cases s with
    | nil => simp [run, Re.lit]
    | cons c r =>
      have := h c r rfl
      simp only [Bool.or_eq_false_iff, beq_eq_false_iff_ne, ne_eq] at this
      simp [run, Re.lit, this.1.2, this.2]
  have h2 : run (.seq (.group 2 (reNum ch)) (.seq (.lit 'x') (.seq (.lit '_') (.group 3 (.plus (reDigit ch))))))
      ⟨b, s, []⟩ = [] := seq_fail (group_fail (seq_fail (plus_fail hd)))
  unfold reLinGroups
  rw [run, show run (.opt (.group 1 (.alt (.lit '+') (.lit '-')))) ⟨b, s, []⟩ = [⟨b, s, []⟩] by
    rw [run, h1]; rfl]
  simp only [List.flatMap_cons, List.flatMap_nil, List.append_nil]
  exact h2

/-- The sign the pattern sees at a separator. -/
def seenSign (c : Char) : Option Char := if c = '|' then none else some c

/-- The terms after the first. -/
def tailText (l : List (Char × TermText)) : List Char := l.flatMap fun p => p.1 :: p.2.text

theorem tail_stops {ch : Chars} {l : List (Char × TermText)} (hl : ∀ p ∈ l, p.1 ∈ ['+', '|', '-'] ∧ p.2.Ok ch)
    {z : List Char} (hz : z = [] ∨ z = ['\n']) : Stops ch.isDigit (tailText l ++ z) := by
  intro c r e
  cases l with
  | nil =>
    simp only [tailText, List.flatMap_nil, List.nil_append] at e
    rcases hz with rfl | rfl
    · cases e
    · cases e; exact digit_newline ch
  | cons p l =>
    simp only [tailText, List.flatMap_cons, List.cons_append, List.cons.injEq] at e
    obtain ⟨rfl, -⟩ := e
    have := (hl p (List.mem_cons_self ..)).1
    simp only [List.mem_cons, List.not_mem_nil, or_false] at this
    rcases this with h | h | h <;> rw [h]
    exacts [digit_plus ch, digit_bar ch, digit_minus ch]

theorem findAll_tail {ch : Chars} {l : List (Char × TermText)} (hl : ∀ p ∈ l, p.1 ∈ ['+', '|', '-'] ∧ p.2.Ok ch)
    {z : List Char} (hz : z = [] ∨ z = ['\n']) {n : ℕ} (hn : (tailText l ++ z).length ≤ n) :
    (findAllFrom (reLinGroups ch) n false (tailText l ++ z)).map St.caps = l.map fun p => p.2.caps (seenSign p.1) := by
  induction l generalizing n with
  | nil =>
    have hs : Stops (fun c => ch.isDigit c || c == '+' || c == '-') z := by
      intro c r e
      rcases hz with rfl | rfl
      · cases e
      · cases e; simp [digit_newline]
    have hnil : ∀ b, run (reLinGroups ch) ⟨b, [], []⟩ = [] := fun b => lin_fail (fun c r e => by cases e)
    simp only [tailText, List.flatMap_nil, List.nil_append, List.map_nil, List.map_eq_nil_iff]
    rcases hz with rfl | rfl
    · exact findAllFrom_nil (hnil _)
    · cases n with
      | zero => rfl
      | succ n => rw [findAllFrom_skip (lin_fail hs), findAllFrom_nil (hnil _)]
  | cons p l ih =>
    obtain ⟨c, t⟩ := p
    have hp := hl (c, t) (List.mem_cons_self ..)
    have hl' : ∀ p ∈ l, p.1 ∈ ['+', '|', '-'] ∧ p.2.Ok ch := fun p hp => hl p (List.mem_cons_of_mem _ hp)
    have e : tailText ((c, t) :: l) ++ z = c :: (t.text ++ (tailText l ++ z)) := by simp [tailText]
    rw [e] at hn ⊢
    have hlen : (c :: (t.text ++ (tailText l ++ z))).length = t.text.length + (tailText l ++ z).length + 1 := by
      rw [List.length_cons, List.length_append]
    have hpos : 0 < t.text.length := by
      obtain ⟨c, r, e, _⟩ := term_head hp.2
      rw [e]; simp
    have hst := tail_stops hl' hz
    obtain ⟨n, rfl⟩ : ∃ m, n = m + 2 := ⟨n - 2, by omega⟩
    have hc := hp.1
    simp only [List.mem_cons, List.not_mem_nil, or_false] at hc
    by_cases hbar : c = '|'
    · have hf : Stops (fun c => ch.isDigit c || c == '+' || c == '-') (c :: (t.text ++ (tailText l ++ z))) :=
        stops_cons (by rw [hbar]; simp [digit_bar])
      rw [findAllFrom_skip (lin_fail hf), findAllFrom_match (first_plain hp.2 hst)]
      simp only [List.map_cons]
      rw [ih hl' (by omega), seenSign, if_pos hbar]
    · rw [findAllFrom_match (first_signed hp.2 hst (c := c) (by tauto))]
      simp only [List.map_cons]
      rw [ih hl' (by omega), seenSign, if_neg hbar]

theorem findAll_lin {ch : Chars} {neg : Bool} {t : TermText} {l : List (Char × TermText)}
    (h : LinOk ch ['+', '|', '-'] t l) {z : List Char} (hz : z = [] ∨ z = ['\n']) :
    (findAll (reLinGroups ch) (linText neg t l ++ z)).map St.caps =
      t.caps (if neg then some '-' else none) :: l.map fun p => p.2.caps (seenSign p.1) := by
  have hst := tail_stops h.2 hz
  unfold findAll
  cases neg with
  | false =>
    have e : linText false t l ++ z = t.text ++ (tailText l ++ z) := by simp [linText, tailText]
    rw [e, findAllFrom_match (first_plain h.1 hst)]
    simp only [List.map_cons]
    rw [findAll_tail h.2 hz (by simp)]
    rfl
  | true =>
    have e : linText true t l ++ z = '-' :: (t.text ++ (tailText l ++ z)) := by simp [linText, tailText]
    rw [e, findAllFrom_match (first_signed h.1 hst (Or.inr rfl))]
    simp only [List.map_cons]
    rw [findAll_tail h.2 hz (by simp; omega)]
    rfl

/-! ### Building the row -/

/-- What the loop reads from one match. -/
def readTerm (ch : Chars) (t : St) : ℤ × ℚ :=
  ((readInt ch (t.cap 3) : ℤ) - 1, readSigned ch (t.cap 1) (t.cap 2))

theorem readTerm_caps {ch : Chars} {t : TermText} (ht : t.Ok ch) {s : Option Char} {st : St}
    (h : st.caps = t.caps s) :
    readTerm ch st = ((digitsValue ch t.idx : ℤ) - 1, (t.entry ch (s == some '-')).2) := by
  have h3 : st.cap 3 = t.idx := by unfold St.cap; rw [h]; rfl
  have h2 : st.cap 2 = t.coef.text := by unfold St.cap; rw [h]; rfl
  have h1 : st.cap 1 = s.elim [] fun c => [c] := by unfold St.cap; rw [h]; cases s <;> rfl
  unfold readTerm
  rw [h1, h2, h3, readInt_eq]
  unfold readSigned TermText.entry
  rw [readFloat_text ht.1]
  cases s with
  | none => simp
  | some c => simp

theorem set_fresh {d : Dict ℤ ℚ} {k : ℤ} {v : ℚ} (h : k ∉ d.keys) : d.set k v = d ++ [(k, v)] := by
  induction d with
  | nil => rfl
  | cons p d ih =>
    obtain ⟨a, b⟩ := p
    simp only [Dict.keys, List.map_cons, List.mem_cons, not_or] at h
    have hne : a ≠ k := fun e => h.1 e.symm
    simp only [Dict.set, if_neg hne, List.cons_append]
    rw [ih h.2]

/-- The largest key seen. -/
def maxKey (len : ℤ) (ps : List (ℤ × ℚ)) : ℤ := ps.foldl (fun m p => if p.1 > m then p.1 else m) len

theorem linLoop_ok {ch : Chars} (ts : List St) (data : Dict ℤ ℚ) (len : ℤ)
    (h : ((data ++ ts.map (readTerm ch)).map Prod.fst).Nodup) :
    linLoop ch ts data len = .ok (data ++ ts.map (readTerm ch), maxKey len (ts.map (readTerm ch))) := by
  induction ts generalizing data len with
  | nil => simp [linLoop, maxKey]
  | cons t ts ih =>
    have e : data ++ (t :: ts).map (readTerm ch) = (data ++ [readTerm ch t]) ++ ts.map (readTerm ch) := by simp
    rw [e] at h ⊢
    have hf : (readTerm ch t).1 ∉ data.keys := by
      rw [List.map_append, List.map_append] at h
      have := (List.nodup_append.mp (List.nodup_append.mp h).1).2.2
      intro hm
      exact this _ hm _ (by simp) rfl
    simp only [linLoop]
    rw [if_neg (by rw [Dict.has_iff]; exact hf)]
    have := ih (data ++ [readTerm ch t]) (if (readTerm ch t).1 > len then (readTerm ch t).1 else len) h
    rw [← set_fresh (v := (readTerm ch t).2) hf] at this
    rw [set_fresh (v := (readTerm ch t).2) hf] at this
    rw [show data.set ((readInt ch (t.cap 3) : ℤ) - 1) (readSigned ch (t.cap 1) (t.cap 2)) =
      data ++ [readTerm ch t] from set_fresh hf]
    exact this

theorem linLoop_dup {ch : Chars} (ts : List St) (data : Dict ℤ ℚ) (len : ℤ) (hd : (data.map Prod.fst).Nodup)
    (h : ¬ ((data ++ ts.map (readTerm ch)).map Prod.fst).Nodup) :
    linLoop ch ts data len = .error .genericException := by
  induction ts generalizing data len with
  | nil => simp only [List.map_nil, List.append_nil] at h; exact (h hd).elim
  | cons t ts ih =>
    have e : data ++ (t :: ts).map (readTerm ch) = (data ++ [readTerm ch t]) ++ ts.map (readTerm ch) := by simp
    simp only [linLoop]
    by_cases hf : (readTerm ch t).1 ∈ data.keys
    · rw [if_pos (by rw [Dict.has_iff]; exact hf)]
    · rw [if_neg (by rw [Dict.has_iff]; exact hf),
        show data.set ((readInt ch (t.cap 3) : ℤ) - 1) (readSigned ch (t.cap 1) (t.cap 2)) =
          data ++ [readTerm ch t] from set_fresh hf]
      refine ih _ _ ?_ (by rw [← e]; exact h)
      rw [List.map_append, List.nodup_append]
      refine ⟨hd, by simp, ?_⟩
      intro a ha b hb hab
      simp only [List.map_cons, List.map_nil, List.mem_singleton] at hb
      subst hab hb
      exact hf ha

theorem maxKey_spec (len : ℤ) (ps : List (ℤ × ℚ)) :
    len ≤ maxKey len ps ∧ (∀ p ∈ ps, p.1 ≤ maxKey len ps) ∧
      (maxKey len ps = len ∨ ∃ p ∈ ps, p.1 = maxKey len ps) := by
  induction ps generalizing len with
  | nil => simp [maxKey]
  | cons p ps ih =>
    obtain ⟨h1, h2, h3⟩ := ih (if p.1 > len then p.1 else len)
    have e : maxKey len (p :: ps) = maxKey (if p.1 > len then p.1 else len) ps := rfl
    rw [e]
    refine ⟨?_, ?_, ?_⟩
    · split_ifs at h1 ⊢ <;> omega
    · intro q hq
      rcases List.mem_cons.mp hq with rfl | hq
      · split_ifs at h1 ⊢ <;> omega
      · exact h2 q hq
    · rcases h3 with h3 | ⟨q, hq, h3⟩
      · split_ifs at h3 with h0
        · right; exact ⟨p, List.mem_cons_self .., by rw [if_pos h0]; exact h3.symm⟩
        · left; rw [if_neg h0]; exact h3
      · right; exact ⟨q, List.mem_cons_of_mem _ hq, h3⟩

theorem fill_error (d : Dict ℤ ℚ) (r : List ℚ)
    (h : ∃ p ∈ d, p.1 < -(r.length : ℤ) ∨ (r.length : ℤ) ≤ p.1) : fillEntries d r = .error .indexError := by
  induction d generalizing r with
  | nil => obtain ⟨p, hp, _⟩ := h; cases hp
  | cons q d ih =>
    obtain ⟨k, v⟩ := q
    simp only [fillEntries, setEntry]
    by_cases hk : k < -(r.length : ℤ) ∨ (r.length : ℤ) ≤ k
    · rw [if_pos hk]
    · rw [if_neg hk]
      simp only
      apply ih
      obtain ⟨p, hp, h0⟩ := h
      rcases List.mem_cons.mp hp with rfl | hp
      · exact (hk h0).elim
      · exact ⟨p, hp, by simpa using h0⟩

theorem fill_ok (d : Dict ℤ ℚ) (r : List ℚ) (hd : (d.map Prod.fst).Nodup)
    (h : ∀ p ∈ d, 0 ≤ p.1 ∧ p.1 < (r.length : ℤ)) :
    ∃ r', fillEntries d r = .ok r' ∧ r'.length = r.length ∧ (∀ p ∈ d, r'[p.1.toNat]? = some p.2) ∧
      ∀ j : ℕ, (∀ p ∈ d, p.1 ≠ (j : ℤ)) → r'[j]? = r[j]? := by
  induction d generalizing r with
  | nil => exact ⟨r, rfl, rfl, by simp, by simp⟩
  | cons q d ih =>
    obtain ⟨k, v⟩ := q
    obtain ⟨hk0, hk1⟩ := h (k, v) (List.mem_cons_self ..)
    simp only at hk0 hk1
    simp only [List.map_cons, List.nodup_cons] at hd
    obtain ⟨r', h1, h2, h3, h4⟩ := ih (r.set k.toNat v) hd.2 (fun p hp => by
      rw [List.length_set]; exact h p (List.mem_cons_of_mem _ hp))
    refine ⟨r', ?_, by simpa using h2, ?_, ?_⟩
    · simp only [fillEntries, setEntry]
      rw [if_neg (by omega)]
      simp only
      rw [if_neg (by omega)]
      exact h1
    · intro p hp
      rcases List.mem_cons.mp hp with rfl | hp
      · rw [h4 k.toNat ?_]
        · simp only
          rw [List.getElem?_set_self (by omega)]
        · intro p hp e
          apply hd.1
          have : p.1 = k := by omega
          exact List.mem_map.mpr ⟨p, hp, this⟩
      · exact h3 p hp
    · intro j hj
      rw [h4 j fun p hp => hj p (List.mem_cons_of_mem _ hp)]
      have := hj (k, v) (List.mem_cons_self ..)
      simp only at this
      rw [List.getElem?_set_ne (by omega)]

/-- What the parser reads from an expression. -/
theorem read_lin {ch : Chars} {neg : Bool} {t : TermText} {l : List (Char × TermText)}
    (h : LinOk ch ['+', '|', '-'] t l) {z : List Char} (hz : z = [] ∨ z = ['\n']) :
    (findAll (reLinGroups ch) (linText neg t l ++ z)).map (readTerm ch) =
      (entries ch neg t l).map fun e => ((e.1 : ℤ) - 1, e.2) := by
  have hall := findAll_lin (neg := neg) h hz
  generalize findAll (reLinGroups ch) (linText neg t l ++ z) = ts at *
  cases ts with
  | nil => cases hall
  | cons s ts =>
    simp only [List.map_cons, List.cons.injEq] at hall
    obtain ⟨h1, h2⟩ := hall
    simp only [List.map_cons, entries]
    congr 1
    · rw [readTerm_caps h.1 h1]
      cases neg <;> rfl
    · have hl := h.2
      clear h h1
      induction ts generalizing l with
      | nil =>
        cases l with
        | nil => rfl
        | cons p l => cases h2
      | cons s ts ih =>
        cases l with
        | nil => cases h2
        | cons p l =>
          simp only [List.map_cons, List.cons.injEq] at h2 ⊢
          refine ⟨?_, ih h2.2 fun p hp => hl p (List.mem_cons_of_mem _ hp)⟩
          rw [readTerm_caps (hl p (List.mem_cons_self ..)).2 h2.1]
          have hc := (hl p (List.mem_cons_self ..)).1
          simp only [List.mem_cons, List.not_mem_nil, or_false] at hc
          rcases hc with hc | hc | hc <;> rw [hc] <;> rfl

theorem validate_lin {ch : Chars} {neg : Bool} {t : TermText} {l : List (Char × TermText)}
    (h : LinOk ch ['+', '|', '-'] t l) {z : List Char} (hz : z = [] ∨ z = ['\n']) :
    validateExpression ch (linText neg t l ++ z) = true := by
  rw [validate_iff]
  refine ⟨neg, t, l, h, ?_⟩
  rcases hz with rfl | rfl
  · left; simp
  · right; rfl

theorem fst_nodup {es : List (ℕ × ℚ)} :
    ((es.map fun e => ((e.1 : ℤ) - 1, e.2)).map Prod.fst).Nodup ↔ (es.map Prod.fst).Nodup := by
  have : (es.map fun e => ((e.1 : ℤ) - 1, e.2)).map Prod.fst = (es.map Prod.fst).map fun n : ℕ => (n : ℤ) - 1 := by
    simp
  rw [this]
  refine List.nodup_map_iff ?_
  intro a b hab
  simp only at hab
  omega

/-- The parser on an expression with distinct indices. -/
theorem parse_ok {ch : Chars} {neg : Bool} {t : TermText} {l : List (Char × TermText)}
    (h : LinOk ch ['+', '|', '-'] t l) {z : List Char} (hz : z = [] ∨ z = ['\n'])
    (hd : ((entries ch neg t l).map Prod.fst).Nodup) (size : Option ℤ) :
    parseLinear ch (linText neg t l ++ z) size =
      let d := (entries ch neg t l).map fun e => ((e.1 : ℤ) - 1, e.2)
      let n := size.getD (maxKey 0 d + 1)
      if n < 0 then .error .valueError else fillEntries d (List.replicate n.toNat 0) := by
  have hr := read_lin (neg := neg) h hz
  unfold parseLinear
  rw [if_pos (validate_lin h hz), linLoop_ok _ [] 0 (by rw [List.nil_append, hr, fst_nodup]; exact hd), hr]
  rfl

theorem parse_dup {ch : Chars} {neg : Bool} {t : TermText} {l : List (Char × TermText)}
    (h : LinOk ch ['+', '|', '-'] t l) {z : List Char} (hz : z = [] ∨ z = ['\n'])
    (hd : ¬ ((entries ch neg t l).map Prod.fst).Nodup) (size : Option ℤ) :
    parseLinear ch (linText neg t l ++ z) size = .error .genericException := by
  have hr := read_lin (neg := neg) h hz
  unfold parseLinear
  rw [if_pos (validate_lin h hz), linLoop_dup _ [] 0 (by simp) (by rw [List.nil_append, hr, fst_nodup]; exact hd)]

end Parser
end Pytimize
