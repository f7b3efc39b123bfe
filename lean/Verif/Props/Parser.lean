/-
Properties C67-C70, C75: the parsers.
-/
import Verif.Parser.LinearProof

namespace Pytimize
namespace Props
open Parser

/-! ### Numbers as printed -/

/-- Python's `str(n)` of a natural number is a string of digits standing for `n`. -/
theorem digits_str (ch : Chars) (n : ℕ) :
    IsDigits ch (Nat.toDigits 10 n) ∧ digitsValue ch (Nat.toDigits 10 n) = n := by
  have hd : ∀ c ∈ Nat.toDigits 10 n, ch.digit c = some (c.toNat - 48) := by
    intro c hc
    have h1 : c.isDigit = true := Nat.isDigit_of_mem_toDigits (by decide) (by decide) hc
    have h2 : c.toNat < 128 := by
      simp only [Char.isDigit, Bool.and_eq_true, decide_eq_true_eq] at h1
      have := h1.2
      rw [UInt32.le_iff_toNat_le] at this
      exact lt_of_le_of_lt this (by decide)
    rw [(ch.ascii c h2).2.1, if_pos h1]
  refine ⟨⟨Nat.toDigits_ne_nil, fun c hc => by unfold Chars.isDigit; rw [hd c hc]; rfl⟩, ?_⟩
  rw [← readInt_eq]
  conv_rhs => rw [← Nat.ofDigitChars_ten_toDigits (n := n), Nat.ofDigitChars_eq_foldl]
  unfold readInt
  have key : ∀ (w : List Char), (∀ c ∈ w, ch.digit c = some (c.toNat - 48)) → ∀ m,
      w.foldl (fun n c => 10 * n + (ch.digit c).getD 0) m = w.foldl (fun sofar c => 10 * sofar + (c.toNat - '0'.toNat)) m := by
    intro w hw
    induction w with
    | nil => intro m; rfl
    | cons c w ih =>
      intro m
      rw [List.foldl_cons, List.foldl_cons, hw c (List.mem_cons_self ..),
        ih fun c hc => hw c (List.mem_cons_of_mem _ hc)]
      rfl
  exact key _ hd 0

/-! ### C67 -/

/-- C67: parsing the printed list of edges, in each of the four formats, gives back exactly the edges, in order; the
weight is 0 in the formats without weights. Any white space may separate the edges. -/
theorem C67_parse {ch : Chars} {k : ℕ} (hk : k ≤ 3) {e : EdgeText} {l : List (Char × EdgeText)}
    (h : ListOk ch k e l) :
    parseGraph ch (listText k e l) =
      .ok ((e :: l.map Prod.snd).map fun f => (f.u, f.v, if 2 ≤ k then f.w.value ch else 0)) := by
  simpa using parse_format hk h (z := []) (Or.inl rfl)

/-- The edges separated by single blanks. -/
def printEdges (k : ℕ) : List EdgeText → List Char
  | [] => []
  | [e] => e.text k
  | e :: l => e.text k ++ ' ' :: printEdges k l

/-- C67 in the form of the statement: every nonempty list of edges, printed with blanks between them. -/
theorem C67_print {ch : Chars} {k : ℕ} (hk : k ≤ 3) {es : List EdgeText} (h0 : es ≠ [])
    (h : ∀ e ∈ es, e.Ok ch k) :
    parseGraph ch (printEdges k es) =
      .ok (es.map fun f => (f.u, f.v, if 2 ≤ k then f.w.value ch else 0)) := by
  cases es with
  | nil => exact (h0 rfl).elim
  | cons e es =>
    have e1 : printEdges k (e :: es) = listText k e (es.map fun f => (' ', f)) := by
      clear h h0
      induction es generalizing e with
      | nil => simp [printEdges, listText]
      | cons f es ih =>
        rw [printEdges, ih f]
        · simp [listText]
        · simp
    have e2 : (es.map fun f => (' ', f)).map Prod.snd = es := by simp [Function.comp_def]
    rw [e1, C67_parse hk, e2]
    refine ⟨h e (List.mem_cons_self ..), fun p hp => ?_⟩
    obtain ⟨f, hf, rfl⟩ := List.mem_map.mp hp
    exact ⟨space_blank ch, h f (List.mem_cons_of_mem _ hf)⟩

/-- Tables that agree with Python on ASCII and know no other letters, digits or spaces. -/
def asciiChars : Chars where
  word c := c.isAlphanum || c == '_'
  space c := c == ' ' || (9 ≤ c.toNat && c.toNat ≤ 13) || (28 ≤ c.toNat && c.toNat ≤ 31)
  digit c := if c.isDigit then some (c.toNat - 48) else none
  digit_lt := by
    intro c d h
    by_cases hc : c.isDigit = true
    · rw [if_pos hc] at h
      simp only [Char.isDigit, Bool.and_eq_true, decide_eq_true_eq, UInt32.le_iff_toNat_le] at hc
      have h1 : c.toNat ≤ 57 := hc.2
      cases h
      omega
    · rw [if_neg hc] at h; cases h
  digit_word := by
    intro c d h
    by_cases hc : c.isDigit = true
    · simp [Char.isAlphanum, hc]
    · rw [if_neg hc] at h; cases h
  word_space := by
    intro c h
    simp only [Char.isAlphanum, Char.isAlpha, Char.isUpper, Char.isLower, Char.isDigit, Bool.or_eq_true,
      Bool.and_eq_true, decide_eq_true_eq, ge_iff_le, beq_iff_eq] at h
    have h1 : 33 ≤ c.toNat := by
      rcases h with ((⟨h, _⟩ | ⟨h, _⟩) | ⟨h, _⟩) | rfl
      · exact le_trans (by decide) (UInt32.le_iff_toNat_le.mp h)
      · exact le_trans (by decide) (UInt32.le_iff_toNat_le.mp h)
      · exact le_trans (by decide) (UInt32.le_iff_toNat_le.mp h)
      · decide
    have h2 : c ≠ ' ' := by rintro rfl; revert h1; decide
    simp [h2]
    omega
  ascii := fun c _ => ⟨rfl, rfl, rfl⟩

/-- `"x-y:1.5 z-w:2"` meets the hypotheses of `C67_print`. -/
example : printEdges 3 [⟨['x'], ['y'], ⟨['1'], some ['5']⟩⟩, ⟨['z'], ['w'], ⟨['2'], none⟩⟩] = "x-y:1.5 z-w:2".toList ∧
    ∀ e ∈ [(⟨['x'], ['y'], ⟨['1'], some ['5']⟩⟩ : EdgeText), ⟨['z'], ['w'], ⟨['2'], none⟩⟩],
      e.Ok asciiChars 3 := by
  refine ⟨by decide, ?_⟩
  intro e he
  simp only [List.mem_cons, List.not_mem_nil, or_false] at he
  rcases he with rfl | rfl
  · refine ⟨⟨by simp, by simp; decide⟩, ⟨by simp, by simp; decide⟩, fun h => by omega,
      fun _ => ⟨⟨by simp, by simp; decide⟩, fun f hf => ?_⟩⟩
    cases hf
    exact ⟨by simp, by simp; decide⟩
  · exact ⟨⟨by simp, by simp; decide⟩, ⟨by simp, by simp; decide⟩, fun h => by omega,
      fun _ => ⟨⟨by simp, by simp; decide⟩, fun f hf => by cases hf⟩⟩

/-! ### C68 -/

/-- C68: `get_expression_type` gives the number of a format exactly for the strings in that format, with or without a
newline at the end. Missing: the strings with a newline are in no format (`C68_newline_wrong`). -/
theorem C68_partial {ch : Chars} {k : ℕ} (hk : k ≤ 3) (s : List Char) :
    getExpressionType ch s = k ↔ InFormat ch k s ∨ ∃ w, InFormat ch k w ∧ s = w ++ ['\n'] := getType_iff hk

/-- C68: the strings rejected, with `-1` and by `parse` with `ValueError`, are exactly the others. -/
theorem C68_reject_partial {ch : Chars} (s : List Char) :
    (getExpressionType ch s = -1 ↔ ∀ k ≤ 3, ¬ (InFormat ch k s ∨ ∃ w, InFormat ch k w ∧ s = w ++ ['\n'])) ∧
    (parseGraph ch s = .error .valueError ↔ getExpressionType ch s = -1) ∧
    (∀ e, parseGraph ch s = .error e → e = .valueError) := by
  refine ⟨getType_neg, ?_, ?_⟩
  · unfold parseGraph
    simp only
    constructor
    · intro h
      by_contra h0
      rw [if_neg h0] at h
      cases h
    · intro h; rw [if_pos h]
  · intro e
    unfold parseGraph
    simp only
    split
    · intro h; cases h; rfl
    · intro h; cases h

/-- C68: no string is in two formats. -/
theorem C68_unique {ch : Chars} {i j : ℕ} (hi : i ≤ 3) (hj : j ≤ 3) {s : List Char}
    (h1 : InFormat ch i s) (h2 : InFormat ch j s) : i = j := format_unique hi hj (Or.inl h1) (Or.inl h2)

/-- C68: without a newline at the end the statement holds as given. -/
theorem C68_exact_partial {ch : Chars} {k : ℕ} (hk : k ≤ 3) {s : List Char} (h : s.getLast? ≠ some '\n') :
    getExpressionType ch s = k ↔ InFormat ch k s := by
  rw [C68_partial hk]
  constructor
  · rintro (h0 | ⟨w, _, rfl⟩)
    · exact h0
    · simp at h
  · exact Or.inl

theorem format_last {ch : Chars} {k : ℕ} {s : List Char} (h : InFormat ch k s) : s.getLast? ≠ some '\n' := by
  have hn : ch.word '\n' = false := space_not_word (space_newline ch)
  have hedge : ∀ e : EdgeText, e.Ok ch k → ∃ c, (e.text k).getLast? = some c ∧ ch.word c = true := by
    have hlast : ∀ w : List Char, IsName ch w → ∀ a : List Char, ∃ c, (a ++ w).getLast? = some c ∧ ch.word c = true := by
      intro w hw a
      refine ⟨w.getLast hw.1, ?_, hw.2 _ (List.getLast_mem hw.1)⟩
      rw [List.getLast?_append, List.getLast?_eq_getLast_of_ne_nil hw.1]
      rfl
    have hdec : ∀ d : Dec, d.Ok ch → ∀ a : List Char, ∃ c, (a ++ d.text).getLast? = some c ∧ ch.word c = true := by
      intro d hd a
      obtain ⟨ip, fp⟩ := d
      cases fp with
      | none => exact hlast ip ⟨hd.1.1, fun c hc => digit_isWord (hd.1.2 c hc)⟩ a
      | some f =>
        have h2 := hd.2 f rfl
        have := hlast f ⟨h2.1, fun c hc => digit_isWord (h2.2 c hc)⟩ (a ++ ip ++ ['.'])
        simpa [Dec.text] using this
    rintro ⟨u, v, d⟩ ⟨h1, h2, h3, h4⟩
    match k with
    | 0 => exact hlast v h2 u
    | 1 => simpa [EdgeText.text] using hlast v h2 (u ++ ['-'])
    | 2 => simpa [EdgeText.text] using hdec d (h4 le_rfl) (u ++ v ++ [':'])
    | k + 3 => simpa [EdgeText.text] using hdec d (h4 (by omega)) (u ++ ['-'] ++ v ++ [':'])
  obtain ⟨e, l, hl, rfl⟩ := h
  have : ∃ c, (listText k e l).getLast? = some c ∧ ch.word c = true := by
    induction l generalizing e with
    | nil => simpa [listText] using hedge e hl.1
    | cons p l ih =>
      have hp := hl.2 p (List.mem_cons_self ..)
      obtain ⟨c, hc, hw⟩ := ih p.2 ⟨hp.2, fun q hq => hl.2 q (List.mem_cons_of_mem _ hq)⟩
      refine ⟨c, ?_, hw⟩
      have e1 : listText k e (p :: l) = (e.text k ++ [p.1]) ++ listText k p.2 l := by simp [listText]
      rw [e1, List.getLast?_append, hc]
      rfl
  obtain ⟨c, hc, hw⟩ := this
  rw [hc]
  intro h0
  cases h0
  rw [hn] at hw
  cases hw

/-- C68 is false for every expression in one of the formats followed by a newline: it is in no format, but it is
accepted, and parsed like the expression without the newline. -/
theorem C68_newline_wrong {ch : Chars} {k : ℕ} (hk : k ≤ 3) {s : List Char} (h : InFormat ch k s) :
    (∀ j, ¬ InFormat ch j (s ++ ['\n'])) ∧ getExpressionType ch (s ++ ['\n']) = k ∧
      parseGraph ch (s ++ ['\n']) = parseGraph ch s := by
  refine ⟨fun j hj => format_last hj (by simp), (C68_partial hk _).mpr (Or.inr ⟨s, h, rfl⟩), ?_⟩
  obtain ⟨e, l, hl, rfl⟩ := h
  rw [parse_format hk hl (Or.inr rfl), C67_parse hk hl]

/-! ### C69 -/

/-- C69: for terms with distinct indices at least 1, the parser returns the row with the coefficients at their
places and zeros elsewhere; its length is the given size, which must be large enough, or the largest index.
Missing: `C69_zero_wrong`, `C69_bar_wrong`, `C69_newline_wrong`: other strings that do not raise. -/
theorem C69_partial {ch : Chars} {neg : Bool} {t : TermText} {l : List (Char × TermText)}
    (h : LinOk ch ['+', '-'] t l) (hd : ((entries ch neg t l).map Prod.fst).Nodup)
    (h1 : ∀ e ∈ entries ch neg t l, 1 ≤ e.1) {size : Option ℕ}
    (hs : ∀ n, size = some n → ∀ e ∈ entries ch neg t l, e.1 ≤ n) :
    ∃ r, parseLinear ch (linText neg t l) (size.map Nat.cast) = .ok r ∧
      (∀ n, size = some n → r.length = n) ∧
      (size = none → (∃ e ∈ entries ch neg t l, e.1 = r.length) ∧ ∀ e ∈ entries ch neg t l, e.1 ≤ r.length) ∧
      (∀ e ∈ entries ch neg t l, r[e.1 - 1]? = some e.2) ∧
      ∀ j < r.length, (∀ e ∈ entries ch neg t l, e.1 ≠ j + 1) → r[j]? = some 0 := by
  have h' : LinOk ch ['+', '|', '-'] t l := ⟨h.1, fun p hp => ⟨by
    have := (h.2 p hp).1
    simp only [List.mem_cons, List.not_mem_nil, or_false] at this ⊢
    tauto, (h.2 p hp).2⟩⟩
  have hp := parse_ok h' (z := []) (Or.inl rfl) hd (size.map Nat.cast)
  rw [List.append_nil] at hp
  simp only at hp
  have hdn := (fst_nodup (es := entries ch neg t l)).mpr hd
  have hne : (entries ch neg t l) ≠ [] := by simp [entries]
  generalize entries ch neg t l = es at *
  generalize hD : (es.map fun e => ((e.1 : ℤ) - 1, e.2)) = D at *
  obtain ⟨m1, m2, m3⟩ := maxKey_spec 0 D
  have hmem : ∀ e ∈ es, ((e.1 : ℤ) - 1, e.2) ∈ D := fun e he => by rw [← hD]; exact List.mem_map.mpr ⟨e, he, rfl⟩
  have hmem' : ∀ p ∈ D, ∃ e ∈ es, p = ((e.1 : ℤ) - 1, e.2) := fun p hp => by
    rw [← hD] at hp
    obtain ⟨e, he, rfl⟩ := List.mem_map.mp hp
    exact ⟨e, he, rfl⟩
  obtain ⟨N, hN, hbig⟩ : ∃ N : ℕ, (size.map (Nat.cast : ℕ → ℤ)).getD (maxKey 0 D + 1) = N ∧
      ∀ e ∈ es, e.1 ≤ N := by
    cases size with
    | none =>
      refine ⟨(maxKey 0 D + 1).toNat, by simp only [Option.map_none, Option.getD_none]; omega, fun e he => ?_⟩
      have := m2 _ (hmem e he)
      simp only at this
      omega
    | some n => exact ⟨n, rfl, hs n rfl⟩
  rw [hN, if_neg (by omega), Int.toNat_natCast] at hp
  obtain ⟨r, e1, e2, e3, e4⟩ := fill_ok D (List.replicate N 0) hdn (fun p hp => by
    obtain ⟨e, he, rfl⟩ := hmem' p hp
    have h3 := h1 e he
    have h4 := hbig e he
    simp only [List.length_replicate]
    omega)
  rw [List.length_replicate] at e2
  refine ⟨r, hp.trans e1, ?_, ?_, ?_, ?_⟩
  · rintro n rfl
    simp only [Option.map_some, Option.getD_some] at hN
    omega
  · rintro rfl
    simp only [Option.map_none, Option.getD_none] at hN
    refine ⟨?_, fun e he => by rw [e2]; exact hbig e he⟩
    obtain ⟨e0, he0⟩ := List.exists_mem_of_ne_nil _ hne
    rcases m3 with m3 | ⟨p, hp, m3⟩
    · refine ⟨e0, he0, ?_⟩
      have := h1 e0 he0
      have := hbig e0 he0
      omega
    · obtain ⟨e, he, rfl⟩ := hmem' p hp
      simp only at m3
      exact ⟨e, he, by omega⟩
  · intro e he
    have := e3 _ (hmem e he)
    simp only at this
    have hpos := h1 e he
    rwa [show ((e.1 : ℤ) - 1).toNat = e.1 - 1 by omega] at this
  · intro j hj hno
    rw [e4 j, List.getElem?_replicate, if_pos (by omega)]
    intro p hp h0
    obtain ⟨e, he, rfl⟩ := hmem' p hp
    simp only at h0
    exact hno e he (by omega)

/-- C69: strings of another form raise an exception, where the form also allows `|` between terms and a newline at
the end. -/
theorem C69_reject_partial {ch : Chars} {s : List Char} (size : Option ℤ)
    (h : ∀ neg t l, LinOk ch ['+', '|', '-'] t l → s ≠ linText neg t l ∧ s ≠ linText neg t l ++ ['\n']) :
    parseLinear ch s size = .error .genericException := by
  unfold parseLinear
  rw [if_neg]
  rw [validate_iff]
  rintro ⟨neg, t, l, hl, h0 | h0⟩
  · exact (h neg t l hl).1 h0
  · exact (h neg t l hl).2 h0

/-- C69: an index that occurs twice raises an exception. -/
theorem C69_duplicate {ch : Chars} {neg : Bool} {t : TermText} {l : List (Char × TermText)}
    (h : LinOk ch ['+', '|', '-'] t l) (hd : ¬ ((entries ch neg t l).map Prod.fst).Nodup) (size : Option ℤ) :
    parseLinear ch (linText neg t l) size = .error .genericException := by
  have := parse_dup h (z := []) (Or.inl rfl) hd size
  rwa [List.append_nil] at this

/-- C69: an index larger than the given size raises `IndexError`, unless an index occurs twice. -/
theorem C69_too_large {ch : Chars} {neg : Bool} {t : TermText} {l : List (Char × TermText)}
    (h : LinOk ch ['+', '|', '-'] t l) (hd : ((entries ch neg t l).map Prod.fst).Nodup) {n : ℕ}
    (hn : ∃ e ∈ entries ch neg t l, n < e.1) :
    parseLinear ch (linText neg t l) (some n) = .error .indexError := by
  have := parse_ok h (z := []) (Or.inl rfl) hd (some n)
  rw [List.append_nil] at this
  rw [this]
  simp only [Option.getD_some]
  rw [if_neg (by omega), fill_error]
  obtain ⟨e, he, h0⟩ := hn
  refine ⟨((e.1 : ℤ) - 1, e.2), List.mem_map.mpr ⟨e, he, rfl⟩, Or.inr ?_⟩
  simp only [Int.toNat_natCast, List.length_replicate]
  omega

/-- `"-3x_1+4.5x_2"` meets the hypotheses of `C69_partial`. -/
example : let t : TermText := ⟨⟨['3'], none⟩, ['1']⟩
    let l : List (Char × TermText) := [('+', ⟨⟨['4'], some ['5']⟩, ['2']⟩)]
    linText true t l = "-3x_1+4.5x_2".toList ∧ LinOk asciiChars ['+', '-'] t l ∧
    ((entries asciiChars true t l).map Prod.fst).Nodup ∧ ∀ e ∈ entries asciiChars true t l, 1 ≤ e.1 := by
  refine ⟨by decide, ⟨⟨⟨⟨by simp, by simp; decide⟩, fun f hf => by cases hf⟩, by simp, by simp; decide⟩, ?_⟩,
    by decide, by decide⟩
  intro p hp
  simp only [List.mem_singleton] at hp
  subst hp
  refine ⟨by simp, ⟨⟨by simp, by simp; decide⟩, fun f hf => ?_⟩, by simp, by simp; decide⟩
  cases hf
  exact ⟨by simp, by simp; decide⟩

/-- C69 is false: every expression followed by a newline is parsed like the expression. -/
theorem C69_newline_wrong {ch : Chars} {neg : Bool} {t : TermText} {l : List (Char × TermText)}
    (h : LinOk ch ['+', '|', '-'] t l) (size : Option ℤ) :
    parseLinear ch (linText neg t l ++ ['\n']) size = parseLinear ch (linText neg t l) size := by
  by_cases hd : ((entries ch neg t l).map Prod.fst).Nodup
  · rw [parse_ok h (Or.inr rfl) hd]
    have := parse_ok h (z := []) (Or.inl rfl) hd size
    rw [List.append_nil] at this
    exact this.symm
  · rw [parse_dup h (Or.inr rfl) hd]
    have := parse_dup h (z := []) (Or.inl rfl) hd size
    rw [List.append_nil] at this
    exact this.symm

/-- Replaces every `|` between terms by `+`. -/
def barToPlus (l : List (Char × TermText)) : List (Char × TermText) :=
  l.map fun p => (if p.1 = '|' then '+' else p.1, p.2)

/-- C69 is false: `|` between terms is accepted and means `+`. -/
theorem C69_bar_wrong {ch : Chars} {neg : Bool} {t : TermText} {l : List (Char × TermText)}
    (h : LinOk ch ['+', '|', '-'] t l) (size : Option ℤ) :
    parseLinear ch (linText neg t l) size = parseLinear ch (linText neg t (barToPlus l)) size := by
  have h' : LinOk ch ['+', '|', '-'] t (barToPlus l) := by
    refine ⟨h.1, fun p hp => ?_⟩
    obtain ⟨q, hq, rfl⟩ := List.mem_map.mp hp
    refine ⟨?_, (h.2 q hq).2⟩
    simp only
    split
    · simp
    · exact (h.2 q hq).1
  have he : entries ch neg t (barToPlus l) = entries ch neg t l := by
    unfold entries barToPlus
    rw [List.map_map]
    congr 1
    refine List.map_congr_left fun p _ => ?_
    simp only [Function.comp_apply]
    by_cases hp : p.1 = '|'
    · rw [if_pos hp, hp]; rfl
    · rw [if_neg hp]
  have a1 := fun hd => parse_ok (neg := neg) h (z := []) (Or.inl rfl) hd size
  have a2 := fun hd => parse_ok (neg := neg) h' (z := []) (Or.inl rfl) hd size
  have b1 := fun hd => parse_dup (neg := neg) h (z := []) (Or.inl rfl) hd size
  have b2 := fun hd => parse_dup (neg := neg) h' (z := []) (Or.inl rfl) hd size
  simp only [List.append_nil, he] at a1 a2 b1 b2
  by_cases hd : ((entries ch neg t l).map Prod.fst).Nodup
  · rw [a1 hd, a2 hd]
  · rw [b1 hd, b2 hd]

/-- C69 is false: the index 0 is accepted and overwrites the last entry: `"5x_0"` gives `[5]`. -/
theorem C69_zero_wrong (ch : Chars) : parseLinear ch "5x_0".toList none = .ok [5] := by
  have h5 : ch.digit '5' = some 5 := by rw [(ch.ascii '5' (by decide)).2.1]; decide
  have h0 : ch.digit '0' = some 0 := by rw [(ch.ascii '0' (by decide)).2.1]; decide
  have h : LinOk ch ['+', '|', '-'] ⟨⟨['5'], none⟩, ['0']⟩ [] := by
    refine ⟨⟨⟨⟨by simp, ?_⟩, fun f hf => by cases hf⟩, by simp, ?_⟩, by simp⟩
    · intro c hc; rw [List.mem_singleton.mp hc]; unfold Chars.isDigit; rw [h5]; rfl
    · intro c hc; rw [List.mem_singleton.mp hc]; unfold Chars.isDigit; rw [h0]; rfl
  have he : entries ch false ⟨⟨['5'], none⟩, ['0']⟩ [] = [(0, 5)] := by
    simp [entries, TermText.entry, Dec.value, digitsValue, h5, h0]
  have := parse_ok (neg := false) h (z := []) (Or.inl rfl) (by rw [he]; simp) none
  rw [List.append_nil, he] at this
  exact this

/-! ### C70 -/

/-- The subscript digits, U+2080 to U+2089. -/
def subscriptDigit (d : ℕ) : Char := Char.ofNat (0x2080 + d)

theorem lookup_digit : ∀ d < 10, subscriptTable.lookup (Char.ofNat (48 + d)) = some (subscriptDigit d) := by decide

theorem lookup_other {c : Char} (h : c.isDigit = false) : subscriptTable.lookup c = none := by
  have hne : ∀ k : Char, k.isDigit = true → (c == k) = false := by
    intro k hk
    simp only [beq_eq_false_iff_ne, ne_eq]
    rintro rfl
    rw [h] at hk
    cases hk
  have hall : ∀ p ∈ subscriptTable, p.1.isDigit = true := by decide
  generalize subscriptTable = T at hall ⊢
  induction T with
  | nil => rfl
  | cons p l ih =>
    rw [List.lookup_cons, hne _ (hall p (List.mem_cons_self ..))]
    exact ih fun p hp => hall p (List.mem_cons_of_mem _ hp)

/-- C70: every ASCII digit is replaced by the subscript with the same value. -/
theorem C70_digit {s : List Char} {i d : ℕ} (hd : d < 10) (h : s[i]? = some (Char.ofNat (48 + d))) :
    (subscript s)[i]? = some (subscriptDigit d) := by
  unfold subscript
  rw [List.getElem?_map, h, Option.map_some, lookup_digit d hd]
  rfl

/-- C70: no other character changes. -/
theorem C70_other {s : List Char} {i : ℕ} {c : Char} (hc : c.isDigit = false) (h : s[i]? = some c) :
    (subscript s)[i]? = some c := by
  unfold subscript
  rw [List.getElem?_map, h, Option.map_some, lookup_other hc]
  rfl

/-- C70: the length is preserved. -/
theorem C70_length (s : List Char) : (subscript s).length = s.length := by simp [subscript]

/-- A digit is one of the ten. -/
theorem digit_cases {c : Char} (h : c.isDigit = true) : ∃ d < 10, c = Char.ofNat (48 + d) := by
  simp only [Char.isDigit, Bool.and_eq_true, decide_eq_true_eq, ge_iff_le, UInt32.le_iff_toNat_le] at h
  have h1 : 48 ≤ c.toNat := h.1
  have h2 : c.toNat ≤ 57 := h.2
  refine ⟨c.toNat - 48, by omega, ?_⟩
  rw [show 48 + (c.toNat - 48) = c.toNat by omega, Char.ofNat_toNat]

/-- C70: two strings without subscript digits that have the same subscript form are equal. -/
theorem C70_injective {s t : List Char} (hs : ∀ c ∈ s, ∀ d < 10, c ≠ subscriptDigit d)
    (ht : ∀ c ∈ t, ∀ d < 10, c ≠ subscriptDigit d) (h : subscript s = subscript t) : s = t := by
  have key : ∀ a b : Char, (∀ d < 10, a ≠ subscriptDigit d) → (∀ d < 10, b ≠ subscriptDigit d) →
      (subscriptTable.lookup a).getD a = (subscriptTable.lookup b).getD b → a = b := by
    intro a b ha hb hab
    cases hda : a.isDigit with
    | true =>
      obtain ⟨d, hd, rfl⟩ := digit_cases hda
      rw [lookup_digit d hd] at hab
      cases hdb : b.isDigit with
      | true =>
        obtain ⟨d', hd', rfl⟩ := digit_cases hdb
        rw [lookup_digit d' hd'] at hab
        simp only [Option.getD_some] at hab
        have : ∀ d < 10, ∀ d' < 10, subscriptDigit d = subscriptDigit d' → d = d' := by decide
        rw [this d hd d' hd' hab]
      | false =>
        rw [lookup_other hdb] at hab
        exact (hb d hd hab.symm).elim
    | false =>
      rw [lookup_other hda] at hab
      cases hdb : b.isDigit with
      | true =>
        obtain ⟨d', hd', rfl⟩ := digit_cases hdb
        rw [lookup_digit d' hd'] at hab
        exact (ha d' hd' hab).elim
      | false =>
        rw [lookup_other hdb] at hab
        exact hab
  unfold subscript at h
  induction s generalizing t with
  | nil =>
    cases t with
    | nil => rfl
    | cons b t => cases h
  | cons a s ih =>
    cases t with
    | nil => cases h
    | cons b t =>
      simp only [List.map_cons, List.cons.injEq] at h
      rw [key a b (hs a (List.mem_cons_self ..)) (ht b (List.mem_cons_self ..)) h.1,
        ih (fun c hc => hs c (List.mem_cons_of_mem _ hc)) (fun c hc => ht c (List.mem_cons_of_mem _ hc)) h.2]

/-- `"x12"` meets the hypotheses. -/
example : ∀ c ∈ "x12".toList, ∀ d < 10, c ≠ subscriptDigit d := by decide

/-! ### C75 -/

/-- C75, the part that holds: `parse_multiple` raises if and only if `parse` raises for some expression. Missing: it
does not return the rows, see `C75_wrong`. -/
theorem C75_partial {ch : Chars} (size : Option ℤ) (l : List (List Char)) :
    (∃ r, parseMultiple ch size l = .ok r) ↔ ∀ s ∈ l, ∃ r, parseLinear ch s size = .ok r := by
  induction l with
  | nil => simp [parseMultiple]
  | cons s l ih =>
    rw [List.forall_mem_cons, ← ih]
    simp only [parseMultiple]
    by_cases hv : validateExpression ch s = true
    · rw [if_pos hv]
      generalize parseLinear ch s size = r
      rcases r with e | r
      · simp
      · simp
    · rw [if_neg hv]
      have : parseLinear ch s size = .error .genericException := by
        unfold parseLinear; rw [if_neg hv]
      simp [this]

/-- C75 is false: whatever is parsed, `None` is returned. -/
theorem C75_wrong {ch : Chars} {size : Option ℤ} {l : List (List Char)} {r : Option (List (List ℚ))}
    (h : parseMultiple ch size l = .ok r) : r = none := by
  induction l with
  | nil => cases h; rfl
  | cons s l ih =>
    simp only [parseMultiple] at h
    split at h
    · split at h
      · cases h
      · exact ih h
    · cases h

/-- A list of expressions that is accepted. -/
example : ∃ r, parseMultiple asciiChars none ["5x_0".toList] = .ok r := by
  rw [C75_partial]
  intro s hs
  rw [List.mem_singleton.mp hs, C69_zero_wrong]
  exact ⟨_, rfl⟩

end Props
end Pytimize
