/-
The four formats of edge lists, and the behaviour of the patterns of `GraphParser` on them.
-/
import Mathlib.Tactic.Ring
import Mathlib.Tactic.IntervalCases
import Mathlib.Tactic.FinCases
import Verif.Parser.Model

namespace Pytimize
namespace Parser

/-! ### Specification: what the four formats look like -/

/-- A nonempty string of word characters. -/
def IsName (ch : Chars) (w : List Char) : Prop := w ≠ [] ∧ ∀ c ∈ w, ch.word c = true

/-- A nonempty string of digits. -/
def IsDigits (ch : Chars) (w : List Char) : Prop := w ≠ [] ∧ ∀ c ∈ w, ch.isDigit c = true

/-- A decimal: the digits before and, if any, after the point. -/
structure Dec where
  ip : List Char
  fp : Option (List Char)

/-- Both parts are nonempty strings of digits. -/
def Dec.Ok (ch : Chars) (d : Dec) : Prop := IsDigits ch d.ip ∧ ∀ f, d.fp = some f → IsDigits ch f

/-- The decimal as printed. -/
def Dec.text (d : Dec) : List Char :=
  match d.fp with
  | none => d.ip
  | some f => d.ip ++ '.' :: f

/-- The number a string of digits stands for, in positional notation. -/
def digitsValue (ch : Chars) : List Char → ℕ
  | [] => 0
  | c :: w => (ch.digit c).getD 0 * 10 ^ w.length + digitsValue ch w

/-- The number a decimal stands for. -/
def Dec.value (ch : Chars) (d : Dec) : ℚ :=
  digitsValue ch d.ip + match d.fp with
    | none => 0
    | some f => (digitsValue ch f : ℚ) / 10 ^ f.length

/-- An edge of a graph description. -/
structure EdgeText where
  u : List Char
  v : List Char
  w : Dec

/-- The edge in one of the formats: `ab`, `a-b`, `ab:1.5`, `a-b:1.5`. -/
def EdgeText.text (e : EdgeText) : ℕ → List Char
  | 0 => e.u ++ e.v
  | 1 => e.u ++ '-' :: e.v
  | 2 => e.u ++ (e.v ++ ':' :: e.w.text)
  | _ => e.u ++ '-' :: (e.v ++ ':' :: e.w.text)

/-- The names and the weight can be printed in the format. -/
def EdgeText.Ok (ch : Chars) (k : ℕ) (e : EdgeText) : Prop :=
  IsName ch e.u ∧ IsName ch e.v ∧ (k = 0 ∨ k = 2 → e.u.length = 1 ∧ e.v.length = 1) ∧ (2 ≤ k → e.w.Ok ch)

/-- A list of edges, each but the first preceded by a separator. -/
def listText (k : ℕ) (e : EdgeText) (l : List (Char × EdgeText)) : List Char :=
  e.text k ++ l.flatMap fun p => p.1 :: p.2.text k

/-- The separators are white space and the edges can be printed. -/
def ListOk (ch : Chars) (k : ℕ) (e : EdgeText) (l : List (Char × EdgeText)) : Prop :=
  e.Ok ch k ∧ ∀ p ∈ l, ch.space p.1 = true ∧ p.2.Ok ch k

/-- The whole string is a list of edges in the format. -/
def InFormat (ch : Chars) (k : ℕ) (s : List Char) : Prop :=
  ∃ e l, ListOk ch k e l ∧ s = listText k e l

/-! ### Characters -/

section chars
variable (ch : Chars)

theorem word_dash : ch.word '-' = false := by rw [(ch.ascii '-' (by decide)).1]; decide
theorem word_colon : ch.word ':' = false := by rw [(ch.ascii ':' (by decide)).1]; decide
theorem space_dash : ch.space '-' = false := by rw [(ch.ascii '-' (by decide)).2.2]; decide
theorem space_colon : ch.space ':' = false := by rw [(ch.ascii ':' (by decide)).2.2]; decide
theorem space_newline : ch.space '\n' = true := by rw [(ch.ascii '\n' (by decide)).2.2]; decide
theorem space_blank : ch.space ' ' = true := by rw [(ch.ascii ' ' (by decide)).2.2]; decide
theorem digit_dot : ch.isDigit '.' = false := by
  unfold Chars.isDigit; rw [(ch.ascii '.' (by decide)).2.1]; decide
theorem digit_x : ch.isDigit 'x' = false := by
  unfold Chars.isDigit; rw [(ch.ascii 'x' (by decide)).2.1]; decide

variable {ch}

theorem digit_isWord {c : Char} (h : ch.isDigit c = true) : ch.word c = true := by
  unfold Chars.isDigit at h
  obtain ⟨d, hd⟩ := Option.isSome_iff_exists.mp h
  exact ch.digit_word c d hd

theorem space_not_word {c : Char} (h : ch.space c = true) : ch.word c = false := by
  by_contra h0
  have := ch.word_space c (by simpa using h0)
  rw [h] at this
  cases this

theorem not_digit_of_not_word {c : Char} (h : ch.word c = false) : ch.isDigit c = false := by
  by_contra h0
  have := digit_isWord (ch := ch) (c := c) (by simpa using h0)
  rw [h] at this
  cases this

end chars

/-! ### Languages of the patterns -/

theorem lang_plus {f : Char → Bool} {w : List Char} :
    (Re.plus (.cls f)).Lang w ↔ w ≠ [] ∧ ∀ c ∈ w, f c = true := by
  constructor
  · rintro ⟨u, v, ⟨c, hc, rfl⟩, ⟨ws, hws, rfl⟩, rfl⟩
    refine ⟨by simp, ?_⟩
    intro d hd
    simp only [List.singleton_append, List.mem_cons, List.mem_flatten] at hd
    rcases hd with rfl | ⟨x, hx, hd⟩
    · exact hc
    · obtain ⟨e, he, rfl⟩ := hws x hx
      simp only [List.mem_singleton] at hd
      rw [hd]; exact he
  · rintro ⟨h0, h⟩
    cases w with
    | nil => exact (h0 rfl).elim
    | cons c w =>
      refine ⟨[c], w, ⟨c, h c (List.mem_cons_self ..), rfl⟩, ⟨w.map fun d => [d], ?_, ?_⟩, rfl⟩
      · intro u hu
        obtain ⟨d, hd, rfl⟩ := List.mem_map.mp hu
        exact ⟨d, h d (List.mem_cons_of_mem _ hd), rfl⟩
      · induction w with
        | nil => rfl
        | cons d w ih => simp only [List.map_cons, List.flatten_cons, List.singleton_append]; rw [← ih]
                         · exact List.cons_ne_nil _ _
                         · intro e he
                           apply h
                           simp only [List.mem_cons] at he ⊢
                           tauto

theorem lang_lit {c : Char} {w : List Char} : (Re.lit c).Lang w ↔ w = [c] := by
  simp only [Re.lit, Re.Lang, beq_iff_eq]
  constructor
  · rintro ⟨d, rfl, rfl⟩; rfl
  · rintro rfl; exact ⟨c, rfl, rfl⟩

theorem lang_num {ch : Chars} {w : List Char} : (reNum ch).Lang w ↔ ∃ d : Dec, d.Ok ch ∧ w = d.text := by
  unfold reNum reDigit
  constructor
  · rintro ⟨u, v, hu, hv, rfl⟩
    rw [lang_plus] at hu
    rcases hv with ⟨a, b, ha, hb, rfl⟩ | rfl
    · rw [lang_lit] at ha
      rw [lang_plus] at hb
      subst ha
      exact ⟨⟨u, some b⟩, ⟨hu, fun f hf => by cases hf; exact hb⟩, rfl⟩
    · exact ⟨⟨u, none⟩, ⟨hu, fun f hf => by cases hf⟩, by simp [Dec.text]⟩
  · rintro ⟨⟨ip, fp⟩, ⟨h1, h2⟩, rfl⟩
    cases fp with
    | none => exact ⟨ip, [], lang_plus.mpr h1, Or.inr rfl, by simp [Dec.text]⟩
    | some f => exact ⟨ip, '.' :: f, lang_plus.mpr h1,
        Or.inl ⟨['.'], f, lang_lit.mpr rfl, lang_plus.mpr (h2 f rfl), rfl⟩, rfl⟩

theorem lang_word {ch : Chars} {w : List Char} : (reWord ch).Lang w ↔ IsName ch w ∧ w.length = 1 := by
  unfold reWord IsName
  simp only [Re.Lang]
  constructor
  · rintro ⟨c, hc, rfl⟩; simp [hc]
  · rintro ⟨⟨_, h2⟩, h3⟩
    obtain ⟨c, rfl⟩ := List.length_eq_one_iff.mp h3
    exact ⟨c, h2 c (List.mem_singleton.mpr rfl), rfl⟩

theorem lang_name {ch : Chars} {w : List Char} : (Re.plus (reWord ch)).Lang w ↔ IsName ch w := lang_plus

theorem lang_edge {ch : Chars} {k : ℕ} {w : List Char} :
    (reEdge ch k).Lang w ↔ ∃ e : EdgeText, e.Ok ch k ∧ w = e.text k := by
  match k with
  | 0 =>
    constructor
    · rintro ⟨u, v, hu, hv, rfl⟩
      rw [lang_word] at hu hv
      exact ⟨⟨u, v, ⟨[], none⟩⟩, ⟨hu.1, hv.1, fun _ => ⟨hu.2, hv.2⟩, fun h => by omega⟩, rfl⟩
    · rintro ⟨⟨u, v, d⟩, ⟨h1, h2, h3, _⟩, rfl⟩
      exact ⟨u, v, lang_word.mpr ⟨h1, (h3 (Or.inl rfl)).1⟩, lang_word.mpr ⟨h2, (h3 (Or.inl rfl)).2⟩, rfl⟩
  | 1 =>
    constructor
    · rintro ⟨u, v, hu, ⟨a, b, ha, hb, rfl⟩, rfl⟩
      rw [lang_lit] at ha
      subst ha
      exact ⟨⟨u, b, ⟨[], none⟩⟩, ⟨lang_name.mp hu, lang_name.mp hb, fun h => by omega, fun h => by omega⟩, rfl⟩
    · rintro ⟨⟨u, v, d⟩, ⟨h1, h2, _, _⟩, rfl⟩
      exact ⟨u, '-' :: v, lang_name.mpr h1, ⟨['-'], v, lang_lit.mpr rfl, lang_name.mpr h2, rfl⟩, rfl⟩
  | 2 =>
    constructor
    · rintro ⟨u, v, hu, ⟨a, b, ha, ⟨x, y, hx, hy, rfl⟩, rfl⟩, rfl⟩
      rw [lang_lit] at hx
      subst hx
      rw [lang_word] at hu ha
      obtain ⟨d, hd, rfl⟩ := lang_num.mp hy
      exact ⟨⟨u, a, d⟩, ⟨hu.1, ha.1, fun _ => ⟨hu.2, ha.2⟩, fun _ => hd⟩, rfl⟩
    · rintro ⟨⟨u, v, d⟩, ⟨h1, h2, h3, h4⟩, rfl⟩
      exact ⟨u, _, lang_word.mpr ⟨h1, (h3 (Or.inr rfl)).1⟩, ⟨v, _, lang_word.mpr ⟨h2, (h3 (Or.inr rfl)).2⟩,
        ⟨[':'], _, lang_lit.mpr rfl, lang_num.mpr ⟨d, h4 le_rfl, rfl⟩, rfl⟩, rfl⟩, rfl⟩
  | k + 3 =>
    constructor
    · rintro ⟨u, v, hu, ⟨a, b, ha, ⟨x, y, hx, ⟨p, q, hp, hq, rfl⟩, rfl⟩, rfl⟩, rfl⟩
      rw [lang_lit] at ha hp
      subst ha hp
      obtain ⟨d, hd, rfl⟩ := lang_num.mp hq
      exact ⟨⟨u, x, d⟩, ⟨lang_name.mp hu, lang_name.mp hx, fun h => by omega, fun _ => hd⟩, rfl⟩
    · rintro ⟨⟨u, v, d⟩, ⟨h1, h2, h3, h4⟩, rfl⟩
      exact ⟨u, _, lang_name.mpr h1, ⟨['-'], _, lang_lit.mpr rfl, ⟨v, _, lang_name.mpr h2,
        ⟨[':'], _, lang_lit.mpr rfl, lang_num.mpr ⟨d, h4 (by omega), rfl⟩, rfl⟩, rfl⟩, rfl⟩, rfl⟩

theorem pure_edge {ch : Chars} {k : ℕ} : (reEdge ch k).Pure := by
  match k with
  | 0 => exact ⟨trivial, trivial⟩
  | 1 => exact ⟨⟨trivial, trivial⟩, trivial, trivial, trivial⟩
  | 2 => exact ⟨trivial, trivial, trivial, ⟨trivial, trivial⟩, trivial, trivial, trivial⟩
  | k + 3 => exact ⟨⟨trivial, trivial⟩, trivial, ⟨trivial, trivial⟩, trivial, ⟨trivial, trivial⟩, trivial,
      trivial, trivial⟩

theorem lang_list {ch : Chars} {k : ℕ} {s : List Char} :
    (Re.seq (reEdge ch k) (.star (.seq (reSpace ch) (reEdge ch k)))).Lang s ↔ InFormat ch k s := by
  constructor
  · rintro ⟨u, v, hu, ⟨ws, hws, rfl⟩, rfl⟩
    obtain ⟨e, he, rfl⟩ := lang_edge.mp hu
    have : ∃ l : List (Char × EdgeText), (∀ p ∈ l, ch.space p.1 = true ∧ p.2.Ok ch k) ∧
        ws.flatten = l.flatMap fun p => p.1 :: p.2.text k := by
      induction ws with
      | nil => exact ⟨[], by simp, rfl⟩
      | cons w ws ih =>
        obtain ⟨l, h1, h2⟩ := ih fun u hu => hws u (List.mem_cons_of_mem _ hu)
        obtain ⟨a, b, ⟨c, hc, rfl⟩, hb, rfl⟩ := hws w (List.mem_cons_self ..)
        obtain ⟨f, hf, rfl⟩ := lang_edge.mp hb
        refine ⟨(c, f) :: l, ?_, ?_⟩
        · intro p hp
          rcases List.mem_cons.mp hp with rfl | hp
          · exact ⟨hc, hf⟩
          · exact h1 p hp
        · rw [List.flatten_cons, h2]; rfl
    obtain ⟨l, h1, h2⟩ := this
    exact ⟨e, l, ⟨he, h1⟩, by rw [h2]; rfl⟩
  · rintro ⟨e, l, ⟨he, hl⟩, rfl⟩
    refine ⟨e.text k, _, lang_edge.mpr ⟨e, he, rfl⟩, ⟨l.map fun p => p.1 :: p.2.text k, ?_, rfl⟩, rfl⟩
    intro u hu
    obtain ⟨p, hp, rfl⟩ := List.mem_map.mp hu
    exact ⟨[p.1], _, ⟨p.1, (hl p hp).1, rfl⟩, lang_edge.mpr ⟨p.2, (hl p hp).2, rfl⟩, rfl⟩

theorem match_valid {ch : Chars} {k : ℕ} {s : List Char} :
    (reMatch (reValid ch k) s).isSome ↔ InFormat ch k s ∨ ∃ w, InFormat ch k w ∧ s = w ++ ['\n'] := by
  unfold reValid
  rw [match_full (show Re.Pure (.seq (reEdge ch k) (.star (.seq (reSpace ch) (reEdge ch k)))) from ⟨pure_edge, trivial, pure_edge⟩)]
  simp only [lang_list]

/-! ### The formats exclude each other -/

theorem mem_dec {ch : Chars} {d : Dec} (hd : d.Ok ch) {c : Char} (hc : c ∈ d.text) :
    ch.word c = true ∨ c = '.' := by
  obtain ⟨ip, fp⟩ := d
  unfold Dec.text at hc
  cases fp with
  | none => exact Or.inl (digit_isWord (hd.1.2 c hc))
  | some f =>
    simp only [List.mem_append, List.mem_cons] at hc
    rcases hc with hc | rfl | hc
    · exact Or.inl (digit_isWord (hd.1.2 c hc))
    · exact Or.inr rfl
    · exact Or.inl (digit_isWord ((hd.2 f rfl).2 c hc))

/-- Which of the two punctuation marks occur in an edge. -/
theorem mark_edge {ch : Chars} {k : ℕ} {e : EdgeText} (he : e.Ok ch k) :
    ('-' ∈ e.text k ↔ k = 1 ∨ 3 ≤ k) ∧ (':' ∈ e.text k ↔ 2 ≤ k) := by
  obtain ⟨u, v, d⟩ := e
  obtain ⟨h1, h2, h3, h4⟩ := he
  have d1 := word_dash ch
  have d2 := word_colon ch
  have u1 : '-' ∉ u := fun h => by have := h1.2 _ h; rw [d1] at this; cases this
  have u2 : ':' ∉ u := fun h => by have := h1.2 _ h; rw [d2] at this; cases this
  have v1 : '-' ∉ v := fun h => by have := h2.2 _ h; rw [d1] at this; cases this
  have v2 : ':' ∉ v := fun h => by have := h2.2 _ h; rw [d2] at this; cases this
  have w1 : 2 ≤ k → '-' ∉ d.text := fun hk h => by
    rcases mem_dec (h4 hk) h with h | h
    · rw [d1] at h; cases h
    · revert h; decide
  have w2 : 2 ≤ k → ':' ∉ d.text := fun hk h => by
    rcases mem_dec (h4 hk) h with h | h
    · rw [d2] at h; cases h
    · revert h; decide
  match k with
  | 0 => simp [EdgeText.text, u1, u2, v1, v2]
  | 1 => simp [EdgeText.text, u2, v2]
  | 2 => simp [EdgeText.text, u1, v1, w1]
  | k + 3 => simp [EdgeText.text]

theorem mark_list {ch : Chars} {k : ℕ} {e : EdgeText} {l : List (Char × EdgeText)} (h : ListOk ch k e l) :
    ('-' ∈ listText k e l ↔ k = 1 ∨ 3 ≤ k) ∧ (':' ∈ listText k e l ↔ 2 ≤ k) := by
  have key : ∀ c : Char, ch.space c = false → ∀ P : Prop, (∀ e : EdgeText, e.Ok ch k → (c ∈ e.text k ↔ P)) →
      (c ∈ listText k e l ↔ P) := by
    intro c hc P hP
    unfold listText
    rw [List.mem_append, hP e h.1]
    constructor
    · rintro (h0 | h0)
      · exact h0
      · obtain ⟨p, hp, h0⟩ := List.mem_flatMap.mp h0
        rcases List.mem_cons.mp h0 with rfl | h0
        · rw [(h.2 p hp).1] at hc; cases hc
        · exact (hP p.2 (h.2 p hp).2).mp h0
    · exact Or.inl
  exact ⟨key '-' (space_dash ch) _ fun e he => (mark_edge he).1, key ':' (space_colon ch) _ fun e he => (mark_edge he).2⟩

/-- In the format, possibly followed by one newline. -/
def InFormatNl (ch : Chars) (k : ℕ) (s : List Char) : Prop :=
  InFormat ch k s ∨ ∃ w, InFormat ch k w ∧ s = w ++ ['\n']

theorem mark_format {ch : Chars} {k : ℕ} {s : List Char} (h : InFormatNl ch k s) :
    ('-' ∈ s ↔ k = 1 ∨ 3 ≤ k) ∧ (':' ∈ s ↔ 2 ≤ k) := by
  rcases h with ⟨e, l, h, rfl⟩ | ⟨_, ⟨e, l, h, rfl⟩, rfl⟩
  · exact mark_list h
  · obtain ⟨h1, h2⟩ := mark_list h
    rw [List.mem_append, List.mem_append, h1, h2]
    simp

theorem format_unique {ch : Chars} {i j : ℕ} (hi : i ≤ 3) (hj : j ≤ 3) {s : List Char}
    (h1 : InFormatNl ch i s) (h2 : InFormatNl ch j s) : i = j := by
  have a := mark_format h1
  have b := mark_format h2
  have c1 := a.1.symm.trans b.1
  have c2 := a.2.symm.trans b.2
  omega

theorem getType_iff {ch : Chars} {k : ℕ} (hk : k ≤ 3) {s : List Char} :
    getExpressionType ch s = k ↔ InFormatNl ch k s := by
  have hm : ∀ j, (reMatch (reValid ch j) s).isSome = true ↔ InFormatNl ch j s := fun j => match_valid
  unfold getExpressionType
  have hu : ∀ j ≤ 3, InFormatNl ch j s → (InFormatNl ch k s ↔ k = j) := fun j hj h =>
    ⟨fun h' => format_unique hk hj h' h, fun h' => h' ▸ h⟩
  by_cases h0 : InFormatNl ch 0 s
  · rw [if_pos ((hm 0).mpr h0), hu 0 (by omega) h0]; omega
  rw [if_neg (mt (hm 0).mp h0)]
  by_cases h1 : InFormatNl ch 1 s
  · rw [if_pos ((hm 1).mpr h1), hu 1 (by omega) h1]; omega
  rw [if_neg (mt (hm 1).mp h1)]
  by_cases h2 : InFormatNl ch 2 s
  · rw [if_pos ((hm 2).mpr h2), hu 2 (by omega) h2]; omega
  rw [if_neg (mt (hm 2).mp h2)]
  by_cases h3 : InFormatNl ch 3 s
  · rw [if_pos ((hm 3).mpr h3), hu 3 (by omega) h3]; omega
  rw [if_neg (mt (hm 3).mp h3)]
  constructor
  · intro h; omega
  · intro h; interval_cases k <;> contradiction

theorem getType_neg {ch : Chars} {s : List Char} :
    getExpressionType ch s = -1 ↔ ∀ k ≤ 3, ¬ InFormatNl ch k s := by
  constructor
  · intro h k hk hf
    have := (getType_iff hk).mpr hf
    omega
  · intro h
    have hm : ∀ j, (reMatch (reValid ch j) s).isSome = true ↔ InFormatNl ch j s := fun j => match_valid
    unfold getExpressionType
    rw [if_neg (mt (hm 0).mp (h 0 (by omega))), if_neg (mt (hm 1).mp (h 1 (by omega))), if_neg (mt (hm 2).mp (h 2 (by omega))), if_neg (mt (hm 3).mp (h 3 (by omega)))]

/-! ### Numbers -/

theorem readInt_eq (ch : Chars) (w : List Char) : readInt ch w = digitsValue ch w := by
  have : ∀ n, w.foldl (fun n c => 10 * n + (ch.digit c).getD 0) n = n * 10 ^ w.length + digitsValue ch w := by
    induction w with
    | nil => intro n; simp [digitsValue]
    | cons c w ih =>
      intro n
      rw [List.foldl_cons, ih, digitsValue, List.length_cons, pow_succ]
      ring
  unfold readInt
  rw [this]
  simp

theorem takeWhile_all {p : Char → Bool} {w : List Char} (h : ∀ c ∈ w, p c = true) (q : List Char) :
    (w ++ q).takeWhile p = w ++ q.takeWhile p ∧ (w ++ q).dropWhile p = q.dropWhile p := by
  induction w with
  | nil => exact ⟨rfl, rfl⟩
  | cons c w ih =>
    have h1 := h c (List.mem_cons_self ..)
    obtain ⟨i1, i2⟩ := ih fun c hc => h c (List.mem_cons_of_mem _ hc)
    simp [h1, i1, i2]

theorem readFloat_text {ch : Chars} {d : Dec} (hd : d.Ok ch) : readFloat ch d.text = d.value ch := by
  obtain ⟨ip, fp⟩ := d
  have hne : ∀ c ∈ ip, (c != '.') = true := fun c hc => by
    have := hd.1.2 c hc
    simp only [bne_iff_ne, ne_eq]
    rintro rfl
    rw [digit_dot] at this
    cases this
  unfold readFloat Dec.text Dec.value
  cases fp with
  | none =>
    have h1 := (takeWhile_all hne []).1
    have h2 := (takeWhile_all hne []).2
    simp only [List.append_nil, List.takeWhile_nil, List.dropWhile_nil] at h1 h2
    simp only [h1, h2, readInt_eq]
    simp [digitsValue]
  | some f =>
    obtain ⟨h1, h2⟩ := takeWhile_all hne ('.' :: f)
    simp only [h1, h2, readInt_eq]
    simp

/-! ### The first match of the patterns with groups -/

/-- What follows an edge: nothing or white space. -/
def Boundary (ch : Chars) (q : List Char) : Prop := ∀ c r, q = c :: r → ch.space c = true

theorem Boundary.stops {ch : Chars} {q : List Char} (h : Boundary ch q) : Stops ch.word q :=
  fun c r e => space_not_word (h c r e)

theorem stops_cons {f : Char → Bool} {c : Char} {q : List Char} (h : f c = false) : Stops f (c :: q) := by
  intro d r e
  cases e
  exact h

theorem First.lit {c : Char} {b : Bool} {r : List Char} {k : List (ℕ × List Char)} :
    First (.lit c) ⟨b, c :: r, k⟩ ⟨false, r, k⟩ := First.cls (by simp)

theorem First.num {ch : Chars} {d : Dec} (hd : d.Ok ch) {q : List Char} (h1 : Stops ch.isDigit q)
    (h2 : Stops (· == '.') q) {b : Bool} {k : List (ℕ × List Char)} :
    First (reNum ch) ⟨b, d.text ++ q, k⟩ ⟨false, q, k⟩ := by
  obtain ⟨ip, fp⟩ := d
  unfold reNum reDigit Dec.text
  cases fp with
  | none => exact (First.plus hd.1.1 hd.1.2 h1).seq (First.opt_none (seq_fail (cls_fail h2)))
  | some f =>
    simp only [List.append_assoc, List.cons_append]
    exact (First.plus hd.1.1 hd.1.2 (stops_cons (digit_dot ch))).seq
      (First.opt_some (First.lit.seq (First.plus (hd.2 f rfl).1 (hd.2 f rfl).2 h1)))

theorem Boundary.num {ch : Chars} {q : List Char} (h : Boundary ch q) :
    Stops ch.isDigit q ∧ Stops (· == '.') q := by
  refine ⟨fun c r e => not_digit_of_not_word (h.stops c r e), fun c r e => ?_⟩
  have := h c r e
  simp only [beq_eq_false_iff_ne, ne_eq]
  rintro rfl
  rw [(ch.ascii '.' (by decide)).2.2] at this
  revert this
  decide

/-- The groups captured for an edge. -/
def EdgeText.caps (e : EdgeText) (k : ℕ) : List (ℕ × List Char) :=
  if k ≤ 1 then [(2, e.v), (1, e.u)] else [(3, e.w.text), (2, e.v), (1, e.u)]

theorem First.word1 {ch : Chars} {w : List Char} (h : IsName ch w) (h1 : w.length = 1) {q : List Char} {b : Bool}
    {k : List (ℕ × List Char)} : First (reWord ch) ⟨b, w ++ q, k⟩ ⟨false, q, k⟩ := by
  obtain ⟨c, rfl⟩ := List.length_eq_one_iff.mp h1
  exact First.cls (h.2 c (List.mem_singleton.mpr rfl))

theorem first_term {ch : Chars} {k : ℕ} {e : EdgeText} (he : e.Ok ch k) {q : List Char} (hq : Boundary ch q)
    {b : Bool} : First (reTerm ch k) ⟨b, e.text k ++ q, []⟩ ⟨false, q, e.caps k⟩ := by
  obtain ⟨u, v, d⟩ := e
  obtain ⟨h1, h2, h3, h4⟩ := he
  have hdash := stops_cons (q := v ++ q) (word_dash ch)
  match k with
  | 0 =>
    simp only [EdgeText.text, List.append_assoc]
    exact ((First.word1 h1 (h3 (Or.inl rfl)).1).group rfl).seq
      ((First.word1 h2 (h3 (Or.inl rfl)).2).group rfl)
  | 1 =>
    simp only [EdgeText.text, List.append_assoc, List.cons_append]
    exact ((First.plus h1.1 h1.2 hdash).group rfl).seq (First.lit.seq
      ((First.plus h2.1 h2.2 hq.stops).group rfl))
  | 2 =>
    simp only [EdgeText.text, List.append_assoc, List.cons_append]
    exact ((First.word1 h1 (h3 (Or.inr rfl)).1).group rfl).seq
      (((First.word1 h2 (h3 (Or.inr rfl)).2).group rfl).seq
        (First.lit.seq ((First.num (h4 le_rfl) hq.num.1 hq.num.2).group rfl)))
  | k + 3 =>
    simp only [EdgeText.text, List.append_assoc, List.cons_append]
    exact ((First.plus h1.1 h1.2 (stops_cons (word_dash ch))).group rfl).seq (First.lit.seq
      (((First.plus h2.1 h2.2 (stops_cons (word_colon ch))).group rfl).seq
        (First.lit.seq ((First.num (h4 (by omega)) hq.num.1 hq.num.2).group rfl))))

theorem term_fail {ch : Chars} {k : ℕ} {b : Bool} {q : List Char} (hq : Boundary ch q) :
    run (reTerm ch k) ⟨b, q, []⟩ = [] := by
  match k with
  | 0 => exact seq_fail (group_fail (cls_fail hq.stops))
  | 1 => exact seq_fail (group_fail (plus_fail hq.stops))
  | 2 => exact seq_fail (group_fail (cls_fail hq.stops))
  | k + 3 => exact seq_fail (group_fail (plus_fail hq.stops))

theorem boundary_nil {ch : Chars} : Boundary ch [] := fun c r e => by cases e

theorem boundary_cons {ch : Chars} {c : Char} {q : List Char} (h : ch.space c = true) : Boundary ch (c :: q) :=
  fun d r e => by cases e; exact h

theorem findAll_list {ch : Chars} {k : ℕ} {e : EdgeText} {l : List (Char × EdgeText)} (h : ListOk ch k e l)
    {z : List Char} (hz : z = [] ∨ z = ['\n']) {n : ℕ} {b : Bool} (hn : (listText k e l ++ z).length < n) :
    (findAllFrom (reTerm ch k) n b (listText k e l ++ z)).map St.caps =
      (e :: l.map Prod.snd).map fun f => f.caps k := by
  induction l generalizing e n b with
  | nil =>
    cases n with
    | zero => omega
    | succ n =>
      have hb : Boundary ch z := by
        rcases hz with rfl | rfl
        · exact boundary_nil
        · exact boundary_cons (space_newline ch)
      simp only [listText, List.flatMap_nil, List.append_nil]
      rw [findAllFrom_match (first_term h.1 hb)]
      have : findAllFrom (reTerm ch k) n false z = [] := by
        rcases hz with rfl | rfl
        · exact findAllFrom_nil (term_fail hb)
        · cases n with
          | zero => rfl
          | succ n => rw [findAllFrom_skip (term_fail hb), findAllFrom_nil (term_fail boundary_nil)]
      simp [this]
  | cons p l ih =>
    obtain ⟨c, f⟩ := p
    have hp := h.2 (c, f) (List.mem_cons_self ..)
    have hl : ListOk ch k f l := ⟨hp.2, fun p hp => h.2 p (List.mem_cons_of_mem _ hp)⟩
    have et : listText k e ((c, f) :: l) ++ z = e.text k ++ c :: (listText k f l ++ z) := by
      simp [listText]
    rw [et] at hn ⊢
    have hlen : (e.text k ++ c :: (listText k f l ++ z)).length =
        (e.text k).length + (listText k f l ++ z).length + 1 := by
      rw [List.length_append, List.length_cons]; omega
    have hpos : 0 < (e.text k).length := by
      have := List.length_pos_iff.mpr h.1.1.1
      match k with
      | 0 => simp only [EdgeText.text, List.length_append]; omega
      | 1 => simp only [EdgeText.text, List.length_append]; omega
      | 2 => simp only [EdgeText.text, List.length_append]; omega
      | k + 3 => simp only [EdgeText.text, List.length_append]; omega
    have hb : Boundary ch (c :: (listText k f l ++ z)) := boundary_cons hp.1
    obtain ⟨n, rfl⟩ : ∃ m, n = m + 2 := ⟨n - 2, by omega⟩
    rw [findAllFrom_match (first_term h.1 hb)]
    simp only
    rw [findAllFrom_skip (term_fail hb)]
    simp only [List.map_cons]
    rw [ih hl (by omega)]
    rfl

theorem caps_get {k : ℕ} {e : EdgeText} {t : St} (h : t.caps = e.caps k) :
    t.cap 1 = e.u ∧ t.cap 2 = e.v ∧ (2 ≤ k → t.cap 3 = e.w.text) := by
  unfold St.cap
  rw [h]
  unfold EdgeText.caps
  by_cases hk : k ≤ 1
  · rw [if_pos hk]
    refine ⟨rfl, rfl, fun h => by omega⟩
  · rw [if_neg hk]
    exact ⟨rfl, rfl, fun _ => rfl⟩

theorem parse_format {ch : Chars} {k : ℕ} (hk : k ≤ 3) {e : EdgeText} {l : List (Char × EdgeText)}
    (h : ListOk ch k e l) {z : List Char} (hz : z = [] ∨ z = ['\n']) :
    parseGraph ch (listText k e l ++ z) =
      .ok ((e :: l.map Prod.snd).map fun f => (f.u, f.v, if 2 ≤ k then f.w.value ch else 0)) := by
  have hf : InFormatNl ch k (listText k e l ++ z) := by
    rcases hz with rfl | rfl
    · exact Or.inl ⟨e, l, h, by simp⟩
    · exact Or.inr ⟨_, ⟨e, l, h, rfl⟩, rfl⟩
  have ht := (getType_iff hk).mpr hf
  unfold parseGraph
  simp only [ht]
  rw [if_neg (by omega)]
  congr 1
  have hall := findAll_list h hz (b := true) (n := (listText k e l ++ z).length + 1) (by omega)
  unfold findAll
  rw [Int.toNat_natCast]
  have key : ∀ (ts : List St) (es : List EdgeText), (∀ f ∈ es, f.Ok ch k) →
      ts.map St.caps = es.map (fun f => f.caps k) →
      (ts.map fun t => (t.cap 1, t.cap 2, if (k : ℤ) > 1 then readFloat ch (t.cap 3) else 0)) =
        es.map fun f => (f.u, f.v, if 2 ≤ k then f.w.value ch else 0) := by
    intro ts
    induction ts with
    | nil =>
      intro es _ h
      cases es with
      | nil => rfl
      | cons f es => cases h
    | cons t ts ih =>
      intro es hes h
      cases es with
      | nil => cases h
      | cons f es =>
        simp only [List.map_cons, List.cons.injEq] at h ⊢
        obtain ⟨c1, c2, c3⟩ := caps_get h.1
        refine ⟨?_, ih es (fun f hf => hes f (List.mem_cons_of_mem _ hf)) h.2⟩
        rw [c1, c2]
        by_cases hk2 : 2 ≤ k
        · rw [if_pos (show (k : ℤ) > 1 by omega), if_pos hk2, c3 hk2,
            readFloat_text ((hes f (List.mem_cons_self ..)).2.2.2 hk2)]
        · rw [if_neg (show ¬ (k : ℤ) > 1 by omega), if_neg hk2]
  refine key _ _ ?_ hall
  intro f hf
  rcases List.mem_cons.mp hf with rfl | hf
  · exact h.1
  · obtain ⟨p, hp, rfl⟩ := List.mem_map.mp hf
    exact (h.2 p hp).2

end Parser
end Pytimize
