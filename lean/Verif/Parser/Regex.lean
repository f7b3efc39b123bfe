/-
Python's `re` for the constructs used in `pytimize/parsers`: a backtracking matcher, and its meaning as a
language.
-/
import Mathlib.Data.List.Basic
import Mathlib.Tactic.Linarith
import Verif.Py

namespace Pytimize
namespace Parser

/-- The regular expressions used: a character from a class, sequence, alternative, greedy `?` and `*`, capturing
group, `^` and `$`. Literals are classes of one character. -/
inductive Re
  | cls (f : Char → Bool)
  | seq (a b : Re)
  | alt (a b : Re)
  | opt (a : Re)
  | star (a : Re)
  | group (i : ℕ) (a : Re)
  | bol
  | eol

/-- A position in the string: whether it is the beginning, the text to come, the groups captured so far. -/
structure St where
  start : Bool
  rest : List Char
  caps : List (ℕ × List Char)

/-- Greedy repetition: one more round if that consumes something, otherwise stop. -/
def starRun (f : St → List St) : ℕ → St → List St
  | 0, s => [s]
  | n + 1, s => ((f s).filter fun t => t.rest.length < s.rest.length).flatMap (starRun f n) ++ [s]

/-- All ways to match from a position, in the order in which Python tries them. -/
def run : Re → St → List St
  | .cls f, s =>
    match s.rest with
    | [] => []
    | c :: r => if f c then [⟨false, r, s.caps⟩] else []
  | .seq a b, s => (run a s).flatMap (run b)
  | .alt a b, s => run a s ++ run b s
  | .opt a, s => run a s ++ [s]
  | .star a, s => starRun (run a) s.rest.length s
  | .group i a, s =>
    (run a s).map fun t => { t with caps := (i, s.rest.take (s.rest.length - t.rest.length)) :: t.caps }
  | .bol, s => if s.start then [s] else []
  | .eol, s => if s.rest = [] ∨ s.rest = ['\n'] then [s] else []

/-- `a+`. -/
def Re.plus (a : Re) : Re := .seq a (.star a)

/-- A literal character. -/
def Re.lit (c : Char) : Re := .cls (· == c)

/-- `pattern.match(string)`: the first way to match at the beginning. -/
def reMatch (r : Re) (s : List Char) : Option St := (run r ⟨true, s, []⟩).head?

/-- The text of a group, empty if it took no part in the match. -/
def St.cap (t : St) (i : ℕ) : List Char :=
  match t.caps.find? fun c => c.1 == i with
  | some c => c.2
  | none => []

/-- `pattern.findall(string)` for patterns that match no empty text: the matches found from left to right, not
overlapping. -/
def findAllFrom (r : Re) : ℕ → Bool → List Char → List St
  | 0, _, _ => []
  | n + 1, b, s =>
    match (run r ⟨b, s, []⟩).head? with
    | some t => t :: findAllFrom r n false t.rest
    | none =>
      match s with
      | [] => []
      | _ :: s => findAllFrom r n false s

/-- `pattern.findall(string)`. -/
def findAll (r : Re) (s : List Char) : List St := findAllFrom r (s.length + 1) true s

/-! ### Meaning as a language -/

/-- No `^` and no `$`. -/
def Re.Pure : Re → Prop
  | .cls _ => True
  | .seq a b => a.Pure ∧ b.Pure
  | .alt a b => a.Pure ∧ b.Pure
  | .opt a => a.Pure
  | .star a => a.Pure
  | .group _ a => a.Pure
  | .bol => False
  | .eol => False

/-- The words of an expression. -/
def Re.Lang : Re → List Char → Prop
  | .cls f, w => ∃ c, f c = true ∧ w = [c]
  | .seq a b, w => ∃ u v, a.Lang u ∧ b.Lang v ∧ w = u ++ v
  | .alt a b, w => a.Lang w ∨ b.Lang w
  | .opt a, w => a.Lang w ∨ w = []
  | .star a, w => ∃ ws : List (List Char), (∀ u ∈ ws, a.Lang u) ∧ w = ws.flatten
  | .group _ a, w => a.Lang w
  | .bol, _ => False
  | .eol, _ => False

/-- From a position, the matcher can reach what remains after a word of the language. -/
def Reaches (f : St → List St) (L : List Char → Prop) : Prop :=
  ∀ (s : St) (q : List Char), (∃ t ∈ f s, t.rest = q) ↔ ∃ w, L w ∧ s.rest = w ++ q

theorem starRun_reaches {f : St → List St} {L : List Char → Prop} (hf : Reaches f L) (n : ℕ) (s : St)
    (hn : s.rest.length ≤ n) (q : List Char) :
    (∃ t ∈ starRun f n s, t.rest = q) ↔
      ∃ ws : List (List Char), (∀ u ∈ ws, L u) ∧ s.rest = ws.flatten ++ q := by
  constructor
  · intro h
    induction n generalizing s with
    | zero =>
      obtain ⟨t, ht, rfl⟩ := h
      simp only [starRun, List.mem_singleton] at ht
      subst ht
      exact ⟨[], by simp, by simp⟩
    | succ n ih =>
      obtain ⟨t, ht, rfl⟩ := h
      simp only [starRun, List.mem_append, List.mem_flatMap, List.mem_filter, decide_eq_true_eq,
        List.mem_singleton] at ht
      rcases ht with ⟨u, ⟨hu, hlt⟩, ht⟩ | rfl
      · obtain ⟨ws, h1, h2⟩ := ih u (by omega) ⟨t, ht, rfl⟩
        obtain ⟨w, hw, hs⟩ := (hf s u.rest).mp ⟨u, hu, rfl⟩
        refine ⟨w :: ws, by simpa using ⟨hw, h1⟩, ?_⟩
        rw [hs, h2]
        simp
      · exact ⟨[], by simp, by simp⟩
  · rintro ⟨ws, h1, h2⟩
    induction ws generalizing s n with
    | nil =>
      refine ⟨s, ?_, by simpa using h2⟩
      cases n <;> simp [starRun]
    | cons w ws ih =>
      rw [List.flatten_cons, List.append_assoc] at h2
      have h3 : ∀ u ∈ ws, L u := fun u hu => h1 u (List.mem_cons_of_mem _ hu)
      by_cases hw : w = []
      · subst hw
        exact ih n s hn h3 (by simpa using h2)
      · obtain ⟨u, hu, hr⟩ := (hf s (ws.flatten ++ q)).mpr ⟨w, h1 w (List.mem_cons_self ..), h2⟩
        have hpos : 0 < w.length := List.length_pos_iff.mpr hw
        have hlt : u.rest.length < s.rest.length := by
          rw [hr, h2, List.length_append (as := w)]
          omega
        cases n with
        | zero => omega
        | succ n =>
          obtain ⟨t, ht, hq⟩ := ih n u (by omega) h3 hr
          refine ⟨t, ?_, hq⟩
          simp only [starRun, List.mem_append, List.mem_flatMap, List.mem_filter, decide_eq_true_eq]
          exact Or.inl ⟨u, ⟨hu, hlt⟩, ht⟩

theorem run_reaches {r : Re} (hr : r.Pure) : Reaches (run r) r.Lang := by
  induction r with
  | cls f =>
    intro s q
    simp only [run, Re.Lang]
    cases hs : s.rest with
    | nil => simp
    | cons c r =>
      simp only
      by_cases hf : f c = true
      · simp only [hf, if_true, List.mem_singleton, exists_eq_left]
        constructor
        · rintro rfl; exact ⟨[c], ⟨c, hf, rfl⟩, rfl⟩
        · rintro ⟨w, ⟨c', _, rfl⟩, h⟩
          simp only [List.singleton_append, List.cons.injEq] at h
          exact h.2
      · simp only [hf]
        constructor
        · rintro ⟨t, ht, _⟩; simp at ht
        · rintro ⟨w, ⟨c', hc, rfl⟩, h⟩
          simp only [List.singleton_append, List.cons.injEq] at h
          rw [h.1] at hf
          exact (hf hc).elim
  | seq a b iha ihb =>
    intro s q
    simp only [run, Re.Lang, List.mem_flatMap]
    constructor
    · rintro ⟨t, ⟨u, hu, ht⟩, rfl⟩
      obtain ⟨w1, h1, e1⟩ := (iha hr.1 s u.rest).mp ⟨u, hu, rfl⟩
      obtain ⟨w2, h2, e2⟩ := (ihb hr.2 u t.rest).mp ⟨t, ht, rfl⟩
      exact ⟨w1 ++ w2, ⟨w1, w2, h1, h2, rfl⟩, by rw [e1, e2, List.append_assoc]⟩
    · rintro ⟨w, ⟨w1, w2, h1, h2, rfl⟩, e⟩
      obtain ⟨u, hu, eu⟩ := (iha hr.1 s (w2 ++ q)).mpr ⟨w1, h1, by rw [e, List.append_assoc]⟩
      obtain ⟨t, ht, et⟩ := (ihb hr.2 u q).mpr ⟨w2, h2, eu⟩
      exact ⟨t, ⟨u, hu, ht⟩, et⟩
  | alt a b iha ihb =>
    intro s q
    simp only [run, Re.Lang, List.mem_append, or_and_right, exists_or]
    exact or_congr (iha hr.1 s q) (ihb hr.2 s q)
  | opt a iha =>
    intro s q
    simp only [run, Re.Lang, List.mem_append, List.mem_singleton, or_and_right, exists_or, exists_eq_left,
      List.nil_append]
    exact or_congr (iha hr s q) Iff.rfl
  | star a iha =>
    intro s q
    simp only [run, Re.Lang]
    rw [starRun_reaches (iha hr) _ s le_rfl q]
    constructor
    · rintro ⟨ws, h1, h2⟩; exact ⟨_, ⟨ws, h1, rfl⟩, h2⟩
    · rintro ⟨w, ⟨ws, h1, rfl⟩, h2⟩; exact ⟨ws, h1, h2⟩
  | group i a iha =>
    intro s q
    simp only [run, Re.Lang, List.mem_map]
    rw [← iha hr s q]
    constructor
    · rintro ⟨t, ⟨u, hu, rfl⟩, rfl⟩; exact ⟨u, hu, rfl⟩
    · rintro ⟨t, ht, rfl⟩; exact ⟨_, ⟨t, ht, rfl⟩, rfl⟩
  | bol => exact hr.elim
  | eol => exact hr.elim

/-- `^r$` matches the words of `r`, possibly followed by one newline. -/
theorem match_full {r : Re} (hr : r.Pure) (s : List Char) :
    (reMatch (.seq .bol (.seq r .eol)) s).isSome ↔ r.Lang s ∨ ∃ w, r.Lang w ∧ s = w ++ ['\n'] := by
  have h1 : (reMatch (.seq .bol (.seq r .eol)) s).isSome ↔
      ∃ t ∈ run r ⟨true, s, []⟩, t.rest = [] ∨ t.rest = ['\n'] := by
    simp only [reMatch, run, if_true, List.flatMap_cons, List.flatMap_nil, List.append_nil,
      List.isSome_head?, ne_eq]
    constructor
    · intro h
      obtain ⟨x, hx⟩ := List.exists_mem_of_ne_nil _ h
      obtain ⟨t, ht, hx⟩ := List.mem_flatMap.mp hx
      refine ⟨t, ht, ?_⟩
      by_contra h0
      rw [if_neg h0] at hx
      cases hx
    · rintro ⟨t, ht, h0⟩ h
      have : t ∈ (run r ⟨true, s, []⟩).flatMap fun t => if t.rest = [] ∨ t.rest = ['\n'] then [t] else [] :=
        List.mem_flatMap.mpr ⟨t, ht, by rw [if_pos h0]; exact List.mem_singleton.mpr rfl⟩
      rw [h] at this
      cases this
  rw [h1]
  have h2 := run_reaches hr ⟨true, s, []⟩
  constructor
  · rintro ⟨t, ht, h0 | h0⟩
    · obtain ⟨w, hw, e⟩ := (h2 []).mp ⟨t, ht, h0⟩
      left
      simp only [List.append_nil] at e
      rw [e]; exact hw
    · obtain ⟨w, hw, e⟩ := (h2 _).mp ⟨t, ht, h0⟩
      exact Or.inr ⟨w, hw, e⟩
  · rintro (h0 | ⟨w, hw, e⟩)
    · obtain ⟨t, ht, e⟩ := (h2 []).mpr ⟨s, h0, by simp⟩
      exact ⟨t, ht, Or.inl e⟩
    · obtain ⟨t, ht, e⟩ := (h2 ['\n']).mpr ⟨w, hw, e⟩
      exact ⟨t, ht, Or.inr e⟩

/-! ### The first match -/

/-- The match Python takes. -/
def First (r : Re) (s t : St) : Prop := (run r s).head? = some t

theorem First.seq {a b : Re} {s t u : St} (h1 : First a s t) (h2 : First b t u) : First (.seq a b) s u := by
  unfold First at *
  obtain ⟨ts, hts⟩ := List.head?_eq_some_iff.mp h1
  obtain ⟨us, hus⟩ := List.head?_eq_some_iff.mp h2
  simp [run, hts, hus]

theorem First.cls {f : Char → Bool} {b : Bool} {c : Char} {r : List Char} {k : List (ℕ × List Char)}
    (h : f c = true) : First (.cls f) ⟨b, c :: r, k⟩ ⟨false, r, k⟩ := by
  simp [First, run, h]

theorem First.group {a : Re} {i : ℕ} {s t : St} {w : List Char} (h : First a s t) (hw : s.rest = w ++ t.rest) :
    First (.group i a) s { t with caps := (i, w) :: t.caps } := by
  unfold First at *
  obtain ⟨ts, hts⟩ := List.head?_eq_some_iff.mp h
  have e : s.rest.take (s.rest.length - t.rest.length) = w := by
    rw [hw]; simp
  simp [run, hts, e]

theorem First.opt_some {a : Re} {s t : St} (h : First a s t) : First (.opt a) s t := by
  unfold First at *
  obtain ⟨ts, hts⟩ := List.head?_eq_some_iff.mp h
  simp [run, hts]

theorem First.opt_none {a : Re} {s : St} (h : run a s = []) : First (.opt a) s s := by
  simp [First, run, h]

theorem First.alt_left {a b : Re} {s t : St} (h : First a s t) : First (.alt a b) s t := by
  unfold First at *
  obtain ⟨ts, hts⟩ := List.head?_eq_some_iff.mp h
  simp [run, hts]

theorem First.alt_right {a b : Re} {s t : St} (h0 : run a s = []) (h : First b s t) : First (.alt a b) s t := by
  unfold First at *
  simpa [run, h0] using h

/-- The next character is not in the class, or there is none. -/
def Stops (f : Char → Bool) (q : List Char) : Prop := ∀ c r, q = c :: r → f c = false

theorem starRun_cls {f : Char → Bool} {w q : List Char} (hw : ∀ c ∈ w, f c = true) (hq : Stops f q)
    {k : List (ℕ × List Char)} {b : Bool} {n : ℕ} (hn : w.length ≤ n) :
    (starRun (run (.cls f)) n ⟨b, w ++ q, k⟩).head? = some ⟨b && w.isEmpty, q, k⟩ := by
  induction w generalizing n b with
  | nil =>
    cases n with
    | zero => simp [starRun]
    | succ n =>
      cases q with
      | nil => simp [starRun, run]
      | cons c r => simp [starRun, run, hq c r rfl]
  | cons c w ih =>
    cases n with
    | zero => simp at hn
    | succ n =>
      have h1 : f c = true := hw c (List.mem_cons_self ..)
      have h2 := ih (fun c hc => hw c (List.mem_cons_of_mem _ hc)) (n := n) (b := false) (by simpa using hn)
      obtain ⟨ts, hts⟩ := List.head?_eq_some_iff.mp h2
      have h3 : run (.cls f) ⟨b, c :: (w ++ q), k⟩ = [⟨false, w ++ q, k⟩] := by simp [run, h1]
      simp [starRun, h3, hts]

theorem First.plus {f : Char → Bool} {w q : List Char} (h0 : w ≠ []) (hw : ∀ c ∈ w, f c = true)
    (hq : Stops f q) {k : List (ℕ × List Char)} {b : Bool} :
    First (.plus (.cls f)) ⟨b, w ++ q, k⟩ ⟨false, q, k⟩ := by
  cases w with
  | nil => exact (h0 rfl).elim
  | cons c w =>
    refine First.seq (t := ⟨false, w ++ q, k⟩) (First.cls (hw c (List.mem_cons_self ..))) ?_
    have := starRun_cls (k := k) (b := false) (n := (w ++ q).length)
      (fun c hc => hw c (List.mem_cons_of_mem _ hc)) hq (by simp)
    simpa [First, run] using this

theorem plus_fail {f : Char → Bool} {s : St} (h : Stops f s.rest) : run (.plus (.cls f)) s = [] := by
  unfold Re.plus
  simp only [run]
  cases hs : s.rest with
  | nil => simp
  | cons c r => simp [h c r hs]

theorem cls_fail {f : Char → Bool} {s : St} (h : Stops f s.rest) : run (.cls f) s = [] := by
  simp only [run]
  cases hs : s.rest with
  | nil => simp
  | cons c r => simp [h c r hs]

theorem seq_fail {a b : Re} {s : St} (h : run a s = []) : run (.seq a b) s = [] := by simp [run, h]

theorem group_fail {a : Re} {i : ℕ} {s : St} (h : run a s = []) : run (.group i a) s = [] := by simp [run, h]

/-- `findall` from a position where the pattern matches. -/
theorem findAllFrom_match {r : Re} {n : ℕ} {b : Bool} {s : List Char} {t : St} (h : First r ⟨b, s, []⟩ t) :
    findAllFrom r (n + 1) b s = t :: findAllFrom r n false t.rest := by
  unfold First at h
  simp [findAllFrom, h]

/-- `findall` from a position where it does not. -/
theorem findAllFrom_skip {r : Re} {n : ℕ} {b : Bool} {c : Char} {s : List Char} (h : run r ⟨b, c :: s, []⟩ = []) :
    findAllFrom r (n + 1) b (c :: s) = findAllFrom r n false s := by
  simp [findAllFrom, h]

theorem findAllFrom_nil {r : Re} {n : ℕ} {b : Bool} (h : run r ⟨b, [], []⟩ = []) :
    findAllFrom r n b [] = [] := by
  cases n with
  | zero => rfl
  | succ n => simp [findAllFrom, h]

end Parser
end Pytimize
