/-
Properties C95 and C96: programs and the arrays they are built from.
-/
import Verif.Props.LinearAlias
import Verif.LP.HeapCtor

namespace Pytimize
namespace Props
open LinProg (Obj Ineq)
open LinHeap

/-! ### The constructor -/

/-- Only arrays that exist are given. -/
def Given.Ok (h : Heap) : Given → Prop
  | .floats a => a < h.next
  | .other _ => True

theorem toNdarray_spec (h : Heap) (g : Given) (hg : Given.Ok h g) :
    h.next ≤ (toNdarray h g).1.next ∧ (toNdarray h g).2 < (toNdarray h g).1.next ∧
    (toNdarray h g).1.cell (toNdarray h g).2 = g.contents h ∧
    (∀ a < h.next, (toNdarray h g).1.cell a = h.cell a) ∧
    ((∃ c, g = .other c) → h.next ≤ (toNdarray h g).2) := by
  cases g with
  | floats a => exact ⟨le_rfl, hg, rfl, fun _ _ => rfl, by rintro ⟨c, hc⟩; cases hc⟩
  | other c =>
    refine ⟨Nat.le_succ _, Nat.lt_succ_self _, ?_, fun a ha => ?_, fun _ => le_rfl⟩
    · simp [toNdarray, alloc, Given.contents]
    · simp only [toNdarray, alloc]
      exact Function.update_of_ne (ne_of_lt ha) _ _

theorem ok_mono {h h' : Heap} (hn : h.next ≤ h'.next) {g : Given} (hg : Given.Ok h g) : Given.Ok h' g := by
  cases g with
  | floats a => exact lt_of_lt_of_le hg hn
  | other c => trivial

theorem contents_mono {h h' : Heap} (he : ∀ a < h.next, h'.cell a = h.cell a) {g : Given} (hg : Given.Ok h g) :
    g.contents h' = g.contents h := by
  cases g with
  | floats a => exact he a hg
  | other c => rfl

/-- The fields of a new program which are new objects for sure. -/
def freshField (A b c : Given) : Field → Prop
  | .A => ∃ x, A = .other x
  | .b => ∃ x, b = .other x
  | .c => ∃ x, c = .other x
  | _ => True

theorem construct_spec (h : Heap) {A b c : Given} (hA : Given.Ok h A) (hb : Given.Ok h b) (hc : Given.Ok h c)
    (ineq free neg : Cell) (z : ℚ) (o : Obj) (sef : Bool) :
    (∀ a < h.next, (construct h A b c ineq free neg z o sef).1.cell a = h.cell a) ∧
    h.next ≤ (construct h A b c ineq free neg z o sef).1.next ∧
    Valid (construct h A b c ineq free neg z o sef).1 (construct h A b c ineq free neg z o sef).2 ∧
    view (construct h A b c ineq free neg z o sef).1 (construct h A b c ineq free neg z o sef).2 =
      ⟨fun f => match f with
        | .A => A.contents h
        | .b => b.contents h
        | .c => c.contents h
        | .ineq => ineq
        | .free => free
        | .neg => neg
        | .steps => .text [], z, o, sef⟩ ∧
    ∀ f, freshField A b c f → h.next ≤ (construct h A b c ineq free neg z o sef).2.addr f := by
  obtain ⟨a1, a2, a3, a4, a5⟩ := toNdarray_spec h A hA
  have hb' := ok_mono a1 hb
  obtain ⟨b1, b2, b3, b4, b5⟩ := toNdarray_spec _ b hb'
  have hc' := ok_mono (a1.trans b1) hc
  obtain ⟨c1, c2, c3, c4, c5⟩ := toNdarray_spec _ c hc'
  have hcell : ∀ a < (toNdarray (toNdarray (toNdarray h A).1 b).1 c).1.next,
      (construct h A b c ineq free neg z o sef).1.cell a =
        (toNdarray (toNdarray (toNdarray h A).1 b).1 c).1.cell a := by
    intro a ha
    simp only [construct]
    rw [if_neg (by omega), if_neg (by omega), if_neg (by omega), if_neg (by omega)]
  refine ⟨fun a ha => ?_, ?_, fun f => ?_, ?_, fun f hf => ?_⟩
  · rw [hcell a (by omega), c4 a (by omega), b4 a (by omega), a4 a ha]
  · simp only [construct]; omega
  · cases f <;> simp only [construct] <;> omega
  · unfold view
    congr 1
    funext f
    unfold look
    cases f
    · have e := hcell _ (show (toNdarray h A).2 < _ by omega)
      simp only [construct] at e ⊢
      simp only [Bool.false_eq_true, and_false, if_false]
      rw [e, c4 _ (by omega), b4 _ (by omega), a3]
    · have e := hcell _ (show (toNdarray (toNdarray h A).1 b).2 < _ by omega)
      simp only [construct] at e ⊢
      simp only [Bool.false_eq_true, and_false, if_false]
      rw [e, c4 _ (by omega), b3, contents_mono a4 hb]
    · have e := hcell _ c2
      simp only [construct] at e ⊢
      simp only [Bool.false_eq_true, and_false, if_false]
      rw [e, c3, contents_mono b4 (ok_mono a1 hc), contents_mono a4 hc]
    all_goals simp [construct]
  · cases f <;> simp only [construct, freshField] at hf ⊢
    · exact a5 hf
    · have := b5 hf; omega
    · have := c5 hf; omega
    all_goals omega

/-- C95, the constructor: the program shows what it was given, and nothing that existed before has changed. -/
theorem C95_built (h : Heap) {A b c : Given} (hA : Given.Ok h A) (hb : Given.Ok h b) (hc : Given.Ok h c)
    (ineq free neg : Cell) (z : ℚ) (o : Obj) (sef : Bool) :
    (let s := construct h A b c ineq free neg z o sef
     look s.1 s.2 .A = A.contents h ∧ look s.1 s.2 .b = b.contents h ∧ look s.1 s.2 .c = c.contents h ∧
      ∀ a < h.next, s.1.cell a = h.cell a) := by
  obtain ⟨h1, -, -, h4, -⟩ := construct_spec h hA hb hc ineq free neg z o sef
  have e := congrArg View.field h4
  exact ⟨congrFun e .A, congrFun e .b, congrFun e .c, h1⟩

/-! ### No array shared -/

/-- Two heaps agree from `n` on. -/
def AgreeFrom (n : ℕ) (h h' : Heap) : Prop := h.next = h'.next ∧ n ≤ h.next ∧ ∀ a, n ≤ a → h.cell a = h'.cell a

theorem look_agree {n : ℕ} {h h' : Heap} {p : Prg} (hh : AgreeFrom n h h') (hp : ∀ f, n ≤ p.addr f) :
    look h p = look h' p := by
  funext f
  unfold look
  rw [hh.2.2 _ (hp f)]

theorem act_agree {n : ℕ} {h h' : Heap} {p : Prg} (hh : AgreeFrom n h h') (hp : ∀ f, n ≤ p.addr f) (a : Act) :
    AgreeFrom n (act (h, p) a).1 (act (h', p) a).1 ∧ (act (h, p) a).2 = (act (h', p) a).2 ∧
      (∀ f, n ≤ (act (h, p) a).2.addr f) ∧ ∀ i < n, (act (h, p) a).1.cell i = h.cell i := by
  have hl := look_agree hh hp
  cases a with
  | poke f g =>
    refine ⟨⟨hh.1, hh.2.1, fun i hi => ?_⟩, rfl, hp, fun i hi => ?_⟩
    · simp only [act]
      rw [hl]
      by_cases e : i = p.addr f
      · rw [e, Function.update_self, Function.update_self]
      · rw [Function.update_of_ne e, Function.update_of_ne e, hh.2.2 i hi]
    · simp only [act]
      exact Function.update_of_ne (by have := hp f; omega) _ _
  | bind f g =>
    refine ⟨⟨by simp only [act]; rw [hh.1], Nat.le_succ_of_le hh.2.1, fun i hi => ?_⟩, ?_, fun f' => ?_, fun i hi => ?_⟩
    · simp only [act]
      rw [hl, hh.1]
      by_cases e : i = h'.next
      · rw [e, Function.update_self, Function.update_self]
      · rw [Function.update_of_ne e, Function.update_of_ne e, hh.2.2 i hi]
    · simp only [act]
      rw [hh.1]
    · simp only [act]
      by_cases e : f' = f
      · rw [e, Function.update_self]; exact hh.2.1
      · rw [Function.update_of_ne e]; exact hp f'
    · simp only [act]
      exact Function.update_of_ne (by have := hh.2.1; omega) _ _
  | setZ z => exact ⟨hh, rfl, hp, fun _ _ => rfl⟩
  | setObjective o => exact ⟨hh, rfl, hp, fun _ _ => rfl⟩
  | setSef b => exact ⟨hh, rfl, hp, fun _ _ => rfl⟩

theorem writesOf_congr {n : ℕ} (l : List Event) {m m' : ℕ → Cell} (h : ∀ j < n, m j = m' j) :
    ∀ j < n, writesOf m l j = writesOf m' l j := by
  induction l generalizing m m' with
  | nil => exact h
  | cons e l ih =>
    cases e with
    | act a => exact ih h
    | write a c =>
      refine ih fun j hj => ?_
      by_cases e : j = a
      · rw [e, Function.update_self, Function.update_self]
      · rw [Function.update_of_ne e, Function.update_of_ne e, h j hj]

theorem events_split {n : ℕ} (l : List Event) (hl : ∀ a c, Event.write a c ∈ l → a < n) {h h' : Heap} {p : Prg}
    (hh : AgreeFrom n h h') (hp : ∀ f, n ≤ p.addr f) :
    view (events (h, p) l).1 (events (h, p) l).2 = view (acts (h', p) (actsOf l)).1 (acts (h', p) (actsOf l)).2 ∧
      ∀ i < n, (events (h, p) l).1.cell i = writesOf h.cell l i := by
  induction l generalizing h h' p with
  | nil =>
    refine ⟨?_, fun _ _ => rfl⟩
    show view h p = view h' p
    unfold view
    rw [look_agree hh hp]
  | cons e l ih =>
    cases e with
    | act a =>
      obtain ⟨k1, k2, k3, k4⟩ := act_agree hh hp a
      have ih' := ih (fun a c m => hl a c (List.mem_cons_of_mem _ m)) k1 k3
      constructor
      · have e1 := ih'.1
        simp only [events, actsOf, acts, List.foldl_cons] at e1 ⊢
        have e3 : act (h', p) a = ((act (h', p) a).1, (act (h, p) a).2) := by rw [k2]
        rw [e3]
        exact e1
      · intro i hi
        exact (ih'.2 i hi).trans (writesOf_congr l k4 i hi)
    | write a c =>
      have ha := hl a c List.mem_cons_self
      have hh' : AgreeFrom n (write h a c) h' := by
        refine ⟨hh.1, hh.2.1, fun i hi => ?_⟩
        simp only [write]
        rw [Function.update_of_ne (by omega), hh.2.2 i hi]
      exact ih (fun a c m => hl a c (List.mem_cons_of_mem _ m)) hh' hp

/-- C95 for programs built from lists or arrays of integers: let methods of the program and writes of the caller into
arrays that existed before happen in any order. Then the program is as if only the methods had run, and the caller's
arrays are as if only the writes had happened. -/
theorem C95_isolated (h : Heap) (A b c : Cell) (ineq free neg : Cell) (z : ℚ) (o : Obj) (sef : Bool)
    (l : List Event) (hl : ∀ a x, Event.write a x ∈ l → a < h.next) :
    let s := construct h (.other A) (.other b) (.other c) ineq free neg z o sef
    view (events s l).1 (events s l).2 = view (acts s (actsOf l)).1 (acts s (actsOf l)).2 ∧
      ∀ i < h.next, (events s l).1.cell i = writesOf h.cell l i := by
  intro s
  obtain ⟨h1, h2, -, -, h5⟩ := construct_spec h (A := .other A) (b := .other b) (c := .other c) trivial trivial trivial
    ineq free neg z o sef
  have h5' : ∀ f, h.next ≤ s.2.addr f := fun f => h5 f (by cases f <;> simp [freshField])
  obtain ⟨k1, k2⟩ := events_split (n := h.next) l hl (h := s.1) (h' := s.1) (p := s.2) ⟨rfl, h2, fun _ _ => rfl⟩ h5'
  exact ⟨k1, fun i hi => (k2 i hi).trans (writesOf_congr l h1 i hi)⟩

/-! ### Arrays of floats are shared -/

/-- The acts write only into objects of the fields in `F` and into objects they have created themselves. -/
def SafeFrom : (Field → Prop) → List Act → Prop
  | _, [] => True
  | F, .poke f _ :: l => F f ∧ SafeFrom F l
  | F, .bind f _ :: l => SafeFrom (fun g => g = f ∨ F g) l
  | F, .setZ _ :: l => SafeFrom F l
  | F, .setObjective _ :: l => SafeFrom F l
  | F, .setSef _ :: l => SafeFrom F l

theorem SafeFrom.mono {l : List Act} {F G : Field → Prop} (hFG : ∀ f, F f → G f) (h : SafeFrom F l) :
    SafeFrom G l := by
  induction l generalizing F G with
  | nil => trivial
  | cons a l ih =>
    cases a with
    | poke f g => exact ⟨hFG f h.1, ih hFG h.2⟩
    | bind f g => exact ih (fun k hk => hk.imp_right (hFG k)) h
    | setZ z => exact ih hFG h
    | setObjective o => exact ih hFG h
    | setSef b => exact ih hFG h

theorem SafeFrom.append {l l' : List Act} {F : Field → Prop} (h : SafeFrom F l) (h' : SafeFrom F l') :
    SafeFrom F (l ++ l') := by
  induction l generalizing F with
  | nil => exact h'
  | cons a l ih =>
    cases a with
    | poke f g => exact ⟨h.1, ih h.2 h'⟩
    | bind f g => exact ih h (h'.mono fun _ => Or.inr)
    | setZ z => exact ih h h'
    | setObjective o => exact ih h h'
    | setSef b => exact ih h h'

theorem SafeFrom.flatMap {α : Type*} {F : Field → Prop} (g : α → List Act) (l : List α) (h : ∀ x ∈ l, SafeFrom F (g x)) :
    SafeFrom F (l.flatMap g) := by
  induction l with
  | nil => trivial
  | cons a l ih =>
    rw [List.flatMap_cons]
    exact (h a List.mem_cons_self).append (ih fun x hx => h x (List.mem_cons_of_mem _ hx))

theorem safe_frame {n : ℕ} (l : List Act) {F : Field → Prop} (hs : SafeFrom F l) {h : Heap} {p : Prg} (hn : n ≤ h.next)
    (hp : ∀ f, F f → n ≤ p.addr f) : ∀ i < n, (acts (h, p) l).1.cell i = h.cell i := by
  induction l generalizing F h p with
  | nil => exact fun _ _ => rfl
  | cons a l ih =>
    intro i hi
    have step : ∀ G, SafeFrom G l → n ≤ (act (h, p) a).1.next → (∀ f, G f → n ≤ (act (h, p) a).2.addr f) →
        (act (h, p) a).1.cell i = h.cell i → (acts (h, p) (a :: l)).1.cell i = h.cell i := by
      intro G h1 h2 h3 h4
      exact (ih h1 (h := (act (h, p) a).1) (p := (act (h, p) a).2) h2 h3 i hi).trans h4
    cases a with
    | poke f g =>
      refine step F hs.2 hn hp ?_
      simp only [act]
      exact Function.update_of_ne (by have := hp f hs.1; omega) _ _
    | bind f g =>
      refine step _ hs (Nat.le_succ_of_le hn) (fun f' hf' => ?_) ?_
      · simp only [act]
        by_cases e : f' = f
        · rw [e, Function.update_self]; exact hn
        · rw [Function.update_of_ne e]; exact hp f' (hf'.resolve_left e)
      · simp only [act]
        exact Function.update_of_ne (by omega) _ _
    | setZ z => exact step F hs hn hp rfl
    | setObjective o => exact step F hs hn hp rfl
    | setSef b => exact step F hs hn hp rfl

/-- A method called on a program, with the arguments that matter: in-place variants, and `simplex` and other methods
that only log. -/
inductive Method
  | addConstraint (rows : ℕ) (a : List ℚ) (q : Ineq) (v : ℚ)
  | addVariable (columns : ℕ) (cost : ℚ) (col : List ℚ) (free neg : Bool)
  | toSef (o : Obj) (neg free : List ℕ) (ineq : List (ℕ × Ineq))
  | canonical (A b c : (Field → Cell) → Cell) (z : ℚ)
  | iteration (S : List ℕ) (A b c : (Field → Cell) → Cell) (z : ℚ)
  | log (t : String)

/-- Its effects. -/
def Method.acts : Method → List Act
  | .addConstraint rows a q v => addConstraintActs rows a q v
  | .addVariable columns cost col free neg => addVariableActs columns cost col free neg
  | .toSef o neg free ineq => toSefActs o neg free ineq
  | .canonical A b c z => canonicalActs A b c z
  | .iteration S A b c z => simplexIterationActs S A b c z
  | .log t => logActs t

/-- All but `to_sef` for a program with negative variables and `simplex_iteration`. -/
def Method.Tame : Method → Prop
  | .toSef _ neg _ _ => neg = []
  | .iteration .. => False
  | _ => True

/-- Not an array. -/
def ListField (f : Field) : Prop := f ≠ .A ∧ f ≠ .b ∧ f ≠ .c

theorem safeForDual_from {l : List Act} (h : ∀ a ∈ l, SafeForDual a) : SafeFrom ListField l := by
  induction l with
  | nil => trivial
  | cons a l ih =>
    have ih' := ih fun x hx => h x (List.mem_cons_of_mem _ hx)
    cases a with
    | poke f g => exact ⟨h _ List.mem_cons_self, ih'⟩
    | bind f g =>
      show SafeFrom (fun k => k = f ∨ ListField k) l
      exact ih'.mono fun _ => Or.inr
    | setZ z => exact ih'
    | setObjective o => exact ih'
    | setSef b => exact ih'

theorem tame_safe (m : Method) (hm : m.Tame) : SafeFrom ListField m.acts := by
  cases m with
  | addConstraint rows a q v => exact safeForDual_from (safe_methods.1 rows a q v)
  | addVariable columns cost col free neg => exact safeForDual_from (safe_methods.2.1 columns cost col free neg)
  | canonical A b c z => exact safeForDual_from (safe_methods.2.2 A b c z)
  | log t => exact ⟨by simp [ListField], trivial⟩
  | iteration => exact hm.elim
  | toSef o neg free ineq =>
    cases hm
    unfold Method.acts toSefActs
    refine ((((((?_ : SafeFrom _ _).append ?_).append ?_).append ?_).append ?_).append ?_).append ?_
    · split <;> trivial
    · trivial
    · trivial
    · exact SafeFrom.flatMap _ _ fun x _ => trivial
    · trivial
    · refine SafeFrom.flatMap _ _ fun x _ => ?_
      exact ⟨Or.inr (Or.inl rfl), trivial⟩
    · trivial

/-- C95 for programs built from any arguments, the part that holds: `add_constraint`, `add_variable`,
`to_canonical_form`, logging, and `to_sef` for programs without negative variables, all in place and in any order,
leave the arrays the program was built from as they were. Missing: methods that write into the arrays
(`C95_wrong`; for `simplex` see `C95_simplex_partial`), and writes of the caller (`C95_caller_wrong`). -/
theorem C95_floats_partial (h : Heap) {A b c : Given} (hA : Given.Ok h A) (hb : Given.Ok h b) (hc : Given.Ok h c)
    (ineq free neg : Cell) (z : ℚ) (o : Obj) (sef : Bool) (ms : List Method) (hms : ∀ m ∈ ms, m.Tame) :
    ∀ i < h.next, (acts (construct h A b c ineq free neg z o sef) (ms.flatMap Method.acts)).1.cell i = h.cell i := by
  obtain ⟨h1, h2, -, -, h5⟩ := construct_spec h hA hb hc ineq free neg z o sef
  intro i hi
  refine (safe_frame (F := ListField) _ (SafeFrom.flatMap _ _ fun m hm => tame_safe m (hms m hm)) h2 ?_ i hi).trans
    (h1 i hi)
  intro f hf
  refine h5 f ?_
  cases f <;> simp [ListField, freshField] at hf ⊢

theorem foldl_twice {α : Type*} (f : α → ℕ → α) (hc : ∀ x i j, f (f x i) j = f (f x j) i) (hi : ∀ x i, f (f x i) i = x)
    (S : List ℕ) (x : α) : S.foldl f (S.foldl f x) = x := by
  have pull : ∀ (S : List ℕ) x i, S.foldl f (f x i) = f (S.foldl f x) i := by
    intro S
    induction S with
    | nil => exact fun _ _ => rfl
    | cons j S ih => intro x i; rw [List.foldl_cons, List.foldl_cons, hc, ih]
  induction S generalizing x with
  | nil => rfl
  | cons i S ih => rw [List.foldl_cons, List.foldl_cons, pull, pull, pull, hi, ih]

theorem modify_twice {α : Type*} (g : α → α) (hg : ∀ x, g (g x) = x) (S : List ℕ) (l : List α) :
    S.foldl (fun l i => l.modify i g) (S.foldl (fun l i => l.modify i g) l) = l := by
  refine foldl_twice _ (fun x i j => ?_) (fun x i => ?_) S l
  · apply List.ext_getElem?
    intro k
    simp only [List.getElem?_modify]
    cases x[k]? <;> simp
    split_ifs <;> rfl
  · apply List.ext_getElem?
    intro k
    simp only [List.getElem?_modify]
    cases x[k]? <;> simp
    split_ifs <;> simp [hg]

/-- C95 for `simplex`: if it returns, the arrays are as before, though they are written to meanwhile. Missing: calls that
raise (`C95_raise_wrong`). -/
theorem C95_simplex_partial {h : Heap} {p : Prg} (hf : p.flipped = false) {rows : List (List ℚ)} {v : List ℚ}
    (hA : h.cell (p.addr .A) = .mat rows) (hb : h.cell (p.addr .b) = .vec v) (S : List ℕ) :
    (acts (h, p) (simplexActs S false)).2 = p ∧ ∀ i, (acts (h, p) (simplexActs S false)).1.cell i = h.cell i := by
  have hne : p.addr .A ≠ p.addr .b := by
    intro e
    rw [e, hb] at hA
    cases hA
  refine ⟨rfl, fun i => ?_⟩
  simp only [simplexActs, flipActs, Bool.false_eq_true, if_false, acts, List.cons_append, List.nil_append,
    List.foldl_cons, List.foldl_nil, act, look, hf, and_false]
  have t1 : S.foldl (fun l i => negEntry i l) (S.foldl (fun l i => negEntry i l) v) = v :=
    modify_twice (fun x : ℚ => x * -1) (fun x => by ring) S v
  have t2 := modify_twice (fun row : List ℚ => row.map (· * (-1))) (fun x => by simp) S rows
  simp only [mul_neg, mul_one] at t2
  by_cases e1 : i = p.addr .A
  · subst e1
    simp [Function.update_of_ne hne, Function.update_of_ne hne.symm, hA, hb, Cell.rows, t2]
  · by_cases e2 : i = p.addr .b
    · subst e2
      simp [Function.update_of_ne hne, Function.update_of_ne hne.symm, hA, hb, Cell.entries, t1]
    · simp [Function.update_of_ne e1, Function.update_of_ne e2]

/-! ### What goes wrong -/

/-- The caller's arrays `A = [[1]]`, `b = [-1]`, `c = [1]`. -/
def callerHeap : Heap := ⟨fun a => match a with
  | 0 => .mat [[1]]
  | 1 => .vec [-1]
  | _ => .vec [1], 3⟩

/-- C95 as stated is false: `to_sef(in_place=True)` for a program with a negative variable negates a column of the
caller's matrix and an entry of the caller's objective. -/
theorem C95_wrong :
    let s := construct callerHeap (.floats 0) (.floats 1) (.floats 2) (.ops []) (.ints []) (.ints [0]) 0 .max false
    (acts s (toSefActs .max [0] [] [])).1.cell 0 = .mat [[-1]] ∧
      (acts s (toSefActs .max [0] [] [])).1.cell 2 = .vec [-1] := by
  decide +kernel

/-- A call `simplex(basis)` that raises an exception leaves rows of the caller's arrays negated. -/
theorem C95_raise_wrong :
    let s := construct callerHeap (.floats 0) (.floats 1) (.floats 2) (.ops []) (.ints []) (.ints []) 0 .max true
    (acts s (simplexActs [0] true)).1.cell 0 = .mat [[-1]] ∧ (acts s (simplexActs [0] true)).1.cell 1 = .vec [1] := by
  decide +kernel

/-- The caller's later writes into an array change the program. -/
theorem C95_caller_wrong :
    let s := construct callerHeap (.floats 0) (.floats 1) (.floats 2) (.ops []) (.ints []) (.ints []) 0 .max true
    look (events s [.write 0 (.mat [[7]])]).1 (events s [.write 0 (.mat [[7]])]).2 .A = .mat [[7]] := by
  decide +kernel

/-- One array given as `b` and `c`: `max x, x <= 1, x <= 0` becomes a program with right-hand side `-1` by
`to_sef(in_place=True)`, so that the origin is no longer feasible. -/
theorem C95_same_array_wrong :
    let s := construct callerHeap (.floats 0) (.floats 2) (.floats 2) (.ops [(0, .le)]) (.ints []) (.ints [0]) 0 .max false
    look s.1 s.2 .b = .vec [1] ∧
    look (acts s (toSefActs .max [0] [] [(0, .le)])).1 (acts s (toSefActs .max [0] [] [(0, .le)])).2 .A =
      .mat [[-1, 1]] ∧
    look (acts s (toSefActs .max [0] [] [(0, .le)])).1 (acts s (toSefActs .max [0] [] [(0, .le)])).2 .b =
      .vec [-1] := by
  decide +kernel

/-- The hypotheses of `C95_built`, `C95_floats_partial` and `C95_simplex_partial` can be met. -/
example : Given.Ok callerHeap (.floats 0) ∧ Given.Ok callerHeap (.floats 1) ∧ Given.Ok callerHeap (.floats 2) ∧
    Method.Tame (.toSef .min [] [0] [(0, .le)]) ∧ Method.Tame (.addConstraint 1 [2] .le 3) ∧
    (let s := construct callerHeap (.floats 0) (.floats 1) (.floats 2) (.ops []) (.ints []) (.ints []) 0 .max true
     s.2.flipped = false ∧ s.1.cell (s.2.addr .A) = .mat [[1]] ∧ s.1.cell (s.2.addr .b) = .vec [-1]) :=
  ⟨by simp [Given.Ok, callerHeap], by simp [Given.Ok, callerHeap], by simp [Given.Ok, callerHeap], rfl, trivial,
    by decide +kernel⟩

/-! ### Formulations -/

/-- The formulation refers to existing arrays. -/
def Form.Ok (h : Heap) (F : Form) : Prop := F.A < h.next ∧ F.b < h.next ∧ F.c < h.next

theorem compile_view (F : Form) {h : Heap} (hF : Form.Ok h F) (free neg : Cell) (sef : Bool) :
    view (F.compile h free neg sef).1 (F.compile h free neg sef).2 =
      ⟨fun f => match f with
        | .A => h.cell F.A
        | .b => h.cell F.b
        | .c => h.cell F.c
        | .ineq => F.ineq
        | .free => free
        | .neg => neg
        | .steps => .text [], F.z, F.objective, sef⟩ :=
  (construct_spec h (A := .floats F.A) (b := .floats F.b) (c := .floats F.c) hF.1 hF.2.1 hF.2.2 F.ineq free neg F.z
    F.objective sef).2.2.2.1

theorem acts_next (l : List Act) (s : Heap × Prg) : s.1.next ≤ (acts s l).1.next := by
  induction l generalizing s with
  | nil => exact le_rfl
  | cons a l ih =>
    refine le_trans ?_ (ih (act s a))
    cases a <;> simp [act]

/-- C96, the part that holds: methods that leave the arrays alone, called on the compiled program of a formulation,
do not influence what it compiles to after a later call of `where`. Missing: methods that write into the arrays
(`C96_wrong`). -/
theorem C96_partial (F : Form) (h : Heap) (hF : Form.Ok h F) (free neg free' neg' : Cell) (sef sef' : Bool)
    (ms : List Method) (hms : ∀ m ∈ ms, m.Tame) :
    let h' := (acts (F.compile h free neg sef) (ms.flatMap Method.acts)).1
    view (F.compile h' free' neg' sef').1 (F.compile h' free' neg' sef').2 =
      view (F.compile h free' neg' sef').1 (F.compile h free' neg' sef').2 := by
  intro h'
  have h1 := C95_floats_partial h (A := .floats F.A) (b := .floats F.b) (c := .floats F.c) hF.1 hF.2.1 hF.2.2 F.ineq
    free neg F.z F.objective sef ms hms
  have hn : h.next ≤ h'.next := le_trans
    (construct_spec h (A := .floats F.A) (b := .floats F.b) (c := .floats F.c) hF.1 hF.2.1 hF.2.2 F.ineq
      free neg F.z F.objective sef).2.1 (acts_next _ _)
  have hF' : Form.Ok h' F := ⟨lt_of_lt_of_le hF.1 hn, lt_of_lt_of_le hF.2.1 hn, lt_of_lt_of_le hF.2.2 hn⟩
  rw [compile_view F hF', compile_view F hF]
  have eA : h'.cell F.A = h.cell F.A := h1 _ hF.1
  have eb : h'.cell F.b = h.cell F.b := h1 _ hF.2.1
  have ec : h'.cell F.c = h.cell F.c := h1 _ hF.2.2
  rw [eA, eb, ec]

/-- What `maximize(x[1] + x[2]).subject_to(x[1] + x[2] <= 5)` builds from the coefficients of the objective. -/
def sumForm : Heap × Form :=
  subjectToArrays ⟨fun _ => .vec [1, 1], 1⟩ 0 (.mat [[1, 1]]) (.vec [5]) 2 (.ops [(0, .le)]) 0 .max

/-- C96 as stated is false: `p = maximize(x[1] + x[2]).subject_to(x[1] + x[2] <= 5).where(x[1] <= 0)`, then
`p.to_sef(in_place=True)`, then `p.where(x[2] >= 0)`. The program compiled now has the constraint `-x1 + x2 <= 5` and the
objective `-x1 + x2`. -/
theorem C96_wrong :
    let s := sumForm.2.compile sumForm.1 (.ints [1]) (.ints [0]) false
    let h := (acts s (toSefActs .max [0] [1] [(0, .le)])).1
    let t := sumForm.2.compile h (.ints []) (.ints [0]) false
    look s.1 s.2 .A = .mat [[1, 1]] ∧ look t.1 t.2 .A = .mat [[-1, 1]] ∧ look t.1 t.2 .c = .vec [-1, 1] := by
  decide +kernel

/-- Two formulations made from one objective share its coefficients: `o = maximize(x[1] + x[2])`,
`p = o.subject_to(x[1] + x[2] <= 5).where(x[1] <= 0)`, `q = o.subject_to(x[1] + 2 * x[2] <= 3)`. After
`p.to_sef(in_place=True)` the objective of `q` is `-x1 + x2`. -/
theorem C96_objective_wrong :
    let q := subjectToArrays sumForm.1 0 (.mat [[1, 2]]) (.vec [3]) 2 (.ops [(0, .le)]) 0 .max
    let s := sumForm.2.compile q.1 (.ints [1]) (.ints [0]) false
    let h := (acts s (toSefActs .max [0] [1] [(0, .le)])).1
    let t := q.2.compile h (.ints [0, 1]) (.ints []) false
    look t.1 t.2 .c = .vec [-1, 1] := by
  decide +kernel

/-- The hypotheses of `C96_partial` can be met. -/
example : Form.Ok sumForm.1 sumForm.2 := by
  refine ⟨?_, ?_, ?_⟩ <;> decide +kernel

end Props
end Pytimize
