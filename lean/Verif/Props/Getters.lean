/-
Property C108: what is read from a program is a snapshot of it.
-/
import Verif.LP.Getters
import Verif.Props.UndirectedCopy

namespace Pytimize
namespace Props
open LinProg (Obj Ineq)
open LinHeap

/-! ### Programs and snapshots as values -/

/-- The effect of a method on a program as a value. -/
def valueAct (w : View) : Act → View
  | .poke f g => { w with field := Function.update w.field f (g (w.field f)) }
  | .bind f g => { w with field := Function.update w.field f (g w.field) }
  | .setZ z => { w with z := z }
  | .setObjective o => { w with objective := o }
  | .setSef b => { w with isSef := b }

/-- What an accessor says about a program; indices count from 1. -/
def Tells (w : View) : Getter → Cell → Prop
  | .A, c => c = w.field .A
  | .b, c => c = w.field .b
  | .c, c => c = w.field .c
  | .steps, c => c = w.field .steps
  | .inequalities, c => ∃ l, c = .text l ∧ l.length = (w.field .b).entries.length ∧ ∀ i (hi : i < l.length),
      l[i] = match (w.field .ineq).dict.lookup i with
        | some .le => "<="
        | some .ge => ">="
        | _ => "="
  | .negative, c => ∃ l, c = .ints l ∧ l = (w.field .neg).indices.map (· + 1)
  | .positive, c => ∃ l, c = .ints l ∧ l.Pairwise (· < ·) ∧ ∀ k, k ∈ l ↔ ∃ j < (w.field .c).entries.length,
      k = j + 1 ∧ j ∉ (w.field .neg).indices ∧ j ∉ (w.field .free).indices
  | .free, c => ∃ l, c = .ints l ∧ l = (w.field .free).indices.map (· + 1)

/-- The objects that belong to the caller alone. -/
def _root_.Pytimize.LinHeap.Getter.isList : Getter → Bool
  | .A | .b | .c | .steps => false
  | _ => true

/-- The program as a value, and what each object read so far shows if every reading is a snapshot. -/
structure Ideal where
  view : View
  seen : List (Cell × Bool)

/-- A history in terms of values, as a relation: a reading yields something that the accessor says about the program
at that moment, methods do not change what was read, writes change nothing else. -/
inductive Ideal.Run : Ideal → List Ev → Ideal → Prop
  | nil (i) : Run i [] i
  | call {i m l j} : Run ⟨m.acts.foldl valueAct i.view, i.seen⟩ l j → Run i (.call m :: l) j
  | get {i g c l j} : Tells i.view g c → Run ⟨i.view, i.seen ++ [(c, g.isList)]⟩ l j → Run i (.get g :: l) j
  | write {i k c l j} : Run ⟨i.view, i.seen.modify k fun x => (c, x.2)⟩ l j → Run i (.write k c :: l) j

/-- Histories in which only tame methods are called, `steps` is not read, and the caller writes only into the lists
that were built for them. -/
def Careful (ks : List Bool) : List Ev → Prop
  | [] => True
  | .call m :: l => m.Tame ∧ Careful ks l
  | .get g :: l => g ≠ .steps ∧ Careful (ks ++ [g.isList]) l
  | .write k _ :: l => (∀ x, ks[k]? = some x → x = true) ∧ Careful ks l

/-! ### Methods on an object that shares nothing -/

/-- The attributes of the program are different objects, and `_A` is not a transposed view. -/
structure Plainly (h : Heap) (p : Prg) : Prop where
  valid : Valid h p
  inj : Function.Injective p.addr
  flat : p.flipped = false

theorem look_flat {h : Heap} {p : Prg} (hf : p.flipped = false) (f : Field) : look h p f = h.cell (p.addr f) := by
  unfold look
  rw [hf]
  simp

theorem act_value {h : Heap} {p : Prg} (hp : Plainly h p) (a : Act) :
    view (act (h, p) a).1 (act (h, p) a).2 = valueAct (view h p) a ∧ Plainly (act (h, p) a).1 (act (h, p) a).2 ∧
    h.next ≤ (act (h, p) a).1.next ∧ ∀ f, (act (h, p) a).2.addr f = p.addr f ∨ h.next ≤ (act (h, p) a).2.addr f := by
  cases a with
  | poke f g =>
    refine ⟨?_, ⟨hp.valid, hp.inj, hp.flat⟩, le_rfl, fun _ => Or.inl rfl⟩
    simp only [view, valueAct]
    congr 1
    funext f'
    rw [look_flat (h := (act (h, p) (.poke f g)).1) (p := (act (h, p) (.poke f g)).2) hp.flat]
    simp only [act, hp.flat, Bool.false_eq_true, and_false, if_false]
    by_cases e : f' = f
    · rw [e, Function.update_self, Function.update_self]
    · rw [Function.update_of_ne e, Function.update_of_ne (fun h => e (hp.inj h)), look_flat hp.flat]
  | bind f g =>
    have hfl : (act (h, p) (.bind f g)).2.flipped = false := by
      simp only [act]
      split
      · rfl
      · exact hp.flat
    refine ⟨?_, ⟨fun f' => ?_, fun f1 f2 he => ?_, hfl⟩, Nat.le_succ _, fun f' => ?_⟩
    · simp only [view, valueAct]
      congr 1
      funext f'
      rw [look_flat hfl]
      simp only [act]
      by_cases e : f' = f
      · rw [e, Function.update_self, Function.update_self, Function.update_self]
      · rw [Function.update_of_ne e, Function.update_of_ne e, Function.update_of_ne (ne_of_lt (hp.valid f')),
          look_flat hp.flat]
    · simp only [act]
      by_cases e : f' = f
      · rw [e, Function.update_self]; exact Nat.lt_succ_self _
      · rw [Function.update_of_ne e]; exact Nat.lt_succ_of_lt (hp.valid f')
    · simp only [act] at he
      by_cases e1 : f1 = f <;> by_cases e2 : f2 = f
      · rw [e1, e2]
      · rw [e1, Function.update_self, Function.update_of_ne e2] at he
        exact absurd he.symm (ne_of_lt (hp.valid f2))
      · rw [e2, Function.update_self, Function.update_of_ne e1] at he
        exact absurd he (ne_of_lt (hp.valid f1))
      · rw [Function.update_of_ne e1, Function.update_of_ne e2] at he
        exact hp.inj he
    · simp only [act]
      by_cases e : f' = f
      · rw [e, Function.update_self]; exact Or.inr le_rfl
      · rw [Function.update_of_ne e]; exact Or.inl rfl
  | setZ z => exact ⟨rfl, ⟨hp.valid, hp.inj, hp.flat⟩, le_rfl, fun _ => Or.inl rfl⟩
  | setObjective o => exact ⟨rfl, ⟨hp.valid, hp.inj, hp.flat⟩, le_rfl, fun _ => Or.inl rfl⟩
  | setSef b => exact ⟨rfl, ⟨hp.valid, hp.inj, hp.flat⟩, le_rfl, fun _ => Or.inl rfl⟩

theorem acts_value (l : List Act) {h : Heap} {p : Prg} (hp : Plainly h p) :
    view (acts (h, p) l).1 (acts (h, p) l).2 = l.foldl valueAct (view h p) ∧
    Plainly (acts (h, p) l).1 (acts (h, p) l).2 ∧
    h.next ≤ (acts (h, p) l).1.next ∧ ∀ f, (acts (h, p) l).2.addr f = p.addr f ∨ h.next ≤ (acts (h, p) l).2.addr f := by
  induction l generalizing h p with
  | nil => exact ⟨rfl, hp, le_rfl, fun _ => Or.inl rfl⟩
  | cons a l ih =>
    obtain ⟨a1, a2, a3, a4⟩ := act_value hp a
    obtain ⟨b1, b2, b3, b4⟩ := ih a2
    refine ⟨b1.trans (by rw [a1]; rfl), b2, a3.trans b3, fun f => ?_⟩
    rcases b4 f with e | e
    · rcases a4 f with e' | e'
      · exact Or.inl (e.trans e')
      · exact Or.inr (e'.trans e.ge)
    · exact Or.inr (a3.trans e)

theorem safe_at {i : ℕ} (l : List Act) {F : Field → Prop} (hs : SafeFrom F l) {h : Heap} {p : Prg} (hi : i < h.next)
    (hp : ∀ f, F f → p.addr f ≠ i) : (acts (h, p) l).1.cell i = h.cell i := by
  induction l generalizing F h p with
  | nil => rfl
  | cons a l ih =>
    have step : ∀ G, SafeFrom G l → i < (act (h, p) a).1.next → (∀ f, G f → (act (h, p) a).2.addr f ≠ i) →
        (act (h, p) a).1.cell i = h.cell i → (acts (h, p) (a :: l)).1.cell i = h.cell i := by
      intro G h1 h2 h3 h4
      exact (ih h1 (h := (act (h, p) a).1) (p := (act (h, p) a).2) h2 h3).trans h4
    cases a with
    | poke f g =>
      refine step F hs.2 hi hp ?_
      simp only [act]
      exact Function.update_of_ne (hp f hs.1).symm _ _
    | bind f g =>
      refine step _ hs (Nat.lt_succ_of_lt hi) (fun f' hf' => ?_) ?_
      · simp only [act]
        by_cases e : f' = f
        · rw [e, Function.update_self]; exact (ne_of_lt hi).symm
        · rw [Function.update_of_ne e]; exact hp f' (hf'.resolve_left e)
      · simp only [act]
        exact Function.update_of_ne (ne_of_lt hi) _ _
    | setZ z => exact step F hs hi hp rfl
    | setObjective o => exact step F hs hi hp rfl
    | setSef b => exact step F hs hi hp rfl

theorem safe_true (l : List Act) : SafeFrom (fun _ => True) l := by
  have : ∀ F : Field → Prop, (∀ f, F f) → SafeFrom F l := by
    induction l with
    | nil => exact fun _ _ => trivial
    | cons a l ih =>
      intro F hF
      cases a with
      | poke f g => exact ⟨hF f, ih F hF⟩
      | bind f g => exact ih _ fun k => Or.inr (hF k)
      | setZ z => exact ih F hF
      | setObjective o => exact ih F hF
      | setSef b => exact ih F hF
  exact this _ fun _ => trivial

/-! ### The invariant -/

/-- The object at `a` shows what it should, and no list attribute (no attribute at all if it is the caller's own) of
the program is that object. -/
structure RefOk (s : World) (a : ℕ) (x : Cell × Bool) : Prop where
  lt : a < s.heap.next
  cell : s.heap.cell a = x.1
  lists : ∀ f, ListField f → s.prog.addr f ≠ a
  own : x.2 = true → ∀ f, s.prog.addr f ≠ a

/-- The objects show the values, and a list of the caller's own was read only once. -/
structure Snap (s : World) (i : Ideal) : Prop where
  plain : Plainly s.heap s.prog
  view : view s.heap s.prog = i.view
  refs : List.Forall₂ (RefOk s) s.refs i.seen
  alone : ∀ (k k' a : ℕ) (x : Cell × Bool), s.refs[k]? = some a → s.refs[k']? = some a → i.seen[k]? = some x → x.2 = true → k = k'

theorem view_congr {h h' : Heap} {p : Prg} (hh : ∀ f, h'.cell (p.addr f) = h.cell (p.addr f)) : view h' p = view h p := by
  unfold view
  congr 1
  funext f
  unfold look
  rw [hh f]

theorem Snap.call {s : World} {i : Ideal} (h : Snap s i) {m : Method} (hm : m.Tame) :
    Snap (s.step (.call m)) ⟨m.acts.foldl valueAct i.view, i.seen⟩ := by
  obtain ⟨b1, b2, b3, b4⟩ := acts_value m.acts h.plain
  refine ⟨b2, by rw [← h.view]; exact b1, h.refs.imp fun {a x} hr => ?_, h.alone⟩
  refine ⟨hr.lt.trans_le b3, ?_, fun f hf => ?_, fun hx f => ?_⟩
  · exact (safe_at _ (tame_safe m hm) hr.lt hr.lists).trans hr.cell
  · rcases b4 f with e | e
    · exact fun he => hr.lists f hf (e.symm.trans he)
    · have := hr.lt
      exact fun he => absurd (e.trans he.le) (by omega)
  · rcases b4 f with e | e
    · exact fun he => hr.own hx f (e.symm.trans he)
    · have := hr.lt
      exact fun he => absurd (e.trans he.le) (by omega)

theorem Snap.write {s : World} {i : Ideal} (h : Snap s i) {k : ℕ} (hk : ∀ x, i.seen[k]? = some x → x.2 = true) (c : Cell) :
    Snap (s.step (.write k c)) ⟨i.view, i.seen.modify k fun x => (c, x.2)⟩ := by
  have hlen := h.refs.length_eq
  cases hr : s.refs[k]? with
  | none =>
    have es : s.step (.write k c) = s := by simp only [World.step, hr]
    have hk' : i.seen.length ≤ k := by rw [← hlen]; exact List.getElem?_eq_none_iff.mp hr
    have e : (i.seen.modify k fun x => (c, x.2)) = i.seen := by
      apply List.ext_getElem?
      intro j
      rw [List.getElem?_modify]
      by_cases ej : k = j
      · subst ej; rw [List.getElem?_eq_none_iff.mpr hk']; rfl
      · simp [ej]
    rw [es, e]
    exact h
  | some a =>
    have es : s.step (.write k c) = ⟨LinHeap.write s.heap a c, s.prog, s.refs⟩ := by simp only [World.step, hr]
    rw [es]
    obtain ⟨hka, -⟩ := List.getElem?_eq_some_iff.mp hr
    have hks : k < i.seen.length := by rw [← hlen]; exact hka
    have hx := hk _ (List.getElem?_eq_getElem hks)
    have hget := fun j (h1 : j < s.refs.length) (h2 : j < i.seen.length) => h.refs.get h1 h2
    have hak : RefOk s a i.seen[k] := by
      have := hget k hka hks
      have e : s.refs[k] = a := by
        rw [List.getElem?_eq_getElem hka] at hr
        exact Option.some.inj hr
      simpa [e] using this
    have hother : ∀ f, (LinHeap.write s.heap a c).cell (s.prog.addr f) = s.heap.cell (s.prog.addr f) := fun f => by
      simp only [LinHeap.write]
      exact Function.update_of_ne (hak.own hx f) _ _
    refine ⟨⟨h.plain.valid, h.plain.inj, h.plain.flat⟩, (view_congr hother).trans h.view, ?_, ?_⟩
    · rw [List.forall₂_iff_get]
      refine ⟨by rw [List.length_modify]; exact hlen, fun j h1 h2 => ?_⟩
      have h2' : j < i.seen.length := by rw [List.length_modify] at h2; exact h2
      have hj := hget j h1 h2'
      simp only [List.get_eq_getElem] at hj ⊢
      rw [List.getElem_modify]
      by_cases ej : k = j
      · subst ej
        rw [if_pos rfl]
        have e : s.refs[k] = a := by
          rw [List.getElem?_eq_getElem hka] at hr
          exact Option.some.inj hr
        refine ⟨hj.lt, ?_, hj.lists, hj.own⟩
        simp only [LinHeap.write]
        rw [e, Function.update_self]
      · rw [if_neg ej]
        refine ⟨hj.lt, ?_, hj.lists, hj.own⟩
        simp only [LinHeap.write]
        rw [Function.update_of_ne, hj.cell]
        intro e
        exact ej (h.alone k j a _ hr (by rw [List.getElem?_eq_getElem h1]; exact congrArg some e)
          (List.getElem?_eq_getElem hks) hx)
    · intro k1 k2 a' x h1 h2 h3 h4
      rw [List.getElem?_modify] at h3
      cases h5 : i.seen[k1]? with
      | none => rw [h5] at h3; cases h3
      | some y =>
        refine h.alone k1 k2 a' y h1 h2 h5 ?_
        rw [h5] at h3
        have h3 := Option.some.inj h3
        rw [← h3] at h4
        split at h4 <;> exact h4

theorem opText_eq (o : Option Ineq) : (match o with
    | some q => opText q
    | none => "=") = match o with
      | some .le => "<="
      | some .ge => ">="
      | _ => "=" := by
  rcases o with _ | q
  · rfl
  · cases q <;> rfl

theorem read_spec {h : Heap} {p : Prg} (hp : Plainly h p) (g : Getter) :
    Tells (view h p) g ((g.read h p).1.cell (g.read h p).2) ∧ h.next ≤ (g.read h p).1.next ∧
    (∀ a < h.next, (g.read h p).1.cell a = h.cell a) ∧ (g.read h p).2 < (g.read h p).1.next ∧
    if g.isList then (g.read h p).2 = h.next else (g.read h p).1 = h ∧ ∃ f, (g.read h p).2 = p.addr f ∧
      (g ≠ .steps → ¬ ListField f) := by
  have halloc : ∀ c, (alloc h c).1.cell (alloc h c).2 = c ∧ h.next ≤ (alloc h c).1.next ∧
      (∀ a < h.next, (alloc h c).1.cell a = h.cell a) ∧ (alloc h c).2 < (alloc h c).1.next ∧ (alloc h c).2 = h.next := by
    intro c
    refine ⟨by simp [alloc], Nat.le_succ _, fun a ha => ?_, Nat.lt_succ_self _, rfl⟩
    simp only [alloc]
    exact Function.update_of_ne (ne_of_lt ha) _ _
  cases g
  · exact ⟨(look_flat hp.flat _).symm, le_rfl, fun _ _ => rfl, hp.valid _, rfl, .A, rfl, fun _ h => h.1 rfl⟩
  · exact ⟨(look_flat hp.flat _).symm, le_rfl, fun _ _ => rfl, hp.valid _, rfl, .b, rfl, fun _ h => h.2.1 rfl⟩
  · exact ⟨(look_flat hp.flat _).symm, le_rfl, fun _ _ => rfl, hp.valid _, rfl, .c, rfl, fun _ h => h.2.2 rfl⟩
  · exact ⟨(look_flat hp.flat _).symm, le_rfl, fun _ _ => rfl, hp.valid _, rfl, .steps, rfl, fun h => absurd rfl h⟩
  · obtain ⟨h1, h2⟩ := halloc _
    refine ⟨?_, h2⟩
    refine ⟨_, h1, by simp [view], fun i hi => ?_⟩
    simp only [List.getElem_map, List.getElem_range]
    exact opText_eq _
  · obtain ⟨h1, h2⟩ := halloc _
    exact ⟨⟨_, h1, rfl⟩, h2⟩
  · obtain ⟨h1, h2⟩ := halloc _
    refine ⟨⟨_, h1, ?_, fun k => ?_⟩, h2⟩
    · exact List.Pairwise.filter _ List.pairwise_lt_range'
    · simp only [List.mem_filter, List.mem_range'_1, Bool.and_eq_true, Bool.not_eq_true', decide_eq_false_iff_not]
      constructor
      · rintro ⟨⟨k1, k2⟩, k3, k4⟩
        exact ⟨k - 1, by simp only [view]; omega, by omega, k3, k4⟩
      · rintro ⟨j, k1, rfl, k3, k4⟩
        exact ⟨⟨by omega, by simp only [view] at k1; omega⟩, k3, k4⟩
  · obtain ⟨h1, h2⟩ := halloc _
    exact ⟨⟨_, h1, rfl⟩, h2⟩

theorem Snap.get {s : World} {i : Ideal} (h : Snap s i) {g : Getter} (hg : g ≠ .steps) :
    ∃ c, Tells i.view g c ∧ Snap (s.step (.get g)) ⟨i.view, i.seen ++ [(c, g.isList)]⟩ := by
  obtain ⟨r1, r2, r3, r4, r5⟩ := read_spec h.plain g
  rw [h.view] at r1
  refine ⟨_, r1, ?_⟩
  have hcell := fun f => r3 _ (h.plain.valid f)
  have hlen := h.refs.length_eq
  have hlt : ∀ (k a : ℕ), s.refs[k]? = some a → a < s.heap.next ∧ ∀ x, i.seen[k]? = some x → RefOk s a x := by
    intro k a hk
    obtain ⟨h1, h2⟩ := List.getElem?_eq_some_iff.mp hk
    have h3 := h.refs.get h1 (by rw [← hlen]; exact h1)
    simp only [List.get_eq_getElem] at h3
    rw [h2] at h3
    refine ⟨h3.lt, fun x hx => ?_⟩
    rw [List.getElem?_eq_getElem (by rw [← hlen]; exact h1)] at hx
    rw [← Option.some.inj hx]
    exact h3
  refine ⟨⟨fun f => (h.plain.valid f).trans_le r2, h.plain.inj, h.plain.flat⟩, (view_congr hcell).trans h.view, ?_, ?_⟩
  · refine List.rel_append (R := RefOk _) (h.refs.imp fun {a x} hr => ?_) (List.Forall₂.cons ?_ .nil)
    · exact ⟨hr.lt.trans_le r2, (r3 _ hr.lt).trans hr.cell, hr.lists, hr.own⟩
    · refine ⟨r4, rfl, fun f hf => ?_, fun hx f => ?_⟩
      · split_ifs at r5
        · exact fun he => absurd (h.plain.valid f) (by rw [show s.prog.addr f = _ from he, r5]; exact lt_irrefl _)
        · obtain ⟨-, f', e, hf'⟩ := r5
          intro he
          have : s.prog.addr f = s.prog.addr f' := he.trans e
          rw [h.plain.inj this] at hf
          exact hf' hg hf
      · simp only at hx
        rw [if_pos hx] at r5
        exact fun he => absurd (h.plain.valid f) (by rw [show s.prog.addr f = _ from he, r5]; exact lt_irrefl _)
  · intro k k' a x h1 h2 h3 h4
    simp only [World.step] at h1 h2
    have hsplit : ∀ k, (s.refs ++ [(g.read s.heap s.prog).2])[k]? = some a →
        s.refs[k]? = some a ∨ k = s.refs.length ∧ (g.read s.heap s.prog).2 = a := by
      intro k hk
      by_cases hlt : k < s.refs.length
      · rw [List.getElem?_append_left hlt] at hk; exact Or.inl hk
      · rw [List.getElem?_append_right (not_lt.mp hlt)] at hk
        obtain ⟨h5, h6⟩ := List.getElem?_eq_some_iff.mp hk
        simp only [List.length_singleton] at h5
        have : k = s.refs.length := by omega
        subst this
        simp at h6
        exact Or.inr ⟨rfl, h6⟩
    rcases hsplit k h1 with e1 | ⟨e1, f1⟩ <;> rcases hsplit k' h2 with e2 | ⟨e2, f2⟩
    · have hk : k < i.seen.length := by rw [← hlen]; exact (List.getElem?_eq_some_iff.mp e1).1
      rw [List.getElem?_append_left hk] at h3
      exact h.alone k k' a x e1 e2 h3 h4
    · have hk : k < i.seen.length := by rw [← hlen]; exact (List.getElem?_eq_some_iff.mp e1).1
      rw [List.getElem?_append_left hk] at h3
      obtain ⟨h5, h6⟩ := hlt k a e1
      exfalso
      split_ifs at r5
      · omega
      · obtain ⟨-, f', e, -⟩ := r5
        exact (h6 x h3).own h4 f' (e.symm.trans f2)
    · obtain ⟨h5, h6⟩ := hlt k' a e2
      exfalso
      rw [e1, hlen, List.getElem?_append_right le_rfl] at h3
      simp only [Nat.sub_self, List.getElem?_cons_zero, Option.some.injEq] at h3
      rw [← h3] at h4
      simp only at h4
      rw [if_pos h4] at r5
      omega
    · rw [e1, e2]

/-- C108: for every history of in-place methods, readings and writes, the program is what its methods alone make of it,
and every object read shows what the accessor said when it was read, except for what the caller wrote into it.
Missing: writing into `p.A`, `p.b`, `p.c` and reading `p.steps`, which are objects of the program, and the methods
that write into its arrays (`to_sef` with negative variables, `simplex_iteration`); there the claim is false
(`C108_write_wrong`, `C108_method_wrong`, `C108_steps_wrong`). -/
theorem C108_partial {h : Heap} {p : Prg} (hp : Plainly h p) {l : List Ev} (hl : Careful [] l) :
    ∃ j, Ideal.Run ⟨view h p, []⟩ l j ∧
      view ((World.mk h p []).run l).heap ((World.mk h p []).run l).prog = j.view ∧
      ((World.mk h p []).run l).refs.map ((World.mk h p []).run l).heap.cell = j.seen.map Prod.fst := by
  have key : ∀ (l : List Ev) (s : World) (i : Ideal), Snap s i → Careful (i.seen.map Prod.snd) l →
      ∃ j, Ideal.Run i l j ∧ Snap (s.run l) j := by
    intro l
    induction l with
    | nil => exact fun s i h _ => ⟨i, .nil i, h⟩
    | cons e l ih =>
      intro s i h hc
      cases e with
      | call m =>
        obtain ⟨j, h1, h2⟩ := ih _ _ (h.call hc.1) hc.2
        exact ⟨j, .call h1, h2⟩
      | get g =>
        obtain ⟨c, ht, h1⟩ := h.get hc.1
        obtain ⟨j, h2, h3⟩ := ih _ _ h1 (by simpa using hc.2)
        exact ⟨j, .get ht h2, h3⟩
      | write k c =>
        have hk : ∀ x, i.seen[k]? = some x → x.2 = true := fun x hx => hc.1 _ (by simp [hx])
        obtain ⟨j, h2, h3⟩ := ih _ _ (h.write hk c) (by
          have e : (i.seen.modify k fun x => (c, x.2)).map Prod.snd = i.seen.map Prod.snd := by
            apply List.ext_getElem?
            intro j
            simp only [List.getElem?_map, List.getElem?_modify]
            cases i.seen[j]? with
            | none => rfl
            | some y => simp only [Option.map_some]; split <;> rfl
          rw [e]
          exact hc.2)
        exact ⟨j, .write h2, h3⟩
  obtain ⟨j, h1, h2⟩ := key l ⟨h, p, []⟩ ⟨view h p, []⟩
    ⟨hp, rfl, .nil, by intro k k' a x h; simp at h⟩ hl
  refine ⟨j, h1, h2.view, ?_⟩
  have hr := h2.refs
  generalize (World.mk h p []).run l = s at hr
  generalize j.seen = v at hr
  have : ∀ (r : List ℕ) (v : List (Cell × Bool)), List.Forall₂ (RefOk s) r v →
      r.map s.heap.cell = v.map Prod.fst := by
    intro r v hr
    induction hr with
    | nil => rfl
    | cons h _ ih => rw [List.map_cons, List.map_cons, h.cell, ih]
  exact this _ _ hr

/-! ### A program that meets the hypotheses, and where the claim is false -/

/-- `max x₁ + 2 x₂` subject to `x₁ + 3 x₂ <= 4`, `x₂ <= 0`. -/
def readHeap : Heap := ⟨fun a => match a with
  | 0 => .mat [[1, 3]]
  | 1 => .vec [4]
  | 2 => .vec [1, 2]
  | 3 => .ops [(0, .le)]
  | 4 => .ints []
  | 5 => .ints [1]
  | _ => .text [], 7⟩

def readPrg : Prg := ⟨fun f => match f with
  | .A => 0
  | .b => 1
  | .c => 2
  | .ineq => 3
  | .free => 4
  | .neg => 5
  | .steps => 6, false, 0, .max, false⟩

theorem readPrg_plainly : Plainly readHeap readPrg :=
  ⟨fun f => by cases f <;> decide, fun f g h => by cases f <;> cases g <;> first | rfl | (simp [readPrg] at h), rfl⟩

/-- `A = p.A; n = p.negative_variables; p.add_constraint([5, 6], 7, "=", in_place=True); n.clear(); s = p.inequalities`. -/
example : Plainly readHeap readPrg ∧ Careful [] [.get .A, .get .negative, .call (.addConstraint 1 [5, 6] .eq 7),
    .write 1 (.ints []), .get .inequalities] :=
  ⟨readPrg_plainly, by simp, by simp, trivial, by simp [LinHeap.Getter.isList], by simp, trivial⟩

/-- C108 is false: after `A = p.A` writing into `A` changes the program. -/
theorem C108_write_wrong : let s := (World.mk readHeap readPrg []).run [.get .A, .write 0 (.mat [[9, 3]])]
    look s.heap s.prog .A = .mat [[9, 3]] ∧ look readHeap readPrg .A = .mat [[1, 3]] := by
  refine ⟨?_, rfl⟩
  simp [World.run, World.step, Getter.read, look, readPrg, LinHeap.write]

/-- C108 is false: `to_sef(in_place=True)` changes what was read as `p.A`. -/
theorem C108_method_wrong :
    let s := (World.mk readHeap readPrg []).run [.get .A, .call (.toSef .max [1] [] [(0, .le)])]
    s.refs = [0] ∧ s.heap.cell 0 = .mat [[1, -3]] ∧ readHeap.cell 0 = .mat [[1, 3]] := by
  refine ⟨rfl, ?_, rfl⟩
  with_unfolding_all rfl

/-- C108 is false: the next step is added to what was read as `p.steps`. -/
theorem C108_steps_wrong : let s := (World.mk readHeap readPrg []).run [.get .steps, .call (.log "step")]
    s.refs = [6] ∧ s.heap.cell 6 = .text ["step"] ∧ readHeap.cell 6 = .text [] := by
  refine ⟨rfl, ?_, rfl⟩
  with_unfolding_all rfl

/-- C108 is false for graphs: `g.graph["a"].add("c")` makes `g.bfs("a")` raise `KeyError`. -/
theorem C108_graph_wrong : Undirected.bfs (Undirected.view heapEdge.1 heapEdge.2) ['a'] = .ok [['a'], ['b']] ∧
    ∃ r, (Undirected.hgraph heapEdge.2).get? ['a'] = some r ∧
      let H := heapEdge.1.upd r (Directed.setAdd (heapEdge.1.sets r) ['c'])
      Undirected.bfs (Undirected.view H heapEdge.2) ['a'] = .error .keyError :=
  ⟨by decide +kernel, 0, by decide +kernel, by decide +kernel⟩

end Props
end Pytimize
