/-
Evaluating an expression that mentions no equation of the user changes no equation that existed before, whatever the
numbers are.
-/
import Verif.Float.EquationSize

namespace Pytimize
namespace Floating
open Formulation

variable {N : Type} (A : Ops N)

/-- Every equation has a term and no label twice. -/
def GGood (h : GHeap N) : Prop := ∀ e ∈ h, e.terms ≠ [] ∧ Dict.WF e.terms

/-- What an operation does to the equations: those below `b` stay, the result is none of them. -/
structure GStep (b : ℕ) (h h' : GHeap N) (v : GVal N) : Prop where
  le : h.length ≤ h'.length
  good : GGood h'
  frame : ∀ a < b, gderef A h' a = gderef A h a
  own : ∀ a, v = .eqn a → b ≤ a ∧ a < h'.length

theorem GGood.deref {h : GHeap N} (hg : GGood h) {a : ℕ} (ha : a < h.length) :
    (gderef A h a).terms ≠ [] ∧ Dict.WF (gderef A h a).terms := by
  have : gderef A h a = h[a] := by simp [gderef, ha]
  rw [this]
  exact hg _ (List.getElem_mem ha)

variable {A}

theorem GStep.same {b : ℕ} {h : GHeap N} (hg : GGood h) {v : GVal N} (hv : ∀ a, v = .eqn a → b ≤ a ∧ a < h.length) :
    GStep A b h h v := ⟨le_rfl, hg, fun _ _ => rfl, hv⟩

theorem GStep.new {b : ℕ} {h : GHeap N} (hg : GGood h) (hb : b ≤ h.length) {e : GEqn N}
    (he : e.terms ≠ [] ∧ Dict.WF e.terms) : GStep A b h (h ++ [e]) (.eqn h.length) := by
  refine ⟨by simp, fun f hf => ?_, fun a ha => ?_, fun a ha => ?_⟩
  · rcases List.mem_append.mp hf with hf | hf
    · exact hg f hf
    · rw [List.mem_singleton.mp hf]; exact he
  · have : a < h.length := ha.trans_le hb
    simp [gderef, List.getD_eq_getElem?_getD, List.getElem?_append, this]
  · cases ha; exact ⟨hb, by simp⟩

theorem GStep.update {b : ℕ} {h : GHeap N} (hg : GGood h) {a : ℕ} (hb : b ≤ a) (ha : a < h.length) {e : GEqn N}
    (he : e.terms ≠ [] ∧ Dict.WF e.terms) : GStep A b h (h.set a e) (.eqn a) := by
  refine ⟨by simp, fun f hf => ?_, fun c hc => ?_, fun c hc => ?_⟩
  · rcases List.mem_or_eq_of_mem_set hf with hf | rfl
    · exact hg f hf
    · exact he
  · have : a ≠ c := by omega
    simp [gderef, List.getD_eq_getElem?_getD, this]
  · cases hc; exact ⟨hb, by simpa using ha⟩

theorem GStep.trans {b : ℕ} {h h1 h2 : GHeap N} {v w : GVal N} (s : GStep A b h h1 v) (t : GStep A b h1 h2 w) :
    GStep A b h h2 w :=
  ⟨s.le.trans t.le, t.good, fun a ha => (t.frame a ha).trans (s.frame a ha), t.own⟩

theorem GStep.weaken {b c : ℕ} {h h' : GHeap N} {v : GVal N} (s : GStep A c h h' v) (hb : b ≤ c) : GStep A b h h' v :=
  ⟨s.le, s.good, fun a ha => s.frame a (ha.trans_le hb), fun a ha => ⟨hb.trans (s.own a ha).1, (s.own a ha).2⟩⟩

theorem single_ggood (k : ℕ) (c z : N) : (⟨[(k, c)], z⟩ : GEqn N).terms ≠ [] ∧
    Dict.WF (⟨[(k, c)], z⟩ : GEqn N).terms := by simp [Dict.WF, Dict.keys]

theorem set_ne_nil (d : Dict ℕ N) (k : ℕ) (v : N) : Dict.set d k v ≠ [] := by
  cases d with
  | nil => simp [Dict.set]
  | cons t d =>
    obtain ⟨j, w⟩ := t
    simp only [Dict.set]
    split <;> simp

theorem bump_ggood {d : Dict ℕ N} (hd : Dict.WF d) (k : ℕ) (c : N) : gbump A d k c ≠ [] ∧ Dict.WF (gbump A d k c) :=
  ⟨set_ne_nil _ _ _, gbump_wf A hd k c⟩

theorem fold_ggood {l d : Dict ℕ N} (hd : d ≠ [] ∧ Dict.WF d) :
    l.foldl (fun d t => gbump A d t.1 t.2) d ≠ [] ∧ Dict.WF (l.foldl (fun d t => gbump A d t.1 t.2) d) := by
  induction l generalizing d with
  | nil => exact hd
  | cons t l ih => exact ih (bump_ggood hd.2 _ _)

theorem map_ggood {d : Dict ℕ N} (hd : d ≠ [] ∧ Dict.WF d) (f : N → N) :
    (d.map fun t => (t.1, f t.2)) ≠ [] ∧ Dict.WF (d.map fun t => (t.1, f t.2)) := by
  refine ⟨by simpa using hd.1, ?_⟩
  have := vmap_keys f d
  unfold Dict.WF at *
  unfold vmap at this
  rw [this]; exact hd.2

section
variable {b : ℕ} {h : GHeap N} (hg : GGood h)
include hg

theorem gneg_step {a : ℕ} (hb : b ≤ a) (ha : a < h.length) : GStep A b h (gnegEqn A h a).1 (gnegEqn A h a).2 :=
  GStep.update hg hb ha (map_ggood (hg.deref A ha) A.neg)

theorem gadd_step {a : ℕ} (hb : b ≤ a) (ha : a < h.length) (v : GVal N) :
    GStep A b h (gaddEqn A h a v).1 (gaddEqn A h a v).2 := by
  have h1 := hg.deref A ha
  cases v with
  | num q => exact GStep.update hg hb ha h1
  | var k => exact GStep.update hg hb ha (bump_ggood h1.2 _ _)
  | eqn c => exact GStep.update hg hb ha (fold_ggood h1)
  | none => exact GStep.same hg fun c hc => by cases hc; exact ⟨hb, ha⟩

theorem gmul_step {a : ℕ} (hb : b ≤ a) (ha : a < h.length) (v : GVal N) :
    GStep A b h (gmulEqn A h a v).1 (gmulEqn A h a v).2 := by
  cases v with
  | num q => exact GStep.update hg hb ha (map_ggood (hg.deref A ha) fun x => A.mul x q)
  | _ => exact GStep.same hg fun c hc => by cases hc

theorem gaddVar_step (hb : b ≤ h.length) (k : ℕ) (v : GVal N) :
    GStep A b h (gaddVar A h k v).1 (gaddVar A h k v).2 := by
  have h1 : GStep A b h _ _ := GStep.new hg hb (single_ggood k A.one A.zero)
  exact h1.trans (gadd_step h1.good hb (by simp) v)

theorem gmulVar_step (hb : b ≤ h.length) (k : ℕ) (v : GVal N) :
    GStep A b h (gmulVar A h k v).1 (gmulVar A h k v).2 := by
  cases v with
  | num q => exact GStep.new hg hb (single_ggood _ _ _)
  | _ => exact GStep.same hg fun c hc => by cases hc

theorem gopPos_step (hb : b ≤ h.length) {v : GVal N} (hv : ∀ a, v = .eqn a → b ≤ a ∧ a < h.length) {h' : GHeap N}
    {u : GVal N} (hr : gopPos A h v = .ok (h', u)) : GStep A b h h' u := by
  cases v with
  | num q => cases hr; exact GStep.same hg (by simp)
  | var k => cases hr; exact GStep.new hg hb (single_ggood _ _ _)
  | eqn a => cases hr; exact GStep.same hg hv
  | none => cases hr

theorem gopNeg_step (hb : b ≤ h.length) {v : GVal N} (hv : ∀ a, v = .eqn a → b ≤ a ∧ a < h.length) {h' : GHeap N}
    {u : GVal N} (hr : gopNeg A h v = .ok (h', u)) : GStep A b h h' u := by
  cases v with
  | num q => cases hr; exact GStep.same hg (by simp)
  | var k => cases hr; exact GStep.new hg hb (single_ggood _ _ _)
  | eqn a => cases hr; exact gneg_step hg (hv a rfl).1 (hv a rfl).2
  | none => cases hr

theorem gopAdd_step (hb : b ≤ h.length) {v w : GVal N} (hv : ∀ a, v = .eqn a → b ≤ a ∧ a < h.length)
    (hw : ∀ a, w = .eqn a → b ≤ a ∧ a < h.length) {h' : GHeap N} {u : GVal N} (hr : gopAdd A h v w = .ok (h', u)) :
    GStep A b h h' u := by
  cases v with
  | eqn a =>
    have h1 := gadd_step (A := A) hg (hv a rfl).1 (hv a rfl).2 w
    cases w <;> (cases hr; exact h1)
  | var k =>
    have h1 := gaddVar_step (A := A) hg hb k w
    cases w <;> (cases hr; exact h1)
  | num q =>
    cases w with
    | num r => cases hr; exact GStep.same hg (by simp)
    | var k => cases hr; exact gaddVar_step (A := A) hg hb k (.num q)
    | eqn a => cases hr; exact gadd_step (A := A) hg (hw a rfl).1 (hw a rfl).2 (.num q)
    | none => cases hr
  | none =>
    cases w with
    | num q => cases hr
    | var k => cases hr; exact gaddVar_step (A := A) hg hb k .none
    | eqn a => cases hr; exact gadd_step (A := A) hg (hw a rfl).1 (hw a rfl).2 .none
    | none => cases hr

theorem gopMul_step (hb : b ≤ h.length) {v w : GVal N} (hv : ∀ a, v = .eqn a → b ≤ a ∧ a < h.length)
    (hw : ∀ a, w = .eqn a → b ≤ a ∧ a < h.length) {h' : GHeap N} {u : GVal N} (hr : gopMul A h v w = .ok (h', u)) :
    GStep A b h h' u := by
  cases v with
  | eqn a =>
    have h1 := gmul_step (A := A) hg (hv a rfl).1 (hv a rfl).2 w
    cases w <;> (cases hr; exact h1)
  | var k =>
    have h1 := gmulVar_step (A := A) hg hb k w
    cases w <;> (cases hr; exact h1)
  | num q =>
    cases w with
    | num r => cases hr; exact GStep.same hg (by simp)
    | var k => cases hr; exact gmulVar_step (A := A) hg hb k (.num q)
    | eqn a => cases hr; exact gmul_step (A := A) hg (hw a rfl).1 (hw a rfl).2 (.num q)
    | none => cases hr
  | none =>
    cases w with
    | num q => cases hr
    | var k => cases hr; exact gmulVar_step (A := A) hg hb k .none
    | eqn a => cases hr; exact gmul_step (A := A) hg (hw a rfl).1 (hw a rfl).2 .none
    | none => cases hr

theorem gopSub_step (hb : b ≤ h.length) {v w : GVal N} (hv : ∀ a, v = .eqn a → b ≤ a ∧ a < h.length)
    (hw : ∀ a, w = .eqn a → b ≤ a ∧ a < h.length) {h' : GHeap N} {u : GVal N} (hr : gopSub A h v w = .ok (h', u)) :
    GStep A b h h' u := by
  have right : ∀ {x : GVal N}, (∀ c, w ≠ .num c) → (x = .none ∨ ∃ q, x = .num q) → gopSub A h x w = .ok (h', u) →
      GStep A b h h' u := by
    intro x hn hx hr
    cases w with
    | num q => exact (hn q rfl).elim
    | var k =>
      have h1 : GStep A b h _ _ := GStep.new hg hb (single_ggood k (A.neg A.one) A.zero)
      have h2 := h1.trans (gadd_step h1.good hb (by simp) x)
      rcases hx with rfl | ⟨q, rfl⟩ <;> (cases hr; exact h2)
    | eqn a =>
      have h1 := gneg_step (A := A) hg (hw a rfl).1 (hw a rfl).2
      have h2 := h1.trans (gadd_step h1.good (hw a rfl).1 (by simpa [gnegEqn] using (hw a rfl).2) x)
      rcases hx with rfl | ⟨q, rfl⟩ <;> (cases hr; exact h2)
    | none => rcases hx with rfl | ⟨q, rfl⟩ <;> cases hr
  cases v with
  | eqn a =>
    have hr' : (match gopNeg A h w with
      | .error e => .error e
      | .ok (h, w) => .ok (gaddEqn A h a w) : Except PyErr (GHeap N × GVal N)) = .ok (h', u) := by
      cases w <;> exact hr
    generalize hn : gopNeg A h w = r at hr'
    rcases r with r | ⟨h1, w1⟩
    · cases hr'
    · have s1 := gopNeg_step (A := A) hg hb hw hn
      have h2 := s1.trans (gadd_step s1.good (hv a rfl).1 ((hv a rfl).2.trans_le s1.le) w1)
      rw [Except.ok.inj hr'] at h2
      exact h2
  | var k =>
    have hr' : (match gopNeg A h w with
      | .error e => .error e
      | .ok (h, w) => .ok (gaddVar A h k w) : Except PyErr (GHeap N × GVal N)) = .ok (h', u) := by
      cases w <;> exact hr
    generalize hn : gopNeg A h w = r at hr'
    rcases r with r | ⟨h1, w1⟩
    · cases hr'
    · have s1 := gopNeg_step (A := A) hg hb hw hn
      have h2 := s1.trans (gaddVar_step s1.good (hb.trans s1.le) k w1)
      rw [Except.ok.inj hr'] at h2
      exact h2
  | num p =>
    cases w with
    | num q => cases hr; exact GStep.same hg (by simp)
    | _ => exact right (by simp) (.inr ⟨p, rfl⟩) hr
  | none =>
    cases w with
    | num q => cases hr
    | _ => exact right (by simp) (.inl rfl) hr

end

/-- Expressions without names. -/
def GExpr.Closed : GExpr N → Prop
  | .ref _ => False
  | .pos e => e.Closed
  | .neg e => e.Closed
  | .add e f => e.Closed ∧ f.Closed
  | .sub e f => e.Closed ∧ f.Closed
  | .mul e f => e.Closed ∧ f.Closed
  | _ => True

theorem closed_read (f : N → ℚ) {e : GExpr N} (h : e.Closed) : (e.read f).refs = [] := by
  induction e with
  | num q => rfl
  | x i => rfl
  | var k => rfl
  | ref a => exact h.elim
  | pos e ih => exact ih h
  | neg e ih => exact ih h
  | add e g i1 i2 => exact List.append_eq_nil_iff.mpr ⟨i1 h.1, i2 h.2⟩
  | sub e g i1 i2 => exact List.append_eq_nil_iff.mpr ⟨i1 h.1, i2 h.2⟩
  | mul e g i1 i2 => exact List.append_eq_nil_iff.mpr ⟨i1 h.1, i2 h.2⟩

theorem geval_step {b : ℕ} {e : GExpr N} (hc : e.Closed) {h h' : GHeap N} (hg : GGood h) (hb : b ≤ h.length)
    {u : GVal N} (hr : geval A h e = .ok (h', u)) : GStep A b h h' u := by
  have one : ∀ {e : GExpr N} {op : GHeap N → GVal N → Except PyErr (GHeap N × GVal N)},
      (∀ {h h' : GHeap N} {u : GVal N}, GGood h → b ≤ h.length → geval A h e = .ok (h', u) → GStep A b h h' u) →
      (∀ {h h' : GHeap N} {v u : GVal N}, GGood h → b ≤ h.length → (∀ a, v = .eqn a → b ≤ a ∧ a < h.length) →
        op h v = .ok (h', u) → GStep A b h h' u) →
      ∀ {h h' : GHeap N} {u : GVal N}, GGood h → b ≤ h.length →
        (match geval A h e with
          | .error r => .error r
          | .ok (h, v) => op h v : Except PyErr (GHeap N × GVal N)) = .ok (h', u) → GStep A b h h' u := by
    intro e op ih ho h h' u hg hb hr
    generalize he : geval A h e = r at hr
    rcases r with r | ⟨h1, v⟩
    · cases hr
    · have s := ih hg hb he
      exact s.trans (ho s.good (hb.trans s.le) s.own hr)
  have two : ∀ {e f : GExpr N} {op : GHeap N → GVal N → GVal N → Except PyErr (GHeap N × GVal N)},
      (∀ {h h' : GHeap N} {u : GVal N}, GGood h → b ≤ h.length → geval A h e = .ok (h', u) → GStep A b h h' u) →
      (∀ {h h' : GHeap N} {u : GVal N}, GGood h → b ≤ h.length → geval A h f = .ok (h', u) → GStep A b h h' u) →
      (∀ {h h' : GHeap N} {v w u : GVal N}, GGood h → b ≤ h.length → (∀ a, v = .eqn a → b ≤ a ∧ a < h.length) →
        (∀ a, w = .eqn a → b ≤ a ∧ a < h.length) → op h v w = .ok (h', u) → GStep A b h h' u) →
      ∀ {h h' : GHeap N} {u : GVal N}, GGood h → b ≤ h.length →
        (match geval A h e with
          | .error r => .error r
          | .ok (h, v) =>
            match geval A h f with
            | .error r => .error r
            | .ok (h, w) => op h v w : Except PyErr (GHeap N × GVal N)) = .ok (h', u) → GStep A b h h' u := by
    intro e f op ih jh ho h h' u hg hb hr
    generalize he : geval A h e = r at hr
    rcases r with r | ⟨h1, v⟩
    · cases hr
    · have s := ih hg hb he
      simp only at hr
      generalize hf : geval A h1 f = r at hr
      rcases r with r | ⟨h2, w⟩
      · cases hr
      · have t := jh s.good (hb.trans s.le) hf
        exact (s.trans t).trans (ho t.good ((hb.trans s.le).trans t.le)
          (fun a ha => ⟨(s.own a ha).1, (s.own a ha).2.trans_le t.le⟩) t.own hr)
  induction e generalizing h h' u with
  | num q => cases hr; exact GStep.same hg (by simp)
  | x i =>
    simp only [geval, gindexX] at hr
    split at hr
    · cases hr
    · cases hr; exact GStep.new hg hb (single_ggood _ _ _)
  | var k => cases hr; exact GStep.same hg (by simp)
  | ref a => exact hc.elim
  | pos e ih => exact one (fun a b c => ih hc a b c) (fun a b c d => gopPos_step a b c d) hg hb hr
  | neg e ih => exact one (fun a b c => ih hc a b c) (fun a b c d => gopNeg_step a b c d) hg hb hr
  | add e f ih jh =>
    exact two (fun a b c => ih hc.1 a b c) (fun a b c => jh hc.2 a b c) (fun a b c d e => gopAdd_step a b c d e) hg hb hr
  | sub e f ih jh =>
    exact two (fun a b c => ih hc.1 a b c) (fun a b c => jh hc.2 a b c) (fun a b c d e => gopSub_step a b c d e) hg hb hr
  | mul e f ih jh =>
    exact two (fun a b c => ih hc.1 a b c) (fun a b c => jh hc.2 a b c) (fun a b c d e => gopMul_step a b c d e) hg hb hr

end Floating
end Pytimize
