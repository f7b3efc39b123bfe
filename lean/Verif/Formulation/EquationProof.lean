/-
Meaning of equations and expressions, and lemmas relating the model of the operators to it.
-/
import Mathlib.Algebra.BigOperators.Group.Finset.Basic
import Mathlib.Algebra.BigOperators.Intervals
import Mathlib.Tactic.Ring
import Mathlib.Tactic.Linarith
import Verif.Formulation.Equation

namespace Pytimize
namespace Formulation
open LinProg (Ineq Obj)

/-! ### Specification -/

/-- A point: the values of all variables, zero-based. -/
abbrev Point := ℕ → ℚ

/-- The value of a sum of terms. -/
def evalTerms (d : Dict ℕ ℚ) (p : Point) : ℚ := (d.map fun t => t.2 * p t.1).sum

/-- The value of an equation at a point. -/
def Eqn.at (e : Eqn) (p : Point) : ℚ := evalTerms e.terms p + e.const

/-- The value of a Python value at a point. -/
def Val.at (h : Heap) (p : Point) : Val → ℚ
  | .num q => q
  | .var k => p k
  | .eqn a => (deref h a).at p
  | .none => 0

/-- The value of an expression at a point, as the user reads it; names have the values they had before. -/
def Expr.at (h : Heap) (p : Point) : Expr → ℚ
  | .num q => q
  | .x i => p (i - 1).toNat
  | .var k => p k
  | .ref a => (deref h a).at p
  | .pos e => e.at h p
  | .neg e => -e.at h p
  | .add e f => e.at h p + f.at h p
  | .sub e f => e.at h p - f.at h p
  | .mul e f => e.at h p * f.at h p

/-- The names of equations occurring in an expression. -/
def Expr.refs : Expr → List ℕ
  | .num _ => []
  | .x _ => []
  | .var _ => []
  | .ref a => [a]
  | .pos e => e.refs
  | .neg e => e.refs
  | .add e f => e.refs ++ f.refs
  | .sub e f => e.refs ++ f.refs
  | .mul e f => e.refs ++ f.refs

/-- Expressions made of numbers only. -/
def Expr.isNum : Expr → Bool
  | .num _ => true
  | .pos e => e.isNum
  | .neg e => e.isNum
  | .add e f => e.isNum && f.isNum
  | .sub e f => e.isNum && f.isNum
  | .mul e f => e.isNum && f.isNum
  | _ => false

/-- Expressions the formulation language is for: indices start at one and every product has a number as one of
its factors. -/
def Expr.Linear : Expr → Prop
  | .num _ => True
  | .x i => 1 ≤ i
  | .var _ => True
  | .ref _ => True
  | .pos e => e.Linear
  | .neg e => e.Linear
  | .add e f => e.Linear ∧ f.Linear
  | .sub e f => e.Linear ∧ f.Linear
  | .mul e f => e.Linear ∧ f.Linear ∧ (e.isNum ∨ f.isNum)

/-- Every equation has at least one term and no label twice. -/
def Good (h : Heap) : Prop := ∀ e ∈ h, e.terms ≠ [] ∧ e.terms.WF

/-! ### Sums of terms -/

theorem evalTerms_nil (p : Point) : evalTerms [] p = 0 := rfl

theorem evalTerms_cons (t : ℕ × ℚ) (d : Dict ℕ ℚ) (p : Point) :
    evalTerms (t :: d) p = t.2 * p t.1 + evalTerms d p := by simp [evalTerms]

theorem evalTerms_set (d : Dict ℕ ℚ) (k : ℕ) (v : ℚ) (p : Point) :
    evalTerms (d.set k v) p = evalTerms d p + (v - (d.get? k).getD 0) * p k := by
  induction d with
  | nil => simp [Dict.set, Dict.get?, evalTerms]
  | cons t d ih =>
    obtain ⟨a, w⟩ := t
    by_cases h : a = k
    · subst h
      simp only [Dict.set, Dict.get?, if_true, evalTerms_cons, Option.getD_some]; ring
    · simp only [Dict.set, Dict.get?, h, if_false, evalTerms_cons, ih]; ring

theorem get?_setDefault (d : Dict ℕ ℚ) (k : ℕ) : ((d.setDefault k 0).get? k).getD 0 = (d.get? k).getD 0 := by
  unfold Dict.setDefault
  split
  · rfl
  · rename_i h
    have : d.get? k = none := by
      rw [Dict.get?_eq_none_iff, ← Dict.has_eq_false_iff]; simpa using h
    simp [this]

theorem evalTerms_setDefault (d : Dict ℕ ℚ) (k : ℕ) (p : Point) :
    evalTerms (d.setDefault k 0) p = evalTerms d p := by
  unfold Dict.setDefault
  split
  · rfl
  · rename_i h
    have : d.get? k = none := by
      rw [Dict.get?_eq_none_iff, ← Dict.has_eq_false_iff]; simpa using h
    simp [evalTerms_set, this]

theorem evalTerms_bump (d : Dict ℕ ℚ) (k : ℕ) (c : ℚ) (p : Point) :
    evalTerms (bump d k c) p = evalTerms d p + c * p k := by
  unfold bump
  simp only
  rw [evalTerms_set, evalTerms_setDefault]
  ring

theorem evalTerms_foldl (l d : Dict ℕ ℚ) (p : Point) :
    evalTerms (l.foldl (fun d t => bump d t.1 t.2) d) p = evalTerms d p + evalTerms l p := by
  induction l generalizing d with
  | nil => simp [evalTerms]
  | cons t l ih => rw [List.foldl_cons, ih, evalTerms_bump, evalTerms_cons]; ring

theorem evalTerms_neg (d : Dict ℕ ℚ) (p : Point) :
    evalTerms (d.map fun t => (t.1, -t.2)) p = -evalTerms d p := by
  induction d with
  | nil => simp [evalTerms]
  | cons t d ih => rw [List.map_cons, evalTerms_cons, ih, evalTerms_cons]; ring

theorem evalTerms_scale (d : Dict ℕ ℚ) (q : ℚ) (p : Point) :
    evalTerms (d.map fun t => (t.1, t.2 * q)) p = evalTerms d p * q := by
  induction d with
  | nil => simp [evalTerms]
  | cons t d ih => rw [List.map_cons, evalTerms_cons, ih, evalTerms_cons]; ring

theorem evalTerms_zero (d : Dict ℕ ℚ) : evalTerms d (fun _ => 0) = 0 := by
  induction d with
  | nil => rfl
  | cons t d ih => rw [evalTerms_cons, ih]; ring

theorem Eqn.at_zero (e : Eqn) : e.at (fun _ => 0) = e.const := by simp [Eqn.at, evalTerms_zero]

theorem bump_good {d : Dict ℕ ℚ} (hd : d.WF) (k : ℕ) (c : ℚ) : bump d k c ≠ [] ∧ (bump d k c).WF := by
  have hs : (d.setDefault k 0).WF := by
    unfold Dict.setDefault
    split
    · exact hd
    · exact Dict.WF_set hd _ _
  refine ⟨fun h => ?_, Dict.WF_set hs _ _⟩
  have : k ∈ (bump d k c).keys := Dict.mem_keys_set.mpr (Or.inl rfl)
  rw [h] at this
  simp [Dict.keys] at this

theorem foldl_good {l d : Dict ℕ ℚ} (hd : d ≠ [] ∧ d.WF) :
    l.foldl (fun d t => bump d t.1 t.2) d ≠ [] ∧ (l.foldl (fun d t => bump d t.1 t.2) d).WF := by
  induction l generalizing d with
  | nil => exact hd
  | cons t l ih => exact ih (bump_good hd.2 _ _)

theorem map_good {d : Dict ℕ ℚ} (hd : d ≠ [] ∧ d.WF) (f : ℕ × ℚ → ℚ) :
    (d.map fun t => (t.1, f t)) ≠ [] ∧ Dict.WF (d.map fun t => (t.1, f t)) := by
  refine ⟨by simpa using hd.1, ?_⟩
  have := hd.2
  simpa [Dict.WF, Dict.keys, List.map_map, Function.comp_def] using this

/-! ### The heap -/

theorem deref_of_lt {h : Heap} {a : ℕ} (ha : a < h.length) : deref h a = h[a] := by
  simp [deref, ha]

theorem deref_set_self {h : Heap} {a : ℕ} (ha : a < h.length) (e : Eqn) : deref (h.set a e) a = e := by
  simp [deref, ha]

theorem deref_set_ne {h : Heap} {a b : ℕ} (hab : a ≠ b) (e : Eqn) : deref (h.set a e) b = deref h b := by
  simp [deref, List.getD_eq_getElem?_getD, hab]

theorem deref_append {h : Heap} {a : ℕ} (ha : a < h.length) (e : Eqn) : deref (h ++ [e]) a = deref h a := by
  simp [deref, List.getD_eq_getElem?_getD, List.getElem?_append_left ha]

theorem deref_new (h : Heap) (e : Eqn) : deref (h ++ [e]) h.length = e := by
  simp [deref, List.getD_eq_getElem?_getD]

theorem Good.deref {h : Heap} (hg : Good h) {a : ℕ} (ha : a < h.length) :
    (deref h a).terms ≠ [] ∧ (deref h a).terms.WF := by
  rw [deref_of_lt ha]
  exact hg _ (List.getElem_mem _)

theorem Good.set {h : Heap} (hg : Good h) (a : ℕ) {e : Eqn} (he : e.terms ≠ [] ∧ e.terms.WF) :
    Good (h.set a e) := by
  intro f hf
  rcases List.mem_or_eq_of_mem_set hf with hf | rfl
  · exact hg f hf
  · exact he

theorem Good.push {h : Heap} (hg : Good h) {e : Eqn} (he : e.terms ≠ [] ∧ e.terms.WF) : Good (h ++ [e]) := by
  intro f hf
  rcases List.mem_append.mp hf with hf | hf
  · exact hg f hf
  · simp only [List.mem_singleton] at hf; subst hf; exact he

theorem single_good (k : ℕ) (q : ℚ) : ([(k, q)] : Dict ℕ ℚ) ≠ [] ∧ Dict.WF ([(k, q)] : Dict ℕ ℚ) := by
  simp [Dict.WF, Dict.keys]

/-! ### The operators -/

/-- The value refers to an existing object and is not `None`. -/
def Val.Ok (h : Heap) : Val → Prop
  | .num _ => True
  | .var _ => True
  | .eqn a => a < h.length
  | .none => False

/-- The part of a value that depends on the point. -/
def Val.lin (h : Heap) (v : Val) (p : Point) : ℚ := v.at h p - v.at h fun _ => 0

/-- The part of a value that does not. -/
def Val.cst (h : Heap) (v : Val) : ℚ := v.at h fun _ => 0

/-- The value is a number. -/
def Val.IsNum (v : Val) : Prop := ∃ q, v = .num q

theorem lin_num (h : Heap) (q : ℚ) (p : Point) : (Val.num q).lin h p = 0 := by simp [Val.lin, Val.at]
theorem lin_var (h : Heap) (k : ℕ) (p : Point) : (Val.var k).lin h p = p k := by simp [Val.lin, Val.at]
theorem lin_eqn (h : Heap) (a : ℕ) (p : Point) : (Val.eqn a).lin h p = evalTerms (deref h a).terms p := by
  simp [Val.lin, Val.at, Eqn.at, evalTerms_zero]
theorem cst_num (h : Heap) (q : ℚ) : (Val.num q).cst h = q := rfl
theorem cst_var (h : Heap) (k : ℕ) : (Val.var k).cst h = 0 := rfl
theorem cst_eqn (h : Heap) (a : ℕ) : (Val.eqn a).cst h = (deref h a).const := by
  simp [Val.cst, Val.at, Eqn.at_zero]

/-- What every operator guarantees: from heap `h` it makes heap `h'` and value `w`, changing at most the objects
`used`, and returns one of them or a new object. -/
structure Step (h : Heap) (used : ℕ → Prop) (h' : Heap) (w : Val) : Prop where
  le : h.length ≤ h'.length
  good : Good h'
  frame : ∀ a < h.length, ¬ used a → deref h' a = deref h a
  ok : w.Ok h'
  own : ∀ a, w = .eqn a → used a ∨ h.length ≤ a

theorem Step.alloc {h : Heap} (hg : Good h) (used : ℕ → Prop) {e : Eqn} (he : e.terms ≠ [] ∧ e.terms.WF) :
    Step h used (h ++ [e]) (.eqn h.length) where
  le := by simp
  good := hg.push he
  frame := fun a ha _ => deref_append ha e
  ok := by simp [Val.Ok]
  own := fun a ha => by cases ha; exact Or.inr le_rfl

theorem Step.update {h : Heap} (hg : Good h) {used : ℕ → Prop} {a : ℕ} (ha : a < h.length) (hu : used a)
    {e : Eqn} (he : e.terms ≠ [] ∧ e.terms.WF) : Step h used (h.set a e) (.eqn a) where
  le := by simp
  good := hg.set a he
  frame := fun b _ hb => deref_set_ne (by rintro rfl; exact hb hu) e
  ok := by simpa [Val.Ok] using ha
  own := fun b hb => by cases hb; exact Or.inl hu

theorem Step.same {h : Heap} (hg : Good h) {used : ℕ → Prop} {v : Val} (hv : v.Ok h)
    (hu : ∀ a, v = .eqn a → used a) : Step h used h v :=
  ⟨le_rfl, hg, fun _ _ _ => rfl, hv, fun a ha => Or.inl (hu a ha)⟩

/-- The addresses a value refers to. -/
def Val.Is (v : Val) (a : ℕ) : Prop := v = .eqn a

theorem opPos_spec {h : Heap} (hg : Good h) {v : Val} (hv : v.Ok h) :
    ∃ h' w, opPos h v = .ok (h', w) ∧ Step h v.Is h' w ∧ (w.IsNum ↔ v.IsNum) ∧
      (∀ p, w.lin h' p = v.lin h p) ∧ w.cst h' = v.cst h := by
  cases v with
  | num q => exact ⟨h, .num q, rfl, Step.same hg hv fun a ha => ha, Iff.rfl, fun p => rfl, rfl⟩
  | var k =>
    refine ⟨_, _, rfl, Step.alloc hg _ (single_good k 1), by simp [Val.IsNum], fun p => ?_, ?_⟩
    · rw [lin_eqn, deref_new, lin_var]; simp [evalTerms]
    · rw [cst_eqn, deref_new, cst_var]
  | eqn a => exact ⟨h, .eqn a, rfl, Step.same hg hv fun a ha => ha, Iff.rfl, fun p => rfl, rfl⟩
  | none => exact hv.elim

theorem opNeg_spec {h : Heap} (hg : Good h) {v : Val} (hv : v.Ok h) :
    ∃ h' w, opNeg h v = .ok (h', w) ∧ Step h v.Is h' w ∧ (w.IsNum ↔ v.IsNum) ∧
      (∀ p, w.lin h' p = -v.lin h p) ∧ (v.IsNum ∨ v.cst h = 0 → w.cst h' = -v.cst h) := by
  cases v with
  | num q =>
    exact ⟨h, .num (-q), rfl, Step.same hg trivial (by simp), by simp [Val.IsNum], fun p => by simp [lin_num],
      fun _ => rfl⟩
  | var k =>
    refine ⟨_, _, rfl, Step.alloc hg _ (single_good k (-1)), by simp [Val.IsNum], fun p => ?_, fun _ => ?_⟩
    · rw [lin_eqn, deref_new, lin_var]; simp [evalTerms]
    · rw [cst_eqn, deref_new, cst_var]; simp
  | eqn a =>
    have ha : a < h.length := hv
    refine ⟨_, _, rfl, Step.update hg ha (by rfl) (by exact map_good (hg.deref ha) fun t => -t.2), by simp [Val.IsNum],
      fun p => ?_, fun h0 => ?_⟩
    · rw [lin_eqn, deref_set_self ha, lin_eqn, evalTerms_neg]
    · rcases h0 with ⟨q, hq⟩ | h0
      · cases hq
      · rw [cst_eqn] at h0 ⊢
        rw [deref_set_self ha, cst_eqn, h0]
        simp
  | none => exact hv.elim

theorem addEqn_spec {h : Heap} (hg : Good h) {a : ℕ} (ha : a < h.length) {w : Val} (hw : w.Ok h) :
    ∃ h', addEqn h a w = (h', .eqn a) ∧ Step h (· = a) h' (.eqn a) ∧ h'.length = h.length ∧
      (∀ p, (Val.eqn a).lin h' p = (Val.eqn a).lin h p + w.lin h p) ∧
      (w.IsNum ∨ w.cst h = 0 → (Val.eqn a).cst h' = (Val.eqn a).cst h + w.cst h) := by
  cases w with
  | num q =>
    refine ⟨_, rfl, Step.update hg ha (by rfl) (by exact hg.deref ha), by simp, fun p => ?_, fun _ => ?_⟩
    · rw [lin_eqn, deref_set_self ha, lin_eqn, lin_num]; ring
    · rw [cst_eqn, deref_set_self ha, cst_eqn, cst_num]
  | var k =>
    refine ⟨_, rfl, Step.update hg ha (by rfl) (by exact bump_good (hg.deref ha).2 k 1), by simp, fun p => ?_, fun _ => ?_⟩
    · rw [lin_eqn, deref_set_self ha, lin_eqn, lin_var, evalTerms_bump]; ring
    · rw [cst_eqn, deref_set_self ha, cst_eqn, cst_var]; ring
  | eqn b =>
    refine ⟨_, rfl, Step.update hg ha (by rfl) (by exact foldl_good (hg.deref ha)), by simp, fun p => ?_, fun h0 => ?_⟩
    · rw [lin_eqn, deref_set_self ha, lin_eqn, lin_eqn, evalTerms_foldl]
    · rcases h0 with ⟨q, hq⟩ | h0
      · cases hq
      · rw [h0, cst_eqn, deref_set_self ha, cst_eqn]; ring
  | none => exact hw.elim

theorem addVar_spec {h : Heap} (hg : Good h) (k : ℕ) {w : Val} (hw : w.Ok h) :
    ∃ h', addVar h k w = (h', .eqn h.length) ∧ Step h (fun _ => False) h' (.eqn h.length) ∧
      (∀ p, (Val.eqn h.length).lin h' p = p k + w.lin h p) ∧
      (w.IsNum ∨ w.cst h = 0 → (Val.eqn h.length).cst h' = w.cst h) := by
  have hg1 : Good (h ++ [⟨[(k, 1)], 0⟩]) := hg.push (single_good k 1)
  have hw1 : w.Ok (h ++ [⟨[(k, 1)], 0⟩]) := by
    cases w with
    | eqn b => have : b < h.length := hw; simp only [Val.Ok, List.length_append]; omega
    | num q => trivial
    | var k => trivial
    | none => exact hw
  have hat : ∀ p, w.at (h ++ [⟨[(k, 1)], 0⟩]) p = w.at h p := by
    intro p
    cases w with
    | eqn b => simp only [Val.at]; rw [deref_append hw]
    | num q => rfl
    | var k => rfl
    | none => rfl
  obtain ⟨h', he, hs, hl, h1, h2⟩ := addEqn_spec hg1 (a := h.length) (by simp) hw1
  refine ⟨h', he, ⟨?_, hs.good, fun a ha _ => ?_, hs.ok, fun a ha => ?_⟩, fun p => ?_, fun h0 => ?_⟩
  · rw [hl]; simp
  · rw [hs.frame a (by simp; omega) (by omega), deref_append ha]
  · cases ha; exact Or.inr le_rfl
  · rw [h1 p, lin_eqn, deref_new]
    simp [evalTerms, Val.lin, hat]
  · rw [h2 (h0.imp id fun h0 => by simpa [Val.cst, hat] using h0), cst_eqn, deref_new]
    simp [Val.cst, hat]

theorem Step.mono {h : Heap} {u u' : ℕ → Prop} {h' : Heap} {w : Val} (hs : Step h u h' w)
    (hu : ∀ a, u a → u' a) : Step h u' h' w :=
  ⟨hs.le, hs.good, fun a ha hn => hs.frame a ha fun h => hn (hu a h), hs.ok,
    fun a ha => (hs.own a ha).imp (hu a) id⟩

theorem opAdd_spec {h : Heap} (hg : Good h) {v w : Val} (hv : v.Ok h) (hw : w.Ok h) :
    ∃ h' u, opAdd h v w = .ok (h', u) ∧ Step h (fun a => v.Is a ∨ ¬ (∃ b, v.Is b) ∧ w.Is a) h' u ∧
      (u.IsNum ↔ v.IsNum ∧ w.IsNum) ∧ (∀ p, u.lin h' p = v.lin h p + w.lin h p) ∧
      (v.IsNum ∨ w.IsNum ∨ w.cst h = 0 → u.cst h' = v.cst h + w.cst h) := by
  cases v with
  | num p =>
    cases w with
    | num q =>
      exact ⟨h, .num (p + q), rfl, Step.same hg trivial (by simp), by simp [Val.IsNum],
        fun p => by simp [lin_num], fun _ => rfl⟩
    | var k =>
      obtain ⟨h', he, hs, h1, h2⟩ := addVar_spec hg k hv
      refine ⟨h', _, congrArg _ he, hs.mono (fun _ => False.elim), by simp [Val.IsNum], fun r => ?_, fun _ => ?_⟩
      · rw [h1, lin_var]; ring
      · rw [h2 (Or.inl ⟨p, rfl⟩), cst_var]; ring
    | eqn b =>
      obtain ⟨h', he, hs, _, h1, h2⟩ := addEqn_spec hg (a := b) hw hv
      refine ⟨h', _, congrArg _ he, hs.mono ?_, by simp [Val.IsNum], fun r => ?_, fun _ => ?_⟩
      · rintro a rfl
        exact Or.inr ⟨by simp [Val.Is], rfl⟩
      · rw [h1]; ring
      · rw [h2 (Or.inl ⟨p, rfl⟩)]; ring
    | none => exact hw.elim
  | var k =>
    obtain ⟨h', he, hs, h1, h2⟩ := addVar_spec hg k hw
    refine ⟨h', _, congrArg _ he, hs.mono (fun _ => False.elim), by simp [Val.IsNum], fun r => ?_, fun h0 => ?_⟩
    · rw [h1, lin_var]
    · rcases h0 with ⟨q, hq⟩ | h0
      · cases hq
      · rw [h2 h0, cst_var]; ring
  | eqn b =>
    obtain ⟨h', he, hs, _, h1, h2⟩ := addEqn_spec hg (a := b) hv hw
    refine ⟨h', _, congrArg _ he, hs.mono ?_, by simp [Val.IsNum], fun r => h1 r, fun h0 => ?_⟩
    · rintro a rfl
      exact Or.inl rfl
    · rcases h0 with ⟨q, hq⟩ | h0
      · cases hq
      · exact h2 h0
  | none => exact hv.elim

theorem Val.Ok.mono {h h' : Heap} (hl : h.length ≤ h'.length) {v : Val} (hv : v.Ok h) : v.Ok h' := by
  cases v with
  | eqn b => exact lt_of_lt_of_le (show b < h.length from hv) hl
  | num q => trivial
  | var k => trivial
  | none => exact hv

theorem Val.at_frame {h h' : Heap} {v : Val} (hf : ∀ a, v = .eqn a → deref h' a = deref h a) (p : Point) :
    v.at h' p = v.at h p := by
  cases v with
  | eqn b => simp only [Val.at]; rw [hf b rfl]
  | num q => rfl
  | var k => rfl
  | none => rfl

theorem Val.not_is {v : Val} (hv : v.IsNum) (b : ℕ) : ¬ v.Is b := by
  obtain ⟨q, rfl⟩ := hv; simp [Val.Is]

theorem opSub_spec {h : Heap} (hg : Good h) {v w : Val} (hv : v.Ok h) (hw : w.Ok h)
    (hd : ∀ a, v.Is a → ¬ w.Is a) :
    ∃ h' u, opSub h v w = .ok (h', u) ∧ Step h (fun a => v.Is a ∨ w.Is a) h' u ∧
      (u.IsNum ↔ v.IsNum ∧ w.IsNum) ∧ (∀ p, u.lin h' p = v.lin h p - w.lin h p) ∧
      (w.IsNum ∨ w.cst h = 0 → u.cst h' = v.cst h - w.cst h) := by
  obtain ⟨h1, n, he1, hs1, hn1, hl1, hc1⟩ := opNeg_spec hg hw
  have hv1 : v.Ok h1 := hv.mono hs1.le
  have hat : ∀ p, v.at h1 p = v.at h p := Val.at_frame fun a ha => by
    subst ha
    exact hs1.frame a hv (hd a rfl)
  have hlv : ∀ p, v.lin h1 p = v.lin h p := fun p => by simp [Val.lin, hat]
  have hcv : v.cst h1 = v.cst h := by simp [Val.cst, hat]
  have hcond : w.IsNum ∨ w.cst h = 0 → n.IsNum ∨ n.cst h1 = 0 := by
    intro h0
    have := hc1 h0
    rcases h0 with h0 | h0
    · exact Or.inl (hn1.mpr h0)
    · right; rw [this, h0]; simp
  cases v with
  | num p =>
    cases w with
    | num q =>
      exact ⟨h, .num (p - q), rfl, Step.same hg trivial (by simp), by simp [Val.IsNum],
        fun p => by simp [lin_num], fun _ => rfl⟩
    | var k =>
      cases he1
      obtain ⟨h', he, hs, hl, h2, h3⟩ := addEqn_spec hs1.good (a := h.length) (by simp) (w := .num p) trivial
      refine ⟨h', _, congrArg _ he, ⟨?_, hs.good, fun a ha _ => ?_, hs.ok, ?_⟩, by simp [Val.IsNum],
        fun r => ?_, fun h0 => ?_⟩
      · rw [hl]; simp
      · rw [hs.frame a (by simp; omega) (by omega), deref_append ha]
      · intro a ha; cases ha; exact Or.inr le_rfl
      · rw [h2, hl1, lin_num, lin_num]; ring
      · rw [h3 (Or.inl ⟨p, rfl⟩), hc1 h0, cst_num, cst_num]; ring
    | eqn b =>
      cases he1
      have hb : b < h.length := hw
      obtain ⟨h', he, hs, hl, h2, h3⟩ := addEqn_spec hs1.good (a := b) (by simpa using hb) (w := .num p) trivial
      refine ⟨h', _, congrArg _ he, ⟨?_, hs.good, fun a ha hn => ?_, hs.ok, ?_⟩, by simp [Val.IsNum],
        fun r => ?_, fun h0 => ?_⟩
      · rw [hl]; simp
      · have hab : a ≠ b := by rintro rfl; exact hn (Or.inr rfl)
        rw [hs.frame a (by simpa using ha) hab, deref_set_ne hab.symm]
      · intro a ha; cases ha; exact Or.inl (Or.inr rfl)
      · rw [h2, hl1, lin_num, lin_num]; ring
      · rw [h3 (Or.inl ⟨p, rfl⟩), hc1 h0, cst_num, cst_num]; ring
    | none => exact hw.elim
  | var k =>
    obtain ⟨h', he, hs, h2, h3⟩ := addVar_spec hs1.good k hs1.ok
    refine ⟨h', .eqn h1.length, ?_, ⟨hs1.le.trans hs.le, hs.good, fun a ha hn => ?_, hs.ok, ?_⟩, by simp [Val.IsNum],
      fun r => ?_, fun h0 => ?_⟩
    · simp only [opSub, he1, he]
    · rw [hs.frame a (lt_of_lt_of_le ha hs1.le) id, hs1.frame a ha fun h => hn (Or.inr h)]
    · intro a ha; cases ha; exact Or.inr hs1.le
    · rw [h2, hl1, lin_var]; ring
    · rw [h3 (hcond h0), hc1 h0, cst_var]; ring
  | eqn b =>
    obtain ⟨h', he, hs, hl, h2, h3⟩ := addEqn_spec hs1.good (a := b) hv1 hs1.ok
    refine ⟨h', .eqn b, ?_, ⟨hs1.le.trans hs.le, hs.good, fun a ha hn => ?_, hs.ok, ?_⟩, by simp [Val.IsNum],
      fun r => ?_, fun h0 => ?_⟩
    · simp only [opSub, he1, he]
    · have hab : a ≠ b := by rintro rfl; exact hn (Or.inl rfl)
      rw [hs.frame a (lt_of_lt_of_le ha hs1.le) hab, hs1.frame a ha fun h => hn (Or.inr h)]
    · intro a ha; cases ha; exact Or.inl (Or.inl rfl)
    · rw [h2, hl1, hlv]; ring
    · rw [h3 (hcond h0), hc1 h0, hcv]; ring
  | none => exact hv.elim

theorem mulEqn_spec {h : Heap} (hg : Good h) {a : ℕ} (ha : a < h.length) (q : ℚ) :
    ∃ h', mulEqn h a (.num q) = (h', .eqn a) ∧ Step h (· = a) h' (.eqn a) ∧
      (∀ p, (Val.eqn a).lin h' p = (Val.eqn a).lin h p * q) ∧
      ((Val.eqn a).cst h = 0 → (Val.eqn a).cst h' = 0) := by
  refine ⟨_, rfl, Step.update hg ha (by rfl) (by exact map_good (hg.deref ha) fun t => t.2 * q), fun p => ?_, fun h0 => ?_⟩
  · rw [lin_eqn, deref_set_self ha, lin_eqn, evalTerms_scale]
  · rw [cst_eqn] at h0 ⊢
    rw [deref_set_self ha, h0]

theorem mulVar_spec {h : Heap} (hg : Good h) (k : ℕ) (q : ℚ) :
    ∃ h', mulVar h k (.num q) = (h', .eqn h.length) ∧ Step h (fun _ => False) h' (.eqn h.length) ∧
      (∀ p, (Val.eqn h.length).lin h' p = p k * q) ∧ (Val.eqn h.length).cst h' = 0 := by
  refine ⟨_, rfl, Step.alloc hg _ (single_good k q), fun p => ?_, ?_⟩
  · rw [lin_eqn, deref_new]; simp [evalTerms, mul_comm]
  · rw [cst_eqn, deref_new]

theorem opMul_spec {h : Heap} (hg : Good h) {v w : Val} (hv : v.Ok h) (hw : w.Ok h)
    (hn : v.IsNum ∨ w.IsNum) :
    ∃ h' u, opMul h v w = .ok (h', u) ∧ Step h (fun a => v.Is a ∨ w.Is a) h' u ∧
      (u.IsNum ↔ v.IsNum ∧ w.IsNum) ∧
      (∀ p, u.lin h' p = v.lin h p * w.cst h + v.cst h * w.lin h p) ∧
      ((v.IsNum ∨ v.cst h = 0) ∧ (w.IsNum ∨ w.cst h = 0) → u.cst h' = v.cst h * w.cst h) := by
  have key : ∀ (v : Val) (q : ℚ), v.Ok h → ¬ v.IsNum →
      ∃ h' u, opMul h v (.num q) = .ok (h', u) ∧ opMul h (.num q) v = .ok (h', u) ∧ Step h v.Is h' u ∧
        ¬ u.IsNum ∧ (∀ p, u.lin h' p = v.lin h p * q) ∧ (v.cst h = 0 → u.cst h' = 0) := by
    intro v q hv hnv
    cases v with
    | num p => exact (hnv ⟨p, rfl⟩).elim
    | var k =>
      obtain ⟨h', he, hs, h1, h2⟩ := mulVar_spec hg k q
      exact ⟨h', _, congrArg _ he, congrArg _ he, hs.mono (fun _ => False.elim), by simp [Val.IsNum],
        fun p => by rw [h1, lin_var], fun _ => h2⟩
    | eqn a =>
      obtain ⟨h', he, hs, h1, h2⟩ := mulEqn_spec hg (a := a) hv q
      refine ⟨h', _, congrArg _ he, congrArg _ he, hs.mono ?_, by simp [Val.IsNum], h1, h2⟩
      rintro a rfl; rfl
    | none => exact hv.elim
  by_cases hv0 : v.IsNum
  · obtain ⟨p, rfl⟩ := hv0
    by_cases hw0 : w.IsNum
    · obtain ⟨q, rfl⟩ := hw0
      exact ⟨h, .num (p * q), rfl, Step.same hg trivial (by simp), by simp [Val.IsNum],
        fun p => by simp [lin_num], fun _ => rfl⟩
    · obtain ⟨h', u, _, he, hs, hu, h1, h2⟩ := key w p hw hw0
      refine ⟨h', u, he, hs.mono fun a => Or.inr, by tauto, fun r => ?_, fun h0 => ?_⟩
      · rw [h1, lin_num, cst_num]; ring
      · rcases h0.2 with h0 | h0
        · exact (hw0 h0).elim
        · rw [h2 h0, h0]; ring
  · rcases hn with hn | ⟨q, rfl⟩
    · exact (hv0 hn).elim
    · obtain ⟨h', u, he, _, hs, hu, h1, h2⟩ := key v q hv hv0
      refine ⟨h', u, he, hs.mono fun a => Or.inl, by tauto, fun r => ?_, fun h0 => ?_⟩
      · rw [h1, lin_num, cst_num]; ring
      · rcases h0.1 with h0 | h0
        · exact (hv0 h0).elim
        · rw [h2 h0, h0]; ring

/-! ### Expressions -/

/-- No number that was added to an equation is lost: an operand that is negated, scaled, subtracted or added on
the right of a value that is not a number has value zero at the origin, unless it is made of numbers only. -/
def Expr.Plain (h : Heap) : Expr → Prop
  | .num _ => True
  | .x _ => True
  | .var _ => True
  | .ref _ => True
  | .pos e => e.Plain h
  | .neg e => e.Plain h ∧ (e.isNum ∨ e.at h (fun _ => 0) = 0)
  | .add e f => e.Plain h ∧ f.Plain h ∧ (e.isNum ∨ f.isNum ∨ f.at h (fun _ => 0) = 0)
  | .sub e f => e.Plain h ∧ f.Plain h ∧ (f.isNum ∨ f.at h (fun _ => 0) = 0)
  | .mul e f => e.Plain h ∧ f.Plain h ∧ (e.isNum ∨ e.at h (fun _ => 0) = 0) ∧ (f.isNum ∨ f.at h (fun _ => 0) = 0)

theorem Expr.at_frame {h h' : Heap} {e : Expr} (hf : ∀ a ∈ e.refs, deref h' a = deref h a) (p : Point) :
    e.at h' p = e.at h p := by
  induction e with
  | num q => rfl
  | x i => rfl
  | var k => rfl
  | ref a => simp only [Expr.at]; rw [hf a (by simp [Expr.refs])]
  | pos e ih => exact ih hf
  | neg e ih => simp only [Expr.at]; rw [ih hf]
  | add e f ih1 ih2 | sub e f ih1 ih2 | mul e f ih1 ih2 =>
    simp only [Expr.refs, List.mem_append] at hf
    simp only [Expr.at]
    rw [ih1 fun a ha => hf a (Or.inl ha), ih2 fun a ha => hf a (Or.inr ha)]

theorem Expr.plain_frame {h h' : Heap} {e : Expr} (hf : ∀ a ∈ e.refs, deref h' a = deref h a) :
    e.Plain h' ↔ e.Plain h := by
  induction e with
  | num q => rfl
  | x i => rfl
  | var k => rfl
  | ref a => rfl
  | pos e ih => exact ih hf
  | neg e ih => simp only [Expr.Plain]; rw [ih hf, Expr.at_frame (e := e) hf]
  | add e f ih1 ih2 | sub e f ih1 ih2 | mul e f ih1 ih2 =>
    simp only [Expr.refs, List.mem_append] at hf
    have h1 := fun a ha => hf a (Or.inl ha)
    have h2 := fun a ha => hf a (Or.inr ha)
    simp only [Expr.Plain]
    rw [ih1 h1, ih2 h2]
    simp only [Expr.at_frame h1, Expr.at_frame h2]

theorem Expr.at_num {e : Expr} (he : e.isNum) (h h' : Heap) (p p' : Point) : e.at h p = e.at h' p' := by
  induction e with
  | num q => rfl
  | x i => cases he
  | var k => cases he
  | ref a => cases he
  | pos e ih => exact ih he
  | neg e ih => simp only [Expr.at]; rw [ih he]
  | add e f ih1 ih2 | sub e f ih1 ih2 | mul e f ih1 ih2 =>
    simp only [Expr.isNum, Bool.and_eq_true] at he
    simp only [Expr.at]
    rw [ih1 he.1, ih2 he.2]

/-- What the evaluation of an expression guarantees. -/
structure EvalSpec (h : Heap) (e : Expr) (h' : Heap) (w : Val) : Prop where
  run : eval h e = .ok (h', w)
  step : Step h (· ∈ e.refs) h' w
  num : w.IsNum ↔ e.isNum
  lin : ∀ p, w.lin h' p = e.at h p - e.at h fun _ => 0
  cst : e.Plain h → w.cst h' = e.at h fun _ => 0

theorem Step.trans {h h1 h2 h3 : Heap} {E F : List ℕ} {v w u : Val} (s1 : Step h (· ∈ E) h1 v)
    (s2 : Step h1 (· ∈ F) h2 w) (s3 : Step h2 (fun a => v.Is a ∨ w.Is a) h3 u) :
    Step h (· ∈ E ++ F) h3 u where
  le := s1.le.trans (s2.le.trans s3.le)
  good := s3.good
  frame := fun a ha hn => by
    rw [List.mem_append, not_or] at hn
    rw [s3.frame a (lt_of_lt_of_le ha (s1.le.trans s2.le)), s2.frame a (lt_of_lt_of_le ha s1.le) hn.2,
      s1.frame a ha hn.1]
    rintro (hv | hw)
    · rcases s1.own a hv with h | h
      · exact hn.1 h
      · omega
    · rcases s2.own a hw with h | h
      · exact hn.2 h
      · have := s1.le; omega
  ok := s3.ok
  own := fun a ha => by
    rw [List.mem_append]
    rcases s3.own a ha with (hv | hw) | h
    · exact (s1.own a hv).imp Or.inl id
    · rcases s2.own a hw with h | h
      · exact Or.inl (Or.inr h)
      · exact Or.inr (s1.le.trans h)
    · exact Or.inr (s1.le.trans (s2.le.trans h))

theorem Step.trans1 {h h1 h2 : Heap} {E : List ℕ} {v u : Val} (s1 : Step h (· ∈ E) h1 v)
    (s2 : Step h1 v.Is h2 u) : Step h (· ∈ E) h2 u where
  le := s1.le.trans s2.le
  good := s2.good
  frame := fun a ha hn => by
    rw [s2.frame a (lt_of_lt_of_le ha s1.le), s1.frame a ha hn]
    intro hv
    rcases s1.own a hv with h | h
    · exact hn h
    · omega
  ok := s2.ok
  own := fun a ha => by
    rcases s2.own a ha with hv | h
    · exact s1.own a hv
    · exact Or.inr (s1.le.trans h)

/-- Two operands evaluated one after the other do not disturb each other. -/
theorem evalPair {h : Heap} {e f : Expr} (hr : (e.refs ++ f.refs).Nodup)
    (hlt : ∀ a ∈ e.refs ++ f.refs, a < h.length)
    (ihe : ∃ h' w, EvalSpec h e h' w)
    (ihf : ∀ h1 : Heap, Good h1 → (∀ a ∈ f.refs, a < h1.length) → ∃ h' w, EvalSpec h1 f h' w) :
    ∃ h1 v h2 w, EvalSpec h e h1 v ∧ eval h1 f = .ok (h2, w) ∧ Step h1 (· ∈ f.refs) h2 w ∧
      v.Ok h2 ∧ (∀ a, v.Is a → ¬ w.Is a) ∧ (w.IsNum ↔ f.isNum) ∧
      (∀ p, v.lin h2 p = e.at h p - e.at h fun _ => 0) ∧ (e.Plain h → v.cst h2 = e.at h fun _ => 0) ∧
      (∀ p, w.lin h2 p = f.at h p - f.at h fun _ => 0) ∧ (f.Plain h → w.cst h2 = f.at h fun _ => 0) := by
  obtain ⟨h1, v, he⟩ := ihe
  obtain ⟨h2, w, hf⟩ := ihf h1 he.step.good fun a ha =>
    lt_of_lt_of_le (hlt a (List.mem_append.mpr (Or.inr ha))) he.step.le
  rw [List.nodup_append] at hr
  have hdis : ∀ a, v.Is a → a < h1.length ∧ a ∉ f.refs := by
    intro a ha
    have hok := he.step.ok
    rw [show v = .eqn a from ha] at hok
    refine ⟨hok, fun haf => ?_⟩
    rcases he.step.own a ha with h0 | h0
    · exact hr.2.2 a h0 a haf rfl
    · have := hlt a (List.mem_append.mpr (Or.inr haf)); omega
  have hat : ∀ p, v.at h2 p = v.at h1 p := Val.at_frame fun a ha =>
    hf.step.frame a (hdis a ha).1 (hdis a ha).2
  have hfr : ∀ a ∈ f.refs, deref h1 a = deref h a := fun a ha =>
    he.step.frame a (hlt a (List.mem_append.mpr (Or.inr ha))) fun hae => hr.2.2 a hae a ha rfl
  refine ⟨h1, v, h2, w, he, hf.run, hf.step, he.step.ok.mono hf.step.le, fun a ha hw => ?_, hf.num, fun p => ?_,
    fun hp => ?_, fun p => ?_, fun hp => ?_⟩
  · have := hdis a ha
    rcases hf.step.own a hw with h0 | h0
    · exact this.2 h0
    · omega
  · rw [← he.lin p]; simp [Val.lin, hat]
  · rw [← he.cst hp]; simp [Val.cst, hat]
  · rw [hf.lin p, Expr.at_frame hfr, Expr.at_frame hfr]
  · rw [hf.cst ((Expr.plain_frame hfr).mpr hp), Expr.at_frame hfr]

theorem eval_spec {h : Heap} (hg : Good h) {e : Expr} (hl : e.Linear) (hr : e.refs.Nodup)
    (hlt : ∀ a ∈ e.refs, a < h.length) : ∃ h' w, EvalSpec h e h' w := by
  induction e generalizing h with
  | num q =>
    exact ⟨h, .num q, rfl, Step.same hg trivial (by simp), by simp [Val.IsNum, Expr.isNum],
      fun p => by simp [lin_num, Expr.at], fun _ => rfl⟩
  | x i =>
    have hi : ¬ i ≤ 0 := by have : 1 ≤ i := hl; omega
    refine ⟨_, _, by simp only [eval, indexX, if_neg hi]; rfl, Step.alloc hg _ (single_good _ _),
      by simp [Val.IsNum, Expr.isNum], fun p => ?_, fun _ => ?_⟩
    · rw [lin_eqn, deref_new]; simp [evalTerms, Expr.at]
    · rw [cst_eqn, deref_new]; simp [Expr.at]
  | var k =>
    exact ⟨h, .var k, rfl, Step.same hg trivial (by simp), by simp [Val.IsNum, Expr.isNum],
      fun p => by simp [lin_var, Expr.at], fun _ => rfl⟩
  | ref a =>
    refine ⟨h, .eqn a, rfl, Step.same hg (hlt a (by simp [Expr.refs])) (by simp [Expr.refs]),
      by simp [Val.IsNum, Expr.isNum], fun p => ?_, fun _ => ?_⟩
    · simp [Val.lin, Val.at, Expr.at]
    · simp [Val.cst, Val.at, Expr.at]
  | pos e ih =>
    obtain ⟨h1, v, he⟩ := ih hg hl hr hlt
    obtain ⟨h2, w, hw, hs, hn, h3, h4⟩ := opPos_spec he.step.good he.step.ok
    refine ⟨h2, w, ?_, he.step.trans1 hs, hn.trans he.num, fun p => (h3 p).trans (he.lin p), fun hp => ?_⟩
    · simp only [eval, he.run]; exact hw
    · rw [h4, he.cst hp]; rfl
  | neg e ih =>
    obtain ⟨h1, v, he⟩ := ih hg hl hr hlt
    obtain ⟨h2, w, hw, hs, hn, h3, h4⟩ := opNeg_spec he.step.good he.step.ok
    refine ⟨h2, w, ?_, he.step.trans1 hs, hn.trans he.num, fun p => ?_, fun hp => ?_⟩
    · simp only [eval, he.run]; exact hw
    · rw [h3, he.lin]; simp only [Expr.at]; ring
    · rw [h4, he.cst hp.1]; · rfl
      exact hp.2.imp he.num.mpr fun h0 => (he.cst hp.1).trans h0
  | add e f ih1 ih2 =>
    obtain ⟨h1, v, h2, w, he, hf, hsf, hv, hd, hnw, l1, c1, l2, c2⟩ := evalPair hr hlt
      (ih1 hg hl.1 (List.nodup_append.mp hr).1 fun a ha => hlt a (List.mem_append.mpr (Or.inl ha)))
      (fun k hk hk' => ih2 hk hl.2 (List.nodup_append.mp hr).2.1 hk')
    obtain ⟨h3, u, hu, hs, hn, h4, h5⟩ := opAdd_spec hsf.good hv hsf.ok
    refine ⟨h3, u, ?_, he.step.trans hsf (hs.mono fun a => Or.imp id And.right), ?_, fun p => ?_, fun hp => ?_⟩
    · simp only [eval, he.run, hf]; exact hu
    · simp only [hn, he.num, hnw, Expr.isNum, Bool.and_eq_true]
    · rw [h4, l1, l2]; simp only [Expr.at]; ring
    · rw [h5, c1 hp.1, c2 hp.2.1]; · rfl
      exact hp.2.2.imp he.num.mpr (Or.imp hnw.mpr fun h0 => (c2 hp.2.1).trans h0)
  | sub e f ih1 ih2 =>
    obtain ⟨h1, v, h2, w, he, hf, hsf, hv, hd, hnw, l1, c1, l2, c2⟩ := evalPair hr hlt
      (ih1 hg hl.1 (List.nodup_append.mp hr).1 fun a ha => hlt a (List.mem_append.mpr (Or.inl ha)))
      (fun k hk hk' => ih2 hk hl.2 (List.nodup_append.mp hr).2.1 hk')
    obtain ⟨h3, u, hu, hs, hn, h4, h5⟩ := opSub_spec hsf.good hv hsf.ok hd
    refine ⟨h3, u, ?_, he.step.trans hsf hs, ?_, fun p => ?_, fun hp => ?_⟩
    · simp only [eval, he.run, hf]; exact hu
    · simp only [hn, he.num, hnw, Expr.isNum, Bool.and_eq_true]
    · rw [h4, l1, l2]; simp only [Expr.at]; ring
    · rw [h5, c1 hp.1, c2 hp.2.1]; · rfl
      exact hp.2.2.imp hnw.mpr fun h0 => (c2 hp.2.1).trans h0
  | mul e f ih1 ih2 =>
    obtain ⟨h1, v, h2, w, he, hf, hsf, hv, hd, hnw, l1, c1, l2, c2⟩ := evalPair hr hlt
      (ih1 hg hl.1 (List.nodup_append.mp hr).1 fun a ha => hlt a (List.mem_append.mpr (Or.inl ha)))
      (fun k hk hk' => ih2 hk hl.2.1 (List.nodup_append.mp hr).2.1 hk')
    obtain ⟨h3, u, hu, hs, hn, h4, h5⟩ := opMul_spec hsf.good hv hsf.ok
      (hl.2.2.imp he.num.mpr hnw.mpr)
    refine ⟨h3, u, ?_, he.step.trans hsf hs, ?_, fun p => ?_, fun hp => ?_⟩
    · simp only [eval, he.run, hf]; exact hu
    · simp only [hn, he.num, hnw, Expr.isNum, Bool.and_eq_true]
    · have plain : ∀ {e : Expr}, e.isNum = true → ∀ h : Heap, e.Plain h := by
        intro e he h
        induction e with
        | num q => trivial
        | x i => cases he
        | var k => cases he
        | ref a => cases he
        | pos e ih => exact ih he
        | neg e ih => exact ⟨ih he, Or.inl he⟩
        | add e f ih1 ih2 =>
          simp only [Expr.isNum, Bool.and_eq_true] at he
          exact ⟨ih1 he.1, ih2 he.2, Or.inl he.1⟩
        | sub e f ih1 ih2 =>
          simp only [Expr.isNum, Bool.and_eq_true] at he
          exact ⟨ih1 he.1, ih2 he.2, Or.inl he.2⟩
        | mul e f ih1 ih2 =>
          simp only [Expr.isNum, Bool.and_eq_true] at he
          exact ⟨ih1 he.1, ih2 he.2, Or.inl he.1, Or.inl he.2⟩
      rw [h4, l1, l2]
      simp only [Expr.at]
      rcases hl.2.2 with hn' | hn'
      · rw [c1 (plain hn' h), Expr.at_num hn' h h p fun _ => 0]; ring
      · rw [c2 (plain hn' h), Expr.at_num hn' h h p fun _ => 0]; ring
    · rw [h5, c1 hp.1, c2 hp.2.1]; · rfl
      exact ⟨hp.2.2.1.imp he.num.mpr fun h0 => (c1 hp.1).trans h0,
        hp.2.2.2.imp hnw.mpr fun h0 => (c2 hp.2.1).trans h0⟩

/-! ### Coefficients and constraints -/

/-- The scalar product of an array with the first entries of a point. -/
def dot (l : List ℚ) (p : Point) : ℚ := ∑ i ∈ Finset.range l.length, l.getD i 0 * p i

/-- The relation an operator stands for. -/
def rel : Ineq → ℚ → ℚ → Prop
  | .le, a, b => a ≤ b
  | .ge, a, b => b ≤ a
  | .eq, a, b => a = b

/-- The points satisfying a linear constraint. -/
def LinCon.Holds (c : LinCon) (p : Point) : Prop := rel c.op (dot c.coeffs p) c.const

/-- The scalar product does not depend on trailing zeros. -/
theorem dot_eq_sum {l : List ℚ} {n : ℕ} (hn : l.length ≤ n) (p : Point) :
    dot l p = ∑ i ∈ Finset.range n, l.getD i 0 * p i := by
  unfold dot
  refine Finset.sum_subset (by simpa using hn) fun i _ hi => ?_
  rw [Finset.mem_range, not_lt] at hi
  simp [List.getD_eq_getElem?_getD, hi]

theorem getD_foldl_set (d : Dict ℕ ℚ) (hd : d.WF) (a : List ℚ) (hk : ∀ t ∈ d, t.1 < a.length) (i : ℕ) :
    (d.foldl (fun a t => a.set t.1 t.2) a).getD i 0 = (d.get? i).getD (a.getD i 0) := by
  induction d generalizing a with
  | nil => simp [Dict.get?]
  | cons t d ih =>
    obtain ⟨k, v⟩ := t
    simp only [Dict.WF, Dict.keys, List.map_cons, List.nodup_cons] at hd
    rw [List.foldl_cons, ih hd.2 _ (fun t ht => by simpa using hk t (List.mem_cons_of_mem _ ht))]
    have hkl : k < a.length := hk (k, v) (List.mem_cons_self ..)
    by_cases hki : k = i
    · subst hki
      have : Dict.get? d k = none := Dict.get?_eq_none_iff.mpr hd.1
      simp [this, Dict.get?, List.getD_eq_getElem?_getD, hkl]
    · simp [Dict.get?, hki, List.getD_eq_getElem?_getD]

theorem length_foldl_set (d : Dict ℕ ℚ) (a : List ℚ) :
    (d.foldl (fun a t => a.set t.1 t.2) a).length = a.length := by
  induction d generalizing a with
  | nil => rfl
  | cons t d ih => rw [List.foldl_cons, ih]; simp

theorem le_foldl_max (l : List ℕ) (b : ℕ) : b ≤ l.foldl max b ∧ ∀ i ∈ l, i ≤ l.foldl max b := by
  induction l generalizing b with
  | nil => simp
  | cons c l ih =>
    obtain ⟨h1, h2⟩ := ih (max b c)
    simp only [List.foldl_cons, List.mem_cons]
    refine ⟨(le_max_left _ _).trans h1, ?_⟩
    rintro i (rfl | hi)
    · exact (le_max_right _ _).trans h1
    · exact h2 i hi

theorem sum_getD (d : Dict ℕ ℚ) (hd : d.WF) (n : ℕ) (hn : ∀ t ∈ d, t.1 < n) (p : Point) :
    ∑ i ∈ Finset.range n, (d.get? i).getD 0 * p i = evalTerms d p := by
  induction d with
  | nil => simp [Dict.get?, evalTerms]
  | cons t d ih =>
    obtain ⟨k, v⟩ := t
    have hd' := hd
    simp only [Dict.WF, Dict.keys, List.map_cons, List.nodup_cons] at hd'
    rw [evalTerms_cons, ← ih hd'.2 fun t ht => hn t (List.mem_cons_of_mem _ ht)]
    have hk : k ∈ Finset.range n := Finset.mem_range.mpr (hn (k, v) (List.mem_cons_self ..))
    rw [← Finset.add_sum_erase _ _ hk, ← Finset.add_sum_erase _ (fun i => (Dict.get? d i).getD 0 * p i) hk]
    have h0 : Dict.get? d k = none := Dict.get?_eq_none_iff.mpr hd'.1
    have h1 : ∀ i ∈ (Finset.range n).erase k, (Dict.get? ((k, v) :: d) i).getD 0 * p i
        = (Dict.get? d i).getD 0 * p i := by
      intro i hi
      have : k ≠ i := (Finset.ne_of_mem_erase hi).symm
      simp [Dict.get?, this]
    rw [Finset.sum_congr rfl h1, h0]
    simp [Dict.get?]

/-- The array `coefficients` of an equation with terms gives the value of its terms. -/
theorem coefficients_spec {d : Dict ℕ ℚ} (h0 : d ≠ []) (hd : d.WF) :
    ∃ l, coefficients d = some l ∧ l ≠ [] ∧ ∀ p, dot l p = evalTerms d p := by
  cases d with
  | nil => exact (h0 rfl).elim
  | cons t d =>
    refine ⟨_, rfl, ?_, fun p => ?_⟩
    · intro h
      have := congrArg List.length h
      rw [length_foldl_set] at this
      simp at this
    · have hk : ∀ s ∈ t :: d, s.1 < ((t :: d).map Prod.fst).foldl max 0 + 1 := by
        intro s hs
        have := (le_foldl_max ((t :: d).map Prod.fst) 0).2 s.1 (List.mem_map.mpr ⟨s, hs, rfl⟩)
        omega
      unfold dot
      rw [length_foldl_set, List.length_replicate]
      rw [← sum_getD (t :: d) hd _ hk]
      refine Finset.sum_congr rfl fun i hi => ?_
      rw [getD_foldl_set _ hd _ (by simpa using hk)]
      have : (List.replicate (((t :: d).map Prod.fst).foldl max 0 + 1) (0 : ℚ)).getD i 0 = 0 := by
        rw [List.getD_eq_getElem?_getD, List.getElem?_replicate]
        split <;> rfl
      rw [this]

theorem dot_neg (l : List ℚ) (p : Point) : dot (l.map fun q => -q) p = -dot l p := by
  unfold dot
  rw [List.length_map, ← Finset.sum_neg_distrib]
  refine Finset.sum_congr rfl fun i hi => ?_
  rw [Finset.mem_range] at hi
  simp [List.getD_eq_getElem?_getD, hi]

theorem dot_pad (l : List ℚ) (k : ℕ) (p : Point) : dot (l ++ List.replicate k 0) p = dot l p := by
  rw [dot_eq_sum (n := l.length + k) (by simp), dot_eq_sum (l := l) (n := l.length + k) (by simp)]
  refine Finset.sum_congr rfl fun i hi => ?_
  congr 1
  simp only [List.getD_eq_getElem?_getD, List.getElem?_append, List.getElem?_replicate]
  split
  · rfl
  · rename_i h
    rw [List.getElem?_eq_none (by omega)]
    split <;> rfl

theorem dot_addArr {a b : List ℚ} (h : a.length = b.length) (p : Point) :
    dot (addArr a b) p = dot a p + dot b p := by
  unfold addArr dot
  rw [List.length_zipWith, ← h, min_self, ← Finset.sum_add_distrib]
  refine Finset.sum_congr rfl fun i hi => ?_
  rw [Finset.mem_range] at hi
  have hb : i < b.length := h ▸ hi
  simp [List.getD_eq_getElem?_getD, hi, hb]
  ring

theorem broadcast_spec (a : List ℚ) (b : Option (List ℚ)) :
    ∃ c, broadcastSubtract (some a) b = .ok (some c) ∧ (a ≠ [] → c ≠ []) ∧
      ∀ p, dot c p = dot a p - (b.elim 0 fun b => dot b p) := by
  cases b with
  | none => exact ⟨a, rfl, id, fun p => by simp⟩
  | some b =>
    simp only [broadcastSubtract, List.length_map, Option.elim_some]
    split
    · rename_i h
      refine ⟨_, rfl, fun ha hc => ?_, fun p => ?_⟩
      · have := congrArg List.length hc
        simp [addArr, h] at this
        subst this
        exact ha (List.length_eq_zero_iff.mp h)
      · rw [dot_addArr (by simpa using h), dot_neg]; ring
    · rename_i h
      by_cases h1 : a.length > b.length
      · simp only [if_pos h1, padRight, List.length_map]
        rw [if_neg (by omega)]
        refine ⟨_, rfl, fun ha hc => ?_, fun p => ?_⟩
        · have := congrArg List.length hc
          simp only [addArr, List.length_zipWith, List.length_append, List.length_map, List.length_replicate,
            List.length_nil] at this
          have := List.length_pos_iff.mpr ha
          omega
        · rw [dot_addArr (by simp; omega), dot_pad, dot_neg]; ring
      · simp only [if_neg h1, padRight, List.length_map]
        refine ⟨_, rfl, fun ha hc => ?_, fun p => ?_⟩
        · have := congrArg List.length hc
          simp only [addArr, List.length_zipWith, List.length_append, List.length_map, List.length_replicate,
            List.length_nil] at this
          have := List.length_pos_iff.mpr ha
          omega
        · rw [dot_addArr (by simp; omega), dot_pad, dot_neg]; ring

theorem rel_shift (op : Ineq) (s t c d : ℚ) : rel op (s - t) (d - c) ↔ rel op (s + c) (t + d) := by
  cases op
  · exact ⟨fun h => by have : s - t = d - c := h; show s + c = t + d; linarith,
      fun h => by have : s + c = t + d := h; show s - t = d - c; linarith⟩
  · exact ⟨fun h => by have : s - t ≤ d - c := h; show s + c ≤ t + d; linarith,
      fun h => by have : s + c ≤ t + d := h; show s - t ≤ d - c; linarith⟩
  · exact ⟨fun h => by have : d - c ≤ s - t := h; show t + d ≤ s + c; linarith,
      fun h => by have : t + d ≤ s + c := h; show d - c ≤ s - t; linarith⟩

/-- Comparing an equation that has terms with any equation. -/
theorem generate_spec (op : Ineq) {e f : Eqn} (he : e.terms ≠ [] ∧ e.terms.WF)
    (hf : f.terms = [] ∨ f.terms ≠ [] ∧ f.terms.WF) :
    ∃ c, generate op e f = .ok c ∧ c.coeffs ≠ [] ∧ ∀ p, c.Holds p ↔ rel op (e.at p) (f.at p) := by
  obtain ⟨l, hl, hl0, hp⟩ := coefficients_spec he.1 he.2
  have hc : ∃ m : Option (List ℚ), coefficients f.terms = m ∧
      ∀ p, (m.elim 0 fun b => dot b p) = evalTerms f.terms p := by
    rcases hf with hf | hf
    · exact ⟨none, by rw [hf]; rfl, fun p => by rw [hf]; rfl⟩
    · obtain ⟨m, hm, _, hm'⟩ := coefficients_spec hf.1 hf.2
      exact ⟨some m, hm, hm'⟩
  obtain ⟨m, hm, hm'⟩ := hc
  obtain ⟨c, hc, hc0, hd⟩ := broadcast_spec l m
  refine ⟨⟨c, op, f.const - e.const⟩, by simp only [generate, hl, hm, hc], hc0 hl0, fun p => ?_⟩
  unfold LinCon.Holds Eqn.at
  simp only
  rw [hd, hp, hm', rel_shift]

theorem rel_flip (op : Ineq) (a b : ℚ) : rel (flip op) a b ↔ rel op b a := by
  cases op
  · exact eq_comm
  · exact Iff.rfl
  · exact Iff.rfl

/-- The value of an expression is a `Variable` only if the expression is one. -/
theorem eval_var {h : Heap} {e : Expr} {h' : Heap} {k : ℕ} (he : eval h e = .ok (h', .var k)) : e = .var k := by
  have hadd : ∀ {h : Heap} {a : ℕ} {w : Val} {k : ℕ}, (addEqn h a w).2 ≠ .var k := by
    intro h a w k; cases w <;> simp [addEqn]
  have hmul : ∀ {h : Heap} {a : ℕ} {w : Val} {k : ℕ}, (mulEqn h a w).2 ≠ .var k := by
    intro h a w k; cases w <;> simp [mulEqn]
  have hmulv : ∀ {h : Heap} {a : ℕ} {w : Val} {k : ℕ}, (mulVar h a w).2 ≠ .var k := by
    intro h a w k; cases w <;> simp [mulVar, alloc]
  have h1 : ∀ {h : Heap} {v : Val}, opPos h v ≠ .ok (h', .var k) := by
    intro h v; cases v <;> simp [opPos, varEqn, alloc]
  have h2 : ∀ {h : Heap} {v : Val}, opNeg h v ≠ .ok (h', .var k) := by
    intro h v; cases v <;> simp [opNeg, negEqn, alloc]
  have key : ∀ {r : Heap × Val} {k : ℕ}, r.2 ≠ .var k → (Except.ok r : Except PyErr (Heap × Val)) ≠ .ok (h', .var k) := by
    intro r k hr he
    cases he
    exact hr rfl
  have h3 : ∀ {h : Heap} {v w : Val}, opAdd h v w ≠ .ok (h', .var k) := by
    intro h v w
    cases v <;> cases w <;> first | exact key hadd | exact key (by simp [addVar, hadd]) | simp [opAdd]
  have h4 : ∀ {h : Heap} {v w : Val}, opSub h v w ≠ .ok (h', .var k) := by
    intro h v w
    unfold opSub
    split
    · simp
    · split
      · simp
      · exact key hadd
    · split
      · simp
      · exact key (by simp [addVar, hadd])
    · exact key hadd
    · exact key hadd
    · simp
  have h5 : ∀ {h : Heap} {v w : Val}, opMul h v w ≠ .ok (h', .var k) := by
    intro h v w
    cases v <;> cases w <;> first | exact key hmul | exact key hmulv | simp [opMul]
  cases e with
  | num q => simp [eval] at he
  | x i =>
    simp only [eval, indexX] at he
    split at he <;> simp [alloc] at he
  | var j => simp only [eval, Except.ok.injEq, Prod.mk.injEq, Val.var.injEq] at he; rw [he.2]
  | ref a => simp [eval] at he
  | pos e =>
    simp only [eval] at he
    generalize eval h e = r at he
    rcases r with r | ⟨h1', v⟩
    · cases he
    · exact (h1 he).elim
  | neg e =>
    simp only [eval] at he
    generalize eval h e = r at he
    rcases r with r | ⟨h1', v⟩
    · cases he
    · exact (h2 he).elim
  | add e f =>
    simp only [eval] at he
    generalize eval h e = r at he
    rcases r with r | ⟨h1', v⟩
    · cases he
    · simp only at he
      generalize eval h1' f = r at he
      rcases r with r | ⟨h2', w⟩
      · cases he
      · exact (h3 he).elim
  | sub e f =>
    simp only [eval] at he
    generalize eval h e = r at he
    rcases r with r | ⟨h1', v⟩
    · cases he
    · simp only at he
      generalize eval h1' f = r at he
      rcases r with r | ⟨h2', w⟩
      · cases he
      · exact (h4 he).elim
  | mul e f =>
    simp only [eval] at he
    generalize eval h e = r at he
    rcases r with r | ⟨h1', v⟩
    · cases he
    · simp only at he
      generalize eval h1' f = r at he
      rcases r with r | ⟨h2', w⟩
      · cases he
      · exact (h5 he).elim


end Formulation
end Pytimize
