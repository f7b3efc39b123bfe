/-
Runs on integers: on Python's integers the arithmetic is exact, and on floats that are integers the results are
integers.
-/
import Verif.Float.PyNum

namespace Pytimize
namespace Floating
open Formulation

/-! ### Python's integers -/

/-- The operations of `int`. -/
def intOps : Ops ℤ := ⟨0, 1, (- ·), (· + ·), (· * ·)⟩

theorem hom_int_py (R : Rounding) : Hom intOps (pyOps R) PyNum.int :=
  ⟨rfl, rfl, fun _ => rfl, fun _ _ => rfl, fun _ _ => rfl⟩

theorem hom_int_rat : Hom intOps ratOps (fun z : ℤ => (z : ℚ)) :=
  ⟨by simp [intOps, ratOps], by simp [intOps, ratOps], fun _ => by simp [intOps, ratOps],
    fun _ _ => by simp [intOps, ratOps], fun _ _ => by simp [intOps, ratOps]⟩

/-! ### A set of numbers closed under the operations -/

/-- `P` holds for all numbers of an expression. -/
def GExpr.All {N : Type} (P : N → Prop) : GExpr N → Prop
  | .num q => P q
  | .x _ => True
  | .var _ => True
  | .ref _ => True
  | .pos e => e.All P
  | .neg e => e.All P
  | .add e f => e.All P ∧ f.All P
  | .sub e f => e.All P ∧ f.All P
  | .mul e f => e.All P ∧ f.All P

/-- `P` holds for all numbers of an equation. -/
def GEqn.All {N : Type} (P : N → Prop) (e : GEqn N) : Prop := (∀ t ∈ e.terms, P t.2) ∧ P e.const

/-- `P` holds for a value. -/
def GVal.All {N : Type} (P : N → Prop) : GVal N → Prop
  | .num q => P q
  | _ => True

/-- `P` is closed under the operations. -/
structure Closed {N : Type} (A : Ops N) (P : N → Prop) : Prop where
  zero : P A.zero
  one : P A.one
  neg : ∀ a, P a → P (A.neg a)
  add : ∀ a b, P a → P b → P (A.add a b)
  mul : ∀ a b, P a → P b → P (A.mul a b)

section
variable {N : Type} {A : Ops N} {P : N → Prop}

/-- The operations on the numbers in `P`. -/
def subOps (C : Closed A P) : Ops {n // P n} where
  zero := ⟨A.zero, C.zero⟩
  one := ⟨A.one, C.one⟩
  neg a := ⟨A.neg a.1, C.neg _ a.2⟩
  add a b := ⟨A.add a.1 b.1, C.add _ _ a.2 b.2⟩
  mul a b := ⟨A.mul a.1 b.1, C.mul _ _ a.2 b.2⟩

theorem hom_sub (C : Closed A P) : Hom (subOps C) A Subtype.val :=
  ⟨rfl, rfl, fun _ => rfl, fun _ _ => rfl, fun _ _ => rfl⟩

theorem lift_expr {e : GExpr N} (h : e.All P) : ∃ e' : GExpr {n // P n}, e'.map Subtype.val = e := by
  induction e with
  | num q => exact ⟨.num ⟨q, h⟩, rfl⟩
  | x i => exact ⟨.x i, rfl⟩
  | var k => exact ⟨.var k, rfl⟩
  | ref a => exact ⟨.ref a, rfl⟩
  | pos e ih => obtain ⟨e', rfl⟩ := ih h; exact ⟨.pos e', rfl⟩
  | neg e ih => obtain ⟨e', rfl⟩ := ih h; exact ⟨.neg e', rfl⟩
  | add e f i1 i2 =>
    obtain ⟨e', rfl⟩ := i1 h.1; obtain ⟨f', rfl⟩ := i2 h.2; exact ⟨.add e' f', rfl⟩
  | sub e f i1 i2 =>
    obtain ⟨e', rfl⟩ := i1 h.1; obtain ⟨f', rfl⟩ := i2 h.2; exact ⟨.sub e' f', rfl⟩
  | mul e f i1 i2 =>
    obtain ⟨e', rfl⟩ := i1 h.1; obtain ⟨f', rfl⟩ := i2 h.2; exact ⟨.mul e' f', rfl⟩

theorem lift_terms {d : Dict ℕ N} (h : ∀ t ∈ d, P t.2) : ∃ d' : Dict ℕ {n // P n}, vmap Subtype.val d' = d := by
  induction d with
  | nil => exact ⟨[], rfl⟩
  | cons t d ih =>
    obtain ⟨d', h'⟩ := ih fun t ht => h t (List.mem_cons_of_mem _ ht)
    refine ⟨(t.1, ⟨t.2, h t List.mem_cons_self⟩) :: d', ?_⟩
    simp only [vmap, List.map_cons] at h' ⊢
    rw [h']

theorem lift_heap {h : GHeap N} (hh : ∀ e ∈ h, e.All P) :
    ∃ h' : GHeap {n // P n}, h'.map (GEqn.map Subtype.val) = h := by
  induction h with
  | nil => exact ⟨[], rfl⟩
  | cons e h ih =>
    obtain ⟨h', i'⟩ := ih fun t ht => hh t (List.mem_cons_of_mem _ ht)
    obtain ⟨d', e'⟩ := lift_terms (hh e List.mem_cons_self).1
    refine ⟨⟨d', ⟨e.const, (hh e List.mem_cons_self).2⟩⟩ :: h', ?_⟩
    simp only [List.map_cons, i', GEqn.map, e']

/-- A run on numbers in `P` ends with numbers in `P`. -/
theorem eval_all (C : Closed A P) {h : GHeap N} (hh : ∀ e ∈ h, e.All P) {e : GExpr N} (he : e.All P) {h' : GHeap N}
    {w : GVal N} (hr : geval A h e = .ok (h', w)) : (∀ e ∈ h', e.All P) ∧ w.All P := by
  obtain ⟨e0, rfl⟩ := lift_expr he
  obtain ⟨h0, rfl⟩ := lift_heap hh
  rw [(hom_sub C).eval] at hr
  cases hs : geval (subOps C) h0 e0 with
  | error r => rw [hs] at hr; cases hr
  | ok r =>
    rw [hs] at hr
    simp only [Except.map, Except.ok.injEq, resMap, Prod.mk.injEq] at hr
    obtain ⟨rfl, rfl⟩ := hr
    refine ⟨fun e h1 => ?_, ?_⟩
    · obtain ⟨f, -, rfl⟩ := List.mem_map.mp h1
      refine ⟨fun t ht => ?_, f.const.2⟩
      obtain ⟨t0, -, rfl⟩ := List.mem_map.mp ht
      exact t0.2.2
    · cases r.2 with
      | num q => exact q.2
      | var k => trivial
      | eqn a => trivial
      | none => trivial
end

/-! ### Floats that are integers -/

/-- The rational is an integer. -/
def Whole (q : ℚ) : Prop := ∃ z : ℤ, q = z

theorem whole_toDouble {q : ℚ} (h : Whole q) : Whole (toDouble q) := by
  obtain ⟨z, rfl⟩ := h
  by_cases hl : 0 ≤ lastBit (z : ℚ)
  · obtain ⟨n, hn⟩ := Int.eq_ofNat_of_zero_le hl
    refine ⟨LinProg.roundEven ((z : ℚ) / 2 ^ lastBit (z : ℚ)) * 2 ^ n, ?_⟩
    unfold toDouble
    rw [hn]
    push_cast
    rw [zpow_natCast]
  · refine ⟨z, toDouble_of_isDouble (isDouble_int ?_)⟩
    have h1 := abs_lt_lastBit (z : ℚ)
    have h2 : (2 : ℚ) ^ (lastBit (z : ℚ) + 53) ≤ 2 ^ (53 : ℤ) := zpow_le_zpow_right₀ (by norm_num) (by omega)
    have h3 : |(z : ℚ)| < 2 ^ (53 : ℤ) := h1.trans_le h2
    rw [← Int.cast_abs] at h3
    have : |z| < 2 ^ 53 := by exact_mod_cast h3
    exact this.le

theorem whole_neg {a : ℚ} (h : Whole a) : Whole (-a) := by
  obtain ⟨z, rfl⟩ := h; exact ⟨-z, by push_cast; rfl⟩
theorem whole_add {a b : ℚ} (h : Whole a) (h' : Whole b) : Whole (a + b) := by
  obtain ⟨z, rfl⟩ := h; obtain ⟨z', rfl⟩ := h'; exact ⟨z + z', by push_cast; rfl⟩
theorem whole_sub {a b : ℚ} (h : Whole a) (h' : Whole b) : Whole (a - b) := by
  obtain ⟨z, rfl⟩ := h; obtain ⟨z', rfl⟩ := h'; exact ⟨z - z', by push_cast; rfl⟩
theorem whole_mul {a b : ℚ} (h : Whole a) (h' : Whole b) : Whole (a * b) := by
  obtain ⟨z, rfl⟩ := h; obtain ⟨z', rfl⟩ := h'; exact ⟨z * z', by push_cast; rfl⟩

theorem whole_toFloat {a : PyNum} (h : Whole a.val) : Whole (a.toFloat binary64) := by
  cases a with
  | int k => exact whole_toDouble ⟨k, rfl⟩
  | float q => exact h

theorem closed_whole : Closed (pyOps binary64) (fun n => Whole n.val) := by
  refine ⟨⟨0, by simp [pyOps, PyNum.val]⟩, ⟨1, by simp [pyOps, PyNum.val]⟩, ?_, ?_, ?_⟩
  · intro a h; cases a
    · exact ⟨_, rfl⟩
    · exact whole_neg h
  · intro a b h h'
    have key := whole_toDouble (whole_add (whole_toFloat h) (whole_toFloat h'))
    cases a <;> cases b
    · exact ⟨_, rfl⟩
    all_goals exact key
  · intro a b h h'
    have key := whole_toDouble (whole_mul (whole_toFloat h) (whole_toFloat h'))
    cases a <;> cases b
    · exact ⟨_, rfl⟩
    all_goals exact key

theorem whole_terms {d : Dict ℕ ℚ} {p : Point} (hd : ∀ t ∈ d, Whole t.2) (hp : ∀ i, Whole (p i)) :
    Whole (evalTerms d p) := by
  induction d with
  | nil => exact ⟨0, by simp [evalTerms]⟩
  | cons t d ih =>
    rw [evalTerms_cons]
    exact whole_add (whole_mul (hd t List.mem_cons_self) (hp _)) (ih fun t ht => hd t (List.mem_cons_of_mem _ ht))

/-- Values of integer equations at integer points are integers. -/
theorem whole_eqn {h : GHeap PyNum} (hh : ∀ e ∈ h, e.All fun n => Whole n.val) (a : ℕ) {p : Point}
    (hp : ∀ i, Whole (p i)) : Whole ((deref (h.map (GEqn.read PyNum.val)) a).at p) := by
  unfold deref
  rw [List.getD_eq_getElem?_getD, List.getElem?_map]
  cases he : h[a]? with
  | none => exact ⟨0, by simp [Eqn.at, evalTerms]⟩
  | some e =>
    have hm := hh e (List.mem_of_getElem? he)
    refine whole_add (whole_terms (fun t ht => ?_) hp) hm.2
    obtain ⟨t0, h0, rfl⟩ := List.mem_map.mp ht
    exact hm.1 t0 h0

theorem whole_val {h : GHeap PyNum} (hh : ∀ e ∈ h, e.All fun n => Whole n.val) {w : GVal PyNum}
    (hw : w.All fun n => Whole n.val) {p : Point} (hp : ∀ i, Whole (p i)) :
    Whole ((w.read PyNum.val).at (h.map (GEqn.read PyNum.val)) p) := by
  cases w with
  | num q => exact hw
  | var k => exact hp k
  | eqn a => exact whole_eqn hh a hp
  | none => exact ⟨0, by simp [GVal.read, Val.at]⟩

/-- Values of integer expressions at integer points are integers. -/
theorem whole_expr {h : GHeap PyNum} (hh : ∀ e ∈ h, e.All fun n => Whole n.val) {e : GExpr PyNum}
    (he : e.All fun n => Whole n.val) {p : Point} (hp : ∀ i, Whole (p i)) :
    Whole ((e.read PyNum.val).at (h.map (GEqn.read PyNum.val)) p) := by
  induction e with
  | num q => exact he
  | x i => exact hp _
  | var k => exact hp k
  | ref a => exact whole_eqn hh a hp
  | pos e ih => exact ih he
  | neg e ih => exact whole_neg (ih he)
  | add e f i1 i2 => exact whole_add (i1 he.1) (i2 he.2)
  | sub e f i1 i2 => exact whole_sub (i1 he.1) (i2 he.2)
  | mul e f i1 i2 => exact whole_mul (i1 he.1) (i2 he.2)

theorem whole_eq {a b : ℚ} (ha : Whole a) (hb : Whole b) (h : |a - b| < 1) : a = b := by
  obtain ⟨z, rfl⟩ := ha; obtain ⟨z', rfl⟩ := hb
  rw [← Int.cast_sub, ← Int.cast_abs] at h
  have h1 : |z - z'| < 1 := by exact_mod_cast h
  have h2 := Int.abs_lt_one_iff.mp h1
  have : z = z' := by omega
  rw [this]

end Floating
end Pytimize
