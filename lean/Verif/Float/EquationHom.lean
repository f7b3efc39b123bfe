/-
Runs of `Verif/Float/Equation.lean` on related numbers: a map that respects the operations carries one run over to the
other, to the exact run, or to the run on absolute values.
-/
import Verif.Float.Equation

namespace Pytimize
namespace Floating
open Formulation

/-! ### Dictionaries -/

/-- The values of a dictionary mapped. -/
def vmap {N M : Type} (φ : N → M) (d : Dict ℕ N) : Dict ℕ M := d.map fun t => (t.1, φ t.2)

section
variable {N M : Type} (φ : N → M)

theorem vmap_get? (d : Dict ℕ N) (k : ℕ) : Dict.get? (vmap φ d) k = (Dict.get? d k).map φ := by
  induction d with
  | nil => rfl
  | cons t d ih =>
    obtain ⟨a, v⟩ := t
    by_cases h : a = k
    · simp [vmap, Dict.get?, h]
    · simp only [vmap, List.map_cons, Dict.get?, h, if_false] at ih ⊢
      exact ih

theorem vmap_has (d : Dict ℕ N) (k : ℕ) : Dict.has (vmap φ d) k = Dict.has d k := by
  simp [Dict.has, vmap_get?]

theorem vmap_set (d : Dict ℕ N) (k : ℕ) (v : N) : vmap φ (Dict.set d k v) = Dict.set (vmap φ d) k (φ v) := by
  induction d with
  | nil => rfl
  | cons t d ih =>
    obtain ⟨a, w⟩ := t
    by_cases h : a = k
    · simp [vmap, Dict.set, h]
    · simp only [vmap, List.map_cons, Dict.set, h, if_false] at ih ⊢
      rw [← ih]

theorem vmap_setDefault (d : Dict ℕ N) (k : ℕ) (v : N) :
    vmap φ (Dict.setDefault d k v) = Dict.setDefault (vmap φ d) k (φ v) := by
  unfold Dict.setDefault
  rw [vmap_has]
  split
  · rfl
  · exact vmap_set φ d k v

theorem vmap_keys (d : Dict ℕ N) : Dict.keys (vmap φ d) = Dict.keys d := by
  simp [vmap, Dict.keys, Function.comp_def]

end

/-! ### Respecting the operations -/

/-- A map that respects the operations. -/
structure Hom {N M : Type} (A : Ops N) (B : Ops M) (φ : N → M) : Prop where
  zero : φ A.zero = B.zero
  one : φ A.one = B.one
  neg : ∀ a, φ (A.neg a) = B.neg (φ a)
  add : ∀ a b, φ (A.add a b) = B.add (φ a) (φ b)
  mul : ∀ a b, φ (A.mul a b) = B.mul (φ a) (φ b)

/-- Exact arithmetic. -/
def ratOps : Ops ℚ := ⟨0, 1, (- ·), (· + ·), (· * ·)⟩

/-- Arithmetic on bounds of absolute values: signs are forgotten. -/
def absOps : Ops ℚ := ⟨0, 1, id, (· + ·), (· * ·)⟩

def GEqn.map {N M : Type} (φ : N → M) (e : GEqn N) : GEqn M := ⟨vmap φ e.terms, φ e.const⟩

def GVal.map {N M : Type} (φ : N → M) : GVal N → GVal M
  | .num q => .num (φ q)
  | .var k => .var k
  | .eqn a => .eqn a
  | .none => .none

def GExpr.map {N M : Type} (φ : N → M) : GExpr N → GExpr M
  | .num q => .num (φ q)
  | .x i => .x i
  | .var k => .var k
  | .ref a => .ref a
  | .pos e => .pos (e.map φ)
  | .neg e => .neg (e.map φ)
  | .add e g => .add (e.map φ) (g.map φ)
  | .sub e g => .sub (e.map φ) (g.map φ)
  | .mul e g => .mul (e.map φ) (g.map φ)

/-- The result of an operator mapped. -/
def resMap {N M : Type} (φ : N → M) (r : GHeap N × GVal N) : GHeap M × GVal M := (r.1.map (GEqn.map φ), r.2.map φ)

/-- The result of an operator read. -/
def resRead {N : Type} (φ : N → ℚ) (r : GHeap N × GVal N) : Heap × Val := (r.1.map (GEqn.read φ), r.2.read φ)

section
variable {N M : Type} {A : Ops N} {B : Ops M} {φ : N → M} (H : Hom A B φ)
include H

theorem Hom.deref (h : GHeap N) (a : ℕ) : gderef B (h.map (GEqn.map φ)) a = (gderef A h a).map φ := by
  unfold gderef
  rw [List.getD_eq_getElem?_getD, List.getD_eq_getElem?_getD, List.getElem?_map]
  cases h[a]? with
  | none => simp [GEqn.map, vmap, H.zero]
  | some e => rfl

theorem Hom.bump (d : Dict ℕ N) (k : ℕ) (c : N) : vmap φ (gbump A d k c) = gbump B (vmap φ d) k (φ c) := by
  unfold gbump
  simp only
  rw [vmap_set, vmap_setDefault, H.add, H.zero, ← H.zero, ← vmap_setDefault, vmap_get?, Option.getD_map]

theorem Hom.fold (l d : Dict ℕ N) : vmap φ (l.foldl (fun d t => gbump A d t.1 t.2) d) =
    (vmap φ l).foldl (fun d t => gbump B d t.1 t.2) (vmap φ d) := by
  induction l generalizing d with
  | nil => rfl
  | cons t l ih =>
    rw [List.foldl_cons, ih, H.bump]
    rfl

theorem Hom.negEqn (h : GHeap N) (a : ℕ) : gnegEqn B (h.map (GEqn.map φ)) a = resMap φ (gnegEqn A h a) := by
  unfold gnegEqn resMap
  simp only [H.deref, List.map_set, GEqn.map, vmap, List.map_map, Function.comp_def, H.neg, GVal.map]

theorem Hom.addEqn (h : GHeap N) (a : ℕ) (v : GVal N) :
    gaddEqn B (h.map (GEqn.map φ)) a (v.map φ) = resMap φ (gaddEqn A h a v) := by
  cases v with
  | num q => simp only [GVal.map, gaddEqn, resMap, H.deref, List.map_set, GEqn.map, H.add]
  | var k => simp only [GVal.map, gaddEqn, resMap, H.deref, List.map_set, GEqn.map, H.bump, H.one]
  | eqn b => simp only [GVal.map, gaddEqn, resMap, H.deref, List.map_set, GEqn.map, H.fold]
  | none => rfl

theorem Hom.mulEqn (h : GHeap N) (a : ℕ) (v : GVal N) :
    gmulEqn B (h.map (GEqn.map φ)) a (v.map φ) = resMap φ (gmulEqn A h a v) := by
  cases v with
  | num q =>
    simp only [GVal.map, gmulEqn, resMap, H.deref, List.map_set, GEqn.map, H.mul, vmap, List.map_map, Function.comp_def]
  | var k => rfl
  | eqn b => rfl
  | none => rfl

theorem Hom.alloc (h : GHeap N) (k : ℕ) (c : N) :
    galloc (h.map (GEqn.map φ)) ⟨[(k, φ c)], B.zero⟩ = resMap φ (galloc h ⟨[(k, c)], A.zero⟩) := by
  simp [galloc, resMap, GEqn.map, vmap, H.zero, GVal.map]

theorem Hom.addVar (h : GHeap N) (k : ℕ) (v : GVal N) :
    gaddVar B (h.map (GEqn.map φ)) k (v.map φ) = resMap φ (gaddVar A h k v) := by
  unfold gaddVar gvarEqn
  rw [← H.one, H.alloc, List.length_map]
  exact H.addEqn _ _ _

theorem Hom.mulVar (h : GHeap N) (k : ℕ) (v : GVal N) :
    gmulVar B (h.map (GEqn.map φ)) k (v.map φ) = resMap φ (gmulVar A h k v) := by
  cases v with
  | num q => exact H.alloc h k q
  | var k => rfl
  | eqn b => rfl
  | none => rfl

theorem Hom.opPos (h : GHeap N) (v : GVal N) :
    gopPos B (h.map (GEqn.map φ)) (v.map φ) = (gopPos A h v).map (resMap φ) := by
  cases v with
  | var k =>
    refine congrArg Except.ok ?_
    unfold gvarEqn
    rw [← H.one, H.alloc]
  | num q => rfl
  | eqn b => rfl
  | none => rfl

theorem Hom.opNeg (h : GHeap N) (v : GVal N) :
    gopNeg B (h.map (GEqn.map φ)) (v.map φ) = (gopNeg A h v).map (resMap φ) := by
  cases v with
  | var k =>
    refine congrArg Except.ok ?_
    rw [← H.one, ← H.neg, H.alloc]
  | num q => simp only [gopNeg, GVal.map, Except.map, resMap, H.neg]
  | eqn b => exact congrArg Except.ok (H.negEqn h b)
  | none => rfl

theorem Hom.opAdd (h : GHeap N) (v w : GVal N) :
    gopAdd B (h.map (GEqn.map φ)) (v.map φ) (w.map φ) = (gopAdd A h v w).map (resMap φ) := by
  cases v with
  | num p =>
    cases w with
    | num q => simp only [gopAdd, GVal.map, Except.map, resMap, H.add]
    | var k => exact congrArg Except.ok (H.addVar h k (.num p))
    | eqn b => exact congrArg Except.ok (H.addEqn h b (.num p))
    | none => rfl
  | var k => cases w <;> exact congrArg Except.ok (H.addVar h k _)
  | eqn a => cases w <;> exact congrArg Except.ok (H.addEqn h a _)
  | none =>
    cases w with
    | num q => rfl
    | var k => exact congrArg Except.ok (H.addVar h k .none)
    | eqn b => exact congrArg Except.ok (H.addEqn h b .none)
    | none => rfl

theorem Hom.opSub (h : GHeap N) (v w : GVal N) :
    gopSub B (h.map (GEqn.map φ)) (v.map φ) (w.map φ) = (gopSub A h v w).map (resMap φ) := by
  have key : ∀ b u, gaddEqn B (gnegEqn B (h.map (GEqn.map φ)) b).1 b (u.map φ) =
      resMap φ (gaddEqn A (gnegEqn A h b).1 b u) := fun b u => by
    rw [H.negEqn]; exact H.addEqn _ _ _
  have key2 : ∀ k u, gaddEqn B (galloc (h.map (GEqn.map φ)) ⟨[(k, B.neg B.one)], B.zero⟩).1 (h.map (GEqn.map φ)).length
      (u.map φ) = resMap φ (gaddEqn A (galloc h ⟨[(k, A.neg A.one)], A.zero⟩).1 h.length u) := fun k u => by
    rw [← H.one, ← H.neg, H.alloc, List.length_map]; exact H.addEqn _ _ _
  have neg : ∀ (f : GHeap N → GVal N → GHeap N × GVal N) (f' : GHeap M → GVal M → GHeap M × GVal M),
      (∀ h w, f' (h.map (GEqn.map φ)) (w.map φ) = resMap φ (f h w)) →
      (match gopNeg B (h.map (GEqn.map φ)) (w.map φ) with
        | .error e => (.error e : Except PyErr (GHeap M × GVal M))
        | .ok (h, w) => .ok (f' h w)) =
      Except.map (resMap φ) (match gopNeg A h w with
        | .error e => .error e
        | .ok (h, w) => .ok (f h w)) := by
    intro f f' hf
    rw [H.opNeg]
    cases gopNeg A h w with
    | error e => rfl
    | ok r => exact congrArg Except.ok (hf _ _)
  cases v with
  | num p =>
    cases w with
    | num q => simp only [gopSub, GVal.map, Except.map, resMap, H.add, H.neg]
    | var k => exact congrArg Except.ok (key2 k (.num p))
    | eqn b => exact congrArg Except.ok (key b (.num p))
    | none => rfl
  | var k =>
    have := neg (fun h w => gaddVar A h k w) (fun h w => gaddVar B h k w) (fun h w => H.addVar h k w)
    cases w <;> exact this
  | eqn a =>
    have := neg (fun h w => gaddEqn A h a w) (fun h w => gaddEqn B h a w) (fun h w => H.addEqn h a w)
    cases w <;> exact this
  | none =>
    cases w with
    | num q => rfl
    | var k => exact congrArg Except.ok (key2 k .none)
    | eqn b => exact congrArg Except.ok (key b .none)
    | none => rfl

theorem Hom.opMul (h : GHeap N) (v w : GVal N) :
    gopMul B (h.map (GEqn.map φ)) (v.map φ) (w.map φ) = (gopMul A h v w).map (resMap φ) := by
  cases v with
  | num p =>
    cases w with
    | num q => simp only [gopMul, GVal.map, Except.map, resMap, H.mul]
    | var k => exact congrArg Except.ok (H.mulVar h k (.num p))
    | eqn b => exact congrArg Except.ok (H.mulEqn h b (.num p))
    | none => rfl
  | var k => cases w <;> exact congrArg Except.ok (H.mulVar h k _)
  | eqn a => cases w <;> exact congrArg Except.ok (H.mulEqn h a _)
  | none =>
    cases w with
    | num q => rfl
    | var k => exact congrArg Except.ok (H.mulVar h k .none)
    | eqn b => exact congrArg Except.ok (H.mulEqn h b .none)
    | none => rfl

/-- A run on mapped numbers is the mapped run. -/
theorem Hom.eval (h : GHeap N) (e : GExpr N) :
    geval B (h.map (GEqn.map φ)) (e.map φ) = (geval A h e).map (resMap φ) := by
  have two : ∀ {e f : GExpr N} {op : GHeap N → GVal N → GVal N → Except PyErr (GHeap N × GVal N)}
      {op' : GHeap M → GVal M → GVal M → Except PyErr (GHeap M × GVal M)},
      (∀ h, geval B (h.map (GEqn.map φ)) (e.map φ) = (geval A h e).map (resMap φ)) →
      (∀ h, geval B (h.map (GEqn.map φ)) (f.map φ) = (geval A h f).map (resMap φ)) →
      (∀ h v w, op' (h.map (GEqn.map φ)) (v.map φ) (w.map φ) = (op h v w).map (resMap φ)) → ∀ h,
      (match geval B (h.map (GEqn.map φ)) (e.map φ) with
        | .error r => (.error r : Except PyErr (GHeap M × GVal M))
        | .ok (h, v) =>
          match geval B h (f.map φ) with
          | .error r => .error r
          | .ok (h, w) => op' h v w) =
      Except.map (resMap φ) (match geval A h e with
        | .error r => .error r
        | .ok (h, v) =>
          match geval A h f with
          | .error r => .error r
          | .ok (h, w) => op h v w) := by
    intro e f op op' h1 h2 h3 h
    rw [h1]
    cases geval A h e with
    | error r => rfl
    | ok r =>
      obtain ⟨h', v⟩ := r
      simp only [Except.map, resMap]
      rw [h2]
      cases geval A h' f with
      | error r => rfl
      | ok r =>
        obtain ⟨h'', w⟩ := r
        simp only [Except.map, resMap]
        exact h3 _ _ _
  induction e generalizing h with
  | num q => rfl
  | var k => rfl
  | ref a => rfl
  | x i =>
    simp only [geval, GExpr.map, gindexX]
    split
    · rfl
    · rw [← H.one, H.alloc]; rfl
  | pos e ih =>
    simp only [geval, GExpr.map]
    rw [ih]
    cases geval A h e with
    | error r => rfl
    | ok r => exact H.opPos _ _
  | neg e ih =>
    simp only [geval, GExpr.map]
    rw [ih]
    cases geval A h e with
    | error r => rfl
    | ok r => exact H.opNeg _ _
  | add e f ih1 ih2 => exact two ih1 ih2 H.opAdd h
  | sub e f ih1 ih2 => exact two ih1 ih2 H.opSub h
  | mul e f ih1 ih2 => exact two ih1 ih2 H.opMul h

end

end Floating
end Pytimize
