/-
The exact run of `Verif/Formulation/Equation.lean` is the run on rationals, and the run on absolute values is the exact
run of the expression without its signs.
-/
import Verif.Float.EquationHom

namespace Pytimize
namespace Floating
open Formulation

/-- The expression with every minus sign replaced by a plus sign. -/
def unsigned : Expr → Expr
  | .num q => .num q
  | .x i => .x i
  | .var k => .var k
  | .ref a => .ref a
  | .pos e => .pos (unsigned e)
  | .neg e => .pos (unsigned e)
  | .add e f => .add (unsigned e) (unsigned f)
  | .sub e f => .add (unsigned e) (.pos (unsigned f))
  | .mul e f => .mul (unsigned e) (unsigned f)

/-- Rationals as they are. -/
abbrev rawHeap (h : GHeap ℚ) : Heap := h.map (GEqn.read id)
abbrev rawVal (v : GVal ℚ) : Val := v.read id
abbrev rawRes (r : GHeap ℚ × GVal ℚ) : Heap × Val := resRead id r

theorem raw_eqn (e : GEqn ℚ) : e.read id = ⟨e.terms, e.const⟩ := by simp [GEqn.read]

section
variable {A : Ops ℚ} (hz : A.zero = 0) (ho : A.one = 1) (ha : ∀ a b, A.add a b = a + b)

include hz in
theorem raw_deref (h : GHeap ℚ) (a : ℕ) : deref (rawHeap h) a = (gderef A h a).read id := by
  unfold gderef deref
  rw [List.getD_eq_getElem?_getD, List.getD_eq_getElem?_getD, List.getElem?_map]
  cases h[a]? with
  | none => simp [GEqn.read, hz]
  | some e => rfl

include hz ha in
theorem raw_bump (d : Dict ℕ ℚ) (k : ℕ) (c : ℚ) : gbump A d k c = bump d k c := by
  unfold gbump bump
  simp only [hz, ha]

include hz ha ho in
theorem raw_addEqn (h : GHeap ℚ) (a : ℕ) (v : GVal ℚ) : addEqn (rawHeap h) a (rawVal v) = rawRes (gaddEqn A h a v) := by
  cases v with
  | num q => simp only [GVal.read, addEqn, gaddEqn, resRead, raw_deref hz, List.map_set, raw_eqn, ha, id]
  | var k => simp only [GVal.read, addEqn, gaddEqn, resRead, raw_deref hz, List.map_set, raw_eqn, raw_bump hz ha, ho]
  | eqn b => simp only [GVal.read, addEqn, gaddEqn, resRead, raw_deref hz, List.map_set, raw_eqn, raw_bump hz ha]
  | none => rfl

include hz in
theorem raw_alloc (h : GHeap ℚ) (k : ℕ) (c : ℚ) : alloc (rawHeap h) ⟨[(k, c)], 0⟩ = rawRes (galloc h ⟨[(k, c)], A.zero⟩) := by
  simp [alloc, galloc, resRead, GEqn.read, hz, GVal.read]

include hz ha ho in
theorem raw_addVar (h : GHeap ℚ) (k : ℕ) (v : GVal ℚ) : addVar (rawHeap h) k (rawVal v) = rawRes (gaddVar A h k v) := by
  unfold addVar gaddVar varEqn gvarEqn
  rw [ho, raw_alloc (A := A) hz, List.length_map]
  exact raw_addEqn hz ho ha _ _ _

include hz ho in
theorem raw_opPos (h : GHeap ℚ) (v : GVal ℚ) : opPos (rawHeap h) (rawVal v) = (gopPos A h v).map rawRes := by
  cases v with
  | var k =>
    refine congrArg Except.ok ?_
    unfold gvarEqn varEqn
    rw [ho, raw_alloc (A := A) hz]
  | num q => rfl
  | eqn b => rfl
  | none => rfl

include hz ha ho in
theorem raw_opAdd (h : GHeap ℚ) (v w : GVal ℚ) :
    opAdd (rawHeap h) (rawVal v) (rawVal w) = (gopAdd A h v w).map rawRes := by
  cases v with
  | num p =>
    cases w with
    | num q => simp only [gopAdd, opAdd, GVal.read, Except.map, resRead, ha, id]
    | var k => exact congrArg Except.ok (raw_addVar hz ho ha h k (.num p))
    | eqn b => exact congrArg Except.ok (raw_addEqn hz ho ha h b (.num p))
    | none => rfl
  | var k => cases w <;> exact congrArg Except.ok (raw_addVar hz ho ha h k _)
  | eqn a => cases w <;> exact congrArg Except.ok (raw_addEqn hz ho ha h a _)
  | none =>
    cases w with
    | num q => rfl
    | var k => exact congrArg Except.ok (raw_addVar hz ho ha h k .none)
    | eqn b => exact congrArg Except.ok (raw_addEqn hz ho ha h b .none)
    | none => rfl

variable (hm : ∀ a b, A.mul a b = a * b)

include hz hm in
theorem raw_opMul (h : GHeap ℚ) (v w : GVal ℚ) :
    opMul (rawHeap h) (rawVal v) (rawVal w) = (gopMul A h v w).map rawRes := by
  have e1 : ∀ a v, mulEqn (rawHeap h) a (rawVal v) = rawRes (gmulEqn A h a v) := fun a v => by
    cases v with
    | num q => simp only [GVal.read, mulEqn, gmulEqn, resRead, raw_deref hz, List.map_set, raw_eqn, hm, id]
    | var k => rfl
    | eqn b => rfl
    | none => rfl
  have e2 : ∀ k v, mulVar (rawHeap h) k (rawVal v) = rawRes (gmulVar A h k v) := fun k v => by
    cases v with
    | num q => exact raw_alloc hz h k q
    | var k => rfl
    | eqn b => rfl
    | none => rfl
  cases v with
  | num p =>
    cases w with
    | num q => simp only [gopMul, opMul, GVal.read, Except.map, resRead, hm, id]
    | var k => exact congrArg Except.ok (e2 k (.num p))
    | eqn b => exact congrArg Except.ok (e1 b (.num p))
    | none => rfl
  | var k => cases w <;> exact congrArg Except.ok (e2 k _)
  | eqn a => cases w <;> exact congrArg Except.ok (e1 a _)
  | none =>
    cases w with
    | num q => rfl
    | var k => exact congrArg Except.ok (e2 k .none)
    | eqn b => exact congrArg Except.ok (e1 b .none)
    | none => rfl

end

/-! ### Signs -/

theorem rat_opNeg (h : GHeap ℚ) (v : GVal ℚ) : opNeg (rawHeap h) (rawVal v) = (gopNeg ratOps h v).map rawRes := by
  cases v with
  | var k => exact congrArg Except.ok (raw_alloc (A := ratOps) rfl h k (-1))
  | num q => rfl
  | eqn b =>
    refine congrArg Except.ok ?_
    simp only [negEqn, gnegEqn, resRead, raw_deref (A := ratOps) rfl, List.map_set, raw_eqn]
    rfl
  | none => rfl

theorem abs_negEqn (h : GHeap ℚ) (b : ℕ) : gnegEqn absOps h b = (h, .eqn b) := by
  have e : ∀ d : Dict ℕ ℚ, d.map (fun t : ℕ × ℚ => (t.1, absOps.neg t.2)) = d := fun d => by simp [absOps]
  simp only [gnegEqn, Prod.mk.injEq, and_true]
  rw [e]
  by_cases hb : b < h.length
  · have : gderef absOps h b = h[b] := by simp [gderef, hb]
    rw [this]
    exact List.set_getElem_self hb
  · exact List.set_eq_of_length_le (not_lt.mp hb)

theorem abs_opNeg (h : GHeap ℚ) (v : GVal ℚ) : gopNeg absOps h v = gopPos absOps h v := by
  cases v with
  | var k => rfl
  | num q => rfl
  | eqn b => exact congrArg Except.ok (abs_negEqn h b)
  | none => rfl

theorem rat_opSub (h : GHeap ℚ) (v w : GVal ℚ) :
    opSub (rawHeap h) (rawVal v) (rawVal w) = (gopSub ratOps h v w).map rawRes := by
  have hn : ∀ b, negEqn (rawHeap h) b = rawRes (gnegEqn ratOps h b) := fun b => by
    have := rat_opNeg h (.eqn b)
    simpa [gopNeg, opNeg, GVal.read, Except.map] using this
  have key : ∀ b u, addEqn (negEqn (rawHeap h) b).1 b (rawVal u) = rawRes (gaddEqn ratOps (gnegEqn ratOps h b).1 b u) :=
    fun b u => by rw [hn]; exact raw_addEqn rfl rfl (fun _ _ => rfl) _ _ _
  have key2 : ∀ k u, addEqn (alloc (rawHeap h) ⟨[(k, -1)], 0⟩).1 (rawHeap h).length (rawVal u) =
      rawRes (gaddEqn ratOps (galloc h ⟨[(k, -1)], ratOps.zero⟩).1 h.length u) := fun k u => by
    rw [raw_alloc (A := ratOps) rfl, List.length_map]; exact raw_addEqn rfl rfl (fun _ _ => rfl) _ _ _
  have neg : ∀ (f : GHeap ℚ → GVal ℚ → GHeap ℚ × GVal ℚ) (f' : Heap → Val → Heap × Val),
      (∀ h w, f' (rawHeap h) (rawVal w) = rawRes (f h w)) →
      (match opNeg (rawHeap h) (rawVal w) with
        | .error e => (.error e : Except PyErr (Heap × Val))
        | .ok (h, w) => .ok (f' h w)) =
      Except.map rawRes (match gopNeg ratOps h w with
        | .error e => .error e
        | .ok (h, w) => .ok (f h w)) := by
    intro f f' hf
    rw [rat_opNeg]
    cases gopNeg ratOps h w with
    | error e => rfl
    | ok r => exact congrArg Except.ok (hf _ _)
  cases v with
  | num p =>
    cases w with
    | num q => simp [gopSub, opSub, GVal.read, Except.map, resRead, ratOps, sub_eq_add_neg]
    | var k => exact congrArg Except.ok (key2 k (.num p))
    | eqn b => exact congrArg Except.ok (key b (.num p))
    | none => rfl
  | var k =>
    have := neg (fun h w => gaddVar ratOps h k w) (fun h w => addVar h k w)
      (fun h w => raw_addVar rfl rfl (fun _ _ => rfl) h k w)
    cases w <;> exact this
  | eqn a =>
    have := neg (fun h w => gaddEqn ratOps h a w) (fun h w => addEqn h a w)
      (fun h w => raw_addEqn rfl rfl (fun _ _ => rfl) h a w)
    cases w <;> exact this
  | none =>
    cases w with
    | num q => rfl
    | var k => exact congrArg Except.ok (key2 k .none)
    | eqn b => exact congrArg Except.ok (key b .none)
    | none => rfl

theorem abs_opSub (h : GHeap ℚ) (v w : GVal ℚ) : gopSub absOps h v w =
    match gopPos absOps h w with
    | .error e => .error e
    | .ok (h, w) => gopAdd absOps h v w := by
  cases v with
  | num p =>
    cases w with
    | num q => rfl
    | var k => rfl
    | eqn b => simp only [gopSub, gopPos, gopAdd, abs_negEqn]
    | none => rfl
  | var k =>
    have : gopSub absOps h (.var k) w = match gopNeg absOps h w with
      | .error e => .error e
      | .ok (h, w) => .ok (gaddVar absOps h k w) := by cases w <;> rfl
    rw [this, abs_opNeg]
    cases w <;> rfl
  | eqn a =>
    have : gopSub absOps h (.eqn a) w = match gopNeg absOps h w with
      | .error e => .error e
      | .ok (h, w) => .ok (gaddEqn absOps h a w) := by cases w <;> rfl
    rw [this, abs_opNeg]
    cases w <;> rfl
  | none =>
    cases w with
    | num q => rfl
    | var k => rfl
    | eqn b => simp only [gopSub, gopPos, gopAdd, abs_negEqn]
    | none => rfl

/-! ### Runs -/

/-- The exact run is the run on rationals. -/
theorem eval_raw (h : GHeap ℚ) (e : GExpr ℚ) : eval (rawHeap h) (e.read id) = (geval ratOps h e).map rawRes := by
  induction e generalizing h with
  | num q => rfl
  | var k => rfl
  | ref a => rfl
  | x i =>
    simp only [geval, eval, GExpr.read, gindexX, indexX]
    split
    · rfl
    · rw [raw_alloc (A := ratOps) rfl]; rfl
  | pos e ih =>
    simp only [geval, eval, GExpr.read]
    rw [ih]
    cases geval ratOps h e with
    | error r => rfl
    | ok r => exact raw_opPos rfl rfl _ _
  | neg e ih =>
    simp only [geval, eval, GExpr.read]
    rw [ih]
    cases geval ratOps h e with
    | error r => rfl
    | ok r => exact rat_opNeg _ _
  | add e f ih1 ih2 =>
    simp only [geval, eval, GExpr.read]
    rw [ih1]
    cases geval ratOps h e with
    | error r => rfl
    | ok r =>
      obtain ⟨h', v⟩ := r
      simp only [Except.map, resRead]
      rw [ih2]
      cases geval ratOps h' f with
      | error r => rfl
      | ok r => exact raw_opAdd (A := ratOps) rfl rfl (fun _ _ => rfl) _ _ _
  | sub e f ih1 ih2 =>
    simp only [geval, eval, GExpr.read]
    rw [ih1]
    cases geval ratOps h e with
    | error r => rfl
    | ok r =>
      obtain ⟨h', v⟩ := r
      simp only [Except.map, resRead]
      rw [ih2]
      cases geval ratOps h' f with
      | error r => rfl
      | ok r => exact rat_opSub _ _ _
  | mul e f ih1 ih2 =>
    simp only [geval, eval, GExpr.read]
    rw [ih1]
    cases geval ratOps h e with
    | error r => rfl
    | ok r =>
      obtain ⟨h', v⟩ := r
      simp only [Except.map, resRead]
      rw [ih2]
      cases geval ratOps h' f with
      | error r => rfl
      | ok r => exact raw_opMul (A := ratOps) rfl (fun _ _ => rfl) _ _ _

/-- The run on absolute values is the exact run without the signs. -/
theorem eval_unsigned (h : GHeap ℚ) (e : GExpr ℚ) :
    eval (rawHeap h) (unsigned (e.read id)) = (geval absOps h e).map rawRes := by
  induction e generalizing h with
  | num q => rfl
  | var k => rfl
  | ref a => rfl
  | x i =>
    simp only [geval, eval, GExpr.read, unsigned, gindexX, indexX]
    split
    · rfl
    · rw [raw_alloc (A := absOps) rfl]; rfl
  | pos e ih =>
    simp only [geval, eval, GExpr.read, unsigned]
    rw [ih]
    cases geval absOps h e with
    | error r => rfl
    | ok r => exact raw_opPos rfl rfl _ _
  | neg e ih =>
    simp only [geval, eval, GExpr.read, unsigned]
    rw [ih]
    cases geval absOps h e with
    | error r => rfl
    | ok r =>
      obtain ⟨h', v⟩ := r
      simp only [Except.map, resRead, abs_opNeg]
      exact raw_opPos rfl rfl _ _
  | add e f ih1 ih2 =>
    simp only [geval, eval, GExpr.read, unsigned]
    rw [ih1]
    cases geval absOps h e with
    | error r => rfl
    | ok r =>
      obtain ⟨h', v⟩ := r
      simp only [Except.map, resRead]
      rw [ih2]
      cases geval absOps h' f with
      | error r => rfl
      | ok r => exact raw_opAdd (A := absOps) rfl rfl (fun _ _ => rfl) _ _ _
  | sub e f ih1 ih2 =>
    simp only [geval, eval, GExpr.read, unsigned]
    rw [ih1]
    cases geval absOps h e with
    | error r => rfl
    | ok r =>
      obtain ⟨h', v⟩ := r
      simp only [Except.map, resRead]
      rw [ih2]
      cases geval absOps h' f with
      | error r => rfl
      | ok r =>
        obtain ⟨h'', w⟩ := r
        simp only [Except.map, resRead, abs_opSub]
        have := raw_opPos (A := absOps) rfl rfl h'' w
        simp only [rawHeap, rawVal] at this
        rw [this]
        cases gopPos absOps h'' w with
        | error r => rfl
        | ok r =>
          obtain ⟨h3, w'⟩ := r
          exact raw_opAdd (A := absOps) rfl rfl (fun _ _ => rfl) h3 v w'
  | mul e f ih1 ih2 =>
    simp only [geval, eval, GExpr.read, unsigned]
    rw [ih1]
    cases geval absOps h e with
    | error r => rfl
    | ok r =>
      obtain ⟨h', v⟩ := r
      simp only [Except.map, resRead]
      rw [ih2]
      cases geval absOps h' f with
      | error r => rfl
      | ok r => exact raw_opMul (A := absOps) rfl (fun _ _ => rfl) _ _ _

end Floating
end Pytimize
