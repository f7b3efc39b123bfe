/-
Properties C61-C63: arithmetic of equations, comparisons, and what operators do to their operands.
-/
import Verif.Formulation.EquationProof

namespace Pytimize
namespace Props
open LinProg (Ineq Obj)
open Formulation

/-! ### C61 -/

/-- The heap at the start of a Python program is well formed. -/
theorem good_nil : Good [] := fun _ h => by cases h

/-- C61, part 1: every linear expression evaluates to a number, a variable or an equation, whose dependence on
the point is that of the expression. Names must not occur twice. Missing: the constant, see
`C61_partial`, and expressions mentioning an equation twice, see `C63_self_wrong`. -/
theorem C61_linear_partial {h : Heap} (hg : Good h) {e : Expr} (hl : e.Linear) (hr : e.refs.Nodup)
    (hlt : ∀ a ∈ e.refs, a < h.length) :
    ∃ h' w, eval h e = .ok (h', w) ∧ w ≠ .none ∧ Good h' ∧
      ∀ p q, w.at h' p - w.at h' q = e.at h p - e.at h q := by
  obtain ⟨h', w, hs⟩ := eval_spec hg hl hr hlt
  refine ⟨h', w, hs.run, ?_, hs.step.good, fun p q => ?_⟩
  · rintro rfl; exact hs.step.ok
  · have h1 := hs.lin p
    have h2 := hs.lin q
    unfold Val.lin at h1 h2
    linarith

/-- C61: an expression in which no added number is negated, scaled, or added from the right evaluates to its
value at every point. Missing: the other placements of numbers, where the claim is false
(`C61_neg_wrong`, `C61_scale_wrong`, `C61_right_wrong`). -/
theorem C61_partial {h : Heap} (hg : Good h) {e : Expr} (hl : e.Linear) (hr : e.refs.Nodup)
    (hlt : ∀ a ∈ e.refs, a < h.length) (hp : e.Plain h) :
    ∃ h' w, eval h e = .ok (h', w) ∧ w ≠ .none ∧ ∀ p, w.at h' p = e.at h p := by
  obtain ⟨h', w, hs⟩ := eval_spec hg hl hr hlt
  refine ⟨h', w, hs.run, ?_, fun p => ?_⟩
  · rintro rfl; exact hs.step.ok
  · have h1 := hs.lin p
    have h2 := hs.cst hp
    unfold Val.lin at h1
    unfold Val.cst at h2
    linarith

/-- `2 * x[1] - (x[2] - v) + 5` meets the hypotheses of `C61_partial`. -/
example : let e : Expr := .add (.sub (.mul (.num 2) (.x 1)) (.sub (.x 2) (.var 2))) (.num 5)
    e.Linear ∧ e.refs.Nodup ∧ (∀ a ∈ e.refs, a < ([] : Heap).length) ∧ e.Plain [] := by
  simp [Expr.Linear, Expr.refs, Expr.Plain, Expr.isNum, Expr.at]

/-- C61 is false: `-(x[1] + 3)` has value `3` at the origin. -/
theorem C61_neg_wrong : ∃ h' w, eval [] (.neg (.add (.x 1) (.num 3))) = .ok (h', w) ∧
    ∃ p, w.at h' p ≠ (Expr.neg (.add (.x 1) (.num 3))).at [] p := by
  refine ⟨[⟨[(0, -1)], 3⟩], .eqn 0, by decide +kernel, fun _ => 0, ?_⟩
  simp [Val.at, Expr.at, Eqn.at, deref, evalTerms]
  norm_num

/-- C61 is false: `2 * (x[1] + 3)` has value `3` at the origin. -/
theorem C61_scale_wrong : ∃ h' w, eval [] (.mul (.num 2) (.add (.x 1) (.num 3))) = .ok (h', w) ∧
    ∃ p, w.at h' p ≠ (Expr.mul (.num 2) (.add (.x 1) (.num 3))).at [] p := by
  refine ⟨[⟨[(0, 2)], 3⟩], .eqn 0, by decide +kernel, fun _ => 0, ?_⟩
  simp [Val.at, Expr.at, Eqn.at, deref, evalTerms]

/-- C61 is false: `x[1] + (x[2] + 3)` has value `0` at the origin. -/
theorem C61_right_wrong : ∃ h' w, eval [] (.add (.x 1) (.add (.x 2) (.num 3))) = .ok (h', w) ∧
    ∃ p, w.at h' p ≠ (Expr.add (.x 1) (.add (.x 2) (.num 3))).at [] p := by
  refine ⟨[⟨[(0, 1), (1, 1)], 0⟩, ⟨[(1, 1)], 3⟩], .eqn 0, by decide +kernel, fun _ => 0, ?_⟩
  simp [Val.at, Expr.at, Eqn.at, deref, evalTerms]

/-- C61: the only way for a linear expression to fail is an index below one. -/
theorem C61_index (h : Heap) (i : ℤ) : eval h (.x i) = .error .valueError ↔ i < 1 := by
  simp only [eval, indexX]
  split
  · rename_i hi; exact ⟨fun _ => by omega, fun _ => rfl⟩
  · rename_i hi; exact ⟨fun h => (by cases h), fun h => by omega⟩

/-! ### C62 -/

/-- The points satisfying a sign condition on the variables of a program with `n` variables. -/
def SignHolds (n : ℕ) (s : VarCon) (p : Point) : Prop :=
  (∀ l, s.pos = some l → (l = [] → ∀ j < n, 0 ≤ p j) ∧ ∀ i ∈ l, 0 ≤ p (i - 1).toNat) ∧
  (∀ l, s.neg = some l → (l = [] → ∀ j < n, p j ≤ 0) ∧ ∀ i ∈ l, p (i - 1).toNat ≤ 0)

/-- The points satisfying the outcome of a comparison. -/
def ConHolds (n : ℕ) (p : Point) : Con → Prop
  | .lin c => c.Holds p
  | .sign s => SignHolds n s p
  | .bool b => b = true

theorem cmpEqn_spec {h : Heap} (hg : Good h) (op : Ineq) {e : Eqn} (he : e.terms ≠ [] ∧ e.terms.WF) {w : Val}
    (hw : w.Ok h) (hv : ∀ k, w ≠ .var k) :
    ∃ c, cmpEqn h op e w = .ok (.lin c) ∧ c.coeffs ≠ [] ∧ ∀ p, c.Holds p ↔ rel op (e.at p) (w.at h p) := by
  cases w with
  | num q =>
    obtain ⟨c, hc, h0, hp⟩ := generate_spec op (f := ⟨[], q⟩) he (Or.inl rfl)
    refine ⟨c, by simp only [cmpEqn, hc], h0, fun p => ?_⟩
    rw [hp]; simp [Eqn.at, evalTerms, Val.at]
  | var k => exact (hv k rfl).elim
  | eqn b =>
    obtain ⟨c, hc, h0, hp⟩ := generate_spec op he (Or.inr (hg.deref hw))
    exact ⟨c, by simp only [cmpEqn, hc], h0, hp⟩
  | none => exact hw.elim

theorem cmpVar_spec {h : Heap} (hg : Good h) (op : Ineq) (k : ℕ) {w : Val}
    (hw : w.Ok h) (hv : ∀ k, w ≠ .var k) :
    ∃ c, cmpVar h op k w = .ok c ∧ (∀ b, c ≠ .bool b) ∧ (∀ l, c = .lin l → l.coeffs ≠ []) ∧
      ∀ n p, ConHolds n p c ↔ rel op (p k) (w.at h p) := by
  obtain ⟨c, hc, h0, hp⟩ := cmpEqn_spec hg op (e := ⟨[(k, 1)], 0⟩) (single_good k 1) hw hv
  have hlin : ∃ c, cmpEqn h op ⟨[(k, 1)], 0⟩ w = .ok c ∧ (∀ b, c ≠ .bool b) ∧ (∀ l, c = .lin l → l.coeffs ≠ []) ∧
      ∀ n p, ConHolds n p c ↔ rel op (p k) (w.at h p) :=
    ⟨.lin c, hc, by simp, fun l hl => by cases hl; exact h0, fun n p => by
      simp only [ConHolds]; rw [hp]; simp [Eqn.at, evalTerms]⟩
  unfold cmpVar
  split
  · rename_i q
    split
    · rename_i hq
      subst hq
      refine ⟨_, rfl, by simp, by simp, fun n p => ?_⟩
      simp [ConHolds, SignHolds, rel, Val.at]
    · exact hlin
  · rename_i q
    split
    · rename_i hq
      subst hq
      refine ⟨_, rfl, by simp, by simp, fun n p => ?_⟩
      simp [ConHolds, SignHolds, rel, Val.at]
    · exact hlin
  · exact hlin

/-- C62: comparing two operands, not both numbers, gives a constraint satisfied by exactly the points where the
comparison holds. Missing: a `Variable` on the right of an equation or of a variable
(`C62_variable_wrong`), and equations without terms on the left (`C62_no_terms_wrong`; the
functions of the package never return one). -/
theorem C62_partial {h : Heap} (hg : Good h) (op : Ineq) {v w : Val} (hv : v.Ok h) (hw : w.Ok h)
    (hn : ¬ (v.IsNum ∧ w.IsNum)) (hr : v.IsNum ∨ ∀ k, w ≠ .var k) :
    ∃ c, compare h op v w = .ok c ∧ (∀ b, c ≠ .bool b) ∧
      ∀ n p, ConHolds n p c ↔ rel op (v.at h p) (w.at h p) := by
  cases v with
  | num q =>
    have hq : ∀ k, (Val.num q) ≠ .var k := fun k h => by cases h
    cases w with
    | num r => exact (hn ⟨⟨q, rfl⟩, ⟨r, rfl⟩⟩).elim
    | var k =>
      obtain ⟨c, hc, hb, _, hp⟩ := cmpVar_spec hg (flip op) k hv hq
      exact ⟨c, hc, hb, fun n p => by rw [hp, rel_flip]; rfl⟩
    | eqn b =>
      obtain ⟨c, hc, _, hp⟩ := cmpEqn_spec hg (flip op) (hg.deref hw) hv hq
      exact ⟨.lin c, hc, by simp, fun n p => by simp only [ConHolds]; rw [hp, rel_flip]; rfl⟩
    | none => exact hw.elim
  | var k =>
    obtain ⟨c, hc, hb, _, hp⟩ := cmpVar_spec hg op k hw (hr.resolve_left (by simp [Val.IsNum]))
    exact ⟨c, hc, hb, hp⟩
  | eqn a =>
    obtain ⟨c, hc, _, hp⟩ := cmpEqn_spec hg op (hg.deref hv) hw (hr.resolve_left (by simp [Val.IsNum]))
    exact ⟨.lin c, hc, by simp, fun n p => hp p⟩
  | none => exact hv.elim

/-- A case of `C62_partial`: `x[1] <= 3 * x[2] + 4`, with the heap holding the two sides. -/
example : let h : Heap := [⟨[(0, 1)], 0⟩, ⟨[(1, 3)], 4⟩]
    Good h ∧ (Val.eqn 0).Ok h ∧ (Val.eqn 1).Ok h ∧ ¬ ((Val.eqn 0).IsNum ∧ (Val.eqn 1).IsNum) ∧
      ∀ k, Val.eqn 1 ≠ .var k := by
  refine ⟨?_, by simp [Val.Ok], by simp [Val.Ok], by simp [Val.IsNum], by simp⟩
  intro e he
  simp only [List.mem_cons, List.not_mem_nil, or_false] at he
  rcases he with rfl | rfl <;> simp [Dict.WF, Dict.keys]

/-- C62 for the class itself: `x >= 0` and `x <= 0` hold at the points all whose coordinates have that sign, and
`x >= q`, `x <= q` raise `ValueError` for every other number; `x == q` is the truth value `False`. -/
theorem C62_class (n : ℕ) :
    (∃ c, compareX .ge 0 = .ok c ∧ ∀ p, ConHolds n p c ↔ ∀ j < n, 0 ≤ p j) ∧
    (∃ c, compareX .le 0 = .ok c ∧ ∀ p, ConHolds n p c ↔ ∀ j < n, p j ≤ 0) ∧
    (∀ q, q ≠ 0 → compareX .ge q = .error .valueError ∧ compareX .le q = .error .valueError) ∧
    ∀ q, ∃ c, compareX .eq q = .ok c ∧ ∀ p, ¬ ConHolds n p c := by
  refine ⟨⟨_, rfl, fun p => ?_⟩, ⟨_, rfl, fun p => ?_⟩, fun q hq => ?_, fun q => ⟨.bool false, ?_, by simp [ConHolds]⟩⟩
  · simp [ConHolds, SignHolds]
  · simp [ConHolds, SignHolds]
  · simp [compareX, hq]
  · simp [compareX]

/-- C62 for whole expressions: `e <= f`, `e >= f`, `e == f` produce a constraint satisfied by exactly the points
where the comparison of the values of `e` and `f` holds. Missing: as in `C61_partial` and `C62_partial`. -/
theorem C62_expr_partial {h : Heap} (hg : Good h) (op : Ineq) {e f : Expr} (he : e.Linear) (hf : f.Linear)
    (hr : (e.refs ++ f.refs).Nodup) (hlt : ∀ a ∈ e.refs ++ f.refs, a < h.length)
    (hpe : e.Plain h) (hpf : f.Plain h) (hn : ¬ (e.isNum ∧ f.isNum)) (hv : e.isNum ∨ ∀ k, f ≠ .var k) :
    ∃ h' c, compareExpr h op e f = .ok (h', c) ∧ Good h' ∧ (∀ b, c ≠ .bool b) ∧
      ∀ n p, ConHolds n p c ↔ rel op (e.at h p) (f.at h p) := by
  obtain ⟨h1, v, h2, w, hse, hef, hsf, hvok, hd, hnw, l1, c1, l2, c2⟩ := evalPair hr hlt
    (eval_spec hg he (List.nodup_append.mp hr).1 fun a ha => hlt a (List.mem_append.mpr (Or.inl ha)))
    (fun k hk hk' => eval_spec hk hf (List.nodup_append.mp hr).2.1 hk')
  obtain ⟨c, hc, hb, hp⟩ := C62_partial hsf.good op hvok hsf.ok (by rwa [hse.num, hnw])
    (hv.imp hse.num.mpr fun h k hk => by subst hk; exact h k (eval_var hef))
  refine ⟨h2, c, by simp only [compareExpr, hse.run, hef, hc], hsf.good, hb, fun n p => ?_⟩
  have e1 : v.at h2 p = e.at h p := by
    have := l1 p; have := c1 hpe; unfold Val.lin Val.cst at *; linarith
  have e2 : w.at h2 p = f.at h p := by
    have := l2 p; have := c2 hpf; unfold Val.lin Val.cst at *; linarith
  rw [hp, e1, e2]

/-- C62 is false for a `Variable` on the right: `e <= v`, `u <= v` and their kind raise `AttributeError`. -/
theorem C62_variable_wrong (h : Heap) (op : Ineq) (a j k : ℕ) :
    compare h op (.eqn a) (.var k) = .error .attributeError ∧
    compare h op (.var j) (.var k) = .error .attributeError := by
  refine ⟨rfl, ?_⟩
  cases op <;> rfl

/-- C62 is false for an equation without terms on the left: `LinearEquation({}, 3) <= x[1]` builds the constraint
`x[1] <= -3`. -/
theorem C62_no_terms_wrong : ∃ c, generate .le ⟨[], 3⟩ ⟨[(0, 1)], 0⟩ = .ok c ∧
    ∃ p, ¬ (c.Holds p ↔ rel .le ((⟨[], 3⟩ : Eqn).at p) ((⟨[(0, 1)], 0⟩ : Eqn).at p)) := by
  refine ⟨⟨[1], .le, -3⟩, by decide +kernel, fun _ => 4, ?_⟩
  simp [LinCon.Holds, rel, dot, Eqn.at, evalTerms]
  norm_num

/-! ### C63 -/

/-- C63, the equations not mentioned: evaluating an expression changes no equation whose name does not occur in
it. Missing: the equations that do occur, see `C63_add_wrong` and the others below. -/
theorem C63_partial {h : Heap} (hg : Good h) {e : Expr} (hl : e.Linear) (hr : e.refs.Nodup)
    (hlt : ∀ a ∈ e.refs, a < h.length) {h' : Heap} {w : Val} (he : eval h e = .ok (h', w))
    {a : ℕ} (ha : a < h.length) (hn : a ∉ e.refs) : deref h' a = deref h a := by
  obtain ⟨h1, v, hs⟩ := eval_spec hg hl hr hlt
  rw [hs.run] at he
  cases he
  exact hs.step.frame a ha hn

/-- C63, part 2: `e + w` changes no equation except `e`, whatever `w` is; in particular not the right operand. -/
theorem C63_add_partial (h : Heap) (a : ℕ) (w : Val) {b : ℕ} (hb : b ≠ a) :
    ∃ h' u, opAdd h (.eqn a) w = .ok (h', u) ∧ deref h' b = deref h b := by
  refine ⟨_, _, rfl, ?_⟩
  cases w with
  | none => rfl
  | num q => exact deref_set_ne hb.symm _
  | var k => exact deref_set_ne hb.symm _
  | eqn c => exact deref_set_ne hb.symm _

/-- C63, part 3: operators with no equation among their operands change nothing that exists, and `+e` changes
nothing. -/
theorem C63_fresh_partial {h : Heap} (hg : Good h) {v w : Val} (hv : v.Ok h) (hw : w.Ok h)
    (hv' : ∀ a, v ≠ .eqn a) (hw' : ∀ a, w ≠ .eqn a) {b : ℕ} (hb : b < h.length) :
    (∃ h' u, opAdd h v w = .ok (h', u) ∧ deref h' b = deref h b) ∧
    (∃ h' u, opSub h v w = .ok (h', u) ∧ deref h' b = deref h b) ∧
    (∀ a, opPos h (.eqn a) = .ok (h, .eqn a)) := by
  refine ⟨?_, ?_, fun a => rfl⟩
  · obtain ⟨h', u, he, hs, _⟩ := opAdd_spec hg hv hw
    exact ⟨h', u, he, hs.frame b hb (by rintro (h | h); exacts [hv' b h, hw' b h.2])⟩
  · obtain ⟨h', u, he, hs, _⟩ := opSub_spec hg hv hw fun a ha => (hv' a ha).elim
    exact ⟨h', u, he, hs.frame b hb (by rintro (h | h); exacts [hv' b h, hw' b h])⟩

/-- C63 is false for `e + f`: afterwards `e` means `e + f` up to the constant, so its meaning has changed unless `f`
is constant. -/
theorem C63_add_wrong {h : Heap} (hg : Good h) {a b : ℕ} (ha : a < h.length) (hb : b < h.length) :
    ∃ h', opAdd h (.eqn a) (.eqn b) = .ok (h', .eqn a) ∧
      (∀ p, (deref h' a).at p = (deref h a).at p + ((deref h b).at p - (deref h b).const)) ∧
      ((∃ p, (deref h b).at p ≠ (deref h b).const) → ∃ p, (deref h' a).at p ≠ (deref h a).at p) := by
  have key : ∀ p, (deref (addEqn h a (.eqn b)).1 a).at p
      = (deref h a).at p + ((deref h b).at p - (deref h b).const) := by
    intro p
    simp only [addEqn]
    rw [deref_set_self ha]
    simp only [Eqn.at, evalTerms_foldl]
    ring
  refine ⟨(addEqn h a (.eqn b)).1, rfl, key, ?_⟩
  rintro ⟨p, hp⟩
  exact ⟨p, fun h0 => hp (by have := key p; linarith)⟩

/-- C63 is false for `-e`: the equation itself is negated. -/
theorem C63_neg_wrong {h : Heap} {a : ℕ} (ha : a < h.length) :
    ∃ h', opNeg h (.eqn a) = .ok (h', .eqn a) ∧
      ∀ p, (deref h' a).at p = -((deref h a).at p - (deref h a).const) + (deref h a).const := by
  refine ⟨_, rfl, fun p => ?_⟩
  rw [deref_set_self ha]
  simp only [Eqn.at, evalTerms_neg]
  ring

/-- C63 is false for `k * e`: the equation itself is scaled. -/
theorem C63_scale_wrong {h : Heap} {a : ℕ} (ha : a < h.length) (q : ℚ) :
    ∃ h', opMul h (.num q) (.eqn a) = .ok (h', .eqn a) ∧
      ∀ p, (deref h' a).at p = ((deref h a).at p - (deref h a).const) * q + (deref h a).const := by
  refine ⟨_, rfl, fun p => ?_⟩
  rw [deref_set_self ha]
  simp only [Eqn.at, evalTerms_scale]
  ring

/-- C63 is false for `e - f`: `f` is negated as well. -/
theorem C63_sub_wrong {h : Heap} (hg : Good h) {a b : ℕ} (ha : a < h.length) (hb : b < h.length) (hab : a ≠ b) :
    ∃ h', opSub h (.eqn a) (.eqn b) = .ok (h', .eqn a) ∧
      ∀ p, (deref h' b).at p = -((deref h b).at p - (deref h b).const) + (deref h b).const := by
  refine ⟨_, rfl, fun p => ?_⟩
  rw [deref_set_ne hab, deref_set_self hb]
  simp only [Eqn.at, evalTerms_neg]
  ring

/-- C63 and C61 are false for `e - e`: the result depends on the point like `-2 e`. -/
theorem C63_self_wrong {h : Heap} {a : ℕ} (ha : a < h.length) :
    ∃ h', opSub h (.eqn a) (.eqn a) = .ok (h', .eqn a) ∧
      ∀ p, (deref h' a).at p = -2 * ((deref h a).at p - (deref h a).const) + (deref h a).const := by
  refine ⟨_, rfl, fun p => ?_⟩
  rw [deref_set_self (by simpa using ha), deref_set_self ha]
  simp only [Eqn.at, evalTerms_foldl, evalTerms_neg]
  ring

/-- A case of the last theorems: two equations with terms. -/
example : let h : Heap := [⟨[(0, 1)], 0⟩, ⟨[(1, 3)], 4⟩]
    Good h ∧ 0 < h.length ∧ 1 < h.length ∧ ∃ p, (deref h 1).at p ≠ (deref h 1).const := by
  refine ⟨?_, by simp, by simp, fun _ => 1, by simp [Eqn.at, deref, evalTerms]⟩
  intro e he
  simp only [List.mem_cons, List.not_mem_nil, or_false] at he
  rcases he with rfl | rfl <;> simp [Dict.WF, Dict.keys]

end Props
end Pytimize
