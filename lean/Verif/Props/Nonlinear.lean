import Verif.Formulation.Nonlinear

/-!
# Products of variables are not dropped silently (C125)

The claim is false: a product of two expressions with variables is `None`, and adding `None` to an equation leaves
the equation alone, so `x[1] + x[1] * x[2]` is `x[1]`. Proved: what every expression evaluates to (`C125_shape`),
which terms are kept (`C125_kept_partial`), and that a product on its own as an objective or as a side of a
comparison is rejected (`C125_alone_partial`).
-/

namespace Pytimize
namespace Props
open LinProg (Ineq Obj)
open Formulation

/-- C125, what comes out: for every expression, linear or not, and whatever the names stand for, evaluation raises
exactly the exception and returns exactly the kind of value that the rules of `Expr.shape` say. -/
theorem C125_shape (h : Heap) (e : Expr) : (eval h e).map (fun r => r.2.shape) = e.shape := eval_shape h e

/-- The rules in cases: a number times a product, a signed product and a subtracted product raise `TypeError`; an
added product and a product from which something is subtracted do not. -/
example : (Expr.mul (.num 2) (.mul (.x 1) (.x 2))).shape = .error .typeError ∧
    (Expr.neg (.mul (.x 1) (.x 2))).shape = .error .typeError ∧
    (Expr.sub (.x 1) (.mul (.x 1) (.x 2))).shape = .error .typeError ∧
    (Expr.add (.num 1) (.mul (.x 1) (.x 2))).shape = .error .typeError ∧
    (Expr.add (.mul (.x 1) (.x 2)) (.x 1)).shape = .ok .lin ∧
    (Expr.sub (.mul (.x 1) (.x 2)) (.x 1)).shape = .ok .lin ∧
    (Expr.mul (.var 0) (.var 1)).shape = .ok .nothing ∧
    (Expr.mul (.mul (.var 0) (.var 1)) (.var 2)).shape = .ok .nothing := by decide +kernel

/-- C125, what is kept: the value of an expression that is accepted has the terms that are left when the products
are struck out. Missing: products should raise. Each name may be used once, as in `C61_linear_partial`. -/
theorem C125_kept_partial {h : Heap} (hg : Good h) {e : Expr} (hr : e.refs.Nodup) (hlt : ∀ a ∈ e.refs, a < h.length)
    {h' : Heap} {w : Val} (he : eval h e = .ok (h', w)) :
    Good h' ∧ (∀ p, w.at h' p - w.at h' (fun _ => 0) = e.kept h p) ∧
      ∀ b < h.length, b ∉ e.refs → deref h' b = deref h b :=
  have hk := eval_kept hg hr hlt he
  ⟨hk.step.good, hk.lin, hk.step.frame⟩

/-- A case: `2 * x[1] + a * x[2]` for a name `a` keeps `2 x[1]`. -/
example : ∃ h' w, eval [⟨[(2, 5)], 1⟩] (.add (.mul (.num 2) (.x 1)) (.mul (.ref 0) (.x 2))) = .ok (h', w) ∧
    Good [⟨[(2, 5)], 1⟩] ∧
    ∀ p, (Expr.add (.mul (.num 2) (.x 1)) (.mul (.ref 0) (.x 2))).kept [⟨[(2, 5)], 1⟩] p = 2 * p 0 :=
  ⟨[⟨[(2, 5)], 1⟩, ⟨[(0, 2)], 0⟩, ⟨[(1, 1)], 0⟩], .eqn 1, by decide +kernel,
    (fun e he => by rw [List.mem_singleton.mp he]; exact single_good 2 5),
    fun p => by simp [Expr.kept, Expr.isNum, Expr.at]⟩

/-- Products keep their exact meaning in one case: none is used. Then what is kept is the linear part of the
expression as the user reads it. -/
theorem C125_linear {h : Heap} {e : Expr} (hl : e.Linear) (p : Point) :
    e.kept h p = e.at h p - e.at h fun _ => 0 := by
  induction e with
  | num q => simp [Expr.kept, Expr.at]
  | x i => simp [Expr.kept, Expr.at]
  | var k => simp [Expr.kept, Expr.at]
  | ref a => simp [Expr.kept, Expr.at, Eqn.at, evalTerms_zero]
  | pos e ih => exact ih hl
  | neg e ih => simp only [Expr.kept, Expr.at]; rw [ih hl]; ring
  | add e f ih1 ih2 | sub e f ih1 ih2 => simp only [Expr.kept, Expr.at]; rw [ih1 hl.1, ih2 hl.2]; ring
  | mul e f ih1 ih2 =>
    simp only [Expr.kept, Expr.at]
    by_cases he : e.isNum
    · rw [if_pos he, ih2 hl.2.1, Expr.at_num he [] h p p, Expr.at_num he h h (fun _ => 0) p]; ring
    · have hf : f.isNum := hl.2.2.resolve_left he
      rw [if_neg he, if_pos hf, ih1 hl.1, Expr.at_num hf [] h p p, Expr.at_num hf h h (fun _ => 0) p]; ring

example : (Expr.sub (.mul (.num 2) (.x 1)) (.mul (.x 3) (.num 4))).Linear := by
  simp [Expr.Linear, Expr.isNum]

/-- C125 is false: for any three expressions with variables, `e + f * g` is accepted and has the terms of `e`. -/
theorem C125_dropped_wrong {h : Heap} (hg : Good h) {e f g : Expr} {s t u : Shape}
    (he : e.shape = .ok s) (hf : f.shape = .ok t) (hq : g.shape = .ok u)
    (hs : s.Symbolic) (ht : t.Symbolic) (hu : u.Symbolic)
    (hr : (e.refs ++ (f.refs ++ g.refs)).Nodup) (hlt : ∀ a ∈ e.refs ++ (f.refs ++ g.refs), a < h.length) :
    ∃ h' a, eval h (.add e (.mul f g)) = .ok (h', .eqn a) ∧
      ∀ p, (deref h' a).at p - (deref h' a).const = e.kept h p := by
  have hsh : (Expr.add e (.mul f g)).shape = .ok .lin := by
    simp only [Expr.shape, he, hf, hq]
    revert hs ht hu
    cases s <;> cases t <;> cases u <;> decide
  have h1 := eval_shape h (.add e (.mul f g))
  rw [hsh] at h1
  rcases hv : eval h (.add e (.mul f g)) with r | ⟨h', w⟩
  · rw [hv] at h1; cases h1
  · rw [hv] at h1
    have h2 : w.shape = .lin := by injection h1
    have hk := eval_kept hg (e := .add e (.mul f g)) hr hlt hv
    cases w with
    | eqn a =>
      refine ⟨h', a, rfl, fun p => ?_⟩
      have h3 := hk.lin p
      rw [lin_eqn] at h3
      have hn : ∀ {e : Expr} {s : Shape}, e.shape = .ok s → s.Symbolic → e.isNum ≠ true := by
        intro e s he hs hn
        rw [← shape_isNum he] at hn
        subst hn
        rcases hs with h | h <;> cases h
      simp only [Expr.kept, if_neg (hn hf ht), if_neg (hn hq hu)] at h3
      simp only [Eqn.at]
      rw [h3]; ring
    | _ => cases h2

/-- A case of the last theorem: `x[1] + x[1] * x[2]` is `x[1]`, which is not what it says at the point `(1, 1)`. -/
example : ∃ h' a, eval [] (.add (.x 1) (.mul (.x 1) (.x 2))) = .ok (h', .eqn a) ∧
    (deref h' a).at (fun _ => 1) = 1 ∧ (Expr.add (.x 1) (.mul (.x 1) (.x 2))).at [] (fun _ => 1) = 2 :=
  ⟨[⟨[(0, 1)], 0⟩, ⟨[(0, 1)], 0⟩, ⟨[(1, 1)], 0⟩], 0, by decide +kernel, by decide +kernel, by decide +kernel⟩

/-- C125 is false for whole formulations: maximising `x[1] + x[1] * x[2]` subject to `x[1] + x[2] * x[2] <= 4`
builds the program that maximises `x[1]` subject to `x[1] <= 4`. -/
theorem C125_program_wrong : ∃ P : Abstract,
    formulate .linear .max [] (.add (.x 1) (.mul (.x 1) (.x 2)))
      [(.le, .add (.x 1) (.mul (.x 2) (.x 2)), .num 4)] = .ok P ∧
    formulate .linear .max [] (.x 1) [(.le, .x 1, .num 4)] = .ok P :=
  ⟨⟨[[1]], [4], [1], 0, .max, [.le], [], [], none, false⟩, by with_unfolding_all rfl, by with_unfolding_all rfl⟩

/-! ### A product on its own -/

/-- Comparing values without variables gives a truth value: numbers are compared, and a product (`None`) equals
only a product and cannot be ordered. Comparing a product with a value with variables raises `AttributeError`. -/
theorem C125_compare (h : Heap) (op : Ineq) :
    (∀ p q, ∃ b, Formulation.compare h op (.num p) (.num q) = .ok (.bool b) ∧ (b = true ↔ rel op p q)) ∧
    (∀ q, Formulation.compare h op .none (.num q) = if op = .eq then .ok (.bool false) else .error .typeError) ∧
    (∀ q, Formulation.compare h op (.num q) .none = if op = .eq then .ok (.bool false) else .error .typeError) ∧
    (Formulation.compare h op .none .none = if op = .eq then .ok (.bool true) else .error .typeError) ∧
    ∀ v : Val, v.shape.Symbolic →
      Formulation.compare h op .none v = .error .attributeError ∧ Formulation.compare h op v .none = .error .attributeError := by
  refine ⟨fun p q => ⟨relB op p q, rfl, ?_⟩, fun q => rfl, fun q => rfl, rfl, fun v hv => ?_⟩
  · cases op <;> simp [relB, rel]
  · cases v with
    | num q => rcases hv with h | h <;> cases h
    | none => rcases hv with h | h <;> cases h
    | eqn a => exact ⟨rfl, rfl⟩
    | var k => cases op <;> exact ⟨rfl, rfl⟩

theorem compare_none {h : Heap} {op : Ineq} {v w : Val} (hn : v = .none ∨ w = .none) {c : Con}
    (hc : Formulation.compare h op v w = .ok c) : ∃ b, c = .bool b := by
  obtain ⟨_, h1, h2, h3, h4⟩ := C125_compare h op
  rcases hn with rfl | rfl
  · cases w with
    | num q => rw [h1] at hc; split at hc <;> cases hc; exact ⟨_, rfl⟩
    | none => rw [h3] at hc; split at hc <;> cases hc; exact ⟨_, rfl⟩
    | eqn a => rw [(h4 (.eqn a) (Or.inr rfl)).1] at hc; cases hc
    | var a => rw [(h4 (.var a) (Or.inl rfl)).1] at hc; cases hc
  · cases v with
    | num q => rw [h2] at hc; split at hc <;> cases hc; exact ⟨_, rfl⟩
    | none => rw [h3] at hc; split at hc <;> cases hc; exact ⟨_, rfl⟩
    | eqn a => rw [(h4 (.eqn a) (Or.inr rfl)).2] at hc; cases hc
    | var a => rw [(h4 (.var a) (Or.inl rfl)).2] at hc; cases hc

theorem shape_of_eval {h : Heap} {e : Expr} {h' : Heap} {v : Val} (he : eval h e = .ok (h', v)) :
    e.shape = .ok v.shape := by
  rw [← eval_shape h e, he]; rfl

theorem shape_nothing {v : Val} (hv : v.shape = .nothing) : v = .none := by cases v <;> first | rfl | cases hv

theorem linOnly_bool {l : List Con} {b : Bool} (hb : Con.bool b ∈ l) : linOnly l = .error .attributeError := by
  induction l with
  | nil => cases hb
  | cons c l ih =>
    rcases List.mem_cons.mp hb with h | h
    · subst h; rfl
    · cases c with
      | lin c => simp only [linOnly, ih h]
      | _ => rfl

theorem evalCons_none {h : Heap} {cons : List (Ineq × Expr × Expr)} {op : Ineq} {e f : Expr}
    (hm : (op, e, f) ∈ cons) (hn : e.shape = .ok .nothing ∨ f.shape = .ok .nothing) {h' : Heap} {cs : List Con}
    (hc : evalCons h cons = .ok (h', cs)) : ∃ b, Con.bool b ∈ cs := by
  induction cons generalizing h cs with
  | nil => cases hm
  | cons t l ih =>
    obtain ⟨op', e', f'⟩ := t
    simp only [evalCons] at hc
    rcases hx : compareExpr h op' e' f' with r | ⟨h1, c⟩
    · rw [hx] at hc; cases hc
    · rw [hx] at hc
      simp only at hc
      rcases hy : evalCons h1 l with r | ⟨h2, cs'⟩
      · rw [hy] at hc; cases hc
      · rw [hy] at hc
        cases hc
        rcases List.mem_cons.mp hm with heq | hm
        · cases heq
          simp only [compareExpr] at hx
          rcases ha : eval h e with r | ⟨k1, v⟩
          · rw [ha] at hx; cases hx
          · rw [ha] at hx
            simp only at hx
            rcases hb : eval k1 f with r | ⟨k2, w⟩
            · rw [hb] at hx; cases hx
            · rw [hb] at hx
              simp only at hx
              rcases hcm : Formulation.compare k2 op v w with r | d
              · rw [hcm] at hx; cases hx
              · rw [hcm] at hx
                cases hx
                obtain ⟨b, rfl⟩ := compare_none (by
                  refine hn.imp (fun h => ?_) (fun h => ?_)
                  · rw [shape_of_eval ha] at h; injection h with h; exact shape_nothing h
                  · rw [shape_of_eval hb] at h; injection h with h; exact shape_nothing h) hcm
                exact ⟨b, List.mem_cons_self⟩
        · obtain ⟨b, hb⟩ := ih hm hy
          exact ⟨b, List.mem_cons_of_mem _ hb⟩

/-- C125, a product on its own is never accepted: a formulation whose objective, or a side of one of whose
comparisons, is a product of two expressions with variables (or a product of such products) raises. Missing:
products that are summands. -/
theorem C125_alone_partial (pk : Package) (o : Obj) (h : Heap) (obj : Expr) (cons : List (Ineq × Expr × Expr))
    (hn : obj.shape = .ok .nothing ∨
      ∃ c ∈ cons, c.2.1.shape = .ok .nothing ∨ c.2.2.shape = .ok .nothing) :
    ∃ r, formulate pk o h obj cons = .error r := by
  simp only [formulate]
  rcases hv : eval h obj with r | ⟨h1, v⟩
  · exact ⟨r, rfl⟩
  rcases hO : optimize pk o h1 v with r | O
  · exact ⟨r, by simp only [hO]⟩
  rcases hc : evalCons h1 cons with r | ⟨h2, cs⟩
  · exact ⟨r, by simp only [hO, hc]⟩
  rcases hn with hn | ⟨⟨op, e, f⟩, hm, hn⟩
  · rw [shape_of_eval hv] at hn
    injection hn with hn
    rw [shape_nothing hn] at hO
    cases hO
  · obtain ⟨b, hb⟩ := evalCons_none hm hn hc
    exact ⟨.attributeError, by simp only [hO, hc, subjectTo, linOnly_bool hb]⟩

/-- A case: `maximize(x[1]).subject_to(x[1] * x[2] == 4)`, where the comparison itself does not raise. -/
example : (Expr.mul (.x 1) (.x 2)).shape = .ok .nothing ∧
    compareExpr [] .eq (.mul (.x 1) (.x 2)) (.num 4) = .ok ([⟨[(0, 1)], 0⟩, ⟨[(1, 1)], 0⟩], .bool false) ∧
    formulate .linear .max [] (.x 1) [(.eq, .mul (.x 1) (.x 2), .num 4)] = .error .attributeError :=
  ⟨by decide +kernel, by with_unfolding_all rfl, by with_unfolding_all rfl⟩

end Props
end Pytimize
