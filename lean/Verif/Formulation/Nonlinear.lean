import Verif.Formulation.EquationProof
import Verif.Formulation.Program

/-!
# Products of variables

What the operators of `_equation.py` and `_variable.py` do to expressions that are not linear: a specification of
which expressions evaluate to what, and of the terms that are kept.
-/

namespace Pytimize
namespace Formulation

/-! ### Specification -/

/-- What an expression can evaluate to: a number, a `Variable`, an equation, or `None`. -/
inductive Shape
  | num
  | var
  | lin
  | nothing
  deriving DecidableEq

/-- A value with variables in it. -/
def Shape.Symbolic (s : Shape) : Prop := s = .var ∨ s = .lin

instance (s : Shape) : Decidable s.Symbolic := inferInstanceAs (Decidable (_ ∨ _))

/-- Of a sum: a number if both summands are, `TypeError` if no summand has variables, otherwise an equation. -/
def Shape.plus (s t : Shape) : Except PyErr Shape :=
  if s = .num ∧ t = .num then .ok .num
  else if s.Symbolic ∨ t.Symbolic then .ok .lin
  else .error .typeError

/-- Of a difference: as of a sum, but `None` cannot be negated. A left operand without variables leaves the
subtraction to the right operand, so `None - e` is allowed. -/
def Shape.minus (s t : Shape) : Except PyErr Shape :=
  if s = .num ∧ t = .num then .ok .num
  else if t.Symbolic ∨ s.Symbolic ∧ t = .num then .ok .lin
  else .error .typeError

/-- Of a product: `None` if one factor has variables and the other is not a number. -/
def Shape.times (s t : Shape) : Except PyErr Shape :=
  if s = .num ∧ t = .num then .ok .num
  else if s.Symbolic ∧ t = .num ∨ s = .num ∧ t.Symbolic then .ok .lin
  else if s.Symbolic ∨ t.Symbolic then .ok .nothing
  else .error .typeError

/-- Of a signed expression. -/
def Shape.signed : Shape → Except PyErr Shape
  | .num => .ok .num
  | .nothing => .error .typeError
  | _ => .ok .lin

/-- What an expression evaluates to, or the exception. -/
def Expr.shape : Expr → Except PyErr Shape
  | .num _ => .ok .num
  | .x i => if i < 1 then .error .valueError else .ok .lin
  | .var _ => .ok .var
  | .ref _ => .ok .lin
  | .pos e => do (← e.shape).signed
  | .neg e => do (← e.shape).signed
  | .add e f => do (← e.shape).plus (← f.shape)
  | .sub e f => do (← e.shape).minus (← f.shape)
  | .mul e f => do (← e.shape).times (← f.shape)

/-- The variables with their coefficients that are left of an expression when products of two expressions with
variables are struck out. -/
def Expr.kept (h : Heap) (p : Point) : Expr → ℚ
  | .num _ => 0
  | .x i => p (i - 1).toNat
  | .var k => p k
  | .ref a => evalTerms (deref h a).terms p
  | .pos e => e.kept h p
  | .neg e => -e.kept h p
  | .add e f => e.kept h p + f.kept h p
  | .sub e f => e.kept h p - f.kept h p
  | .mul e f =>
    if e.isNum then e.at [] p * f.kept h p else if f.isNum then e.kept h p * f.at [] p else 0

/-! ### Shapes -/

/-- The shape of a value. -/
def Val.shape : Val → Shape
  | .num _ => .num
  | .var _ => .var
  | .eqn _ => .lin
  | .none => .nothing

theorem opPos_shape (h : Heap) (v : Val) : (opPos h v).map (fun r => r.2.shape) = v.shape.signed := by
  cases v <;> rfl

theorem opNeg_shape (h : Heap) (v : Val) : (opNeg h v).map (fun r => r.2.shape) = v.shape.signed := by
  cases v <;> rfl

theorem addEqn_shape (h : Heap) (a : ℕ) (w : Val) : (addEqn h a w).2 = .eqn a := by cases w <;> rfl

theorem addVar_shape (h : Heap) (k : ℕ) (w : Val) : (addVar h k w).2 = .eqn h.length := addEqn_shape _ _ _

theorem opAdd_shape (h : Heap) (v w : Val) :
    (opAdd h v w).map (fun r => r.2.shape) = v.shape.plus w.shape := by
  cases v <;> cases w <;>
    simp [opAdd, Except.map, Val.shape, Shape.plus, Shape.Symbolic, addEqn_shape, addVar_shape]

theorem opSub_shape (h : Heap) (v w : Val) :
    (opSub h v w).map (fun r => r.2.shape) = v.shape.minus w.shape := by
  cases v <;> cases w <;>
    simp [opSub, opNeg, Except.map, Val.shape, Shape.minus, Shape.Symbolic, addEqn_shape, addVar_shape]

theorem opMul_shape (h : Heap) (v w : Val) :
    (opMul h v w).map (fun r => r.2.shape) = v.shape.times w.shape := by
  cases v <;> cases w <;>
    simp [opMul, mulEqn, mulVar, alloc, Except.map, Val.shape, Shape.times, Shape.Symbolic]

theorem eval_shape (h : Heap) (e : Expr) : (eval h e).map (fun r => r.2.shape) = e.shape := by
  induction e generalizing h with
  | num q => rfl
  | x i =>
    simp only [eval, indexX, Expr.shape]
    by_cases hi : i < 1
    · rw [if_pos (show i ≤ 0 by omega), if_pos hi]; rfl
    · rw [if_neg (show ¬ i ≤ 0 by omega), if_neg hi]; rfl
  | var k => rfl
  | ref a => rfl
  | pos e ih | neg e ih =>
    have h1 := ih h
    simp only [eval, Expr.shape]
    rw [← h1]
    rcases eval h e with r | ⟨h1, v⟩
    · rfl
    · first | exact opPos_shape h1 v | exact opNeg_shape h1 v
  | add e f ih1 ih2 | sub e f ih1 ih2 | mul e f ih1 ih2 =>
    have h1 := ih1 h
    simp only [eval, Expr.shape]
    rw [← h1]
    rcases eval h e with r | ⟨h1, v⟩
    · rfl
    · have h2 := ih2 h1
      rw [← h2]
      rcases hf : eval h1 f with r | ⟨h2, w⟩
      · simp only [hf]; rfl
      · simp only [hf]
        first | exact opAdd_shape h2 v w | exact opSub_shape h2 v w | exact opMul_shape h2 v w

theorem shape_isNum {e : Expr} {s : Shape} (he : e.shape = .ok s) : s = .num ↔ e.isNum := by
  induction e generalizing s with
  | num q => cases he; simp [Expr.isNum]
  | x i =>
    simp only [Expr.shape] at he
    split at he
    · cases he
    · cases he; simp [Expr.isNum]
  | var k => cases he; simp [Expr.isNum]
  | ref a => cases he; simp [Expr.isNum]
  | pos e ih | neg e ih =>
    simp only [Expr.shape] at he
    rcases hs : e.shape with r | t
    · rw [hs] at he; cases he
    · rw [hs] at he
      have := ih hs
      simp only [Expr.isNum]
      rw [← this]
      cases t <;> cases he <;> simp
  | add e f ih1 ih2 | sub e f ih1 ih2 | mul e f ih1 ih2 =>
    simp only [Expr.shape] at he
    rcases hs : e.shape with r | t
    · rw [hs] at he; cases he
    · rcases hs' : f.shape with r | t'
      · rw [hs, hs'] at he; cases he
      · rw [hs, hs'] at he
        simp only [Expr.isNum, Bool.and_eq_true]
        rw [← ih1 hs, ← ih2 hs']
        have he : (do t.plus t') = Except.ok s ∨ t.minus t' = Except.ok s ∨ t.times t' = Except.ok s := by
          first | exact Or.inl he | exact Or.inr (Or.inl he) | exact Or.inr (Or.inr he)
        revert he
        cases t <;> cases t' <;> cases s <;> decide

/-! ### The terms that are kept -/

theorem Expr.kept_frame {h h' : Heap} {e : Expr} (hf : ∀ a ∈ e.refs, deref h' a = deref h a) (p : Point) :
    e.kept h' p = e.kept h p := by
  induction e with
  | num q => rfl
  | x i => rfl
  | var k => rfl
  | ref a => simp only [Expr.kept]; rw [hf a (by simp [Expr.refs])]
  | pos e ih => exact ih hf
  | neg e ih => simp only [Expr.kept]; rw [ih hf]
  | add e f ih1 ih2 | sub e f ih1 ih2 | mul e f ih1 ih2 =>
    simp only [Expr.refs, List.mem_append] at hf
    simp only [Expr.kept]
    rw [ih1 fun a ha => hf a (Or.inl ha), ih2 fun a ha => hf a (Or.inr ha)]

/-- The value with `None` replaced by a number, which like `None` refers to no object. -/
def Val.solid : Val → Val
  | .none => .num 0
  | v => v

theorem Val.solid_lin (h : Heap) (v : Val) (p : Point) : v.solid.lin h p = v.lin h p := by
  cases v <;> simp [Val.solid, Val.lin, Val.at]

theorem Val.solid_eqn {v : Val} {a : ℕ} : v.solid = .eqn a ↔ v = .eqn a := by
  cases v <;> simp [Val.solid]

theorem lin_none (h : Heap) (p : Point) : Val.none.lin h p = 0 := by simp [Val.lin, Val.at]

/-- What evaluation guarantees of any expression. -/
structure KeptSpec (h : Heap) (e : Expr) (h' : Heap) (w : Val) : Prop where
  step : Step h (· ∈ e.refs) h' w.solid
  lin : ∀ p, w.lin h' p = e.kept h p
  num : w.IsNum ↔ e.isNum
  val : ∀ q, w = .num q → ∀ k p, e.at k p = q

theorem solid_of_ok {h : Heap} {v : Val} (hv : v.solid.Ok h) (hn : v ≠ .none) : v.Ok h := by
  cases v <;> first | exact hv | exact (hn rfl).elim

theorem solid_self {v : Val} (hn : v ≠ .none) : v.solid = v := by
  cases v <;> first | rfl | exact (hn rfl).elim

theorem Step.solid {h : Heap} {u : ℕ → Prop} {h' : Heap} {w : Val} (hs : Step h u h' w) : Step h u h' w.solid := by
  have hn : w ≠ .none := by rintro rfl; exact hs.ok
  rw [solid_self hn]; exact hs

theorem opAdd_kept {h : Heap} (hg : Good h) {v w : Val} (hv : v.solid.Ok h) (hw : w.solid.Ok h) {h' : Heap} {u : Val}
    (hu : opAdd h v w = .ok (h', u)) :
    Step h (fun a => v.solid.Is a ∨ w.solid.Is a) h' u.solid ∧ (u.IsNum ↔ v.IsNum ∧ w.IsNum) ∧
      ∀ p, u.lin h' p = v.lin h p + w.lin h p := by
  by_cases hvn : v = .none
  · subst hvn
    cases w with
    | num q => cases hu
    | none => cases hu
    | eqn b =>
      cases hu
      exact ⟨Step.same hg hw fun a ha => Or.inr ha, by simp [Val.IsNum], fun p => by rw [lin_none]; ring⟩
    | var k =>
      cases hu
      refine ⟨Step.alloc hg _ (single_good k 1), by simp [Val.IsNum], fun p => ?_⟩
      rw [lin_none, lin_var]
      simp only [varEqn, alloc]
      rw [lin_eqn, deref_new]; simp [evalTerms]
  · by_cases hwn : w = .none
    · subst hwn
      cases v with
      | num q => cases hu
      | none => cases hu
      | eqn b =>
        cases hu
        exact ⟨Step.same hg hv fun a ha => Or.inl ha, by simp [Val.IsNum], fun p => by rw [lin_none]; ring⟩
      | var k =>
        cases hu
        refine ⟨Step.alloc hg _ (single_good k 1), by simp [Val.IsNum], fun p => ?_⟩
        rw [lin_none, lin_var]
        simp only [varEqn, alloc]
        rw [lin_eqn, deref_new]; simp [evalTerms]
    · obtain ⟨k, u', he, hs, hn, hl, _⟩ := opAdd_spec hg (solid_of_ok hv hvn) (solid_of_ok hw hwn)
      rw [hu] at he
      cases he
      rw [solid_self hvn, solid_self hwn]
      exact ⟨(hs.mono fun a => Or.imp id And.right).solid, hn, hl⟩

theorem opSub_kept {h : Heap} (hg : Good h) {v w : Val} (hv : v.solid.Ok h) (hw : w.solid.Ok h)
    (hd : ∀ a, v.solid.Is a → ¬ w.solid.Is a) {h' : Heap} {u : Val} (hu : opSub h v w = .ok (h', u)) :
    Step h (fun a => v.solid.Is a ∨ w.solid.Is a) h' u.solid ∧ (u.IsNum ↔ v.IsNum ∧ w.IsNum) ∧
      ∀ p, u.lin h' p = v.lin h p - w.lin h p := by
  by_cases hvn : v = .none
  · subst hvn
    cases w with
    | num q => cases hu
    | none => cases hu
    | eqn b =>
      obtain ⟨k, u', he, hs, hn, hl, _⟩ := opNeg_spec hg (v := .eqn b) hw
      cases he
      cases hu
      exact ⟨hs.mono fun a ha => Or.inr ha, by simp [Val.IsNum], fun p => by rw [lin_none, zero_sub]; exact hl p⟩
    | var k =>
      obtain ⟨k, u', he, hs, hn, hl, _⟩ := opNeg_spec hg (v := .var k) hw
      cases he
      cases hu
      exact ⟨hs.mono fun a ha => Or.inr ha, by simp [Val.IsNum], fun p => by rw [lin_none, zero_sub]; exact hl p⟩
  · by_cases hwn : w = .none
    · subst hwn
      cases v <;> cases hu
    · obtain ⟨k, u', he, hs, hn, hl, _⟩ := opSub_spec hg (solid_of_ok hv hvn) (solid_of_ok hw hwn)
        (by rwa [solid_self hvn, solid_self hwn] at hd)
      rw [hu] at he
      cases he
      rw [solid_self hvn, solid_self hwn]
      exact ⟨hs.solid, hn, hl⟩

theorem opMul_kept {h : Heap} (hg : Good h) {v w : Val} (hv : v.solid.Ok h) (hw : w.solid.Ok h) {h' : Heap} {u : Val}
    (hu : opMul h v w = .ok (h', u)) :
    Step h (fun a => v.solid.Is a ∨ w.solid.Is a) h' u.solid ∧ (u.IsNum ↔ v.IsNum ∧ w.IsNum) ∧
      (v.IsNum → ∀ p, u.lin h' p = v.cst h * w.lin h p) ∧
      (w.IsNum → ∀ p, u.lin h' p = v.lin h p * w.cst h) ∧
      (¬ v.IsNum → ¬ w.IsNum → ∀ p, u.lin h' p = 0) := by
  by_cases hnum : (v.IsNum ∨ w.IsNum) ∧ v ≠ .none ∧ w ≠ .none
  · obtain ⟨hnum, hvn, hwn⟩ := hnum
    obtain ⟨k, u', he, hs, hn, hl, _⟩ := opMul_spec hg (solid_of_ok hv hvn) (solid_of_ok hw hwn) hnum
    rw [hu] at he
    cases he
    rw [solid_self hvn, solid_self hwn]
    refine ⟨hs.solid, hn, ?_, ?_, fun h1 h2 => (hnum.elim h1 h2).elim⟩
    · rintro ⟨q, rfl⟩ p
      rw [hl, lin_num]; ring
    · rintro ⟨q, rfl⟩ p
      rw [hl, lin_num]; ring
  · have hno : h' = h ∧ u = .none ∧ ¬ v.IsNum ∧ ¬ w.IsNum := by
      cases v <;> cases w <;> simp [Val.IsNum] at hnum <;> cases hu <;> simp [Val.IsNum]
    obtain ⟨rfl, rfl, h1, h2⟩ := hno
    exact ⟨Step.same hg trivial (by simp [Val.solid]), by simp [Val.IsNum] at *; exact fun q hq => (h1 q hq).elim,
      fun h => (h1 h).elim, fun h => (h2 h).elim, fun _ _ p => lin_none _ p⟩

theorem eval_kept {h : Heap} (hg : Good h) {e : Expr} (hr : e.refs.Nodup) (hlt : ∀ a ∈ e.refs, a < h.length)
    {h' : Heap} {w : Val} (he : eval h e = .ok (h', w)) : KeptSpec h e h' w := by
  induction e generalizing h h' w with
  | num q =>
    cases he
    exact ⟨Step.same hg trivial (by simp [Val.solid]), fun p => by simp [lin_num, Expr.kept], by simp [Val.IsNum, Expr.isNum],
      fun q' hq k p => by cases hq; rfl⟩
  | x i =>
    simp only [eval, indexX] at he
    split at he
    · cases he
    · cases he
      refine ⟨Step.alloc hg _ (single_good _ _), fun p => ?_, by simp [Val.IsNum, Expr.isNum], fun q hq => by cases hq⟩
      rw [lin_eqn, deref_new]; simp [evalTerms, Expr.kept]
  | var k =>
    cases he
    exact ⟨Step.same hg trivial (by simp [Val.solid]), fun p => by simp [lin_var, Expr.kept], by simp [Val.IsNum, Expr.isNum],
      fun q hq => by cases hq⟩
  | ref a =>
    cases he
    exact ⟨Step.same hg (hlt a (by simp [Expr.refs])) (by simp [Expr.refs, Val.solid]), fun p => by rw [lin_eqn]; rfl,
      by simp [Val.IsNum, Expr.isNum], fun q hq => by cases hq⟩
  | pos e ih =>
    simp only [eval] at he
    rcases hv : eval h e with r | ⟨h1, v⟩
    · rw [hv] at he; cases he
    · rw [hv] at he
      have hk := ih hg hr hlt hv
      have hn : v ≠ .none := by rintro rfl; cases he
      have hok := hk.step
      rw [solid_self hn] at hok
      obtain ⟨h2, u, hu, hs, hnu, hl, hc⟩ := opPos_spec hok.good hok.ok
      simp only at he
      rw [hu] at he
      cases he
      refine ⟨(hok.trans1 hs).solid, fun p => (hl p).trans (hk.lin p), hnu.trans hk.num, fun q hq k p => ?_⟩
      have : v.IsNum := hnu.mp ⟨q, hq⟩
      obtain ⟨q', rfl⟩ := this
      subst hq
      cases hu
      exact hk.val _ rfl k p
  | neg e ih =>
    simp only [eval] at he
    rcases hv : eval h e with r | ⟨h1, v⟩
    · rw [hv] at he; cases he
    · rw [hv] at he
      have hk := ih hg hr hlt hv
      have hn : v ≠ .none := by rintro rfl; cases he
      have hok := hk.step
      rw [solid_self hn] at hok
      obtain ⟨h2, u, hu, hs, hnu, hl, hc⟩ := opNeg_spec hok.good hok.ok
      simp only at he
      rw [hu] at he
      cases he
      refine ⟨(hok.trans1 hs).solid, fun p => (hl p).trans (by rw [hk.lin p]; rfl), hnu.trans hk.num, fun q hq k p => ?_⟩
      have : v.IsNum := hnu.mp ⟨q, hq⟩
      obtain ⟨q', rfl⟩ := this
      subst hq
      cases hu
      simp only [Expr.at]
      rw [hk.val _ rfl k p]
  | add e f ih1 ih2 | sub e f ih1 ih2 | mul e f ih1 ih2 =>
    simp only [eval] at he
    rcases hv : eval h e with r | ⟨h1, v⟩
    · rw [hv] at he; cases he
    rw [hv] at he
    simp only at he
    rcases hw : eval h1 f with r | ⟨h2, w'⟩
    · rw [hw] at he; cases he
    rw [hw] at he
    simp only at he
    simp only [Expr.refs] at hr hlt
    rw [List.nodup_append] at hr
    have k1 := ih1 hg hr.1 (fun a ha => hlt a (List.mem_append.mpr (Or.inl ha))) hv
    have k2 := ih2 k1.step.good hr.2.1
      (fun a ha => lt_of_lt_of_le (hlt a (List.mem_append.mpr (Or.inr ha))) k1.step.le) hw
    have hdis : ∀ a, v.solid = .eqn a → a < h1.length ∧ a ∉ f.refs := by
      intro a ha
      have hok := k1.step.ok
      rw [ha] at hok
      refine ⟨hok, fun haf => ?_⟩
      rcases k1.step.own a ha with h0 | h0
      · exact hr.2.2 a h0 a haf rfl
      · have := hlt a (List.mem_append.mpr (Or.inr haf)); omega
    have hat : ∀ p, v.at h2 p = v.at h1 p := Val.at_frame fun a ha =>
      have ha := Val.solid_eqn.mpr ha
      k2.step.frame a (hdis a ha).1 (hdis a ha).2
    have hfr : ∀ a ∈ f.refs, deref h1 a = deref h a := fun a ha =>
      k1.step.frame a (hlt a (List.mem_append.mpr (Or.inr ha))) fun hae => hr.2.2 a hae a ha rfl
    have hd : ∀ a, v.solid.Is a → ¬ w'.solid.Is a := by
      intro a ha hw
      have := hdis a ha
      rcases k2.step.own a hw with h0 | h0
      · exact this.2 h0
      · omega
    have l1 : ∀ p, v.lin h2 p = e.kept h p := fun p => by rw [← k1.lin p]; simp [Val.lin, hat]
    have l2 : ∀ p, w'.lin h2 p = f.kept h p := fun p => by rw [k2.lin p, Expr.kept_frame hfr]
    have hvok : v.solid.Ok h2 := k1.step.ok.mono k2.step.le
    first
    | obtain ⟨hs, hn, hl⟩ := opAdd_kept k2.step.good hvok k2.step.ok he
      refine ⟨k1.step.trans k2.step hs, fun p => by rw [hl, l1, l2]; rfl, ?_, fun q hq k p => ?_⟩
      · simp only [hn, k1.num, k2.num, Expr.isNum, Bool.and_eq_true]
      · obtain ⟨⟨a, rfl⟩, ⟨b, rfl⟩⟩ := hn.mp ⟨q, hq⟩
        subst hq
        cases he
        simp only [Expr.at]
        rw [k1.val _ rfl k p, k2.val _ rfl k p]
    | obtain ⟨hs, hn, hl⟩ := opSub_kept k2.step.good hvok k2.step.ok hd he
      refine ⟨k1.step.trans k2.step hs, fun p => by rw [hl, l1, l2]; rfl, ?_, fun q hq k p => ?_⟩
      · simp only [hn, k1.num, k2.num, Expr.isNum, Bool.and_eq_true]
      · obtain ⟨⟨a, rfl⟩, ⟨b, rfl⟩⟩ := hn.mp ⟨q, hq⟩
        subst hq
        cases he
        simp only [Expr.at]
        rw [k1.val _ rfl k p, k2.val _ rfl k p]
    | obtain ⟨hs, hn, m1, m2, m3⟩ := opMul_kept k2.step.good hvok k2.step.ok he
      refine ⟨k1.step.trans k2.step hs, fun p => ?_, ?_, fun q hq k p => ?_⟩
      · simp only [Expr.kept]
        by_cases h1 : v.IsNum
        · rw [if_pos (k1.num.mp h1), m1 h1, l2]
          obtain ⟨a, rfl⟩ := h1
          rw [cst_num, k1.val _ rfl [] p]
        · rw [if_neg (fun h => h1 (k1.num.mpr h))]
          by_cases h2 : w'.IsNum
          · rw [if_pos (k2.num.mp h2), m2 h2, l1]
            obtain ⟨a, rfl⟩ := h2
            rw [cst_num, k2.val _ rfl [] p]
          · rw [if_neg (fun h => h2 (k2.num.mpr h)), m3 h1 h2]
      · simp only [hn, k1.num, k2.num, Expr.isNum, Bool.and_eq_true]
      · obtain ⟨⟨a, rfl⟩, ⟨b, rfl⟩⟩ := hn.mp ⟨q, hq⟩
        subst hq
        cases he
        simp only [Expr.at]
        rw [k1.val _ rfl k p, k2.val _ rfl k p]

end Formulation
end Pytimize
