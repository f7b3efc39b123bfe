/-
Property C142: the arrays a formulation compiles to are the ones written down.
-/
import Mathlib.Tactic.LinearCombination
import Verif.Formulation.Labels
import Verif.Props.FormulationExact

namespace Pytimize
namespace Props
open LinProg (Ineq Obj)
open Formulation

/-! ### What is written -/

/-- The largest index of a variable in an expression, `0` if there is none. -/
def top : Expr → ℕ
  | .num _ => 0
  | .x i => i.toNat
  | .var k => k + 1
  | .ref _ => 0
  | .pos e => top e
  | .neg e => top e
  | .add e f => max (top e) (top f)
  | .sub e f => max (top e) (top f)
  | .mul e f => max (top e) (top f)

/-- The value of an expression when all variables are zero. -/
def absolute (e : Expr) : ℚ := e.at [] fun _ => 0

/-- The coefficient of a variable: how much the value grows when that variable goes from zero to one. -/
def coef (e : Expr) (i : ℕ) : ℚ := e.at [] (fun j => if j = i then 1 else 0) - absolute e

/-- A comparison with a number on its left is read from right to left. -/
def turnedSign (e : Expr) : ℚ := if e.isNum then -1 else 1

/-- The operator that goes with it. -/
def turnedOp (op : Ineq) (e : Expr) : Ineq := if e.isNum then flip op else op

/-- The number of columns: the largest index in the comparisons. -/
def columns (cons : List (Ineq × Expr × Expr)) : ℕ := (cons.map fun t => max (top t.2.1) (top t.2.2)).foldl max 0

/-- The arrays of `maximize(obj).subject_to(cons)` as written. -/
def arrays (o : Obj) (obj : Expr) (cons : List (Ineq × Expr × Expr)) : Abstract where
  A := cons.map fun t => (List.range (columns cons)).map fun i => turnedSign t.2.1 * (coef t.2.1 i - coef t.2.2 i)
  b := cons.map fun t => turnedSign t.2.1 * (absolute t.2.2 - absolute t.2.1)
  c := (List.range (columns cons)).map (coef obj)
  z := absolute obj
  objective := o
  ineqs := cons.map fun t => turnedOp t.1 t.2.1
  neg := []
  pos := []
  program := none
  recompile := false

/-- The comparisons `subject_to` accepts: not of two numbers, no `Variable` object on the right of something that is
not a number, and not a sign condition on a `Variable` object. -/
def Comparable (op : Ineq) (e f : Expr) : Prop :=
  ¬ (e.isNum ∧ f.isNum) ∧ (e.isNum ∨ ∀ k, f ≠ .var k) ∧
    ¬ (op ≠ .eq ∧ ((∃ k, e = .var k) ∧ f.isNum ∧ absolute f = 0 ∨ e.isNum ∧ absolute e = 0 ∧ ∃ k, f = .var k))

/-! ### Helper lemmas -/

theorem top_le {e : Expr} (hl : e.Linear) {n : ℕ} : top e ≤ n ↔ ∀ k ∈ e.labels, k < n := by
  induction e with
  | num q => simp [top, Expr.labels]
  | x i =>
    have : 1 ≤ i := hl
    simp only [top, Expr.labels, List.mem_singleton, forall_eq]
    omega
  | var k => simp only [top, Expr.labels, List.mem_singleton, forall_eq]; omega
  | ref a => simp [top, Expr.labels]
  | pos e ih => exact ih hl
  | neg e ih => exact ih hl
  | add e f ih1 ih2 =>
    simp only [top, Expr.labels, max_le_iff, List.mem_append, or_imp, forall_and, ih1 hl.1, ih2 hl.2]
  | sub e f ih1 ih2 =>
    simp only [top, Expr.labels, max_le_iff, List.mem_append, or_imp, forall_and, ih1 hl.1, ih2 hl.2]
  | mul e f ih1 ih2 =>
    simp only [top, Expr.labels, max_le_iff, List.mem_append, or_imp, forall_and, ih1 hl.1, ih2 hl.2.1]

/-- The constraint made of two values. -/
structure RowOf (h : Heap) (op : Ineq) (s : ℚ) (v w : Val) (c : LinCon) : Prop where
  op : c.op = op
  dot : ∀ p, Formulation.dot c.coeffs p = s * (v.lin h p - w.lin h p)
  const : c.const = s * (w.cst h - v.cst h)
  len : ∀ n, c.coeffs.length ≤ n ↔ (∀ k ∈ v.labels h, k < n) ∧ ∀ k ∈ w.labels h, k < n

theorem cmpEqn_row {h : Heap} (hg : Good h) (op : Ineq) {e : Eqn} (he : e.terms ≠ [] ∧ e.terms.WF) {w : Val}
    (hw : w.Ok h) (hv : ∀ k, w ≠ .var k) :
    ∃ c, cmpEqn h op e w = .ok (.lin c) ∧ c.op = op ∧ c.const = w.cst h - e.const ∧
      (∀ p, Formulation.dot c.coeffs p = evalTerms e.terms p - w.lin h p) ∧
      ∀ n, c.coeffs.length ≤ n ↔ (∀ k ∈ Dict.keys e.terms, k < n) ∧ ∀ k ∈ w.labels h, k < n := by
  cases w with
  | num q =>
    obtain ⟨c, hc, h1, h2, h3, h4⟩ := generate_full op (f := ⟨[], q⟩) he (Or.inl rfl)
    refine ⟨c, by simp only [cmpEqn, hc], h1, h2, fun p => ?_, fun n => ?_⟩
    · rw [h3, lin_num, evalTerms_nil]
    · rw [h4, max_le_iff, lenOf_le, lenOf_le]
      simp [Val.labels, Dict.keys]
  | var k => exact (hv k rfl).elim
  | eqn b =>
    obtain ⟨c, hc, h1, h2, h3, h4⟩ := generate_full op he (Or.inr (hg.deref hw))
    refine ⟨c, by simp only [cmpEqn, hc], h1, ?_, fun p => ?_, fun n => ?_⟩
    · rw [h2, cst_eqn]
    · rw [h3, lin_eqn]
    · rw [h4, max_le_iff, lenOf_le, lenOf_le]; rfl
  | none => exact hw.elim

/-- The comparison of a `Variable` with a value, if it is not a sign condition. -/
theorem cmpVar_row {h : Heap} (hg : Good h) (op : Ineq) (k : ℕ) {w : Val} (hw : w.Ok h) (hv : ∀ k, w ≠ .var k) :
    (∃ c, cmpVar h op k w = .ok (.lin c) ∧ RowOf h op 1 (.var k) w c ∧ ¬ (op ≠ .eq ∧ w = .num 0)) ∨
      ∃ s, cmpVar h op k w = .ok (.sign s) ∧ op ≠ .eq ∧ w = .num 0 := by
  obtain ⟨c, hc, h1, h2, h3, h4⟩ := cmpEqn_row hg op (e := ⟨[(k, 1)], 0⟩) (single_good k 1) hw hv
  have hrow : RowOf h op 1 (.var k) w c := by
    refine ⟨h1, fun p => ?_, ?_, fun n => ?_⟩
    · rw [h3, lin_var]; simp [evalTerms]
    · rw [h2, cst_var]; simp
    · rw [h4]; simp [Val.labels, Dict.keys]
  by_cases h0 : op ≠ .eq ∧ w = .num 0
  · obtain ⟨ho, rfl⟩ := h0
    right
    cases op with
    | le => exact ⟨_, by simp [cmpVar]; rfl, ho, rfl⟩
    | ge => exact ⟨_, by simp [cmpVar]; rfl, ho, rfl⟩
    | eq => exact (ho rfl).elim
  · left
    refine ⟨c, ?_, hrow, h0⟩
    unfold cmpVar
    split
    · rename_i q
      rw [if_neg (fun hq => h0 ⟨by simp, by rw [hq]⟩)]
      exact hc
    · rename_i q
      rw [if_neg (fun hq => h0 ⟨by simp, by rw [hq]⟩)]
      exact hc
    · exact hc

theorem RowOf.swap {h : Heap} {op : Ineq} {v w : Val} {c : LinCon} (hr : RowOf h op 1 v w c) :
    RowOf h op (-1) w v c :=
  ⟨hr.op, fun p => by rw [hr.dot]; ring, by rw [hr.const]; ring, fun n => by rw [hr.len, and_comm]⟩

/-- Two values can be compared to a linear constraint exactly in these cases, and this is the constraint. -/
theorem compare_row {h : Heap} (hg : Good h) (op : Ineq) {v w : Val} (hv : v.Ok h) (hw : w.Ok h)
    {s : ℚ} {op' : Ineq} (hs : v.IsNum ∧ s = -1 ∧ op' = flip op ∨ ¬ v.IsNum ∧ s = 1 ∧ op' = op) :
    (∃ c, compare h op v w = .ok (.lin c) ∧ RowOf h op' s v w c ∧
      (¬ (v.IsNum ∧ w.IsNum) ∧ (v.IsNum ∨ ∀ k, w ≠ .var k) ∧
        ¬ (op ≠ .eq ∧ ((∃ k, v = .var k) ∧ w = .num 0 ∨ v = .num 0 ∧ ∃ k, w = .var k)))) ∨
    ((∀ c, compare h op v w ≠ .ok (.lin c)) ∧
      ¬ (¬ (v.IsNum ∧ w.IsNum) ∧ (v.IsNum ∨ ∀ k, w ≠ .var k) ∧
        ¬ (op ≠ .eq ∧ ((∃ k, v = .var k) ∧ w = .num 0 ∨ v = .num 0 ∧ ∃ k, w = .var k)))) := by
  have hflip : flip op = .eq ↔ op = .eq := by cases op <;> simp [Formulation.flip]
  have nn : ∀ q, (Val.num q).IsNum := fun q => ⟨q, rfl⟩
  cases v with
  | num q =>
    obtain ⟨-, rfl, rfl⟩ | ⟨h0, -⟩ := hs
    swap
    · exact (h0 ⟨q, rfl⟩).elim
    have hq : ∀ k, (Val.num q) ≠ .var k := fun k h => by cases h
    cases w with
    | num r => exact Or.inr ⟨fun c hc => by simp [Formulation.compare] at hc, fun h => h.1 ⟨⟨q, rfl⟩, ⟨r, rfl⟩⟩⟩
    | var k =>
      rcases cmpVar_row hg (flip op) k hv hq with ⟨c, hc, hr, h0⟩ | ⟨s, hc, h0, h1⟩
      · refine Or.inl ⟨c, hc, hr.swap, by simp [Val.IsNum], Or.inl ⟨q, rfl⟩, ?_⟩
        rintro ⟨h2, ⟨⟨j, h3⟩, -⟩ | ⟨h3, -⟩⟩
        · cases h3
        · exact h0 ⟨by rwa [ne_eq, hflip], h3⟩
      · refine Or.inr ⟨fun c hc' => ?_, fun h => h.2.2 ⟨by rwa [ne_eq, hflip] at h0, Or.inr ⟨h1, k, rfl⟩⟩⟩
        have := hc.symm.trans hc'
        cases this
    | eqn b =>
      obtain ⟨c, hc, h1, h2, h3, h4⟩ := cmpEqn_row hg (flip op) (hg.deref hw) hv hq
      refine Or.inl ⟨c, hc, RowOf.swap ⟨h1, fun p => ?_, ?_, fun n => ?_⟩, by simp [Val.IsNum], Or.inl ⟨q, rfl⟩, by simp⟩
      · rw [h3, lin_eqn]; ring
      · rw [h2, cst_eqn]; ring
      · rw [h4]; rfl
    | none => exact hw.elim
  | var k =>
    obtain ⟨h0, -⟩ | ⟨-, rfl, h9⟩ := hs
    · obtain ⟨q, hq⟩ := h0; cases hq
    subst op'
    by_cases hk : ∃ j, w = .var j
    · obtain ⟨j, rfl⟩ := hk
      refine Or.inr ⟨fun c hc => ?_, fun h => ?_⟩
      · have := (C62_variable_wrong h op 0 k j).2
        rw [this] at hc; cases hc
      · rcases h.2.1 with ⟨q, hq⟩ | h1
        · cases hq
        · exact h1 j rfl
    · push Not at hk
      rcases cmpVar_row hg op k hw hk with ⟨c, hc, hr, h0⟩ | ⟨s, hc, h0, h1⟩
      · have hc' : compare h op (.var k) w = .ok (.lin c) := by cases w <;> exact hc
        refine Or.inl ⟨c, hc', hr, by simp [Val.IsNum], Or.inr hk, ?_⟩
        rintro ⟨h2, ⟨-, h3⟩ | ⟨h3, -⟩⟩
        · exact h0 ⟨h2, h3⟩
        · cases h3
      · refine Or.inr ⟨fun c hc' => ?_, fun h => h.2.2 ⟨h0, Or.inl ⟨⟨k, rfl⟩, h1⟩⟩⟩
        subst h1
        have := hc.symm.trans hc'
        cases this
  | eqn a =>
    obtain ⟨h0, -⟩ | ⟨-, rfl, h9⟩ := hs
    · obtain ⟨q, hq⟩ := h0; cases hq
    subst op'
    by_cases hk : ∃ j, w = .var j
    · obtain ⟨j, rfl⟩ := hk
      refine Or.inr ⟨fun c hc => ?_, fun h => ?_⟩
      · have := (C62_variable_wrong h op a 0 j).1
        rw [this] at hc; cases hc
      · rcases h.2.1 with ⟨q, hq⟩ | h1
        · cases hq
        · exact h1 j rfl
    · push Not at hk
      obtain ⟨c, hc, h1, h2, h3, h4⟩ := cmpEqn_row hg op (hg.deref hv) hw hk
      have hc' : compare h op (.eqn a) w = .ok (.lin c) := by cases w <;> exact hc
      refine Or.inl ⟨c, hc', ⟨h1, fun p => ?_, ?_, fun n => ?_⟩, by simp [Val.IsNum], Or.inr hk, by simp⟩
      · rw [h3, lin_eqn]; ring
      · rw [h2, cst_eqn]; ring
      · rw [h4]; rfl
  | none => exact hv.elim

/-- The constraint made of two expressions. -/
structure Reads (t : Ineq × Expr × Expr) (c : LinCon) : Prop where
  op : c.op = turnedOp t.1 t.2.1
  dot : ∀ p, Formulation.dot c.coeffs p =
    turnedSign t.2.1 * ((t.2.1.at [] p - absolute t.2.1) - (t.2.2.at [] p - absolute t.2.2))
  const : c.const = turnedSign t.2.1 * (absolute t.2.2 - absolute t.2.1)
  len : c.coeffs.length = max (top t.2.1) (top t.2.2)

theorem compareExpr_reads {h : Heap} (hg : Good h) {op : Ineq} {e f : Expr} (he : Simple e) (hf : Simple f) :
    (∃ h' c, compareExpr h op e f = .ok (h', .lin c) ∧ Good h' ∧ Reads (op, e, f) c ∧ Comparable op e f) ∨
    ((∀ h' c, compareExpr h op e f ≠ .ok (h', .lin c)) ∧ ¬ Comparable op e f) := by
  have hr : (e.refs ++ f.refs).Nodup := by simp [he.closed, hf.closed]
  have hlt : ∀ a ∈ e.refs ++ f.refs, a < h.length := by simp [he.closed, hf.closed]
  have hfe : ∀ a ∈ e.refs, deref h a = deref [] a := by simp [he.closed]
  have hff : ∀ a ∈ f.refs, deref h a = deref [] a := by simp [hf.closed]
  obtain ⟨h1, v, h2, w, hse, hef, hsf, hvok, hd, hnw, l1, c1, l2, c2⟩ := evalPair hr hlt
    (eval_spec hg he.linear (List.nodup_append.mp hr).1 fun a ha => hlt a (List.mem_append.mpr (Or.inl ha)))
    (fun k hk hk' => eval_spec hk hf.linear (List.nodup_append.mp hr).2.1 hk')
  have c1 := c1 ((Expr.plain_frame hfe).mpr he.plain)
  have c2 := c2 ((Expr.plain_frame hff).mpr hf.plain)
  have hlv : ∀ k, k ∈ v.labels h2 ↔ k ∈ e.labels := by
    intro k
    rw [← eval_labels hg he.linear he.closed hse.run]
    cases v with
    | eqn a => simp only [Val.labels, hsf.frame a hse.step.ok (by simp [hf.closed])]
    | _ => rfl
  have hlw : ∀ k, k ∈ w.labels h2 ↔ k ∈ f.labels := eval_labels hse.step.good hf.linear hf.closed hef
  have hvar : ∀ {k}, v = .var k ↔ e = .var k := by
    intro k
    constructor
    · rintro rfl; exact eval_var hse.run
    · rintro rfl; have := hse.run; simp only [eval, Except.ok.injEq, Prod.mk.injEq] at this; exact this.2.symm
  have hwar : ∀ {k}, w = .var k ↔ f = .var k := by
    intro k
    constructor
    · rintro rfl; exact eval_var hef
    · rintro rfl; simp only [eval, Except.ok.injEq, Prod.mk.injEq] at hef; exact hef.2.symm
  have z1 : v = .num 0 ↔ e.isNum ∧ absolute e = 0 := by
    rw [← hse.num, absolute, ← Expr.at_frame hfe, ← c1]
    constructor
    · rintro rfl; exact ⟨⟨0, rfl⟩, rfl⟩
    · rintro ⟨⟨q, rfl⟩, hq⟩; rw [show q = 0 from hq]
  have z2 : w = .num 0 ↔ f.isNum ∧ absolute f = 0 := by
    rw [← hnw, absolute, ← Expr.at_frame hff, ← c2]
    constructor
    · rintro rfl; exact ⟨⟨0, rfl⟩, rfl⟩
    · rintro ⟨⟨q, rfl⟩, hq⟩; rw [show q = 0 from hq]
  have hcomp : Comparable op e f ↔ (¬ (v.IsNum ∧ w.IsNum) ∧ (v.IsNum ∨ ∀ k, w ≠ .var k) ∧
        ¬ (op ≠ .eq ∧ ((∃ k, v = .var k) ∧ w = .num 0 ∨ v = .num 0 ∧ ∃ k, w = .var k))) := by
    unfold Comparable
    simp only [hse.num, hnw, z1, z2, hvar, hwar, ne_eq, and_assoc]
  rcases compare_row hsf.good op hvok hsf.ok (s := turnedSign e) (op' := turnedOp op e) (by
    unfold turnedSign turnedOp
    rw [hse.num]
    by_cases h0 : e.isNum = true
    · exact Or.inl ⟨h0, by simp [h0], by simp [h0]⟩
    · exact Or.inr ⟨h0, by simp [h0], by simp [h0]⟩) with ⟨c, hc, hrow, h0⟩ | ⟨hc, h0⟩
  · refine Or.inl ⟨h2, c, by simp only [compareExpr, hse.run, hef, hc], hsf.good, ⟨hrow.op, fun p => ?_, ?_, ?_⟩,
      hcomp.mpr h0⟩
    · rw [hrow.dot, l1, l2]
      simp only [absolute, Expr.at_frame hfe, Expr.at_frame hff]
    · rw [hrow.const, c1, c2]
      simp only [absolute, Expr.at_frame hfe, Expr.at_frame hff]
    · refine eq_of_forall_ge_iff fun n => ?_
      rw [hrow.len, max_le_iff, top_le he.linear, top_le hf.linear]
      simp only [hlv, hlw]
  · refine Or.inr ⟨fun h' c hc' => ?_, fun h3 => h0 (hcomp.mp h3)⟩
    simp only [compareExpr, hse.run, hef] at hc'
    generalize hq : Formulation.compare h2 op v w = r at hc'
    rcases r with r | d
    · cases hc'
    · cases hc'; exact hc c hq

theorem evalCons_reads {h : Heap} (hg : Good h) {cons : List (Ineq × Expr × Expr)}
    (hs : ∀ t ∈ cons, Simple t.2.1 ∧ Simple t.2.2) :
    (∀ h' (cs : List LinCon), evalCons h cons = .ok (h', cs.map .lin) →
      List.Forall₂ Reads cons cs ∧ ∀ t ∈ cons, Comparable t.1 t.2.1 t.2.2) ∧
    ((∀ t ∈ cons, Comparable t.1 t.2.1 t.2.2) → ∃ h', ∃ cs : List LinCon, evalCons h cons = .ok (h', cs.map .lin)) := by
  induction cons generalizing h with
  | nil =>
    refine ⟨fun h' cs hc => ?_, fun _ => ⟨h, [], rfl⟩⟩
    simp only [evalCons, Except.ok.injEq, Prod.mk.injEq] at hc
    cases cs with
    | nil => exact ⟨.nil, by simp⟩
    | cons a l => simp at hc
  | cons t l ih =>
    obtain ⟨op, e, f⟩ := t
    obtain ⟨s1, s2⟩ := hs _ (List.mem_cons_self ..)
    have hs' := fun t ht => hs t (List.mem_cons_of_mem _ ht)
    rcases compareExpr_reads hg (op := op) s1 s2 with ⟨h1, c, hc, hg1, hreads, hcomp⟩ | ⟨hno, hcomp⟩
    · obtain ⟨i1, i2⟩ := ih hg1 hs'
      constructor
      · intro h' cs hcs
        simp only [evalCons, hc] at hcs
        generalize hr2 : evalCons h1 l = r at hcs
        rcases r with r | ⟨h2, ds⟩
        · cases hcs
        simp only [Except.ok.injEq, Prod.mk.injEq] at hcs
        obtain ⟨-, hcs⟩ := hcs
        cases cs with
        | nil => cases hcs
        | cons k cs =>
          simp only [List.map_cons, List.cons.injEq, Con.lin.injEq] at hcs
          obtain ⟨rfl, rfl⟩ := hcs
          obtain ⟨j1, j2⟩ := i1 _ _ hr2
          exact ⟨.cons hreads j1, List.forall_mem_cons.mpr ⟨hcomp, j2⟩⟩
      · intro hall
        obtain ⟨h', cs, hcs⟩ := i2 fun t ht => hall t (List.mem_cons_of_mem _ ht)
        exact ⟨h', c :: cs, by simp only [evalCons, hc, hcs, List.map_cons]⟩
    · refine ⟨fun h' cs hcs => ?_, fun hall => (hcomp (hall _ (List.mem_cons_self ..))).elim⟩
      simp only [evalCons] at hcs
      generalize hr : compareExpr h op e f = r at hcs
      rcases r with r | ⟨h1, c⟩
      · cases hcs
      simp only at hcs
      generalize hr2 : evalCons h1 l = r at hcs
      rcases r with r | ⟨h2, ds⟩
      · cases hcs
      simp only [Except.ok.injEq, Prod.mk.injEq] at hcs
      obtain ⟨-, hcs⟩ := hcs
      cases cs with
      | nil => cases hcs
      | cons k cs =>
        simp only [List.map_cons, List.cons.injEq] at hcs
        obtain ⟨rfl, -⟩ := hcs
        exact (hno _ _ hr).elim

theorem reads_map {α : Type} {cons : List (Ineq × Expr × Expr)} {cs : List LinCon} (h : List.Forall₂ Reads cons cs)
    (g : LinCon → α) (g' : Ineq × Expr × Expr → α) (hg : ∀ t c, Reads t c → g c = g' t) : cs.map g = cons.map g' := by
  induction h with
  | nil => rfl
  | cons h1 _ ih => rw [List.map_cons, List.map_cons, hg _ _ h1, ih]

theorem subjectTo_recompile {O : Objective} {cons : List Con} {P : Abstract} (h : subjectTo O cons = .ok P) :
    P.recompile = false := by
  unfold subjectTo at h
  generalize linOnly cons = r at h
  rcases r with e | cs
  · cases h
  cases cs with
  | nil => cases h
  | cons c0 cs0 =>
    simp only at h
    generalize padRows _ _ = r at h
    rcases r with e | rows
    · cases h
    simp only at h
    generalize padRight _ _ = r at h
    rcases r with e | c
    · cases h
    · cases h; rfl

/-! ### The property -/

/-- C142: what a formulation compiles to. If `maximize(obj).subject_to(...)` is accepted, then there is one row per
comparison, in order, with the coefficients and the right-hand side that come from taking the right side of the
comparison from the left (from right to left if a number is on the left), as many columns as the largest index in the
comparisons, and the objective has the coefficients and the constant written. Missing: expressions that lose a constant
(`C142_constant_wrong`). -/
theorem C142_arrays_partial {h : Heap} (hg : Good h) {pk : Package} {o : Obj} {obj : Expr}
    {cons : List (Ineq × Expr × Expr)} (hobj : Simple obj) (hcons : ∀ t ∈ cons, Simple t.2.1 ∧ Simple t.2.2)
    {P : Abstract} (hP : formulate pk o h obj cons = .ok P) : P = arrays o obj cons := by
  obtain ⟨h1, v, hs⟩ := eval_spec hg hobj.linear (by simp [hobj.closed]) (by simp [hobj.closed])
  have hfr : ∀ a ∈ obj.refs, deref h a = deref [] a := by simp [hobj.closed]
  have hcst := hs.cst ((Expr.plain_frame hfr).mpr hobj.plain)
  simp only [formulate, hs.run] at hP
  generalize hO : optimize pk o h1 v = r at hP
  rcases r with e | O
  · cases hP
  simp only at hP
  generalize hcs : evalCons h1 cons = r at hP
  rcases r with e | ⟨h2, ds⟩
  · cases hP
  simp only at hP
  obtain ⟨cs, rfl, hb, hpos, hneg, hprog, hlen⟩ := subjectTo_ok hP
  obtain ⟨hreads, -⟩ := (evalCons_reads hs.step.good hcons).1 _ _ hcs
  have hn : P.c.length = columns cons := by
    rw [hlen, columns, reads_map hreads _ _ fun t c hr => hr.len]
  -- the objective
  have hobj' : O.objective = o ∧ O.z = absolute obj ∧
      ∀ p, (O.c.elim 0 fun b => dot b p) = obj.at [] p - absolute obj := by
    rw [Expr.at_frame hfr] at hcst
    have hl := hs.lin
    cases v with
    | num q =>
      cases hO
      exact ⟨rfl, hcst, fun p => by have := hl p; rw [lin_num] at this; simp only [Expr.at_frame hfr] at this; exact this⟩
    | var k => cases hO
    | eqn a =>
      cases hO
      have hga := hs.step.good.deref hs.step.ok
      obtain ⟨l, hl1, -, hl2⟩ := coefficients_spec hga.1 hga.2
      refine ⟨rfl, by rw [← cst_eqn]; exact hcst, fun p => ?_⟩
      have := hl p
      rw [lin_eqn] at this
      simp only [Expr.at_frame hfr] at this
      simp only [hl1, Option.elim_some, hl2, this, absolute]
    | none => cases hO
  obtain ⟨A, b, c, z, ob, iq, ng, ps, pr, rc⟩ := P
  simp only at hn hpos hneg hprog
  have hrc := subjectTo_recompile hP
  simp only at hrc
  subst hpos hneg hprog hrc
  unfold arrays
  congr 1
  · -- rows
    have h1 := hb.rows
    simp only at h1
    rw [hn] at h1
    have key : ∀ {A : List (List ℚ)} {cs : List LinCon} {l : List (Ineq × Expr × Expr)} {n : ℕ},
        List.Forall₂ (fun r c => r.length = n ∧ ∀ p, dot r p = dot (LinCon.coeffs c) p) A cs →
        List.Forall₂ Reads l cs →
        A = l.map fun t => (List.range n).map fun i => turnedSign t.2.1 * (coef t.2.1 i - coef t.2.2 i) := by
      intro A cs l n h1 h2
      induction h1 generalizing l with
      | nil => cases h2; rfl
      | cons hr _ ih =>
        cases h2 with
        | cons hx hy =>
          rw [List.map_cons, ← ih hy]
          congr 1
          refine list_of_dot hr.1 fun i => ?_
          rw [hr.2, hx.dot]
          rfl
    exact key h1 hreads
  · exact hb.rhs.trans (reads_map hreads _ _ fun t c hr => hr.const)
  · exact list_of_dot hn fun i => by rw [hb.cost, hobj'.2.2]; rfl
  · exact hb.z.trans hobj'.2.1
  · exact hb.obj.trans hobj'.1
  · exact hb.ops.trans (reads_map hreads _ _ fun t c hr => hr.op)

theorem lenOf_top {h h' : Heap} (hg : Good h) {e : Expr} (hl : e.Linear) (hr : e.refs = []) {a : ℕ}
    (he : eval h e = .ok (h', .eqn a)) : lenOf (deref h' a).terms = top e := by
  refine eq_of_forall_ge_iff fun n => ?_
  rw [lenOf_le, top_le hl]
  have := eval_labels hg hl hr he
  simp only [Val.labels] at this
  simp only [this]

/-- C142: which formulations are accepted: there is a comparison, the objective is not a single `Variable` object and
has no variable beyond those in the comparisons, and `subject_to` accepts each comparison. -/
theorem C142_accepted {h : Heap} (hg : Good h) {pk : Package} {o : Obj} {obj : Expr}
    {cons : List (Ineq × Expr × Expr)} (hobj : Simple obj) (hcons : ∀ t ∈ cons, Simple t.2.1 ∧ Simple t.2.2) :
    (∃ P, formulate pk o h obj cons = .ok P) ↔
      cons ≠ [] ∧ (∀ k, obj ≠ .var k) ∧ top obj ≤ columns cons ∧ ∀ t ∈ cons, Comparable t.1 t.2.1 t.2.2 := by
  obtain ⟨h1, v, hs⟩ := eval_spec hg hobj.linear (by simp [hobj.closed]) (by simp [hobj.closed])
  obtain ⟨e1, e2⟩ := evalCons_reads hs.step.good hcons
  have hlab := eval_labels hg hobj.linear hobj.closed hs.run
  -- the array of the objective
  have hO : (∀ k, obj ≠ .var k) → ∃ O, optimize pk o h1 v = .ok O ∧ O.c.elim 0 List.length = top obj := by
    intro hv
    cases v with
    | num q =>
      refine ⟨_, rfl, ?_⟩
      have : top obj ≤ 0 := (top_le hobj.linear).mpr fun k hk => by
        have := (hlab k).mpr hk; cases this
      simp only [Option.elim_none]
      omega
    | var k => exact (hv k (eval_var hs.run)).elim
    | eqn a => exact ⟨_, rfl, lenOf_top hg hobj.linear hobj.closed hs.run⟩
    | none => exact hs.step.ok.elim
  have hcols : ∀ cs, List.Forall₂ Reads cons cs →
      (cs.map fun c => c.coeffs.length).foldl max 0 = columns cons := fun cs hr => by
    rw [columns, reads_map hr _ _ fun t c hr => hr.len]
  -- some constraint has at least `n` coefficients
  have hbig : ∀ (cs : List LinCon), cs ≠ [] → ∀ n, (∃ k, Con.lin k ∈ cs.map Con.lin ∧ n ≤ k.coeffs.length) ↔
      n ≤ (cs.map fun c => c.coeffs.length).foldl max 0 := by
    intro cs h0 n
    constructor
    · rintro ⟨k, hk, hn⟩
      obtain ⟨k', hk', he⟩ := List.mem_map.mp hk
      cases he
      exact hn.trans ((le_foldl_max (cs.map fun c => c.coeffs.length) 0).2 _ (List.mem_map.mpr ⟨_, hk', rfl⟩))
    · intro hn
      obtain ⟨c0, hc0⟩ := List.exists_mem_of_ne_nil _ h0
      rcases foldl_max_mem (cs.map fun c => c.coeffs.length) 0 with h1 | h1
      · exact ⟨c0, List.mem_map.mpr ⟨c0, hc0, rfl⟩, by omega⟩
      · obtain ⟨k, hk, hke⟩ := List.mem_map.mp h1
        exact ⟨k, List.mem_map.mpr ⟨k, hk, rfl⟩, by rw [hke]; exact hn⟩
  constructor
  · rintro ⟨P, hP⟩
    simp only [formulate, hs.run] at hP
    generalize hO' : optimize pk o h1 v = r at hP
    rcases r with e | O
    · cases hP
    simp only at hP
    generalize hcs : evalCons h1 cons = r at hP
    rcases r with e | ⟨h2, ds⟩
    · cases hP
    simp only at hP
    have hv : ∀ k, obj ≠ .var k := by
      rintro k rfl
      have := hs.run
      simp only [eval, Except.ok.injEq, Prod.mk.injEq] at this
      rw [← this.2] at hO'
      cases hO'
    obtain ⟨cs, rfl, hb, -, -, -, -⟩ := subjectTo_ok hP
    obtain ⟨hreads, hall⟩ := e1 _ _ hcs
    obtain ⟨O', hO1, hO2⟩ := hO hv
    rw [hO1] at hO'
    cases hO'
    refine ⟨?_, hv, ?_, hall⟩
    · rintro rfl
      cases hreads
      exact hb.ne rfl
    · obtain ⟨-, -, h3⟩ := subjectTo_iff.mp ⟨P, hP⟩
      rw [← hO2, ← hcols cs hreads]
      cases hc : O.c with
      | none => simp
      | some l => exact (hbig cs hb.ne _).mp (h3 l hc)
  · rintro ⟨h0, hv, htop, hall⟩
    obtain ⟨O, hO1, hO2⟩ := hO hv
    obtain ⟨h2, cs, hcs⟩ := e2 hall
    obtain ⟨hreads, -⟩ := e1 _ _ hcs
    have hne : cs ≠ [] := by
      rintro rfl
      cases hreads
      exact h0 rfl
    obtain ⟨P, hP⟩ := (subjectTo_iff (O := O) (cons := cs.map .lin)).mpr ⟨by simpa using hne, by simp, fun l hl => by
      refine (hbig cs hne _).mpr ?_
      rw [hcols cs hreads]
      rw [hl] at hO2
      exact le_trans (le_of_eq hO2) htop⟩
    exact ⟨P, by simp only [formulate, hs.run, hO1, hcs, hP]⟩

/-- Two comparisons that say the same: the same difference of the sides with the same operator, read in the same
direction. -/
structure SameComparison (s t : Ineq × Expr × Expr) : Prop where
  op : turnedOp s.1 s.2.1 = turnedOp t.1 t.2.1
  diff : ∀ p, turnedSign s.2.1 * (s.2.1.at [] p - s.2.2.at [] p) = turnedSign t.2.1 * (t.2.1.at [] p - t.2.2.at [] p)

/-- C142: how a formulation is written does not matter. If another text has objective and comparisons of the same
meaning and the same largest index, and is accepted, then it builds the same formulation, so every later call (sign
conditions, `solve`, ...) does the same. Missing: as in `C142_arrays_partial`. -/
theorem C142_same_partial {h h' : Heap} (hg : Good h) (hg' : Good h') {pk pk' : Package} {o : Obj} {obj obj' : Expr}
    {cons cons' : List (Ineq × Expr × Expr)} (hobj : Simple obj) (hcons : ∀ t ∈ cons, Simple t.2.1 ∧ Simple t.2.2)
    (hobj' : Simple obj') (hcons' : ∀ t ∈ cons', Simple t.2.1 ∧ Simple t.2.2)
    (ho : ∀ p, obj.at [] p = obj'.at [] p) (hc : List.Forall₂ SameComparison cons cons')
    (hn : columns cons = columns cons') {P P' : Abstract} (hP : formulate pk o h obj cons = .ok P)
    (hP' : formulate pk' o h' obj' cons' = .ok P') : P = P' := by
  rw [C142_arrays_partial hg hobj hcons hP, C142_arrays_partial hg' hobj' hcons' hP']
  have key : ∀ {α : Type} (g : Ineq × Expr × Expr → α), (∀ s t, SameComparison s t → g s = g t) →
      cons.map g = cons'.map g := by
    intro α g hgg
    clear hcons hcons' hn hP hP'
    induction hc with
    | nil => rfl
    | cons h1 _ ih => rw [List.map_cons, List.map_cons, hgg _ _ h1, ih]
  have hco : coef obj = coef obj' := by funext i; simp only [coef, absolute, ho]
  unfold arrays
  rw [hn, hco]
  congr 1
  · refine key _ fun s t hst => List.map_congr_left fun i _ => ?_
    have e1 := hst.diff fun j => if j = i then 1 else 0
    have e2 := hst.diff fun _ => 0
    simp only [coef, absolute]
    linear_combination e1 - e2
  · refine key _ fun s t hst => ?_
    have e2 := hst.diff fun _ => 0
    simp only [absolute]
    linear_combination -e2
  · simp only [absolute, ho]
  · exact key _ fun s t hst => hst.op

/-- A number may stand on either side. -/
theorem C142_number {e f : Expr} (op : Ineq) (he : e.isNum = false) (hf : f.isNum = true) :
    SameComparison (op, e, f) (flip op, f, e) := by
  refine ⟨?_, fun p => ?_⟩
  · cases op <;> simp [turnedOp, he, hf, Formulation.flip]
  · simp [turnedSign, he, hf]

/-- A term may be moved to the other side. -/
theorem C142_move {e f g : Expr} (op : Ineq) (he : e.isNum = false) :
    SameComparison (op, .add e g, f) (op, e, .sub f g) := by
  refine ⟨?_, fun p => ?_⟩
  · simp [turnedOp, he, Expr.isNum]
  · simp only [turnedSign, he, Expr.isNum, Expr.at, Bool.false_and]; ring

/-! ### Where it fails -/

/-- C142 is false with constants: `x[1] - (x[2] + 1) <= 0` and `x[1] - x[2] <= 1` say the same but do not compile to
the same right-hand side. -/
theorem C142_constant_wrong :
    (∀ p : Point, (Expr.sub (.x 1) (.add (.x 2) (.num 1))).at [] p - 0 = (Expr.sub (.x 1) (.x 2)).at [] p - 1) ∧
    ∃ P P', formulate .linear .max [] (.x 1) [(.le, .sub (.x 1) (.add (.x 2) (.num 1)), .num 0)] = .ok P ∧
      formulate .linear .max [] (.x 1) [(.le, .sub (.x 1) (.x 2), .num 1)] = .ok P' ∧
      P.A = P'.A ∧ P.b = [0] ∧ P'.b = [1] := by
  refine ⟨fun p => by simp only [Expr.at]; ring, ⟨[[1, -1]], [0], [1, 0], 0, .max, [.le], [], [], none, false⟩,
    ⟨[[1, -1]], [1], [1, 0], 0, .max, [.le], [], [], none, false⟩, by with_unfolding_all rfl,
    by with_unfolding_all rfl, rfl, rfl, rfl⟩

/-- C142 is false when a variable cancels: `x[1] + x[2] - x[2] <= 1` says the same as `x[1] <= 1` but has another
number of columns. -/
theorem C142_cancel_wrong :
    (∀ p : Point, (Expr.sub (.add (.x 1) (.x 2)) (.x 2)).at [] p = (Expr.x 1).at [] p) ∧
    ∃ P P', formulate .linear .max [] (.x 1) [(.le, .sub (.add (.x 1) (.x 2)) (.x 2), .num 1)] = .ok P ∧
      formulate .linear .max [] (.x 1) [(.le, .x 1, .num 1)] = .ok P' ∧ P.A = [[1, 0]] ∧ P'.A = [[1]] := by
  refine ⟨fun p => by simp only [Expr.at]; ring, ⟨[[1, 0]], [1], [1, 0], 0, .max, [.le], [], [], none, false⟩,
    ⟨[[1]], [1], [1], 0, .max, [.le], [], [], none, false⟩, by with_unfolding_all rfl,
    by with_unfolding_all rfl, rfl, rfl⟩

/-- `maximize(x[1] + 2 * x[2]).subject_to(3 >= x[1] + x[2])` and
`maximize(2 * x[2] + x[1]).subject_to(x[2] + x[1] <= 3)` meet the hypotheses of `C142_same_partial`. -/
example : List.Forall₂ SameComparison [(.ge, .num 3, .add (.x 1) (.x 2))] [(.le, .add (.x 2) (.x 1), .num 3)] ∧
    columns [(.ge, .num 3, .add (.x 1) (.x 2))] = columns [(.le, .add (.x 2) (.x 1), .num 3)] ∧
    Simple (.add (.x 1) (.mul (.num 2) (.x 2))) ∧ Simple (.add (.x 1) (.x 2)) ∧ Simple (.add (.x 2) (.x 1)) ∧
    Simple (.num 3) ∧ Comparable .ge (.num 3) (.add (.x 1) (.x 2)) ∧
    (∃ P, formulate .linear .max [] (.add (.x 1) (.mul (.num 2) (.x 2))) [(.ge, .num 3, .add (.x 1) (.x 2))] = .ok P ∧
      P.A = [[1, 1]] ∧ P.ineqs = [.le]) := by
  refine ⟨.cons ⟨rfl, fun p => ?_⟩ .nil, by decide, ⟨rfl, by simp [Expr.Linear, Expr.isNum],
    by simp [Expr.Plain, Expr.isNum, Expr.at]⟩, ⟨rfl, by simp [Expr.Linear], by simp [Expr.Plain, Expr.at]⟩,
    ⟨rfl, by simp [Expr.Linear], by simp [Expr.Plain, Expr.at]⟩, ⟨rfl, trivial, trivial⟩,
    ⟨by simp [Expr.isNum], Or.inl rfl, by simp⟩,
    ⟨[[1, 1]], [3], [1, 2], 0, .max, [.le], [], [], none, false⟩, by with_unfolding_all rfl, rfl, rfl⟩
  simp only [turnedSign, Expr.isNum, Expr.at]
  simp
  ring

end Props
end Pytimize
