/-
A whole formulation in doubles: the arrays of the compiled program and the expressions they were written with.
-/
import Verif.Float.GenerateBound

namespace Pytimize
namespace Floating
open Formulation
open LinProg (Ineq Obj)
open Props

theorem dot_unit (l : List ℚ) (i : ℕ) : dot l (unit i) = l.getD i 0 := by
  unfold dot unit
  simp only [mul_ite, mul_one, mul_zero]
  rw [Finset.sum_ite_eq']
  split
  · rfl
  · rename_i h
    rw [Finset.mem_range, not_lt] at h
    rw [List.getD_eq_getElem?_getD, List.getElem?_eq_none h]
    rfl

/-- What the row of a constraint says about the two expressions it was written with: the coefficients `r`, the
operator `o` and the right-hand side `b`. -/
structure RowNear (op : Ineq) (e f : GExpr PyNum) (r : List ℚ) (o : Ineq) (b : ℚ) (s : ℚ) : Prop where
  side : s = 1 ∧ o = op ∨ s = -1 ∧ o = flip op
  coeff : ∀ i, |r.getD i 0 - s * (coefficient e i - coefficient f i)| ≤
    (e.ops + f.ops + 1) / 2 ^ 50 * (coefficientSize e i + coefficientSize f i) + 1 / 2 ^ 1075
  const : e.Tidy [] → f.Tidy [] → |b - s * (constant f - constant e)| ≤
    (e.ops + f.ops + 2) / 2 ^ 50 * (constantSize e + constantSize f) + 1 / 2 ^ 1074

theorem row_near' {h : GHeap PyNum} (hg : GGood h) {op : Ineq} {e f : GExpr PyNum} (ce : e.Closed) (cf : f.Closed)
    (le : (e.read PyNum.val).Linear) (lf : (f.read PyNum.val).Linear) (hk : e.ops + f.ops + 1 ≤ 2 ^ 50)
    {h' : GHeap PyNum} {c : FLinCon} (hc : fcompareExpr binary64 h op e f = .ok (h', .lin c)) :
    ∃ s, RowNear op e f c.coeffs c.op (c.const.toFloat binary64) s := by
  obtain ⟨s, h1, h2, h3⟩ := row_near hg ce cf le lf hk hc
  refine ⟨s, h1, h2, fun te tf => ?_⟩
  have hs : |s| = 1 := by rcases h1 with ⟨rfl, -⟩ | ⟨rfl, -⟩ <;> simp
  have h4 : |s * (constant f - constant e)| ≤ constantSize e + constantSize f := by
    rw [abs_mul, hs, one_mul]
    have h5 : |constant e| ≤ constantSize e := abs_le_size [] _ _
    have h6 : |constant f| ≤ constantSize f := abs_le_size [] _ _
    have := abs_sub (constant f) (constant e)
    linarith
  have := convert_near h4 (by exact_mod_cast hk) (h3 te tf)
  rw [add_assoc ((e.ops : ℚ) + f.ops), one_add_one_eq_two] at this
  exact this

/-- The expressions of a constraint: no names, linear, not too many operations. -/
structure Written (t : Ineq × GExpr PyNum × GExpr PyNum) : Prop where
  closedL : t.2.1.Closed
  closedR : t.2.2.Closed
  linearL : (t.2.1.read PyNum.val).Linear
  linearR : (t.2.2.read PyNum.val).Linear
  ops : t.2.1.ops + t.2.2.ops + 1 ≤ 2 ^ 50

theorem compareExpr_ggood {h : GHeap PyNum} (hg : GGood h) {op : Ineq} {e f : GExpr PyNum} (ce : e.Closed)
    (cf : f.Closed) {h' : GHeap PyNum} {c : FCon} (hc : fcompareExpr binary64 h op e f = .ok (h', c)) : GGood h' := by
  unfold fcompareExpr at hc
  split at hc
  · cases hc
  rename_i h1 v hv
  split at hc
  · cases hc
  rename_i h2 w hw
  split at hc
  · cases hc
  cases hc
  have s := geval_step (b := 0) ce hg (Nat.zero_le _) hv
  exact (geval_step (b := 0) cf s.good (Nat.zero_le _) hw).good

theorem evalCons_near {h : GHeap PyNum} (hg : GGood h) {l : List (Ineq × GExpr PyNum × GExpr PyNum)}
    (hl : ∀ t ∈ l, Written t) {h' : GHeap PyNum} {cs : List FCon} (hc : fevalCons binary64 h l = .ok (h', cs))
    {ds : List LinCon} (hd : cs.map (FCon.toCon binary64) = ds.map .lin) :
    List.Forall₂ (fun t d => ∃ s, RowNear t.1 t.2.1 t.2.2 (LinCon.coeffs d) d.op d.const s) l ds := by
  induction l generalizing h h' cs ds with
  | nil =>
    cases hc
    cases ds with
    | nil => exact .nil
    | cons d ds => cases hd
  | cons t l ih =>
    obtain ⟨op, e, f⟩ := t
    have ht := hl _ (List.mem_cons_self ..)
    unfold fevalCons at hc
    split at hc
    · cases hc
    rename_i h1 c hc1
    split at hc
    · cases hc
    rename_i h2 ks hc2
    cases hc
    cases ds with
    | nil => cases hd
    | cons d ds =>
      simp only [List.map_cons, List.cons.injEq] at hd
      refine .cons ?_ (ih (compareExpr_ggood hg ht.closedL ht.closedR hc1)
        (fun t h => hl t (List.mem_cons_of_mem _ h)) hc2 hd.2)
      cases c with
      | lin c =>
        obtain ⟨s, hs⟩ := row_near' hg ht.closedL ht.closedR ht.linearL ht.linearR ht.ops hc1
        refine ⟨s, ?_⟩
        have := hd.1
        simp only [FCon.toCon, Con.lin.injEq] at this
        rw [← this]
        exact hs
      | sign c => cases hd.1
      | bool b => cases hd.1

theorem objective_near {h : GHeap PyNum} (hg : GGood h) {e : GExpr PyNum} (hc : e.Closed)
    (hl : (e.read PyNum.val).Linear) (hk : e.ops + 1 ≤ 2 ^ 50) {h1 : GHeap PyNum} {v : GVal PyNum}
    (hr : geval (pyOps binary64) h e = .ok (h1, v)) {pk : Package} {o : Obj} {O : Objective}
    (hO : foptimize binary64 pk o h1 v = .ok O) :
    O.objective = o ∧ (∀ i, |(O.c.elim 0 fun b => dot b (unit i)) - coefficient e i| ≤
      (e.ops + 1) / 2 ^ 50 * coefficientSize e i) ∧
      (e.Tidy [] → |O.z - constant e| ≤ e.ops / 2 ^ 50 * constantSize e) := by
  obtain ⟨nv, sv, v1, v2⟩ := side_near hg hc hl (by omega) hr
  have key : ∀ i, |coeffOf (PyNum.toFloat binary64) (asEqn h1 v) i - coefficient e i| ≤
      (e.ops + 1) / 2 ^ 50 * coefficientSize e i := by
    intro i
    have h2 := abs_coefficient i hc hl
    have h3 := v1 i
    have h4 := coeffOf_near (asEqn h1 v) i
    generalize coeffOf (PyNum.toFloat binary64) (asEqn h1 v) i = x at *
    generalize coeffOf PyNum.val (asEqn h1 v) i = y at *
    generalize coefficient e i = z at *
    generalize coefficientSize e i = S at *
    have hs := (abs_nonneg z).trans h2
    have t1 : (1 : ℚ) / 2 ^ 1075 ≤ 1 / 2 ^ 53 :=
      one_div_le_one_div_of_le (by positivity) (pow_le_pow_right₀ (by norm_num) (by norm_num))
    generalize (1 : ℚ) / 2 ^ 1075 = t at *
    have h5 : (e.ops : ℚ) / 2 ^ 50 * S ≤ 1 * S := by
      refine mul_le_mul_of_nonneg_right ((div_le_one (by positivity)).mpr ?_) hs
      exact_mod_cast (by omega : e.ops ≤ 2 ^ 50)
    have h6 := abs_add_le (y - z) z
    rw [sub_add_cancel] at h6
    have h7 : (1 / 2 ^ 53 + t) * |y| ≤ 1 / 2 ^ 52 * (2 * S) :=
      mul_le_mul (by norm_num at *; linarith) (by linarith) (abs_nonneg _) (by positivity)
    have h8 := abs_add_le (x - y) (y - z)
    rw [sub_add_sub_cancel] at h8
    have h9 : ((e.ops : ℚ) + 1) / 2 ^ 50 * S = e.ops / 2 ^ 50 * S + 1 / 2 ^ 50 * S := by ring
    rw [h9]
    norm_num at *
    linarith
  cases v with
  | var k => cases hO
  | none => cases hO
  | num q =>
    cases hO
    refine ⟨rfl, fun i => ?_, v2⟩
    have := key i
    simpa [coeffOf, asEqn, Dict.get?] using this
  | eqn a =>
    cases hO
    refine ⟨rfl, fun i => ?_, v2⟩
    have hgd := sv.good.deref (pyOps binary64) (sv.own a rfl).2
    obtain ⟨l, l', a1, -, -, a4, -⟩ := coeffs_two binary64 hgd.1 hgd.2
    simp only [a1, Option.elim_some, dot_unit, a4]
    exact key i

/-- What a compiled formulation has in its arrays. -/
theorem formulate_near {pk : Package} {o : Obj} {obj : GExpr PyNum} (co : obj.Closed)
    (lo : (obj.read PyNum.val).Linear) (ko : obj.ops + 1 ≤ 2 ^ 50) {l : List (Ineq × GExpr PyNum × GExpr PyNum)}
    (hl : ∀ t ∈ l, Written t) {P : Abstract} (hP : fformulate binary64 pk o [] obj l = .ok P) :
    P.objective = o ∧ (∀ i, |P.c.getD i 0 - coefficient obj i| ≤ (obj.ops + 1) / 2 ^ 50 * coefficientSize obj i) ∧
      (obj.Tidy [] → |P.z - constant obj| ≤ obj.ops / 2 ^ 50 * constantSize obj) ∧
      P.A.length = l.length ∧ P.b.length = l.length ∧ P.ineqs.length = l.length ∧
      ∀ j (hj : j < l.length), ∃ s, RowNear l[j].1 l[j].2.1 l[j].2.2 (P.A.getD j []) (P.ineqs.getD j .eq)
        (P.b.getD j 0) s := by
  unfold fformulate at hP
  split at hP
  · cases hP
  rename_i h1 v hv
  split at hP
  · cases hP
  rename_i O hO
  split at hP
  · cases hP
  rename_i h2 cs hcs
  have hg0 : GGood ([] : GHeap PyNum) := by intro e he; simp at he
  obtain ⟨o1, o2, o3⟩ := objective_near hg0 co lo ko hv hO
  obtain ⟨ds, d1, d2, -⟩ := subjectTo_ok hP
  have hg1 := (geval_step (b := 0) co hg0 (Nat.zero_le _) hv).good
  have hf := evalCons_near hg1 hl hcs d1
  have len := hf.length_eq
  refine ⟨d2.obj.trans o1, fun i => ?_, fun ht => by rw [d2.z]; exact o3 ht, ?_, ?_, ?_, fun j hj => ?_⟩
  · rw [← dot_unit, d2.cost]; exact o2 i
  · rw [d2.rows.length_eq, len]
  · rw [d2.rhs, List.length_map, len]
  · rw [d2.ops, List.length_map, len]
  · have hj' : j < ds.length := len ▸ hj
    have hA : j < P.A.length := d2.rows.length_eq ▸ hj'
    obtain ⟨s, hs⟩ := forall₂_getElem hf j hj hj'
    obtain ⟨-, r2⟩ := forall₂_getElem d2.rows j hA hj'
    refine ⟨s, ?_, fun i => ?_, fun te tf => ?_⟩
    · rw [d2.ops, List.getD_eq_getElem?_getD, List.getElem?_map, List.getElem?_eq_getElem hj']
      exact hs.side
    · rw [List.getD_eq_getElem?_getD (l := P.A), List.getElem?_eq_getElem hA, Option.getD_some, ← dot_unit, r2,
        dot_unit]
      exact hs.coeff i
    · rw [d2.rhs, List.getD_eq_getElem?_getD, List.getElem?_map, List.getElem?_eq_getElem hj']
      exact hs.const te tf

end Floating
end Pytimize
