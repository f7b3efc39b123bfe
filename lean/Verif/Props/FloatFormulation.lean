/-
Property C121: the formulation language on Python's integers and floats.
-/
import Verif.Float.EquationSize
import Verif.Props.Formulation

namespace Pytimize
namespace Props
open Formulation Floating

/-- The value at a point of what an expression evaluated to. -/
abbrev gotAt (h : GHeap PyNum) (p : Point) (w : GVal PyNum) : ℚ := (w.read PyNum.val).at (exactHeap h) p

/-- The value of an expression at a point, as the user reads it. -/
abbrev meantAt (h : GHeap PyNum) (p : Point) (e : GExpr PyNum) : ℚ := (e.read PyNum.val).at (exactHeap h) p

/-- The assumptions on the equations the user already has, and on the expression: as in C61. -/
structure WrittenNum (h : GHeap PyNum) (e : GExpr PyNum) : Prop where
  good : ∀ f ∈ h, f.terms ≠ [] ∧ Dict.WF f.terms
  linear : (e.read PyNum.val).Linear
  once : (e.read PyNum.val).refs.Nodup
  known : ∀ a ∈ (e.read PyNum.val).refs, a < h.length

theorem wf_of_good {h : GHeap PyNum} (hg : ∀ f ∈ h, f.terms ≠ [] ∧ Dict.WF f.terms) : ∀ f ∈ h, Dict.WF f.terms :=
  fun f hf => (hg f hf).2

/-- C121, part 1: rounding does not change whether an expression raises, nor what it raises. -/
theorem C121_errors (h : GHeap PyNum) (hw : ∀ f ∈ h, Dict.WF f.terms) (e : GExpr PyNum) (r : PyErr) :
    geval (pyOps binary64) h e = .error r ↔ eval (exactHeap h) (e.read PyNum.val) = .error r := by
  rcases three_runs double_lawful hw e with ⟨r', h1, h2⟩ | ⟨h', w, hx, wx, hs, ws, h1, h2, -⟩
  · rw [h1, h2]; exact ⟨fun h => (by cases h; rfl), fun h => (by cases h; rfl)⟩
  · rw [h1, h2]; exact ⟨fun h => (by cases h), fun h => (by cases h)⟩

/-- The three runs of a written expression: in doubles, exact, and on sizes. -/
theorem writtenNum_runs {h : GHeap PyNum} {e : GExpr PyNum} (H : WrittenNum h e) :
    ∃ h' w hx wx hs ws, geval (pyOps binary64) h e = .ok (h', w) ∧ w ≠ .none ∧
      eval (exactHeap h) (e.read PyNum.val) = .ok (hx, wx) ∧ eval (sizeHeap h) (sizeExpr e) = .ok (hs, ws) ∧
      (∀ p, |gotAt h' p w - wx.at hx p| ≤ ((1 + 1 / 2 ^ 51) ^ e.ops - 1) * ws.at hs fun i => |p i|) ∧
      (∀ p, |(gotAt h' p w - gotAt h' (fun _ => 0) w) - (meantAt h p e - meantAt h (fun _ => 0) e)| ≤
        ((1 + 1 / 2 ^ 51) ^ e.ops - 1) * (e.sizeAt h p - e.sizeAt h fun _ => 0)) := by
  obtain ⟨x1, y1, r1, n1, -, l1⟩ := C61_linear_partial (h := exactHeap h) (good_read H.good _ _) H.linear H.once
    (by simpa using H.known)
  obtain ⟨x2, y2, r2, -, -, l2⟩ := C61_linear_partial (h := sizeHeap h) (e := sizeExpr e)
    (good_read H.good (fun n => max |n.val| 1) fun n => |n.val|)
    (linear_read _ _ H.linear) (by rw [refs_read _ PyNum.val]; exact H.once)
    (by rw [refs_read _ PyNum.val]; simpa using H.known)
  rcases three_runs double_lawful (wf_of_good H.good) e with
    ⟨r, q1, q2⟩ | ⟨h', w, hx, wx, hs, ws, q1, q2, q3, -, qn, qa, qb⟩
  · rw [r1] at q2; cases q2
  · have p2 := r1.symm.trans q2
    have p3 := r2.symm.trans q3
    cases p2
    cases p3
    refine ⟨h', w, x1, y1, x2, y2, q1, fun hw => n1 (qn.mp hw), r1, r2, qa, fun p => ?_⟩
    have h1 := qb p
    rw [l1 p fun _ => 0] at h1
    have h2 := l2 (fun i => |p i|) fun _ => 0
    rw [h2, sizeAt_eq, sizeAt_zero] at h1
    exact h1

/-- C121, part 2: a linear expression with `k` additions, subtractions and products evaluates in double precision to a
linear function whose coefficients are right up to the relative error `k / 2 ^ 50`, relative to the size of the
expression. -/
theorem C121_linear {h : GHeap PyNum} {e : GExpr PyNum} (H : WrittenNum h e) (hk : e.ops ≤ 2 ^ 50) :
    ∃ h' w, geval (pyOps binary64) h e = .ok (h', w) ∧ w ≠ .none ∧
      ∀ p, |(gotAt h' p w - gotAt h' (fun _ => 0) w) - (meantAt h p e - meantAt h (fun _ => 0) e)| ≤
        e.ops / 2 ^ 50 * (e.sizeAt h p - e.sizeAt h fun _ => 0) := by
  obtain ⟨h', w, -, -, -, -, q1, q2, -, -, -, qb⟩ := writtenNum_runs H
  exact ⟨h', w, q1, q2, fun p => (qb p).trans
    (mul_le_mul_of_nonneg_right (pow_bound hk) (sub_nonneg.mpr (size_mono h p e).2))⟩

/-- C121, part 3: the value itself, constant included, is right up to the same relative error when no expression with a
constant term is negated, scaled, subtracted or added from the right. For other placements of numbers it
fails even in exact arithmetic (`C61_neg_wrong`, `C61_scale_wrong`, `C61_right_wrong`). -/
theorem C121_value {h : GHeap PyNum} {e : GExpr PyNum} (H : WrittenNum h e) (ht : e.Tidy h) (hk : e.ops ≤ 2 ^ 50) :
    ∃ h' w, geval (pyOps binary64) h e = .ok (h', w) ∧ w ≠ .none ∧
      ∀ p, |gotAt h' p w - meantAt h p e| ≤ e.ops / 2 ^ 50 * e.sizeAt h p := by
  obtain ⟨h', w, hx, wx, hs, ws, q1, q2, q3, q4, qa, -⟩ := writtenNum_runs H
  obtain ⟨x1, y1, r1, -, l1⟩ := C61_partial (h := exactHeap h) (good_read H.good _ _) H.linear H.once
    (by simpa using H.known) (plain_exact ht)
  obtain ⟨x2, y2, r2, -, l2⟩ := C61_partial (h := sizeHeap h) (e := sizeExpr e)
    (good_read H.good (fun n => max |n.val| 1) fun n => |n.val|)
    (linear_read _ _ H.linear) (by rw [refs_read _ PyNum.val]; exact H.once)
    (by rw [refs_read _ PyNum.val]; simpa using H.known) (plain_size ht)
  have p3 := r1.symm.trans q3
  have p4 := r2.symm.trans q4
  cases p3
  cases p4
  refine ⟨h', w, q1, q2, fun p => ?_⟩
  have h1 := qa p
  rw [l1 p, l2, sizeAt_eq] at h1
  refine h1.trans (mul_le_mul_of_nonneg_right (pow_bound hk) ?_)
  exact (size_mono h p e).1.trans (size_mono h p e).2

/-- C121, part 4: on Python's integers nothing is rounded, whatever their size: the run is the exact run. -/
theorem C121_int (R : Rounding) (h : GHeap ℤ) (e : GExpr ℤ) :
    eval (h.map (GEqn.read fun z : ℤ => (z : ℚ))) (e.read fun z : ℤ => (z : ℚ)) =
      (geval (pyOps R) (h.map (GEqn.map PyNum.int)) (e.map PyNum.int)).map (resRead PyNum.val) := by
  rw [eval_exact hom_int_rat, (hom_int_py R).eval]
  cases geval intOps h e with
  | error r => rfl
  | ok r =>
    simp only [Except.map, resMap, resRead, heap_read_map, val_read_map]
    rfl

/-- C121, part 5: floats that are integers give the exact coefficients while the size of the expression at the point is
below `2 ^ 50 / k`. -/
theorem C121_whole {h : GHeap PyNum} {e : GExpr PyNum} (H : WrittenNum h e) (hk : e.ops ≤ 2 ^ 50)
    (hh : ∀ f ∈ h, f.All fun n => Whole n.val) (he : e.All fun n => Whole n.val) :
    ∃ h' w, geval (pyOps binary64) h e = .ok (h', w) ∧ w ≠ .none ∧
      ∀ p : ℕ → ℤ, e.ops * (e.sizeAt h (fun i => p i) - e.sizeAt h fun _ => 0) < 2 ^ 50 →
        gotAt h' (fun i => p i) w - gotAt h' (fun _ => 0) w =
          meantAt h (fun i => p i) e - meantAt h (fun _ => 0) e := by
  obtain ⟨h', w, q1, q2, q3⟩ := C121_linear H hk
  obtain ⟨a1, a2⟩ := eval_all closed_whole hh he q1
  refine ⟨h', w, q1, q2, fun p hp => ?_⟩
  have wp : ∀ i, Whole ((fun i => (p i : ℚ)) i) := fun i => ⟨p i, rfl⟩
  have w0 : ∀ i : ℕ, Whole ((fun _ => 0 : Point) i) := fun i => ⟨0, by simp⟩
  refine whole_eq (whole_sub (whole_val a1 a2 wp) (whole_val a1 a2 w0))
    (whole_sub (whole_expr hh he wp) (whole_expr hh he w0)) ((q3 _).trans_lt ?_)
  rw [div_mul_eq_mul_div, div_lt_one (by positivity)]
  exact hp

theorem not_double : ¬ IsDouble (2 ^ 53 + 1) := by
  rintro ⟨k, e, h, hk, -⟩
  by_cases he : 0 < e
  · obtain ⟨n, rfl⟩ : ∃ n : ℕ, e = n + 1 := ⟨(e - 1).toNat, by omega⟩
    have h1 : (2 ^ 53 + 1 : ℤ) = k * 2 ^ (n + 1) := by
      have h2 : ((n : ℤ) + 1) = ((n + 1 : ℕ) : ℤ) := by push_cast; rfl
      rw [h2, zpow_natCast] at h
      exact_mod_cast h
    have h3 : (2 : ℤ) ∣ k * 2 ^ (n + 1) := Dvd.intro_left (k * 2 ^ n) (by ring)
    rw [← h1] at h3
    norm_num at h3
  · have h1 : (2 : ℚ) ^ e ≤ 1 := zpow_le_one_of_nonpos₀ (by norm_num) (by omega)
    have h2 : (k : ℚ) ≤ 2 ^ 53 := by exact_mod_cast (le_abs_self k).trans hk
    have h3 : (0 : ℚ) < 2 ^ e := by positivity
    have h4 : (k : ℚ) * 2 ^ e ≤ 2 ^ 53 * 1 := mul_le_mul h2 h1 h3.le (by norm_num)
    rw [← h] at h4
    norm_num at h4

/-- C121: the size condition of `C121_whole` cannot be dropped: in `9007199254740992.0 * x[1] + 1.0 * x[1]` the
coefficient is not the sum. -/
theorem C121_exact_wrong :
    let e : GExpr PyNum := .add (.mul (.num (.float (2 ^ 53))) (.x 1)) (.mul (.num (.float 1)) (.x 1))
    WrittenNum [] e ∧ e.All (fun n => Whole n.val) ∧ ∃ h' w, geval (pyOps binary64) [] e = .ok (h', w) ∧
      gotAt h' (fun _ => 1) w ≠ meantAt [] (fun _ => 1) e := by
  intro e
  refine ⟨⟨by simp, ?_, ?_, ?_⟩, ?_, ?_⟩
  · simp [e, GExpr.read, Expr.Linear, Expr.isNum]
  · simp [e, GExpr.read, Expr.refs]
  · simp [e, GExpr.read, Expr.refs]
  · exact ⟨⟨⟨2 ^ 53, by push_cast; rfl⟩, trivial⟩, ⟨1, by simp [PyNum.val]⟩, trivial⟩
  · have r1 : binary64.rd ((1 : ℤ) : ℚ) = 1 := (binary64_rep.mpr (isDouble_int (by norm_num))).trans (by norm_num)
    have r2 : binary64.rd (2 ^ 53) = 2 ^ 53 := by
      have := binary64_rep.mpr (isDouble_int (k := (2 : ℤ) ^ 53) (by norm_num))
      unfold Rounding.Rep at this
      push_cast at this
      exact this
    have r3 : binary64.rd 1 = 1 := by simpa using r1
    refine ⟨[⟨[(0, .float (binary64.rd (binary64.rd (binary64.rd ((1 : ℤ) : ℚ) * 2 ^ 53) +
      binary64.rd (binary64.rd ((1 : ℤ) : ℚ) * 1))))], .int 0⟩,
      ⟨[(0, .float (binary64.rd (binary64.rd ((1 : ℤ) : ℚ) * 1)))], .int 0⟩], .eqn 0, rfl, fun hc => ?_⟩
    rw [r1, one_mul, one_mul, r2, r3] at hc
    have e1 : meantAt [] (fun _ => 1) e = 2 ^ 53 + 1 := by
      simp only [meantAt, e, GExpr.read, Expr.at, PyNum.val, mul_one]
    rw [e1] at hc
    refine not_double (binary64_rep.mp (?_ : binary64.rd _ = _))
    refine Eq.trans ?_ hc
    simp only [gotAt, GVal.read, Val.at, deref, exactHeap, List.map_cons, List.map_nil, List.getD_cons_zero, GEqn.read,
      Eqn.at, evalTerms_cons, evalTerms_nil, PyNum.val, mul_one, Int.cast_zero, add_zero]

/-- `0.1 * x[1] - (e + 2 * x[3]) * 3` with an equation `e` of the user meets the hypotheses of `C121_linear` and
`C121_value`. -/
example : let h : GHeap PyNum := [⟨[(1, .float 3), (4, .int 7)], .int 0⟩]
    let e : GExpr PyNum := .sub (.mul (.num (.float (toDouble (1 / 10)))) (.x 1))
      (.mul (.add (.ref 0) (.mul (.num (.int 2)) (.x 3))) (.num (.int 3)))
    WrittenNum h e ∧ e.Tidy h ∧ e.ops ≤ 2 ^ 50 := by
  intro h e
  refine ⟨⟨?_, ?_, ?_, ?_⟩, ?_, ?_⟩
  · simp [h, Dict.WF, Dict.keys]
  · simp [e, GExpr.read, Expr.Linear, Expr.isNum]
  · simp [e, GExpr.read, Expr.refs]
  · simp [e, h, GExpr.read, Expr.refs]
  · simp [e, h, GExpr.Tidy, GExpr.read, Expr.isNum, GExpr.sizeAt, eqnSize, PyNum.val]
  · simp [e, GExpr.ops]

/-- `2.0 * x[1] + 3 * x[1]` meets the hypotheses of `C121_whole`, at every point below `2 ^ 46`. -/
example : let e : GExpr PyNum := .add (.mul (.num (.float 2)) (.x 1)) (.mul (.num (.int 3)) (.x 1))
    WrittenNum [] e ∧ e.All (fun n => Whole n.val) ∧ ∀ z : ℤ, |z| < 2 ^ 46 →
      e.ops * (e.sizeAt [] (fun _ => z) - e.sizeAt [] fun _ => 0) < 2 ^ 50 := by
  intro e
  refine ⟨⟨by simp, ?_, ?_, ?_⟩, ?_, fun z hz => ?_⟩
  · simp [e, GExpr.read, Expr.Linear, Expr.isNum]
  · simp [e, GExpr.read, Expr.refs]
  · simp [e, GExpr.read, Expr.refs]
  · exact ⟨⟨⟨2, by simp [PyNum.val]⟩, trivial⟩, ⟨3, by simp [PyNum.val]⟩, trivial⟩
  · have h2 : |(z : ℚ)| < 2 ^ 46 := by rw [← Int.cast_abs]; exact_mod_cast hz
    simp only [e, GExpr.ops, GExpr.sizeAt, PyNum.size, PyNum.val, abs_zero, mul_zero, add_zero, sub_zero]
    norm_num
    linarith

end Props
end Pytimize
