/-
Formulations written with Python's integers: the compiled arrays are exact while the numbers are small.
-/
import Verif.Float.GenerateProof
import Verif.Props.FormulationProgram

namespace Pytimize
namespace Floating
open Formulation
open LinProg (Ineq Obj)
open Props (Simple)

abbrev ratExpr (e : GExpr ℤ) : Expr := e.read fun z : ℤ => (z : ℚ)

/-- The size of an expression: read with every number positive and every variable one. -/
def weight : GExpr ℤ → ℤ
  | .num k => |k|
  | .x _ => 1
  | .var _ => 1
  | .ref _ => 0
  | .pos e => weight e
  | .neg e => weight e
  | .add e f => weight e + weight f
  | .sub e f => weight e + weight f
  | .mul e f => weight e * weight f

theorem weight_nonneg (e : GExpr ℤ) : 0 ≤ weight e := by
  induction e with
  | num k => exact abs_nonneg k
  | x i => exact zero_le_one
  | var k => exact zero_le_one
  | ref a => exact le_rfl
  | pos e ih => exact ih
  | neg e ih => exact ih
  | add e f ih jh => exact add_nonneg ih jh
  | sub e f ih jh => exact add_nonneg ih jh
  | mul e f ih jh => exact mul_nonneg ih jh

theorem at_le_weight (h : Heap) {p : Point} (hp : ∀ i, |p i| ≤ 1) {e : GExpr ℤ} (hr : (ratExpr e).refs = []) :
    |(ratExpr e).at h p| ≤ (weight e : ℚ) := by
  induction e with
  | num k => simp [GExpr.read, Expr.at, weight]
  | x i => simpa [GExpr.read, Expr.at, weight] using hp _
  | var k => simpa [GExpr.read, Expr.at, weight] using hp _
  | ref a => simp [GExpr.read, Expr.refs] at hr
  | pos e ih => exact ih hr
  | neg e ih =>
    show |-(ratExpr e).at h p| ≤ _
    rw [abs_neg]; exact ih hr
  | add e f ih jh =>
    simp only [ratExpr, GExpr.read, Expr.refs, List.append_eq_nil_iff] at hr
    have h1 := ih hr.1
    have h2 := jh hr.2
    have h3 := abs_add_le ((ratExpr e).at h p) ((ratExpr f).at h p)
    show |(ratExpr e).at h p + (ratExpr f).at h p| ≤ ((weight e + weight f : ℤ) : ℚ)
    push_cast
    linarith
  | sub e f ih jh =>
    simp only [ratExpr, GExpr.read, Expr.refs, List.append_eq_nil_iff] at hr
    have h1 := ih hr.1
    have h2 := jh hr.2
    have h3 := abs_sub ((ratExpr e).at h p) ((ratExpr f).at h p)
    show |(ratExpr e).at h p - (ratExpr f).at h p| ≤ ((weight e + weight f : ℤ) : ℚ)
    push_cast
    linarith
  | mul e f ih jh =>
    simp only [ratExpr, GExpr.read, Expr.refs, List.append_eq_nil_iff] at hr
    have h1 := ih hr.1
    have h2 := jh hr.2
    show |(ratExpr e).at h p * (ratExpr f).at h p| ≤ ((weight e * weight f : ℤ) : ℚ)
    push_cast
    rw [abs_mul]
    exact mul_le_mul h1 h2 (abs_nonneg _) ((abs_nonneg _).trans h1)

/-- The runs of an integer expression: in doubles, exactly, and in the integers. -/
theorem eval_int {h : GHeap ℤ} (hg : Good (toRat h)) {e : GExpr ℤ} (hs : Simple (ratExpr e)) :
    ∃ (h' : GHeap ℤ) (v : GVal ℤ), geval (pyOps binary64) (toPy h) (e.map PyNum.int) = .ok (toPy h', v.map PyNum.int) ∧
      EvalSpec (toRat h) (ratExpr e) (toRat h') (v.read fun z : ℤ => (z : ℚ)) := by
  obtain ⟨h', w, hw⟩ := eval_spec hg hs.linear (by simp [hs.closed]) (by simp [hs.closed])
  have h1 := eval_exact hom_int_rat h e
  have h2 := (hom_int_py binary64).eval h e
  rw [hw.run] at h1
  generalize geval intOps h e = r at h1 h2
  cases r with
  | error r => cases h1
  | ok r =>
    obtain ⟨h3, v⟩ := r
    simp only [Except.map, resRead, Except.ok.injEq, Prod.mk.injEq] at h1
    obtain ⟨rfl, rfl⟩ := h1
    exact ⟨h3, v, h2, hw⟩

/-- The point at which only one variable is not zero. -/
def unit (k : ℕ) : Point := fun i => if i = k then 1 else 0

theorem evalTerms_unit {d : Dict ℕ ℚ} (hd : d.WF) {t : ℕ × ℚ} (ht : t ∈ d) : evalTerms d (unit t.1) = t.2 := by
  induction d with
  | nil => simp at ht
  | cons s d ih =>
    rw [evalTerms_cons]
    have hn : s.1 ∉ Dict.keys d ∧ Dict.WF d := by
      simpa [Dict.WF, Dict.keys] using hd
    rcases List.mem_cons.mp ht with rfl | ht
    · have h0 : evalTerms d (unit t.1) = 0 := by
        have h1 : t.1 ∉ Dict.keys d := hn.1
        clear ih ht hd hn
        induction d with
        | nil => rfl
        | cons s d ih =>
          rw [evalTerms_cons, ih (fun h => h1 (by simp [Dict.keys] at h ⊢; exact Or.inr h))]
          have : s.1 ≠ t.1 := fun h => h1 (by simp [Dict.keys, h])
          simp [unit, this]
      rw [h0]; simp [unit]
    · have h1 : s.1 ≠ t.1 := fun h => hn.1 (h ▸ List.mem_map.mpr ⟨t, ht, rfl⟩)
      rw [ih hn.2 ht]
      simp [unit, h1]

theorem small_of_weight {h h' : GHeap ℤ} {e : GExpr ℤ} {v : GVal ℤ} (hs : Simple (ratExpr e))
    (he : EvalSpec (toRat h) (ratExpr e) (toRat h') (v.read fun z : ℤ => (z : ℚ))) (hw : weight e ≤ 2 ^ 51) :
    SmallVal (2 ^ 52) h' v := by
  have hwq : (weight e : ℚ) ≤ 2 ^ 51 := by exact_mod_cast hw
  have h0 := at_le_weight (toRat h) (p := fun _ => 0) (by simp) hs.closed
  have hc := he.cst ((Expr.plain_frame (by simp [hs.closed])).mpr hs.plain)
  cases v with
  | var k => trivial
  | none => trivial
  | num q =>
    simp only [GVal.read, cst_num] at hc
    rw [← hc] at h0
    have : |(q : ℚ)| ≤ 2 ^ 52 := by norm_num at *; linarith
    show |q| ≤ 2 ^ 52
    exact_mod_cast this
  | eqn a =>
    simp only [GVal.read, cst_eqn, deref_rat] at hc
    constructor
    · intro t ht
      have h1 := he.lin (unit t.1)
      have h2 := at_le_weight (toRat h) (p := unit t.1) (by intro i; unfold unit; split <;> simp) hs.closed
      simp only [GVal.read, lin_eqn, deref_rat] at h1
      have h3 : evalTerms ((gderef intOps h' a).read fun z : ℤ => (z : ℚ)).terms (unit t.1) = (t.2 : ℚ) := by
        have hg := wf_deref he.step.good a
        exact evalTerms_unit (d := vmap (fun z : ℤ => (z : ℚ)) _) (t := (t.1, (t.2 : ℚ))) (vmap_WF _ hg)
          (List.mem_map.mpr ⟨t, ht, rfl⟩)
      rw [h3] at h1
      have h4 := abs_sub ((ratExpr e).at (toRat h) (unit t.1)) ((ratExpr e).at (toRat h) fun _ => 0)
      rw [← h1] at h4
      have : |(t.2 : ℚ)| ≤ 2 ^ 52 := by norm_num at *; linarith
      exact_mod_cast this
    · rw [← hc] at h0
      have : |((gderef intOps h' a).const : ℚ)| ≤ 2 ^ 52 := h0.trans (by norm_num at *; linarith)
      exact_mod_cast this

/-- The expressions of a formulation: as users write them, and not too large. -/
structure SmallExpr (e : GExpr ℤ) : Prop where
  simple : Simple (ratExpr e)
  weight : weight e ≤ 2 ^ 51

theorem SmallVal.frame {B : ℤ} {h h' : GHeap ℤ} {v : GVal ℤ}
    (hf : ∀ a, v = .eqn a → gderef intOps h' a = gderef intOps h a) (hs : SmallVal B h v) : SmallVal B h' v := by
  cases v with
  | eqn a =>
    show SmallEqn B _
    rw [hf a rfl]; exact hs
  | _ => exact hs

theorem frame_rat {h h' : GHeap ℤ} {a : ℕ} (hd : deref (toRat h') a = deref (toRat h) a) :
    gderef intOps h' a = gderef intOps h a := by
  rw [deref_rat, deref_rat] at hd
  simp only [GEqn.read, Eqn.mk.injEq, Int.cast_inj] at hd
  have h1 : Function.Injective fun t : ℕ × ℤ => (t.1, (t.2 : ℚ)) := by
    rintro ⟨a, b⟩ ⟨c, d⟩ h
    simpa using h
  have h2 := h1.list_map hd.1
  generalize gderef intOps h' a = e at h2 hd
  generalize gderef intOps h a = f at h2 hd
  obtain ⟨t, c⟩ := e
  obtain ⟨t', c'⟩ := f
  simp only at h2 hd
  rw [h2, hd.2]

theorem compareExpr_int {h : GHeap ℤ} (hg : Good (toRat h)) (op : Ineq) {e f : GExpr ℤ} (he : SmallExpr e)
    (hf : SmallExpr f) :
    (∃ r, fcompareExpr binary64 (toPy h) op (e.map PyNum.int) (f.map PyNum.int) = .error r ∧
      compareExpr (toRat h) op (ratExpr e) (ratExpr f) = .error r) ∨
    ∃ h' c, fcompareExpr binary64 (toPy h) op (e.map PyNum.int) (f.map PyNum.int) = .ok (toPy h', c) ∧
      compareExpr (toRat h) op (ratExpr e) (ratExpr f) = .ok (toRat h', c.toCon binary64) ∧ Good (toRat h') := by
  obtain ⟨h1, v, e1, e2⟩ := eval_int hg he.simple
  obtain ⟨h2, w, f1, f2⟩ := eval_int e2.step.good hf.simple
  have sv : SmallVal (2 ^ 52) h2 v := by
    refine (small_of_weight he.simple e2 he.weight).frame fun a ha => frame_rat (f2.step.frame a ?_ ?_)
    · have := e2.step.ok
      rw [ha] at this
      exact this
    · simp [hf.simple.closed]
  have sw := small_of_weight hf.simple f2 hf.weight
  have hc := compare_int f2.step.good op sv sw
  unfold fcompareExpr compareExpr
  simp only [e1, e2.run, f1, f2.run]
  generalize fcompare binary64 (toPy h2) op (v.map PyNum.int) (w.map PyNum.int) = a at hc
  rw [← hc]
  cases a with
  | error r => exact .inl ⟨r, rfl, rfl⟩
  | ok c => exact .inr ⟨h2, c, rfl, rfl, f2.step.good⟩

/-- The constraints of a formulation, read. -/
abbrev pyCons (l : List (Ineq × GExpr ℤ × GExpr ℤ)) : List (Ineq × GExpr PyNum × GExpr PyNum) :=
  l.map fun t => (t.1, t.2.1.map PyNum.int, t.2.2.map PyNum.int)
abbrev ratCons (l : List (Ineq × GExpr ℤ × GExpr ℤ)) : List (Ineq × Expr × Expr) :=
  l.map fun t => (t.1, ratExpr t.2.1, ratExpr t.2.2)

theorem evalCons_int {h : GHeap ℤ} (hg : Good (toRat h)) {l : List (Ineq × GExpr ℤ × GExpr ℤ)}
    (hl : ∀ t ∈ l, SmallExpr t.2.1 ∧ SmallExpr t.2.2) :
    (∃ r, fevalCons binary64 (toPy h) (pyCons l) = .error r ∧ evalCons (toRat h) (ratCons l) = .error r) ∨
    ∃ h' cs, fevalCons binary64 (toPy h) (pyCons l) = .ok (toPy h', cs) ∧
      evalCons (toRat h) (ratCons l) = .ok (toRat h', cs.map (FCon.toCon binary64)) := by
  induction l generalizing h with
  | nil => exact .inr ⟨h, [], rfl, rfl⟩
  | cons t l ih =>
    obtain ⟨s1, s2⟩ := hl t (List.mem_cons_self ..)
    simp only [pyCons, ratCons, List.map_cons, fevalCons, evalCons]
    rcases compareExpr_int hg t.1 s1 s2 with ⟨r, r1, r2⟩ | ⟨h1, c, r1, r2, r3⟩
    · exact .inl ⟨r, by rw [r1], by rw [r2]⟩
    · rw [r1, r2]
      rcases ih r3 fun t ht => hl t (List.mem_cons_of_mem _ ht) with ⟨r, q1, q2⟩ | ⟨h2, cs, q1, q2⟩
      · exact .inl ⟨r, by simp only [pyCons] at q1; simp only [q1], by simp only [ratCons] at q2; simp only [q2]⟩
      · exact .inr ⟨h2, c :: cs, by simp only [pyCons] at q1; simp only [q1],
          by simp only [ratCons] at q2; simp only [q2, List.map_cons]⟩

theorem formulate_int (pk : Package) (o : Obj) {obj : GExpr ℤ} (ho : SmallExpr obj)
    {l : List (Ineq × GExpr ℤ × GExpr ℤ)} (hl : ∀ t ∈ l, SmallExpr t.2.1 ∧ SmallExpr t.2.2) :
    fformulate binary64 pk o [] (obj.map PyNum.int) (pyCons l) = formulate pk o [] (ratExpr obj) (ratCons l) := by
  have hg : Good (toRat []) := by intro e he; simp at he
  obtain ⟨h1, v, e1, e2⟩ := eval_int hg ho.simple
  have sv := small_of_weight ho.simple e2 ho.weight
  have hO := optimize_int pk o sv
  have e1' : geval (pyOps binary64) [] (obj.map PyNum.int) = _ := e1
  have e2' : eval [] (ratExpr obj) = _ := e2.run
  unfold fformulate formulate
  simp only [e1', e2', hO]
  cases optimize pk o (toRat h1) (v.read fun z : ℤ => (z : ℚ)) with
  | error r => rfl
  | ok O =>
    simp only
    rcases evalCons_int e2.step.good hl with ⟨r, q1, q2⟩ | ⟨h2, cs, q1, q2⟩
    · rw [q1, q2]
    · rw [q1, q2]

end Floating
end Pytimize
