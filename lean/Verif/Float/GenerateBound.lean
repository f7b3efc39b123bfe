/-
The rounding errors of a constraint, from the expressions as written to the row of the program.
-/
import Verif.Float.GenerateInt
import Verif.Float.EquationFrame
import Verif.Props.FloatFormulation

namespace Pytimize
namespace Floating
open Formulation
open LinProg (Ineq Obj)
open Props

/-- The equation a value is compared as. -/
def asEqn (h : GHeap PyNum) : GVal PyNum → GEqn PyNum
  | .num q => ⟨[], q⟩
  | .var k => ⟨[(k, .int 1)], .int 0⟩
  | .eqn a => gderef (pyOps binary64) h a
  | .none => ⟨[], .int 0⟩

/-- Equations and variables. -/
def HasTerms (v : GVal PyNum) : Prop := (∃ a, v = .eqn a) ∨ ∃ k, v = .var k

/-- A comparison with a row is a constraint between the two equations, one way or the other. -/
theorem compare_lin {h : GHeap PyNum} {op : Ineq} {v w : GVal PyNum} {c : FLinCon}
    (hc : fcompare binary64 h op v w = .ok (.lin c)) :
    (fgenerate binary64 op (asEqn h v) (asEqn h w) = .ok c ∧ HasTerms v) ∨
      (fgenerate binary64 (flip op) (asEqn h w) (asEqn h v) = .ok c ∧ HasTerms w) := by
  have eqn : ∀ {op : Ineq} {e : GEqn PyNum} {w : GVal PyNum}, fcmpEqn binary64 h op e w = .ok (.lin c) →
      fgenerate binary64 op e (asEqn h w) = .ok c := by
    intro op e w hw
    cases w with
    | num q =>
      simp only [fcmpEqn] at hw
      split at hw
      · cases hw
      · rename_i he; cases hw; exact he
    | eqn a =>
      simp only [fcmpEqn] at hw
      split at hw
      · cases hw
      · rename_i he; cases hw; exact he
    | var k => cases hw
    | none => cases hw
  have var : ∀ {op : Ineq} {k : ℕ} {w : GVal PyNum}, fcmpVar binary64 h op k w = .ok (.lin c) →
      fgenerate binary64 op (asEqn h (.var k)) (asEqn h w) = .ok c := by
    intro op k w hw
    refine eqn ?_
    cases op <;> cases w <;> simp only [fcmpVar] at hw <;> first
      | exact hw
      | (split at hw
         · cases hw
         · exact hw)
  cases v with
  | num p =>
    cases w with
    | num q => cases hc
    | eqn b => exact .inr ⟨eqn hc, .inl ⟨b, rfl⟩⟩
    | var k => exact .inr ⟨var hc, .inr ⟨k, rfl⟩⟩
    | none => simp only [fcompare] at hc; split at hc <;> cases hc
  | eqn a =>
    refine .inl ⟨eqn ?_, .inl ⟨a, rfl⟩⟩
    cases w <;> exact hc
  | var k =>
    refine .inl ⟨var ?_, .inr ⟨k, rfl⟩⟩
    cases w <;> exact hc
  | none =>
    cases w with
    | num q => simp only [fcompare] at hc; split at hc <;> cases hc
    | eqn b => exact .inr ⟨eqn hc, .inl ⟨b, rfl⟩⟩
    | var k => exact .inr ⟨var hc, .inr ⟨k, rfl⟩⟩
    | none => simp only [fcompare] at hc; split at hc <;> cases hc

theorem asEqn_wf {h : GHeap PyNum} (hg : GGood h) {v : GVal PyNum} : Dict.WF (asEqn h v).terms := by
  cases v with
  | num q => exact List.nodup_nil
  | var k => simp [asEqn, Dict.WF, Dict.keys]
  | none => exact List.nodup_nil
  | eqn a =>
    by_cases ha : a < h.length
    · exact (hg.deref _ ha).2
    · simp [asEqn, gderef, List.getD_eq_getElem?_getD, List.getElem?_eq_none (not_lt.mp ha), Dict.WF, Dict.keys]

theorem evalTerms_unit_get {d : Dict ℕ ℚ} (hd : d.WF) (i : ℕ) : evalTerms d (unit i) = (d.get? i).getD 0 := by
  cases hg : d.get? i with
  | some q => exact evalTerms_unit hd (t := (i, q)) (mem_of_get? hg)
  | none =>
    have : ∀ d : Dict ℕ ℚ, d.get? i = none → evalTerms d (unit i) = 0 := by
      intro d
      induction d with
      | nil => intro _; rfl
      | cons t d ih =>
        obtain ⟨j, q⟩ := t
        intro h
        by_cases hj : j = i
        · simp [Dict.get?, hj] at h
        · simp [Dict.get?, hj] at h
          rw [evalTerms_cons, ih h]
          simp [unit, hj]
    rw [this d hg]; rfl

theorem read_deref (h : GHeap PyNum) (a : ℕ) :
    deref (exactHeap h) a = (gderef (pyOps binary64) h a).read PyNum.val := by
  unfold gderef deref
  rw [List.getD_eq_getElem?_getD, List.getD_eq_getElem?_getD, List.getElem?_map]
  cases h[a]? with
  | none => simp [GEqn.read, pyOps, PyNum.val]
  | some e => rfl

/-- The coefficients and the constant of a value, from its values at points. -/
theorem coeff_of_value {h : GHeap PyNum} (hg : GGood h) {v : GVal PyNum} (hv : v ≠ .none) :
    (∀ i, coeffOf PyNum.val (asEqn h v) i = gotAt h (unit i) v - gotAt h (fun _ => 0) v) ∧
      (asEqn h v).const.val = gotAt h (fun _ => 0) v := by
  have hw := asEqn_wf hg (v := v)
  have key : ∀ i, coeffOf PyNum.val (asEqn h v) i = evalTerms ((asEqn h v).read PyNum.val).terms (unit i) := by
    intro i
    rw [show ((asEqn h v).read PyNum.val).terms = vmap PyNum.val (asEqn h v).terms from rfl,
      evalTerms_unit_get (vmap_WF _ hw), vmap_get?]
    rfl
  cases v with
  | none => exact (hv rfl).elim
  | num q =>
    refine ⟨fun i => ?_, rfl⟩
    rw [key]
    show 0 = q.val - q.val
    rw [sub_self]
  | var k =>
    refine ⟨fun i => ?_, ?_⟩
    · rw [key]
      show evalTerms [(k, ((1 : ℤ) : ℚ))] (unit i) = unit i k - 0
      simp [evalTerms]
    · show ((0 : ℤ) : ℚ) = 0
      simp
  | eqn a =>
    have h1 : ∀ p, gotAt h p (.eqn a) = evalTerms ((asEqn h (.eqn a)).read PyNum.val).terms p +
        (asEqn h (.eqn a)).const.val := by
      intro p
      show (deref (exactHeap h) a).at p = _
      rw [read_deref]
      rfl
    refine ⟨fun i => ?_, ?_⟩
    · rw [key, h1, h1, evalTerms_zero]; ring
    · rw [h1, evalTerms_zero, zero_add]

/-- Rounding a difference of converted numbers. -/
theorem sub_near {a b a' b' : ℚ} (ha : |a' - a| ≤ (1 / 2 ^ 53 + 1 / 2 ^ 1075) * |a|)
    (hb : |b' - b| ≤ (1 / 2 ^ 53 + 1 / 2 ^ 1075) * |b|) :
    |binary64.rd (a' - b') - (a - b)| ≤ (|a| + |b|) / 2 ^ 51 + 1 / 2 ^ 1075 := by
  have h1 := binary64.err (a' - b')
  have hu : binary64.u = 1 / 2 ^ 53 := rfl
  have ht : binary64.tiny = 1 / 2 ^ 1075 := rfl
  rw [hu, ht] at h1
  have h2 : (1 : ℚ) / 2 ^ 1075 ≤ 1 / 2 ^ 53 :=
    one_div_le_one_div_of_le (by positivity) (pow_le_pow_right₀ (by norm_num) (by norm_num))
  have h0 : (0 : ℚ) ≤ 1 / 2 ^ 1075 := by positivity
  generalize (1 : ℚ) / 2 ^ 1075 = t at *
  have na := abs_nonneg a
  have nb := abs_nonneg b
  have ha' : |a' - a| ≤ 1 / 2 ^ 52 * |a| := ha.trans (mul_le_mul_of_nonneg_right (by norm_num at *; linarith) na)
  have hb' : |b' - b| ≤ 1 / 2 ^ 52 * |b| := hb.trans (mul_le_mul_of_nonneg_right (by norm_num at *; linarith) nb)
  have h3 : |(a' - b') - (a - b)| ≤ 1 / 2 ^ 52 * |a| + 1 / 2 ^ 52 * |b| := by
    have := abs_sub (a' - a) (b' - b)
    rw [show (a' - b') - (a - b) = (a' - a) - (b' - b) by ring]
    linarith
  have h4 : |a' - b'| ≤ (|a| + |b|) * (1 + 1 / 2 ^ 52) := by
    have h5 := abs_add_le ((a' - b') - (a - b)) (a - b)
    rw [sub_add_cancel] at h5
    have h6 := abs_sub a b
    norm_num at *
    linarith
  have h7 := abs_add_le (binary64.rd (a' - b') - (a' - b')) ((a' - b') - (a - b))
  rw [sub_add_sub_cancel] at h7
  generalize |a| = x at *
  generalize |b| = y at *
  norm_num at *
  linarith

theorem toFloat_double (a : PyNum) : |a.toFloat binary64 - a.val| ≤ (1 / 2 ^ 53 + 1 / 2 ^ 1075) * |a.val| :=
  toFloat_near binary64 a

theorem coeffOf_near (e : GEqn PyNum) (i : ℕ) :
    |coeffOf (PyNum.toFloat binary64) e i - coeffOf PyNum.val e i| ≤
      (1 / 2 ^ 53 + 1 / 2 ^ 1075) * |coeffOf PyNum.val e i| := by
  unfold coeffOf
  cases e.terms.get? i with
  | none => simp
  | some a => exact toFloat_double a

/-- The rounding errors of `_generate_constraint`. -/
theorem generate_near {op : Ineq} {e f : GEqn PyNum} (h0 : e.terms ≠ []) (he : e.terms.WF) (hf : f.terms.WF) {c : FLinCon}
    (hc : fgenerate binary64 op e f = .ok c) :
    c.op = op ∧
    (∀ i, |c.coeffs.getD i 0 - (coeffOf PyNum.val e i - coeffOf PyNum.val f i)| ≤
      (|coeffOf PyNum.val e i| + |coeffOf PyNum.val f i|) / 2 ^ 51 + 1 / 2 ^ 1075) ∧
    |c.const.val - (f.const.val - e.const.val)| ≤ (|f.const.val| + |e.const.val|) / 2 ^ 51 + 1 / 2 ^ 1075 := by
  rcases fgenerate_spec binary64 op he hf with ⟨r, h1, -⟩ | ⟨c0, c', h1, -, h3, -, -, h6, -, h8⟩
  · rw [hc] at h1; cases h1
  rw [hc] at h1
  cases h1
  have t0 : (0 : ℚ) ≤ 1 / 2 ^ 1075 := by positivity
  have t1 : (1 : ℚ) / 2 ^ 1075 ≤ 1 / 2 ^ 53 :=
    one_div_le_one_div_of_le (by positivity) (pow_le_pow_right₀ (by norm_num) (by norm_num))
  have one : ∀ {x y : ℚ}, |x - y| ≤ (1 / 2 ^ 53 + 1 / 2 ^ 1075) * |y| → |x - y| ≤ |y| / 2 ^ 51 + 1 / 2 ^ 1075 := by
    intro x y hxy
    generalize (1 : ℚ) / 2 ^ 1075 = t at *
    have h9 := mul_le_mul_of_nonneg_right (show (1 : ℚ) / 2 ^ 53 + t ≤ 1 / 2 ^ 51 by norm_num at *; linarith)
      (abs_nonneg y)
    have : 1 / 2 ^ 51 * |y| = |y| / 2 ^ 51 := by ring
    linarith
  refine ⟨h3, fun i => ?_, ?_⟩
  · rcases h8 with ⟨-, -, a, -⟩ | ⟨hf0, a, -⟩ | ⟨he0, -⟩
    · rw [a]
      exact sub_near (coeffOf_near e i) (coeffOf_near f i)
    · have hz : coeffOf PyNum.val f i = 0 := by simp [coeffOf, hf0, Dict.get?]
      rw [a, hz, sub_zero, abs_zero, add_zero]
      exact one (coeffOf_near e i)
    · exact (h0 he0).elim
  · rw [h6]
    have hsub := sub_near (toFloat_double f.const) (toFloat_double e.const)
    generalize f.const = x at *
    generalize e.const = y at *
    cases x with
    | float p => exact hsub
    | int j =>
      cases y with
      | float q => exact hsub
      | int k =>
        simp only [pySub, PyNum.val]
        push_cast
        rw [sub_self, abs_zero]
        positivity

/-! ### From the text to the row -/

theorem closed_at (h : GHeap PyNum) (p : Point) {e : GExpr PyNum} (hc : e.Closed) :
    meantAt h p e = meantAt [] p e :=
  Expr.at_frame (by simp [closed_read _ hc]) p

theorem closed_size (h : GHeap PyNum) (p : Point) {e : GExpr PyNum} (hc : e.Closed) :
    e.sizeAt h p = e.sizeAt [] p := by
  induction e with
  | num q => rfl
  | x i => rfl
  | var k => rfl
  | ref a => exact hc.elim
  | pos e ih => exact ih hc
  | neg e ih => exact ih hc
  | add e f i1 i2 => exact congrArg₂ (· + ·) (i1 hc.1) (i2 hc.2)
  | sub e f i1 i2 => exact congrArg₂ (· + ·) (i1 hc.1) (i2 hc.2)
  | mul e f i1 i2 => exact congrArg₂ (· * ·) (i1 hc.1) (i2 hc.2)

theorem closed_tidy (h : GHeap PyNum) {e : GExpr PyNum} (hc : e.Closed) : e.Tidy [] → e.Tidy h := by
  induction e with
  | num q => exact id
  | x i => exact id
  | var k => exact id
  | ref a => exact hc.elim
  | pos e ih => exact ih hc
  | neg e ih =>
    have h1 := closed_size h (fun _ => 0) (e := e) hc
    simp only [GExpr.Tidy, h1]; exact fun ht => ⟨ih hc ht.1, ht.2⟩
  | add e f i1 i2 =>
    simp only [GExpr.Tidy, closed_size h _ hc.2]
    exact fun ht => ⟨i1 hc.1 ht.1, i2 hc.2 ht.2.1, ht.2.2⟩
  | sub e f i1 i2 =>
    simp only [GExpr.Tidy, closed_size h _ hc.2]
    exact fun ht => ⟨i1 hc.1 ht.1, i2 hc.2 ht.2.1, ht.2.2⟩
  | mul e f i1 i2 =>
    simp only [GExpr.Tidy, closed_size h _ hc.1, closed_size h _ hc.2]
    exact fun ht => ⟨i1 hc.1 ht.1, i2 hc.2 ht.2.1, ht.2.2⟩

/-- The coefficient of a variable in an expression, as the user reads it. -/
def coefficient (e : GExpr PyNum) (i : ℕ) : ℚ := meantAt [] (unit i) e - meantAt [] (fun _ => 0) e

/-- The constant term of an expression, as the user reads it. -/
def constant (e : GExpr PyNum) : ℚ := meantAt [] (fun _ => 0) e

/-- The sizes of the two: what they would be with every number and sign taken positive. -/
def coefficientSize (e : GExpr PyNum) (i : ℕ) : ℚ := e.sizeAt [] (unit i) - e.sizeAt [] fun _ => 0
def constantSize (e : GExpr PyNum) : ℚ := e.sizeAt [] fun _ => 0

theorem abs_coefficient {e : GExpr PyNum} (i : ℕ) (hc : e.Closed) (hl : (e.read PyNum.val).Linear) :
    |coefficient e i| ≤ coefficientSize e i := by
  unfold coefficient coefficientSize
  generalize unit i = p
  induction e with
  | num q => simp [meantAt, GExpr.read, Expr.at, GExpr.sizeAt]
  | x i => simp [meantAt, GExpr.read, Expr.at, GExpr.sizeAt]
  | var k => simp [meantAt, GExpr.read, Expr.at, GExpr.sizeAt]
  | ref a => exact hc.elim
  | pos e ih => exact ih hc hl
  | neg e ih =>
    have h1 := ih hc hl
    rw [← abs_neg] at h1
    refine le_of_eq_of_le (congrArg _ ?_) h1
    show -meantAt [] p e - -meantAt [] _ e = _
    ring
  | add e f i1 i2 =>
    have h1 := i1 hc.1 hl.1
    have h2 := i2 hc.2 hl.2
    have h3 := abs_add_le (meantAt [] p e - meantAt [] (fun _ => 0) e) (meantAt [] p f - meantAt [] (fun _ => 0) f)
    show |(meantAt [] p e + meantAt [] p f) - (meantAt [] _ e + meantAt [] _ f)| ≤
      (e.sizeAt [] p + f.sizeAt [] p) - (e.sizeAt [] _ + f.sizeAt [] _)
    rw [add_sub_add_comm]
    linarith
  | sub e f i1 i2 =>
    have h1 := i1 hc.1 hl.1
    have h2 := i2 hc.2 hl.2
    have h3 := abs_sub (meantAt [] p e - meantAt [] (fun _ => 0) e) (meantAt [] p f - meantAt [] (fun _ => 0) f)
    show |(meantAt [] p e - meantAt [] p f) - (meantAt [] _ e - meantAt [] _ f)| ≤
      (e.sizeAt [] p + f.sizeAt [] p) - (e.sizeAt [] _ + f.sizeAt [] _)
    rw [sub_sub_sub_comm]
    linarith
  | mul e f i1 i2 =>
    have h1 := i1 hc.1 hl.1
    have h2 := i2 hc.2 hl.2.1
    have e1 := abs_le_size [] p e
    have f1 := abs_le_size [] p f
    have e0 := size_mono [] p e
    have f0 := size_mono [] p f
    show |meantAt [] p e * meantAt [] p f - meantAt [] _ e * meantAt [] _ f| ≤
      e.sizeAt [] p * f.sizeAt [] p - e.sizeAt [] _ * f.sizeAt [] _
    rcases hl.2.2 with hn | hn
    · have h3 : meantAt [] p e = meantAt [] (fun _ => 0) e := Expr.at_num hn _ _ _ _
      have h4 := abs_le_size [] (fun _ => 0) e
      rw [h3, ← mul_sub, abs_mul]
      calc _ ≤ e.sizeAt [] (fun _ => 0) * (f.sizeAt [] p - f.sizeAt [] fun _ => 0) :=
            mul_le_mul h4 h2 (abs_nonneg _) e0.1
        _ ≤ _ := by nlinarith [mul_le_mul_of_nonneg_right e0.2 (f0.1.trans f0.2)]
    · have h3 : meantAt [] p f = meantAt [] (fun _ => 0) f := Expr.at_num hn _ _ _ _
      have h4 := abs_le_size [] (fun _ => 0) f
      rw [h3, ← sub_mul, abs_mul]
      calc _ ≤ (e.sizeAt [] p - e.sizeAt [] fun _ => 0) * f.sizeAt [] (fun _ => 0) :=
            mul_le_mul h1 h4 (abs_nonneg _) (sub_nonneg.mpr e0.2)
        _ ≤ _ := by nlinarith [mul_le_mul_of_nonneg_left f0.2 (e0.1.trans e0.2)]

/-- One side of a constraint after its evaluation. -/
theorem side_near {h : GHeap PyNum} (hg : GGood h) {e : GExpr PyNum} (hc : e.Closed)
    (hl : (e.read PyNum.val).Linear) (hk : e.ops ≤ 2 ^ 50) {h1 : GHeap PyNum} {v : GVal PyNum}
    (hr : geval (pyOps binary64) h e = .ok (h1, v)) :
    v ≠ .none ∧ GStep (pyOps binary64) h.length h h1 v ∧
      (∀ i, |coeffOf PyNum.val (asEqn h1 v) i - coefficient e i| ≤ e.ops / 2 ^ 50 * coefficientSize e i) ∧
      (e.Tidy [] → |(asEqn h1 v).const.val - constant e| ≤ e.ops / 2 ^ 50 * constantSize e) := by
  have hs := geval_step (b := h.length) hc hg le_rfl hr
  have hw : WrittenNum h e := ⟨hg, hl, by simp [closed_read _ hc], by simp [closed_read _ hc]⟩
  obtain ⟨h2, w, q1, q2, q3⟩ := C121_linear hw hk
  rw [hr] at q1
  cases q1
  obtain ⟨k1, k2⟩ := coeff_of_value hs.good q2
  refine ⟨q2, hs, fun i => ?_, fun ht => ?_⟩
  · have := q3 (unit i)
    rw [closed_at h _ hc, closed_at h _ hc, closed_size h _ hc, closed_size h _ hc, ← k1] at this
    exact this
  · obtain ⟨h3, w, r1, -, r3⟩ := C121_value hw (closed_tidy h hc ht) hk
    rw [hr] at r1
    cases r1
    have := r3 fun _ => 0
    rw [closed_at h _ hc, closed_size h _ hc, ← k2] at this
    exact this

/-- Two sides, subtracted. -/
theorem two_near {ke kf : ℕ} (hk : ke + kf + 1 ≤ 2 ^ 50) {x a A Sa b B Sb : ℚ} (hA : |A| ≤ Sa) (hB : |B| ≤ Sb)
    (ha : |a - A| ≤ ke / 2 ^ 50 * Sa) (hb : |b - B| ≤ kf / 2 ^ 50 * Sb)
    (hx : |x - (a - b)| ≤ (|a| + |b|) / 2 ^ 51 + 1 / 2 ^ 1075) :
    |x - (A - B)| ≤ (ke + kf + 1) / 2 ^ 50 * (Sa + Sb) + 1 / 2 ^ 1075 := by
  generalize (1 : ℚ) / 2 ^ 1075 = t at *
  have sa := (abs_nonneg A).trans hA
  have sb := (abs_nonneg B).trans hB
  have key : ∀ {k : ℕ} {y Y S : ℚ}, k ≤ 2 ^ 50 → 0 ≤ S → |Y| ≤ S → |y - Y| ≤ k / 2 ^ 50 * S → |y| ≤ 2 * S := by
    intro k y Y S h1 h2 h3 h4
    have h5 : (k : ℚ) / 2 ^ 50 ≤ 1 := by
      rw [div_le_one (by positivity)]
      exact_mod_cast h1
    have h6 := mul_le_mul_of_nonneg_right h5 h2
    have h7 := abs_add_le (y - Y) Y
    rw [sub_add_cancel] at h7
    linarith
  have h1 := key (by omega) sa hA ha
  have h2 := key (by omega) sb hB hb
  have h3 : (|a| + |b|) / 2 ^ 51 ≤ (Sa + Sb) / 2 ^ 50 := by
    rw [div_le_div_iff₀ (by positivity) (by positivity)]
    norm_num
    linarith
  have h4 := abs_add_le (x - (a - b)) ((a - A) - (b - B))
  have h5 := abs_sub (a - A) (b - B)
  rw [show x - (a - b) + ((a - A) - (b - B)) = x - (A - B) by ring] at h4
  have h6 : (ke : ℚ) / 2 ^ 50 * Sa + kf / 2 ^ 50 * Sb + (Sa + Sb) / 2 ^ 50 ≤
      (ke + kf + 1) / 2 ^ 50 * (Sa + Sb) := by
    have h7 : (0 : ℚ) ≤ ke / 2 ^ 50 * Sb := by positivity
    have h8 : (0 : ℚ) ≤ kf / 2 ^ 50 * Sa := by positivity
    have h9 : ((ke : ℚ) + kf + 1) / 2 ^ 50 * (Sa + Sb) = ke / 2 ^ 50 * Sa + kf / 2 ^ 50 * Sb + (Sa + Sb) / 2 ^ 50 +
      (ke / 2 ^ 50 * Sb + kf / 2 ^ 50 * Sa) := by ring
    linarith
  linarith

theorem asEqn_frame {h1 h2 : GHeap PyNum} {v w : GVal PyNum} {b : ℕ} (s : GStep (pyOps binary64) b h1 h2 w)
    (hv : ∀ a, v = .eqn a → a < b) : asEqn h2 v = asEqn h1 v := by
  cases v with
  | eqn a => exact s.frame a (hv a rfl)
  | _ => rfl

theorem terms_ne {h : GHeap PyNum} (hg : GGood h) {v : GVal PyNum} (hv : HasTerms v)
    (ho : ∀ a, v = .eqn a → a < h.length) : (asEqn h v).terms ≠ [] := by
  rcases hv with ⟨a, rfl⟩ | ⟨k, rfl⟩
  · exact (hg.deref _ (ho a rfl)).1
  · simp [asEqn]

/-- Converting the constant for the array. -/
theorem convert_near {n : PyNum} {x S K : ℚ} (hx : |x| ≤ S) (hK : K ≤ 2 ^ 50)
    (hn : |n.val - x| ≤ K / 2 ^ 50 * S + 1 / 2 ^ 1075) :
    |n.toFloat binary64 - x| ≤ (K + 1) / 2 ^ 50 * S + 1 / 2 ^ 1074 := by
  have h1 := toFloat_double n
  have t2 : (1 : ℚ) / 2 ^ 1074 = 2 * (1 / 2 ^ 1075) := by
    rw [pow_succ (2 : ℚ) 1074]
    field_simp
  have t1 : (1 : ℚ) / 2 ^ 1075 ≤ 1 / 2 ^ 53 :=
    one_div_le_one_div_of_le (by positivity) (pow_le_pow_right₀ (by norm_num) (by norm_num))
  have t0 : (0 : ℚ) ≤ 1 / 2 ^ 1075 := by positivity
  rw [t2]
  generalize (1 : ℚ) / 2 ^ 1075 = t at *
  have hs := (abs_nonneg x).trans hx
  have h2 : K / 2 ^ 50 * S ≤ 1 * S := mul_le_mul_of_nonneg_right ((div_le_one (by positivity)).mpr hK) hs
  have h3 := abs_add_le (n.val - x) x
  rw [sub_add_cancel] at h3
  have h4 : |n.val| ≤ 2 * S + t := by linarith
  have h5 : (1 / 2 ^ 53 + t) * |n.val| ≤ 1 / 2 ^ 52 * (2 * S + t) :=
    mul_le_mul (by norm_num at *; linarith) h4 (abs_nonneg _) (by positivity)
  have h6 := abs_add_le (n.toFloat binary64 - n.val) (n.val - x)
  rw [sub_add_sub_cancel] at h6
  have h7 : (K + 1) / 2 ^ 50 * S = K / 2 ^ 50 * S + 1 / 2 ^ 50 * S := by ring
  rw [h7]
  norm_num at *
  linarith

/-- The row of a constraint and the two expressions it was written with. -/
theorem row_near {h : GHeap PyNum} (hg : GGood h) {op : Ineq} {e f : GExpr PyNum} (ce : e.Closed) (cf : f.Closed)
    (le : (e.read PyNum.val).Linear) (lf : (f.read PyNum.val).Linear) (hk : e.ops + f.ops + 1 ≤ 2 ^ 50)
    {h' : GHeap PyNum} {c : FLinCon} (hc : fcompareExpr binary64 h op e f = .ok (h', .lin c)) :
    ∃ s : ℚ, (s = 1 ∧ c.op = op ∨ s = -1 ∧ c.op = flip op) ∧
      (∀ i, |c.coeffs.getD i 0 - s * (coefficient e i - coefficient f i)| ≤
        (e.ops + f.ops + 1) / 2 ^ 50 * (coefficientSize e i + coefficientSize f i) + 1 / 2 ^ 1075) ∧
      (e.Tidy [] → f.Tidy [] → |c.const.val - s * (constant f - constant e)| ≤
        (e.ops + f.ops + 1) / 2 ^ 50 * (constantSize e + constantSize f) + 1 / 2 ^ 1075) := by
  unfold fcompareExpr at hc
  split at hc
  · cases hc
  rename_i h1 v hv
  obtain ⟨nv, sv, v1, v2⟩ := side_near hg ce le (by omega) hv
  split at hc
  · cases hc
  rename_i h2 w hw
  obtain ⟨nw, sw, w1, w2⟩ := side_near sv.good cf lf (by omega) hw
  split at hc
  · cases hc
  rename_i c' hcmp
  cases hc
  have hf := asEqn_frame sw fun a ha => (sv.own a ha).2
  rw [← hf] at v1 v2
  have we := asEqn_wf sw.good (v := v)
  have wf := asEqn_wf sw.good (v := w)
  have hk' : f.ops + e.ops + 1 ≤ 2 ^ 50 := by omega
  have ac : ∀ {e : GExpr PyNum}, |constant e| ≤ constantSize e := abs_le_size [] _ _
  rcases compare_lin hcmp with ⟨hgen, ht⟩ | ⟨hgen, ht⟩
  · obtain ⟨g1, g2, g3⟩ := generate_near
      (terms_ne sw.good ht fun a ha => (sv.own a ha).2.trans_le sw.le) we wf hgen
    refine ⟨1, .inl ⟨rfl, g1⟩, fun i => ?_, fun te tf => ?_⟩
    · rw [one_mul]
      exact two_near hk (abs_coefficient i ce le) (abs_coefficient i cf lf) (v1 i) (w1 i) (g2 i)
    · rw [one_mul]
      have := two_near hk' ac ac (w2 tf) (v2 te) g3
      rw [add_comm (f.ops : ℚ), add_comm (constantSize f)] at this
      exact this
  · obtain ⟨g1, g2, g3⟩ := generate_near (terms_ne sw.good ht fun a ha => (sw.own a ha).2) wf we hgen
    refine ⟨-1, .inr ⟨rfl, g1⟩, fun i => ?_, fun te tf => ?_⟩
    · rw [neg_one_mul, neg_sub]
      have := two_near hk' (abs_coefficient i cf lf) (abs_coefficient i ce le) (w1 i) (v1 i) (g2 i)
      rw [add_comm (f.ops : ℚ), add_comm (coefficientSize f i)] at this
      exact this
    · rw [neg_one_mul, neg_sub]
      exact two_near hk ac ac (v2 te) (w2 tf) g3

end Floating
end Pytimize
