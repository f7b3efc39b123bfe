/-
The size of an expression: the scale on which rounding errors of the formulation language are measured.
-/
import Verif.Float.EquationInt

namespace Pytimize
namespace Floating
open Formulation

/-- The size of a number: its absolute value, but at least one. -/
def PyNum.size (n : PyNum) : ℚ := max |n.val| 1

/-- The size of an equation at a point: the sum of the sizes of its terms and its constant. -/
def eqnSize (e : GEqn PyNum) (p : Point) : ℚ := (e.terms.map fun t => t.2.size * |p t.1|).sum + |e.const.val|

/-- The size of an expression at a point: its value with all numbers, variables and signs taken positive, and numbers
at least one. -/
def GExpr.sizeAt (h : GHeap PyNum) (p : Point) : GExpr PyNum → ℚ
  | .num n => n.size
  | .x i => |p (i - 1).toNat|
  | .var k => |p k|
  | .ref a => eqnSize (h.getD a ⟨[], .int 0⟩) p
  | .pos e => e.sizeAt h p
  | .neg e => e.sizeAt h p
  | .add e f => e.sizeAt h p + f.sizeAt h p
  | .sub e f => e.sizeAt h p + f.sizeAt h p
  | .mul e f => e.sizeAt h p * f.sizeAt h p

abbrev exactHeap (h : GHeap PyNum) : Heap := h.map (GEqn.read PyNum.val)
abbrev sizeHeap (h : GHeap PyNum) : Heap := h.map (sizeEqn PyNum.val 1)
abbrev sizeExpr (e : GExpr PyNum) : Expr := unsigned (e.read fun n => max |n.val| 1)

theorem eqnSize_eq (h : GHeap PyNum) (a : ℕ) (p : Point) :
    (deref (sizeHeap h) a).at (fun i => |p i|) = eqnSize (h.getD a ⟨[], .int 0⟩) p := by
  unfold deref
  rw [List.getD_eq_getElem?_getD, List.getElem?_map, List.getD_eq_getElem?_getD]
  cases h[a]? with
  | none => simp [Eqn.at, evalTerms, eqnSize, PyNum.val]
  | some e => simp [Eqn.at, evalTerms, eqnSize, sizeEqn, vmap, PyNum.size, Function.comp_def]

theorem sizeAt_eq (h : GHeap PyNum) (p : Point) (e : GExpr PyNum) :
    (sizeExpr e).at (sizeHeap h) (fun i => |p i|) = e.sizeAt h p := by
  induction e with
  | num q => rfl
  | x i => rfl
  | var k => rfl
  | ref a => exact eqnSize_eq h a p
  | pos e ih => exact ih
  | neg e ih => exact ih
  | add e f i1 i2 => exact congrArg₂ (· + ·) i1 i2
  | sub e f i1 i2 => exact congrArg₂ (· + ·) i1 i2
  | mul e f i1 i2 => exact congrArg₂ (· * ·) i1 i2

theorem sizeAt_zero (h : GHeap PyNum) (e : GExpr PyNum) :
    (sizeExpr e).at (sizeHeap h) (fun _ => 0) = e.sizeAt h fun _ => 0 := by
  rw [← sizeAt_eq]
  simp

theorem isNum_read (f g : PyNum → ℚ) (e : GExpr PyNum) : (unsigned (e.read f)).isNum = (e.read g).isNum := by
  induction e with
  | num q => rfl
  | x i => rfl
  | var k => rfl
  | ref a => rfl
  | pos e ih => simpa [GExpr.read, unsigned, Expr.isNum] using ih
  | neg e ih => simpa [GExpr.read, unsigned, Expr.isNum] using ih
  | add e f i1 i2 => simp [GExpr.read, unsigned, Expr.isNum, i1, i2]
  | sub e f i1 i2 => simp [GExpr.read, unsigned, Expr.isNum, i1, i2]
  | mul e f i1 i2 => simp [GExpr.read, unsigned, Expr.isNum, i1, i2]

theorem refs_read (f g : PyNum → ℚ) (e : GExpr PyNum) : (unsigned (e.read f)).refs = (e.read g).refs := by
  induction e with
  | num q => rfl
  | x i => rfl
  | var k => rfl
  | ref a => rfl
  | pos e ih => simpa [GExpr.read, unsigned, Expr.refs] using ih
  | neg e ih => simpa [GExpr.read, unsigned, Expr.refs] using ih
  | add e f i1 i2 => simp [GExpr.read, unsigned, Expr.refs, i1, i2]
  | sub e f i1 i2 => simp [GExpr.read, unsigned, Expr.refs, i1, i2]
  | mul e f i1 i2 => simp [GExpr.read, unsigned, Expr.refs, i1, i2]

theorem linear_read (f g : PyNum → ℚ) {e : GExpr PyNum} (h : (e.read g).Linear) : (unsigned (e.read f)).Linear := by
  induction e with
  | num q => trivial
  | x i => exact h
  | var k => trivial
  | ref a => trivial
  | pos e ih => exact ih h
  | neg e ih => exact ih h
  | add e f' i1 i2 => exact ⟨i1 h.1, i2 h.2⟩
  | sub e f' i1 i2 => exact ⟨i1 h.1, i2 h.2⟩
  | mul e f' i1 i2 => exact ⟨i1 h.1, i2 h.2.1, by rw [isNum_read f g, isNum_read f g]; exact h.2.2⟩

/-- The size bounds the value. -/
theorem abs_le_size (h : GHeap PyNum) (p : Point) (e : GExpr PyNum) :
    |(e.read PyNum.val).at (exactHeap h) p| ≤ e.sizeAt h p := by
  induction e with
  | num q => exact le_max_left _ _
  | x i => exact le_refl _
  | var k => exact le_refl _
  | ref a =>
    simp only [GExpr.read, Expr.at, GExpr.sizeAt, exactHeap, deref]
    rw [List.getD_eq_getElem?_getD, List.getElem?_map, List.getD_eq_getElem?_getD]
    cases h[a]? with
    | none => simp [Eqn.at, evalTerms, eqnSize, PyNum.val]
    | some e =>
      simp only [Option.map_some, Option.getD_some, Eqn.at, eqnSize, GEqn.read]
      refine (abs_add_le _ _).trans (add_le_add ?_ le_rfl)
      induction e.terms with
      | nil => simp [evalTerms]
      | cons t d ih =>
        rw [List.map_cons, evalTerms_cons, List.map_cons, List.sum_cons]
        refine (abs_add_le _ _).trans (add_le_add ?_ ih)
        rw [abs_mul]
        exact mul_le_mul_of_nonneg_right (le_max_left _ _) (abs_nonneg _)
  | pos e ih => exact ih
  | neg e ih => exact (abs_neg _).le.trans ih
  | add e f i1 i2 => exact (abs_add_le _ _).trans (add_le_add i1 i2)
  | sub e f i1 i2 => exact (abs_sub _ _).trans (add_le_add i1 i2)
  | mul e f i1 i2 => exact (abs_mul _ _).le.trans (mul_le_mul i1 i2 (abs_nonneg _) ((abs_nonneg _).trans i1))

/-- The size is smallest at the origin. -/
theorem size_mono (h : GHeap PyNum) (p : Point) (e : GExpr PyNum) :
    0 ≤ e.sizeAt h (fun _ => 0) ∧ e.sizeAt h (fun _ => 0) ≤ e.sizeAt h p := by
  induction e with
  | num q => exact ⟨le_trans zero_le_one (le_max_right _ _), le_refl _⟩
  | x i => simp [GExpr.sizeAt]
  | var k => simp [GExpr.sizeAt]
  | ref a =>
    simp only [GExpr.sizeAt, eqnSize, abs_zero, mul_zero, List.map_const', List.sum_replicate, smul_zero, zero_add]
    refine ⟨abs_nonneg _, le_add_of_nonneg_left (List.sum_nonneg fun y hy => ?_)⟩
    obtain ⟨t, -, rfl⟩ := List.mem_map.mp hy
    exact mul_nonneg (le_trans zero_le_one (le_max_right _ _)) (abs_nonneg _)
  | pos e ih => exact ih
  | neg e ih => exact ih
  | add e f i1 i2 => exact ⟨add_nonneg i1.1 i2.1, add_le_add i1.2 i2.2⟩
  | sub e f i1 i2 => exact ⟨add_nonneg i1.1 i2.1, add_le_add i1.2 i2.2⟩
  | mul e f i1 i2 => exact ⟨mul_nonneg i1.1 i2.1, mul_le_mul i1.2 i2.2 i2.1 (i1.1.trans i1.2)⟩

/-- No expression with a constant term is negated, scaled, subtracted, or added on the right of something that is not
a number. -/
def GExpr.Tidy (h : GHeap PyNum) : GExpr PyNum → Prop
  | .num _ => True
  | .x _ => True
  | .var _ => True
  | .ref _ => True
  | .pos e => e.Tidy h
  | .neg e => e.Tidy h ∧ ((e.read PyNum.val).isNum ∨ e.sizeAt h (fun _ => 0) = 0)
  | .add e f => e.Tidy h ∧ f.Tidy h ∧
      ((e.read PyNum.val).isNum ∨ (f.read PyNum.val).isNum ∨ f.sizeAt h (fun _ => 0) = 0)
  | .sub e f => e.Tidy h ∧ f.Tidy h ∧ ((f.read PyNum.val).isNum ∨ f.sizeAt h (fun _ => 0) = 0)
  | .mul e f => e.Tidy h ∧ f.Tidy h ∧ ((e.read PyNum.val).isNum ∨ e.sizeAt h (fun _ => 0) = 0) ∧
      ((f.read PyNum.val).isNum ∨ f.sizeAt h (fun _ => 0) = 0)

theorem zero_of_size {h : GHeap PyNum} {e : GExpr PyNum} (hz : e.sizeAt h (fun _ => 0) = 0) :
    (e.read PyNum.val).at (exactHeap h) (fun _ => 0) = 0 := by
  have := abs_le_size h (fun _ => 0) e
  rw [hz] at this
  exact abs_nonpos_iff.mp this

theorem plain_exact {h : GHeap PyNum} {e : GExpr PyNum} (ht : e.Tidy h) : (e.read PyNum.val).Plain (exactHeap h) := by
  induction e with
  | num q => trivial
  | x i => trivial
  | var k => trivial
  | ref a => trivial
  | pos e ih => exact ih ht
  | neg e ih => exact ⟨ih ht.1, ht.2.imp id zero_of_size⟩
  | add e f i1 i2 => exact ⟨i1 ht.1, i2 ht.2.1, ht.2.2.imp id (Or.imp id zero_of_size)⟩
  | sub e f i1 i2 => exact ⟨i1 ht.1, i2 ht.2.1, ht.2.2.imp id zero_of_size⟩
  | mul e f i1 i2 => exact ⟨i1 ht.1, i2 ht.2.1, ht.2.2.1.imp id zero_of_size, ht.2.2.2.imp id zero_of_size⟩

theorem plain_size {h : GHeap PyNum} {e : GExpr PyNum} (ht : e.Tidy h) : (sizeExpr e).Plain (sizeHeap h) := by
  have num : ∀ e : GExpr PyNum, (e.read PyNum.val).isNum → (sizeExpr e).isNum := fun e h => by
    rw [isNum_read _ PyNum.val]; exact h
  have zero : ∀ e : GExpr PyNum, e.sizeAt h (fun _ => 0) = 0 → (sizeExpr e).at (sizeHeap h) (fun _ => 0) = 0 :=
    fun e hz => (sizeAt_zero h e).trans hz
  induction e with
  | num q => trivial
  | x i => trivial
  | var k => trivial
  | ref a => trivial
  | pos e ih => exact ih ht
  | neg e ih => exact ih ht.1
  | add e f i1 i2 => exact ⟨i1 ht.1, i2 ht.2.1, ht.2.2.imp (num e) (Or.imp (num f) (zero f))⟩
  | sub e f i1 i2 => exact ⟨i1 ht.1, i2 ht.2.1, Or.inr (ht.2.2.imp (num f) (zero f))⟩
  | mul e f i1 i2 => exact ⟨i1 ht.1, i2 ht.2.1, ht.2.2.1.imp (num e) (zero e), ht.2.2.2.imp (num f) (zero f)⟩

/-- `k` operations multiply the relative error by about `k`. -/
theorem pow_bound {k : ℕ} (hk : k ≤ 2 ^ 50) : ((1 + 1 / 2 ^ 51 : ℚ)) ^ k - 1 ≤ k / 2 ^ 50 := by
  set x : ℚ := 1 / 2 ^ 51 with hx
  have hx0 : 0 ≤ x := by positivity
  have hkx : (k : ℚ) * x ≤ 1 / 2 := by
    have : (k : ℚ) ≤ 2 ^ 50 := by exact_mod_cast hk
    calc (k : ℚ) * x ≤ 2 ^ 50 * x := mul_le_mul_of_nonneg_right this hx0
      _ = 1 / 2 := by rw [hx]; norm_num
  have hb : 1 - k * x ≤ (1 - x) ^ k := by
    have := one_add_mul_le_pow (a := -x) (by rw [hx]; norm_num) k
    rw [← sub_eq_add_neg] at this
    linarith
  have h1 : (1 + x) ^ k * (1 - x) ^ k ≤ 1 := by
    rw [← mul_pow]
    refine pow_le_one₀ ?_ ?_
    · exact mul_nonneg (by linarith) (by rw [hx]; norm_num)
    · nlinarith
  have hp : 0 ≤ (1 + x) ^ k := by positivity
  have h2 : (1 + x) ^ k * (1 - k * x) ≤ 1 := (mul_le_mul_of_nonneg_left hb hp).trans h1
  have h3 : (1 + x) ^ k ≤ 1 + 2 * (k * x) := by
    have hkx0 : 0 ≤ (k : ℚ) * x := by positivity
    by_contra hc
    push Not at hc
    generalize (k : ℚ) * x = y at *
    generalize (1 + x) ^ k = z at *
    have h4 : (1 + 2 * y) * (1 - y) < z * (1 - y) := mul_lt_mul_of_pos_right hc (by linarith)
    nlinarith
  have e : (k : ℚ) / 2 ^ 50 = 2 * (k * x) := by rw [hx]; ring
  rw [e]
  linarith

theorem good_read {h : GHeap PyNum} (hg : ∀ e ∈ h, e.terms ≠ [] ∧ Dict.WF e.terms) (f g : PyNum → ℚ) :
    Good (h.map fun e => ⟨vmap f e.terms, g e.const⟩) := by
  intro e he
  obtain ⟨e0, h0, rfl⟩ := List.mem_map.mp he
  obtain ⟨h1, h2⟩ := hg e0 h0
  refine ⟨?_, ?_⟩
  · simpa [vmap] using h1
  · have := vmap_keys (φ := f) e0.terms
    unfold Dict.WF at *
    rw [show Dict.keys (vmap f e0.terms) = Dict.keys e0.terms from this]
    exact h2

end Floating
end Pytimize
