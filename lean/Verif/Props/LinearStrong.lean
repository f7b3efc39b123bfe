/-
Properties C80-C84: strong duality of `dual()`, complementary slackness conditions, completeness of the
certificates, `is_solution_optimal`, `IntegerProgram.is_feasible`.
-/
import Verif.LP.Duality
import Verif.LP.Slackness
import Verif.Props.LinearDual
import Verif.Props.LinearVerify
import Verif.Props.LinearBasic

namespace Pytimize
namespace Props
open LinProg Comparator

variable {m n : ℕ}

/-! ### Specification vocabulary -/

/-- `x` is an optimal solution. -/
def Best (P : LP m n) (x : Fin n → ℚ) : Prop :=
  Feas P x ∧ ∀ x', Feas P x' →
    (P.objective = .max → objVal P x' ≤ objVal P x) ∧ (P.objective = .min → objVal P x ≤ objVal P x')

/-- There are feasible points as good as one likes. -/
def NoBound (P : LP m n) : Prop :=
  ∀ M : ℚ, ∃ x, Feas P x ∧ (P.objective = .max → M < objVal P x) ∧ (P.objective = .min → objVal P x < M)

/-- Weak duality as an inequality between `c.x` and `b.y`. -/
theorem best_of_eq (P : LP m n) {x : Fin n → ℚ} {y : Fin m → ℚ} (hx : Feas P x) (hy : Feas (dual P) y)
    (e : P.c ⬝ᵥ x = P.b ⬝ᵥ y) : Best P x ∧ Best (dual P) y := by
  refine ⟨⟨hx, fun x' hx' => ⟨fun ho => ?_, fun ho => ?_⟩⟩, ⟨hy, fun y' hy' => ⟨fun ho => ?_, fun ho => ?_⟩⟩⟩
  · have := weak_max P ho hx' hy
    unfold objVal; linarith
  · have := weak_min P ho hx' hy
    unfold objVal; linarith
  · have hm : P.objective = .min := by
      cases h : P.objective
      · simp [dual, h] at ho
      · rfl
    have := weak_min P hm hx hy'
    have e1 : objVal (dual P) y = P.b ⬝ᵥ y + 0 := rfl
    have e2 : objVal (dual P) y' = P.b ⬝ᵥ y' + 0 := rfl
    rw [e1, e2]; linarith
  · have hm : P.objective = .max := by
      cases h : P.objective
      · rfl
      · simp [dual, h] at ho
    have := weak_max P hm hx hy'
    have e1 : objVal (dual P) y = P.b ⬝ᵥ y + 0 := rfl
    have e2 : objVal (dual P) y' = P.b ⬝ᵥ y' + 0 := rfl
    rw [e1, e2]; linarith

/-- Optimal solutions come with dual solutions of the same value. -/
theorem best_dual (P : LP m n) {x : Fin n → ℚ} (h : Best P x) :
    ∃ y, Feas (dual P) y ∧ P.c ⬝ᵥ x = P.b ⬝ᵥ y := by
  cases ho : P.objective
  · obtain ⟨x', y, hx', hy, e⟩ := strong_max P ho h.1 (d := P.c ⬝ᵥ x) (fun x' hx' => by
      have := (h.2 x' hx').1 ho
      unfold objVal at this; linarith)
    refine ⟨y, hy, ?_⟩
    have h1 := (h.2 x' hx').1 ho
    have h2 := weak_max P ho h.1 hy
    unfold objVal at h1
    linarith
  · obtain ⟨x', y, hx', hy, e⟩ := strong_min P ho h.1 (d := P.c ⬝ᵥ x) (fun x' hx' => by
      have := (h.2 x' hx').2 ho
      unfold objVal at this; linarith)
    refine ⟨y, hy, ?_⟩
    have h1 := (h.2 x' hx').2 ho
    have h2 := weak_min P ho h.1 hy
    unfold objVal at h1
    linarith

/-- A feasible program has an optimal solution or no bound. -/
theorem best_or_noBound (P : LP m n) {x0 : Fin n → ℚ} (h0 : Feas P x0) : (∃ x, Best P x) ∨ NoBound P := by
  by_contra hn
  push Not at hn
  obtain ⟨h1, h2⟩ := hn
  unfold NoBound at h2
  push Not at h2
  obtain ⟨M, hM⟩ := h2
  cases ho : P.objective
  · obtain ⟨x, y, hx, hy, e⟩ := strong_max P ho h0 (d := M - P.z) (fun x hx => by
      by_contra hc
      push Not at hc
      have h3 := hM x hx (fun _ => by unfold objVal; linarith)
      rw [ho] at h3
      cases h3.1)
    exact h1 x (best_of_eq P hx hy e).1
  · obtain ⟨x, y, hx, hy, e⟩ := strong_min P ho h0 (d := M - P.z) (fun x hx => by
      by_contra hc
      push Not at hc
      have h3 := (hM x hx (fun h => by rw [ho] at h; cases h)).2
      unfold objVal at h3
      linarith)
    exact h1 x (best_of_eq P hx hy e).1

theorem not_noBound_of_dual (P : LP m n) {y : Fin m → ℚ} (hy : Feas (dual P) y) : ¬ NoBound P := by
  intro h
  obtain ⟨x, hx, h1, h2⟩ := h (P.b ⬝ᵥ y + P.z)
  cases ho : P.objective
  · have := h1 ho
    have := weak_max P ho hx hy
    unfold objVal at *; linarith
  · have := h2 ho
    have := weak_min P ho hx hy
    unfold objVal at *; linarith

theorem feas_setZ (P : LP m n) (z : ℚ) (x : Fin n → ℚ) : Feas { P with z := z } x ↔ Feas P x :=
  ⟨fun h => ⟨h.rows, h.negs, h.poss⟩, fun h => ⟨h.rows, h.negs, h.poss⟩⟩

theorem feas_dual_dual (P : LP m n) (hP : WF P) (x : Fin n → ℚ) : Feas (dual (dual P)) x ↔ Feas P x := by
  rw [C34_involution_partial P hP, feas_setZ]

/-! ### C80 -/

/-- C80 with the constant of the program added on the dual side (`dual()` drops it): the program has an optimal
solution iff its dual has; then the optimal values agree; if one has no bound, the other has no feasible point; if
one has no feasible point, the other has none or no bound. Missing from the full statement: equal values when
`z ≠ 0`, which is false (`C80_constant_wrong`). -/
theorem C80_strong_partial (P : LP m n) (hP : WF P) :
    ((∃ x, Best P x) ↔ ∃ y, Best (dual P) y) ∧
    (∀ x y, Best P x → Best (dual P) y → objVal P x = objVal (dual P) y + P.z) ∧
    (NoBound P → ¬ ∃ y, Feas (dual P) y) ∧ (NoBound (dual P) → ¬ ∃ x, Feas P x) ∧
    ((¬ ∃ x, Feas P x) → (¬ ∃ y, Feas (dual P) y) ∨ NoBound (dual P)) ∧
    ((¬ ∃ y, Feas (dual P) y) → (¬ ∃ x, Feas P x) ∨ NoBound P) := by
  refine ⟨⟨?_, ?_⟩, ?_, ?_, ?_, ?_, ?_⟩
  · rintro ⟨x, hx⟩
    obtain ⟨y, hy, e⟩ := best_dual P hx
    exact ⟨y, (best_of_eq P hx.1 hy e).2⟩
  · rintro ⟨y, hy⟩
    obtain ⟨x, hx, e⟩ := best_dual (dual P) hy
    exact ⟨x, (best_of_eq P ((feas_dual_dual P hP x).mp hx) hy.1 e.symm).1⟩
  · intro x y hx hy
    obtain ⟨y', hy', e⟩ := best_dual P hx
    have h1 := (best_of_eq P hx.1 hy' e).2
    have e1 : objVal (dual P) y = objVal (dual P) y' := by
      cases ho : (dual P).objective
      · exact le_antisymm ((h1.2 y hy.1).1 ho) ((hy.2 y' hy').1 ho)
      · exact le_antisymm ((hy.2 y' hy').2 ho) ((h1.2 y hy.1).2 ho)
    have e2 : objVal (dual P) y' = P.b ⬝ᵥ y' + 0 := rfl
    rw [e1, e2, objVal, e]
    ring
  · rintro h ⟨y, hy⟩
    exact not_noBound_of_dual P hy h
  · rintro h ⟨x, hx⟩
    exact not_noBound_of_dual (dual P) ((feas_dual_dual P hP x).mpr hx) h
  · intro h
    by_cases hy : ∃ y, Feas (dual P) y
    · obtain ⟨y, hy⟩ := hy
      refine .inr ((best_or_noBound (dual P) hy).resolve_left ?_)
      rintro ⟨y, hy⟩
      obtain ⟨x, hx, -⟩ := best_dual (dual P) hy
      exact h ⟨x, (feas_dual_dual P hP x).mp hx⟩
    · exact .inl hy
  · intro h
    by_cases hx : ∃ x, Feas P x
    · obtain ⟨x, hx⟩ := hx
      refine .inr ((best_or_noBound P hx).resolve_left ?_)
      rintro ⟨x, hx⟩
      obtain ⟨y, hy, -⟩ := best_dual P hx
      exact h ⟨y, hy⟩
    · exact .inl hx

/-- C80 as stated, for programs without constant. -/
theorem C80_zero_partial (P : LP m n) (hP : WF P) (hz : P.z = 0) :
    ((∃ x, Best P x) ↔ ∃ y, Best (dual P) y) ∧
    ∀ x y u v, Best P x → Best (dual P) y → evaluate P (List.ofFn x) = .ok u →
      evaluate (dual P) (List.ofFn y) = .ok v → u = v := by
  refine ⟨(C80_strong_partial P hP).1, fun x y u v hx hy hu hv => ?_⟩
  have h := (C80_strong_partial P hP).2.1 x y hx hy
  simp only [evaluate, toVec_ofFn, Except.ok.injEq] at hu hv
  have e1 : objVal P x = u := hu
  have e2 : objVal (dual P) y = v := hv
  rw [e1, e2, hz, add_zero] at h
  exact h

/-- C80 is false for every program with a constant and an optimal solution: the optimal values differ. -/
theorem C80_constant_wrong (P : LP m n) (hP : WF P) (hz : P.z ≠ 0) (x : Fin n → ℚ) (y : Fin m → ℚ) (hx : Best P x)
    (hy : Best (dual P) y) : objVal P x ≠ objVal (dual P) y := by
  have h := (C80_strong_partial P hP).2.1 x y hx hy
  intro e
  exact hz (by linarith)

/-- A program with an optimal solution: `max x1` subject to `x1 + x2 <= 3`. -/
example : Best (⟨!![1, 1], ![3], ![1, 0], 0, .max, ![.le], [], [], false⟩ : LP 1 2) ![3, 0] := by
  refine ⟨⟨fun i => ?_, fun j hj => ?_, fun j hj _ => ?_⟩, fun x hx => ⟨fun _ => ?_, fun h => by cases h⟩⟩
  · fin_cases i; simp [rowHolds]
  · simp at hj
  · fin_cases j <;> norm_num
  · have h1 : x 0 + x 1 ≤ 3 := by
      have := hx.rows 0
      simpa [rowHolds, Matrix.mulVec, dotProduct] using this
    have h2 : 0 ≤ x 1 := hx.poss 1 (by simp) (by simp)
    simp [objVal, dotProduct]
    linarith

/-- A program without bound: `max x1` subject to `x1 - x2 = 0`. -/
example : NoBound (⟨!![1, -1], ![0], ![1, 0], 0, .max, ![.eq], [], [], true⟩ : LP 1 2) := by
  intro M
  refine ⟨fun _ => |M| + 1, ⟨fun i => ?_, fun j hj => ?_, fun j _ _ => ?_⟩, fun _ => ?_, fun h => by cases h⟩
  · fin_cases i; simp [rowHolds, Matrix.mulVec, dotProduct]
  · simp at hj
  · positivity
  · simp [objVal, dotProduct]
    have := le_abs_self M
    linarith

/-! ### C81 -/

/-- Specification: a condition "`own[index] = 0` or `coef · other = rhs`"; the flag says whether `own` is `y`. -/
structure Cond where
  isY : Bool
  index : ℕ
  coef : List ℚ
  rhs : ℚ

/-- Specification: how the condition is written. Indices start at 1 and are written as subscripts. -/
def Cond.text (fmt : ℚ → List Char) (k : Cond) : List Char :=
  let own := if k.isY then 'y' else 'x'
  let other := if k.isY then 'x' else 'y'
  own :: Parser.subscript (toString k.index).toList ++ " = 0 || ".toList ++
    List.intercalate " + ".toList
      (k.coef.mapIdx fun j q => fmt q ++ other :: Parser.subscript (toString (j + 1)).toList) ++
    " = ".toList ++ fmt k.rhs

/-- Specification: what the condition says. -/
def Cond.Holds (k : Cond) (x y : List ℚ) : Prop :=
  let own := if k.isY then y else x
  let other := if k.isY then x else y
  own[k.index - 1]? = some 0 ∨ (List.zipWith (· * ·) k.coef other).sum = k.rhs

theorem joinChars_eq (sep : List Char) (l : List (List Char)) : joinChars sep l = List.intercalate sep l := by
  induction l with
  | nil => rfl
  | cons a l ih =>
    cases l with
    | nil => simp [joinChars]
    | cons b l => rw [joinChars, ih, List.intercalate_cons_cons]; simp

/-- The condition of a row. -/
def rowCond (isY : Bool) (P : LP m n) (i : Fin m) : Cond := ⟨isY, i + 1, List.ofFn (P.A i), P.b i⟩

theorem csText_eq (fmt : ℚ → List Char) (isY : Bool) (P : LP m n) (i : Fin m) :
    csText fmt (if isY then 'y' else 'x') (if isY then 'x' else 'y') P i = (rowCond isY P i).text fmt := by
  have e : (List.finRange n).map (fun j => fmt (P.A i j) ++ csVar (if isY then 'x' else 'y') j) =
      (List.ofFn (P.A i)).mapIdx fun j q =>
        fmt q ++ (if isY then 'x' else 'y') :: Parser.subscript (toString (j + 1)).toList := by
    apply List.ext_getElem
    · simp
    · intro k h1 h2
      simp [csVar]
  have e2 : " = 0 || ".toList = " = 0".toList ++ " || ".toList := by rfl
  simp only [csText, Cond.text, rowCond, joinChars_eq]
  rw [e, e2, csVar]
  simp only [List.cons_append, List.append_assoc]
  cases isY <;> rfl

theorem zip_sum {k : ℕ} (a x : Fin k → ℚ) : (List.zipWith (· * ·) (List.ofFn a) (List.ofFn x)).sum = a ⬝ᵥ x := by
  have : List.zipWith (· * ·) (List.ofFn a) (List.ofFn x) = List.ofFn fun i => a i * x i := by
    apply List.ext_getElem
    · simp
    · intro k h1 h2; simp
  rw [this, List.sum_ofFn]
  rfl

/-- The slack terms of a feasible pair have one sign, so they vanish iff their sum does. -/
theorem slack_iff (P : LP m n) {x : Fin n → ℚ} {y : Fin m → ℚ} (hx : Feas P x) (hy : Feas (dual P) y) :
    P.c ⬝ᵥ x = P.b ⬝ᵥ y ↔
      (∀ i, P.ineq i ≠ .eq → y i = 0 ∨ P.A.mulVec x i = P.b i) ∧
      (∀ j, (dual P).ineq j ≠ .eq → x j = 0 ∨ P.A.transpose.mulVec y j = P.c j) := by
  have hs := weak_sums P x y
  have e1 : ∑ j, (P.A.transpose.mulVec y j - P.c j) * x j = ∑ j, P.A.transpose.mulVec y j * x j - P.c ⬝ᵥ x := by
    rw [dotProduct, ← Finset.sum_sub_distrib]
    exact Finset.sum_congr rfl fun j _ => by ring
  have e2 : ∑ i, y i * (P.b i - P.A.mulVec x i) = P.b ⬝ᵥ y - ∑ i, y i * P.A.mulVec x i := by
    rw [dotProduct, ← Finset.sum_sub_distrib]
    exact Finset.sum_congr rfl fun i _ => by ring
  have key : P.c ⬝ᵥ x = P.b ⬝ᵥ y ↔
      ∑ j, (P.A.transpose.mulVec y j - P.c j) * x j + ∑ i, y i * (P.b i - P.A.mulVec x i) = 0 := by
    rw [e1, e2]
    constructor <;> intro h <;> linarith
  -- sign of each term
  have sgn : ∃ s : ℚ, s ≠ 0 ∧ (∀ j, 0 ≤ s * ((P.A.transpose.mulVec y j - P.c j) * x j)) ∧
      (∀ i, 0 ≤ s * (y i * (P.b i - P.A.mulVec x i))) := by
    have hb : ∀ j, (dual P).b j = P.c j := fun _ => rfl
    have hA : (dual P).A = P.A.transpose := rfl
    cases ho : P.objective
    · refine ⟨1, one_ne_zero, fun j => ?_, fun i => ?_⟩ <;> rw [one_mul]
      · have := hy.rows j
        rw [hb, hA] at this
        by_cases h1 : (j : ℕ) ∈ P.neg
        · have q : (dual P).ineq j = .le := by simp [dual, h1, ho]
          rw [q] at this
          exact mul_nonneg_of_nonpos_of_nonpos (sub_nonpos.mpr this) (hx.negs j h1)
        · by_cases h2 : (j : ℕ) ∈ P.free
          · have q : (dual P).ineq j = .eq := by simp [dual, h1, h2]
            rw [q] at this
            have this : P.A.transpose.mulVec y j = P.c j := this
            rw [this, sub_self, zero_mul]
          · have q : (dual P).ineq j = .ge := by simp [dual, h1, h2, ho]
            rw [q] at this
            exact mul_nonneg (sub_nonneg.mpr this) (hx.poss j h1 h2)
      · have := hx.rows i
        cases hq : P.ineq i <;> rw [hq] at this
        · have this : P.A.mulVec x i = P.b i := this
          rw [this, sub_self, mul_zero]
        · exact mul_nonneg (hy.poss i (by rw [dual_neg_iff, hq, ho]; simp) (by rw [dual_free_iff, hq]; simp))
            (sub_nonneg.mpr this)
        · exact mul_nonneg_of_nonpos_of_nonpos (hy.negs i (by rw [dual_neg_iff, hq, ho]; simp))
            (sub_nonpos.mpr this)
    · refine ⟨-1, by norm_num, fun j => ?_, fun i => ?_⟩ <;> rw [neg_one_mul, neg_nonneg]
      · have := hy.rows j
        rw [hb, hA] at this
        by_cases h1 : (j : ℕ) ∈ P.neg
        · have q : (dual P).ineq j = .ge := by simp [dual, h1, ho]
          rw [q] at this
          exact mul_nonpos_of_nonneg_of_nonpos (sub_nonneg.mpr this) (hx.negs j h1)
        · by_cases h2 : (j : ℕ) ∈ P.free
          · have q : (dual P).ineq j = .eq := by simp [dual, h1, h2]
            rw [q] at this
            have this : P.A.transpose.mulVec y j = P.c j := this
            rw [this, sub_self, zero_mul]
          · have q : (dual P).ineq j = .le := by simp [dual, h1, h2, ho]
            rw [q] at this
            exact mul_nonpos_of_nonpos_of_nonneg (sub_nonpos.mpr this) (hx.poss j h1 h2)
      · have := hx.rows i
        cases hq : P.ineq i <;> rw [hq] at this
        · have this : P.A.mulVec x i = P.b i := this
          rw [this, sub_self, mul_zero]
        · exact mul_nonpos_of_nonpos_of_nonneg (hy.negs i (by rw [dual_neg_iff, hq, ho]; simp))
            (sub_nonneg.mpr this)
        · exact mul_nonpos_of_nonneg_of_nonpos
            (hy.poss i (by rw [dual_neg_iff, hq, ho]; simp) (by rw [dual_free_iff, hq]; simp)) (sub_nonpos.mpr this)
  obtain ⟨s, hs0, h1, h2⟩ := sgn
  have hz : P.c ⬝ᵥ x = P.b ⬝ᵥ y ↔ (∀ j, (P.A.transpose.mulVec y j - P.c j) * x j = 0) ∧
      (∀ i, y i * (P.b i - P.A.mulVec x i) = 0) := by
    rw [key]
    constructor
    · intro h
      have h3 : ∑ j, s * ((P.A.transpose.mulVec y j - P.c j) * x j) +
          ∑ i, s * (y i * (P.b i - P.A.mulVec x i)) = 0 := by
        rw [← Finset.mul_sum, ← Finset.mul_sum, ← mul_add, h, mul_zero]
      have h4 := Finset.sum_nonneg fun j (_ : j ∈ Finset.univ) => h1 j
      have h5 := Finset.sum_nonneg fun i (_ : i ∈ Finset.univ) => h2 i
      have h6 := (Finset.sum_eq_zero_iff_of_nonneg fun j _ => h1 j).mp (by linarith)
      have h7 := (Finset.sum_eq_zero_iff_of_nonneg fun i _ => h2 i).mp (by linarith)
      exact ⟨fun j => (mul_eq_zero.mp (h6 j (Finset.mem_univ j))).resolve_left hs0,
        fun i => (mul_eq_zero.mp (h7 i (Finset.mem_univ i))).resolve_left hs0⟩
    · rintro ⟨h3, h4⟩
      simp [h3, h4]
  rw [hz]
  constructor
  · rintro ⟨h3, h4⟩
    refine ⟨fun i _ => ?_, fun j _ => ?_⟩
    · rcases mul_eq_zero.mp (h4 i) with h | h
      · exact .inl h
      · exact .inr (by linarith)
    · rcases mul_eq_zero.mp (h3 j) with h | h
      · exact .inr (by linarith)
      · exact .inl h
  · rintro ⟨h3, h4⟩
    refine ⟨fun j => ?_, fun i => ?_⟩
    · by_cases hq : (dual P).ineq j = .eq
      · have := hy.rows j
        rw [hq] at this
        have this : P.A.transpose.mulVec y j = P.c j := this
        rw [this, sub_self, zero_mul]
      · rcases h4 j hq with h | h
        · rw [h, mul_zero]
        · rw [h, sub_self, zero_mul]
    · by_cases hq : P.ineq i = .eq
      · have := hx.rows i
        rw [hq] at this
        have this : P.A.mulVec x i = P.b i := this
        rw [this, sub_self, mul_zero]
      · rcases h3 i hq with h | h
        · rw [h, zero_mul]
        · rw [h, sub_self, mul_zero]

/-- C81: `cs_conditions()` is a list of conditions, one per line, and a feasible pair of points of the program and its
dual satisfies all of them iff both points are optimal. Every way `fmt` of printing numbers. -/
theorem C81_conditions (fmt : ℚ → List Char) (P : LP m n) :
    ∃ conds : List Cond, csConditions fmt P = List.intercalate ['\n'] (conds.map (Cond.text fmt)) ∧
      (∀ k ∈ conds, k.coef.length = if k.isY then n else m) ∧
      ∀ x y, Feas P x → Feas (dual P) y →
        ((∀ k ∈ conds, k.Holds (List.ofFn x) (List.ofFn y)) ↔ Best P x ∧ Best (dual P) y) := by
  refine ⟨((List.finRange m).filter fun i => P.ineq i ≠ .eq).map (rowCond true P) ++
    ((List.finRange n).filter fun j => (dual P).ineq j ≠ .eq).map (rowCond false (dual P)), ?_, ?_, ?_⟩
  · have gen : ∀ {m n : ℕ} (isY : Bool) (P : LP m n),
        csRows fmt (if isY then 'y' else 'x') (if isY then 'x' else 'y') P =
        (((List.finRange m).filter fun i => P.ineq i ≠ .eq).map (rowCond isY P)).map (Cond.text fmt) := by
      intro m n isY P
      unfold csRows
      induction List.finRange m with
      | nil => rfl
      | cons i l ih =>
        by_cases h : P.ineq i = .eq
        · rw [List.filterMap_cons_none (by rw [if_pos h]), ih, List.filter_cons_of_neg (by simp [h])]
        · rw [List.filterMap_cons_some (by rw [if_neg h]), ih, List.filter_cons_of_pos (by simp [h]), csText_eq]
          rfl
    rw [csConditions, joinChars_eq, List.map_append]
    have g1 := gen true P
    have g2 := gen false (dual P)
    simp only [if_true, Bool.false_eq_true, if_false] at g1 g2
    rw [g1, g2]
  · intro k hk
    simp only [List.mem_append, List.mem_map] at hk
    rcases hk with ⟨i, -, rfl⟩ | ⟨j, -, rfl⟩ <;> simp [rowCond]
  · intro x y hx hy
    have e : Best P x ∧ Best (dual P) y ↔ P.c ⬝ᵥ x = P.b ⬝ᵥ y := by
      refine ⟨fun ⟨h1, h2⟩ => ?_, best_of_eq P hx hy⟩
      obtain ⟨y', hy', e⟩ := best_dual P h1
      have h3 := (best_of_eq P hx hy' e).2
      have e1 : objVal (dual P) y = objVal (dual P) y' := by
        cases ho : (dual P).objective
        · exact le_antisymm ((h3.2 y hy).1 ho) ((h2.2 y' hy').1 ho)
        · exact le_antisymm ((h2.2 y' hy').2 ho) ((h3.2 y hy).2 ho)
      have e2 : P.b ⬝ᵥ y + 0 = P.b ⬝ᵥ y' + 0 := e1
      linarith
    rw [e, slack_iff P hx hy]
    have h1 : ∀ i, (rowCond true P i).Holds (List.ofFn x) (List.ofFn y) ↔ y i = 0 ∨ P.A.mulVec x i = P.b i := by
      intro i
      simp only [Cond.Holds, rowCond, if_true, zip_sum]
      simp [Matrix.mulVec]
    have h2 : ∀ j, (rowCond false (dual P) j).Holds (List.ofFn x) (List.ofFn y) ↔
        x j = 0 ∨ P.A.transpose.mulVec y j = P.c j := by
      intro j
      simp only [Cond.Holds, rowCond, Bool.false_eq_true, if_false, zip_sum]
      simp only [Nat.add_sub_cancel, List.getElem?_ofFn, Fin.is_lt, dite_true, Fin.eta, Option.some.injEq]
      exact Iff.rfl
    constructor
    · intro h
      refine ⟨fun i hi => (h1 i).mp (h _ ?_), fun j hj => (h2 j).mp (h _ ?_)⟩
      · refine List.mem_append_left _ (List.mem_map_of_mem ?_)
        simp [hi]
      · refine List.mem_append_right _ (List.mem_map_of_mem ?_)
        simp [hj]
    · rintro ⟨h3, h4⟩ k hk
      simp only [List.mem_append, List.mem_map, List.mem_filter, List.mem_finRange, true_and, decide_eq_true_eq] at hk
      rcases hk with ⟨i, hi, rfl⟩ | ⟨j, hj, rfl⟩
      · exact (h1 i).mpr (h3 i hi)
      · exact (h2 j).mpr (h4 j hj)

/-- The conditions of `max x1` subject to `x1 + x2 <= 3`. -/
example : csConditions (fun q => if q = 3 then ['3'] else if q = 1 then ['1'] else ['0'])
    (⟨!![1, 1], ![3], ![1, 0], 0, .max, ![.le], [], [], false⟩ : LP 1 2) =
    "y₁ = 0 || 1x₁ + 1x₂ = 3\nx₁ = 0 || 1y₁ = 1\nx₂ = 0 || 1y₁ = 0".toList := by decide +kernel

/-! ### C82 -/

/-- C82: every program in standard equality form is infeasible, has no bound or has an optimal solution, exactly one of
these, and in each case there is a certificate that the corresponding `verify_*` method accepts. -/
theorem C82_complete (P : LP m n) (hP : WF P) (hs : P.isSef = true) :
    ((¬ ∃ x, Feas P x) ∧ ¬ Unbounded P ∧ (¬ ∃ x, Best P x) ∧
      ∃ y : Fin m → ℚ, verifyInfeasibility P (List.ofFn y) = .ok true) ∨
    ((∃ x, Feas P x) ∧ Unbounded P ∧ (¬ ∃ x, Best P x) ∧
      ∃ x d : Fin n → ℚ, Feas P x ∧ verifyUnboundedness P (List.ofFn x) (List.ofFn d) = .ok true) ∨
    ((∃ x, Feas P x) ∧ ¬ Unbounded P ∧ ∃ (x : Fin n → ℚ) (y : Fin m → ℚ), Best P x ∧
      verifyOptimality P (List.ofFn y) = .ok true ∧ objVal P x = ∑ i, y i * P.b i + P.z) := by
  have ho := (hP.isSef_iff.mp hs).2.2.2
  have hf : ∀ x, Feas P x ↔ P.A.mulVec x = P.b ∧ ∀ j, 0 ≤ x j := fun x => feas_sef_iff hP hs
  by_cases hx : ∃ x, Feas P x
  · obtain ⟨x0, h0⟩ := hx
    by_cases hd : ∃ y : Fin m → ℚ, ∀ j, P.c j ≤ ∑ i, y i * P.A i j
    · refine .inr (.inr ⟨⟨x0, h0⟩, ?_, ?_⟩)
      · obtain ⟨y, hy⟩ := hd
        intro hu
        obtain ⟨x, h1, h2⟩ := hu (∑ i, y i * P.b i + P.z)
        have := C49_exact_partial P hP y (C49_accepts P hs y hy) (fun j => .inl (by linarith [hy j])) x h1
        linarith [this.1]
      · obtain ⟨y, hy⟩ := hd
        have hb : ∀ x, Feas P x → P.c ⬝ᵥ x ≤ ∑ i, y i * P.b i := fun x h1 => by
          have := (C49_exact_partial P hP y (C49_accepts P hs y hy) (fun j => .inl (by linarith [hy j])) x h1).1
          unfold objVal at this
          linarith
        obtain ⟨x, y', h1, h2, e⟩ := strong_max P ho h0 hb
        refine ⟨x, y', (best_of_eq P h1 h2 e).1, C49_accepts P hs y' fun j => ?_, ?_⟩
        · have := h2.rows j
          have q : (dual P).ineq j = .ge := by
            simp [dual, ho, (hP.isSef_iff.mp hs).2.1, (hP.isSef_iff.mp hs).2.2.1]
          rw [q] at this
          have this : P.c j ≤ P.A.transpose.mulVec y' j := this
          refine this.trans (le_of_eq ?_)
          simp only [Matrix.mulVec, dotProduct, Matrix.transpose_apply]
          exact Finset.sum_congr rfl fun i _ => mul_comm _ _
        · rw [objVal, e]
          congr 1
          exact Finset.sum_congr rfl fun i _ => mul_comm _ _
    · obtain ⟨d, hd1, hd2, hd3⟩ := sef_ray P.A P.c hd
      have hv := C48_accepts P hP hs x0 d h0 hd1 hd2 (by rw [hd3]; norm_num)
      have hu : Unbounded P := fun M => by
        obtain ⟨t, -, h1, h2⟩ := C48_exact_partial P hP x0 d hv h0 hd1 hd2 M
        exact ⟨_, h1, h2⟩
      refine .inr (.inl ⟨⟨x0, h0⟩, hu, ?_, x0, d, h0, hv⟩)
      rintro ⟨x, hx⟩
      obtain ⟨x', h1, h2⟩ := hu (objVal P x)
      exact absurd ((hx.2 x' h1).1 ho) (not_le.mpr h2)
  · obtain ⟨y, hy1, hy2⟩ := sef_farkas P.A P.b (by
      rintro ⟨x, h⟩; exact hx ⟨x, (hf x).mpr h⟩)
    refine .inl ⟨hx, fun hu => ?_, fun ⟨x, h⟩ => hx ⟨x, h.1⟩, y, ?_⟩
    · obtain ⟨x, h, -⟩ := hu 0
      exact hx ⟨x, h⟩
    · refine C47_accepts P hs y hy1 ?_
      rw [hy2]; norm_num

/-- Programs of each kind: `x = -1`, `max x1, x1 - x2 = 0` and `max x, x = 1` are well formed and in SEF. -/
example : WF (⟨!![1], ![-1], ![0], 0, .max, ![.eq], [], [], true⟩ : LP 1 1) ∧
    WF (⟨!![1, -1], ![0], ![1, 0], 0, .max, ![.eq], [], [], true⟩ : LP 1 2) ∧
    WF (⟨!![1], ![1], ![1], 0, .max, ![.eq], [], [], true⟩ : LP 1 1) :=
  ⟨⟨by simp, by simp, by simp, by simp, by simp, by decide⟩, ⟨by simp, by simp, by simp, by simp, by simp, by decide⟩,
    ⟨by simp, by simp, by simp, by simp, by simp, by decide⟩⟩

/-! ### C83 -/

/-- C83 is false for every program and vector: `is_solution_optimal` never returns `True` or `False`. -/
theorem C83_wrong (P : LP m n) (x : List ℚ) (r : Bool) : isSolutionOptimal P x ≠ .ok (some r) := by
  unfold isSolutionOptimal
  cases isFeasible P x <;> simp

/-- C83, the part that holds: vectors of the wrong length raise `ValueError`; every vector of the right length gives
`None`. Missing: the answer. -/
theorem C83_partial (P : LP m n) (x : List ℚ) :
    (x.length ≠ n → isSolutionOptimal P x = .error .valueError) ∧ (x.length = n → isSolutionOptimal P x = .ok none) := by
  unfold isSolutionOptimal isFeasible toVec
  by_cases h : x.length = n <;> simp [h]

/-! ### C84 -/

/-- C84, the part that holds: every point that satisfies the constraints and is integral is accepted, and a point
accepted satisfies the constraints within the tolerances of `LinearProgram.is_feasible`. Missing: fractional points
should be rejected (`C84_wrong`). -/
theorem C84_partial (I : IntProgram) (x : Fin I.prog.n → ℚ) (h : Feas I.prog.lp x) (hP : WF I.prog.lp) :
    intIsFeasible I (List.ofFn x) = .ok true ∧ intIsFeasible I (List.ofFn x) = isFeasible I.prog.lp (List.ofFn x) :=
  ⟨C31_accepts I.prog.lp hP x h, rfl⟩

/-- C84 is false: `2 x = 1` has no integral solution, yet `is_feasible([0.5])` answers `True` for the integer program
(all variables integral). -/
theorem C84_wrong : ∃ (I : IntProgram) (x : List ℚ), WF I.prog.lp ∧ I.integral = none ∧
    intIsFeasible I x = .ok true ∧ ∀ q ∈ x, ∀ k : ℤ, q ≠ k := by
  refine ⟨⟨⟨1, 1, ⟨!![2], ![1], ![1], 0, .max, ![.eq], [], [], true⟩⟩, none⟩, [1 / 2],
    ⟨by simp, by simp, by simp, by simp, by simp, by decide⟩, rfl, by decide +kernel, ?_⟩
  intro q hq k h
  simp only [List.mem_singleton] at hq
  subst hq
  have h2 : (1 : ℚ) = ((2 * k : ℤ) : ℚ) := by push_cast; linarith
  have h3 : (1 : ℤ) = 2 * k := by exact_mod_cast h2
  omega

end Props
end Pytimize
