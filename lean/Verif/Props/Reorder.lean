/-
C137: how a linear program is written does not matter for what `solve` finds.
-/
import Verif.Props.SolveExact
import Verif.Props.FloatSolve

namespace Pytimize
namespace Props
open LinProg Matrix Floating

variable {m n : ℕ}

/-- `<=` and `>=` exchanged. -/
def turned : Ineq → Ineq
  | .le => .ge
  | .ge => .le
  | .eq => .eq

/-- Maximisation and minimisation exchanged. -/
def other : Obj → Obj
  | .max => .min
  | .min => .max

/-- Specification: `Q` is `P` written differently. The constraints and the variables are listed in another order,
every constraint is multiplied by a number (`<=` and `>=` change places if it is negative), every variable is measured
in another unit (a negative unit makes a nonnegative variable a nonpositive one), and so is the objective (with
maximisation and minimisation exchanged if the factor is negative). -/
structure Rewritten (P Q : LP m n) (e : Fin m ≃ Fin m) (f : Fin n ≃ Fin n) (s : Fin m → ℚ) (t : Fin n → ℚ) (σ : ℚ) :
    Prop where
  rows : ∀ i, s i ≠ 0
  units : ∀ j, t j ≠ 0
  factor : σ ≠ 0
  A : ∀ i j, Q.A i j = s i * P.A (e i) (f j) * t j
  b : ∀ i, Q.b i = s i * P.b (e i)
  c : ∀ j, Q.c j = σ * P.c (f j) * t j
  z : Q.z = σ * P.z
  ineq : ∀ i, Q.ineq i = if 0 < s i then P.ineq (e i) else turned (P.ineq (e i))
  objective : Q.objective = if 0 < σ then P.objective else other P.objective
  free : ∀ j : Fin n, (j : ℕ) ∈ Q.free ↔ (f j : ℕ) ∈ P.free
  neg : ∀ j : Fin n, (j : ℕ) ∉ Q.free → ((j : ℕ) ∈ Q.neg ↔ if 0 < t j then (f j : ℕ) ∈ P.neg else (f j : ℕ) ∉ P.neg)

/-- The point of the original program that a point of the rewritten one stands for. -/
def original (f : Fin n ≃ Fin n) (t : Fin n → ℚ) (x : Fin n → ℚ) : Fin n → ℚ := fun k => t (f.symm k) * x (f.symm k)

section
variable {P Q : LP m n} {e : Fin m ≃ Fin m} {f : Fin n ≃ Fin n} {s : Fin m → ℚ} {t : Fin n → ℚ} {σ : ℚ}

theorem original_apply (x : Fin n → ℚ) (j : Fin n) : original f t x (f j) = t j * x j := by simp [original]

theorem original_onto (ht : ∀ j, t j ≠ 0) (y : Fin n → ℚ) : ∃ x, original f t x = y :=
  ⟨fun j => (t j)⁻¹ * y (f j), funext fun k => by simp [original, mul_inv_cancel_left₀ (ht _)]⟩

theorem Rewritten.mulVec (h : Rewritten P Q e f s t σ) (x : Fin n → ℚ) (i : Fin m) :
    Q.A.mulVec x i = s i * P.A.mulVec (original f t x) (e i) := by
  show ∑ j, Q.A i j * x j = s i * ∑ k, P.A (e i) k * original f t x k
  rw [← f.sum_comp (fun k => P.A (e i) k * original f t x k), Finset.mul_sum]
  refine Finset.sum_congr rfl fun j _ => ?_
  rw [h.A, original_apply]
  ring

theorem Rewritten.value (h : Rewritten P Q e f s t σ) (x : Fin n → ℚ) :
    objVal Q x = σ * objVal P (original f t x) := by
  unfold objVal
  have : Q.c ⬝ᵥ x = σ * (P.c ⬝ᵥ original f t x) := by
    show ∑ j, Q.c j * x j = σ * ∑ k, P.c k * original f t x k
    rw [← f.sum_comp (fun k => P.c k * original f t x k), Finset.mul_sum]
    refine Finset.sum_congr rfl fun j _ => ?_
    rw [h.c, original_apply]
    ring
  rw [this, h.z]
  ring

theorem row_iff (q : Ineq) {r : ℚ} (hr : r ≠ 0) (v b : ℚ) :
    rowHolds (if 0 < r then q else turned q) (r * v) (r * b) ↔ rowHolds q v b := by
  by_cases h : 0 < r
  · rw [if_pos h]
    cases q <;> simp only [rowHolds]
    · exact ⟨fun h' => mul_left_cancel₀ hr h', fun h' => by rw [h']⟩
    · exact mul_le_mul_iff_right₀ h
    · exact mul_le_mul_iff_right₀ h
  · have h' : r < 0 := lt_of_le_of_ne (not_lt.mp h) hr
    rw [if_neg h]
    cases q <;> simp only [rowHolds, turned]
    · exact ⟨fun h' => mul_left_cancel₀ hr h', fun h' => by rw [h']⟩
    · exact mul_le_mul_left_of_neg h'
    · exact mul_le_mul_left_of_neg h'

theorem Rewritten.feas (h : Rewritten P Q e f s t σ) (hP : WF P) (hQ : WF Q) (x : Fin n → ℚ) :
    Feas Q x ↔ Feas P (original f t x) := by
  have hrow : ∀ i, rowHolds (Q.ineq i) (Q.A.mulVec x i) (Q.b i) ↔
      rowHolds (P.ineq (e i)) (P.A.mulVec (original f t x) (e i)) (P.b (e i)) := by
    intro i
    rw [h.mulVec, h.b, h.ineq]
    exact row_iff _ (h.rows i) _ _
  have hsign : ∀ j : Fin n, (((j : ℕ) ∈ Q.neg → x j ≤ 0) ∧ ((j : ℕ) ∉ Q.neg → (j : ℕ) ∉ Q.free → 0 ≤ x j)) ↔
      (((f j : ℕ) ∈ P.neg → original f t x (f j) ≤ 0) ∧
        ((f j : ℕ) ∉ P.neg → (f j : ℕ) ∉ P.free → 0 ≤ original f t x (f j))) := by
    intro j
    rw [original_apply]
    by_cases hfree : (j : ℕ) ∈ Q.free
    · have h1 := hQ.disj _ hfree
      have hfree' := (h.free j).mp hfree
      have h2 := hP.disj _ hfree'
      simp [hfree, hfree', h1, h2]
    · have hfree' := mt (h.free j).mpr hfree
      have hn := h.neg j hfree
      by_cases ht : 0 < t j
      · rw [if_pos ht] at hn
        simp only [hn, hfree, hfree', not_false_eq_true, forall_const, mul_nonneg_iff_of_pos_left ht]
        have : t j * x j ≤ 0 ↔ x j ≤ 0 := by
          rw [← neg_nonneg, ← neg_nonneg (a := x j), ← mul_neg, mul_nonneg_iff_of_pos_left ht]
        rw [this]
      · have ht' : 0 < -t j := by
          have := lt_of_le_of_ne (not_lt.mp ht) (h.units j)
          linarith
        rw [if_neg ht] at hn
        have e1 : t j * x j ≤ 0 ↔ 0 ≤ x j := by
          rw [← mul_nonneg_iff_of_pos_left ht']
          constructor <;> intro h <;> linarith
        have e2 : 0 ≤ t j * x j ↔ x j ≤ 0 := by
          rw [← neg_nonneg (a := x j), ← mul_nonneg_iff_of_pos_left (b := -x j) ht']
          constructor <;> intro h <;> linarith
        simp only [hn, hfree, hfree', not_false_eq_true, forall_const, e1, e2, not_not]
        tauto
  constructor
  · rintro ⟨h1, h2, h3⟩
    refine ⟨fun i => ?_, fun k => ?_, fun k => ?_⟩
    · have := (hrow (e.symm i)).mp (h1 _)
      rwa [e.apply_symm_apply] at this
    · have := ((hsign (f.symm k)).mp ⟨h2 _, h3 _⟩).1
      rwa [f.apply_symm_apply] at this
    · have := ((hsign (f.symm k)).mp ⟨h2 _, h3 _⟩).2
      rwa [f.apply_symm_apply] at this
  · rintro ⟨h1, h2, h3⟩
    exact ⟨fun i => (hrow i).mpr (h1 _), fun j => ((hsign j).mpr ⟨h2 _, h3 _⟩).1,
      fun j => ((hsign j).mpr ⟨h2 _, h3 _⟩).2⟩

theorem Rewritten.optimal (h : Rewritten P Q e f s t σ) (hP : WF P) (hQ : WF Q) (x : Fin n → ℚ) :
    Optimal Q x ↔ Optimal P (original f t x) := by
  have hall : (∀ x', Feas Q x' → (Q.objective = .max → objVal Q x' ≤ objVal Q x) ∧
      (Q.objective = .min → objVal Q x ≤ objVal Q x')) ↔
      ∀ y', Feas P y' → (Q.objective = .max → σ * objVal P y' ≤ σ * objVal P (original f t x)) ∧
        (Q.objective = .min → σ * objVal P (original f t x) ≤ σ * objVal P y') := by
    constructor
    · intro hx y' hy'
      obtain ⟨x', rfl⟩ := original_onto (f := f) h.units y'
      have := hx x' ((h.feas hP hQ x').mpr hy')
      rwa [h.value, h.value] at this
    · intro hx x' hx'
      rw [h.value, h.value]
      exact hx _ ((h.feas hP hQ x').mp hx')
  unfold Optimal
  rw [h.feas hP hQ, hall]
  refine and_congr Iff.rfl (forall_congr' fun y' => imp_congr Iff.rfl ?_)
  rw [h.objective]
  by_cases hσ : 0 < σ
  · rw [if_pos hσ, mul_le_mul_iff_right₀ hσ, mul_le_mul_iff_right₀ hσ]
  · have hσ' : σ < 0 := lt_of_le_of_ne (not_lt.mp hσ) h.factor
    rw [if_neg hσ, mul_le_mul_left_of_neg hσ', mul_le_mul_left_of_neg hσ']
    cases P.objective <;> simp [other]

theorem Rewritten.indep (h : Rewritten P Q e f s t σ) : EqIndep Q ↔ EqIndep P := by
  have heq : ∀ i, Q.ineq i = .eq ↔ P.ineq (e i) = .eq := by
    intro i
    rw [h.ineq]
    split
    · rfl
    · cases P.ineq (e i) <;> simp [turned]
  have hsum : ∀ (y : Fin m → ℚ) (j : Fin n), ∑ i, y i * Q.A i j =
      (∑ k, (y (e.symm k) * s (e.symm k)) * P.A k (f j)) * t j := by
    intro y j
    rw [← e.sum_comp (fun k => (y (e.symm k) * s (e.symm k)) * P.A k (f j)), Finset.sum_mul]
    refine Finset.sum_congr rfl fun i _ => ?_
    rw [h.A, e.symm_apply_apply]
    ring
  constructor
  · intro hq y h1 h2 k
    have := hq (fun i => y (e i) * (s i)⁻¹) (fun i hi => by rw [h1 _ (mt (heq i).mpr hi), zero_mul]) (fun j => by
      rw [hsum]
      have : (∑ k, (y (e (e.symm k)) * (s (e.symm k))⁻¹ * s (e.symm k)) * P.A k (f j)) = 0 := by
        rw [← h2 (f j)]
        refine Finset.sum_congr rfl fun k _ => ?_
        rw [inv_mul_cancel_right₀ (h.rows _), e.apply_symm_apply]
      rw [this, zero_mul]) (e.symm k)
    simp only [e.apply_symm_apply] at this
    exact (mul_eq_zero.mp this).resolve_right (inv_ne_zero (h.rows _))
  · intro hp y h1 h2 i
    have := hp (fun k => y (e.symm k) * s (e.symm k)) (fun k hk => by
        rw [h1 (e.symm k) (fun hc => hk (by have := (heq _).mp hc; rwa [e.apply_symm_apply] at this)), zero_mul])
      (fun l => by
        have := h2 (f.symm l)
        rw [hsum, f.apply_symm_apply] at this
        exact (mul_eq_zero.mp this).resolve_right (h.units _)) (e i)
    simp only [e.symm_apply_apply] at this
    exact (mul_eq_zero.mp this).resolve_right (h.rows _)

/-- C137 (the programs). Feasible points, their values, optimal solutions and independence of the equations
correspond. -/
theorem C137_same (h : Rewritten P Q e f s t σ) (hP : WF P) (hQ : WF Q) :
    Function.Bijective (original f t) ∧
    (∀ x, (Feas Q x ↔ Feas P (original f t x)) ∧ objVal Q x = σ * objVal P (original f t x) ∧
      (Optimal Q x ↔ Optimal P (original f t x))) ∧ (EqIndep Q ↔ EqIndep P) := by
  refine ⟨⟨fun x y hxy => funext fun j => ?_, fun y => original_onto h.units y⟩,
    fun x => ⟨h.feas hP hQ x, h.value x, h.optimal hP hQ x⟩, h.indep⟩
  have := congrFun hxy (f j)
  rw [original_apply, original_apply] at this
  exact mul_left_cancel₀ (h.units j) this

/-- Specification: two outcomes of `solve` agree: the same exception, `None` from both, or an optimal solution from
both, the objective values being the same number up to the factor. -/
def Agree (P Q : LP m n) (f : Fin n ≃ Fin n) (t : Fin n → ℚ) (σ : ℚ) : Except PyErr (Option (List ℚ)) →
    Except PyErr (Option (List ℚ)) → Prop
  | .error e, .error e' => e = e'
  | .ok none, .ok none => True
  | .ok (some u), .ok (some v) => ∃ x y, u = List.ofFn x ∧ v = List.ofFn y ∧ Optimal P x ∧ Optimal Q y ∧
      Optimal P (original f t y) ∧ objVal Q y = σ * objVal P x
  | _, _ => False

theorem optimal_value {R : LP m n} {x y : Fin n → ℚ} (hx : Optimal R x) (hy : Optimal R y) : objVal R x = objVal R y := by
  have h1 := hx.2 y hy.1
  have h2 := hy.2 x hx.1
  cases ho : R.objective with
  | max => exact le_antisymm (h2.1 ho) (h1.1 ho)
  | min => exact le_antisymm (h1.2 ho) (h2.2 ho)

/-- What C109 says of a program, for a `solve` given by its outcome. -/
def Answers (R : LP m n) (out : Except PyErr (Option (List ℚ))) : Prop :=
  (EqIndep R → (∃ x, Optimal R x) → ∃ x, out = .ok (some (List.ofFn x)) ∧ Optimal R x) ∧
  (EqIndep R → (¬ ∃ x, Optimal R x) → out = .ok none) ∧
  ((¬ ∃ x, Feas R x) → out = .ok none) ∧
  (¬ EqIndep R → (∃ x, Feas R x) → out = .error .valueError)

theorem agree_of_answers (h : Rewritten P Q e f s t σ) (hP : WF P) (hQ : WF Q)
    {u v : Except PyErr (Option (List ℚ))} (hu : Answers P u) (hv : Answers Q v) : Agree P Q f t σ u v := by
  obtain ⟨_, hall, hind⟩ := C137_same h hP hQ
  have hopt : (∃ x, Optimal Q x) ↔ ∃ x, Optimal P x := by
    constructor
    · rintro ⟨x, hx⟩; exact ⟨_, (hall x).2.2.mp hx⟩
    · rintro ⟨y, hy⟩
      obtain ⟨x, rfl⟩ := original_onto (f := f) h.units y
      exact ⟨x, (hall x).2.2.mpr hy⟩
  have hfeas : (∃ x, Feas Q x) ↔ ∃ x, Feas P x := by
    constructor
    · rintro ⟨x, hx⟩; exact ⟨_, (hall x).1.mp hx⟩
    · rintro ⟨y, hy⟩
      obtain ⟨x, rfl⟩ := original_onto (f := f) h.units y
      exact ⟨x, (hall x).1.mpr hy⟩
  by_cases hi : EqIndep P
  · by_cases ho : ∃ x, Optimal P x
    · obtain ⟨x, e1, hx⟩ := hu.1 hi ho
      obtain ⟨y, e2, hy⟩ := hv.1 (hind.mpr hi) (hopt.mpr ho)
      rw [e1, e2]
      refine ⟨x, y, rfl, rfl, hx, hy, (hall y).2.2.mp hy, ?_⟩
      rw [(hall y).2.1, optimal_value hx ((hall y).2.2.mp hy)]
    · rw [hu.2.1 hi ho, hv.2.1 (hind.mpr hi) (mt hopt.mp ho)]
      trivial
  · by_cases ho : ∃ x, Feas P x
    · rw [hu.2.2.2 hi ho, hv.2.2.2 (mt hind.mp hi) (hfeas.mpr ho)]
      rfl
    · rw [hu.2.2.1 ho, hv.2.2.1 (mt hfeas.mp ho)]
      trivial

/-- C137 for regular programs whose data the tolerances do not blur, however they are rewritten. Missing: programs that
are not regular (`C137_order_wrong`). -/
theorem C137_solve_partial (h : Rewritten P Q e f s t σ) (hP : WF P) (hQ : WF Q) (hm : 0 < m)
    {r r' : Fin m → ℕ} {N K β N' K' β' : ℕ} (hd : Decimal P r N K β) (hd' : Decimal Q r' N' K' β')
    (hreg : Regular P) (hreg' : Regular Q) (fuel : ℕ) (hf : width P ^ m ≤ fuel) (hf' : width Q ^ m ≤ fuel) :
    Agree P Q f t σ (solve fuel P) (solve fuel Q) :=
  agree_of_answers h hP hQ (C109_partial P hP hm r N K β hd hreg fuel hf) (C109_partial Q hQ hm r' N' K' β' hd' hreg' fuel hf')

/-- C137 in double precision, for totally unimodular programs with integer numbers. -/
theorem C137_double_partial {L : Lapack binary64} (hL : ExactOnUnimodular L m) (h : Rewritten P Q e f s t σ) (hP : WF P)
    (hQ : WF Q) (hm : 0 < m) {β γ ζ β' γ' ζ' : ℕ} (hd : UnimodularData P β γ ζ) (hd' : UnimodularData Q β' γ' ζ')
    (hb : m * β < 10 ^ 5) (hb' : m * β' < 10 ^ 5) (hreg : Regular P) (hreg' : Regular Q) (fuel : ℕ)
    (hf : width P ^ m ≤ fuel) (hf' : width Q ^ m ≤ fuel) :
    Agree P Q f t σ (fsolve L fuel P) (fsolve L fuel Q) := by
  have a1 := C130_optimal hL hP hm hd hb hreg fuel hf
  have a2 := C130_optimal hL hQ hm hd' hb' hreg' fuel hf'
  refine agree_of_answers h hP hQ ⟨fun h1 h2 => ?_, a1.2⟩ ⟨fun h1 h2 => ?_, a2.2⟩
  · obtain ⟨x, h3, h4, _⟩ := a1.1 h1 h2
    exact ⟨x, h3, h4⟩
  · obtain ⟨x, h3, h4, _⟩ := a2.1 h1 h2
    exact ⟨x, h3, h4⟩

/-! ### Reordering only -/

theorem length_eq_of_bij {l l' : List ℕ} (hl : l.Nodup) (hl' : l'.Nodup) (hlt : ∀ j ∈ l, j < n) (hlt' : ∀ j ∈ l', j < n)
    (f : Fin n ≃ Fin n) (h : ∀ j : Fin n, (j : ℕ) ∈ l' ↔ (f j : ℕ) ∈ l) : l'.length = l.length := by
  have key : ∀ {l : List ℕ}, l.Nodup → (∀ j ∈ l, j < n) →
      l.length = (Finset.univ.filter fun j : Fin n => (j : ℕ) ∈ l).card := by
    intro l hl hlt
    rw [← List.toFinset_card_of_nodup hl, ← Finset.card_image_of_injective _ Fin.val_injective]
    congr 1
    ext k
    simp only [List.mem_toFinset, Finset.mem_image, Finset.mem_filter, Finset.mem_univ, true_and]
    constructor
    · intro hk; exact ⟨⟨k, hlt k hk⟩, hk, rfl⟩
    · rintro ⟨j, hj, rfl⟩; exact hj
  rw [key hl hlt, key hl' hlt']
  refine Finset.card_bij' (fun j _ => f j) (fun j _ => f.symm j) ?_ ?_ ?_ ?_ <;> simp [h]

theorem Rewritten.isInt (h : Rewritten P Q e f (fun _ => 1) (fun _ => 1) 1) {r : Fin m → ℕ} {N : ℕ}
    (hd : IsInt (scaled r N P)) : IsInt (scaled (r ∘ e) N Q) := by
  have hA : ∀ i j, Q.A i j = P.A (e i) (f j) := fun i j => by rw [h.A]; ring
  have hbb : ∀ i, Q.b i = P.b (e i) := fun i => by rw [h.b]; ring
  have hcc : ∀ j, Q.c j = P.c (f j) := fun j => by rw [h.c]; ring
  refine ⟨fun i j => ?_, fun i => ?_, fun j => ?_⟩
  · obtain ⟨k, hk⟩ := hd.1 (e i) (f j)
    exact ⟨k, by simp only [scaled, Function.comp_apply] at hk ⊢; rw [hA]; exact hk⟩
  · obtain ⟨k, hk⟩ := hd.2.1 (e i)
    exact ⟨k, by simp only [scaled, Function.comp_apply] at hk ⊢; rw [hbb]; exact hk⟩
  · obtain ⟨k, hk⟩ := hd.2.2 (f j)
    exact ⟨k, by simp only [scaled] at hk ⊢; rw [hcc]; exact hk⟩

theorem Rewritten.subdet (h : Rewritten P Q e f (fun _ => 1) (fun _ => 1) 1) {K : ℕ} (hd : SubdetLe K P.A) :
    SubdetLe K Q.A := by
  intro k a b
  have : Q.A.submatrix a b = P.A.submatrix (e ∘ a) (f ∘ b) := by
    funext i j
    simp only [Matrix.submatrix_apply, Function.comp_apply]
    rw [h.A]
    ring
  rw [this]
  exact hd k _ _

/-- A program and its reordering have the same size and are regular together, and the bounds on the data are the
same. -/
theorem Rewritten.reordered (h : Rewritten P Q e f (fun _ => 1) (fun _ => 1) 1) (hP : WF P) (hQ : WF Q) :
    width Q = width P ∧ (Regular P → Regular Q) ∧
    ∀ {r : Fin m → ℕ} {N K β : ℕ}, Decimal P r N K β → Decimal Q (r ∘ e) N K β := by
  have hineq : ∀ i, Q.ineq i = P.ineq (e i) := fun i => by rw [h.ineq, if_pos one_pos]
  have hobj : Q.objective = P.objective := by rw [h.objective, if_pos one_pos]
  have hbb : ∀ i, Q.b i = P.b (e i) := fun i => by rw [h.b]; ring
  have hfl : Q.free.length = P.free.length :=
    length_eq_of_bij (hP.freeSorted.imp fun h => ne_of_lt h) (hQ.freeSorted.imp fun h => ne_of_lt h) hP.freeLt hQ.freeLt f
      h.free
  have hq : (Finset.univ.filter fun i => Q.ineq i ≠ .eq).card = (Finset.univ.filter fun i => P.ineq i ≠ .eq).card := by
    refine Finset.card_bij' (fun i _ => e i) (fun i _ => e.symm i) ?_ ?_ ?_ ?_ <;> simp [hineq]
  refine ⟨by unfold width; rw [hfl, hq], fun hr => ?_, fun {r N K β} hd => ?_⟩
  · rcases hr with hs | hs | ⟨h1, h2⟩
    · left
      rw [hP.sef] at hs
      rw [hQ.sef]
      unfold sefFlag at hs ⊢
      simp only [Bool.and_eq_true, decide_eq_true_eq, List.isEmpty_iff] at hs ⊢
      obtain ⟨⟨⟨h1, h2⟩, h3⟩, h4⟩ := hs
      refine ⟨⟨⟨fun i => by rw [hineq, h1], ?_⟩, ?_⟩, by rw [hobj, h4]⟩
      · rw [← List.length_eq_zero_iff, hfl, h2]; rfl
      · rw [List.eq_nil_iff_forall_not_mem]
        intro j hj
        have hjn := hQ.negLt j hj
        have := h.neg ⟨j, hjn⟩ (fun hc => hQ.disj _ hc hj)
        rw [if_pos one_pos, h3] at this
        simp [hj] at this
    · right; left
      rw [hfl, hq]
      exact hs
    · right; right
      refine ⟨fun i => by rw [hineq]; exact h1 _, ?_⟩
      rw [h.feas hP hQ]
      have : original f (fun _ => 1) (0 : Fin n → ℚ) = 0 := by
        funext k
        simp [original]
      rwa [this]
  · have hprod : ∏ i, (r ∘ e) i = ∏ i, r i := e.prod_comp r
    exact
      { rpos := fun i => hd.rpos _
        npos := hd.npos
        isInt := h.isInt hd.isInt
        subdet := h.subdet hd.subdet
        rhs := fun i => by rw [hbb]; exact hd.rhs _
        costs := by rw [hprod]; exact hd.costs
        small := by rw [hprod]; exact hd.small }

/-- C137 for reordered constraints and variables: what is assumed of the program holds for every order. -/
theorem C137_order_partial (h : Rewritten P Q e f (fun _ => 1) (fun _ => 1) 1) (hP : WF P) (hQ : WF Q) (hm : 0 < m)
    {r : Fin m → ℕ} {N K β : ℕ} (hd : Decimal P r N K β) (hreg : Regular P) (fuel : ℕ) (hf : width P ^ m ≤ fuel) :
    Agree P Q f (fun _ => 1) 1 (solve fuel P) (solve fuel Q) := by
  obtain ⟨h1, h2, h3⟩ := h.reordered hP hQ
  exact C137_solve_partial h hP hQ hm hd (h3 hd) hreg (h2 hreg) fuel hf (by rwa [h1])

/-- C137 for bounded integer programs: branch and bound finds a solution of the same value in every order of the
constraints and variables, or `None` in every order. Missing: other integer programs, for which its answers can be
wrong in any case (C60), and its number of steps. -/
theorem C137_integer_partial (h : Rewritten P Q e f (fun _ => 1) (fun _ => 1) 1) (hQ : WF Q)
    {ι ι' : Option (List ℤ)} (hι : ∀ j : Fin n, Required ι' j ↔ Required ι (f j)) {r : Fin m → ℕ} {N K β U : ℕ}
    (hb : Bounded P r N K β U) (hmax : P.objective = .max) (sf fuel : ℕ)
    (hsf : (n + 2 * (m + n * U)) ^ (m + n * U) ≤ sf) (hfuel : n * U < fuel) :
    (branchAndBound sf fuel ⟨⟨m, n, P⟩, ι⟩ = .ok none ∧ branchAndBound sf fuel ⟨⟨m, n, Q⟩, ι'⟩ = .ok none) ∨
    ∃ x y : Fin n → ℚ, branchAndBound sf fuel ⟨⟨m, n, P⟩, ι⟩ = .ok (some (List.ofFn x)) ∧
      branchAndBound sf fuel ⟨⟨m, n, Q⟩, ι'⟩ = .ok (some (List.ofFn y)) ∧
      BestIntegral P ι x ∧ BestIntegral Q ι' y ∧ objVal Q y = objVal P x := by
  have hP := hb.wf
  have hineq : ∀ i, Q.ineq i = P.ineq (e i) := fun i => by rw [h.ineq, if_pos one_pos]
  have hobj : Q.objective = P.objective := by rw [h.objective, if_pos one_pos]
  have hz : original f (fun _ => 1) (0 : Fin n → ℚ) = 0 := by
    funext k
    simp [original]
  have ho : ∀ x j, original f (fun _ => 1) x (f j) = x j := fun x j => by rw [original_apply, one_mul]
  have hintegral : ∀ x, Integral ι' x ↔ Integral ι (original f (fun _ => 1) x) := by
    intro x
    unfold Integral
    constructor
    · intro hx k hk
      obtain ⟨z, hz⟩ := hx (f.symm k) ((hι _).mpr (by rwa [f.apply_symm_apply]))
      exact ⟨z, by rw [← hz, ← ho x, f.apply_symm_apply]⟩
    · intro hx j hj
      obtain ⟨z, hz⟩ := hx (f j) ((hι j).mp hj)
      exact ⟨z, by rw [← hz, ho]⟩
  have hb' : Bounded Q (r ∘ e) N K β U :=
    { wf := hQ
      free := by
        rw [List.eq_nil_iff_forall_not_mem]
        intro j hj
        have := (h.free ⟨j, hQ.freeLt j hj⟩).mp hj
        rw [hb.free] at this
        simp at this
      neg := by
        rw [List.eq_nil_iff_forall_not_mem]
        intro j hj
        have := (h.neg ⟨j, hQ.negLt j hj⟩ fun hc => hQ.disj _ hc hj).mp hj
        rw [if_pos one_pos, hb.neg] at this
        simp at this
      ineq := fun i => by rw [hineq]; exact hb.ineq _
      rpos := fun i => hb.rpos _
      npos := hb.npos
      isInt := h.isInt hb.isInt
      subdet := h.subdet hb.subdet
      rhs := fun i => by rw [h.b, one_mul]; exact hb.rhs _
      shape := hb.shape.imp id fun ⟨h1, h2, h3⟩ => ⟨h1, h2, by rw [h.feas hP hQ, hz]; exact h3⟩
      box := fun x hx j => by rw [← ho x]; exact hb.box _ ((h.feas hP hQ x).mp hx) _
      boxLe := hb.boxLe
      costs := by rw [show ∏ i, (r ∘ e) i = ∏ i, r i from e.prod_comp r]; exact hb.costs
      small := by rw [show ∏ i, (r ∘ e) i = ∏ i, r i from e.prod_comp r]; exact hb.small }
  have a1 := C60_bounded_partial sf fuel ⟨⟨m, n, P⟩, ι⟩ r N K β U hb hmax hsf hfuel
  have a2 := C60_bounded_partial sf fuel ⟨⟨m, n, Q⟩, ι'⟩ (r ∘ e) N K β U hb' (hobj.trans hmax) hsf hfuel
  have hv : ∀ x, objVal Q x = objVal P (original f (fun _ => 1) x) := fun x => by rw [h.value, one_mul]
  rcases a1 with ⟨x, e1, hx⟩ | ⟨e1, hx⟩ <;> rcases a2 with ⟨y, e2, hy⟩ | ⟨e2, hy⟩
  · right
    refine ⟨x, y, e1, e2, hx, hy, le_antisymm ?_ ?_⟩
    · rw [hv]
      exact (hx.2.2 _ ((h.feas hP hQ y).mp hy.1) ((hintegral y).mp hy.2.1)).1 hmax
    · obtain ⟨x', rfl⟩ := original_onto (f := f) h.units x
      rw [← hv]
      exact (hy.2.2 x' ((h.feas hP hQ x').mpr hx.1) ((hintegral x').mpr hx.2.1)).1 (hobj.trans hmax)
  · exfalso
    obtain ⟨x', rfl⟩ := original_onto (f := f) h.units x
    exact hy ⟨x', (h.feas hP hQ x').mpr hx.1, (hintegral x').mpr hx.2.1⟩
  · exact absurd ⟨_, (h.feas hP hQ y).mp hy.1, (hintegral y).mp hy.2.1⟩ hx
  · exact Or.inl ⟨e1, e2⟩

end

/-! ### The order matters for other programs -/

/-- `min x₁ + x₂` subject to `x₁ - x₂ = 1`. -/
def orderBad : LP 1 2 := ⟨!![1, -1], ![1], ![1, 1], 0, .min, ![.eq], [], [], false⟩

/-- The same program with the two variables exchanged. -/
def orderGood : LP 1 2 := ⟨!![-1, 1], ![1], ![1, 1], 0, .min, ![.eq], [], [], false⟩

/-- C137 is false: `solve` finds the optimal solution of `min x₁ + x₂` subject to `x₂ - x₁ = 1`, but returns `None` once
the two variables are exchanged. -/
theorem C137_order_wrong : WF orderBad ∧ WF orderGood ∧
    Rewritten orderGood orderBad 1 (Equiv.swap 0 1) (fun _ => 1) (fun _ => 1) 1 ∧
    solve 10 orderGood = .ok (some [0, 1]) ∧ solve 10 orderBad = .ok none ∧ Optimal orderBad ![1, 0] := by
  refine ⟨⟨by decide, by decide, by decide, by decide, by decide, by decide⟩,
    ⟨by decide, by decide, by decide, by decide, by decide, by decide⟩,
    ⟨by decide +kernel, by decide +kernel, by decide +kernel,
      fun i j => by fin_cases i <;> fin_cases j <;> with_unfolding_all rfl, by decide +kernel, by decide +kernel,
      by decide +kernel, by decide +kernel, by decide +kernel, by decide +kernel, by decide +kernel⟩,
    by decide +kernel, by decide +kernel, ⟨fun i => ?_, fun j hj => ?_, fun j _ _ => ?_⟩,
    fun x' hx' => ⟨fun h => ?_, fun _ => ?_⟩⟩
  · fin_cases i; simp [orderBad, rowHolds, mulVec, dotProduct, Fin.sum_univ_two]
  · simp [orderBad] at hj
  · revert j; decide +kernel
  · cases h
  · have h0 := hx'.rows 0
    have p1 := hx'.poss 1 (by simp [orderBad]) (by simp [orderBad])
    simp [orderBad, rowHolds, mulVec, dotProduct, Fin.sum_univ_two] at h0
    simp [orderBad, objVal, dotProduct, Fin.sum_univ_two]
    linarith

/-! ### The hypotheses are satisfiable -/

/-- `mixedSample` rewritten: the constraints and variables exchanged, the second constraint with the signs changed, the
first variable in halves, minimising. -/
def mixedRewritten : LP 2 2 := ⟨!![2, -1; 2, 1], ![1, 3], ![-4, -1], 0, .min, ![.le, .eq], [], [], false⟩

example : Rewritten mixedSample mixedRewritten (Equiv.swap 0 1) (Equiv.swap 0 1) ![-1, 1] ![2, 1] (-1) ∧
    WF mixedRewritten ∧ Regular mixedRewritten ∧ solve 25 mixedRewritten = .ok (some [1, 1]) ∧
    original (Equiv.swap 0 1) ![2, 1] ![1, 1] = ![1, 2] :=
  ⟨⟨by decide +kernel, by decide +kernel, by decide +kernel,
      fun i j => by fin_cases i <;> fin_cases j <;> with_unfolding_all rfl, by decide +kernel, by decide +kernel,
      by decide +kernel, by decide +kernel, by decide +kernel, by decide +kernel, by decide +kernel⟩,
    ⟨by decide, by decide, by decide, by decide, by decide, by decide⟩, Or.inr (Or.inl (by decide)),
    by decide +kernel, by decide +kernel⟩

/-- `twoSample` with the rows and variables in another order: `max 0.5 y + x` subject to `x <= 1`, `y <= 1`, `x + y <= 1`,
`x - y <= 0`. -/
def twoReordered : LP 4 2 :=
  ⟨!![0, 1; 1, 0; 1, 1; -1, 1], ![1, 1, 1, 0], ![1 / 2, 1], 0, .max, fun _ => .le, [], [], false⟩

/-- The order of the rows: those of `twoReordered` are the rows 2, 3, 0 and 1 of `twoSample`. -/
def twoOrder : Fin 4 ≃ Fin 4 := ⟨fun i => i + 2, fun i => i + 2, by decide, by decide⟩

theorem twoSample_bounded : Bounded twoSample (fun _ => 1) 2 2 1 1 where
  wf := twoSample_two.wf
  free := rfl
  neg := rfl
  ineq := by decide
  rpos _ := one_pos
  npos := two_pos
  isInt := by
    refine ⟨fun i j => ⟨(!![1, 1; 1, -1; 1, 0; 0, 1] : Matrix (Fin 4) (Fin 2) ℤ) i j, ?_⟩,
      fun i => ⟨(![1, 0, 1, 1] : Fin 4 → ℤ) i, ?_⟩, fun j => ⟨(![2, 1] : Fin 2 → ℤ) j, ?_⟩⟩
    · fin_cases i <;> fin_cases j <;> simp [twoSample, scaled]
    · fin_cases i <;> simp [twoSample, scaled]
    · fin_cases j <;> simp [twoSample, scaled]
  subdet := subdet_of_le (by decide +kernel)
  rhs := by decide +kernel
  shape := Or.inl (by norm_num)
  box x hx j := twoSample_two.box x hx j
  boxLe := le_rfl
  costs := by simp
  small := by simp; norm_num

/-- The second variable is to be integral, which is the first of the reordered program. -/
example : Rewritten twoSample twoReordered twoOrder (Equiv.swap 0 1) (fun _ => 1) (fun _ => 1) 1 ∧ WF twoReordered ∧
    (∀ j : Fin 2, Required (some [0]) j ↔ Required (some [1]) (Equiv.swap (0 : Fin 2) 1 j)) ∧
    Bounded twoSample (fun _ => 1) 2 2 1 1 ∧ twoSample.objective = .max :=
  ⟨⟨by decide +kernel, by decide +kernel, by decide +kernel,
      fun i j => by fin_cases i <;> fin_cases j <;> with_unfolding_all rfl, by decide +kernel, by decide +kernel,
      by decide +kernel, by decide +kernel, by decide +kernel, by decide +kernel, by decide +kernel⟩,
    ⟨by decide, by decide, by decide, by decide, by decide, by decide⟩, by
      intro j
      fin_cases j <;> simp [Required], twoSample_bounded, rfl⟩

theorem mixedRewritten_data : Decimal mixedRewritten (fun _ => 1) 1 4 3 :=
  Moderate.decimal
    { isInt := ⟨fun i j => ⟨(!![2, -1; 2, 1] : Matrix (Fin 2) (Fin 2) ℤ) i j, by
          fin_cases i <;> fin_cases j <;> norm_num [mixedRewritten]⟩,
        fun i => ⟨(![1, 3] : Fin 2 → ℤ) i, by fin_cases i <;> norm_num [mixedRewritten]⟩,
        fun j => ⟨(![-4, -1] : Fin 2 → ℤ) j, by fin_cases j <;> norm_num [mixedRewritten]⟩⟩
      subdet := subdet_of_le (by decide +kernel)
      rhs := by decide +kernel
      small := by norm_num }

end Props
end Pytimize
