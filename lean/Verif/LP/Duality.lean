/-
Duality of the modelled programs: `dual` and the certificates checked by `verify_*`.
-/
import Mathlib.Tactic.FinCases
import Verif.LP.Farkas
import Verif.LP.Verify

namespace Pytimize
namespace LinProg
open Comparator

variable {m n : ℕ}

theorem mem_dual_free (P : LP m n) (i : Fin m) : (i : ℕ) ∈ (dual P).free ↔ P.ineq i = .eq := by
  simp [dual]

theorem mem_dual_neg (P : LP m n) (i : Fin m) : (i : ℕ) ∈ (dual P).neg ↔
    (P.ineq i = .ge ∧ P.objective = .max) ∨ (P.ineq i = .le ∧ P.objective = .min) := by
  simp [dual]

/-- The rows of a program as inequalities `row · x ≤ rhs`. -/
def sysA (P : LP m n) : (Fin m × Bool) ⊕ (Fin n × Bool) → Fin n → ℚ
  | .inl (i, false) => if P.ineq i = .ge then 0 else P.A i
  | .inl (i, true) => if P.ineq i = .le then 0 else -P.A i
  | .inr (j, false) => if (j : ℕ) ∈ P.neg ∨ (j : ℕ) ∈ P.free then 0 else Pi.single j (-1)
  | .inr (j, true) => if (j : ℕ) ∈ P.neg then Pi.single j 1 else 0

def sysB (P : LP m n) : (Fin m × Bool) ⊕ (Fin n × Bool) → ℚ
  | .inl (i, false) => if P.ineq i = .ge then 0 else P.b i
  | .inl (i, true) => if P.ineq i = .le then 0 else -P.b i
  | .inr _ => 0

theorem feas_iff_sys (P : LP m n) (x : Fin n → ℚ) : Feas P x ↔ ∀ r, sysA P r ⬝ᵥ x ≤ sysB P r := by
  constructor
  · intro h r
    rcases r with ⟨i, s⟩ | ⟨j, s⟩
    · have := h.rows i
      cases s <;> cases hq : P.ineq i <;> simp [sysA, sysB, hq] <;> simp only [hq, rowHolds, Matrix.mulVec] at this
      · exact this.le
      · exact this
      · exact this.ge
      · exact this
    · cases s
      · by_cases hj : (j : ℕ) ∈ P.neg ∨ (j : ℕ) ∈ P.free
        · simp [sysA, sysB, hj]
        · push Not at hj
          simp [sysA, sysB, hj, h.poss j hj.1 hj.2]
      · by_cases hj : (j : ℕ) ∈ P.neg
        · simp [sysA, sysB, hj, h.negs j hj]
        · simp [sysA, sysB, hj]
  · intro h
    refine ⟨fun i => ?_, fun j hj => ?_, fun j hj hf => ?_⟩
    · have h1 := h (.inl (i, false))
      have h2 := h (.inl (i, true))
      cases hq : P.ineq i <;> simp [sysA, sysB, hq] at h1 h2 <;> simp only [rowHolds, Matrix.mulVec]
      · exact le_antisymm h1 h2
      · exact h1
      · exact h2
    · have := h (.inr (j, true))
      simpa [sysA, sysB, hj] using this
    · have := h (.inr (j, false))
      simpa [sysA, sysB, hj, hf] using this

/-- The dual point given by multipliers of the rows. -/
def dualOf (P : LP m n) (l : (Fin m × Bool) ⊕ (Fin n × Bool) → ℚ) : Fin m → ℚ := fun i =>
  (if P.ineq i = .ge then 0 else l (.inl (i, false))) - (if P.ineq i = .le then 0 else l (.inl (i, true)))

theorem dualOf_feas (P : LP m n) (ho : P.objective = .max) {l} (hl : ∀ r, 0 ≤ l r)
    (hc : ∀ j, ∑ r, l r * sysA P r j = P.c j) :
    Feas (dual P) (dualOf P l) ∧ ∑ r, l r * sysB P r = P.b ⬝ᵥ dualOf P l := by
  have key : ∀ j, (P.A.transpose.mulVec (dualOf P l)) j =
      P.c j + (if (j : ℕ) ∈ P.neg ∨ (j : ℕ) ∈ P.free then 0 else l (.inr (j, false)))
        - (if (j : ℕ) ∈ P.neg then l (.inr (j, true)) else 0) := by
    intro j
    have := hc j
    rw [Fintype.sum_sum_type, Fintype.sum_prod_type, Fintype.sum_prod_type] at this
    simp only [Fintype.sum_bool] at this
    have e1 : ∑ i, (l (.inl (i, true)) * sysA P (.inl (i, true)) j + l (.inl (i, false)) * sysA P (.inl (i, false)) j)
        = (P.A.transpose.mulVec (dualOf P l)) j := by
      simp only [Matrix.mulVec, dotProduct, Matrix.transpose_apply]
      refine Finset.sum_congr rfl fun i _ => ?_
      cases hq : P.ineq i <;> simp [sysA, dualOf, hq] <;> ring
    have e2 : ∑ k, (l (.inr (k, true)) * sysA P (.inr (k, true)) j + l (.inr (k, false)) * sysA P (.inr (k, false)) j)
        = (if (j : ℕ) ∈ P.neg then l (.inr (j, true)) else 0)
          - (if (j : ℕ) ∈ P.neg ∨ (j : ℕ) ∈ P.free then 0 else l (.inr (j, false))) := by
      rw [Finset.sum_eq_single j]
      · by_cases h1 : (j : ℕ) ∈ P.neg <;> by_cases h2 : (j : ℕ) ∈ P.free <;> simp [sysA, h1, h2]
      · intro k _ hk
        have hk' : j ≠ k := fun h => hk h.symm
        by_cases h1 : (k : ℕ) ∈ P.neg <;> by_cases h2 : (k : ℕ) ∈ P.free <;> simp [sysA, h1, h2, hk']
      · intro h; exact absurd (Finset.mem_univ j) h
    rw [e1, e2] at this
    linarith
  refine ⟨⟨fun j => ?_, fun i hi => ?_, fun i hi hf => ?_⟩, ?_⟩
  · have hj := key j
    have l1 := hl (.inr (j, false))
    have l2 := hl (.inr (j, true))
    have hA : (dual P).A = P.A.transpose := rfl
    have hb : (dual P).b j = P.c j := rfl
    have hq : (dual P).ineq j = if (j : ℕ) ∈ P.neg then .le else if (j : ℕ) ∉ P.free then .ge else .eq := by
      simp [dual, ho]
    rw [hA, hb, hq, hj]
    by_cases h1 : (j : ℕ) ∈ P.neg
    · simp [h1, rowHolds, l2]
    · by_cases h2 : (j : ℕ) ∈ P.free <;> simp [h1, h2, rowHolds, l1]
  · rw [mem_dual_neg, ho] at hi
    simp at hi
    simp [dualOf, hi, hl]
  · rw [mem_dual_neg, ho] at hi
    rw [mem_dual_free] at hf
    have : P.ineq i = .le := by
      cases hq : P.ineq i
      · exact absurd hq hf
      · rfl
      · simp [hq] at hi
    simp [dualOf, this, hl]
  · rw [Fintype.sum_sum_type, Fintype.sum_prod_type, Fintype.sum_prod_type]
    simp only [Fintype.sum_bool, dotProduct]
    have e2 : ∑ k : Fin n, (l (.inr (k, true)) * sysB P (.inr (k, true)) + l (.inr (k, false)) * sysB P (.inr (k, false)))
        = 0 := Finset.sum_eq_zero fun k _ => by simp [sysB]
    rw [e2, add_zero]
    refine Finset.sum_congr rfl fun i _ => ?_
    cases hq : P.ineq i <;> simp [sysB, dualOf, hq] <;> ring

/-- Strong duality for maximisations. -/
theorem strong_max (P : LP m n) (ho : P.objective = .max) {x0 : Fin n → ℚ} (h0 : Feas P x0) {d : ℚ}
    (hd : ∀ x, Feas P x → P.c ⬝ᵥ x ≤ d) :
    ∃ x y, Feas P x ∧ Feas (dual P) y ∧ P.c ⬝ᵥ x = P.b ⬝ᵥ y := by
  obtain ⟨x, l, hx, hl, hc, hv⟩ := strong_system (sysA P) (sysB P) P.c x0 ((feas_iff_sys P x0).mp h0) d
    (fun x hx => hd x ((feas_iff_sys P x).mpr hx))
  obtain ⟨h1, h2⟩ := dualOf_feas P ho hl hc
  exact ⟨x, dualOf P l, (feas_iff_sys P x).mpr hx, h1, by rw [hv, h2]⟩

/-- The same constraints, with the negated objective to be maximised. -/
def negMax (P : LP m n) : LP m n := { P with c := -P.c, objective := .max }

theorem feas_negMax (P : LP m n) (x : Fin n → ℚ) : Feas (negMax P) x ↔ Feas P x :=
  ⟨fun h => ⟨h.rows, h.negs, h.poss⟩, fun h => ⟨h.rows, h.negs, h.poss⟩⟩

theorem feas_dual_negMax (P : LP m n) (ho : P.objective = .min) {y : Fin m → ℚ} (h : Feas (dual (negMax P)) y) :
    Feas (dual P) (-y) := by
  refine ⟨fun j => ?_, fun i hi => ?_, fun i hi hf => ?_⟩
  · have := h.rows j
    have e1 : (dual P).A.mulVec (-y) j = -((dual (negMax P)).A.mulVec y j) := by
      rw [Matrix.mulVec_neg]; rfl
    have e2 : (dual P).b j = -((dual (negMax P)).b j) := by simp [dual, negMax]
    rw [e1, e2]
    by_cases h1 : (j : ℕ) ∈ P.neg
    · have q1 : (dual (negMax P)).ineq j = .le := by simp [dual, negMax, h1]
      have q2 : (dual P).ineq j = .ge := by simp [dual, h1, ho]
      rw [q1] at this; rw [q2]
      exact neg_le_neg this
    · by_cases h2 : (j : ℕ) ∈ P.free
      · have q1 : (dual (negMax P)).ineq j = .eq := by simp [dual, negMax, h1, h2]
        have q2 : (dual P).ineq j = .eq := by simp [dual, h1, h2]
        rw [q1] at this; rw [q2]
        exact congrArg _ this
      · have q1 : (dual (negMax P)).ineq j = .ge := by simp [dual, negMax, h1, h2]
        have q2 : (dual P).ineq j = .le := by simp [dual, h1, h2, ho]
        rw [q1] at this; rw [q2]
        exact neg_le_neg this
  · rw [mem_dual_neg, ho] at hi
    simp at hi
    have := h.poss i (by rw [mem_dual_neg]; simp [negMax, hi]) (by rw [mem_dual_free]; simp [negMax, hi])
    simpa using this
  · rw [mem_dual_neg, ho] at hi
    rw [mem_dual_free] at hf
    have hq : P.ineq i = .ge := by
      cases hq : P.ineq i
      · exact absurd hq hf
      · simp [hq] at hi
      · rfl
    have := h.negs i (by rw [mem_dual_neg]; simp [negMax, hq])
    simpa using this

/-- Strong duality for minimisations. -/
theorem strong_min (P : LP m n) (ho : P.objective = .min) {x0 : Fin n → ℚ} (h0 : Feas P x0) {d : ℚ}
    (hd : ∀ x, Feas P x → d ≤ P.c ⬝ᵥ x) :
    ∃ x y, Feas P x ∧ Feas (dual P) y ∧ P.c ⬝ᵥ x = P.b ⬝ᵥ y := by
  obtain ⟨x, y, hx, hy, hv⟩ := strong_max (negMax P) rfl ((feas_negMax P x0).mpr h0) (d := -d) (fun x hx => by
    have := hd x ((feas_negMax P x).mp hx)
    have e : (negMax P).c ⬝ᵥ x = -(P.c ⬝ᵥ x) := neg_dotProduct _ _
    rw [e]
    linarith)
  refine ⟨x, -y, (feas_negMax P x).mp hx, feas_dual_negMax P ho hy, ?_⟩
  have e : (negMax P).c ⬝ᵥ x = -(P.c ⬝ᵥ x) := neg_dotProduct _ _
  have e' : (negMax P).b ⬝ᵥ y = P.b ⬝ᵥ y := rfl
  rw [e, e'] at hv
  rw [dotProduct_neg]
  linarith

/-! ### Certificates in standard equality form -/

/-- An infeasible program in SEF has an exact certificate. -/
theorem sef_farkas (A : Matrix (Fin m) (Fin n) ℚ) (b : Fin m → ℚ) (h : ¬ ∃ x, A.mulVec x = b ∧ ∀ j, 0 ≤ x j) :
    ∃ y : Fin m → ℚ, (∀ j, 0 ≤ ∑ i, y i * A i j) ∧ ∑ i, y i * b i = -1 := by
  by_contra hn
  obtain ⟨l, hl, e⟩ := farkas (V := Fin m → ℚ) (fun j => form fun i => A i j) (form b) (by
    intro y hy
    by_contra hb
    push Not at hb
    simp only [form_apply] at hy hb
    refine hn ⟨fun i => -(b ⬝ᵥ y)⁻¹ * y i, fun j => ?_, ?_⟩
    · have : ∑ i, -(b ⬝ᵥ y)⁻¹ * y i * A i j = (b ⬝ᵥ y)⁻¹ * -((fun i => A i j) ⬝ᵥ y) := by
        generalize (b ⬝ᵥ y)⁻¹ = s
        rw [dotProduct, ← Finset.sum_neg_distrib, Finset.mul_sum]
        exact Finset.sum_congr rfl fun i _ => by ring
      rw [this]
      exact mul_nonneg (inv_nonneg.mpr hb.le) (by linarith [hy j])
    · have : ∑ i, -(b ⬝ᵥ y)⁻¹ * y i * b i = -((b ⬝ᵥ y)⁻¹ * (b ⬝ᵥ y)) := by
        generalize (b ⬝ᵥ y)⁻¹ = s
        rw [dotProduct, Finset.mul_sum, ← Finset.sum_neg_distrib]
        exact Finset.sum_congr rfl fun i _ => by ring
      rw [this, inv_mul_cancel₀ hb.ne'])
  refine h ⟨l, ?_, hl⟩
  funext i
  have := form_coeff e.symm i
  rw [← this]
  simp only [Matrix.mulVec, dotProduct]
  exact Finset.sum_congr rfl fun j _ => mul_comm _ _

/-- A feasible program in SEF whose objective is not bounded above has an exact ray. -/
theorem sef_ray (A : Matrix (Fin m) (Fin n) ℚ) (c : Fin n → ℚ) (h : ¬ ∃ y : Fin m → ℚ, ∀ j, c j ≤ ∑ i, y i * A i j) :
    ∃ d : Fin n → ℚ, (∀ j, 0 ≤ d j) ∧ (∀ i, ∑ j, A i j * d j = 0) ∧ ∑ j, c j * d j = 1 := by
  obtain ⟨l, hl, e1, e2⟩ := farkas_infeasible (ι := Fin n) (V := Fin m → ℚ) (fun j => form fun i => -A i j)
    (fun j => -c j) (by
      rintro ⟨y, hy⟩
      refine h ⟨y, fun j => ?_⟩
      have := hy j
      simp only [form_apply] at this
      have e : (fun i => -A i j) ⬝ᵥ y = -∑ i, y i * A i j := by
        rw [dotProduct, ← Finset.sum_neg_distrib]
        exact Finset.sum_congr rfl fun i _ => by ring
      rw [e] at this
      linarith)
  refine ⟨l, hl, fun i => ?_, ?_⟩
  · have := form_coeff (c := fun _ => 0) (e1.trans (by ext x; simp [dotProduct])) i
    simp only [mul_neg, Finset.sum_neg_distrib] at this
    rw [← neg_eq_zero, ← this]
    congr 1
    exact Finset.sum_congr rfl fun j _ => mul_comm _ _
  · simp only [mul_neg, Finset.sum_neg_distrib, neg_inj] at e2
    rw [← e2]
    exact Finset.sum_congr rfl fun j _ => mul_comm _ _

end LinProg
end Pytimize
