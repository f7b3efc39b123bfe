/-
Linear programming duality over `ℚ`, independent of the code: Farkas' lemma and strong duality for systems
of inequalities.
-/
import Mathlib.Algebra.Module.LinearMap.Prod
import Mathlib.Algebra.BigOperators.Fin
import Mathlib.Algebra.Module.Pi
import Mathlib.LinearAlgebra.Pi
import Mathlib.Data.Matrix.Mul
import Mathlib.Algebra.Order.BigOperators.Group.Finset
import Mathlib.Data.Rat.Defs
import Mathlib.Tactic.Linarith
import Mathlib.Tactic.FieldSimp
import Mathlib.Tactic.Ring

namespace Pytimize
namespace LinProg

/-- Farkas' lemma for linear forms on any vector space. -/
theorem farkas_fin {V : Type*} [AddCommGroup V] [Module ℚ V] (k : ℕ) : ∀ (a : Fin k → V →ₗ[ℚ] ℚ) (b : V →ₗ[ℚ] ℚ),
    (∀ x, (∀ i, a i x ≤ 0) → b x ≤ 0) → ∃ l : Fin k → ℚ, (∀ i, 0 ≤ l i) ∧ b = ∑ i, l i • a i := by
  induction k with
  | zero =>
    intro a b h
    refine ⟨fun _ => 0, fun _ => le_rfl, ?_⟩
    ext x
    have h1 := h x (fun i => i.elim0)
    have h2 := h (-x) (fun i => i.elim0)
    rw [map_neg] at h2
    simp
    linarith
  | succ k ih =>
    intro a b h
    by_cases hb : ∀ x, (∀ i : Fin k, a i.castSucc x ≤ 0) → b x ≤ 0
    · obtain ⟨l, hl, e⟩ := ih (fun i => a i.castSucc) b hb
      refine ⟨Fin.snoc l 0, fun i => ?_, ?_⟩
      · refine Fin.lastCases ?_ (fun i => ?_) i
        · simp
        · simpa using hl i
      · rw [Fin.sum_univ_castSucc]
        simpa using e
    · push Not at hb
      obtain ⟨x0, h0, hx0⟩ := hb
      have hl0 : 0 < a (Fin.last k) x0 := by
        by_contra hn
        push Not at hn
        exact absurd (h x0 fun i => Fin.lastCases hn h0 i) (not_le.mpr hx0)
      obtain ⟨w, hw1, hw2, hw3⟩ : ∃ w, (∀ i : Fin k, a i.castSucc w ≤ 0) ∧ 0 < b w ∧ a (Fin.last k) w = 1 := by
        refine ⟨(a (Fin.last k) x0)⁻¹ • x0, fun i => ?_, ?_, ?_⟩
        · rw [map_smul, smul_eq_mul]
          exact mul_nonpos_of_nonneg_of_nonpos (inv_nonneg.mpr hl0.le) (h0 i)
        · rw [map_smul, smul_eq_mul]
          exact mul_pos (inv_pos.mpr hl0) hx0
        · rw [map_smul, smul_eq_mul, inv_mul_cancel₀ hl0.ne']
      obtain ⟨l, hl, e⟩ := ih (fun i => a i.castSucc - (a i.castSucc w) • a (Fin.last k))
        (b - (b w) • a (Fin.last k)) (by
          intro x hx
          have := h (x - (a (Fin.last k) x) • w) (fun i => by
            refine Fin.lastCases ?_ (fun i => ?_) i
            · simp [hw3]
            · have := hx i
              simp only [LinearMap.sub_apply, LinearMap.smul_apply, smul_eq_mul] at this
              simp only [map_sub, map_smul, smul_eq_mul]
              linarith [mul_comm (a (Fin.last k) x) (a i.castSucc w)])
          simp only [map_sub, map_smul, smul_eq_mul] at this
          simp only [LinearMap.sub_apply, LinearMap.smul_apply, smul_eq_mul]
          linarith [mul_comm (a (Fin.last k) x) (b w)])
      refine ⟨Fin.snoc l (b w - ∑ i, l i * a i.castSucc w), fun i => ?_, ?_⟩
      · refine Fin.lastCases ?_ (fun i => ?_) i
        · simp only [Fin.snoc_last]
          have : ∑ i, l i * a i.castSucc w ≤ 0 :=
            Finset.sum_nonpos fun i _ => mul_nonpos_of_nonneg_of_nonpos (hl i) (hw1 i)
          linarith
        · simpa using hl i
      · ext x
        have := congrArg (fun f => f x) e
        simp only [LinearMap.sub_apply, LinearMap.smul_apply, smul_eq_mul, LinearMap.sum_apply] at this
        rw [Fin.sum_univ_castSucc]
        simp only [LinearMap.add_apply, LinearMap.sum_apply, LinearMap.smul_apply, smul_eq_mul, Fin.snoc_castSucc,
          Fin.snoc_last]
        have e2 : ∑ i, l i * (a i.castSucc x - a i.castSucc w * a (Fin.last k) x) =
            ∑ i, l i * a i.castSucc x - (∑ i, l i * a i.castSucc w) * a (Fin.last k) x := by
          rw [Finset.sum_mul, ← Finset.sum_sub_distrib]
          exact Finset.sum_congr rfl fun i _ => by ring
        rw [e2] at this
        linarith

variable {ι : Type*} [Fintype ι] {κ : Type*} [Fintype κ]

/-- Farkas' lemma, any finite index type. -/
theorem farkas {V : Type*} [AddCommGroup V] [Module ℚ V] (a : ι → V →ₗ[ℚ] ℚ) (b : V →ₗ[ℚ] ℚ)
    (h : ∀ x, (∀ i, a i x ≤ 0) → b x ≤ 0) : ∃ l : ι → ℚ, (∀ i, 0 ≤ l i) ∧ b = ∑ i, l i • a i := by
  classical
  let e := Fintype.equivFin ι
  obtain ⟨l, hl, hb⟩ := farkas_fin _ (fun i => a (e.symm i)) b
    (fun x hx => h x fun i => by simpa using hx (e i))
  refine ⟨fun i => l (e i), fun i => hl _, ?_⟩
  rw [hb]
  exact (Equiv.sum_comp e (fun i => l i • a (e.symm i))).symm.trans (by simp)

/-- A system of inequalities without solution is refuted by a nonnegative combination of its rows. -/
theorem farkas_infeasible {V : Type*} [AddCommGroup V] [Module ℚ V] (a : ι → V →ₗ[ℚ] ℚ) (b : ι → ℚ)
    (h : ¬ ∃ x, ∀ i, a i x ≤ b i) :
    ∃ l : ι → ℚ, (∀ i, 0 ≤ l i) ∧ ∑ i, l i • a i = 0 ∧ ∑ i, l i * b i = -1 := by
  obtain ⟨l, hl, e⟩ := farkas (V := V × ℚ)
    (fun i => (a i).comp (LinearMap.fst ℚ V ℚ) - (b i) • LinearMap.snd ℚ V ℚ) (LinearMap.snd ℚ V ℚ) (by
      rintro ⟨x, t⟩ hx
      simp only [LinearMap.sub_apply, LinearMap.comp_apply, LinearMap.fst_apply, LinearMap.smul_apply,
        LinearMap.snd_apply, smul_eq_mul, sub_nonpos] at hx ⊢
      by_contra ht
      push Not at ht
      refine h ⟨t⁻¹ • x, fun i => ?_⟩
      rw [map_smul, smul_eq_mul, inv_mul_le_iff₀ ht, mul_comm]
      exact hx i)
  refine ⟨l, hl, ?_, ?_⟩
  · ext x
    have := congrArg (fun f => f (x, 0)) e
    simpa [LinearMap.sum_apply] using this.symm
  · have := congrArg (fun f => f ((0 : V), (1 : ℚ))) e
    simp [LinearMap.sum_apply] at this
    linarith

/-- A bound on the solutions of a solvable system is a nonnegative combination of its rows. -/
theorem farkas_bound {V : Type*} [AddCommGroup V] [Module ℚ V] (a : ι → V →ₗ[ℚ] ℚ) (b : ι → ℚ) (c : V →ₗ[ℚ] ℚ)
    (d : ℚ) (x0 : V) (h0 : ∀ i, a i x0 ≤ b i) (h : ∀ x, (∀ i, a i x ≤ b i) → c x ≤ d) :
    ∃ l : ι → ℚ, (∀ i, 0 ≤ l i) ∧ ∑ i, l i • a i = c ∧ ∑ i, l i * b i ≤ d := by
  obtain ⟨l, hl, e⟩ := farkas (ι := Option ι) (V := V × ℚ)
    (fun o => match o with
      | some i => (a i).comp (LinearMap.fst ℚ V ℚ) - (b i) • LinearMap.snd ℚ V ℚ
      | none => -LinearMap.snd ℚ V ℚ)
    (c.comp (LinearMap.fst ℚ V ℚ) - d • LinearMap.snd ℚ V ℚ) (by
      rintro ⟨x, t⟩ hx
      have ht : 0 ≤ t := by simpa using hx none
      have hx : ∀ i, a i x ≤ b i * t := fun i => by
        have := hx (some i)
        simp only [LinearMap.sub_apply, LinearMap.comp_apply, LinearMap.fst_apply, LinearMap.smul_apply,
          LinearMap.snd_apply, smul_eq_mul, sub_nonpos] at this
        exact this
      simp only [LinearMap.sub_apply, LinearMap.comp_apply, LinearMap.fst_apply, LinearMap.smul_apply,
        LinearMap.snd_apply, smul_eq_mul, sub_nonpos]
      rcases ht.lt_or_eq with ht | rfl
      · have := h (t⁻¹ • x) (fun i => by
          rw [map_smul, smul_eq_mul, inv_mul_le_iff₀ ht, mul_comm]
          exact hx i)
        rw [map_smul, smul_eq_mul, inv_mul_le_iff₀ ht, mul_comm] at this
        exact this
      · rw [mul_zero]
        by_contra hc
        push Not at hc
        have := h (x0 + (((d - c x0 + 1) ⊔ 0) / c x) • x) (fun i => by
          rw [map_add, map_smul, smul_eq_mul]
          have h1 := hx i
          rw [mul_zero] at h1
          have h2 : 0 ≤ ((d - c x0 + 1) ⊔ 0) / c x := div_nonneg le_sup_right hc.le
          have := mul_nonpos_of_nonneg_of_nonpos h2 h1
          linarith [h0 i])
        rw [map_add, map_smul, smul_eq_mul, div_mul_cancel₀ _ hc.ne'] at this
        have h3 : d - c x0 + 1 ≤ (d - c x0 + 1) ⊔ 0 := le_sup_left
        linarith)
  rw [Fintype.sum_option] at e
  refine ⟨fun i => l (some i), fun i => hl _, ?_, ?_⟩
  · ext x
    have := congrArg (fun f => f (x, 0)) e
    simpa [LinearMap.sum_apply] using this.symm
  · have := congrArg (fun f => f ((0 : V), (1 : ℚ))) e
    simp [LinearMap.sum_apply] at this
    have := hl none
    linarith

/-- The linear form with the given coefficients. -/
def form {κ : Type*} [Fintype κ] (c : κ → ℚ) : (κ → ℚ) →ₗ[ℚ] ℚ :=
  { toFun := fun x => c ⬝ᵥ x
    map_add' := fun x y => dotProduct_add c x y
    map_smul' := fun r x => by rw [dotProduct_smul]; rfl }

@[simp] theorem form_apply (c x : κ → ℚ) : form c x = c ⬝ᵥ x := rfl

theorem form_sum (l : ι → ℚ) (a : ι → κ → ℚ) (x : κ → ℚ) :
    (∑ i, l i • form (a i)) x = ∑ i, l i * (a i ⬝ᵥ x) := by
  simp [LinearMap.sum_apply]

/-- The coefficients of a form. -/
theorem form_coeff [DecidableEq κ] {l : ι → ℚ} {a : ι → κ → ℚ} {c : κ → ℚ} (h : ∑ i, l i • form (a i) = form c)
    (j : κ) : ∑ i, l i * a i j = c j := by
  have := congrArg (fun f => f (Pi.single j 1)) h
  simpa [form_sum] using this

/-- Weak duality for systems. -/
theorem weak_system {a : ι → κ → ℚ} {b : ι → ℚ} {c x : κ → ℚ} {l : ι → ℚ} (hx : ∀ i, a i ⬝ᵥ x ≤ b i)
    (hl : ∀ i, 0 ≤ l i) (hc : ∀ j, ∑ i, l i * a i j = c j) : c ⬝ᵥ x ≤ ∑ i, l i * b i := by
  have : c ⬝ᵥ x = ∑ i, l i * (a i ⬝ᵥ x) := by
    simp only [dotProduct, ← hc, Finset.sum_mul, Finset.mul_sum]
    rw [Finset.sum_comm]
    exact Finset.sum_congr rfl fun i _ => Finset.sum_congr rfl fun j _ => by ring
  rw [this]
  exact Finset.sum_le_sum fun i _ => mul_le_mul_of_nonneg_left (hx i) (hl i)

/-- Strong duality for systems: a bounded linear function attains its maximum on a solvable system, with a
dual solution of the same value. -/
theorem strong_system [DecidableEq κ] (a : ι → κ → ℚ) (b : ι → ℚ) (c : κ → ℚ) (x0 : κ → ℚ)
    (h0 : ∀ i, a i ⬝ᵥ x0 ≤ b i) (d : ℚ) (hd : ∀ x, (∀ i, a i ⬝ᵥ x ≤ b i) → c ⬝ᵥ x ≤ d) :
    ∃ (x : κ → ℚ) (l : ι → ℚ), (∀ i, a i ⬝ᵥ x ≤ b i) ∧ (∀ i, 0 ≤ l i) ∧ (∀ j, ∑ i, l i * a i j = c j) ∧
      c ⬝ᵥ x = ∑ i, l i * b i := by
  obtain ⟨l0, hl0, hc0, -⟩ := farkas_bound (fun i => form (a i)) b (form c) d x0 h0 hd
  replace hc0 := form_coeff hc0
  by_contra hn
  -- rows: primal, sign of the multipliers, both directions of the dual equations, the values
  let g : ι ⊕ ι ⊕ κ ⊕ κ ⊕ Unit → ((κ → ℚ) × (ι → ℚ)) →ₗ[ℚ] ℚ := fun r => match r with
    | .inl i => (form (a i)).comp (LinearMap.fst ℚ _ _)
    | .inr (.inl i) => -((LinearMap.proj i).comp (LinearMap.snd ℚ _ _))
    | .inr (.inr (.inl j)) => (form fun i => a i j).comp (LinearMap.snd ℚ _ _)
    | .inr (.inr (.inr (.inl j))) => -((form fun i => a i j).comp (LinearMap.snd ℚ _ _))
    | .inr (.inr (.inr (.inr _))) => (form b).comp (LinearMap.snd ℚ _ _) - (form c).comp (LinearMap.fst ℚ _ _)
  let h : ι ⊕ ι ⊕ κ ⊕ κ ⊕ Unit → ℚ := fun r => match r with
    | .inl i => b i
    | .inr (.inl _) => 0
    | .inr (.inr (.inl j)) => c j
    | .inr (.inr (.inr (.inl j))) => -c j
    | .inr (.inr (.inr (.inr _))) => 0
  obtain ⟨u, hu, e1, e2⟩ := farkas_infeasible g h (by
    rintro ⟨⟨x, l⟩, hx⟩
    have r1 : ∀ i, a i ⬝ᵥ x ≤ b i := fun i => hx (.inl i)
    have r2 : ∀ i, 0 ≤ l i := fun i => by
      have : -(l i) ≤ 0 := hx (.inr (.inl i))
      linarith
    have r3 : ∀ j, ∑ i, l i * a i j = c j := fun j => by
      have h1 : (fun i => a i j) ⬝ᵥ l ≤ c j := hx (.inr (.inr (.inl j)))
      have h2 : -((fun i => a i j) ⬝ᵥ l) ≤ -c j := hx (.inr (.inr (.inr (.inl j))))
      have h3 : (fun i => a i j) ⬝ᵥ l = ∑ i, l i * a i j :=
        Finset.sum_congr rfl fun i _ => mul_comm _ _
      linarith
    have r4 : b ⬝ᵥ l - c ⬝ᵥ x ≤ 0 := hx (.inr (.inr (.inr (.inr ()))))
    have r5 : b ⬝ᵥ l = ∑ i, l i * b i := Finset.sum_congr rfl fun i _ => mul_comm _ _
    exact hn ⟨x, l, r1, r2, r3, le_antisymm (weak_system r1 r2 r3) (by linarith)⟩)
  simp only [Fintype.sum_sum_type, Finset.univ_unique, Finset.sum_singleton, PUnit.default_eq_unit] at e1 e2
  set p : ι → ℚ := fun i => u (.inl i) with hp
  set v : ι → ℚ := fun i => u (.inr (.inl i)) with hv
  set w : κ → ℚ := fun j => u (.inr (.inr (.inl j))) - u (.inr (.inr (.inr (.inl j)))) with hw
  set s : ℚ := u (.inr (.inr (.inr (.inr ())))) with hs
  have ep : ∀ j, ∑ i, p i * a i j = s * c j := by
    intro j
    have := congrArg (fun f => f (Pi.single j 1, 0)) e1
    simp [g, LinearMap.sum_apply] at this
    linarith
  have ev : ∀ i, a i ⬝ᵥ w + s * b i = v i := by
    intro i
    classical
    have := congrArg (fun f => f (0, Pi.single i 1)) e1
    simp only [g, LinearMap.add_apply, LinearMap.sum_apply, LinearMap.smul_apply, LinearMap.comp_apply,
      LinearMap.fst_apply, LinearMap.snd_apply, LinearMap.neg_apply, LinearMap.sub_apply, form_apply,
      LinearMap.proj_apply, dotProduct_zero, dotProduct_single, mul_one, smul_eq_mul, mul_zero,
      Finset.sum_const_zero, zero_add, LinearMap.zero_apply, sub_zero, mul_neg, Finset.sum_neg_distrib] at this
    have e3 : ∑ x, u (.inr (.inl x)) * (Pi.single i 1 : ι → ℚ) x = v i := by
      rw [Finset.sum_eq_single i]
      · simp [hv]
      · intro b _ hb; simp [hb]
      · intro h; exact absurd (Finset.mem_univ i) h
    have e4 : a i ⬝ᵥ w = ∑ x, u (.inr (.inr (.inl x))) * a i x - ∑ x, u (.inr (.inr (.inr (.inl x)))) * a i x := by
      rw [← Finset.sum_sub_distrib]
      exact Finset.sum_congr rfl fun j _ => by simp only [hw]; ring
    rw [e3] at this
    rw [e4]
    linarith
  have eb : ∑ i, p i * b i + c ⬝ᵥ w = -1 := by
    have e4 : c ⬝ᵥ w = ∑ x, u (.inr (.inr (.inl x))) * c x - ∑ x, u (.inr (.inr (.inr (.inl x)))) * c x := by
      rw [← Finset.sum_sub_distrib]
      exact Finset.sum_congr rfl fun j _ => by simp only [hw]; ring
    simp only [h, mul_zero, Finset.sum_const_zero, mul_neg, Finset.sum_neg_distrib] at e2
    rw [e4]
    linarith
  have hs0 : 0 ≤ s := hu _
  rcases hs0.lt_or_eq with hs0 | hs0
  · -- a solution from the multipliers
    have h1 : ∀ i, a i ⬝ᵥ (-(s⁻¹) • w) ≤ b i := fun i => by
      have hvi : 0 ≤ v i := hu _
      rw [dotProduct_smul, smul_eq_mul, neg_mul, neg_le, ← sub_nonneg, sub_neg_eq_add]
      have : s⁻¹ * (a i ⬝ᵥ w) + b i = s⁻¹ * v i := by
        rw [← ev i]; field_simp
      rw [this]
      exact mul_nonneg (inv_nonneg.mpr hs0.le) hvi
    have h2 : ∀ i, 0 ≤ s⁻¹ * p i := fun i => mul_nonneg (inv_nonneg.mpr hs0.le) (hu _)
    have h3 : ∀ j, ∑ i, s⁻¹ * p i * a i j = c j := fun j => by
      simp only [mul_assoc, ← Finset.mul_sum]
      rw [ep j, ← mul_assoc, inv_mul_cancel₀ hs0.ne', one_mul]
    have h4 := weak_system h1 h2 h3
    rw [dotProduct_smul, smul_eq_mul] at h4
    simp only [mul_assoc, ← Finset.mul_sum] at h4
    have h5 : 0 ≤ s⁻¹ * (∑ i, p i * b i + c ⬝ᵥ w) := by rw [mul_add]; linarith
    rw [eb] at h5
    have := inv_pos.mpr hs0
    linarith
  · have h1 : 0 ≤ ∑ i, p i * b i := by
      have := weak_system (c := fun _ => 0) h0 (fun i => hu (.inl i)) (fun j => by
        have := ep j; rw [← hs0, zero_mul] at this; exact this)
      have z : (fun _ => 0 : κ → ℚ) ⬝ᵥ x0 = 0 := by simp [dotProduct]
      rw [z] at this
      exact this
    have h2 : 0 ≤ c ⬝ᵥ w := by
      have e : c ⬝ᵥ w = ∑ i, l0 i * (a i ⬝ᵥ w) := by
        simp only [dotProduct, ← hc0, Finset.sum_mul, Finset.mul_sum]
        rw [Finset.sum_comm]
        exact Finset.sum_congr rfl fun i _ => Finset.sum_congr rfl fun j _ => by ring
      rw [e]
      refine Finset.sum_nonneg fun i _ => mul_nonneg (hl0 i) ?_
      have := ev i
      rw [← hs0, zero_mul, add_zero] at this
      rw [this]
      exact hu _
    linarith

end LinProg
end Pytimize
