/-
Constraints with at most two variables per row and coefficients `1` or `-1`: basic solutions are half-integral.
-/
import Mathlib.Algebra.Order.Floor.Ring
import Mathlib.Data.Finset.Card
import Verif.LP.ExactDenom

namespace Pytimize
namespace LinProg
open Matrix

variable {m n : ℕ}

/-! ### Moving away from the half-integers -/

/-- The direction away from the integer half of the fractional part: zero on half-integers, odd, and periodic. -/
noncomputable def pert (x : ℚ) : ℚ :=
  if Int.fract x = 0 ∨ Int.fract x = 1 / 2 then 0 else if Int.fract x < 1 / 2 then 1 else -1

theorem pert_add_int (x : ℚ) (z : ℤ) : pert (x + z) = pert x := by
  unfold pert
  rw [Int.fract_add_intCast]

theorem pert_neg (x : ℚ) : pert (-x) = -pert x := by
  unfold pert
  by_cases h : Int.fract x = 0
  · have h' : Int.fract (-x) = 0 := by rwa [Int.fract_neg_eq_zero]
    simp [h, h']
  · rw [Int.fract_neg h]
    by_cases h2 : Int.fract x = 1 / 2
    · rw [h2]; norm_num
    · have h3 := Int.fract_lt_one x
      have h4 : ¬ (1 - Int.fract x = 0 ∨ 1 - Int.fract x = 1 / 2) := by
        rintro (h5 | h5)
        · linarith
        · exact h2 (by linarith)
      have h6 : ¬ (Int.fract x = 0 ∨ Int.fract x = 1 / 2) := by
        rintro (h5 | h5)
        exacts [h h5, h2 h5]
      rw [if_neg h4, if_neg h6]
      rcases lt_or_gt_of_ne h2 with h5 | h5
      · have h7 : ¬ (1 - Int.fract x < 1 / 2) := by linarith
        rw [if_neg h7, if_pos h5]
      · have h7 : 1 - Int.fract x < 1 / 2 := by linarith
        have h8 : ¬ (Int.fract x < 1 / 2) := by linarith
        rw [if_pos h7, if_neg h8]
        norm_num

theorem pert_zero : pert 0 = 0 := by simp [pert]

theorem pert_eq_zero {x : ℚ} (h : pert x = 0) : ∃ z : ℤ, 2 * x = z := by
  unfold pert at h
  have hx := Int.floor_add_fract x
  split at h
  · rename_i h1
    rcases h1 with h1 | h1
    · refine ⟨2 * ⌊x⌋, ?_⟩
      rw [h1] at hx
      push_cast
      linarith
    · refine ⟨2 * ⌊x⌋ + 1, ?_⟩
      rw [h1] at hx
      push_cast
      linarith
  · split at h <;> norm_num at h

/-- An integral signed sum of at most two numbers is balanced by the directions. -/
theorem pert_sum {ι : Type} [DecidableEq ι] (S : Finset ι) (hS : S.card ≤ 2) (s x : ι → ℚ)
    (hs : ∀ j ∈ S, s j = 1 ∨ s j = -1) (h : ∃ z : ℤ, ∑ j ∈ S, s j * x j = z) :
    ∑ j ∈ S, s j * pert (x j) = 0 := by
  obtain ⟨z, hz⟩ := h
  have hmul : ∀ j ∈ S, s j * pert (x j) = pert (s j * x j) := by
    intro j hj
    rcases hs j hj with h | h <;> rw [h]
    · simp
    · rw [neg_one_mul, neg_one_mul, pert_neg]
  rw [Finset.sum_congr rfl hmul]
  rcases Nat.lt_or_ge S.card 1 with h0 | h0
  · rw [Finset.card_eq_zero.mp (by omega : S.card = 0)]; simp
  rcases Nat.lt_or_ge S.card 2 with h1 | h1
  · obtain ⟨a, rfl⟩ := Finset.card_eq_one.mp (by omega : S.card = 1)
    rw [Finset.sum_singleton] at hz ⊢
    rw [hz, show (z : ℚ) = 0 + z by ring, pert_add_int, pert_zero]
  · obtain ⟨a, b, hab, rfl⟩ := Finset.card_eq_two.mp (by omega : S.card = 2)
    rw [Finset.sum_pair hab] at hz ⊢
    have : s a * x a = -(s b * x b) + z := by linarith
    rw [this, pert_add_int, pert_neg]
    ring

/-! ### Two variables per row -/

/-- A matrix whose columns with `u j = some i` are the unit vector `i` up to sign, and whose rows have at most
two nonzero entries in the other columns, all of them `1` or `-1`. -/
structure TwoVar (X : Matrix (Fin m) (Fin n) ℚ) (u : Fin n → Option (Fin m)) : Prop where
  unit : ∀ j i, u j = some i → (X i j = 1 ∨ X i j = -1) ∧ ∀ r, r ≠ i → X r j = 0
  sign : ∀ r j, u j = none → X r j ≠ 0 → X r j = 1 ∨ X r j = -1
  two : ∀ r, (Finset.univ.filter fun j => u j = none ∧ X r j ≠ 0).card ≤ 2

theorem TwoVar.row {X : Matrix (Fin m) (Fin n) ℚ} {u : Fin n → Option (Fin m)} (h : TwoVar X u) (r : Fin m)
    (d : Fin n → ℚ) : X.mulVec d r = (∑ j ∈ Finset.univ.filter fun j => u j = none ∧ X r j ≠ 0, X r j * d j) +
      ∑ j ∈ Finset.univ.filter fun j => u j = some r, X r j * d j := by
  classical
  have e : X.mulVec d r = ∑ j, X r j * d j := rfl
  rw [e, ← Finset.sum_union]
  · refine (Finset.sum_subset (Finset.subset_univ _) fun j _ hj => ?_).symm
    simp only [Finset.mem_union, Finset.mem_filter, Finset.mem_univ, true_and, not_or, not_and, not_not] at hj
    cases hu : u j with
    | none => rw [hj.1 hu, zero_mul]
    | some i =>
      rw [(h.unit j i hu).2 r fun hc => hj.2 (by rw [hu, hc]), zero_mul]
  · rw [Finset.disjoint_left]
    intro j h1 h2
    simp only [Finset.mem_filter, Finset.mem_univ, true_and] at h1 h2
    rw [h1.1] at h2
    cases h2.trans rfl

/-- Two unit columns of a basis belong to different rows. -/
theorem TwoVar.unit_unique {P : LP m n} {u : Fin n → Option (Fin m)} (h : TwoVar P.A u) {B : Fin m → Fin n}
    (hB : Nonsing P B) : ∀ j j' i, u j = some i → u j' = some i → (∃ k, B k = j) → (∃ k, B k = j') → j = j' := by
  intro j j' i hj hj' hb hb'
  have hsq : ∀ {e : ℚ}, e = 1 ∨ e = -1 → e * e = 1 := by rintro e (rfl | rfl) <;> norm_num
  by_contra hne
  have h1 := h.unit j i hj
  have h2 := h.unit j' i hj'
  have hd := ker_unique hB (d := P.A i j • Pi.single j 1 - P.A i j' • Pi.single j' 1) (by
    rw [Matrix.mulVec_sub, Matrix.mulVec_smul, Matrix.mulVec_smul, Matrix.mulVec_single_one,
      Matrix.mulVec_single_one]
    funext r
    simp only [Pi.sub_apply, Pi.smul_apply, smul_eq_mul, Pi.zero_apply]
    show P.A i j * P.A r j - P.A i j' * P.A r j' = 0
    by_cases hr : r = i
    · subst hr
      rw [hsq h1.1, hsq h2.1, sub_self]
    · rw [h1.2 r hr, h2.2 r hr, mul_zero, mul_zero, sub_self]) (by
    intro k hk
    obtain ⟨a, rfl⟩ := hb
    obtain ⟨b, rfl⟩ := hb'
    simp [(hk a).symm, (hk b).symm])
  have := congrFun hd j
  simp only [Pi.sub_apply, Pi.smul_apply, smul_eq_mul, Pi.single_eq_same, mul_one, Pi.zero_apply,
    Pi.single_eq_of_ne hne, mul_zero, sub_zero] at this
  rcases h1.1 with h3 | h3 <;> rw [h3] at this <;> norm_num at this

/-- Basic solutions for integer right-hand sides are half-integral. -/
theorem TwoVar.denom {P : LP m n} {u : Fin n → Option (Fin m)} (h : TwoVar P.A u) : Denom 2 P := by
  classical
  intro B hB x hx hint
  have hsq : ∀ {e : ℚ}, e = 1 ∨ e = -1 → e * e = 1 := by rintro e (rfl | rfl) <;> norm_num
  have huniq := h.unit_unique hB
  -- the direction for the structural columns, balanced by the unit columns
  let S : Fin m → ℚ := fun r => ∑ j ∈ Finset.univ.filter fun j => u j = none ∧ P.A r j ≠ 0, P.A r j * pert (x j)
  let d : Fin n → ℚ := fun j => match u j with
    | none => pert (x j)
    | some i => if ∃ k, B k = j then -(P.A i j * S i) else 0
  have hdn : ∀ j, u j = none → d j = pert (x j) := fun j hj => by simp only [d, hj]
  have hds : ∀ j i, u j = some i → (∃ k, B k = j) → d j = -(P.A i j * S i) := fun j i hj hk => by
    simp only [d, hj]; rw [if_pos hk]
  have hdo : ∀ j, (∀ i, B i ≠ j) → d j = 0 := by
    intro j hj
    cases hu : u j with
    | none => rw [hdn j hu, hx j hj, pert_zero]
    | some i =>
      simp only [d, hu]
      rw [if_neg fun ⟨k, hk⟩ => hj k hk]
  have hstruct : ∀ r (y : Fin n → ℚ), (∀ j, (∀ i, B i ≠ j) → y j = 0) → (¬ ∃ j, u j = some r ∧ ∃ k, B k = j) →
      P.A.mulVec y r = ∑ j ∈ Finset.univ.filter fun j => u j = none ∧ P.A r j ≠ 0, P.A r j * y j := by
    intro r y hy hno
    rw [h.row, Finset.sum_eq_zero (s := Finset.univ.filter fun j => u j = some r), add_zero]
    intro j hj
    have hj := (Finset.mem_filter.mp hj).2
    rw [hy j fun i hi => hno ⟨j, hj, i, hi⟩, mul_zero]
  have hSum : ∀ r, (∑ j ∈ Finset.univ.filter fun j => u j = none ∧ P.A r j ≠ 0, P.A r j * d j) = S r := by
    intro r
    refine Finset.sum_congr rfl fun j hj => ?_
    rw [hdn j (Finset.mem_filter.mp hj).2.1]
  have hker : P.A.mulVec d = 0 := by
    funext r
    rw [Pi.zero_apply]
    by_cases hex : ∃ j, u j = some r ∧ ∃ k, B k = j
    · obtain ⟨j₀, hj₀, hk₀⟩ := hex
      rw [h.row, hSum, Finset.sum_eq_single j₀]
      · rw [hds j₀ r hj₀ hk₀]
        have := hsq (h.unit j₀ r hj₀).1
        have e : P.A r j₀ * -(P.A r j₀ * S r) = -((P.A r j₀ * P.A r j₀) * S r) := by ring
        rw [e, this]
        ring
      · intro j hj hne
        have hj := (Finset.mem_filter.mp hj).2
        rw [hdo j fun i hi => hne (huniq j j₀ r hj hj₀ ⟨i, hi⟩ hk₀), mul_zero]
      · intro hc
        exact (hc (by simp [hj₀])).elim
    · rw [hstruct r d hdo hex, hSum]
      refine pert_sum _ (h.two r) (P.A r) x (fun j hj => ?_) ?_
      · have := (Finset.mem_filter.mp hj).2
        exact h.sign r j this.1 this.2
      · rw [← hstruct r x hx hex]
        exact hint r
  have hd0 := ker_unique hB hker hdo
  have hhalf : ∀ j, u j = none → ∃ z : ℤ, 2 * x j = z := by
    intro j hj
    apply pert_eq_zero
    rw [← hdn j hj, hd0]
    rfl
  intro j
  show ∃ z : ℤ, ((2 : ℕ) : ℚ) * x j = z
  rw [Nat.cast_ofNat]
  cases hu : u j with
  | none => exact hhalf j hu
  | some i =>
    by_cases hk : ∃ k, B k = j
    · obtain ⟨z, hz⟩ := hint i
      have hr := h.row i x
      rw [Finset.sum_eq_single j (s := Finset.univ.filter fun j => u j = some i)] at hr
      · choose! w hw using hhalf
        choose! t ht using fun j (hj : u j = none ∧ P.A i j ≠ 0) => (show ∃ t : ℤ, P.A i j = t by
          rcases h.sign i j hj.1 hj.2 with h1 | h1 <;> rw [h1]
          · exact ⟨1, by norm_num⟩
          · exact ⟨-1, by norm_num⟩)
        have hs : 2 * ∑ j ∈ Finset.univ.filter fun j => u j = none ∧ P.A i j ≠ 0, P.A i j * x j =
            ((∑ j ∈ Finset.univ.filter fun j => u j = none ∧ P.A i j ≠ 0, t j * w j : ℤ) : ℚ) := by
          rw [Finset.mul_sum, Int.cast_sum]
          refine Finset.sum_congr rfl fun j hj => ?_
          have := (Finset.mem_filter.mp hj).2
          rw [Int.cast_mul, ← hw j this.1, ← ht j this]
          ring
        generalize (∑ j ∈ Finset.univ.filter fun j => u j = none ∧ P.A i j ≠ 0, t j * w j) = N at hs
        rw [hz] at hr
        have e : 2 * (P.A i j * x j) = 2 * z - N := by linarith
        rcases (h.unit j i hu).1 with h1 | h1 <;> rw [h1] at e
        · exact ⟨2 * z - N, by push_cast; linarith⟩
        · exact ⟨N - 2 * z, by push_cast; linarith⟩
      · intro j' hj' hne
        have hj' := (Finset.mem_filter.mp hj').2
        by_cases hk' : ∃ k, B k = j'
        · exact absurd (huniq j' j i hj' hu hk' hk) hne
        · rw [hx j' fun i hi => hk' ⟨i, hi⟩, mul_zero]
      · intro hc
        exact (hc (by simp [hu])).elim
    · exact ⟨0, by rw [hx j fun i hi => hk ⟨i, hi⟩]; simp⟩

end LinProg
end Pytimize
