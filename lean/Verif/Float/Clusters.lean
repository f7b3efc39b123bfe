/-
Matrices of zeros and ones with at most two ones per row: a subdeterminant with `k` columns is zero or a power of two with
an exponent up to `k / 3`. Two columns of a row are merged into one; the exponent grows when a row has the entry two,
which takes a column merged from at least three (an odd cycle of a simple graph has three vertices).
-/
import Verif.Float.OddCycle

namespace Pytimize
namespace Floating
open Matrix LinProg

variable {k : ℕ}

/-- Rows of absolute sum at most two; `w j` is the number of columns merged into column `j`. -/
structure Clustered (N : Matrix (Fin k) (Fin k) ℤ) (w : Fin k → ℕ) : Prop where
  sum : ∀ i, ∑ j, |N i j| ≤ 2
  pos : ∀ j, 1 ≤ w j
  two : ∀ i j, w j ≤ 2 → |N i j| ≤ 1
  one : ∀ i j, w j = 1 → 0 ≤ N i j

theorem Clustered.drop {N : Matrix (Fin (k + 1)) (Fin (k + 1)) ℤ} {w : Fin (k + 1) → ℕ} (h : Clustered N w)
    (a : Fin (k + 1)) : Clustered (N.submatrix Fin.succ a.succAbove) (w ∘ a.succAbove) where
  sum i := by
    refine le_trans ?_ (h.sum i.succ)
    rw [Fin.sum_univ_succAbove _ a]
    simp only [submatrix_apply]
    linarith [abs_nonneg (N i.succ a)]
  pos j := h.pos _
  two i j hj := h.two _ _ hj
  one i j hj := h.one _ _ hj

/-- Adding a multiple of column `a` to column `b` clears the first row but for column `a`. -/
theorem Clustered.merge {N : Matrix (Fin (k + 1)) (Fin (k + 1)) ℤ} {w : Fin (k + 1) → ℕ} (h : Clustered N w)
    {a b : Fin (k + 1)} (hab : a ≠ b) (ha : N 0 a ≠ 0) (hb : N 0 b ≠ 0) :
    ∃ (N' : Matrix (Fin k) (Fin k) ℤ) (w' : Fin k → ℕ), |N.det| = |N'.det| ∧ Clustered N' w' ∧ ∑ j, w' j = ∑ j, w j := by
  obtain ⟨h2, h3⟩ := sum_two h.sum 0 hab
  have pa : 1 ≤ |N 0 a| := Int.one_le_abs ha
  have pb : 1 ≤ |N 0 b| := Int.one_le_abs hb
  have ua := int_unit ha (by omega)
  have ub := int_unit hb (by omega)
  have hz : ∀ j, j ≠ a → j ≠ b → N 0 j = 0 := fun j h4 h5 => by
    have := h3 j h4 h5
    have h6 := abs_nonneg (N 0 j)
    exact abs_eq_zero.mp (by omega)
  set c := N 0 a * N 0 b with hc
  have uc : c = 1 ∨ c = -1 := by
    rcases ua with h4 | h4 <;> rcases ub with h5 | h5 <;> rw [hc, h4, h5] <;> norm_num
  have ac : |c| = 1 := by rcases uc with h4 | h4 <;> rw [h4] <;> norm_num
  let N2 : Matrix (Fin (k + 1)) (Fin (k + 1)) ℤ := N.updateCol b fun i => N i b + -c • N i a
  have hdet : N2.det = N.det := det_updateCol_add_smul_self N hab.symm (-c)
  have e1 : ∀ i j, j ≠ b → N2 i j = N i j := fun i j hj => updateCol_ne hj
  have e2 : ∀ i, N2 i b = N i b - c * N i a := fun i => by
    show N.updateCol b _ i b = _
    rw [updateCol_self, smul_eq_mul]; ring
  have hrow : ∀ j, j ≠ a → N2 0 j = 0 := by
    intro j hj
    by_cases hjb : j = b
    · subst hjb
      rw [e2, hc]
      rcases ua with h4 | h4 <;> rw [h4] <;> ring
    · rw [e1 _ _ hjb]; exact hz j hj hjb
  have hd := abs_det_row hrow
  have e3 : |N2 0 a| = 1 := by
    rw [e1 _ _ hab]
    rcases ua with h4 | h4 <;> rw [h4] <;> norm_num
  rw [e3, one_mul, hdet] at hd
  obtain ⟨b', hb'⟩ := Fin.exists_succAbove_eq hab.symm
  have hne : ∀ {j}, j ≠ b' → a.succAbove j ≠ b := fun hj hc => hj (Fin.succAbove_right_injective (hc.trans hb'.symm))
  refine ⟨_, fun j => w (a.succAbove j) + if j = b' then w a else 0, hd, ⟨?_, ?_, ?_, ?_⟩, ?_⟩
  · intro i
    have hs := h.sum i.succ
    rw [Fin.sum_univ_succAbove _ a] at hs
    simp only [submatrix_apply]
    refine le_trans ?_ hs
    calc ∑ j, |N2 i.succ (a.succAbove j)|
        ≤ ∑ j, (|N i.succ (a.succAbove j)| + if j = b' then |N i.succ a| else 0) := by
          refine Finset.sum_le_sum fun j _ => ?_
          by_cases hj : j = b'
          · subst hj
            rw [hb', e2, if_pos rfl]
            refine (abs_sub _ _).trans ?_
            rw [abs_mul, ac, one_mul]
          · rw [if_neg hj, add_zero, e1 _ _ (hne hj)]
      _ = |N i.succ a| + ∑ j, |N i.succ (a.succAbove j)| := by
          rw [Finset.sum_add_distrib, Finset.sum_ite_eq']
          simp only [Finset.mem_univ, if_true]
          ring
  · intro j
    have := h.pos (a.succAbove j)
    omega
  · intro i j hj
    simp only [submatrix_apply]
    by_cases hjb : j = b'
    · subst hjb
      rw [if_pos rfl, hb'] at hj
      rw [hb', e2]
      have wa := h.pos a
      have wb := h.pos b
      have h4 := h.one i.succ a (by omega)
      have h5 := h.one i.succ b (by omega)
      have h6 := h.one 0 a (by omega)
      have h7 := h.one 0 b (by omega)
      have h8 := abs_le.mp (h.two i.succ a (by omega))
      have h9 := abs_le.mp (h.two i.succ b (by omega))
      have : c = 1 := by
        rw [hc, ua.resolve_right (by omega), ub.resolve_right (by omega)]; norm_num
      rw [this, one_mul, abs_le]
      omega
    · rw [e1 _ _ (hne hjb)]
      rw [if_neg hjb] at hj
      exact h.two _ _ hj
  · intro i j hj
    simp only [submatrix_apply]
    by_cases hjb : j = b'
    · rw [if_pos hjb] at hj
      have wa := h.pos a
      have wb := h.pos (a.succAbove j)
      omega
    · rw [e1 _ _ (hne hjb)]
      rw [if_neg hjb] at hj
      exact h.one _ _ hj
  · rw [Finset.sum_add_distrib, Finset.sum_ite_eq', Fin.sum_univ_succAbove w a]
    simp only [Finset.mem_univ, if_true]
    ring

/-- The determinant is zero or a power of two. -/
theorem Clustered.det : ∀ {k : ℕ} {N : Matrix (Fin k) (Fin k) ℤ} {w : Fin k → ℕ}, Clustered N w →
    N.det = 0 ∨ ∃ p : ℕ, 3 * p ≤ ∑ j, w j ∧ |N.det| = 2 ^ p := by
  intro k
  induction k with
  | zero => intro N w _; exact .inr ⟨0, Nat.zero_le _, by simp⟩
  | succ k ih =>
    intro N w h
    by_cases hzero : ∀ j, N 0 j = 0
    · exact .inl (det_eq_zero_of_row_eq_zero 0 hzero)
    push Not at hzero
    obtain ⟨a, ha⟩ := hzero
    by_cases hone : ∀ j, j ≠ a → N 0 j = 0
    · have hd := abs_det_row hone
      have hw := Fin.sum_univ_succAbove w a
      rcases ih (h.drop a) with h0 | ⟨p, hp, e⟩
      · left
        rw [h0, abs_zero, mul_zero] at hd
        exact abs_eq_zero.mp hd
      · right
        simp only [Function.comp_apply] at hp
        have h1 := Int.one_le_abs ha
        have h2 : |N 0 a| ≤ 2 := le_trans (Finset.single_le_sum (f := fun j => |N 0 j|) (fun _ _ => abs_nonneg _)
          (Finset.mem_univ a)) (h.sum 0)
        by_cases hwa : w a ≤ 2
        · have h3 := h.two 0 a hwa
          exact ⟨p, by omega, by rw [hd, show |N 0 a| = 1 by omega, one_mul, e]⟩
        · rcases (by omega : |N 0 a| = 1 ∨ |N 0 a| = 2) with h3 | h3
          · exact ⟨p, by omega, by rw [hd, h3, one_mul, e]⟩
          · exact ⟨p + 1, by omega, by rw [hd, h3, e, pow_succ]; ring⟩
    · push Not at hone
      obtain ⟨b, hba, hb⟩ := hone
      obtain ⟨N', w', e, hN', hw⟩ := h.merge hba.symm ha hb
      rcases ih hN' with h0 | ⟨p, hp, e'⟩
      · left
        rw [h0, abs_zero] at e
        exact abs_eq_zero.mp e
      · exact .inr ⟨p, by rw [← hw]; exact hp, e.trans e'⟩

/-- Matrices of this kind of any shape. -/
theorem dyadic_of_clustered {ι : Type} {n : ℕ} {X : Matrix ι (Fin n) ℚ} (N : Matrix ι (Fin n) ℤ)
    (hX : ∀ i j, X i j = N i j) (hsum : ∀ i, ∑ j, |N i j| ≤ 2) (h01 : ∀ i j, 0 ≤ N i j ∧ N i j ≤ 1) {K : ℕ}
    (hK : n ≤ 3 * K + 2) : Dyadic K X := by
  refine ⟨1, one_ne_zero, fun k f g => ?_⟩
  show Pow K (1 * _)
  rw [one_mul]
  have e : (X.submatrix f g).det = ((N.submatrix f g).det : ℤ) := by
    rw [Int.cast_det]
    congr 1
    ext i j
    simp [hX]
  rw [e]
  by_cases hg : Function.Injective g
  · have hk : k ≤ n := by simpa using Fintype.card_le_of_injective g hg
    have hb : Clustered (N.submatrix f g) fun _ => 1 := by
      refine ⟨fun i => ?_, fun _ => le_rfl, fun i j _ => ?_, fun i j _ => (h01 _ _).1⟩
      · refine le_trans ?_ (hsum (f i))
        simp only [submatrix_apply]
        refine le_trans (le_of_eq (Finset.sum_map Finset.univ ⟨g, hg⟩ fun j => |N (f i) j|).symm) ?_
        exact Finset.sum_le_univ_sum_of_nonneg fun _ => abs_nonneg _
      · have := h01 (f i) (g j)
        simp only [submatrix_apply]
        rw [abs_le]
        omega
    rcases hb.det with h | ⟨p, hp, h⟩
    · left; rw [h]; norm_num
    · refine .inr ⟨p, ?_, by exact_mod_cast h⟩
      simp only [Finset.sum_const, Finset.card_univ, Fintype.card_fin, smul_eq_mul, mul_one] at hp
      omega
  · left
    obtain ⟨a, b, hab, hne⟩ := Function.not_injective_iff.mp hg
    rw [det_zero_of_column_eq hne (by intro c; simp [hab])]
    norm_num

end Floating

namespace Undirected
open LinProg Matrix

/-- The subdeterminants of the stable set program of any graph with up to `3 K + 2` vertices. -/
theorem ss_dyadic_any {g : Ugraph} {K : ℕ} (hK : g.vertices.length ≤ 3 * K + 2) : Floating.Dyadic K (ssLP g).A := by
  have h01 : ∀ i j, (ssLP g).A i j = 0 ∨ (ssLP g).A i j = 1 := fun i j => by
    rcases ss_row i with ⟨e, -, h⟩ | ⟨k, h⟩ <;> rw [h] <;> split <;> simp
  have hsupp : ∀ i, ∃ a b : ℕ, ∀ j, (ssLP g).A i j ≠ 0 → (j : ℕ) = a ∨ (j : ℕ) = b := by
    intro i
    rcases ss_row i with ⟨e, he, h⟩ | ⟨k, h⟩
    · exact ⟨_, _, fun j hj => by by_contra hn; exact hj (by rw [h, if_neg hn])⟩
    · exact ⟨k, k, fun j hj => by by_contra hn; exact hj (by rw [h, if_neg (by tauto)])⟩
  let N : Matrix (Fin (ssRows g).length) (Fin (mapping g).length) ℤ := Matrix.of fun i j =>
    if (ssLP g).A i j = 0 then 0 else 1
  have hN : ∀ i j, N i j = if (ssLP g).A i j = 0 then 0 else 1 := fun _ _ => rfl
  refine Floating.dyadic_of_clustered N (fun i j => ?_) (fun i => ?_) (fun i j => ?_) (by rw [mapping_length]; exact hK)
  · rw [hN]
    rcases h01 i j with h | h <;> rw [h] <;> simp
  · obtain ⟨a, b, h⟩ := hsupp i
    calc ∑ j, |N i j| = ∑ j, (if (ssLP g).A i j ≠ 0 then 1 else 0 : ℤ) :=
          Finset.sum_congr rfl fun j _ => by rw [hN]; split <;> simp_all
      _ = ((Finset.univ.filter fun j => (ssLP g).A i j ≠ 0).card : ℤ) := by
          rw [Finset.sum_boole]
      _ ≤ 2 := by
        have : (Finset.univ.filter fun j => (ssLP g).A i j ≠ 0).card ≤ 2 := by
          rw [← Finset.card_map Fin.valEmbedding]
          refine le_trans (Finset.card_le_card (t := {a, b}) fun j hj => ?_) Finset.card_le_two
          obtain ⟨j', hj', rfl⟩ := Finset.mem_map.mp hj
          have := h j' (Finset.mem_filter.mp hj').2
          simpa using this
        exact_mod_cast this
  · rw [hN]; split <;> norm_num

end Undirected
end Pytimize
