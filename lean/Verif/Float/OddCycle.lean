/-
Matrices with at most two ones or minus ones per row: their subdeterminants are powers of two, and the exponent is at
most the number of columns that must be removed to make the signed graph of the rows balanced.
-/
import Verif.Float.Bipartite
import Verif.Float.Dyadic

namespace Pytimize
namespace Floating
open Matrix LinProg

/-- Rows of absolute sum at most two; outside the columns `T` the entries are at most one, and two entries of a row
cancel under the signs `ε`. -/
structure Balanced {k : ℕ} (N : Matrix (Fin k) (Fin k) ℤ) (T : Finset (Fin k)) (ε : Fin k → ℤ) : Prop where
  sum : ∀ i, ∑ j, |N i j| ≤ 2
  one : ∀ i, ∀ j ∉ T, |N i j| ≤ 1
  unit : ∀ j, ε j = 1 ∨ ε j = -1
  cancel : ∀ i, ∀ a ∉ T, ∀ b ∉ T, a ≠ b → N i a ≠ 0 → N i b ≠ 0 → N i a * ε a + N i b * ε b = 0

variable {k : ℕ}

/-- The columns of `T` that are left when column `a` is removed. -/
def remaining (T : Finset (Fin (k + 1))) (a : Fin (k + 1)) : Finset (Fin k) :=
  Finset.univ.filter fun j => a.succAbove j ∈ T

theorem remaining_card (T : Finset (Fin (k + 1))) (a : Fin (k + 1)) : (remaining T a).card ≤ (T.erase a).card := by
  rw [← Finset.card_map a.succAboveEmb]
  refine Finset.card_le_card fun j hj => ?_
  obtain ⟨l, hl, rfl⟩ := Finset.mem_map.mp hj
  refine Finset.mem_erase.mpr ⟨Fin.succAbove_ne a l, ?_⟩
  exact (Finset.mem_filter.mp hl).2

theorem mem_remaining {T : Finset (Fin (k + 1))} {a : Fin (k + 1)} {j : Fin k} :
    j ∈ remaining T a ↔ a.succAbove j ∈ T := by simp [remaining]

/-- The determinant of a matrix whose first row has one entry. -/
theorem abs_det_row {N : Matrix (Fin (k + 1)) (Fin (k + 1)) ℤ} {a : Fin (k + 1)} (h : ∀ j, j ≠ a → N 0 j = 0) :
    |N.det| = |N 0 a| * |(N.submatrix Fin.succ a.succAbove).det| := by
  rw [det_succ_row_zero, Finset.sum_eq_single a]
  · rw [abs_mul, abs_mul, abs_pow, abs_neg, abs_one, one_pow, one_mul]
  · intro j _ hj
    rw [h j hj]
    ring
  · simp

theorem sum_two {N : Matrix (Fin k) (Fin k) ℤ} (h : ∀ i, ∑ j, |N i j| ≤ 2) (i : Fin k) {a b : Fin k} (hab : a ≠ b) :
    |N i a| + |N i b| ≤ 2 ∧ ∀ c, c ≠ a → c ≠ b → |N i a| + |N i b| + |N i c| ≤ 2 := by
  refine ⟨?_, fun c hc hc' => ?_⟩
  · calc |N i a| + |N i b| = ∑ j ∈ {a, b}, |N i j| := by rw [Finset.sum_pair hab]
      _ ≤ ∑ j, |N i j| := Finset.sum_le_univ_sum_of_nonneg fun _ => abs_nonneg _
      _ ≤ 2 := h i
  · calc |N i a| + |N i b| + |N i c| = ∑ j ∈ {c, a, b}, |N i j| := by
          rw [Finset.sum_insert (by simp [hc, hc']), Finset.sum_pair hab]; ring
      _ ≤ ∑ j, |N i j| := Finset.sum_le_univ_sum_of_nonneg fun _ => abs_nonneg _
      _ ≤ 2 := h i

theorem Balanced.drop {N : Matrix (Fin (k + 1)) (Fin (k + 1)) ℤ} {T : Finset (Fin (k + 1))} {ε : Fin (k + 1) → ℤ}
    (h : Balanced N T ε) (a : Fin (k + 1)) :
    Balanced (N.submatrix Fin.succ a.succAbove) (remaining T a) (ε ∘ a.succAbove) where
  sum i := by
    refine le_trans ?_ (h.sum i.succ)
    rw [Fin.sum_univ_succAbove _ a]
    simp only [submatrix_apply]
    linarith [abs_nonneg (N i.succ a)]
  one i j hj := h.one _ _ fun hc => hj (mem_remaining.mpr hc)
  unit j := h.unit _
  cancel i b hb c hc hne h1 h2 := h.cancel _ _ (fun hm => hb (mem_remaining.mpr hm)) _
    (fun hm => hc (mem_remaining.mpr hm)) (fun he => hne (Fin.succAbove_right_injective he)) h1 h2

theorem int_unit {x : ℤ} (h0 : x ≠ 0) (h1 : |x| ≤ 1) : x = 1 ∨ x = -1 := by
  rw [abs_le] at h1
  omega

/-- Adding a multiple of column `a` to column `b` clears the first row but for column `a`. -/
theorem Balanced.merge {N : Matrix (Fin (k + 1)) (Fin (k + 1)) ℤ} {T : Finset (Fin (k + 1))} {ε : Fin (k + 1) → ℤ}
    (h : Balanced N T ε) {a b : Fin (k + 1)} (hab : a ≠ b) (ha : N 0 a ≠ 0) (hb : N 0 b ≠ 0)
    (hT : a ∉ T ∨ b ∈ T) : ∃ N' : Matrix (Fin k) (Fin k) ℤ, |N.det| = |N'.det| ∧
      Balanced N' (remaining T a) (ε ∘ a.succAbove) := by
  obtain ⟨h2, h3⟩ := sum_two h.sum 0 hab
  have pa : 1 ≤ |N 0 a| := Int.one_le_abs ha
  have pb : 1 ≤ |N 0 b| := Int.one_le_abs hb
  have ua := int_unit ha (by omega)
  have ub := int_unit hb (by omega)
  have hz : ∀ j, j ≠ a → j ≠ b → N 0 j = 0 := fun j h4 h5 => by
    have := h3 j h4 h5
    have h6 := abs_nonneg (N 0 j)
    exact abs_eq_zero.mp (by omega)
  set c := N 0 a * N 0 b with hc
  have uc : c = 1 ∨ c = -1 := by
    rcases ua with h4 | h4 <;> rcases ub with h5 | h5 <;> rw [hc, h4, h5] <;> norm_num
  let N2 : Matrix (Fin (k + 1)) (Fin (k + 1)) ℤ := N.updateCol b fun i => N i b + -c • N i a
  have hdet : N2.det = N.det := det_updateCol_add_smul_self N hab.symm (-c)
  have e1 : ∀ i j, j ≠ b → N2 i j = N i j := fun i j hj => updateCol_ne hj
  have e2 : ∀ i, N2 i b = N i b - c * N i a := fun i => by
    show N.updateCol b _ i b = _
    rw [updateCol_self, smul_eq_mul]; ring
  have hrow : ∀ j, j ≠ a → N2 0 j = 0 := by
    intro j hj
    by_cases hjb : j = b
    · subst hjb
      rw [e2, hc]
      rcases ua with h4 | h4 <;> rw [h4] <;> ring
    · rw [e1 _ _ hjb]; exact hz j hj hjb
  have hd := abs_det_row hrow
  have e3 : |N2 0 a| = 1 := by
    rw [e1 _ _ hab]
    rcases ua with h4 | h4 <;> rw [h4] <;> norm_num
  rw [e3, one_mul, hdet] at hd
  -- what the signs say if neither column is in `T`
  have hsign : b ∉ T → ε b = -c * ε a := fun hbT => by
    have haT := hT.resolve_right hbT
    have := h.cancel 0 a haT b hbT hab ha hb
    rw [hc]
    rcases ua with h4 | h4 <;> rcases ub with h5 | h5 <;> rw [h4, h5] at this ⊢ <;> linarith
  have hboth : b ∉ T → ∀ i, N i a ≠ 0 → N i b ≠ 0 → N2 i b = 0 := by
    intro hbT i h4 h5
    have haT := hT.resolve_right hbT
    have := h.cancel i a haT b hbT hab h4 h5
    rw [hsign hbT] at this
    have hε : (N i a - c * N i b) * ε a = 0 := by linarith
    have h6 : N i a = c * N i b := by
      rcases mul_eq_zero.mp hε with h7 | h7
      · linarith
      · rcases h.unit a with h8 | h8 <;> rw [h8] at h7 <;> norm_num at h7
    rw [e2, h6]
    rcases uc with h7 | h7 <;> rw [h7] <;> ring
  refine ⟨_, hd, ?_, ?_, fun j => h.unit _, ?_⟩
  · intro i
    obtain ⟨b', hb'⟩ := Fin.exists_succAbove_eq hab.symm
    have hs := h.sum i.succ
    rw [Fin.sum_univ_succAbove _ a] at hs
    simp only [submatrix_apply]
    refine le_trans ?_ hs
    calc ∑ j, |N2 i.succ (a.succAbove j)|
        ≤ ∑ j, (|N i.succ (a.succAbove j)| + if j = b' then |N i.succ a| else 0) := by
          refine Finset.sum_le_sum fun j _ => ?_
          by_cases hj : j = b'
          · subst hj
            rw [hb', e2, if_pos rfl]
            refine (abs_sub _ _).trans ?_
            rw [abs_mul]
            have : |c| = 1 := by rcases uc with h4 | h4 <;> rw [h4] <;> norm_num
            rw [this, one_mul]
          · rw [if_neg hj, add_zero, e1]
            rw [← hb']
            exact fun hc => hj (Fin.succAbove_right_injective hc)
      _ = |N i.succ a| + ∑ j, |N i.succ (a.succAbove j)| := by
          rw [Finset.sum_add_distrib, Finset.sum_ite_eq']
          simp only [Finset.mem_univ, if_true]
          ring
  · intro i j hj
    have hj' : a.succAbove j ∉ T := fun hm => hj (mem_remaining.mpr hm)
    simp only [submatrix_apply]
    by_cases hjb : a.succAbove j = b
    · rw [hjb] at hj' ⊢
      have haT := hT.resolve_right hj'
      by_cases h4 : N i.succ a = 0
      · rw [e2, h4, mul_zero, sub_zero]; exact h.one _ _ hj'
      · by_cases h5 : N i.succ b = 0
        · rw [e2, h5, zero_sub, abs_neg, abs_mul]
          have : |c| = 1 := by rcases uc with h4 | h4 <;> rw [h4] <;> norm_num
          rw [this, one_mul]
          exact h.one _ _ haT
        · rw [hboth hj' _ h4 h5]; norm_num
    · rw [e1 _ _ hjb]; exact h.one _ _ hj'
  · have key : ∀ i (d : Fin (k + 1)), b ∉ T → d ∉ T → d ≠ a → d ≠ b → N2 i b ≠ 0 → N i d ≠ 0 →
        N2 i b * ε b + N i d * ε d = 0 := by
      intro i d hbT hdT hda hdb h4 h5
      have haT := hT.resolve_right hbT
      have h6 := (sum_two h.sum i hab).2 d hda hdb
      have h7 := Int.one_le_abs h5
      by_cases h8 : N i a = 0
      · rw [e2, h8, mul_zero, sub_zero] at h4 ⊢
        exact h.cancel i b hbT d hdT hdb.symm h4 h5
      · by_cases h9 : N i b = 0
        · have := h.cancel i a haT d hdT hda.symm h8 h5
          rw [e2, h9, hsign hbT]
          rcases uc with h10 | h10 <;> rw [h10] <;> linarith
        · exact absurd (hboth hbT i h8 h9) h4
    intro i x hx y hy hxy h4 h5
    simp only [submatrix_apply, Function.comp_apply] at h4 h5 ⊢
    have hx' : a.succAbove x ∉ T := fun hm => hx (mem_remaining.mpr hm)
    have hy' : a.succAbove y ∉ T := fun hm => hy (mem_remaining.mpr hm)
    have hne : a.succAbove x ≠ a.succAbove y := fun he => hxy (Fin.succAbove_right_injective he)
    by_cases hxb : a.succAbove x = b
    · rw [hxb] at hx' h4 hne ⊢
      rw [e1 _ _ hne.symm] at h5 ⊢
      exact key _ _ hx' hy' (Fin.succAbove_ne a y) hne.symm h4 h5
    · by_cases hyb : a.succAbove y = b
      · rw [hyb] at hy' h5 hne ⊢
        rw [e1 _ _ hne] at h4 ⊢
        rw [add_comm]
        exact key _ _ hy' hx' (Fin.succAbove_ne a x) hne h5 h4
      · rw [e1 _ _ hxb] at h4 ⊢
        rw [e1 _ _ hyb] at h5 ⊢
        exact h.cancel _ _ hx' _ hy' hne h4 h5

/-- The determinant is zero or a power of two. -/
theorem Balanced.det : ∀ {k : ℕ} {N : Matrix (Fin k) (Fin k) ℤ} {T : Finset (Fin k)} {ε : Fin k → ℤ},
    Balanced N T ε → N.det = 0 ∨ ∃ j ≤ T.card, |N.det| = 2 ^ j := by
  intro k
  induction k with
  | zero => intro N T ε _; exact .inr ⟨0, Nat.zero_le _, by simp⟩
  | succ k ih =>
    intro N T ε h
    have hmono : ∀ {a : Fin (k + 1)} {N' : Matrix (Fin k) (Fin k) ℤ} {ε' : Fin k → ℤ},
        Balanced N' (remaining T a) ε' → N'.det = 0 ∨ ∃ j ≤ (T.erase a).card, |N'.det| = 2 ^ j := fun hb =>
      (ih hb).imp id fun ⟨j, hj, e⟩ => ⟨j, hj.trans (remaining_card _ _), e⟩
    by_cases hzero : ∀ j, N 0 j = 0
    · exact .inl (det_eq_zero_of_row_eq_zero 0 hzero)
    push Not at hzero
    obtain ⟨a, ha⟩ := hzero
    by_cases hone : ∀ j, j ≠ a → N 0 j = 0
    · have hd := abs_det_row hone
      rcases hmono (h.drop a) with h0 | ⟨j, hj, e⟩
      · left
        rw [h0, abs_zero, mul_zero] at hd
        exact abs_eq_zero.mp hd
      · right
        have h1 := Int.one_le_abs ha
        have h2 : |N 0 a| ≤ 2 := le_trans (Finset.single_le_sum (f := fun j => |N 0 j|) (fun _ _ => abs_nonneg _)
          (Finset.mem_univ a)) (h.sum 0)
        by_cases haT : a ∈ T
        · rw [Finset.card_erase_of_mem haT] at hj
          have hpos := Finset.card_pos.mpr ⟨a, haT⟩
          rcases (by omega : |N 0 a| = 1 ∨ |N 0 a| = 2) with h3 | h3
          · exact ⟨j, by omega, by rw [hd, h3, one_mul, e]⟩
          · exact ⟨j + 1, by omega, by rw [hd, h3, e, pow_succ]; ring⟩
        · have h3 := h.one 0 a haT
          exact ⟨j, hj.trans (Finset.card_le_card (Finset.erase_subset _ _)), by
            rw [hd, show |N 0 a| = 1 by omega, one_mul, e]⟩
    · push Not at hone
      obtain ⟨b, hba, hb⟩ := hone
      have fin : ∀ {a b : Fin (k + 1)}, a ≠ b → N 0 a ≠ 0 → N 0 b ≠ 0 → (a ∉ T ∨ b ∈ T) →
          N.det = 0 ∨ ∃ j ≤ T.card, |N.det| = 2 ^ j := by
        intro a b hab h1 h2 h3
        obtain ⟨N', e, hN'⟩ := h.merge hab h1 h2 h3
        rcases hmono hN' with h0 | ⟨j, hj, e'⟩
        · left
          rw [h0, abs_zero] at e
          exact abs_eq_zero.mp e
        · exact .inr ⟨j, hj.trans (Finset.card_le_card (Finset.erase_subset _ _)), e.trans e'⟩
      by_cases haT : a ∈ T
      · exact fin hba hb ha (.inr haT)
      · exact fin hba.symm ha hb (.inl haT)

/-- Matrices of this kind of any shape. -/
theorem dyadic_of_balanced {ι : Type} {n : ℕ} {X : Matrix ι (Fin n) ℚ} (N : Matrix ι (Fin n) ℤ)
    (hX : ∀ i j, X i j = N i j) (T : Finset (Fin n)) (ε : Fin n → ℤ) (hsum : ∀ i, ∑ j, |N i j| ≤ 2)
    (hone : ∀ i, ∀ j ∉ T, |N i j| ≤ 1) (hunit : ∀ j, ε j = 1 ∨ ε j = -1)
    (hcancel : ∀ i, ∀ a ∉ T, ∀ b ∉ T, a ≠ b → N i a ≠ 0 → N i b ≠ 0 → N i a * ε a + N i b * ε b = 0) {K : ℕ}
    (hK : T.card ≤ K) : Dyadic K X := by
  refine ⟨1, one_ne_zero, fun k f g => ?_⟩
  show Pow K (1 * _)
  rw [one_mul]
  have e : (X.submatrix f g).det = ((N.submatrix f g).det : ℤ) := by
    rw [Int.cast_det]
    congr 1
    ext i j
    simp [hX]
  rw [e]
  by_cases hg : Function.Injective g
  · have hb : Balanced (N.submatrix f g) (Finset.univ.filter fun j => g j ∈ T) (ε ∘ g) := by
      refine ⟨fun i => ?_, fun i j hj => hone _ _ (by simpa using hj), fun j => hunit _,
        fun i a ha b hb hab => hcancel _ _ (by simpa using ha) _ (by simpa using hb) fun h => hab (hg h)⟩
      refine le_trans ?_ (hsum (f i))
      simp only [submatrix_apply]
      refine le_trans (le_of_eq (Finset.sum_map Finset.univ ⟨g, hg⟩ fun j => |N (f i) j|).symm) ?_
      exact Finset.sum_le_univ_sum_of_nonneg fun _ => abs_nonneg _
    have hcard : (Finset.univ.filter fun j => g j ∈ T).card ≤ K := by
      rw [← Finset.card_map ⟨g, hg⟩]
      refine le_trans (Finset.card_le_card fun j hj => ?_) hK
      obtain ⟨l, hl, rfl⟩ := Finset.mem_map.mp hj
      exact (Finset.mem_filter.mp hl).2
    rcases hb.det with h | ⟨j, hj, h⟩
    · left; rw [h]; norm_num
    · exact .inr ⟨j, hj.trans hcard, by exact_mod_cast h⟩
  · left
    obtain ⟨a, b, hab, hne⟩ := Function.not_injective_iff.mp hg
    rw [det_zero_of_column_eq hne (by intro c; simp [hab])]
    norm_num

end Floating

namespace Undirected
open _root_.Pytimize.Directed (Name)
open LinProg Matrix

/-- If the vertices outside `T` can be coloured with two colours so that edges join different colours, the
subdeterminants of the program are powers of two with exponents up to the size of `T`. -/
theorem ss_dyadic {g : Ugraph} (hW : Weak g) (T : Finset Name) (colour : Name → Bool)
    (hc : ∀ e ∈ g.edges.keys, e.1 ∉ T → e.2 ∉ T → colour e.1 ≠ colour e.2) {K : ℕ} (hK : T.card ≤ K) :
    Floating.Dyadic K (ssLP g).A := by
  have hlen : ∀ j : Fin (mapping g).length, (j : ℕ) < g.vertices.keys.length := fun j => by
    rw [keys_length, ← mapping_length]; exact j.2
  let name : Fin (mapping g).length → Name := fun j => g.vertices.keys[(j : ℕ)]'(hlen j)
  have hname : ∀ v ∈ g.vertices.keys, ∀ j : Fin (mapping g).length, (j : ℕ) = col g v → name j = v := by
    intro v hv j hj
    have h1 := keys_col hv
    rw [← hj, List.getElem?_eq_getElem (hlen j)] at h1
    exact Option.some.inj h1
  have h01 : ∀ i j, (ssLP g).A i j = 0 ∨ (ssLP g).A i j = 1 := fun i j => by
    rcases ss_row i with ⟨e, -, h⟩ | ⟨k, h⟩ <;> rw [h] <;> split <;> simp
  have hsupp : ∀ i, ∃ a b : ℕ, (∀ j, (ssLP g).A i j ≠ 0 → (j : ℕ) = a ∨ (j : ℕ) = b) ∧
      (a = b ∨ ∃ e ∈ g.edges.keys, a = col g e.1 ∧ b = col g e.2) := by
    intro i
    rcases ss_row i with ⟨e, he, h⟩ | ⟨k, h⟩
    · exact ⟨_, _, fun j hj => by by_contra hn; exact hj (by rw [h, if_neg hn]), .inr ⟨e, he, rfl, rfl⟩⟩
    · exact ⟨k, k, fun j hj => by by_contra hn; exact hj (by rw [h, if_neg (by tauto)]), .inl rfl⟩
  let N : Matrix (Fin (ssRows g).length) (Fin (mapping g).length) ℤ := Matrix.of fun i j =>
    if (ssLP g).A i j = 0 then 0 else 1
  have hN : ∀ i j, N i j = if (ssLP g).A i j = 0 then 0 else 1 := fun _ _ => rfl
  have hN0 : ∀ i j, N i j ≠ 0 → N i j = 1 ∧ (ssLP g).A i j ≠ 0 := by
    intro i j h
    rw [hN] at h ⊢
    by_cases h0 : (ssLP g).A i j = 0
    · rw [if_pos h0] at h; exact absurd rfl h
    · rw [if_neg h0]; exact ⟨rfl, h0⟩
  refine Floating.dyadic_of_balanced N (fun i j => ?_) (Finset.univ.filter fun j => name j ∈ T)
    (fun j => if colour (name j) then 1 else -1) (fun i => ?_) (fun i j _ => ?_) (fun j => ?_)
    (fun i a ha b hb hab h1 h2 => ?_) (le_trans ?_ hK)
  · rw [hN]
    rcases h01 i j with h | h <;> rw [h] <;> simp
  · obtain ⟨a, b, h, -⟩ := hsupp i
    calc ∑ j, |N i j| = ∑ j, (if (ssLP g).A i j ≠ 0 then 1 else 0 : ℤ) :=
          Finset.sum_congr rfl fun j _ => by rw [hN]; split <;> simp_all
      _ = ((Finset.univ.filter fun j => (ssLP g).A i j ≠ 0).card : ℤ) := by
          rw [Finset.sum_boole]
      _ ≤ 2 := by
        have : (Finset.univ.filter fun j => (ssLP g).A i j ≠ 0).card ≤ 2 := by
          rw [← Finset.card_map Fin.valEmbedding]
          refine le_trans (Finset.card_le_card (t := {a, b}) fun j hj => ?_) Finset.card_le_two
          obtain ⟨j', hj', rfl⟩ := Finset.mem_map.mp hj
          have := h j' (Finset.mem_filter.mp hj').2
          simpa using this
        exact_mod_cast this
  · rw [hN]; split <;> norm_num
  · split <;> simp
  · obtain ⟨e1, h1⟩ := hN0 i a h1
    obtain ⟨e2, h2⟩ := hN0 i b h2
    rw [e1, e2]
    obtain ⟨p, q, h, hpq⟩ := hsupp i
    have ha' : name a ∉ T := by simpa using ha
    have hb' : name b ∉ T := by simpa using hb
    have hne : (a : ℕ) ≠ b := fun h => hab (Fin.ext h)
    obtain ⟨e, he, rfl, rfl⟩ : ∃ e ∈ g.edges.keys, p = col g e.1 ∧ q = col g e.2 := by
      refine hpq.resolve_left ?_
      rintro rfl
      exact hne ((or_self_iff.mp (h a h1)).trans (or_self_iff.mp (h b h2)).symm)
    obtain ⟨v1, v2⟩ := hW.ends _ _ he
    have hcol : colour (name a) ≠ colour (name b) := by
      rcases h a h1 with h3 | h3 <;> rcases h b h2 with h4 | h4
      · exact absurd (h3.trans h4.symm) hne
      · rw [hname _ v1 a h3] at ha' ⊢
        rw [hname _ v2 b h4] at hb' ⊢
        exact hc e he ha' hb'
      · rw [hname _ v2 a h3] at ha' ⊢
        rw [hname _ v1 b h4] at hb' ⊢
        exact (hc e he hb' ha').symm
      · exact absurd (h3.trans h4.symm) hne
    revert hcol
    cases colour (name a) <;> cases colour (name b) <;> simp
  · have hinj : Function.Injective name := by
      intro a b h
      have := (List.Nodup.getElem_inj_iff hW.vertsWF (hi := hlen a) (hj := hlen b)).mp h
      exact Fin.ext this
    rw [← Finset.card_map ⟨name, hinj⟩]
    refine Finset.card_le_card fun v hv => ?_
    obtain ⟨j, hj, rfl⟩ := Finset.mem_map.mp hv
    exact (Finset.mem_filter.mp hj).2

end Undirected
end Pytimize
