/-
`to_rref` (`_linear.py:1895-1945`) in floating point. The search for a pivot does no arithmetic and is the one of
`Verif.LP.Rref`; divisions, products and differences are rounded. Not modelled: overflow (`Rounding`).
-/
import Verif.LP.Rref
import Verif.Float.Rounding

namespace Pytimize
namespace Floating
open LinProg Comparator

variable {m n : ℕ}

/-- `arr[row, :] /= num`, `_linear.py:1931-1932`, rounded. -/
def fdivideRow (R : Rounding) (M : Matrix (Fin m) (Fin n) ℚ) (row : Fin m) (col : Fin n) : Matrix (Fin m) (Fin n) ℚ :=
  fun i j => if i = row then R.rd (M i j / M row col) else M i j

/-- The elimination loop `_linear.py:1935-1938`, rounded: the multiple, the product and the difference. -/
def feliminate (R : Rounding) (M : Matrix (Fin m) (Fin n) ℚ) (row : Fin m) (col : Fin n) : Matrix (Fin m) (Fin n) ℚ :=
  fun i j => if i = row then M i j else R.rd (M i j - R.rd (M row j * R.rd (M i col / M row col)))

/-- The main loop of `to_rref`, `_linear.py:1908-1943`, rounded. -/
def frrefLoop (R : Rounding) (fuel : ℕ) : List (Fin m) → Matrix (Fin m) (Fin n) ℚ → ℕ →
    Except PyErr (Matrix (Fin m) (Fin n) ℚ)
  | [], M, _ => .ok M
  | row :: rows, M, col =>
    if h : col < n then
      if mathIsClose (M row ⟨col, h⟩) 1 then
        let M' := feliminate R M row ⟨col, h⟩
        if col + 1 = n then .ok M' else frrefLoop R fuel rows M' (col + 1)
      else
        match seek row fuel M col 0 with
        | .error e => .error e
        | .ok (M', col') =>
          if h' : col' < n then
            let M'' := feliminate R (fdivideRow R M' row ⟨col', h'⟩) row ⟨col', h'⟩
            if col' + 1 = n then .ok M'' else frrefLoop R fuel rows M'' (col' + 1)
          else .ok M'
    else .error .indexError

/-- `to_rref`, `_linear.py:1895-1945`, rounded. -/
def ftoRref (R : Rounding) (fuel : ℕ) (M : Matrix (Fin m) (Fin n) ℚ) : Except PyErr (Matrix (Fin m) (Fin n) ℚ) :=
  frrefLoop R fuel (List.finRange m) M 0

/-- The entries that the test `_linear.py:1910` takes for one, in the order in which the loop meets them: these rows
are not divided. -/
def keptPivots (R : Rounding) (fuel : ℕ) : List (Fin m) → Matrix (Fin m) (Fin n) ℚ → ℕ → List ℚ
  | [], _, _ => []
  | row :: rows, M, col =>
    if h : col < n then
      if mathIsClose (M row ⟨col, h⟩) 1 then
        M row ⟨col, h⟩ :: keptPivots R fuel rows (feliminate R M row ⟨col, h⟩) (col + 1)
      else
        match seek row fuel M col 0 with
        | .error _ => []
        | .ok (M', col') =>
          if h' : col' < n then
            keptPivots R fuel rows (feliminate R (fdivideRow R M' row ⟨col', h'⟩) row ⟨col', h'⟩) (col' + 1)
          else []
    else []

/-! ### Without rounding -/

theorem fdivideRow_exact (M : Matrix (Fin m) (Fin n) ℚ) (row : Fin m) (col : Fin n) :
    fdivideRow exact M row col = divideRow M row col := rfl

theorem feliminate_exact (M : Matrix (Fin m) (Fin n) ℚ) (row : Fin m) (col : Fin n) :
    feliminate exact M row col = eliminate M row col := rfl

theorem frrefLoop_exact (fuel : ℕ) (rows : List (Fin m)) : ∀ (M : Matrix (Fin m) (Fin n) ℚ) (col : ℕ),
    frrefLoop exact fuel rows M col = rrefLoop fuel rows M col := by
  induction rows with
  | nil => intro M col; rfl
  | cons row rows ih =>
    intro M col
    simp only [frrefLoop, rrefLoop, fdivideRow_exact, feliminate_exact, ih]
    rfl

/-! ### The call returns -/

/-- What the search returns is the matrix with two rows exchanged, or the matrix itself. -/
theorem seek_returns {row : Fin m} (fuel : ℕ) : ∀ (M : Matrix (Fin m) (Fin n) ℚ) (col i : ℕ),
    col < n → (row : ℕ) + i ≤ m → (n - col) * (m + 2) < fuel + i →
    ∃ s col', seek row fuel M col i = .ok (swapRows M row s, col') ∧ row ≤ s ∧ col ≤ col' ∧ col' ≤ n := by
  have self : ∀ M : Matrix (Fin m) (Fin n) ℚ, swapRows M row row = M := by
    intro M; simp [swapRows]
  induction fuel with
  | zero =>
    intro M col i hc hi hf
    exfalso
    have : 1 * (m + 2) ≤ (n - col) * (m + 2) := Nat.mul_le_mul_right _ (by omega)
    omega
  | succ fuel ih =>
    intro M col i hc hi hf
    simp only [seek, dif_pos hc]
    by_cases h0 : M row ⟨col, hc⟩ ≠ 0
    · rw [if_pos h0]
      exact ⟨row, col, by rw [self], le_refl _, le_refl _, hc.le⟩
    · rw [if_neg h0]
      by_cases h2 : (row : ℕ) + i < m
      · rw [dif_pos h2]
        by_cases h3 : M ⟨row + i, h2⟩ ⟨col, hc⟩ ≠ 0
        · rw [if_pos h3]
          exact ⟨_, col, rfl, by rw [Fin.le_def]; simp, le_refl _, hc.le⟩
        · rw [if_neg h3]
          exact ih M col (i + 1) hc (by omega) (by omega)
      · rw [dif_neg h2]
        by_cases h4 : col + 1 = n
        · rw [if_pos h4]
          exact ⟨row, col + 1, by rw [self], le_refl _, by omega, h4.le⟩
        · rw [if_neg h4]
          have e : n - col = (n - (col + 1)) + 1 := by omega
          rw [e, Nat.succ_mul] at hf
          obtain ⟨s, c, h5, h6, h7, h8⟩ := ih M (col + 1) 0 (by omega) (by have := row.2; omega) (by omega)
          exact ⟨s, c, h5, h6, by omega, h8⟩

theorem frrefLoop_returns (R : Rounding) {fuel : ℕ} (hf : n * (m + 2) < fuel) (rows : List (Fin m)) :
    ∀ (M : Matrix (Fin m) (Fin n) ℚ) (col : ℕ), col < n → ∃ N, frrefLoop R fuel rows M col = .ok N := by
  induction rows with
  | nil => intro M col _; exact ⟨M, rfl⟩
  | cons row rows ih =>
    intro M col hc
    have step : ∀ (N : Matrix (Fin m) (Fin n) ℚ) (c : ℕ), c < n →
        ∃ N', (if c + 1 = n then .ok N else frrefLoop R fuel rows N (c + 1)) = .ok N' := by
      intro N c hc'
      by_cases h : c + 1 = n
      · rw [if_pos h]; exact ⟨N, rfl⟩
      · rw [if_neg h]; exact ih N (c + 1) (by omega)
    simp only [frrefLoop, dif_pos hc]
    by_cases h1 : mathIsClose (M row ⟨col, hc⟩) 1 = true
    · rw [if_pos h1]; exact step _ col hc
    · rw [if_neg h1]
      obtain ⟨s, c, h2, _, _, _⟩ := seek_returns (row := row) fuel M col 0 hc (by have := row.2; omega) (by
        have : (n - col) * (m + 2) ≤ n * (m + 2) := Nat.mul_le_mul_right _ (by omega)
        omega)
      simp only [h2]
      by_cases hc' : c < n
      · rw [dif_pos hc']; exact step _ c hc'
      · rw [dif_neg hc']; exact ⟨_, rfl⟩

/-! ### The shape of the result -/

/-- The invariant of the loop: the rows above `r` are reduced with ones as pivots, and all entries are floats. -/
structure RrefInv (R : Rounding) (M : Matrix (Fin m) (Fin n) ℚ) (r c : ℕ) (p : ℕ → ℕ) : Prop where
  inv : Inv M r c p
  ones : ∀ i : Fin m, (i : ℕ) < r → ∀ j : Fin n, (j : ℕ) = p i → M i j = 1
  rep : ∀ i j, R.Rep (M i j)

variable {R : Rounding} {M : Matrix (Fin m) (Fin n) ℚ}

theorem RrefInv.swap_of {c c' : ℕ} {p : ℕ → ℕ} {row s : Fin m} (h : RrefInv R M row c p) (hs : row ≤ s)
    (hi : Inv (swapRows M row s) row c' p) : RrefInv R (swapRows M row s) row c' p where
  inv := hi
  ones i hlt j hj := by
    have keep : Equiv.swap row s i = i := by
      refine Equiv.swap_apply_of_ne_of_ne ?_ ?_
      · rintro rfl; exact lt_irrefl _ hlt
      · rintro rfl; exact absurd hlt (not_lt.mpr hs)
    simp only [swapRows, Matrix.submatrix_apply, keep, id]
    exact h.ones i hlt j hj
  rep i j := h.rep _ _

theorem RrefInv.divide {c : Fin n} {p : ℕ → ℕ} {row : Fin m} (h : RrefInv R M row c p) :
    RrefInv R (fdivideRow R M row c) row c p where
  inv := h.inv.scaled (fun i hi j => if_neg hi) fun j h0 => by
    unfold fdivideRow
    rw [if_pos rfl, h0, zero_div, R.rd_zero]
  ones i hi j hj := by
    unfold fdivideRow
    rw [if_neg (fun e => by rw [e] at hi; exact lt_irrefl _ hi)]
    exact h.ones i hi j hj
  rep i j := by
    unfold fdivideRow
    split
    · exact R.rep_rd _
    · exact h.rep i j

theorem RrefInv.eliminate {c : Fin n} {p : ℕ → ℕ} {row : Fin m} (h : RrefInv R M row c p) (h1 : M row c = 1) :
    RrefInv R (feliminate R M row c) ((row : ℕ) + 1) ((c : ℕ) + 1) (Function.update p row c) := by
  have same : ∀ i : Fin m, ∀ j : Fin n, (j : ℕ) < c → feliminate R M row c i j = M i j := by
    intro i j hj
    unfold feliminate
    split
    · rfl
    · rw [h.inv.rest row (le_refl _) j hj, zero_mul, R.rd_zero, sub_zero]
      exact h.rep i j
  refine ⟨h.inv.cleared (by rw [h1]; exact mathIsClose_one_self) same ?_ fun j => if_pos rfl, ?_, ?_⟩
  · intro k hk
    unfold feliminate
    have := h.rep k c
    unfold Rounding.Rep at this
    rw [if_neg hk, h1, div_one, one_mul, this, this, sub_self, R.rd_zero]
  · intro i hi j hj
    rcases Nat.lt_succ_iff_lt_or_eq.mp hi with hi | hi
    · rw [Function.update_of_ne (ne_of_lt hi)] at hj
      rw [same i j (by rw [hj]; exact h.inv.lt i hi)]
      exact h.ones i hi j hj
    · rw [hi, Function.update_self] at hj
      have e1 : i = row := Fin.ext hi
      have e2 : j = c := Fin.ext hj
      rw [e1, e2]
      unfold feliminate
      rw [if_pos rfl, h1]
  · intro i j
    unfold feliminate
    split
    · exact h.rep i j
    · exact R.rep_rd _

theorem frrefLoop_spec (h1R : R.Rep 1) {fuel : ℕ} (hf : n * (m + 2) < fuel) (rows : List (Fin m)) :
    ∀ (M : Matrix (Fin m) (Fin n) ℚ) (r col : ℕ) (p : ℕ → ℕ), RrefInv R M r col p → col < n → r ≤ m →
    rows = (List.finRange m).drop r → (∀ v ∈ keptPivots R fuel rows M col, v = 1) →
    ∃ M' r' p', frrefLoop R fuel rows M col = .ok M' ∧ RrefInv R M' r' n p' := by
  induction rows with
  | nil =>
    intro M r col p hI hc hr hrows _
    have : r = m := by
      have := congrArg List.length hrows
      simp at this
      omega
    subst this
    exact ⟨M, r, p, rfl, hI.inv.finish hc.le, hI.ones, hI.rep⟩
  | cons row rows ih =>
    intro M r col p hI hc hr hrows hk
    have hlen : r < (List.finRange m).length := by
      by_contra hcon
      rw [List.drop_eq_nil_of_le (not_lt.mp hcon)] at hrows
      cases hrows
    rw [List.drop_eq_getElem_cons hlen] at hrows
    obtain ⟨hrow, hrest⟩ := List.cons.inj hrows
    have hrr : (row : ℕ) = r := by rw [hrow]; simp
    rw [List.length_finRange] at hlen
    subst hrr
    have step : ∀ (N : Matrix (Fin m) (Fin n) ℚ) (c : ℕ), c < n →
        RrefInv R N ((row : ℕ) + 1) (c + 1) (Function.update p row c) →
        (∀ v ∈ keptPivots R fuel rows N (c + 1), v = 1) →
        ∃ M' r' p', (if c + 1 = n then .ok N else frrefLoop R fuel rows N (c + 1)) = .ok M' ∧ RrefInv R M' r' n p' := by
      intro N c hc' hN hk'
      by_cases h : c + 1 = n
      · rw [if_pos h]
        exact ⟨N, _, _, rfl, h ▸ hN⟩
      · rw [if_neg h]
        exact ih N _ (c + 1) _ hN (by omega) (by omega) hrest hk'
    simp only [keptPivots, dif_pos hc] at hk
    simp only [frrefLoop, dif_pos hc]
    by_cases h1 : mathIsClose (M row ⟨col, hc⟩) 1 = true
    · rw [if_pos h1] at hk ⊢
      exact step _ col hc (RrefInv.eliminate (c := ⟨col, hc⟩) hI (hk _ List.mem_cons_self))
        fun v hv => hk v (List.mem_cons_of_mem _ hv)
    · rw [if_neg h1] at hk ⊢
      have hfu : (n - col) * (m + 2) < fuel + 0 := by
        have : (n - col) * (m + 2) ≤ n * (m + 2) := Nat.mul_le_mul_right _ (by omega)
        omega
      obtain ⟨M', col', hs, -, hI', hle, hnz⟩ := seek_spec fuel M col 0 hI.inv hc (by omega)
        (fun k hk hk' => by omega) hfu
      obtain ⟨s, c2, hs2, hle2, -, -⟩ := seek_returns (row := row) fuel M col 0 hc (by omega) hfu
      rw [hs] at hs2
      obtain ⟨e1, -⟩ := Prod.mk.inj (Except.ok.inj hs2)
      subst e1
      have hF := hI.swap_of hle2 hI'
      simp only [hs] at hk ⊢
      by_cases hc' : col' < n
      · rw [dif_pos hc'] at hk ⊢
        refine step _ col' hc' (RrefInv.eliminate (c := ⟨col', hc'⟩) (RrefInv.divide (c := ⟨col', hc'⟩) hF) ?_) hk
        unfold fdivideRow
        rw [if_pos rfl, div_self (hnz hc')]
        exact h1R
      · rw [dif_neg hc']
        have : col' = n := by omega
        subst this
        exact ⟨_, row, p, rfl, hF⟩

theorem ftoRref_spec (h1R : R.Rep 1) {fuel : ℕ} (hf : n * (m + 2) < fuel) (hn : 0 < n)
    (hM : ∀ i j, R.Rep (M i j)) (hk : ∀ v ∈ keptPivots R fuel (List.finRange m) M 0, v = 1) :
    ∃ M' r p, ftoRref R fuel M = .ok M' ∧ RrefInv R M' r n p :=
  frrefLoop_spec h1R hf (List.finRange m) M 0 0 (fun _ => 0)
    ⟨⟨fun i hi => absurd hi (Nat.not_lt_zero i), fun _ k _ hk => absurd hk (Nat.not_lt_zero k),
      fun _ hi => absurd hi (Nat.not_lt_zero _), fun _ hi => absurd hi (Nat.not_lt_zero _),
      fun _ hi => absurd hi (Nat.not_lt_zero _), fun _ _ _ hj => absurd hj (Nat.not_lt_zero _)⟩,
      fun _ hi => absurd hi (Nat.not_lt_zero _), hM⟩
    hn (Nat.zero_le m) rfl hk

end Floating
end Pytimize
