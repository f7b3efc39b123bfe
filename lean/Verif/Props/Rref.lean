/-
Property C55: `to_rref` and `__is_in_rref`.
-/
import Mathlib.Tactic.FinCases
import Verif.LP.Rref

namespace Pytimize
namespace Props
open LinProg Comparator

variable {m n : ℕ}

/-- Column `j` holds the first nonzero entry of row `i`. -/
def LeadAt (M : Matrix (Fin m) (Fin n) ℚ) (i : Fin m) (j : Fin n) : Prop :=
  M i j ≠ 0 ∧ ∀ j', j' < j → M i j' = 0

/-- Specification: reduced row echelon form where leading entries satisfy `one`. -/
structure Echelon (one : ℚ → Prop) (M : Matrix (Fin m) (Fin n) ℚ) : Prop where
  /-- nothing but zero rows below a zero row -/
  zeros : ∀ i k, i < k → (∀ j, M i j = 0) → ∀ j, M k j = 0
  /-- leading entries move to the right -/
  stair : ∀ i k j j', i < k → LeadAt M i j → LeadAt M k j' → j < j'
  /-- leading entries are ones -/
  lead : ∀ i j, LeadAt M i j → one (M i j)
  /-- and alone in their column -/
  alone : ∀ i j, LeadAt M i j → ∀ k, k ≠ i → M k j = 0

/-- Reduced row echelon form. -/
def IsRref (M : Matrix (Fin m) (Fin n) ℚ) : Prop := Echelon (· = 1) M

/-- A number that `math.isclose` takes for one. -/
def NearOne (v : ℚ) : Prop := |v - 1| ≤ 1 / 10 ^ 9 * max |v| 1

theorem nearOne_iff {v : ℚ} : mathIsClose v 1 = true ↔ NearOne v := by
  simp [mathIsClose, NearOne]

theorem nearOne_one : NearOne 1 := nearOne_iff.mp mathIsClose_one_self

theorem exists_lead {M : Matrix (Fin m) (Fin n) ℚ} {i : Fin m} (h : ¬ ∀ j, M i j = 0) :
    ∃ j, LeadAt M i j := by
  push Not at h
  classical
  have hne : (Finset.univ.filter fun j => M i j ≠ 0).Nonempty := by
    obtain ⟨j, hj⟩ := h
    exact ⟨j, by simp [hj]⟩
  refine ⟨(Finset.univ.filter fun j => M i j ≠ 0).min' hne, ?_, ?_⟩
  · have := Finset.min'_mem _ hne
    simpa using this
  · intro j' hj'
    by_contra hcon
    have := Finset.min'_le (Finset.univ.filter fun j => M i j ≠ 0) j' (by simp [hcon])
    exact absurd hj' (not_lt.mpr this)

theorem LeadAt.unique {M : Matrix (Fin m) (Fin n) ℚ} {i : Fin m} {j j' : Fin n} (h : LeadAt M i j)
    (h' : LeadAt M i j') : j = j' := by
  rcases lt_trichotomy j j' with hl | hl | hl
  · exact absurd (h'.2 j hl) h.1
  · exact hl
  · exact absurd (h.2 j' hl) h'.1

theorem Inv.echelon {M : Matrix (Fin m) (Fin n) ℚ} {r : ℕ} {p : ℕ → ℕ} (h : Inv M r n p) :
    Echelon NearOne M := by
  have key : ∀ i j, LeadAt M i j → (i : ℕ) < r ∧ (j : ℕ) = p i := by
    intro i j hl
    have hi : (i : ℕ) < r := by
      by_contra hcon
      exact hl.1 (h.rest i (not_lt.mp hcon) j j.2)
    refine ⟨hi, ?_⟩
    rcases lt_trichotomy (j : ℕ) (p i) with hlt | heq | hgt
    · exact absurd (h.left i hi j hlt) hl.1
    · exact heq
    · have hpn := h.lt i hi
      exact absurd (hl.2 ⟨p i, hpn⟩ hgt) (ne_zero_of_close (h.one i hi ⟨p i, hpn⟩ rfl))
  refine ⟨?_, ?_, ?_, ?_⟩
  · intro i k hik hz j
    refine h.rest k ?_ j j.2
    by_contra hcon
    have hi : (i : ℕ) < r := by
      have : (i : ℕ) < k := hik
      omega
    exact ne_zero_of_close (h.one i hi ⟨p i, h.lt i hi⟩ rfl) (hz _)
  · intro i k j j' hik h1 h2
    obtain ⟨hi, hj⟩ := key i j h1
    obtain ⟨hk, hj'⟩ := key k j' h2
    rw [Fin.lt_def, hj, hj']
    exact h.mono i k hik hk
  · intro i j hl
    obtain ⟨hi, hj⟩ := key i j hl
    exact nearOne_iff.mp (h.one i hi j hj)
  · intro i j hl k hk
    obtain ⟨hi, hj⟩ := key i j hl
    exact h.col i hi j hj k hk

/-- C55: for every matrix with at least one column `to_rref` terminates, its result is `E M` for an
invertible `E`, and it is in reduced row echelon form except that a leading entry may differ from one by a
relative error of `1e-9`. Missing: leading entries exactly one (`C55_tolerance_wrong`). -/
theorem C55_to_rref_partial (M : Matrix (Fin m) (Fin n) ℚ) (hn : 0 < n) (fuel : ℕ)
    (hf : n * (m + 2) < fuel) :
    ∃ R, toRref fuel M = .ok R ∧
      (∃ E F : Matrix (Fin m) (Fin m) ℚ, F * E = 1 ∧ E * F = 1 ∧ R = E * M) ∧ Echelon NearOne R := by
  obtain ⟨R, r, p, h1, ⟨E, F, h2, h3⟩, h4⟩ := toRref_spec hf hn M
  exact ⟨R, h1, ⟨E, F, h2, mul_eq_one_comm.mp h2, h3⟩, Inv.echelon h4⟩

/-- C55: the result has the same solutions of `M x = 0`. -/
theorem C55_same_solutions (M R : Matrix (Fin m) (Fin n) ℚ) (hn : 0 < n) (fuel : ℕ)
    (hf : n * (m + 2) < fuel) (h : toRref fuel M = .ok R) (x : Fin n → ℚ) :
    R.mulVec x = 0 ↔ M.mulVec x = 0 := by
  obtain ⟨R', h1, ⟨E, F, h2, _, h3⟩, _⟩ := C55_to_rref_partial M hn fuel hf
  rw [h, Except.ok.injEq] at h1
  subst h1
  constructor
  · intro hx
    have : F.mulVec (R.mulVec x) = M.mulVec x := by
      rw [h3, Matrix.mulVec_mulVec, ← Matrix.mul_assoc, h2, Matrix.one_mul]
    rw [← this, hx, Matrix.mulVec_zero]
  · intro hx
    rw [h3, ← Matrix.mulVec_mulVec, hx, Matrix.mulVec_zero]

/-- C55: dividing the rows of the result by their leading entries gives a matrix in reduced row echelon
form, so the deviation is only in the scale of the rows. -/
theorem C55_scaled (R : Matrix (Fin m) (Fin n) ℚ) (hR : Echelon NearOne R) (d : Fin m → ℚ)
    (hd : ∀ i j, LeadAt R i j → d i = R i j) (hd0 : ∀ i, d i ≠ 0) :
    IsRref (fun i j => R i j / d i : Matrix (Fin m) (Fin n) ℚ) := by
  have hz : ∀ i j, R i j / d i = 0 ↔ R i j = 0 := fun i j => by simp [hd0 i]
  have hlead : ∀ i j, LeadAt (fun i j => R i j / d i : Matrix (Fin m) (Fin n) ℚ) i j ↔ LeadAt R i j := by
    intro i j
    simp only [LeadAt, ne_eq, hz]
  refine ⟨?_, ?_, ?_, ?_⟩
  · intro i k hik h j
    rw [hz]
    exact hR.zeros i k hik (fun j => (hz i j).mp (h j)) j
  · intro i k j j' hik h1 h2
    exact hR.stair i k j j' hik ((hlead i j).mp h1) ((hlead k j').mp h2)
  · intro i j h
    have := (hlead i j).mp h
    show R i j / d i = 1
    rw [hd i j this, div_self this.1]
  · intro i j h k hk
    rw [hz]
    exact hR.alone i j ((hlead i j).mp h) k hk

/-- C55: if every leading entry of the result that `math.isclose` takes for one is one, the result is in
reduced row echelon form. -/
theorem C55_exact_partial (R : Matrix (Fin m) (Fin n) ℚ) (hR : Echelon NearOne R)
    (h : ∀ i j, LeadAt R i j → NearOne (R i j) → R i j = 1) : IsRref R :=
  ⟨hR.zeros, hR.stair, fun i j hl => h i j hl (hR.lead i j hl), hR.alone⟩

/-- C55 as stated is false: a first entry within `1e-9` of one is left as it is. -/
theorem C55_tolerance_wrong :
    ∃ M R : Matrix (Fin 1) (Fin 1) ℚ, (∀ fuel, toRref fuel M = .ok R) ∧ ¬ IsRref R := by
  refine ⟨!![1 + 1 / 10 ^ 10], !![1 + 1 / 10 ^ 10], ?_, ?_⟩
  · intro fuel
    have h1 : mathIsClose ((!![1 + 1 / 10 ^ 10] : Matrix (Fin 1) (Fin 1) ℚ) 0 0) 1 = true := by
      decide +kernel
    have e : List.finRange 1 = [0] := by decide
    simp only [toRref, e, rrefLoop, Nat.lt_one_iff, dite_true, zero_add, if_true]
    rw [show (⟨0, _⟩ : Fin 1) = 0 from rfl, if_pos h1]
    congr 1
    ext i j
    fin_cases i; fin_cases j
    simp [eliminate]
  · intro h
    have := h.lead 0 0 ⟨by norm_num, fun j hj => absurd hj (by simp)⟩
    norm_num at this

/-- A matrix without columns raises `IndexError` as soon as it has a row. -/
theorem C55_no_columns (fuel : ℕ) (M : Matrix (Fin (m + 1)) (Fin 0) ℚ) :
    toRref fuel M = .error .indexError := by
  rw [toRref, List.finRange_succ]
  simp [rrefLoop]

example : (toRref 100 !![0, 2, 4; 1, 1, 1]).toOption.map (fun R => (List.ofFn fun i => List.ofFn (R i))) =
    some [[1, 0, -1], [0, 1, 2]] := by decide +kernel

/-! ### `__is_in_rref` -/

open Classical in
theorem rrefRow_spec (M : Matrix (Fin m) (Fin n) ℚ) (row : Fin m) (hz : Bool) (cols : List (Fin n)) :
    rrefRow M row hz cols =
      match cols.find? fun j => !decide (M row j = 0) with
      | none => some true
      | some j => if hz = false ∧ NearOne (M row j) ∧ ∀ k, k ≠ row → M k j = 0 then some false else none := by
  induction cols with
  | nil => rfl
  | cons j cols ih =>
    unfold rrefRow
    by_cases h0 : M row j = 0
    · rw [if_pos h0, ih, List.find?_cons_of_neg (by simp [h0])]
    · rw [if_neg h0, List.find?_cons_of_pos (by simp [h0])]
      simp only
      cases hz with
      | true => simp
      | false =>
        simp only [Bool.false_eq_true, if_false, true_and]
        by_cases h1 : NearOne (M row j)
        · rw [if_pos (nearOne_iff.mpr h1)]
          have : ((List.finRange m).any fun r => !decide (r = row) && !decide (M r j = 0)) = true ↔
              ¬ ∀ k, k ≠ row → M k j = 0 := by
            simp
          by_cases h2 : ∀ k, k ≠ row → M k j = 0
          · rw [if_neg (fun h => this.mp h h2), if_pos ⟨h1, h2⟩]
          · rw [if_pos (this.mpr h2), if_neg (fun h => h2 h.2)]
        · rw [if_neg (fun h => h1 (nearOne_iff.mp h)), if_neg (fun h => h1 h.1)]

theorem find_lead {M : Matrix (Fin m) (Fin n) ℚ} {i : Fin m} {j : Fin n} :
    (List.finRange n).find? (fun j => !decide (M i j = 0)) = some j ↔ LeadAt M i j := by
  have e : (List.finRange n) = List.ofFn (fun j : Fin n => j) := (List.ofFn_id n).symm
  rw [List.find?_eq_some_iff_getElem]
  simp only [Bool.not_eq_true', decide_eq_false_iff_not, List.length_finRange, List.getElem_finRange, LeadAt,
    Bool.not_not, decide_eq_true_eq]
  constructor
  · rintro ⟨h0, k, hk, hkj, hlt⟩
    refine ⟨h0, fun j' hj' => ?_⟩
    have hkj : k = (j : ℕ) := by rw [← hkj]; simp
    have := hlt j' (by rw [hkj]; exact hj')
    simpa using this
  · rintro ⟨h0, hlt⟩
    refine ⟨h0, j, j.2, by simp, fun k hk => ?_⟩
    have := hlt ⟨k, hk.trans j.2⟩ hk
    simpa using this

theorem find_none {M : Matrix (Fin m) (Fin n) ℚ} {i : Fin m} :
    (List.finRange n).find? (fun j => !decide (M i j = 0)) = none ↔ ∀ j, M i j = 0 := by
  rw [List.find?_eq_none]
  simp

/-- What one row must satisfy: zero, or led by a one that is alone in its column. -/
def RowFine (M : Matrix (Fin m) (Fin n) ℚ) (i : Fin m) : Prop :=
  ∀ j, LeadAt M i j → NearOne (M i j) ∧ ∀ k, k ≠ i → M k j = 0

theorem rrefRows_spec (M : Matrix (Fin m) (Fin n) ℚ) (rows : List (Fin m)) (hz : Bool) :
    rrefRows M rows hz = true ↔ (∀ i ∈ rows, RowFine M i) ∧
      (hz = true → ∀ i ∈ rows, ∀ j, M i j = 0) ∧
      rows.Pairwise fun i k => (∀ j, M i j = 0) → ∀ j, M k j = 0 := by
  induction rows generalizing hz with
  | nil => simp [rrefRows]
  | cons row rows ih =>
    unfold rrefRows
    rw [rrefRow_spec]
    cases hf : (List.finRange n).find? (fun j => !decide (M row j = 0)) with
    | none =>
      have h0 := find_none.mp hf
      have hfine : RowFine M row := fun j hj => absurd (h0 j) hj.1
      simp only [ih, List.mem_cons, forall_eq_or_imp, hfine, true_and, List.pairwise_cons]
      constructor
      · rintro ⟨h1, h2, h3⟩
        exact ⟨h1, fun _ => ⟨h0, h2 trivial⟩, fun k hk _ => h2 trivial k hk, h3⟩
      · rintro ⟨h1, _, h2, h3⟩
        exact ⟨h1, fun _ k hk => h2 k hk h0, h3⟩
    | some j =>
      have hl := find_lead.mp hf
      simp only
      by_cases hc : hz = false ∧ NearOne (M row j) ∧ ∀ k, k ≠ row → M k j = 0
      · rw [if_pos hc]
        obtain ⟨rfl, h1, h2⟩ := hc
        have hfine : RowFine M row := fun j' hj' => by
          rw [← hl.unique hj']; exact ⟨h1, h2⟩
        simp only [ih, List.mem_cons, forall_eq_or_imp, hfine, true_and, List.pairwise_cons,
          Bool.false_eq_true, false_implies]
        refine and_congr_right fun _ => ⟨fun h => ⟨fun k _ hz => absurd (hz j) hl.1, h⟩, fun h => h.2⟩
      · rw [if_neg hc]
        simp only [Bool.false_eq_true, false_iff]
        rintro ⟨h1, h2, _⟩
        refine hc ⟨?_, h1 row List.mem_cons_self j hl⟩
        rw [← Bool.not_eq_true]
        exact fun h => hl.1 (h2 h row List.mem_cons_self j)

/-- C55: `is_in_rref` decides every condition of the reduced row echelon form except that the leading
entries move to the right, and up to the tolerance. Missing: that condition (`C55_stairs_wrong`). -/
theorem C55_is_in_rref_partial (M : Matrix (Fin m) (Fin n) ℚ) :
    isInRref M = true ↔ (∀ i j, LeadAt M i j → NearOne (M i j) ∧ ∀ k, k ≠ i → M k j = 0) ∧
      ∀ i k, i < k → (∀ j, M i j = 0) → ∀ j, M k j = 0 := by
  unfold isInRref
  rw [rrefRows_spec]
  simp only [List.mem_finRange, forall_const, Bool.false_eq_true, false_implies, true_and]
  refine and_congr Iff.rfl ?_
  rw [← List.ofFn_id, List.pairwise_ofFn]
  rfl

/-- C55: `is_in_rref` accepts every matrix in reduced row echelon form. -/
theorem C55_accepts (M : Matrix (Fin m) (Fin n) ℚ) (h : IsRref M) : isInRref M = true :=
  (C55_is_in_rref_partial M).mpr ⟨fun i j hl => ⟨by rw [h.lead i j hl]; exact nearOne_one, h.alone i j hl⟩,
    h.zeros⟩

/-- C55: an accepted matrix whose leading entries move to the right and are exact is in reduced row echelon
form. -/
theorem C55_accepted_partial (M : Matrix (Fin m) (Fin n) ℚ) (h : isInRref M = true)
    (hs : ∀ i k j j', i < k → LeadAt M i j → LeadAt M k j' → j < j')
    (h1 : ∀ i j, LeadAt M i j → NearOne (M i j) → M i j = 1) : IsRref M := by
  obtain ⟨h2, h3⟩ := (C55_is_in_rref_partial M).mp h
  exact ⟨h3, hs, fun i j hl => h1 i j hl (h2 i j hl).1, fun i j hl => (h2 i j hl).2⟩

/-- C55: the result of `to_rref` is accepted by `is_in_rref`. -/
theorem C55_round_trip (M : Matrix (Fin m) (Fin n) ℚ) (hn : 0 < n) (fuel : ℕ) (hf : n * (m + 2) < fuel) :
    ∃ R, toRref fuel M = .ok R ∧ isInRref R = true := by
  obtain ⟨R, h1, _, h2⟩ := C55_to_rref_partial M hn fuel hf
  exact ⟨R, h1, (C55_is_in_rref_partial R).mpr ⟨fun i j hl => ⟨h2.lead i j hl, h2.alone i j hl⟩, h2.zeros⟩⟩

/-- C55 as stated is false: `[[0, 1], [1, 0]]` is accepted. -/
theorem C55_stairs_wrong :
    isInRref (!![0, 1; 1, 0] : Matrix (Fin 2) (Fin 2) ℚ) = true ∧
      ¬ IsRref (!![0, 1; 1, 0] : Matrix (Fin 2) (Fin 2) ℚ) := by
  refine ⟨by decide +kernel, fun h => ?_⟩
  have := h.stair 0 1 1 0 (by decide) ⟨by simp, by decide +kernel⟩ ⟨by simp, by decide +kernel⟩
  exact absurd this (by decide)

end Props
end Pytimize
