/-
Lemmas about bases given as lists and about one simplex iteration.
-/
import Mathlib.Data.Fin.Tuple.Sort
import Verif.LP.BasisTheory

namespace Pytimize
namespace LinProg
open Matrix Comparator

variable {m n : ℕ}

/-! ### Lists of columns -/

/-- The zero-based list of a selection of columns. -/
def colsList (B : Fin m → Fin n) : List ℤ := List.ofFn fun i => ((B i : ℕ) : ℤ)

theorem length_colsList (B : Fin m → Fin n) : (colsList B).length = m := by simp [colsList]

theorem mem_colsList {B : Fin m → Fin n} {z : ℤ} : z ∈ colsList B ↔ ∃ i, ((B i : ℕ) : ℤ) = z := by
  simp [colsList, List.mem_ofFn]

theorem mem_colsList' {B : Fin m → Fin n} {j : Fin n} : ((j : ℕ) : ℤ) ∈ colsList B ↔ ∃ i, B i = j := by
  rw [mem_colsList]
  refine exists_congr fun i => ?_
  rw [Nat.cast_inj, Fin.val_inj]

theorem colsList_inj {B B' : Fin m → Fin n} (h : colsList B = colsList B') : B = B' := by
  funext i
  have := congrFun (List.ofFn_injective h) i
  rw [Nat.cast_inj, Fin.val_inj] at this
  exact this

theorem toCols_iff {l : List ℤ} {B : Fin m → Fin n} : toCols m n l = some B ↔ l = colsList B := by
  unfold toCols
  constructor
  · intro h
    split at h
    · rename_i hl
      rw [Option.some.injEq] at h
      subst h
      apply List.ext_getElem
      · rw [length_colsList, hl.1]
      · intro i h1 h2
        have := (hl.2 _ (List.getElem_mem h1)).1
        simp only [colsList, List.getElem_ofFn]
        exact (Int.toNat_of_nonneg this).symm
    · cases h
  · rintro rfl
    have hl : (colsList B).length = m ∧ ∀ i ∈ colsList B, 0 ≤ i ∧ i < n := by
      refine ⟨length_colsList B, fun z hz => ?_⟩
      obtain ⟨i, rfl⟩ := mem_colsList.mp hz
      have := (B i).2
      omega
    rw [dif_pos hl, Option.some.injEq]
    funext i
    apply Fin.ext
    simp [colsList]

theorem toCols_colsList (B : Fin m → Fin n) : toCols m n (colsList B) = some B := toCols_iff.mpr rfl

theorem exists_cols {l : List ℤ} (h1 : l.length = m) (h2 : ∀ i ∈ l, 0 ≤ i ∧ i < n) :
    ∃ B : Fin m → Fin n, l = colsList B := by
  refine ⟨_, toCols_iff.mp (dif_pos ⟨h1, h2⟩)⟩

/-- The columns of `B` in increasing order. -/
def sortCols (B : Fin m → Fin n) : Fin m → Fin n := B ∘ Tuple.sort B

theorem sortCols_same (B : Fin m → Fin n) : SameCols B (sortCols B) := by
  intro j
  constructor
  · rintro ⟨i, rfl⟩
    exact ⟨(Tuple.sort B).symm i, by simp [sortCols]⟩
  · rintro ⟨i, rfl⟩
    exact ⟨Tuple.sort B i, rfl⟩

theorem sortCols_mono (B : Fin m → Fin n) : Monotone (sortCols B) := Tuple.monotone_sort B

theorem sortInt_colsList (B : Fin m → Fin n) : sortInt (colsList B) = colsList (sortCols B) := by
  apply List.Perm.eq_of_pairwise' (r := (· ≤ ·))
  · exact List.pairwise_insertionSort _ _
  · rw [colsList, List.pairwise_ofFn]
    intro i j hij
    have := sortCols_mono B hij.le
    exact_mod_cast this
  · refine (List.perm_insertionSort _ _).trans ?_
    have := (Equiv.Perm.ofFn_comp_perm (Tuple.sort B) fun i => ((B i : ℕ) : ℤ)).symm
    exact this

theorem sortCols_of_mono {B : Fin m → Fin n} (h : Monotone B) : sortCols B = B := by
  have : Tuple.sort B = Equiv.refl _ := Tuple.sort_eq_refl_iff_monotone.mpr h
  rw [sortCols, this]; rfl

theorem toCols_sortInt {l : List ℤ} {B : Fin m → Fin n} :
    toCols m n (sortInt l) = some B ↔ ∃ B', l = colsList B' ∧ B = sortCols B' := by
  constructor
  · intro h
    have h1 := toCols_iff.mp h
    have hp : (sortInt l).Perm l := List.perm_insertionSort _ _
    obtain ⟨B', hB'⟩ : ∃ B' : Fin m → Fin n, l = colsList B' := by
      refine exists_cols ?_ fun z hz => ?_
      · rw [← hp.length_eq, h1, length_colsList]
      · have := hp.mem_iff.mpr hz
        rw [h1, mem_colsList] at this
        obtain ⟨i, rfl⟩ := this
        have := (B i).2
        omega
    refine ⟨B', hB', colsList_inj ?_⟩
    rw [← h1, hB', sortInt_colsList]
  · rintro ⟨B', rfl, rfl⟩
    rw [sortInt_colsList, toCols_colsList]

theorem abs_det_sort (A : Matrix (Fin m) (Fin n) ℚ) (B : Fin m → Fin n) :
    |(colSel A (sortCols B)).det| = |(colSel A B).det| := by
  have : colSel A (sortCols B) = (colSel A B).submatrix (Equiv.refl _) (Tuple.sort B) := rfl
  rw [this, Matrix.abs_det_submatrix_equiv_equiv]

/-! ### `is_basis` -/

theorem isBasis_total (P : LP m n) (hm : 0 < m) (basis : List ℤ) : ∃ r, isBasis P basis = .ok r := by
  unfold isBasis
  by_cases h1 : (sortInt (toArrayIndexing basis)).length ≠ m
  · exact ⟨_, if_pos h1⟩
  · rw [if_neg h1]
    rw [not_not] at h1
    rw [if_neg fun h0 => by rw [h0] at h1; simp at h1; omega]
    cases toCols m n (sortInt (toArrayIndexing basis)) <;> exact ⟨_, rfl⟩

theorem isBasis_iff (P : LP m n) (basis : List ℤ) :
    isBasis P basis = .ok true ↔
      0 < m ∧ ∃ B : Fin m → Fin n, toArrayIndexing basis = colsList B ∧ tol ≤ |(colSel P.A B).det| := by
  unfold isBasis
  constructor
  · intro h
    by_cases h1 : (sortInt (toArrayIndexing basis)).length ≠ m
    · rw [if_pos h1] at h; cases h
    · rw [if_neg h1] at h
      rw [not_not] at h1
      by_cases h0 : sortInt (toArrayIndexing basis) = []
      · rw [if_pos h0] at h; cases h
      · rw [if_neg h0] at h
        have hm : 0 < m := by
          rw [← h1]
          exact List.length_pos_of_ne_nil h0
        refine ⟨hm, ?_⟩
        cases h2 : toCols m n (sortInt (toArrayIndexing basis)) with
        | none => rw [h2] at h; cases h
        | some B =>
          rw [h2] at h
          obtain ⟨B', h3, rfl⟩ := toCols_sortInt.mp h2
          refine ⟨B', h3, ?_⟩
          simp only [Except.ok.injEq, Bool.not_eq_true'] at h
          rw [← abs_det_sort]
          by_contra hlt
          rw [isCloseToZero_iff.mpr (not_le.mp hlt)] at h
          cases h
  · rintro ⟨hm, B, hB, hd⟩
    have hs : sortInt (toArrayIndexing basis) = colsList (sortCols B) := by rw [hB, sortInt_colsList]
    have h1 : ¬ (sortInt (toArrayIndexing basis)).length ≠ m := by rw [hs, length_colsList]; simp
    rw [if_neg h1, if_neg fun h0 => h1 (by rw [h0]; simp; omega), hs, toCols_colsList]
    simp only [Except.ok.injEq, Bool.not_eq_true']
    rw [Bool.eq_false_iff]
    intro hc
    have := isCloseToZero_iff.mp hc
    rw [abs_det_sort] at this
    exact absurd this (not_lt.mpr hd)

theorem isBasis_nonsing {P : LP m n} {B : Fin m → Fin n} (h : tol ≤ |(colSel P.A B).det|) : Nonsing P B := by
  intro h0
  rw [h0, abs_zero] at h
  exact absurd h (not_le.mpr tol_pos)

theorem isBasis_flip (S : Fin m → Bool) (P : LP m n) (basis : List ℤ) :
    isBasis (flipRows S P) basis = .ok true ↔ isBasis P basis = .ok true := by
  simp only [isBasis_iff, abs_det_flip]

theorem toArrayIndexing_succ (l : List ℤ) : toArrayIndexing (l.map (· + 1)) = l := by
  simp [toArrayIndexing, List.map_map, Function.comp_def]

theorem succ_toArrayIndexing (l : List ℤ) : (toArrayIndexing l).map (· + 1) = l := by
  simp [toArrayIndexing, List.map_map, Function.comp_def]

theorem toArrayIndexing_eq_iff {l : List ℤ} {B : Fin m → Fin n} :
    toArrayIndexing l = colsList B ↔ l = List.ofFn fun i => ((B i : ℕ) : ℤ) + 1 := by
  have h : (colsList B).map (· + 1) = List.ofFn fun i => ((B i : ℕ) : ℤ) + 1 := by
    simp [colsList, List.map_ofFn, Function.comp_def]
  constructor
  · intro he
    rw [← succ_toArrayIndexing l, he, h]
  · rintro rfl
    rw [← h, toArrayIndexing_succ]

/-! ### Basic solutions -/

theorem computeBasicSolution_eq {P : LP m n} {basis : List ℤ} {B : Fin m → Fin n} (hm : 0 < m)
    (hB : toArrayIndexing basis = colsList B) (hd : tol ≤ |(colSel P.A B).det|) :
    computeBasicSolution P basis = .ok (assign (sortCols B) (canon P B).b) := by
  unfold computeBasicSolution computeBasicSolution0
  rw [(isBasis_iff P basis).mpr ⟨hm, B, hB, hd⟩]
  simp only [hB, sortInt_colsList, toCols_colsList]
  rw [if_neg (isBasis_nonsing hd)]
  rfl

theorem isBasisFeasible_iff {P : LP m n} {basis : List ℤ} :
    isBasisFeasible P basis = .ok true ↔
      0 < m ∧ ∃ B : Fin m → Fin n, toArrayIndexing basis = colsList B ∧ tol ≤ |(colSel P.A B).det| ∧
        ∀ i, -tol < (canon P B).b i := by
  have key : ∀ (hm : 0 < m) (B : Fin m → Fin n), toArrayIndexing basis = colsList B →
      tol ≤ |(colSel P.A B).det| →
      (isBasisFeasible P basis = .ok true ↔ ∀ i, -tol < (canon P B).b i) := by
    intro hm B hB hd
    unfold isBasisFeasible
    rw [(isBasis_iff P basis).mpr ⟨hm, B, hB, hd⟩, computeBasicSolution_eq hm hB hd]
    simp only [Except.ok.injEq, decide_eq_true_eq, pyCmp_ge_zero_iff]
    have hi : Function.Injective (sortCols B) :=
      injective_of_sameCols (isBasis_nonsing hd).inj (sortCols_same B)
    constructor
    · intro h i
      have := h (sortCols B i)
      rwa [assign_apply hi] at this
    · intro h j
      by_cases hj : ∃ i, sortCols B i = j
      · obtain ⟨i, rfl⟩ := hj
        rw [assign_apply hi]
        exact h i
      · rw [assign_off hi _ fun i he => hj ⟨i, he⟩]
        have := tol_pos
        linarith
  constructor
  · intro h
    have hb : isBasis P basis = .ok true := by
      unfold isBasisFeasible at h
      cases hb : isBasis P basis with
      | error e => rw [hb] at h; cases h
      | ok r =>
        cases r with
        | false => rw [hb] at h; cases h
        | true => rfl
    obtain ⟨hm, B, hB, hd⟩ := (isBasis_iff P basis).mp hb
    exact ⟨hm, B, hB, hd, (key hm B hB hd).mp h⟩
  · rintro ⟨hm, B, hB, hd, h⟩
    exact (key hm B hB hd).mpr h

/-! ### The ratio test -/

/-- Ratios of `b` over the pivot column that differ are told apart by the tolerance. -/
def Apart (b Ak : Fin m → ℚ) : Prop :=
  ∀ i i', tol ≤ Ak i → tol ≤ Ak i' → b i / Ak i < b i' / Ak i' → closeTo (b i / Ak i) (b i' / Ak i') = false

/-- What the loop of the ratio test knows after the rows `l`. -/
def RatioInv (b Ak : Fin m → ℚ) (l : List (Fin m)) : Option ℚ × Option (Fin m) → Prop
  | (none, none) => ∀ i ∈ l, Ak i < tol
  | (some t, some r) => r ∈ l ∧ tol ≤ Ak r ∧ t = b r / Ak r ∧
      (Apart b Ak → ∀ i ∈ l, tol ≤ Ak i → t < b i / Ak i ∨ (t = b i / Ak i ∧ r ≤ i))
  | _ => False

theorem ratioInv_foldl (b Ak : Fin m → ℚ) (l : List (Fin m)) (done : List (Fin m))
    (hs : ∀ i ∈ done, ∀ j ∈ l, i ≤ j) (hl : l.Pairwise (· ≤ ·)) (s : Option ℚ × Option (Fin m))
    (h : RatioInv b Ak done s) :
    RatioInv b Ak (done ++ l) (l.foldl (fun s i =>
      if isPositive (Ak i) then
        if ratioLt (b i / Ak i) s.1 then (some (b i / Ak i), some i) else s
      else s) s) := by
  induction l generalizing done s with
  | nil => simpa using h
  | cons a l ih =>
    rw [List.foldl_cons]
    have happ : done ++ a :: l = (done ++ [a]) ++ l := by simp
    rw [happ]
    rw [List.pairwise_cons] at hl
    refine ih (done ++ [a]) ?_ hl.2 _ ?_
    · intro i hi j hj
      rcases List.mem_append.mp hi with hi | hi
      · exact hs i hi j (List.mem_cons_of_mem _ hj)
      · rw [List.mem_singleton] at hi
        subst hi
        exact hl.1 j hj
    · by_cases hp : isPositive (Ak a) = true
      · rw [if_pos hp]
        have hp' := isPositive_iff.mp hp
        match s, h with
        | (none, none), h =>
          rw [if_pos (by rfl)]
          refine ⟨by simp, hp', rfl, fun _ i hi hti => ?_⟩
          rcases List.mem_append.mp hi with hi | hi
          · exact absurd hti (not_le.mpr (h i hi))
          · rw [List.mem_singleton] at hi
            subst hi
            exact Or.inr ⟨rfl, le_refl _⟩
        | (some t, some r), ⟨hr, hpr, ht, hmin⟩ =>
          by_cases hlt : ratioLt (b a / Ak a) (some t) = true
          · rw [if_pos hlt]
            have hlt' : b a / Ak a < t := by
              simp only [ratioLt, pyCmp, Bool.and_eq_true, decide_eq_true_eq] at hlt
              exact hlt.2
            refine ⟨by simp, hp', rfl, fun hap i hi hti => ?_⟩
            rcases List.mem_append.mp hi with hi | hi
            · rcases hmin hap i hi hti with h1 | ⟨h1, _⟩
              · exact Or.inl (lt_trans hlt' h1)
              · exact Or.inl (h1 ▸ hlt')
            · rw [List.mem_singleton] at hi
              subst hi
              exact Or.inr ⟨rfl, le_refl _⟩
          · rw [if_neg hlt]
            refine ⟨List.mem_append_left _ hr, hpr, ht, fun hap i hi hti => ?_⟩
            rcases List.mem_append.mp hi with hi | hi
            · exact hmin hap i hi hti
            · rw [List.mem_singleton] at hi
              subst hi
              rcases lt_trichotomy t (b i / Ak i) with h1 | h1 | h1
              · exact Or.inl h1
              · exact Or.inr ⟨h1, hs r hr i (List.mem_cons_self ..)⟩
              · exfalso
                apply hlt
                have h2 := hap i r hti hpr (ht ▸ h1)
                simp only [ratioLt, pyCmp, Bool.and_eq_true, decide_eq_true_eq, Bool.not_eq_true']
                rw [ht]
                exact ⟨h2, ht ▸ h1⟩
      · rw [if_neg hp]
        have hp' : Ak a < tol := not_le.mp fun hc => hp (isPositive_iff.mpr hc)
        match s, h with
        | (none, none), h =>
          intro i hi
          rcases List.mem_append.mp hi with hi | hi
          · exact h i hi
          · rw [List.mem_singleton] at hi
            subst hi
            exact hp'
        | (some t, some r), ⟨hr, hpr, ht, hmin⟩ =>
          refine ⟨List.mem_append_left _ hr, hpr, ht, fun hap i hi hti => ?_⟩
          rcases List.mem_append.mp hi with hi | hi
          · exact hmin hap i hi hti
          · rw [List.mem_singleton] at hi
            subst hi
            exact absurd hti (not_le.mpr hp')

theorem ratioTest_spec (b Ak : Fin m → ℚ) (h : ∃ i, tol ≤ Ak i) :
    ∃ r, (ratioTest b Ak).2 = some r ∧ tol ≤ Ak r ∧
      (Apart b Ak → ∀ i, tol ≤ Ak i →
        b r / Ak r < b i / Ak i ∨ (b r / Ak r = b i / Ak i ∧ r ≤ i)) := by
  have hinv := ratioInv_foldl b Ak (List.finRange m) [] (by simp)
    ((List.pairwise_lt_finRange m).imp le_of_lt) (none, none) (by simp [RatioInv])
  rw [List.nil_append] at hinv
  change RatioInv b Ak (List.finRange m) (ratioTest b Ak) at hinv
  match hs : ratioTest b Ak, hinv with
  | (none, none), hinv =>
    obtain ⟨i, hi⟩ := h
    exact absurd hi (not_le.mpr (hinv i (List.mem_finRange i)))
  | (some t, some r), ⟨_, hp, ht, hmin⟩ =>
    subst ht
    exact ⟨r, rfl, hp, fun hap i => hmin hap i (List.mem_finRange i)⟩

/-! ### One iteration -/

/-- Everything `simplex_iteration` may do from the sorted basis columns `B`, with the tolerances of the
code. -/
inductive IterSpec (P : LP m n) (B : Fin m → Fin n) : Except PyErr (Iter m n) → Prop
  | optimal (hc : ∀ j, (∀ i, B i ≠ j) → (canon P B).c j < tol) (hx : ∀ j, -tol < sol P B j) :
      IterSpec P B (.ok (.optimal (sol P B) ((colsList B).map (· + 1)) (canon P B)))
  | infeasible (hc : ∀ j, (∀ i, B i ≠ j) → (canon P B).c j < tol) (j : Fin n) (hx : sol P B j ≤ -tol) :
      IterSpec P B (.error .arithmeticError)
  | unbounded (k : Fin n) (hk : ∀ i, B i ≠ k) (hck : tol ≤ (canon P B).c k)
      (hmin : ∀ j < k, (∀ i, B i ≠ j) → (canon P B).c j < tol) (hA : ∀ i, (canon P B).A i k < tol) :
      IterSpec P B (.ok (.unbounded (sol P B) B (canon P B)))
  | next (k : Fin n) (hk : ∀ i, B i ≠ k) (hck : tol ≤ (canon P B).c k)
      (hmin : ∀ j < k, (∀ i, B i ≠ j) → (canon P B).c j < tol) (r : Fin m)
      (hr : tol ≤ (canon P B).A r k)
      (hratio : Apart (canon P B).b (fun i => (canon P B).A i k) → ∀ i, tol ≤ (canon P B).A i k →
        (canon P B).b r / (canon P B).A r k < (canon P B).b i / (canon P B).A i k ∨
        ((canon P B).b r / (canon P B).A r k = (canon P B).b i / (canon P B).A i k ∧ r ≤ i))
      (B' : Fin m → Fin n) (hB' : Monotone B') (hp : Pivot B r k B') :
      IterSpec P B (.ok (.next ((colsList B').map (· + 1)) (canon P B)))

theorem find?_finRange_filter {p q : Fin n → Bool} {k : Fin n}
    (h : ((List.finRange n).filter p).find? q = some k) :
    p k = true ∧ q k = true ∧ ∀ j < k, p j = true → q j = false := by
  rw [List.find?_filter] at h
  have h1 := List.find?_some h
  simp only [decide_eq_true_eq] at h1
  refine ⟨by simpa using h1.1, by simpa using h1.2, fun j hj hpj => ?_⟩
  obtain ⟨_, as, bs, hsplit, hbefore⟩ := List.find?_eq_some_iff_append.mp h
  have hjmem : j ∈ as := by
    have hj' : j ∈ List.finRange n := List.mem_finRange j
    have hpw := List.pairwise_lt_finRange n
    rw [hsplit] at hj' hpw
    rw [List.pairwise_append] at hpw
    rcases List.mem_append.mp hj' with h2 | h2
    · exact h2
    · exfalso
      rcases List.mem_cons.mp h2 with h2 | h2
      · exact absurd h2 (ne_of_lt hj)
      · have := (List.pairwise_cons.mp hpw.2.1).1 j h2
        exact absurd hj (not_lt.mpr this.le)
  have := hbefore j hjmem
  rw [Bool.eq_false_iff]
  intro hq
  simp [hpj, hq] at this

theorem pivot_list {B : Fin m → Fin n} (hinj : Function.Injective B) (hmono : Monotone B) (r : Fin m)
    {k : Fin n} (hk : ∀ i, B i ≠ k) :
    ∃ B' : Fin m → Fin n, Monotone B' ∧ Pivot B r k B' ∧
      sortInt ((colsList B).erase (((B r : ℕ) : ℤ)) ++ [((k : ℕ) : ℤ)]) = colsList B' := by
  have hnd : (colsList B).Nodup := by
    rw [colsList, List.nodup_ofFn]
    intro a b hab
    simp only [Nat.cast_inj, Fin.val_inj] at hab
    exact hinj hab
  have hmem : ∀ z, z ∈ (colsList B).erase (((B r : ℕ) : ℤ)) ++ [((k : ℕ) : ℤ)] ↔
      z = ((k : ℕ) : ℤ) ∨ (z ∈ colsList B ∧ z ≠ ((B r : ℕ) : ℤ)) := by
    intro z
    rw [List.mem_append, hnd.mem_erase_iff, List.mem_singleton]
    tauto
  obtain ⟨B1, hB1⟩ : ∃ B1 : Fin m → Fin n,
      (colsList B).erase (((B r : ℕ) : ℤ)) ++ [((k : ℕ) : ℤ)] = colsList B1 := by
    refine exists_cols ?_ fun z hz => ?_
    · rw [List.length_append, List.length_erase_of_mem (mem_colsList.mpr ⟨r, rfl⟩), length_colsList]
      have := r.2
      simp
      omega
    · rcases (hmem z).mp hz with rfl | ⟨h1, _⟩
      · have := k.2
        omega
      · obtain ⟨i, rfl⟩ := mem_colsList.mp h1
        have := (B i).2
        omega
  refine ⟨sortCols B1, sortCols_mono B1, fun j => ?_, by rw [hB1, sortInt_colsList]⟩
  rw [← sortCols_same B1 j, ← mem_colsList', ← hB1, hmem, mem_colsList', Nat.cast_inj, Fin.val_inj, Ne,
    Nat.cast_inj, Fin.val_inj]

theorem iterStep_spec {P : LP m n} {B : Fin m → Fin n} (h : Nonsing P B) (hmono : Monotone B) :
    IterSpec P B (iterStep (canon P B) (colsList B) B) := by
  have hx : assign B ((npInv (colSel (canon P B).A B)).mulVec (canon P B).b) = sol P B := by
    rw [colSel_canon h, npInv_one, Matrix.one_mulVec]; rfl
  have hN : ∀ j : Fin n, (!decide (((j : ℕ) : ℤ) ∈ colsList B)) = true ↔ ∀ i, B i ≠ j := by
    intro j
    rw [Bool.not_eq_true', decide_eq_false_iff_not, mem_colsList']
    simp
  unfold iterStep
  simp only [hx]
  by_cases hall : ((List.finRange n).filter fun j : Fin n => !decide (((j : ℕ) : ℤ) ∈ colsList B)).all
      fun j => pyCmp ((canon P B).c j) .le 0
  · rw [if_pos hall]
    have hc : ∀ j, (∀ i, B i ≠ j) → (canon P B).c j < tol := by
      intro j hj
      rw [List.all_eq_true] at hall
      exact pyCmp_le_zero_iff.mp (hall j (List.mem_filter.mpr ⟨List.mem_finRange j, (hN j).mpr hj⟩))
    by_cases hany : (List.finRange n).any fun j => isNegative (sol P B j)
    · rw [if_pos hany]
      obtain ⟨j, _, hj⟩ := List.any_eq_true.mp hany
      exact .infeasible hc j (isNegative_iff.mp hj)
    · rw [if_neg hany]
      refine .optimal hc fun j => ?_
      by_contra hj
      exact hany (List.any_eq_true.mpr ⟨j, List.mem_finRange j, isNegative_iff.mpr (not_lt.mp hj)⟩)
  · rw [if_neg hall]
    cases hf : ((List.finRange n).filter fun j : Fin n => !decide (((j : ℕ) : ℤ) ∈ colsList B)).find?
        fun j => isPositive ((canon P B).c j) with
    | none =>
      exfalso
      apply hall
      rw [List.all_eq_true]
      intro j hj
      have := List.find?_eq_none.mp hf j hj
      rw [pyCmp_le_zero_iff]
      by_contra hc
      exact this (isPositive_iff.mpr (not_lt.mp hc))
    | some k =>
      obtain ⟨h1, h2, h3⟩ := find?_finRange_filter hf
      have hk := (hN k).mp h1
      have hck := isPositive_iff.mp h2
      have hmin : ∀ j < k, (∀ i, B i ≠ j) → (canon P B).c j < tol := by
        intro j hj hjB
        have := h3 j hj ((hN j).mpr hjB)
        by_contra hc
        rw [isPositive_iff.mpr (not_lt.mp hc)] at this
        cases this
      by_cases hA : (List.finRange m).all fun i => pyCmp ((canon P B).A i k) .le 0
      · simp only [hA, if_true]
        refine .unbounded k hk hck hmin fun i => ?_
        rw [List.all_eq_true] at hA
        exact pyCmp_le_zero_iff.mp (hA i (List.mem_finRange i))
      · simp only [hA]
        have hex : ∃ i, tol ≤ (canon P B).A i k := by
          by_contra hno
          push Not at hno
          apply hA
          rw [List.all_eq_true]
          intro i _
          exact pyCmp_le_zero_iff.mpr (hno i)
        obtain ⟨r, hr1, hr2, hr3⟩ := ratioTest_spec (canon P B).b (fun i => (canon P B).A i k) hex
        rw [hr1]
        obtain ⟨B', hB', hp, hl⟩ := pivot_list h.inj hmono r hk
        simp only [hl]
        exact .next k hk hck hmin r hr2 hr3 B' hB' hp

theorem simplexIteration_spec {P : LP m n} (hs : P.isSef = true) {basis : List ℤ} (hm : 0 < m)
    {B : Fin m → Fin n} (hB : toArrayIndexing basis = colsList B) (hd : tol ≤ |(colSel P.A B).det|) :
    IterSpec P (sortCols B) (simplexIteration P basis) := by
  unfold simplexIteration
  rw [(isBasis_iff P basis).mpr ⟨hm, B, hB, hd⟩]
  simp only [hs, hB, sortInt_colsList, toCols_colsList, Bool.not_true, Bool.false_eq_true, if_false]
  rw [canon_flip]
  exact iterStep_spec ((isBasis_nonsing hd).same (sortCols_same B)) (sortCols_mono B)

theorem simplexIteration_error {P : LP m n} {basis : List ℤ} {r : Iter m n}
    (h : simplexIteration P basis = .ok r) : P.isSef = true ∧ isBasis P basis = .ok true := by
  unfold simplexIteration at h
  cases hs : P.isSef with
  | false => simp [hs] at h
  | true =>
    refine ⟨rfl, ?_⟩
    simp only [hs, Bool.not_true, Bool.false_eq_true, if_false] at h
    cases hb : isBasis P basis with
    | error e => simp [hb] at h
    | ok v =>
      cases v with
      | false => simp [hb] at h
      | true => rfl

end LinProg
end Pytimize
