/-
Properties C53, C54, C56 and C57: `is_canonical_form_for`, `is_feasible_basic_solution`, `clear_steps`,
`==`, `random` and `graph_polyhedron`.
-/
import Mathlib.Tactic.FinCases
import Verif.LP.BasicLemmas
import Verif.LP.Extra
import Verif.Props.LinearBasis

namespace Pytimize
namespace Props
open LinProg Comparator

variable {m n : ℕ}

/-! ### C53 -/

theorem rowSel_ok {A : Matrix (Fin m) (Fin n) ℚ} {l : List ℤ} {r : List (Fin n → ℚ)}
    (h : rowSel A l = .ok r) : ∀ i ∈ l, 0 ≤ i ∧ i < m := by
  induction l generalizing r with
  | nil => simp
  | cons i l ih =>
    unfold rowSel at h
    by_cases hi : 0 ≤ i ∧ i < (m : ℤ)
    · rw [dif_pos hi] at h
      generalize hr : rowSel A l = q at h
      match q, h with
      | .ok q, _ =>
        intro k hk
        rcases List.mem_cons.mp hk with rfl | hk
        · exact hi
        · exact ih hr k hk
    · rw [dif_neg hi] at h
      cases h

/-- C53 is false in the strongest way: `is_canonical_form_for` never returns True, for any program and any
list of indices. -/
theorem C53_canonical_never_wrong (P : LP m n) (basis : List ℤ) :
    isCanonicalFormFor P basis ≠ .ok true := by
  intro h
  unfold isCanonicalFormFor at h
  generalize hc : convertIndices basis n = r at h
  match r, h with
  | .ok l, h =>
    simp only at h
    generalize hb : isBasis P l = r at h
    match r, h with
    | .ok r1, h =>
      simp only at h
      generalize hr : rowSel P.A l = r at h
      match r, h with
      | .ok rows, h =>
        simp only at h
        generalize allcloseEye rows = r at h
        match r, h with
        | .ok r2, h =>
          simp only at h
          generalize vecSel P.c l = r at h
          match r, h with
          | .ok cs, h =>
            simp only [Except.ok.injEq, Bool.and_eq_true] at h
            rw [h.1.1] at hb
            obtain ⟨hm, B, hB, hd⟩ := (isBasis_iff P l).mp hb
            have hl : Lists l B := toArrayIndexing_eq_iff.mp hB
            have hinj := (isBasis_nonsing hd).inj
            have hlt : ∀ i, (B i : ℕ) < m - 1 := by
              intro i
              have := rowSel_ok hr (((B i : ℕ) : ℤ) + 1) ((hl.mem (B i)).mpr ⟨i, rfl⟩)
              omega
            have hcard := Fintype.card_le_of_injective (fun i : Fin m => (⟨B i, hlt i⟩ : Fin (m - 1)))
              (fun i j hij => hinj (Fin.ext (by simpa using hij)))
            simp only [Fintype.card_fin] at hcard
            omega

theorem rowSel_outcome (A : Matrix (Fin m) (Fin n) ℚ) (l : List ℤ) :
    if ∀ i ∈ l, 0 ≤ i ∧ i < m then ∃ r, rowSel A l = .ok r ∧ r.length = l.length else rowSel A l = .error .indexError := by
  induction l with
  | nil => simp [rowSel]
  | cons i l ih =>
    unfold rowSel
    by_cases hi : 0 ≤ i ∧ i < (m : ℤ)
    · rw [dif_pos hi]
      by_cases hl : ∀ i ∈ l, 0 ≤ i ∧ i < (m : ℤ)
      · rw [if_pos hl] at ih
        obtain ⟨r, hr, hlen⟩ := ih
        have hall : ∀ k ∈ i :: l, 0 ≤ k ∧ k < (m : ℤ) := List.forall_mem_cons.mpr ⟨hi, hl⟩
        rw [if_pos hall, hr]
        exact ⟨_, rfl, by simp [hlen]⟩
      · rw [if_neg hl] at ih
        rw [if_neg (fun h => hl (List.forall_mem_cons.mp h).2), ih]
    · have hall : ¬ ∀ k ∈ i :: l, 0 ≤ k ∧ k < (m : ℤ) := fun h => hi (h i List.mem_cons_self)
      rw [dif_neg hi, if_neg hall]

theorem vecSel_ok (c : Fin n → ℚ) {l : List ℤ} (h : ∀ i ∈ l, 0 ≤ i ∧ i < n) : ∃ r, vecSel c l = .ok r := by
  induction l with
  | nil => exact ⟨[], rfl⟩
  | cons i l ih =>
    obtain ⟨h1, h2⟩ := List.forall_mem_cons.mp h
    obtain ⟨r, hr⟩ := ih h2
    unfold vecSel
    rw [dif_pos h1, hr]
    exact ⟨_, rfl⟩

/-- C53: what `is_canonical_form_for` does instead, for every program with rows and columns: an index outside the columns,
or outside the rows, raises `IndexError`; otherwise the answer is False if there is one index, one column, or an index for
every column, and `ValueError` is raised in all other cases. -/
theorem C53_canonical_outcome (hm : 0 < m) (hn : 0 < n) (P : LP m n) (basis : List ℤ) :
    isCanonicalFormFor P basis =
      if ∀ i ∈ basis, 1 ≤ i ∧ i ≤ n ∧ i ≤ m then
        if basis.length = n ∨ basis.length = 1 ∨ n = 1 then .ok false else .error .valueError
      else .error .indexError := by
  have hmem : ∀ i, i ∈ toArrayIndexing basis ↔ i + 1 ∈ basis := by
    intro i
    simp only [toArrayIndexing, List.mem_map]
    constructor
    · rintro ⟨k, hk, rfl⟩
      simpa using hk
    · exact fun h => ⟨i + 1, h, by ring⟩
  have hlen : (toArrayIndexing basis).length = basis.length := by simp [toArrayIndexing]
  have hne : n ≠ 0 := by omega
  have hnever := C53_canonical_never_wrong P basis
  by_cases hcols : ∀ i ∈ basis, 1 ≤ i ∧ i ≤ (n : ℤ)
  · have hconv : convertIndices basis n = .ok (toArrayIndexing basis) := by
      unfold convertIndices
      simp only [ne_eq, hne, not_false_eq_true, decide_true, Bool.true_and]
      rw [if_neg]
      simp only [Bool.or_eq_true, List.any_eq_true, decide_eq_true_eq, not_or, not_exists, not_and]
      refine ⟨fun i hi h => ?_, fun i hi h => ?_⟩
      · have := hcols _ ((hmem i).mp hi); omega
      · have := hcols _ ((hmem i).mp hi); omega
    obtain ⟨r1, hr1⟩ : ∃ r1, isBasis P (toArrayIndexing basis) = .ok r1 := by
      unfold isBasis
      simp only
      split
      · exact ⟨_, rfl⟩
      · rename_i h
        push Not at h
        rw [if_neg (fun e => by rw [e] at h; simp at h; omega)]
        split
        · exact ⟨_, rfl⟩
        · exact ⟨_, rfl⟩
    have hrow := rowSel_outcome P.A (toArrayIndexing basis)
    by_cases hrows : ∀ i ∈ basis, i ≤ (m : ℤ)
    · rw [if_pos (fun i hi => ?_)] at hrow
      swap
      · have h1 := hcols _ ((hmem i).mp hi)
        have h2 := hrows _ ((hmem i).mp hi)
        omega
      obtain ⟨rows, hr, hrl⟩ := hrow
      obtain ⟨cs, hcs⟩ := vecSel_ok P.c (l := toArrayIndexing basis) (fun i hi => by
        have := hcols _ ((hmem i).mp hi); omega)
      rw [if_pos (fun i hi => ⟨(hcols i hi).1, (hcols i hi).2, hrows i hi⟩)]
      unfold isCanonicalFormFor at hnever ⊢
      simp only [hconv, hr1, hr] at hnever ⊢
      unfold allcloseEye at hnever ⊢
      simp only [hrl, hlen] at hnever ⊢
      have fin : ∀ r2 : Bool, (Except.ok (r1 && r2 && cs.all fun v => npIsClose v 0) : Except PyErr Bool) ≠ .ok true →
          (Except.ok (r1 && r2 && cs.all fun v => npIsClose v 0) : Except PyErr Bool) = .ok false := by
        intro r2 h
        cases hq : (r1 && r2 && cs.all fun v => npIsClose v 0) with
        | true => rw [hq] at h; exact absurd rfl h
        | false => rfl
      by_cases h1 : n = basis.length
      · rw [if_pos h1] at hnever ⊢
        rw [if_pos (Or.inl h1.symm)]
        simp only [hcs] at hnever ⊢
        exact fin _ hnever
      · rw [if_neg h1] at hnever ⊢
        by_cases h2 : basis.length = 1
        · rw [if_pos h2] at hnever ⊢
          rw [if_pos (Or.inr (Or.inl h2))]
          simp only [hcs] at hnever ⊢
          exact fin _ hnever
        · rw [if_neg h2] at hnever ⊢
          by_cases h3 : n = 1
          · rw [if_pos h3] at hnever ⊢
            rw [if_pos (Or.inr (Or.inr h3))]
            simp only [hcs] at hnever ⊢
            exact fin _ hnever
          · rw [if_neg h3, if_neg (by rintro (h | h | h); exacts [h1 h.symm, h2 h, h3 h])]
    · rw [if_neg (fun h => hrows fun i hi => ?_)] at hrow
      swap
      · have := h (i - 1) ((hmem _).mpr (by simpa using hi)); omega
      rw [if_neg (fun h => hrows fun i hi => (h i hi).2.2)]
      unfold isCanonicalFormFor
      simp only [hconv, hr1, hrow]
  · rw [if_neg (fun h => hcols fun i hi => ⟨(h i hi).1, (h i hi).2.1⟩)]
    have hconv : convertIndices basis n = .error .indexError := by
      unfold convertIndices
      simp only [ne_eq, hne, not_false_eq_true, decide_true, Bool.true_and]
      rw [if_pos]
      push Not at hcols
      obtain ⟨i, hi, h⟩ := hcols
      simp only [Bool.or_eq_true, List.any_eq_true, decide_eq_true_eq]
      by_cases h1 : 1 ≤ i
      · exact Or.inr ⟨i - 1, (hmem _).mpr (by simpa using hi), by have := h h1; omega⟩
      · exact Or.inl ⟨i - 1, (hmem _).mpr (by simpa using hi), by omega⟩
    unfold isCanonicalFormFor
    simp only [hconv]

/-- A program in canonical form for `[1, 2]` on which C53 therefore fails. -/
def canonProg : LP 2 3 :=
  ⟨!![1, 0, 1; 0, 1, 1], ![1, 1], ![0, 0, 1], 0, .max, fun _ => .eq, [], [], true⟩

/-- C53 is false on a program that `to_canonical_form` itself produced. -/
theorem C53_canonical_wrong :
    WF canonProg ∧ isBasis canonProg [1, 2] = .ok true ∧
      (∃ C, toCanonicalForm canonProg [1, 2] = .ok C ∧ C.A = canonProg.A ∧ C.c = canonProg.c) ∧
      isCanonicalFormFor canonProg [1, 2] = .error .valueError := by
  have hb : isBasis canonProg [1, 2] = .ok true := by decide +kernel
  refine ⟨⟨by decide, by decide, by decide, by decide, by decide, by decide⟩, hb, ?_, by decide +kernel⟩
  have : toCanonicalForm canonProg [1, 2] = .ok (canon canonProg ![0, 1]) := by
    unfold toCanonicalForm
    rw [hb]
    have hc : toCols 2 3 (toArrayIndexing [1, 2]) = some ![0, 1] := by decide +kernel
    rw [hc]
    rfl
  refine ⟨_, this, ?_, ?_⟩
  · have h : ∀ i j, (canon canonProg ![0, 1]).A i j = canonProg.A i j := by
      intro i j
      fin_cases i <;> fin_cases j <;> decide +kernel
    ext i j
    exact h i j
  · funext j
    revert j
    decide +kernel

/-- C53: `is_feasible_basic_solution` never returns for a program with several variables (or none): it
raises `ValueError` whatever the vector and the basis. -/
theorem C53_feasible_raises_wrong (P : LP m n) (hn : n ≠ 1) (x : List ℚ) (basis : List ℤ) :
    isFeasibleBasicSolution P x basis = .error .valueError := by
  unfold isFeasibleBasicSolution
  match n, P, hn with
  | 0, P, _ => simp [arrayTruth]
  | k + 2, P, _ => simp only [List.ofFn_succ, arrayTruth]

/-- C53, what is left of it: for a single variable with cost exactly `1` the answer is right up to the
tolerances. Missing: every other program, where the call raises (`C53_feasible_raises_wrong`). -/
theorem C53_feasible_partial (P : LP m 1) (hs : P.isSef = true) (hc : P.c 0 = 1) (basis : List ℤ)
    (hb : isBasis P basis = .ok true) (x : Fin 1 → ℚ) :
    isFeasibleBasicSolution P (List.ofFn x) basis = .ok true ↔
      -(1 / 10 ^ 10) < x 0 ∧ (∀ j : Fin 1, ((j : ℕ) : ℤ) + 1 ∉ basis → |x j| < 1 / 10 ^ 10) ∧
      ∀ i, |(P.A.mulVec x) i - P.b i| ≤ 1 / 10 ^ 8 + 1 / 10 ^ 5 * |P.b i| := by
  have h1 : isFeasibleBasicSolution P (List.ofFn x) basis =
      if pyCmp (x 0) .ge 0 then isBasicSolution P (List.ofFn x) basis else .ok false := by
    simp [isFeasibleBasicSolution, arrayTruth, hc]
  rw [h1, ← C35_is_basic_solution P hs basis hb x]
  by_cases h : pyCmp (x 0) .ge 0 = true
  · rw [if_pos h]
    have := pyCmp_ge_zero_iff.mp h
    constructor
    · intro hx; exact ⟨this, hx⟩
    · exact fun hx => hx.2
  · rw [if_neg h]
    constructor
    · intro hx; cases hx
    · intro hx; exact absurd (pyCmp_ge_zero_iff.mpr hx.1) h

example : ∃ P : LP 1 1, P.isSef = true ∧ P.c 0 = 1 ∧ isBasis P [1] = .ok true :=
  ⟨⟨!![2], ![4], ![1], 0, .max, fun _ => .eq, [], [], true⟩, rfl, rfl, by decide +kernel⟩

/-! ### C54 -/

/-- C54 is false: `clear_steps()` calls itself without end; it raises `RecursionError` at every recursion
limit. -/
theorem C54_clear_steps_wrong (depth : ℕ) (p : Logged m n) :
    clearSteps depth p false = .error .recursionError := by
  induction depth with
  | zero => rfl
  | succ d ih =>
    simp only [clearSteps, Bool.not_false, if_true]
    exact ih

/-- C54, the part that holds: `clear_steps(in_place=True)` empties the log and keeps the program. Missing:
the default call (`C54_clear_steps_wrong`). -/
theorem C54_clear_in_place_partial (depth : ℕ) (p : Logged m n) :
    ∃ q, clearSteps (depth + 1) p true = .ok q ∧ q.steps = [] ∧ q.lp = p.lp :=
  ⟨_, rfl, rfl, rfl⟩

theorem arrayTruth_long {l : List Bool} (h : 2 ≤ l.length) : arrayTruth l = .error .valueError := by
  match l, h with
  | _ :: _ :: _, _ => rfl

/-- C54 is false: comparing a program with itself (or a copy) raises `ValueError` as soon as the matrix has
two entries. -/
theorem C54_eq_raises_wrong (P Q : LP m n) (h : 2 ≤ m * n) : progEq P Q = .error .valueError := by
  unfold progEq
  rw [arrayTruth_long]
  rw [List.length_flatten, List.map_ofFn]
  have : (List.length ∘ fun i : Fin m => List.ofFn fun j : Fin n => decide (Q.A i j = P.A i j)) =
      fun _ => n := by
    funext i; simp
  rw [this, List.ofFn_const, List.sum_replicate, smul_eq_mul]
  exact h

/-- C54, the part that holds: for programs with one row and one variable `==` is equality of all
attributes. Missing: all larger programs (`C54_eq_raises_wrong`). -/
theorem C54_eq_partial (P Q : LP 1 1) : progEq P Q = .ok (decide (P.A 0 0 = Q.A 0 0 ∧ P.b 0 = Q.b 0 ∧
    P.c 0 = Q.c 0 ∧ P.z = Q.z ∧ P.objective = Q.objective ∧ P.ineq 0 = Q.ineq 0 ∧ P.free = Q.free ∧
    P.neg = Q.neg ∧ P.isSef = Q.isSef)) := by
  unfold progEq
  simp only [List.ofFn_succ, List.ofFn_zero, List.flatten_cons, List.flatten_nil, List.append_nil,
    arrayTruth]
  by_cases hA : Q.A 0 0 = P.A 0 0
  · by_cases hb : Q.b 0 = P.b 0
    · by_cases hc : Q.c 0 = P.c 0
      · simp [hA, hb, hc, eq_comm, Bool.and_assoc]
      · have : ¬ P.c 0 = Q.c 0 := fun h => hc h.symm
        simp [hA, hb, hc, this]
    · have : ¬ P.b 0 = Q.b 0 := fun h => hb h.symm
      simp [hA, hb, this]
  · have : ¬ P.A 0 0 = Q.A 0 0 := fun h => hA h.symm
    simp [hA, this]

/-- An empty matrix compares as false, even with itself. -/
theorem C54_eq_empty_wrong (P : LP 0 n) : progEq P P = .ok false := by
  simp [progEq, arrayTruth]

/-! ### C56 -/

theorem roundEven_close (v : ℚ) : |(roundEven v : ℚ) - v| ≤ 1 / 2 := by
  have h1 := Int.floor_le v
  have h2 := Int.lt_floor_add_one v
  unfold roundEven
  simp only
  rw [abs_le]
  split_ifs <;> push_cast <;> constructor <;> linarith

theorem round2_bound {u a : ℚ} (hu : |u| ≤ 1) : |round2 (u * a)| ≤ |a| + 1 / 200 := by
  have h := roundEven_close (u * a * 100)
  have h1 : |u * a| ≤ |a| := by
    rw [abs_mul]
    nlinarith [abs_nonneg a, abs_nonneg u]
  have h2 : round2 (u * a) = u * a + (((roundEven (u * a * 100) : ℚ) - u * a * 100) / 100) := by
    unfold round2; ring
  rw [h2]
  refine (abs_add_le _ _).trans ?_
  rw [abs_div, abs_of_pos (show (0 : ℚ) < 100 by norm_num)]
  linarith

theorem signList_spec {columns : ℕ} (sign : Fin columns → Fin 3) (s : Fin 3) (j : Fin columns) :
    ((j : ℕ) : ℤ) + 1 ∈ signList sign s ↔ sign j = s := by
  simp only [signList, List.mem_map, List.mem_filter, List.mem_finRange, true_and, decide_eq_true_eq,
    add_left_inj, Nat.cast_inj, Fin.val_inj]
  constructor
  · rintro ⟨k, hk, rfl⟩; exact hk
  · intro h; exact ⟨j, h, rfl⟩

/-- The zero-based positions where the sign choice was `s`. -/
def positions {columns : ℕ} (sign : Fin columns → Fin 3) (s : Fin 3) : List ℕ :=
  ((List.finRange columns).filter fun j => decide (sign j = s)).map fun j : Fin columns => (j : ℕ)

theorem positions_spec {columns : ℕ} (sign : Fin columns → Fin 3) (s : Fin 3) :
    IndexSpec columns (signList sign s) (positions sign s) := by
  refine ⟨?_, ?_, ?_⟩
  · rw [positions, List.pairwise_map]
    exact (List.pairwise_lt_finRange columns).filter _
  · intro j hj
    simp only [positions, List.mem_map] at hj
    obtain ⟨k, _, rfl⟩ := hj
    exact k.2
  · rw [positions, signList, List.map_map]
    exact List.Perm.refl _

theorem mem_positions {columns : ℕ} (sign : Fin columns → Fin 3) (s : Fin 3) (j : Fin columns) :
    (j : ℕ) ∈ positions sign s ↔ sign j = s := by
  simp only [positions, List.mem_map, List.mem_filter, List.mem_finRange, true_and, decide_eq_true_eq,
    Fin.val_inj]
  constructor
  · rintro ⟨k, hk, rfl⟩; exact hk
  · intro h; exact ⟨j, h, rfl⟩

/-- The program that `random` returns. -/
def drawn (rows columns : ℕ) (magnitude : ℚ) (d : Draws rows columns) : LP rows columns :=
  ⟨fun i j => round2 (d.A i j * magnitude), fun i => round2 (d.b i * magnitude),
    fun j => round2 (d.c j * magnitude), round2 (d.z * magnitude * (if d.zSign then 1 else -1)),
    d.objective, d.ineq, positions d.sign 0, positions d.sign 1,
    sefFlag d.ineq (positions d.sign 0) (positions d.sign 1) d.objective⟩

theorem random_ok (rows columns : ℕ) (magnitude : ℚ) (d : Draws rows columns) :
    random rows columns magnitude d = .ok ⟨rows, columns, drawn rows columns magnitude d⟩ := by
  have hdisj : ∀ j ∈ positions d.sign 0, j ∉ positions d.sign 1 := by
    intro j h0 h1
    have hj := (positions_spec d.sign 0).lt j h0
    have e0 := (mem_positions d.sign 0 ⟨j, hj⟩).mp h0
    have e1 := (mem_positions d.sign 1 ⟨j, hj⟩).mp h1
    rw [e0] at e1
    exact absurd e1 (by decide)
  refine ctor_iff.mpr ⟨Or.inl rfl, Or.inl rfl, Or.inl rfl, rfl, rfl, Or.inr ?_,
    positions_spec d.sign 0, positions_spec d.sign 1, hdisj, ?_⟩
  · rfl
  · show sefFlag _ _ _ _ = true ↔ _
    rw [sefFlag_iff]
    tauto

/-- C56: whatever is drawn, `random` returns a valid program of the requested shape, with the drawn
objective, operators and sign restrictions, and no entry exceeds the magnitude by more than the rounding
error `0.005`. -/
theorem C56_random (rows columns : ℕ) (magnitude : ℚ) (d : Draws rows columns)
    (hA : ∀ i j, |d.A i j| ≤ 1) (hb : ∀ i, |d.b i| ≤ 1) (hc : ∀ j, |d.c j| ≤ 1) (hz : |d.z| ≤ 1) :
    ∃ P : LP rows columns, random rows columns magnitude d = .ok ⟨rows, columns, P⟩ ∧ WF P ∧
      P.objective = d.objective ∧ P.ineq = d.ineq ∧
      (∀ j : Fin columns, (j : ℕ) ∈ P.free ↔ d.sign j = 0) ∧
      (∀ j : Fin columns, (j : ℕ) ∈ P.neg ↔ d.sign j = 1) ∧
      (∀ i j, |P.A i j| ≤ |magnitude| + 1 / 200) ∧ (∀ i, |P.b i| ≤ |magnitude| + 1 / 200) ∧
      (∀ j, |P.c j| ≤ |magnitude| + 1 / 200) ∧ |P.z| ≤ |magnitude| + 1 / 200 := by
  have hok := random_ok rows columns magnitude d
  refine ⟨_, hok, ctor_wf hok, rfl, rfl, mem_positions d.sign 0, mem_positions d.sign 1,
    fun i j => round2_bound (hA i j), fun i => round2_bound (hb i), fun j => round2_bound (hc j), ?_⟩
  show |round2 (d.z * magnitude * (if d.zSign then 1 else -1))| ≤ _
  rw [mul_assoc]
  refine (round2_bound hz).trans ?_
  rw [abs_mul]
  split <;> simp

theorem roundEven_int (k : ℤ) : roundEven (k : ℚ) = k := by
  unfold roundEven
  simp

theorem round2_hundredths (k : ℤ) : round2 ((k : ℚ) / 100) = k / 100 := by
  unfold round2
  rw [div_mul_cancel₀ _ (by norm_num), roundEven_int]

theorem round2_near (v : ℚ) : (∃ k : ℤ, round2 v = k / 100) ∧ |round2 v - v| ≤ 1 / 200 := by
  refine ⟨⟨_, rfl⟩, ?_⟩
  have h := roundEven_close (v * 100)
  have e : round2 v - v = ((roundEven (v * 100) : ℚ) - v * 100) / 100 := by unfold round2; ring
  rw [e, abs_div, abs_of_pos (show (0 : ℚ) < 100 by norm_num)]
  linarith

/-- C56: every entry of the program returned is the number drawn times the magnitude, rounded to hundredths. -/
theorem C56_rounded (rows columns : ℕ) (magnitude : ℚ) (d : Draws rows columns) (P : LP rows columns)
    (h : random rows columns magnitude d = .ok ⟨rows, columns, P⟩) :
    (∀ i j, (∃ k : ℤ, P.A i j = k / 100) ∧ |P.A i j - d.A i j * magnitude| ≤ 1 / 200) ∧
      (∀ i, (∃ k : ℤ, P.b i = k / 100) ∧ |P.b i - d.b i * magnitude| ≤ 1 / 200) ∧
      (∀ j, (∃ k : ℤ, P.c j = k / 100) ∧ |P.c j - d.c j * magnitude| ≤ 1 / 200) ∧
      (∃ k : ℤ, P.z = k / 100) ∧ |P.z - d.z * magnitude * (if d.zSign then 1 else -1)| ≤ 1 / 200 := by
  rw [random_ok] at h
  cases h
  exact ⟨fun i j => round2_near _, fun i => round2_near _, fun j => round2_near _, round2_near _⟩

/-- C56: every valid program whose entries are hundredths of at most the magnitude is returned for some draws. -/
theorem C56_reached (rows columns : ℕ) {magnitude : ℚ} (hm : 0 < magnitude) (Q : LP rows columns) (hQ : WF Q)
    (hA : ∀ i j, (∃ k : ℤ, Q.A i j = k / 100) ∧ |Q.A i j| ≤ magnitude)
    (hb : ∀ i, (∃ k : ℤ, Q.b i = k / 100) ∧ |Q.b i| ≤ magnitude)
    (hc : ∀ j, (∃ k : ℤ, Q.c j = k / 100) ∧ |Q.c j| ≤ magnitude) (hz : (∃ k : ℤ, Q.z = k / 100) ∧ |Q.z| ≤ magnitude) :
    ∃ d : Draws rows columns, (∀ i j, |d.A i j| ≤ 1) ∧ (∀ i, |d.b i| ≤ 1) ∧ (∀ j, |d.c j| ≤ 1) ∧ 0 ≤ d.z ∧ d.z ≤ 1 ∧
      random rows columns magnitude d = .ok ⟨rows, columns, Q⟩ := by
  have hle : ∀ v : ℚ, |v| ≤ magnitude → |v / magnitude| ≤ 1 := fun v hv => by
    rw [abs_div, abs_of_pos hm, div_le_one hm]; exact hv
  have hr : ∀ v : ℚ, (∃ k : ℤ, v = k / 100) → round2 (v / magnitude * magnitude) = v := by
    rintro v ⟨k, rfl⟩
    rw [div_mul_cancel₀ _ hm.ne', round2_hundredths]
  have hdisj := hQ.disj
  let d : Draws rows columns :=
    { A := fun i j => Q.A i j / magnitude, b := fun i => Q.b i / magnitude, c := fun j => Q.c j / magnitude,
      z := |Q.z| / magnitude, zSign := decide (0 ≤ Q.z), objective := Q.objective, ineq := Q.ineq,
      sign := fun j => if (j : ℕ) ∈ Q.free then 0 else if (j : ℕ) ∈ Q.neg then 1 else 2 }
  have hlist : ∀ (s : Fin 3) (l : List ℕ), l.Pairwise (· < ·) → (∀ j ∈ l, j < columns) →
      (∀ j : Fin columns, d.sign j = s ↔ (j : ℕ) ∈ l) → positions d.sign s = l := by
    intro s l h1 h2 h3
    have hp := (positions_spec d.sign s)
    refine List.Perm.eq_of_pairwise (le := (· < ·)) (fun a b _ _ h1 h2 => absurd h1 (lt_asymm h2)) hp.sorted h1 ?_
    refine (List.perm_ext_iff_of_nodup (hp.sorted.imp ne_of_lt) (h1.imp ne_of_lt)).mpr fun j => ?_
    constructor
    · intro hj
      exact (h3 ⟨j, hp.lt j hj⟩).mp ((mem_positions d.sign s ⟨j, hp.lt j hj⟩).mp hj)
    · intro hj
      exact (mem_positions d.sign s ⟨j, h2 j hj⟩).mpr ((h3 ⟨j, h2 j hj⟩).mpr hj)
  have hf : positions d.sign 0 = Q.free := hlist 0 _ hQ.freeSorted hQ.freeLt fun j => by
    show (if (j : ℕ) ∈ Q.free then (0 : Fin 3) else if (j : ℕ) ∈ Q.neg then 1 else 2) = 0 ↔ _
    split_ifs with h1 h2 <;> simp [h1]
  have hn : positions d.sign 1 = Q.neg := hlist 1 _ hQ.negSorted hQ.negLt fun j => by
    show (if (j : ℕ) ∈ Q.free then (0 : Fin 3) else if (j : ℕ) ∈ Q.neg then 1 else 2) = 1 ↔ _
    split_ifs with h1 h2
    · simp [hdisj _ h1]
    · simp [h2]
    · simp [h2]
  refine ⟨d, fun i j => hle _ (hA i j).2, fun i => hle _ (hb i).2, fun j => hle _ (hc j).2,
    div_nonneg (abs_nonneg _) hm.le, (div_le_one hm).mpr hz.2, ?_⟩
  rw [random_ok]
  have e : drawn rows columns magnitude d = Q := by
    have hzz : round2 (|Q.z| / magnitude * magnitude * (if decide (0 ≤ Q.z) then 1 else -1)) = Q.z := by
      have : |Q.z| / magnitude * magnitude * (if decide (0 ≤ Q.z) then 1 else -1) = Q.z / magnitude * magnitude := by
        rw [div_mul_cancel₀ _ hm.ne', div_mul_cancel₀ _ hm.ne']
        by_cases h0 : 0 ≤ Q.z
        · simp [h0, abs_of_nonneg h0]
        · simp [h0, abs_of_neg (not_le.mp h0)]
      rw [this, hr _ hz.1]
    have eA : (fun i j => round2 (d.A i j * magnitude)) = Q.A := by
      funext i j; exact hr _ (hA i j).1
    have eb : (fun i => round2 (d.b i * magnitude)) = Q.b := by
      funext i; exact hr _ (hb i).1
    have ec : (fun j => round2 (d.c j * magnitude)) = Q.c := by
      funext j; exact hr _ (hc j).1
    have ez : round2 (d.z * magnitude * (if d.zSign then 1 else -1)) = Q.z := hzz
    unfold drawn
    rw [hf, hn, eA, eb, ec, ez, show d.ineq = Q.ineq from rfl, show d.objective = Q.objective from rfl, ← hQ.sef]
  rw [e]

/-- The hypotheses of `C56_reached` hold for `min 0.5 x s.t. 0.25 x >= 1.5, x free`. -/
example : ∃ d : Draws 1 1, random 1 1 100 d =
    .ok ⟨1, 1, ⟨!![1 / 4], ![3 / 2], ![1 / 2], 0, .min, fun _ => .ge, [0], [], false⟩⟩ := by
  obtain ⟨d, -, -, -, -, -, h⟩ := C56_reached 1 1 (magnitude := 100) (by norm_num)
    ⟨!![1 / 4], ![3 / 2], ![1 / 2], 0, .min, fun _ => .ge, [0], [], false⟩
    ⟨by decide, by decide, by decide, by decide, by decide, by decide⟩
    (fun i j => ⟨⟨25, by fin_cases i; fin_cases j; norm_num⟩, by fin_cases i; fin_cases j; norm_num⟩)
    (fun i => ⟨⟨150, by fin_cases i; norm_num⟩, by fin_cases i; norm_num⟩)
    (fun j => ⟨⟨50, by fin_cases j; norm_num⟩, by fin_cases j; norm_num⟩) ⟨⟨0, by norm_num⟩, by norm_num⟩
  exact ⟨d, h⟩

/-! ### C57 -/

/-- Specification: the sides of the drawn region, the rows of the program and the four sides of the box. -/
def IsSide (P : LP m 2) (limit : ℚ) (l : Line) : Prop :=
  (∃ i, l = ⟨P.A i 0, P.A i 1, P.b i, P.ineq i⟩) ∨ l = ⟨1, 0, |limit|, .le⟩ ∨ l = ⟨1, 0, -|limit|, .ge⟩ ∨
    l = ⟨0, 1, |limit|, .le⟩ ∨ l = ⟨0, 1, -|limit|, .ge⟩

/-- Specification: `p` is the only common point of two lines. -/
def Cross (l k : Line) (p : ℚ × ℚ) : Prop :=
  ∀ q : ℚ × ℚ, (l.a₁ * q.1 + l.a₂ * q.2 = l.b ∧ k.a₁ * q.1 + k.a₂ * q.2 = k.b) ↔ q = p

/-- Specification: `p` is on the right side of the line. -/
def Within (l : Line) (p : ℚ × ℚ) : Prop := rowHolds l.op (l.a₁ * p.1 + l.a₂ * p.2) l.b

/-- `p` is on the right side of the line, or on the wrong side by a relative error of at most `1e-9`. -/
def AlmostWithin (l : Line) (p : ℚ × ℚ) : Prop :=
  Within l p ∨ |l.a₁ * p.1 + l.a₂ * p.2 - l.b| ≤ 1 / 10 ^ 9 * max |l.a₁ * p.1 + l.a₂ * p.2| |l.b|

theorem Cross.symm {l k : Line} {p : ℚ × ℚ} (h : Cross l k p) : Cross k l p := fun q => by
  rw [← h q, and_comm]

theorem not_cross_of_det {l k : Line} (h : l.a₁ * k.a₂ - l.a₂ * k.a₁ = 0) (p : ℚ × ℚ) : ¬ Cross l k p := by
  intro hp
  obtain ⟨h1, h2⟩ := (hp p).mpr rfl
  have e : ∀ u v : ℚ, l.a₁ * u + l.a₂ * v = 0 → k.a₁ * u + k.a₂ * v = 0 → u = 0 ∧ v = 0 := by
    intro u v hu hv
    have := (hp (p.1 + u, p.2 + v)).mp ⟨by simp only; linarith, by simp only; linarith⟩
    have e1 := congrArg Prod.fst this
    have e2 := congrArg Prod.snd this
    simp only at e1 e2
    exact ⟨by linarith, by linarith⟩
  obtain ⟨a1, a2⟩ := e (l.a₂) (-l.a₁) (by ring) (by linarith)
  obtain ⟨a3, a4⟩ := e (k.a₂) (-k.a₁) (by linarith) (by ring)
  have b1 : l.a₁ = 0 := by linarith
  have b2 : k.a₁ = 0 := by linarith
  have := (e 1 0 (by rw [b1, a1]; ring) (by rw [b2, a3]; ring)).1
  exact absurd this one_ne_zero

theorem cross_of_det {l k : Line} (h : l.a₁ * k.a₂ - l.a₂ * k.a₁ ≠ 0) :
    Cross l k ((l.b * k.a₂ - l.a₂ * k.b) / (l.a₁ * k.a₂ - l.a₂ * k.a₁),
      (l.a₁ * k.b - l.b * k.a₁) / (l.a₁ * k.a₂ - l.a₂ * k.a₁)) := by
  intro q
  constructor
  · rintro ⟨h1, h2⟩
    refine Prod.ext ?_ ?_
    · simp only
      rw [eq_div_iff h, ← h1, ← h2]
      ring
    · simp only
      rw [eq_div_iff h, ← h1, ← h2]
      ring
  · rintro rfl
    simp only
    constructor
    · rw [mul_div_assoc', mul_div_assoc', ← add_div, div_eq_iff h]
      ring
    · rw [mul_div_assoc', mul_div_assoc', ← add_div, div_eq_iff h]
      ring

/-- A line with integer coefficients. -/
def IntLine (l : Line) : Prop := ∃ a b c : ℤ, l.a₁ = a ∧ l.a₂ = b ∧ l.b = c

/-- Two lines that are parallel only if both are horizontal or both are vertical (or degenerate). -/
def Good (l k : Line) : Prop :=
  l.a₁ * k.a₂ - l.a₂ * k.a₁ = 0 → (l.a₁ = 0 ∧ k.a₁ = 0) ∨ (l.a₂ = 0 ∧ k.a₂ = 0)

theorem truncate_int (z : ℤ) : truncate (z : ℚ) = z := by
  unfold truncate
  rw [Int.floor_intCast, Int.ceil_intCast]
  split <;> rfl

theorem meet_spec {l k : Line} (hl : IntLine l) (hk : IntLine k) (hg : Good l k) :
    ∃ o, meet l k = .ok o ∧ ∀ p, p ∈ o.toList ↔ Cross l k p := by
  obtain ⟨a, b, e, h1, h2, h3⟩ := hl
  obtain ⟨c, d, f, h4, h5, h6⟩ := hk
  have t : truncate l.a₁ = l.a₁ ∧ truncate l.a₂ = l.a₂ ∧ truncate l.b = l.b ∧ truncate k.a₁ = k.a₁ ∧
      truncate k.a₂ = k.a₂ ∧ truncate k.b = k.b := by
    rw [h1, h2, h3, h4, h5, h6]
    simp only [truncate_int, and_self]
  obtain ⟨t1, t2, t3, t4, t5, t6⟩ := t
  unfold meet
  simp only [t1, t2, t3, t4, t5, t6]
  by_cases c1 : l.a₁ = 0 ∧ k.a₁ = 0
  · refine ⟨none, by rw [if_pos c1], fun p => ?_⟩
    simp [not_cross_of_det (l := l) (k := k) (by rw [c1.1, c1.2]; ring)]
  · rw [if_neg c1]
    by_cases c2 : l.a₂ = 0 ∧ k.a₂ = 0
    · refine ⟨none, by rw [if_pos c2], fun p => ?_⟩
      simp [not_cross_of_det (l := l) (k := k) (by rw [c2.1, c2.2]; ring)]
    · rw [if_neg c2]
      have c3 : l.a₁ * k.a₂ - l.a₂ * k.a₁ ≠ 0 := by
        intro h
        rcases hg h with h | h
        · exact c1 h
        · exact c2 h
      rw [if_neg c3]
      refine ⟨_, rfl, fun p => ?_⟩
      have hc := cross_of_det c3
      simp only [Option.toList_some, List.mem_singleton]
      constructor
      · rintro rfl; exact hc
      · intro hp
        exact (hc p).mp ((hp p).mpr rfl)

theorem meetAll_spec {l : Line} {ks : List Line} (hl : IntLine l) (hk : ∀ k ∈ ks, IntLine k ∧ Good l k) :
    ∃ ps, meetAll l ks = .ok ps ∧ ∀ p, p ∈ ps ↔ ∃ k ∈ ks, Cross l k p := by
  induction ks with
  | nil => exact ⟨[], rfl, by simp⟩
  | cons k ks ih =>
    obtain ⟨ps, h1, h2⟩ := ih fun k hk' => hk k (List.mem_cons_of_mem _ hk')
    obtain ⟨hi, hg⟩ := hk k List.mem_cons_self
    obtain ⟨o, h3, h4⟩ := meet_spec hl hi hg
    refine ⟨o.toList ++ ps, by simp only [meetAll, h1, h3], fun p => ?_⟩
    rw [List.mem_append, h2, h4]
    simp

theorem allMeets_spec {ls : List Line} (hi : ∀ l ∈ ls, IntLine l) (hg : ls.Pairwise Good) :
    ∃ ps, allMeets ls = .ok ps ∧ ∀ p, p ∈ ps ↔ ∃ l ∈ ls, ∃ k ∈ ls, Cross l k p := by
  induction ls with
  | nil => exact ⟨[], rfl, by simp⟩
  | cons l ls ih =>
    rw [List.pairwise_cons] at hg
    obtain ⟨ps, h1, h2⟩ := ih (fun k hk => hi k (List.mem_cons_of_mem _ hk)) hg.2
    obtain ⟨qs, h3, h4⟩ := meetAll_spec (hi l List.mem_cons_self) fun k hk =>
      ⟨hi k (List.mem_cons_of_mem _ hk), hg.1 k hk⟩
    refine ⟨qs ++ ps, by simp only [allMeets, h1, h3], fun p => ?_⟩
    rw [List.mem_append, h2, h4]
    constructor
    · rintro (⟨k, hk, hc⟩ | ⟨a, ha, b, hb, hc⟩)
      · exact ⟨l, List.mem_cons_self, k, List.mem_cons_of_mem _ hk, hc⟩
      · exact ⟨a, List.mem_cons_of_mem _ ha, b, List.mem_cons_of_mem _ hb, hc⟩
    · rintro ⟨a, ha, b, hb, hc⟩
      rcases List.mem_cons.mp ha with rfl | ha
      · rcases List.mem_cons.mp hb with rfl | hb
        · exact absurd hc (not_cross_of_det (by ring) p)
        · exact Or.inl ⟨b, hb, hc⟩
      · rcases List.mem_cons.mp hb with rfl | hb
        · exact Or.inl ⟨_, by assumption, hc.symm⟩
        · exact Or.inr ⟨a, ha, b, hb, hc⟩

theorem mem_graphLines {P : LP m 2} {limit : ℚ} {l : Line} :
    l ∈ graphLines P limit ↔ IsSide P limit l := by
  simp only [graphLines, List.mem_append, List.mem_ofFn, List.mem_cons, List.not_mem_nil, or_false, IsSide,
    eq_comm]

theorem lineOk_iff {l : Line} {p : ℚ × ℚ} (h : l.op ≠ .eq) : lineOk p l = true ↔ AlmostWithin l p := by
  unfold lineOk AlmostWithin Within rowHolds mathIsClose
  simp only [mul_comm p.1, mul_comm p.2]
  cases hop : l.op with
  | eq => exact absurd hop h
  | le => simp only [Bool.not_eq_true', Bool.and_eq_false_iff, decide_eq_false_iff_not, not_lt,
      Bool.not_eq_false', decide_eq_true_eq]
  | ge => simp only [Bool.not_eq_true', Bool.and_eq_false_iff, decide_eq_false_iff_not, not_lt,
      Bool.not_eq_false', decide_eq_true_eq]

/-- C57: for a two-variable program with integer data in which parallel rows are axis-parallel, and all
operators `<=` or all `>=`, the points drawn are exactly the crossings of two sides that satisfy every side
(up to a relative error of `1e-9`), and the program is left as it was; if there is no such crossing the
interpreter exits. Missing: fractional data (`C57_fraction_wrong`), parallel rows (`C57_parallel_wrong`) and
the clean-up before exiting (`C57_exit_wrong`). -/
theorem C57_points_partial (P : LP m 2) (limit : ℚ)
    (hops : (∀ i, P.ineq i = .le) ∨ ∀ i, P.ineq i = .ge)
    (hA : ∀ i j, ∃ z : ℤ, P.A i j = z) (hb : ∀ i, ∃ z : ℤ, P.b i = z) (hl : ∃ z : ℤ, limit = z)
    (hpar : ∀ i j, i ≠ j → P.A i 0 * P.A j 1 = P.A i 1 * P.A j 0 →
      (P.A i 0 = 0 ∧ P.A j 0 = 0) ∨ (P.A i 1 = 0 ∧ P.A j 1 = 0)) :
    (∃ pts, graphPolyhedron P limit = (.ok pts, List.ofFn P.ineq) ∧ pts ≠ [] ∧
      ∀ p, p ∈ pts ↔ (∃ l k, IsSide P limit l ∧ IsSide P limit k ∧ Cross l k p) ∧
        ∀ l, IsSide P limit l → AlmostWithin l p) ∨
    ((graphPolyhedron P limit).1 = .error .systemExit ∧
      ¬ ∃ p, (∃ l k, IsSide P limit l ∧ IsSide P limit k ∧ Cross l k p) ∧
        ∀ l, IsSide P limit l → AlmostWithin l p) := by
  have hint : ∀ l ∈ graphLines P limit, IntLine l := by
    intro l hm
    obtain ⟨z, rfl⟩ := hl
    rcases mem_graphLines.mp hm with ⟨i, rfl⟩ | rfl | rfl | rfl | rfl
    · obtain ⟨a, ha⟩ := hA i 0
      obtain ⟨b, hb'⟩ := hA i 1
      obtain ⟨c, hc⟩ := hb i
      exact ⟨a, b, c, ha, hb', hc⟩
    · exact ⟨1, 0, |z|, by simp, by simp, by simp⟩
    · exact ⟨1, 0, -|z|, by simp, by simp, by simp⟩
    · exact ⟨0, 1, |z|, by simp, by simp, by simp⟩
    · exact ⟨0, 1, -|z|, by simp, by simp, by simp⟩
  have hgood : (graphLines P limit).Pairwise Good := by
    rw [graphLines, List.pairwise_append]
    refine ⟨?_, ?_, ?_⟩
    · rw [List.pairwise_ofFn]
      intro i j hij hd
      exact hpar i j (ne_of_lt hij) (by simp only at hd; linarith)
    · simp [Good]
    · intro l hl k hk
      obtain ⟨i, rfl⟩ := List.mem_ofFn.mp hl
      simp only [List.mem_cons, List.not_mem_nil, or_false] at hk
      rcases hk with rfl | rfl | rfl | rfl
      all_goals
        intro hd
        simp only [mul_one, mul_zero, zero_sub, neg_eq_zero, sub_zero] at hd
        simp [hd]
  have hne : ∀ l ∈ graphLines P limit, l.op ≠ .eq := by
    intro l hm
    rcases mem_graphLines.mp hm with ⟨i, rfl⟩ | rfl | rfl | rfl | rfl
    · rcases hops with h | h <;> simp [h i]
    all_goals simp
  obtain ⟨ps, h1, h2⟩ := allMeets_spec hint hgood
  have hspec : ∀ p, p ∈ (ps.filter fun p => (graphLines P limit).all fun l => lineOk p l) ↔
      (∃ l k, IsSide P limit l ∧ IsSide P limit k ∧ Cross l k p) ∧
        ∀ l, IsSide P limit l → AlmostWithin l p := by
    intro p
    rw [List.mem_filter, h2, List.all_eq_true]
    constructor
    · rintro ⟨⟨l, hl, k, hk, hc⟩, ha⟩
      exact ⟨⟨l, k, mem_graphLines.mp hl, mem_graphLines.mp hk, hc⟩, fun l hl =>
        (lineOk_iff (hne l (mem_graphLines.mpr hl))).mp (ha l (mem_graphLines.mpr hl))⟩
    · rintro ⟨⟨l, k, hl, hk, hc⟩, ha⟩
      exact ⟨⟨l, mem_graphLines.mpr hl, k, mem_graphLines.mpr hk, hc⟩, fun l hl =>
        (lineOk_iff (hne l hl)).mpr (ha l (mem_graphLines.mp hl))⟩
  have g1 : ((List.ofFn P.ineq).all fun q => decide (q ≠ .eq)) = true := by
    rw [List.all_eq_true]
    intro q hq
    obtain ⟨i, rfl⟩ := List.mem_ofFn.mp hq
    rcases hops with h | h <;> simp [h i]
  have g2 : (!((List.ofFn P.ineq).all fun q => decide (q = .le)) &&
      !((List.ofFn P.ineq).all fun q => decide (q = .ge))) = false := by
    rw [Bool.and_eq_false_iff, Bool.not_eq_false', Bool.not_eq_false', List.all_eq_true, List.all_eq_true]
    refine hops.imp (fun h q hq => ?_) (fun h q hq => ?_)
    · obtain ⟨i, rfl⟩ := List.mem_ofFn.mp hq
      simp [h i]
    · obtain ⟨i, rfl⟩ := List.mem_ofFn.mp hq
      simp [h i]
  have hrun : graphPolyhedron P limit =
      match ps.filter fun p => (graphLines P limit).all fun l => lineOk p l with
      | [] => (.error .systemExit, List.ofFn P.ineq ++ [.le, .ge, .le, .ge])
      | pts => (.ok pts, List.ofFn P.ineq) := by
    unfold graphPolyhedron
    simp only [dite_true, g1, g2, Bool.not_true, Bool.false_eq_true, if_false, h1]
    rfl
  generalize (ps.filter fun p => (graphLines P limit).all fun l => lineOk p l) = qs at hspec hrun
  match qs, hspec, hrun with
  | [], hspec, hrun =>
    right
    rw [hrun]
    refine ⟨rfl, fun ⟨p, hp⟩ => ?_⟩
    exact absurd ((hspec p).mpr hp) (by simp)
  | q :: qs, hspec, hrun =>
    left
    exact ⟨q :: qs, hrun, by simp, hspec⟩

/-- A vertex of the region is always drawn. -/
theorem Within.almost {l : Line} {p : ℚ × ℚ} (h : Within l p) : AlmostWithin l p := Or.inl h

/-- The hypotheses of `C57_points_partial` hold for `x + y <= 4, x - y <= 2`. -/
example : ∃ P : LP 2 2, (∀ i, P.ineq i = .le) ∧ (∀ i j, ∃ z : ℤ, P.A i j = z) ∧
    (∀ i, ∃ z : ℤ, P.b i = z) ∧ (∀ i j, i ≠ j → P.A i 0 * P.A j 1 = P.A i 1 * P.A j 0 →
      (P.A i 0 = 0 ∧ P.A j 0 = 0) ∨ (P.A i 1 = 0 ∧ P.A j 1 = 0)) ∧
    (graphPolyhedron P 10).1 = .ok [(3, 1), (-6, 10), (-8, -10), (-10, 10), (-10, -10)] := by
  refine ⟨⟨!![1, 1; 1, -1], ![4, 2], ![0, 0], 0, .max, fun _ => .le, [], [], false⟩, fun _ => rfl, ?_, ?_, ?_,
    by decide +kernel⟩
  · intro i j
    fin_cases i <;> fin_cases j
    exacts [⟨1, by simp⟩, ⟨1, by simp⟩, ⟨1, by simp⟩, ⟨-1, by simp⟩]
  · intro i
    fin_cases i
    exacts [⟨4, by simp⟩, ⟨2, by simp⟩]
  · decide +kernel

/-- `x <= 1/2`. -/
def halfProg : LP 1 2 := ⟨!![1, 0], ![1 / 2], ![0, 0], 0, .max, fun _ => .le, [], [], false⟩

/-- C57 is false for fractional data: for `x <= 1/2` the drawn points are those of `x <= 0`; the vertex
`(1/2, 10)` is missing and `(0, 10)` is not a crossing of two sides. -/
theorem C57_fraction_wrong :
    WF halfProg ∧
      (∃ pts, (graphPolyhedron halfProg 10).1 = .ok pts ∧ (1 / 2, 10) ∉ pts ∧ (0, 10) ∈ pts) ∧
      Cross ⟨1, 0, 1 / 2, .le⟩ ⟨0, 1, 10, .le⟩ (1 / 2, 10) ∧
      IsSide halfProg 10 ⟨1, 0, 1 / 2, .le⟩ ∧ IsSide halfProg 10 ⟨0, 1, 10, .le⟩ ∧
      ¬ ∃ l k, IsSide halfProg 10 l ∧ IsSide halfProg 10 k ∧ Cross l k (0, 10) := by
  refine ⟨⟨by decide, by decide, by decide, by decide, by decide, by decide⟩,
    ⟨[(0, 10), (0, -10), (-10, 10), (-10, -10)], by decide +kernel, by decide +kernel, by decide +kernel⟩,
    ?_, Or.inl ⟨0, rfl⟩, Or.inr (Or.inr (Or.inr (Or.inl ?_))), ?_⟩
  · have := cross_of_det (l := ⟨1, 0, 1 / 2, .le⟩) (k := ⟨0, 1, 10, .le⟩) (by norm_num)
    norm_num at this ⊢
    exact this
  · norm_num [abs_of_pos]
  · have hx : ∀ l, IsSide halfProg 10 l → l.a₁ * 0 + l.a₂ * 10 = l.b → l.a₁ = 0 := by
      rintro l (⟨i, rfl⟩ | rfl | rfl | rfl | rfl) h
      · fin_cases i
        norm_num [halfProg] at h
      · norm_num at h
      · norm_num at h
      · rfl
      · rfl
    rintro ⟨l, k, hl, hk, hc⟩
    obtain ⟨h1, h2⟩ := (hc (0, 10)).mpr rfl
    exact not_cross_of_det (by rw [hx l hl h1, hx k hk h2]; ring) _ hc

/-- C57 is false for parallel rows: `x + y <= 1, x + y <= 2` raises `LinAlgError`, and four extra operators
stay in the program. -/
theorem C57_parallel_wrong :
    graphPolyhedron (⟨!![1, 1; 1, 1], ![1, 2], ![0, 0], 0, .max, fun _ => .le, [], [], false⟩ : LP 2 2) 10 =
      (.error .linAlgError, [.le, .le, .le, .ge, .le, .ge]) := by
  decide +kernel

/-- C57 is false when nothing is to be drawn: `x <= -20` within the box of size `10` exits the interpreter,
and four extra operators stay in the program. -/
theorem C57_exit_wrong :
    graphPolyhedron (⟨!![1, 0], ![-20], ![0, 0], 0, .max, fun _ => .le, [], [], false⟩ : LP 1 2) 10 =
      (.error .systemExit, [.le, .le, .ge, .le, .ge]) := by
  decide +kernel

end Props
end Pytimize
