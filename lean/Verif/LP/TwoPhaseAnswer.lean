/-
What an answer of `two_phase_simplex` looks like, and when there is one.
-/
import Verif.LP.TwoPhaseProof

namespace Pytimize
namespace LinProg
open Comparator

variable {m n : ℕ}

/-! ### Completing the support -/

theorem take_ofFn (x : Fin (n + m) → ℚ) :
    (List.ofFn x).take n = List.ofFn fun j : Fin n => x (Fin.castAdd m j) := by
  apply List.ext_getElem
  · simp
  · intro i h1 h2
    simp [Fin.castAdd, Fin.castLE]

theorem mem_indicesWhere {v : Fin n → ℚ} {keep : ℚ → Bool} {z : ℤ} :
    z ∈ indicesWhere (List.ofFn v) keep ↔ ∃ j : Fin n, keep (v j) = true ∧ z = ((j : ℕ) : ℤ) + 1 := by
  unfold indicesWhere
  rw [List.mem_map]
  constructor
  · rintro ⟨i, hi, rfl⟩
    rw [List.mem_filter, List.mem_range, List.length_ofFn] at hi
    refine ⟨⟨i, hi.1⟩, ?_, rfl⟩
    have h2 := hi.2
    rw [List.getD_eq_getElem?_getD, List.getElem?_ofFn, dif_pos hi.1] at h2
    exact h2
  · rintro ⟨j, hj, rfl⟩
    refine ⟨j, ?_, rfl⟩
    rw [List.mem_filter, List.mem_range, List.length_ofFn]
    refine ⟨j.2, ?_⟩
    rw [List.getD_eq_getElem?_getD, List.getElem?_ofFn, dif_pos j.2]
    exact hj

theorem nodup_indicesWhere (l : List ℚ) (keep : ℚ → Bool) : (indicesWhere l keep).Nodup := by
  unfold indicesWhere
  refine List.Nodup.map (fun a b h => ?_) (List.nodup_range.filter _)
  simp only [add_left_inj, Nat.cast_inj] at h
  exact h

theorem stackSize_seeds (Z K : ℕ) (hK : K ≤ Z) (g : ℕ → List ℤ) :
    stackSize Z ((List.range K).reverse.map fun i => (i, g i)) < 2 ^ (Z + 1) := by
  have h1 := sum_pow Z Z 0 (by omega)
  have h2 : List.range' 0 Z = List.range' 0 K ++ List.range' K (Z - K) := by
    have := List.range'_append (s := 0) (m := K) (n := Z - K) (step := 1)
    rw [show 0 + 1 * K = K by omega, show K + (Z - K) = Z by omega] at this
    exact this.symm
  rw [h2, List.map_append, List.sum_append] at h1
  simp only [stackSize, List.map_map, Function.comp_def, List.map_reverse, List.sum_reverse]
  rw [List.range_eq_range']
  omega

theorem completeBasis_contains {P : LP m n} {v : Fin n → ℚ} {l : List ℤ}
    (h : completeBasis P (List.ofFn v) = .ok l) (j : Fin n) (hj : isCloseToZero (v j) = false) :
    ((j : ℕ) : ℤ) + 1 ∈ l := by
  have hmem : ((j : ℕ) : ℤ) + 1 ∈ indicesWhere (List.ofFn v) fun v => !isCloseToZero v :=
    mem_indicesWhere.mpr ⟨j, by simp [hj], rfl⟩
  unfold completeBasis at h
  dsimp only at h
  by_cases hsz : m ≤ (indicesWhere (List.ofFn v) fun v => !isCloseToZero v).length
  · rw [if_pos hsz] at h; cases h
  · rw [if_neg hsz] at h
    generalize hr : search P _ _ _ _ _ = r at h
    match r, h with
    | .ok (some l'), h =>
      rw [Except.ok.injEq] at h
      subst h
      exact (search_some hr).2 _ hmem
    | .ok none, h =>
      rw [Except.ok.injEq] at h
      subst h
      exact hmem

/-- The search finds a completion whenever there is one. -/
theorem completeBasis_complete {P : LP m n} (hm : 0 < m) {v : Fin n → ℚ} {B : Fin m → Fin n}
    (hB : tol ≤ |(colSel P.A B).det|) (hs : ∀ j, isCloseToZero (v j) = false → ∃ i, B i = j)
    (hlt : (indicesWhere (List.ofFn v) fun v => !isCloseToZero v).length < m) :
    ∃ l, completeBasis P (List.ofFn v) = .ok l ∧ isBasis P l = .ok true := by
  have hn := isBasis_nonsing hB
  set pb := indicesWhere (List.ofFn v) fun v => !isCloseToZero v with hpb
  set zs := indicesWhere (List.ofFn v) isCloseToZero with hzs
  have hlB : isBasis P ((colsList B).map (· + 1)) = .ok true :=
    (isBasis_iff P _).mpr ⟨hm, B, toArrayIndexing_math B, hB⟩
  have hmemB : ∀ j : Fin n, ((j : ℕ) : ℤ) + 1 ∈ (colsList B).map (· + 1) ↔ ∃ i, B i = j := by
    intro j
    rw [List.mem_map]
    constructor
    · rintro ⟨z, hz, hz'⟩
      rw [add_left_inj] at hz'
      subst hz'
      exact mem_colsList'.mp hz
    · intro h
      exact ⟨_, mem_colsList'.mpr h, rfl⟩
  have hBnd : ((colsList B).map (· + 1)).Nodup := by
    refine List.Nodup.map (add_left_injective 1) ?_
    unfold colsList
    rw [List.nodup_ofFn]
    intro a b hab
    simp only [Nat.cast_inj, Fin.val_inj] at hab
    exact hn.inj hab
  have hBrng : ∀ z ∈ (colsList B).map (· + 1), ∃ j : Fin n, z = ((j : ℕ) : ℤ) + 1 := by
    intro z hz
    obtain ⟨y, hy, rfl⟩ := List.mem_map.mp hz
    obtain ⟨i, rfl⟩ := mem_colsList.mp hy
    exact ⟨B i, rfl⟩
  set s := zs.filter fun z => decide (z ∈ (colsList B).map (· + 1)) with hsdef
  have hperm : (pb ++ s).Perm ((colsList B).map (· + 1)) := by
    refine (List.perm_ext_iff_of_nodup ?_ hBnd).mpr fun z => ?_
    · refine List.Nodup.append (nodup_indicesWhere _ _) ((nodup_indicesWhere _ _).filter _) ?_
      intro z h1 h2
      obtain ⟨j, hj, rfl⟩ := mem_indicesWhere.mp h1
      obtain ⟨j', hj', hjj⟩ := mem_indicesWhere.mp (List.mem_filter.mp h2).1
      rw [add_left_inj, Nat.cast_inj, Fin.val_inj] at hjj
      subst hjj
      simp [hj'] at hj
    · rw [List.mem_append]
      constructor
      · rintro (h | h)
        · obtain ⟨j, hj, rfl⟩ := mem_indicesWhere.mp h
          rw [hmemB]
          exact hs j (by simpa using hj)
        · simpa using (List.mem_filter.mp h).2
      · intro h
        obtain ⟨j, rfl⟩ := hBrng z h
        by_cases hj : isCloseToZero (v j) = true
        · exact Or.inr (List.mem_filter.mpr ⟨mem_indicesWhere.mpr ⟨j, hj, rfl⟩, by simpa using h⟩)
        · exact Or.inl (mem_indicesWhere.mpr ⟨j, by simpa using hj, rfl⟩)
  have hbs : isBasis P (pb ++ s) = .ok true := by rw [isBasis_perm P hperm, hlB]
  have hlen : pb.length + s.length = m := by
    have := hperm.length_eq
    rwa [List.length_append, List.length_map, length_colsList] at this
  unfold completeBasis
  dsimp only
  rw [← hpb, ← hzs, if_neg (by omega)]
  have hsub : s.Sublist zs := List.filter_sublist
  obtain ⟨r, hr⟩ := search_terminates P hm pb zs (m - pb.length) (2 ^ (zs.length + 1))
    ((List.range (zs.length + 1 - (m - pb.length))).reverse.map fun i => (i, [zs.getD i 0]))
    (by
      intro p hp
      obtain ⟨i, hi, rfl⟩ := List.mem_map.mp hp
      rw [List.mem_reverse, List.mem_range] at hi
      show i < zs.length
      omega)
    (stackSize_seeds _ _ (by omega) _)
  rw [hr]
  cases r with
  | some l => exact ⟨l, rfl, (search_some hr).1⟩
  | none =>
    exfalso
    have hslen : s.length = m - pb.length := by omega
    have hsz : s.length ≤ zs.length := hsub.length_le
    generalize s = s' at *
    cases s' with
    | nil => simp only [List.length_nil] at hslen; omega
    | cons a t =>
      obtain ⟨j, hj1, hj2, hj3⟩ := sublist_head hsub 0
      have hj4 := hj3.length_le
      rw [List.length_drop] at hj4
      rw [List.length_cons] at hslen
      refine search_none hr ?_ (j, [zs.getD j 0]) ?_ (a :: t) ⟨t, hj3, by rw [hj2]; rfl, by
        rw [List.length_cons]; exact hslen⟩ hbs
      · intro p hp
        obtain ⟨i, hi, rfl⟩ := List.mem_map.mp hp
        rw [List.length_singleton]
        omega
      · refine List.mem_map.mpr ⟨j, ?_, rfl⟩
        rw [List.mem_reverse, List.mem_range]
        omega

/-! ### Answers -/

/-- The certificate computed from the auxiliary program is the multiplier of the auxiliary program
with its original row signs. -/
theorem dualCert_aux (P : LP m n) (D : Fin m → Fin (n + m)) :
    dualCert (auxSef P) (negRows P) D = mult (flipRows (negRows P) (auxSef P)) D := by
  rw [← dualCert_eq, flipRows_twice]

/-- The two ways in which `two_phase_simplex` gets to an answer. -/
theorem twoPhase_ok {fuel : ℕ} {P : LP m n} {a : Answer m n} (h : (twoPhase fuel P).1 = .ok a) :
    P.isSef = true ∧ 0 < m ∧ (twoPhase fuel P).2 = P ∧ ∃ D : Fin m → Fin (n + m),
      tol ≤ |(colSel (auxSef P).A D).det| ∧
      (∀ j, (∀ i, D i ≠ j) → (canon (auxSef P) D).c j < tol) ∧ (∀ j, -tol < sol (auxSef P) D j) ∧
      ((isCloseToZero (objVal (auxSef P) (sol (auxSef P) D)) = true ∧
        ∃ l, (simplex fuel P l).1 = .ok a ∧ (l = (colsList D).map (· + 1) ∨
          ∀ j : Fin n, isCloseToZero (sol (auxSef P) D (Fin.castAdd m j)) = false → ((j : ℕ) : ℤ) + 1 ∈ l)) ∨
       (isCloseToZero (objVal (auxSef P) (sol (auxSef P) D)) = false ∧
        a = .infeasible (mult (flipRows (negRows P) (auxSef P)) D))) := by
  unfold twoPhase at h ⊢
  by_cases hs : P.isSef = true
  swap
  · rw [Bool.not_eq_true] at hs
    simp [hs] at h
  rw [toSef_aux] at h ⊢
  simp only [hs, Bool.not_true, Bool.false_eq_true, if_false] at h ⊢
  refine ⟨trivial, ?_⟩
  unfold twoPhaseWith at h ⊢
  dsimp only at h ⊢
  generalize hsim : (simplex fuel (auxSef P) ((List.range m).map fun i : ℕ => (n : ℤ) + i + 1)).1 = r at h ⊢
  match r, h with
  | .ok (.optimal x l y), h =>
    obtain ⟨hm, -, D, hmono, hd, rfl, rfl, -, hc, hx⟩ := simplex_optimal hsim
    have hobj : (auxSef P).c ⬝ᵥ sol (auxSef P) D + (auxSef P).z = objVal (auxSef P) (sol (auxSef P) D) := rfl
    simp only [hobj] at h ⊢
    by_cases hv : isCloseToZero (objVal (auxSef P) (sol (auxSef P) D)) = true
    · simp only [hv, if_true] at h ⊢
      cases hb : isBasis P ((colsList D).map (· + 1)) with
      | error e => simp [hb] at h
      | ok b =>
        cases b with
        | true =>
          simp only [hb] at h ⊢
          exact ⟨hm, (simplex_sef h).2.2, D, hd, hc, hx, Or.inl ⟨hv, _, h, Or.inl rfl⟩⟩
        | false =>
          simp only [hb, take_ofFn] at h ⊢
          cases hcb : completeBasis P (List.ofFn fun j : Fin n => sol (auxSef P) D (Fin.castAdd m j)) with
          | error e => simp [hcb] at h
          | ok l' =>
            simp only [hcb] at h ⊢
            exact ⟨hm, (simplex_sef h).2.2, D, hd, hc, hx,
              Or.inl ⟨hv, l', h, Or.inr fun j hj => completeBasis_contains hcb j hj⟩⟩
    · simp only [hv, Bool.false_eq_true, if_false, toArrayIndexing_math, toCols_colsList, Except.ok.injEq] at h ⊢
      rw [dualCert_aux] at h
      exact ⟨hm, trivial, D, hd, hc, hx, Or.inr ⟨by simpa using hv, h.symm⟩⟩

/-- The artificial variables vanish when their sum is below the tolerance. -/
theorem aux_art_zero {P : LP m n} (he : Exact (auxSef P)) {D : Fin m → Fin (n + m)}
    (hd : Nonsing (auxSef P) D) (hx : ∀ j, -tol < sol (auxSef P) D j)
    (hv : isCloseToZero (objVal (auxSef P) (sol (auxSef P) D)) = true) :
    (∀ j, 0 ≤ sol (auxSef P) D j) ∧ ∀ k : Fin m, sol (auxSef P) D (Fin.natAdd n k) = 0 := by
  have hnn : ∀ j, 0 ≤ sol (auxSef P) D j := by
    intro j
    by_cases hj : ∃ i, D i = j
    · obtain ⟨i, rfl⟩ := hj
      have := hx (D i)
      rw [sol_apply hd] at this ⊢
      exact he.rhs_nonneg hd this
    · push Not at hj
      rw [sol_off hd hj]
  refine ⟨hnn, fun k => ?_⟩
  rw [isCloseToZero_iff, aux_obj, abs_neg, abs_of_nonneg (Finset.sum_nonneg fun k _ => hnn _)] at hv
  have h1 : sol (auxSef P) D (Fin.natAdd n k) < tol :=
    lt_of_le_of_lt (Finset.single_le_sum (f := fun k => sol (auxSef P) D (Fin.natAdd n k))
      (fun k _ => hnn _) (Finset.mem_univ k)) hv
  by_cases hj : ∃ i, D i = Fin.natAdd n k
  · obtain ⟨i, hi⟩ := hj
    have h2 := hnn (Fin.natAdd n k)
    rw [← hi, sol_apply hd] at h1 h2 ⊢
    rcases he.rhsPos D hd i with h3 | h3
    · exact le_antisymm h3 h2
    · linarith
  · push Not at hj
    exact sol_off hd hj

/-- The first phase finds a solution of the program supported on independent columns. -/
theorem aux_solution {P : LP m n} (he : Exact (auxSef P)) {D : Fin m → Fin (n + m)}
    (hd : Nonsing (auxSef P) D) (hx : ∀ j, -tol < sol (auxSef P) D j)
    (hv : isCloseToZero (objVal (auxSef P) (sol (auxSef P) D)) = true) :
    P.A.mulVec (fun j => sol (auxSef P) D (Fin.castAdd m j)) = P.b ∧
      (∀ j : Fin n, 0 ≤ sol (auxSef P) D (Fin.castAdd m j)) ∧
      (∀ j : Fin n, isCloseToZero (sol (auxSef P) D (Fin.castAdd m j)) = true →
        sol (auxSef P) D (Fin.castAdd m j) = 0) := by
  obtain ⟨h1, h2⟩ := aux_art_zero he hd hx hv
  refine ⟨(aux_eq_iff P _ h2).mp (sol_eq hd), fun j => h1 _, fun j hj => ?_⟩
  rw [isCloseToZero_iff, abs_of_nonneg (h1 _)] at hj
  by_cases hD : ∃ i, D i = Fin.castAdd m j
  · obtain ⟨i, hi⟩ := hD
    have h3 := h1 (Fin.castAdd m j)
    rw [← hi, sol_apply hd] at hj h3 ⊢
    rcases he.rhsPos D hd i with h4 | h4
    · exact le_antisymm h4 h3
    · linarith
  · push Not at hD
    exact sol_off hd hD

/-- Columns of the program chosen in a nonsingular selection of the auxiliary program are independent. -/
theorem aux_independent {P : LP m n} {D : Fin m → Fin (n + m)} (hd : Nonsing (auxSef P) D) (d : Fin n → ℚ)
    (h : P.A.mulVec d = 0) (h0 : ∀ j, (∀ i, D i ≠ Fin.castAdd m j) → d j = 0) : d = 0 := by
  have hw := ker_unique hd (d := Fin.append d fun _ => 0) (by
    rw [aux_mulVec, flipRows_A, ← Matrix.mulVec_mulVec]
    simp only [Fin.append_left, Fin.append_right]
    rw [show P.A.mulVec (fun j => d j) = 0 from h, Matrix.mulVec_zero, zero_add]
    rfl) (by
    intro j hj
    induction j using Fin.addCases with
    | left j => rw [Fin.append_left]; exact h0 j hj
    | right k => rw [Fin.append_right])
  funext j
  have := congrFun hw (Fin.castAdd m j)
  rwa [Fin.append_left] at this

/-- A list of columns of the auxiliary program that is a basis of the program. -/
theorem cols_of_isBasis {P : LP m n} {D : Fin m → Fin (n + m)} {B : Fin m → Fin n}
    (h : toArrayIndexing ((colsList D).map (· + 1)) = colsList B) (i : Fin m) : D i = Fin.castAdd m (B i) := by
  rw [toArrayIndexing_math] at h
  unfold colsList at h
  have := congrFun (List.ofFn_injective h) i
  simp only [Nat.cast_inj] at this
  exact Fin.ext this

/-- The second phase starts from a feasible basis. -/
theorem second_start {P : LP m n} (he : Exact (auxSef P)) {D : Fin m → Fin (n + m)}
    (hd : Nonsing (auxSef P) D) (hx : ∀ j, -tol < sol (auxSef P) D j)
    (hv : isCloseToZero (objVal (auxSef P) (sol (auxSef P) D)) = true) {l : List ℤ}
    (hl : l = (colsList D).map (· + 1) ∨
      ∀ j : Fin n, isCloseToZero (sol (auxSef P) D (Fin.castAdd m j)) = false → ((j : ℕ) : ℤ) + 1 ∈ l)
    {B : Fin m → Fin n} (hB : toArrayIndexing l = colsList B) (hn : Nonsing P B) : FeasBasis P B := by
  obtain ⟨h1, h2, h3⟩ := aux_solution he hd hx hv
  refine feasBasis_of_support hn h1 h2 fun j hj => ?_
  rcases hl with rfl | hl
  · by_contra hno
    refine hj (sol_off hd fun i hi => hno ⟨i, ?_⟩)
    have := cols_of_isBasis (P := P) hB i
    rw [this] at hi
    exact Fin.castAdd_injective _ _ hi
  · have := hl j (by
      by_contra hc
      exact hj (h3 j (by simpa using hc)))
    have h4 : ((j : ℕ) : ℤ) ∈ toArrayIndexing l := List.mem_map.mpr ⟨_, this, by ring⟩
    rw [hB] at h4
    exact mem_colsList'.mp h4

end LinProg
end Pytimize
