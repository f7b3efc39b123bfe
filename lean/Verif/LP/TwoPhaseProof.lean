/-
Lemmas on the auxiliary program, the completion of a support to a basis and the search for it.
-/
import Verif.LP.TwoPhase
import Verif.LP.SimplexAnswer

namespace Pytimize
namespace LinProg
open Comparator

variable {m n : ℕ}

/-! ### The auxiliary program -/

/-- The auxiliary program in SEF. -/
def auxSef (P : LP m n) : LP m (n + m) :=
  { auxLp P with c := fun j => -(auxLp P).c j, objective := .max, isSef := true }

theorem toSef_aux (P : LP m n) : toSef (auxLp P) = ⟨n + m, auxSef P, some ⟨0, [], []⟩⟩ := by
  have h : sefCols (auxLp P) = colsOf (auxLp P) fun j => -(auxLp P).c j := by
    have h1 : ∀ (l : List (Fin m)) (s : Cols m), l.foldl (addSlack (auxLp P).ineq) s = s := by
      intro l
      induction l with
      | nil => intro s; rfl
      | cons a l ih => intro s; rw [List.foldl_cons, show addSlack (auxLp P).ineq s a = s from rfl, ih]
    unfold sefCols
    simp only [h1]
    rfl
  have h2 : ((List.finRange m).filter fun i => decide ((auxLp P).ineq i ≠ .eq)).length = 0 := by
    simp [auxLp]
  unfold toSef
  rw [if_neg (show ¬ (auxLp P).isSef = true by simp [auxLp]), h2]
  generalize sefCols (auxLp P) = S at h
  subst h
  have e1 : (fun (r : Fin m) (j : Fin (n + m)) => ext ((auxLp P).A r) j) = (auxLp P).A := by
    funext r j; simp [ext]
  have e2 : (fun (j : Fin (n + m)) => ext (fun j => -(auxLp P).c j) j) = fun j => -(auxLp P).c j := by
    funext j; simp [ext]
  simp only [colsOf, e1, e2]
  rfl

/-- The last columns. -/
def artCols (m n : ℕ) : Fin m → Fin (n + m) := Fin.natAdd n

theorem aux_A_left (P : LP m n) (i : Fin m) (j : Fin n) :
    (auxSef P).A i (Fin.castAdd m j) = (flipRows (negRows P) P).A i j := by
  simp [auxSef, auxLp, flipRows]

theorem aux_A_right (P : LP m n) (i k : Fin m) :
    (auxSef P).A i (Fin.natAdd n k) = if i = k then 1 else 0 := by
  simp [auxSef, auxLp]

theorem aux_b (P : LP m n) : (auxSef P).b = (flipRows (negRows P) P).b := rfl

theorem aux_b_nonneg (P : LP m n) (i : Fin m) : 0 ≤ (auxSef P).b i := by
  simp only [auxSef, auxLp, negRows]
  by_cases h : P.b i < 0
  · simp only [h, decide_true, if_true]; linarith
  · simp only [h, decide_false, Bool.false_eq_true, if_false]; linarith

theorem aux_c_left (P : LP m n) (j : Fin n) : (auxSef P).c (Fin.castAdd m j) = 0 := by
  simp [auxSef, auxLp]

theorem aux_c_right (P : LP m n) (k : Fin m) : (auxSef P).c (Fin.natAdd n k) = -1 := by
  simp [auxSef, auxLp]

theorem aux_colSel (P : LP m n) : colSel (auxSef P).A (artCols m n) = 1 := by
  ext i k
  simp only [colSel, artCols, Matrix.submatrix_apply, id_eq, aux_A_right, Matrix.one_apply]

theorem aux_mulVec (P : LP m n) (w : Fin (n + m) → ℚ) :
    (auxSef P).A.mulVec w =
      (flipRows (negRows P) P).A.mulVec (fun j => w (Fin.castAdd m j)) + fun i => w (Fin.natAdd n i) := by
  funext i
  simp only [Matrix.mulVec, dotProduct, Fin.sum_univ_add, Pi.add_apply, aux_A_left, aux_A_right]
  congr 1
  simp

theorem aux_obj (P : LP m n) (w : Fin (n + m) → ℚ) :
    objVal (auxSef P) w = -∑ k : Fin m, w (Fin.natAdd n k) := by
  have hz : (auxSef P).z = 0 := rfl
  simp only [objVal, dotProduct, Fin.sum_univ_add, aux_c_left, aux_c_right, hz]
  simp

theorem aux_wf (P : LP m n) : WF (auxSef P) :=
  ⟨List.Pairwise.nil, List.Pairwise.nil, by simp [auxSef, auxLp], by simp [auxSef, auxLp],
    by simp [auxSef, auxLp], by
      rw [eq_comm]
      show sefFlag _ _ _ _ = true
      rw [sefFlag_iff]
      exact ⟨fun _ => rfl, rfl, rfl, rfl⟩⟩

theorem flip_mulVec (S : Fin m → Bool) (P : LP m n) (x : Fin n → ℚ) :
    (flipRows S P).A.mulVec x = (flipRows S P).b ↔ P.A.mulVec x = P.b := by
  rw [flipRows_A, flipRows_b, ← Matrix.mulVec_mulVec]
  constructor
  · intro h
    have := congrArg ((signs S).mulVec) h
    rwa [Matrix.mulVec_mulVec, Matrix.mulVec_mulVec _ (signs S), signs_sq, Matrix.one_mulVec,
      Matrix.one_mulVec] at this
  · intro h; rw [h]

/-- Every row of the auxiliary program is `±` the row of the program plus the artificial variable. -/
theorem aux_eq_iff (P : LP m n) (w : Fin (n + m) → ℚ) (h : ∀ k : Fin m, w (Fin.natAdd n k) = 0) :
    (auxSef P).A.mulVec w = (auxSef P).b ↔ P.A.mulVec (fun j => w (Fin.castAdd m j)) = P.b := by
  rw [aux_mulVec, aux_b, ← flip_mulVec (negRows P)]
  rw [show (fun i => w (Fin.natAdd n i)) = 0 from funext h, add_zero]

theorem aux_nonsing (P : LP m n) : Nonsing (auxSef P) (artCols m n) := by
  unfold Nonsing
  rw [aux_colSel, Matrix.det_one]
  exact one_ne_zero

theorem aux_feasBasis (P : LP m n) : FeasBasis (auxSef P) (artCols m n) := by
  refine feasBasis_of_rhs (aux_nonsing P) fun i => ?_
  rw [canon_b, aux_colSel, npInv_one, Matrix.one_mulVec]
  exact aux_b_nonneg P i

theorem aux_basis_list (m n : ℕ) :
    toArrayIndexing ((List.range m).map fun i : ℕ => (n : ℤ) + i + 1) = colsList (artCols m n) := by
  unfold toArrayIndexing colsList artCols
  apply List.ext_getElem
  · simp
  · intro i h1 h2
    simp

/-! ### Supports that extend to a basis -/

/-- A set of independent columns is contained in a nonsingular selection, if there is one at all. -/
theorem exists_completion {P : LP m n} (S : Finset (Fin n))
    (hS : ∀ d, P.A.mulVec d = 0 → (∀ j, j ∉ S → d j = 0) → d = 0) :
    ∀ (N : ℕ) (B : Fin m → Fin n), Nonsing P B → (S.filter fun s => ∀ i, B i ≠ s).card ≤ N →
      ∃ B', Nonsing P B' ∧ ∀ s ∈ S, ∃ i, B' i = s := by
  intro N
  induction N with
  | zero =>
    intro B hB hc
    refine ⟨B, hB, fun s hs => ?_⟩
    by_contra hn
    push Not at hn
    have : s ∈ S.filter fun s => ∀ i, B i ≠ s := Finset.mem_filter.mpr ⟨hs, hn⟩
    rw [Finset.card_eq_zero.mp (Nat.le_zero.mp hc)] at this
    simp at this
  | succ N ih =>
    intro B hB hc
    by_cases hall : ∀ s ∈ S, ∃ i, B i = s
    · exact ⟨B, hB, hall⟩
    push Not at hall
    obtain ⟨s, hs, hsB⟩ := hall
    obtain ⟨r, hrS, hr⟩ : ∃ r, B r ∉ S ∧ (canon P B).A r s ≠ 0 := by
      by_contra hno
      push Not at hno
      have hd := hS (rayOf B (canon P B) s) (rayOf_ker hB hsB) fun j hj => by
        by_cases hjB : ∃ i, B i = j
        · obtain ⟨i, rfl⟩ := hjB
          rw [rayOf_basic hB hsB, hno i hj, neg_zero]
        · push Not at hjB
          exact rayOf_off hB hjB fun h => hj (h ▸ hs)
      have := congrFun hd s
      rw [rayOf_self] at this
      exact one_ne_zero this
    have hp : Pivot B r s (Function.update B r s) := by
      intro j
      constructor
      · rintro ⟨i, rfl⟩
        by_cases hir : i = r
        · left; subst hir; simp
        · right
          rw [Function.update_of_ne hir]
          exact ⟨⟨i, rfl⟩, fun h => hir (hB.inj h)⟩
      · rintro (rfl | ⟨⟨i, rfl⟩, hj⟩)
        · exact ⟨r, by simp⟩
        · exact ⟨i, by rw [Function.update_of_ne fun h => hj (by rw [h])]⟩
    refine ih _ (Pivot.nonsing hB hsB hr hp) ?_
    have hlt : (S.filter fun t => ∀ i, Function.update B r s i ≠ t) ⊂ S.filter fun t => ∀ i, B i ≠ t := by
      rw [Finset.ssubset_iff_of_subset]
      · refine ⟨s, Finset.mem_filter.mpr ⟨hs, hsB⟩, fun h => ?_⟩
        exact (Finset.mem_filter.mp h).2 r (by simp)
      · intro t ht
        obtain ⟨ht1, ht2⟩ := Finset.mem_filter.mp ht
        refine Finset.mem_filter.mpr ⟨ht1, fun i hi => ?_⟩
        subst hi
        obtain ⟨i', hi'⟩ := (hp (B i)).mpr (Or.inr ⟨⟨i, rfl⟩, fun h => hrS (h ▸ ht1)⟩)
        exact ht2 i' hi'
    have := Finset.card_lt_card hlt
    omega

/-- A basis that contains the support of a nonnegative solution is feasible. -/
theorem feasBasis_of_support {P : LP m n} {B : Fin m → Fin n} (hB : Nonsing P B) {x : Fin n → ℚ}
    (hx : P.A.mulVec x = P.b) (h0 : ∀ j, 0 ≤ x j) (hs : ∀ j, x j ≠ 0 → ∃ i, B i = j) : FeasBasis P B := by
  refine ⟨hB, ?_⟩
  rw [← sol_unique hB hx fun j hj => ?_]
  · exact h0
  · by_contra hne
    obtain ⟨i, hi⟩ := hs j hne
    exact hj i hi

/-! ### The search -/

theorem isBasis_perm (P : LP m n) {l l' : List ℤ} (h : l.Perm l') : isBasis P l = isBasis P l' := by
  have : sortInt (toArrayIndexing l) = sortInt (toArrayIndexing l') := by
    unfold sortInt
    refine List.Perm.eq_of_pairwise (le := (· ≤ ·)) (fun a b _ _ h1 h2 => le_antisymm h1 h2)
      (List.pairwise_insertionSort _ _) (List.pairwise_insertionSort _ _) ?_
    exact ((List.perm_insertionSort _ _).trans (h.map _)).trans (List.perm_insertionSort _ _).symm
  unfold isBasis
  rw [this]

theorem sortInt_perm (l : List ℤ) : (sortInt l).Perm l := List.perm_insertionSort _ _

/-- The candidates below a node of the search tree. -/
def Below (zs : List ℤ) (size : ℕ) (p : ℕ × List ℤ) (s : List ℤ) : Prop :=
  ∃ t, t.Sublist (zs.drop (p.1 + 1)) ∧ s = p.2 ++ t ∧ s.length = size

theorem sublist_head {α : Type} {a : α} {t l : List α} (h : (a :: t).Sublist l) (d : α) :
    ∃ j, j < l.length ∧ l.getD j d = a ∧ t.Sublist (l.drop (j + 1)) := by
  induction l with
  | nil => cases h
  | cons b l ih =>
    by_cases hab : (a :: t).Sublist l
    · obtain ⟨j, h1, h2, h3⟩ := ih hab
      exact ⟨j + 1, by simpa using h1, by simpa using h2, by simpa using h3⟩
    · cases h with
      | cons _ h => exact absurd h hab
      | cons_cons _ h => exact ⟨0, by simp, by simp, by simpa using h⟩

theorem search_some {P : LP m n} {pb zs : List ℤ} {size : ℕ} :
    ∀ {fuel : ℕ} {st : List (ℕ × List ℤ)} {l : List ℤ}, search P pb zs size fuel st = .ok (some l) →
      isBasis P l = .ok true ∧ ∀ z ∈ pb, z ∈ l := by
  intro fuel
  induction fuel with
  | zero => intro st l h; simp [search] at h
  | succ f ih =>
    intro st l h
    cases st with
    | nil => simp [search] at h
    | cons p rest =>
      unfold search at h
      by_cases hl : p.2.length = size
      · rw [if_pos hl] at h
        cases hb : isBasis P (sortInt (pb ++ p.2)) with
        | error e => simp [hb] at h
        | ok b =>
          cases b with
          | true =>
            simp only [hb, Except.ok.injEq, Option.some.injEq] at h
            subst h
            exact ⟨hb, fun z hz => (sortInt_perm _).mem_iff.mpr (List.mem_append_left _ hz)⟩
          | false => simp only [hb] at h; exact ih h
      · rw [if_neg hl] at h
        exact ih h

theorem search_none {P : LP m n} {pb zs : List ℤ} {size : ℕ} :
    ∀ {fuel : ℕ} {st : List (ℕ × List ℤ)}, search P pb zs size fuel st = .ok none →
      (∀ p ∈ st, p.2.length ≤ size) →
      ∀ p ∈ st, ∀ s, Below zs size p s → isBasis P (pb ++ s) ≠ .ok true := by
  intro fuel
  induction fuel with
  | zero => intro st h; simp [search] at h
  | succ f ih =>
    intro st h hst
    cases st with
    | nil => intro p hp; simp at hp
    | cons q rest =>
      unfold search at h
      by_cases hl : q.2.length = size
      · rw [if_pos hl] at h
        cases hb : isBasis P (sortInt (pb ++ q.2)) with
        | error e => simp [hb] at h
        | ok b =>
          cases b with
          | true => simp [hb] at h
          | false =>
            simp only [hb] at h
            intro p hp s hs
            rcases List.mem_cons.mp hp with rfl | hp
            · obtain ⟨t, -, rfl, h3⟩ := hs
              have ht : t = [] := by
                rw [List.length_append, hl] at h3
                exact List.length_eq_zero_iff.mp (by omega)
              subst ht
              rw [List.append_nil, ← isBasis_perm P (sortInt_perm (pb ++ p.2)), hb]
              simp
            · exact ih h (fun p hp => hst p (List.mem_cons_of_mem _ hp)) p hp s hs
      · rw [if_neg hl] at h
        have hlt : q.2.length < size := lt_of_le_of_ne (hst q (List.mem_cons_self ..)) hl
        have key := ih h (by
          intro p hp
          rcases List.mem_append.mp hp with hp | hp
          · obtain ⟨i, -, rfl⟩ := List.mem_map.mp hp
            simp only [List.length_append, List.length_singleton]
            exact hlt
          · exact hst p (List.mem_cons_of_mem _ hp))
        intro p hp s hs
        rcases List.mem_cons.mp hp with rfl | hp
        · obtain ⟨t, h1, rfl, h3⟩ := hs
          cases t with
          | nil => simp only [List.append_nil] at h3; exact absurd h3 hl
          | cons a t =>
            obtain ⟨j, hj1, hj2, hj3⟩ := sublist_head h1 0
            rw [List.length_drop] at hj1
            refine key (p.1 + 1 + j, p.2 ++ [zs.getD (p.1 + 1 + j) 0]) ?_ _ ⟨t, ?_, ?_, h3⟩
            · refine List.mem_append_left _ (List.mem_map.mpr ⟨p.1 + 1 + j, ?_, rfl⟩)
              rw [List.mem_reverse, List.mem_filter, List.mem_range, decide_eq_true_iff]
              omega
            · rw [List.drop_drop] at hj3
              exact hj3
            · have : zs.getD (p.1 + 1 + j) 0 = a := by
                rw [← hj2, List.getD_eq_getElem?_getD, List.getD_eq_getElem?_getD, List.getElem?_drop]
              rw [this, List.append_assoc, List.singleton_append]
        · exact key p (List.mem_append_right _ hp) s hs

/-- The number of steps below a stack. -/
def stackSize (Z : ℕ) (st : List (ℕ × List ℤ)) : ℕ := (st.map fun p => 2 ^ (Z - p.1)).sum

theorem sum_pow (Z : ℕ) : ∀ (k a : ℕ), a + k = Z →
    ((((List.range' a k)).map fun i => 2 ^ (Z - i)).sum : ℕ) + 2 = 2 ^ (k + 1) := by
  intro k
  induction k with
  | zero => intro a _; simp
  | succ k ih =>
    intro a h
    rw [List.range'_succ, List.map_cons, List.sum_cons, show Z - a = k + 1 by omega]
    have := ih (a + 1) (by omega)
    rw [pow_succ 2 (k + 1)]
    omega

theorem filter_range_lt (Z c : ℕ) (hc : c < Z) :
    ((List.range Z).filter fun i => decide (c < i)) = List.range' (c + 1) (Z - c - 1) := by
  refine List.Perm.eq_of_pairwise (le := (· ≤ ·)) (fun a b _ _ h1 h2 => le_antisymm h1 h2)
    ((List.pairwise_lt_range.imp fun h => le_of_lt h).filter _)
    ((List.pairwise_lt_range' (s := c + 1) (n := Z - c - 1)).imp fun h => le_of_lt h) ?_
  refine (List.perm_ext_iff_of_nodup (List.nodup_range.filter _) List.nodup_range').mpr fun a => ?_
  rw [List.mem_filter, List.mem_range, decide_eq_true_iff, List.mem_range'_1]
  omega

theorem search_terminates (P : LP m n) (hm : 0 < m) (pb zs : List ℤ) (size : ℕ) :
    ∀ (fuel : ℕ) (st : List (ℕ × List ℤ)), (∀ p ∈ st, p.1 < zs.length) → stackSize zs.length st < fuel →
      ∃ r, search P pb zs size fuel st = .ok r := by
  intro fuel
  induction fuel with
  | zero => intro st _ h; omega
  | succ f ih =>
    intro st hst h
    cases st with
    | nil => exact ⟨none, rfl⟩
    | cons p rest =>
      have hp := hst p (List.mem_cons_self ..)
      have hpos : 0 < 2 ^ (zs.length - p.1) := by positivity
      have hsz : stackSize zs.length (p :: rest) = 2 ^ (zs.length - p.1) + stackSize zs.length rest := by
        simp [stackSize]
      unfold search
      by_cases hl : p.2.length = size
      · rw [if_pos hl]
        obtain ⟨b, hb⟩ := isBasis_total P hm (sortInt (pb ++ p.2))
        cases b with
        | true => exact ⟨some (sortInt (pb ++ p.2)), by simp only [hb]⟩
        | false =>
          simp only [hb]
          exact ih rest (fun p hp => hst p (List.mem_cons_of_mem _ hp)) (by omega)
      · rw [if_neg hl]
        refine ih _ ?_ ?_
        · intro q hq
          rcases List.mem_append.mp hq with hq | hq
          · obtain ⟨i, hi, rfl⟩ := List.mem_map.mp hq
            rw [List.mem_reverse, List.mem_filter, List.mem_range] at hi
            exact hi.1
          · exact hst q (List.mem_cons_of_mem _ hq)
        · have : stackSize zs.length ((((List.range zs.length).filter fun i => decide (p.1 < i)).reverse.map
              fun i => (i, p.2 ++ [zs.getD i 0])) ++ rest) + 2
              = 2 ^ (zs.length - p.1) + stackSize zs.length rest := by
            have h1 := sum_pow zs.length (zs.length - p.1 - 1) (p.1 + 1) (by omega)
            rw [show zs.length - p.1 - 1 + 1 = zs.length - p.1 by omega] at h1
            rw [← h1, filter_range_lt _ _ hp]
            simp only [stackSize, List.map_append, List.sum_append, List.map_map, Function.comp_def,
              List.map_reverse, List.sum_reverse]
            omega
          omega

end LinProg
end Pytimize
