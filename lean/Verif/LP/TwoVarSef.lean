/-
Programs with at most two variables per row, coefficients `1` or `-1`, and an upper bound on every variable among
the rows: their SEF and its auxiliary program stay clear of the tolerances, whatever their size.
-/
import Verif.LP.TwoVar

namespace Pytimize
namespace LinProg
open Matrix

variable {m n : ℕ}

/-- A program in SEF with two structural variables per row, and a row bounding each of them. -/
structure SefTwo (P : LP m n) (u : Fin n → Option (Fin m)) (β U : ℕ) : Prop where
  isInt : ∃ N, 0 < N ∧ 2 * N ≤ 10 ^ 10 ∧ IntRows N P
  two : TwoVar P.A u
  rhs : ∀ r, |P.b r| ≤ β
  box : ∀ j, u j = none → ∃ r, P.A r j = 1 ∧ (∀ k, u k = none → k ≠ j → P.A r k = 0) ∧
    (∀ k, u k = some r → 0 ≤ P.A r k) ∧ 0 ≤ P.b r ∧ P.b r ≤ U

theorem SefTwo.bound {P : LP m n} {u : Fin n → Option (Fin m)} {β U : ℕ} (h : SefTwo P u β U)
    {B : Fin m → Fin n} (hB : FeasBasis P B) (j : Fin n) : sol P B j ≤ ((β + 2 * U : ℕ) : ℚ) := by
  classical
  push_cast
  have hβ : (0 : ℚ) ≤ β := Nat.cast_nonneg _
  have hU : (0 : ℚ) ≤ U := Nat.cast_nonneg _
  have hstruct : ∀ j, u j = none → sol P B j ≤ U := by
    intro j hj
    obtain ⟨r, h1, h2, h3, h4, h5⟩ := h.box j hj
    have hr := h.two.row r (sol P B)
    rw [sol_eq hB.ns, Finset.sum_eq_single j] at hr
    · have : 0 ≤ ∑ k ∈ Finset.univ.filter fun k => u k = some r, P.A r k * sol P B k :=
        Finset.sum_nonneg fun k hk => mul_nonneg (h3 k (Finset.mem_filter.mp hk).2) (hB.nonneg k)
      rw [h1, one_mul] at hr
      linarith
    · intro k hk hne
      rw [h2 k (Finset.mem_filter.mp hk).2.1 hne, zero_mul]
    · intro hc
      exact (hc (by simp [hj, h1])).elim
  cases hu : u j with
  | none => have := hstruct j hu; linarith
  | some i =>
    by_cases hk : ∃ k, B k = j
    · have hr := h.two.row i (sol P B)
      rw [sol_eq hB.ns, Finset.sum_eq_single j (s := Finset.univ.filter fun j => u j = some i)] at hr
      · have hs : |∑ k ∈ Finset.univ.filter fun k => u k = none ∧ P.A i k ≠ 0, P.A i k * sol P B k| ≤ 2 * U := by
          refine le_trans (Finset.abs_sum_le_sum_abs _ _) ?_
          refine le_trans (Finset.sum_le_card_nsmul _ _ (U : ℚ) fun k hk => ?_) ?_
          · have hk := (Finset.mem_filter.mp hk).2
            rw [abs_mul, abs_of_nonneg (hB.nonneg k)]
            have : |P.A i k| = 1 := by rcases h.two.sign i k hk.1 hk.2 with h1 | h1 <;> rw [h1] <;> norm_num
            rw [this, one_mul]
            exact hstruct k hk.1
          · rw [nsmul_eq_mul]
            have : ((Finset.univ.filter fun k => u k = none ∧ P.A i k ≠ 0).card : ℚ) ≤ 2 := by
              exact_mod_cast h.two.two i
            gcongr
        have hb := h.rhs i
        rw [abs_le] at hs hb
        rcases (h.two.unit j i hu).1 with h1 | h1 <;> rw [h1] at hr <;> linarith [hs.1, hs.2, hb.1, hb.2]
      · intro j' hj' hne
        have hj' := (Finset.mem_filter.mp hj').2
        by_cases hk' : ∃ k, B k = j'
        · exact absurd (h.two.unit_unique hB.ns j' j i hj' hu hk' hk) hne
        · rw [sol_off hB.ns fun i hi => hk' ⟨i, hi⟩, mul_zero]
      · intro hc
        exact (hc (by simp [hu])).elim
    · rw [sol_off hB.ns fun i hi => hk ⟨i, hi⟩]
      positivity

theorem SefTwo.exact {P : LP m n} {u : Fin n → Option (Fin m)} {β U : ℕ} (h : SefTwo P u β U)
    (hs : β + 2 * U ≤ 12000) : Exact P := by
  obtain ⟨N, hN, hN', hi⟩ := h.isInt
  refine exact_of_denom (q := 2) (R := β + 2 * U) (by norm_num) hN hN' hi h.two.denom (fun B hB => h.bound hB) ?_
  have : ((β + 2 * U : ℕ) : ℚ) ≤ 12000 := by exact_mod_cast hs
  push_cast at this ⊢
  linarith

theorem SefTwo.aux {P : LP m n} {u : Fin n → Option (Fin m)} {β U : ℕ} (h : SefTwo P u β U) :
    SefTwo (auxSef P) (Fin.append u fun i => some i) β U := by
  have hA : ∀ r (j : Fin n), (auxSef P).A r (Fin.castAdd m j) = P.A r j ∨
      (auxSef P).A r (Fin.castAdd m j) = -P.A r j := by
    intro r j
    simp only [auxSef, auxLp, Fin.append_left]
    split
    · right; ring
    · left; rfl
  have hA0 : ∀ r (j : Fin n), (auxSef P).A r (Fin.castAdd m j) = 0 ↔ P.A r j = 0 := by
    intro r j
    rcases hA r j with e | e <;> rw [e]
    exact neg_eq_zero
  have hE : ∀ r k, (auxSef P).A r (Fin.natAdd n k) = if r = k then 1 else 0 := by
    intro r k
    simp [auxSef, auxLp]
  obtain ⟨N, hN, hN', hi⟩ := h.isInt
  refine ⟨⟨N, hN, hN', isInt_scaled_aux hi⟩, ⟨?_, ?_, ?_⟩, fun r => aux_b_le h.rhs r, ?_⟩
  · intro j
    refine Fin.addCases (fun j i hj => ?_) (fun k i hk => ?_) j
    · rw [Fin.append_left] at hj
      obtain ⟨h1, h2⟩ := h.two.unit j i hj
      refine ⟨?_, fun r hr => (hA0 r j).mpr (h2 r hr)⟩
      rcases hA i j with e | e <;> rw [e]
      · exact h1
      · rcases h1 with h1 | h1 <;> rw [h1] <;> norm_num
    · rw [Fin.append_right] at hk
      obtain rfl : k = i := by simpa using hk
      exact ⟨Or.inl (by rw [hE, if_pos rfl]), fun r hr => by rw [hE, if_neg hr]⟩
  · intro r j
    refine Fin.addCases (fun j hj hne => ?_) (fun k hk => ?_) j
    · rw [Fin.append_left] at hj
      rw [Ne, hA0] at hne
      rcases hA r j with e | e <;> rw [e]
      · exact h.two.sign r j hj hne
      · rcases h.two.sign r j hj hne with h1 | h1 <;> rw [h1] <;> norm_num
    · rw [Fin.append_right] at hk
      cases hk
  · intro r
    refine le_trans ?_ (h.two.two r)
    rw [← Finset.card_map (Fin.castAddEmb m) (s := Finset.univ.filter fun j => u j = none ∧ P.A r j ≠ 0)]
    refine Finset.card_le_card fun j => ?_
    refine Fin.addCases (fun j hj => ?_) (fun k hk => ?_) j
    · have hj := (Finset.mem_filter.mp hj).2
      rw [Fin.append_left, Ne, hA0] at hj
      exact Finset.mem_map.mpr ⟨j, Finset.mem_filter.mpr ⟨Finset.mem_univ _, hj⟩, rfl⟩
    · have hk := (Finset.mem_filter.mp hk).2.1
      rw [Fin.append_right] at hk
      cases hk
  · intro j
    refine Fin.addCases (fun j hj => ?_) (fun k hk => ?_) j
    · rw [Fin.append_left] at hj
      obtain ⟨r, h1, h2, h3, h4, h5⟩ := h.box j hj
      have hn : negRows P r = false := by simp [negRows, h4]
      have e : ∀ j : Fin n, (auxSef P).A r (Fin.castAdd m j) = P.A r j := by
        intro j
        simp [auxSef, auxLp, hn]
      refine ⟨r, by rw [e]; exact h1, fun k => ?_, fun k => ?_, ?_, ?_⟩
      · refine Fin.addCases (fun k hk hne => ?_) (fun k hk => ?_) k
        · rw [Fin.append_left] at hk
          rw [e]
          exact h2 k hk fun hc => hne (by rw [hc])
        · rw [Fin.append_right] at hk
          cases hk
      · refine Fin.addCases (fun k hk => ?_) (fun k hk => ?_) k
        · rw [Fin.append_left] at hk
          rw [e]
          exact h3 k hk
        · rw [hE]
          split <;> norm_num
      · simpa [auxSef, auxLp, hn] using h4
      · simpa [auxSef, auxLp, hn] using h5
    · rw [Fin.append_right] at hk
      cases hk

/-! ### Programs as supplied -/

/-- Nonnegative variables, inequalities with at most two variables and coefficients `1` or `-1`, integer
right-hand sides of size at most `β`, costs with a denominator of at most `5 * 10 ^ 9`, and a row `x_j ≤ k`, `0 ≤ k ≤ U`, for every variable. -/
structure TwoVarLP (Q : LP m n) (β U : ℕ) : Prop where
  free : Q.free = []
  neg : Q.neg = []
  ineq : ∀ i, Q.ineq i ≠ .eq
  costs : ∃ N : ℕ, 0 < N ∧ 2 * N ≤ 10 ^ 10 ∧ ∀ j, ∃ z : ℤ, (N : ℚ) * Q.c j = z
  rhsInt : IntVec Q.b
  rhs : ∀ i, |Q.b i| ≤ β
  sign : ∀ i j, Q.A i j ≠ 0 → Q.A i j = 1 ∨ Q.A i j = -1
  two : ∀ i, (Finset.univ.filter fun j => Q.A i j ≠ 0).card ≤ 2
  box : ∀ j, ∃ i, Q.ineq i = .le ∧ (∀ k, Q.A i k = if k = j then 1 else 0) ∧ 0 ≤ Q.b i ∧ Q.b i ≤ U

theorem TwoVarLP.isInt {Q : LP m n} {β U : ℕ} (h : TwoVarLP Q β U) :
    ∃ N, 0 < N ∧ 2 * N ≤ 10 ^ 10 ∧ IntRows N Q := by
  obtain ⟨N, hN, hN', hc⟩ := h.costs
  refine ⟨N, hN, hN', fun i j => ?_, fun i => ?_, hc⟩
  · show ∃ z : ℤ, ((1 : ℕ) : ℚ) * Q.A i j = z
    by_cases h0 : Q.A i j = 0
    · exact ⟨0, by rw [h0]; simp⟩
    · rcases h.sign i j h0 with h1 | h1
      · exact ⟨1, by rw [h1]; simp⟩
      · exact ⟨-1, by rw [h1]; simp⟩
  · obtain ⟨z, hz⟩ := h.rhsInt i
    exact ⟨z, by rw [← hz]; simp [scaled]⟩

/-- The columns of the SEF without free and nonpositive variables. -/
theorem sefCols_plain {Q : LP m n} (hf : Q.free = []) (hn : Q.neg = []) (j : ℕ) (hj : j < (sefCols Q).n) :
    (∀ hj' : j < n, ∀ r, (sefCols Q).A r j = Q.A r ⟨j, hj'⟩) ∧
      (n ≤ j → ∃ i, ∀ r, (sefCols Q).A r j = if r = i then slackSign (Q.ineq i) else 0) := by
  have key : ∀ (l : List (Fin m)) (s : Cols m), n ≤ s.n → (∀ j < s.n,
      (∀ hj' : j < n, ∀ r, s.A r j = Q.A r ⟨j, hj'⟩) ∧
        (n ≤ j → ∃ i, ∀ r, s.A r j = if r = i then slackSign (Q.ineq i) else 0)) →
      ∀ j < (l.foldl (addSlack Q.ineq) s).n,
      (∀ hj' : j < n, ∀ r, (l.foldl (addSlack Q.ineq) s).A r j = Q.A r ⟨j, hj'⟩) ∧
        (n ≤ j → ∃ i, ∀ r, (l.foldl (addSlack Q.ineq) s).A r j = if r = i then slackSign (Q.ineq i) else 0) := by
    intro l
    induction l with
    | nil => intro s _ h; exact h
    | cons i l ih =>
      intro s hs h
      rw [List.foldl_cons]
      by_cases hq : Q.ineq i = .eq
      · have : addSlack Q.ineq s i = s := by unfold addSlack; rw [if_pos hq]
        rw [this]
        exact ih s hs h
      · have e : addSlack Q.ineq s i = ⟨s.n + 1,
            fun r j => if j = s.n then (if r = i then slackSign (Q.ineq i) else 0) else s.A r j,
            fun j => if j = s.n then 0 else s.c j⟩ := by unfold addSlack; rw [if_neg hq]
        rw [e]
        refine ih _ (Nat.le_succ_of_le hs) fun j hj => ?_
        by_cases hjn : j = s.n
        · subst hjn
          refine ⟨fun hj' => absurd hj' (by omega), fun _ => ⟨i, fun r => by simp⟩⟩
        · have hj' : j < s.n := by simp only at hj; omega
          simp only [hjn, if_false]
          exact h j hj'
  have e : sefCols Q = (List.finRange m).foldl (addSlack Q.ineq)
      (colsOf Q (if Q.objective = .min then fun j => -Q.c j else Q.c)) := by
    unfold sefCols
    rw [hf, hn]
    rfl
  rw [e] at hj ⊢
  refine key _ _ le_rfl (fun j hj => ⟨fun hj' r => ?_, fun hj' => ?_⟩) j hj
  · simp [colsOf, LinProg.ext, hj']
  · simp only [colsOf] at hj
    omega

theorem TwoVarLP.sef {Q : LP m n} {β U : ℕ} (h : TwoVarLP Q β U) (hs : Q.isSef = false) :
    ∃ u, SefTwo (toSef Q).lp u β U := by
  classical
  have e' : toSef Q = ⟨(sefCols Q).n,
      { A := fun r j => (sefCols Q).A r j, b := Q.b, c := fun j => (sefCols Q).c j, z := Q.z,
        objective := .max, ineq := fun _ => .eq, free := [], neg := [], isSef := true },
      some ⟨((List.finRange m).filter fun i => decide (Q.ineq i ≠ .eq)).length,
        concatOf Q.free 0, Q.neg⟩⟩ := by simp [toSef, hs]
  have hint : ∃ N, 0 < N ∧ 2 * N ≤ 10 ^ 10 ∧ IntRows N (toSef Q).lp := by
    obtain ⟨N, hN, hN', hi⟩ := h.isInt
    exact ⟨N, hN, hN', isInt_scaled_sef hi⟩
  have hcols := sefCols_plain h.free h.neg
  have hn : n ≤ (sefCols Q).n := by rw [sefCols_n, h.free]; simp
  revert hint
  rw [e']
  intro hint
  have hex : ∀ j : Fin (sefCols Q).n, n ≤ (j : ℕ) →
      ∃ i, ∀ r, (sefCols Q).A r j = if r = i then slackSign (Q.ineq i) else 0 := fun j hj => (hcols j j.2).2 hj
  have hst : ∀ (j : Fin (sefCols Q).n) (hj : (j : ℕ) < n) r, (sefCols Q).A r j = Q.A r ⟨j, hj⟩ :=
    fun j hj => (hcols j j.2).1 hj
  let u : Fin (sefCols Q).n → Option (Fin m) := fun j => if hj : n ≤ (j : ℕ) then some (hex j hj).choose else none
  have hun : ∀ j, u j = none ↔ (j : ℕ) < n := by
    intro j
    simp only [u]
    split
    · simp; omega
    · simp; omega
  have hus : ∀ j i, u j = some i → ∀ r, (sefCols Q).A r j = if r = i then slackSign (Q.ineq i) else 0 := by
    intro j i hj
    by_cases hn : n ≤ (j : ℕ)
    · simp only [u, dif_pos hn, Option.some.injEq] at hj
      subst hj
      exact (hex j hn).choose_spec
    · simp only [u, dif_neg hn] at hj
      cases hj
  refine ⟨u, hint, ⟨fun j i hj => ?_, fun r j hj hne => ?_, fun r => ?_⟩, h.rhs, fun j hj => ?_⟩
  · have := hus j i hj
    refine ⟨?_, fun r hr => by simp only [this r]; rw [if_neg hr]⟩
    simp only [this i, if_true]
    cases Q.ineq i <;> simp [slackSign]
  · have hj := (hun j).mp hj
    simp only [hst j hj] at hne ⊢
    exact h.sign r _ hne
  · refine le_trans ?_ (h.two r)
    rw [← Finset.card_map (Fin.castLEEmb hn) (s := Finset.univ.filter fun j => Q.A r j ≠ 0)]
    refine Finset.card_le_card fun j hj => ?_
    obtain ⟨h1, h2⟩ := (Finset.mem_filter.mp hj).2
    have h1 := (hun j).mp h1
    simp only [hst j h1] at h2
    exact Finset.mem_map.mpr ⟨⟨j, h1⟩, Finset.mem_filter.mpr ⟨Finset.mem_univ _, h2⟩, rfl⟩
  · have hj := (hun j).mp hj
    obtain ⟨i, h1, h2, h3, h4⟩ := h.box ⟨j, hj⟩
    refine ⟨i, ?_, fun k hk hne => ?_, fun k hk => ?_, h3, h4⟩
    · show (sefCols Q).A i j = 1
      rw [hst j hj, h2, if_pos rfl]
    · have hk := (hun k).mp hk
      show (sefCols Q).A i k = 0
      rw [hst k hk, h2, if_neg]
      intro hc
      exact hne (Fin.ext (Fin.mk.inj hc))
    · show 0 ≤ (sefCols Q).A i k
      rw [hus k i hk, if_pos rfl, h1]
      simp [slackSign]

theorem TwoVarLP.exactSef {Q : LP m n} {β U : ℕ} (h : TwoVarLP Q β U) (hs : Q.isSef = false)
    (hsm : β + 2 * U ≤ 12000) : Exact (toSef Q).lp := by
  obtain ⟨u, hu⟩ := h.sef hs
  exact hu.exact hsm

theorem TwoVarLP.exactAux {Q : LP m n} {β U : ℕ} (h : TwoVarLP Q β U) (hs : Q.isSef = false)
    (hsm : β + 2 * U ≤ 12000) : Exact (auxSef (toSef Q).lp) := by
  obtain ⟨u, hu⟩ := h.sef hs
  exact hu.aux.exact hsm

end LinProg
end Pytimize
