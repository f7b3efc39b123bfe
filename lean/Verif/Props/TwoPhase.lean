/-
Properties C42-C46, the two-phase part of C41 and the certificates of C50.
-/
import Verif.LP.TwoPhaseAnswer
import Verif.Props.Simplex

namespace Pytimize
namespace Props
open LinProg Comparator

variable {m n : ℕ}

/-! ### C46 -/

/-- C46: the auxiliary program (a minimisation) has the feasible basis formed by its last columns, its
objective is nonnegative on feasible points, and its optimum is `0` exactly if the program is feasible. -/
theorem C46_auxiliary (P : LP m n) (hP : WF P) (hs : P.isSef = true) (hm : 0 < m) :
    ∃ Q : LP m (n + m), auxiliary P = .ok Q ∧ Q.objective = .min ∧
      isBasisFeasible Q ((List.range m).map fun i : ℕ => (n : ℤ) + i + 1) = .ok true ∧
      (∀ w, Feas Q w → 0 ≤ objVal Q w) ∧
      ((∃ w, Feas Q w ∧ objVal Q w = 0) ↔ ∃ x, Feas P x) := by
  have hfeas : ∀ w, Feas (auxLp P) w ↔ Feas (auxSef P) w := fun w =>
    ⟨fun h => ⟨h.rows, h.negs, h.poss⟩, fun h => ⟨h.rows, h.negs, h.poss⟩⟩
  have hobj : ∀ w, objVal (auxLp P) w = -objVal (auxSef P) w := fun w => by
    have h1 : (auxSef P).c ⬝ᵥ w = -((auxLp P).c ⬝ᵥ w) := neg_dotProduct _ _
    have h2 : (auxSef P).z = 0 := rfl
    have h3 : (auxLp P).z = 0 := rfl
    unfold objVal
    rw [h1, h2, h3]
    ring
  refine ⟨auxLp P, by simp [auxiliary, hs], rfl, ?_, fun w hw => ?_, ?_⟩
  · refine isBasisFeasible_iff.mpr ⟨hm, artCols m n, aux_basis_list m n, ?_, fun i => ?_⟩
    · rw [show (auxLp P).A = (auxSef P).A from rfl, aux_colSel, Matrix.det_one, abs_one]
      unfold tol; norm_num
    · have : (canon (auxLp P) (artCols m n)).b = (canon (auxSef P) (artCols m n)).b := rfl
      rw [this]
      exact lt_of_lt_of_le (by have := tol_pos; linarith) ((aux_feasBasis P).rhs i)
  · rw [hobj, aux_obj, neg_neg]
    exact Finset.sum_nonneg fun k _ => ((hfeas w).mp hw).nonneg (aux_wf P) rfl _
  · constructor
    · rintro ⟨w, hw, h0⟩
      rw [hobj, aux_obj, neg_neg] at h0
      have hw' := (hfeas w).mp hw
      have hz : ∀ k : Fin m, w (Fin.natAdd n k) = 0 := fun k =>
        (Finset.sum_eq_zero_iff_of_nonneg fun k _ => hw'.nonneg (aux_wf P) rfl _).mp h0 k (Finset.mem_univ k)
      exact ⟨_, (feas_sef_iff hP hs).mpr ⟨(aux_eq_iff P w hz).mp (hw'.eqs (aux_wf P) rfl),
        fun j => hw'.nonneg (aux_wf P) rfl _⟩⟩
    · rintro ⟨x, hx⟩
      have hz : ∀ k : Fin m, (Fin.append x fun _ : Fin m => (0 : ℚ)) (Fin.natAdd n k) = 0 := fun k =>
        Fin.append_right _ _ _
      refine ⟨Fin.append x fun _ => 0, (hfeas _).mpr ((feas_sef_iff (aux_wf P) rfl).mpr
        ⟨(aux_eq_iff P _ hz).mpr ?_, fun j => ?_⟩), ?_⟩
      · simp only [Fin.append_left]
        exact hx.eqs hP hs
      · induction j using Fin.addCases with
        | left j => rw [Fin.append_left]; exact hx.nonneg hP hs j
        | right k => rw [Fin.append_right]
      · rw [hobj, aux_obj, neg_neg]
        exact Finset.sum_eq_zero fun k _ => hz k

/-- Outside SEF `auxiliary` raises `ArithmeticError`. -/
theorem C46_not_sef (P : LP m n) (hs : P.isSef = false) : auxiliary P = .error .arithmeticError := by
  simp [auxiliary, hs]

/-! ### C42 -/

/-- What an answer of `two_phase_simplex` claims. -/
def Correct (P : LP m n) : Answer m n → Prop
  | .optimal x l y => Feas P x ∧ (∀ x', Feas P x' → objVal P x' ≤ objVal P x) ∧ isBasis P l = .ok true ∧
      IsBasicSol P l x ∧ (∀ j, P.c j ≤ (P.A.vecMul y) j) ∧ y ⬝ᵥ P.b + P.z = objVal P x
  | .infeasible y => (∀ j, 0 ≤ (P.A.vecMul y) j) ∧ y ⬝ᵥ P.b < 0 ∧ ¬ ∃ x, Feas P x
  | .unbounded x d => (∀ t : ℚ, 0 ≤ t → Feas P (x + t • d)) ∧
      ∀ M : ℚ, ∃ T : ℚ, ∀ t, T ≤ t → M < objVal P (x + t • d)

/-- The numbers in a certificate of infeasibility. -/
theorem cert_numbers {P : LP m n} {D : Fin m → Fin (n + m)} (hd : Nonsing (auxSef P) D) :
    (∀ j : Fin n, (P.A.vecMul (mult (flipRows (negRows P) (auxSef P)) D)) j =
      -(canon (auxSef P) D).c (Fin.castAdd m j)) ∧
    mult (flipRows (negRows P) (auxSef P)) D ⬝ᵥ P.b = objVal (auxSef P) (sol (auxSef P) D) := by
  have hb : (flipRows (negRows P) (auxSef P)).b = P.b := by
    have : (auxSef P).b = (flipRows (negRows P) P).b := rfl
    rw [flipRows_b, this, flipRows_b, Matrix.mulVec_mulVec, signs_sq, Matrix.one_mulVec]
  have hA : ∀ i j, (flipRows (negRows P) (auxSef P)).A i (Fin.castAdd m j) = P.A i j := by
    intro i j
    have h1 : (flipRows (negRows P) (flipRows (negRows P) P)).A i j = P.A i j := by rw [flipRows_twice]
    rw [← h1]
    simp only [flipRows, aux_A_left]
  constructor
  · intro j
    rw [← canon_flip (negRows P) (auxSef P) D, canon_c]
    simp only [Pi.sub_apply, Matrix.vecMul, dotProduct, hA]
    rw [show (flipRows (negRows P) (auxSef P)).c (Fin.castAdd m j) = 0 from aux_c_left P j]
    ring
  · rw [← sol_flip (negRows P), show objVal (auxSef P) = objVal (flipRows (negRows P) (auxSef P)) from rfl,
      objVal_sol ((nonsing_flip _).mpr hd), hb]
    have : (flipRows (negRows P) (auxSef P)).z = 0 := rfl
    rw [this, add_zero]

/-- A Farkas certificate excludes feasible points. -/
theorem farkas {P : LP m n} (hP : WF P) (hs : P.isSef = true) {y : Fin m → ℚ}
    (hy : ∀ j, 0 ≤ (P.A.vecMul y) j) (hb : y ⬝ᵥ P.b < 0) : ¬ ∃ x, Feas P x := by
  rintro ⟨x, hx⟩
  rw [← hx.eqs hP hs, Matrix.dotProduct_mulVec] at hb
  have : 0 ≤ P.A.vecMul y ⬝ᵥ x := Finset.sum_nonneg fun j _ => mul_nonneg (hy j) (hx.nonneg hP hs j)
  linarith

/-- C42 for programs that stay clear of the tolerances in both phases. Missing: programs with tiny
numbers (`C42_tiny_wrong`). -/
theorem C42_correct_partial (fuel : ℕ) (P : LP m n) (hP : WF P) (he : Exact P) (he' : Exact (auxSef P))
    (a : Answer m n) (h : (twoPhase fuel P).1 = .ok a) : Correct P a := by
  obtain ⟨hs, hm, -, D, hd, hc, hx, hcase⟩ := twoPhase_ok h
  have hn := isBasis_nonsing hd
  rcases hcase with ⟨hv, l, hl, hcov⟩ | ⟨hv, rfl⟩
  · cases a with
    | optimal x l' y => exact C38_exact_partial fuel P hP he l l' x y hl
    | infeasible y => exact (simplex_not_infeasible hl).elim
    | unbounded x d =>
      have hb : isBasis P l = .ok true := by
        obtain ⟨hsef, hbody, -⟩ := simplex_sef hl
        unfold simplexBody at hbody
        cases hloop : simplexLoop fuel (flipRows (negRows P) P) l with
        | error e => simp [hloop] at hbody
        | ok r =>
          cases fuel with
          | zero => simp [simplexLoop] at hloop
          | succ f =>
            unfold simplexLoop at hloop
            cases hit : simplexIteration (flipRows (negRows P) P) l with
            | error e => simp [hit] at hloop
            | ok r' => exact (isBasis_flip _ _ _).mp (simplexIteration_error hit).2
      obtain ⟨_, B, hB, hdB⟩ := (isBasis_iff P l).mp hb
      have hF := second_start he' hn hx hv hcov hB (isBasis_nonsing hdB)
      exact C39_exact_partial fuel P hP he l (isBasisFeasible_iff.mpr ⟨hm, B, hB, hdB, fun i =>
        lt_of_lt_of_le (by have := tol_pos; linarith) (hF.rhs i)⟩) x d hl
  · obtain ⟨h1, h2⟩ := cert_numbers hn
    have hnn : ∀ j, 0 ≤ sol (auxSef P) D j := by
      intro j
      by_cases hj : ∃ i, D i = j
      · obtain ⟨i, rfl⟩ := hj
        have := hx (D i)
        rw [sol_apply hn] at this ⊢
        exact he'.rhs_nonneg hn this
      · push Not at hj
        rw [sol_off hn hj]
    have hneg : objVal (auxSef P) (sol (auxSef P) D) < 0 := by
      have hle : objVal (auxSef P) (sol (auxSef P) D) ≤ 0 := by
        rw [aux_obj, neg_nonpos]
        exact Finset.sum_nonneg fun k _ => hnn _
      refine lt_of_le_of_ne hle fun h0 => ?_
      rw [h0] at hv
      have : isCloseToZero 0 = true := by rw [isCloseToZero_iff, abs_zero]; exact tol_pos
      rw [this] at hv
      cases hv
    have hyA : ∀ j, 0 ≤ (P.A.vecMul (mult (flipRows (negRows P) (auxSef P)) D)) j := by
      intro j
      rw [h1, neg_nonneg]
      by_cases hj : ∃ i, D i = Fin.castAdd m j
      · obtain ⟨i, hi⟩ := hj
        rw [← hi, canon_c_basic hn]
      · push Not at hj
        exact he'.lt_tol_cost hn (hc _ hj)
    have hyb : mult (flipRows (negRows P) (auxSef P)) D ⬝ᵥ P.b < 0 := by rw [h2]; exact hneg
    exact ⟨hyA, hyb, farkas hP hs hyA hyb⟩

/-- C42 for integer data: the bounds on the subdeterminants of the program and of its auxiliary program
are all that is needed. -/
theorem C42_integer_partial (fuel : ℕ) (P : LP m n) (hP : WF P) (K L K' L' : ℕ) (hi : IntData P K L)
    (hKL : (K : ℚ) * K / 10 ^ 8 + (K : ℚ) * L / 10 ^ 5 < 1) (hi' : IntData (auxSef P) K' L')
    (hKL' : (K' : ℚ) * K' / 10 ^ 8 + (K' : ℚ) * L' / 10 ^ 5 < 1)
    (a : Answer m n) (h : (twoPhase fuel P).1 = .ok a) : Correct P a :=
  C42_correct_partial fuel P hP (exact_of_int hi hKL) (exact_of_int hi' hKL') a h

/-- C42 for the optimal and infeasible answers of every program, up to the tolerances. -/
theorem C42_tolerance_partial (fuel : ℕ) (P : LP m n) (hP : WF P) (a : Answer m n)
    (h : (twoPhase fuel P).1 = .ok a) :
    (∀ x l y, a = .optimal x l y →
      P.A.mulVec x = P.b ∧ (∀ j, -(1 / 10 ^ 10) < x j) ∧ isBasis P l = .ok true ∧ IsBasicSol P l x ∧
        (∀ j, P.c j - (P.A.vecMul y) j < 1 / 10 ^ 10) ∧ y ⬝ᵥ P.b + P.z = objVal P x ∧
        ∀ x', Feas P x' → objVal P x' ≤ objVal P x + 1 / 10 ^ 10 * ∑ j, x' j) ∧
    (∀ y, a = .infeasible y →
      (∀ j, -(1 / 10 ^ 10) < (P.A.vecMul y) j) ∧ 1 / 10 ^ 10 ≤ |y ⬝ᵥ P.b| ∧ y ⬝ᵥ P.b < m * (1 / 10 ^ 10)) ∧
    (∀ x d, a = .unbounded x d → P.A.mulVec x = P.b ∧ P.A.mulVec d = 0 ∧ 0 < P.c ⬝ᵥ d) := by
  obtain ⟨hs, hm, -, D, hd, hc, hx, hcase⟩ := twoPhase_ok h
  have hn := isBasis_nonsing hd
  rcases hcase with ⟨hv, l, hl, hcov⟩ | ⟨hv, rfl⟩
  · refine ⟨fun x l' y ha => ?_, fun y ha => ?_, fun x d ha => ?_⟩
    · subst ha; exact C38_optimal_partial fuel P hP l l' x y hl
    · subst ha; exact (simplex_not_infeasible hl).elim
    · subst ha
      have := C39_unbounded_partial fuel P hP l x d hl
      exact ⟨this.1, this.2.1, this.2.2.1⟩
  · refine ⟨fun x l' y ha => (by cases ha), fun y ha => ?_, fun x d ha => (by cases ha)⟩
    cases ha
    obtain ⟨h1, h2⟩ := cert_numbers hn
    refine ⟨fun j => ?_, ?_, ?_⟩
    · rw [h1, neg_lt_neg_iff]
      by_cases hj : ∃ i, D i = Fin.castAdd m j
      · obtain ⟨i, hi⟩ := hj
        rw [← hi, canon_c_basic hn]
        exact tol_pos
      · push Not at hj
        exact hc _ hj
    · rw [h2]
      by_contra hlt
      rw [not_le] at hlt
      have := isCloseToZero_iff.mpr hlt
      rw [this] at hv
      cases hv
    · rw [h2, aux_obj, ← Finset.sum_neg_distrib]
      have hne : (Finset.univ : Finset (Fin m)).Nonempty := ⟨⟨0, hm⟩, Finset.mem_univ _⟩
      calc ∑ k : Fin m, -sol (auxSef P) D (Fin.natAdd n k) < ∑ _k : Fin m, (1 : ℚ) / 10 ^ 10 :=
            Finset.sum_lt_sum_of_nonempty hne fun k _ => by
              have := hx (Fin.natAdd n k)
              unfold tol at this
              linarith
        _ = m * (1 / 10 ^ 10) := by simp

/-- C42 as stated is false: on `max 0.5e-10 x₁` subject to `x₂ = 1` the answer is an "optimal" point of an
unbounded program. -/
theorem C42_tiny_wrong : (twoPhase 3 tinyCost).1 = .ok (.optimal ![0, 1] [2] ![0]) ∧ Unbounded tinyCost :=
  ⟨optOf_some (by decide +kernel), C38_tiny_cost_wrong.2.2⟩

/-! ### C43 -/

/-- The rows of the program are independent: some columns form a nonsingular matrix. -/
def FullRank (P : LP m n) : Prop := ∃ B, Nonsing P B

/-- C43 for programs that stay clear of the tolerances: enough iterations give an answer exactly if the
program is infeasible or has independent rows. Missing: feasible programs with redundant rows, where the
method raises (`C43_redundant_wrong`). -/
theorem C43_answers_partial (P : LP m n) (hP : WF P) (hs : P.isSef = true) (hm : 0 < m) (he : Exact P)
    (he' : Exact (auxSef P)) (fuel : ℕ) (hf : n ^ m ≤ fuel) (hf' : (n + m) ^ m ≤ fuel) :
    (∃ a, (twoPhase fuel P).1 = .ok a) ↔ (FullRank P ∨ ¬ ∃ x, Feas P x) := by
  constructor
  · rintro ⟨a, ha⟩
    have hcor := C42_correct_partial fuel P hP he he' a ha
    cases a with
    | optimal x l y =>
      obtain ⟨_, B, _, hB⟩ := (isBasis_iff P l).mp hcor.2.2.1
      exact Or.inl ⟨B, isBasis_nonsing hB⟩
    | infeasible y => exact Or.inr hcor.2.2
    | unbounded x d =>
      obtain ⟨_, _, _, D, hd, hc, hx, hcase⟩ := twoPhase_ok ha
      rcases hcase with ⟨hv, l, hl, hcov⟩ | ⟨_, h⟩
      · obtain ⟨_, _, E, _, _, hE, _⟩ := simplex_unbounded hl
        exact Or.inl ⟨E, isBasis_nonsing hE⟩
      · cases h
  · intro hor
    obtain ⟨D, hD, hmono, hcase⟩ := simplex_exact (P := auxSef P) rfl hm he' hf' (aux_basis_list m n)
      (aux_feasBasis P)
    rcases hcase with ⟨hc, hsim⟩ | ⟨k, hk, hck, hA, -⟩
    · have hx : ∀ j, -tol < sol (auxSef P) D j := fun j =>
        lt_of_lt_of_le (by have := tol_pos; linarith) (hD.nonneg j)
      have hobj : (auxSef P).c ⬝ᵥ sol (auxSef P) D + (auxSef P).z = objVal (auxSef P) (sol (auxSef P) D) := rfl
      unfold twoPhase
      rw [toSef_aux]
      simp only [hs, Bool.not_true, Bool.false_eq_true, if_false]
      unfold twoPhaseWith
      dsimp only
      simp only [hsim, hobj]
      by_cases hv : isCloseToZero (objVal (auxSef P) (sol (auxSef P) D)) = true
      · obtain ⟨hsol, hnn, hcl⟩ := aux_solution he' hD.ns hx hv
        have hrank : FullRank P := hor.resolve_right fun h => h ⟨_, (feas_sef_iff hP hs).mpr ⟨hsol, hnn⟩⟩
        simp only [hv, if_true]
        obtain ⟨b, hb⟩ := isBasis_total P hm ((colsList D).map (· + 1))
        -- starting from a feasible basis the second phase answers
        have hsecond : ∀ l : List ℤ, isBasis P l = .ok true → (l = (colsList D).map (· + 1) ∨
            ∀ j : Fin n, isCloseToZero (sol (auxSef P) D (Fin.castAdd m j)) = false →
              ((j : ℕ) : ℤ) + 1 ∈ l) → ∃ a, (simplex fuel P l).1 = .ok a := by
          intro l hl hcov
          obtain ⟨_, B, hB, hdB⟩ := (isBasis_iff P l).mp hl
          have hF := second_start he' hD.ns hx hv hcov hB (isBasis_nonsing hdB)
          obtain ⟨E, -, -, hE⟩ := simplex_exact hs hm he hf hB hF
          rcases hE with ⟨_, h⟩ | ⟨_, _, _, _, h⟩
          · exact ⟨_, h⟩
          · exact ⟨_, h⟩
        cases b with
        | true =>
          simp only [hb]
          exact hsecond _ hb (Or.inl rfl)
        | false =>
          simp only [hb, take_ofFn]
          obtain ⟨B₀, hB₀⟩ := hrank
          let S : Finset (Fin n) := Finset.univ.filter fun j =>
            isCloseToZero (sol (auxSef P) D (Fin.castAdd m j)) = false
          have hSD : ∀ j ∈ S, ∃ i, D i = Fin.castAdd m j := by
            intro j hj
            have := (Finset.mem_filter.mp hj).2
            by_contra hno
            push Not at hno
            rw [sol_off hD.ns hno] at this
            have h0 : isCloseToZero 0 = true := by rw [isCloseToZero_iff, abs_zero]; exact tol_pos
            rw [h0] at this
            cases this
          obtain ⟨B, hB, hSB⟩ := exists_completion S (fun d hd h0 => aux_independent hD.ns d hd fun j hj =>
            h0 j fun hjS => by
              obtain ⟨i, hi⟩ := hSD j hjS
              exact hj i hi) _ B₀ hB₀ le_rfl
          have hlen : (indicesWhere (List.ofFn fun j : Fin n => sol (auxSef P) D (Fin.castAdd m j))
              fun v => !isCloseToZero v).length < m := by
            -- the support is part of `D`; if it were all of it, `D` would be a basis of the program
            by_contra hge
            rw [not_lt] at hge
            have hcard : (indicesWhere (List.ofFn fun j : Fin n => sol (auxSef P) D (Fin.castAdd m j))
                fun v => !isCloseToZero v).length ≤ S.card := by
              rw [← List.toFinset_card_of_nodup (nodup_indicesWhere _ _)]
              have himg : (indicesWhere (List.ofFn fun j : Fin n => sol (auxSef P) D (Fin.castAdd m j))
                  fun v => !isCloseToZero v).toFinset ⊆ S.image fun j : Fin n => ((j : ℕ) : ℤ) + 1 := by
                intro z hz
                obtain ⟨j, hj, rfl⟩ := mem_indicesWhere.mp (List.mem_toFinset.mp hz)
                exact Finset.mem_image.mpr ⟨j, Finset.mem_filter.mpr ⟨Finset.mem_univ _, by simpa using hj⟩, rfl⟩
              exact (Finset.card_le_card himg).trans Finset.card_image_le
            have hall : ∀ i, ∃ j ∈ S, D i = Fin.castAdd m j := by
              intro i
              have h1 : S.image (Fin.castAdd m) ⊆ Finset.univ.image D := by
                intro z hz
                obtain ⟨j, hj, rfl⟩ := Finset.mem_image.mp hz
                obtain ⟨i, hi⟩ := hSD j hj
                exact Finset.mem_image.mpr ⟨i, Finset.mem_univ _, hi⟩
              have h2 : (Finset.univ.image D).card ≤ (S.image (Fin.castAdd m)).card := by
                rw [Finset.card_image_of_injective _ hD.ns.inj,
                  Finset.card_image_of_injective _ (Fin.castAdd_injective _ _), Finset.card_univ,
                  Fintype.card_fin]
                omega
              have h3 := Finset.eq_of_subset_of_card_le h1 h2
              have h4 : D i ∈ S.image (Fin.castAdd m) := by
                rw [h3]; exact Finset.mem_image.mpr ⟨i, Finset.mem_univ _, rfl⟩
              obtain ⟨j, hj, hji⟩ := Finset.mem_image.mp h4
              exact ⟨j, hj, hji.symm⟩
            choose E hES hE using hall
            have hEn : Nonsing P E := by
              rw [nonsing_iff]
              refine ⟨fun a b hab => hD.ns.inj (by rw [hE, hE, hab]), fun d hd h0 => ?_⟩
              refine aux_independent hD.ns d hd fun j hj => h0 j fun i hi => hj i ?_
              rw [hE, hi]
            have htrue : isBasis P ((colsList D).map (· + 1)) = .ok true := by
              refine (isBasis_iff P _).mpr ⟨hm, E, ?_, he.det E hEn⟩
              rw [toArrayIndexing_math]
              unfold colsList
              congr 1
              funext i
              rw [hE]
              rfl
            rw [htrue] at hb
            cases hb
          obtain ⟨l, hl, hlb⟩ := completeBasis_complete hm (he.det B hB)
            (fun j hj => hSB j (Finset.mem_filter.mpr ⟨Finset.mem_univ _, hj⟩)) hlen
          simp only [hl]
          exact hsecond l hlb (Or.inr fun j hj => completeBasis_contains hl j hj)
      · simp only [hv, Bool.false_eq_true, if_false, toArrayIndexing_math, toCols_colsList]
        exact ⟨_, rfl⟩
    · -- the first phase is never unbounded
      exfalso
      have hfe : Feas (auxSef P) (sol (auxSef P) D) :=
        (feas_sef_iff (aux_wf P) rfl).mpr ⟨sol_eq hD.ns, hD.nonneg⟩
      have hub := unbounded_of_ray (aux_wf P) rfl hfe (rayOf_nonneg hD.ns hk hA) (rayOf_ker hD.ns hk)
        (by rw [rayOf_cost hD.ns hk]; exact hck)
      obtain ⟨T, hT⟩ := hub.2 0
      have h1 := hT (max T 0) (le_max_left _ _)
      have h2 := hub.1 (max T 0) (le_max_right _ _)
      rw [aux_obj] at h1
      have : 0 ≤ ∑ k' : Fin m, (sol (auxSef P) D + max T 0 • rayOf D (canon (auxSef P) D) k)
          (Fin.natAdd n k') := Finset.sum_nonneg fun k _ => h2.nonneg (aux_wf P) rfl _
      linarith

/-- A feasible program with the row `x₁ + x₂ = 1` given twice. -/
def redundant : LP 2 2 := ⟨!![1, 1; 1, 1], ![1, 1], ![1, 0], 0, .max, fun _ => .eq, [], [], true⟩

theorem redundant_wf : WF redundant := ⟨by decide, by decide, by decide, by decide, by decide, by decide⟩

/-- C43 as stated is false: `two_phase_simplex` raises `ValueError` on a program with an optimal solution
and a redundant row. -/
theorem C43_redundant_wrong : (twoPhase 10 redundant).1 = .error .valueError ∧
    Feas redundant ![1, 0] ∧ ∀ x, Feas redundant x → objVal redundant x ≤ objVal redundant ![1, 0] := by
  refine ⟨errOf_some (by decide +kernel), ?_, fun x hx => ?_⟩
  · refine (feas_sef_iff redundant_wf rfl).mpr ⟨by funext i; revert i; decide +kernel, by decide +kernel⟩
  · have h1 := congrFun (hx.eqs redundant_wf rfl) 0
    have h2 := hx.nonneg redundant_wf rfl 1
    simp [redundant, Matrix.mulVec, dotProduct, Fin.sum_univ_two, objVal] at h1 ⊢
    linarith

/-- The failure is not specific to this program: no feasible program with dependent rows gets an answer. -/
theorem C43_dependent_wrong (P : LP m n) (hP : WF P) (he : Exact P) (he' : Exact (auxSef P)) (fuel : ℕ)
    (hr : ¬ FullRank P) (hx : ∃ x, Feas P x) (a : Answer m n) : (twoPhase fuel P).1 ≠ .ok a := by
  intro ha
  have hcor := C42_correct_partial fuel P hP he he' a ha
  cases a with
  | optimal x l y =>
    obtain ⟨_, B, _, hB⟩ := (isBasis_iff P l).mp hcor.2.2.1
    exact hr ⟨B, isBasis_nonsing hB⟩
  | infeasible y => exact hcor.2.2 hx
  | unbounded x d =>
    obtain ⟨_, _, _, D, hd, hc, hx, hcase⟩ := twoPhase_ok ha
    rcases hcase with ⟨hv, l, hl, hcov⟩ | ⟨_, h⟩
    · obtain ⟨_, _, E, _, _, hE, _⟩ := simplex_unbounded hl
      exact hr ⟨E, isBasis_nonsing hE⟩
    · cases h

end Props
end Pytimize
