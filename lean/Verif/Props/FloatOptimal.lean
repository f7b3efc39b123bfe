/-
C161: what the answers of `two_phase_simplex` and `solve` in double precision say about the program.
-/
import Verif.Props.FloatSolveFollow
import Verif.Props.Solve

namespace Pytimize
namespace Props
open LinProg Floating Matrix Comparator

variable {m n : ℕ} {C : Libm} {L : Lapack binary64} {a t β γ α ε δ : ℚ}

/-! ### Specification -/

/-- Every entry of `v` is within `ξ` of that of an optimal solution of the program. -/
def NearOptimum (P : LP m n) (ξ : ℚ) (v : List ℚ) : Prop :=
  ∃ x : Fin n → ℚ, Optimal P x ∧ List.Forall₂ (fun v w => |v - w| ≤ ξ) v (List.ofFn x)

/-- What an answer in double precision says about a program in SEF whose coefficients are up to `a` and whose costs are up
to `γ`. -/
def RightUpTo (P : LP m n) (a γ ξ : ℚ) : Answer m n → Prop
  | .optimal x _ _ => (∀ j, -ξ ≤ x j) ∧ (∀ i, |P.A.mulVec x i - P.b i| ≤ n * (a * ξ)) ∧
      (∀ x', Feas P x' → objVal P x' ≤ objVal P x + n * (γ * ξ)) ∧ NearOptimum P ξ (List.ofFn x)
  | .infeasible _ => ¬ ∃ x, Feas P x
  | .unbounded _ _ => Unbounded P

/-! ### Proof -/

theorem dot_diff {c x x' : Fin n → ℚ} {γ ξ : ℚ} (hc : ∀ j, |c j| ≤ γ) (hx : ∀ j, |x j - x' j| ≤ ξ) :
    |c ⬝ᵥ x - c ⬝ᵥ x'| ≤ n * (γ * ξ) := by
  rw [← dotProduct_sub]
  refine (Finset.abs_sum_le_sum_abs _ _).trans (sum_le_card fun j => ?_)
  rw [abs_mul]
  exact mul_le_mul (hc j) (hx j) (abs_nonneg _) ((abs_nonneg _).trans (hc j))

theorem nearOptimum_of {P : LP m n} {fuel : ℕ} {ξ : ℚ} (hP : WF P) (he : Exact (toSef P).lp) {v : List ℚ}
    {r : Except PyErr (Option (List ℚ))} (h : SameSolution ξ r (solve fuel P)) (hr : r = .ok (some v)) :
    NearOptimum P ξ v := by
  subst hr
  cases hs : solve fuel P with
  | error e => rw [hs] at h; exact h.elim
  | ok w =>
    cases w with
    | none => rw [hs] at h; exact h.elim
    | some w =>
      rw [hs] at h
      obtain ⟨x, rfl, hx⟩ := C44_sound_partial fuel P hP he w hs
      exact ⟨x, hx, h⟩

theorem found_of {P : LP m n} {fuel : ℕ} {ξ : ℚ} {r : Except PyErr (Option (List ℚ))} (h : SameSolution ξ r (solve fuel P))
    (hs : ∃ x, solve fuel P = .ok (some (List.ofFn x)) ∧ Optimal P x) : ∃ v, r = .ok (some v) ∧ NearOptimum P ξ v := by
  obtain ⟨x, hx, ho⟩ := hs
  rw [hx] at h
  cases r with
  | error e => exact h.elim
  | ok w =>
    cases w with
    | none => exact h.elim
    | some w => exact ⟨w, rfl, x, ho, h⟩

theorem right_optimal {P : LP m n} (hw : WF P) (hsef : P.isSef = true) (hP : DoubleData P a β γ) {ξ : ℚ}
    {x x' : Fin n → ℚ} {l : List ℤ} {y : Fin m → ℚ} (hx : ∀ j, |x j - x' j| ≤ ξ) (hf : Feas P x')
    (ho : ∀ x'', Feas P x'' → objVal P x'' ≤ objVal P x') (hA : P.A.mulVec x' = P.b) :
    RightUpTo P a γ ξ (.optimal x l y) := by
  refine ⟨fun j => ?_, fun i => ?_, fun x'' hx'' => ?_, x', ⟨hf, fun x'' hx'' => ⟨fun _ => ho x'' hx'', fun hmin => ?_⟩⟩, ?_⟩
  · have h3 := hf.nonneg hw hsef j
    have h4 := (abs_le.mp (hx j)).1
    linarith
  · rw [← hA]
    exact dot_diff (hP.A i) hx
  · have h3 := (abs_le.mp (dot_diff hP.c hx)).1
    have h4 := ho x'' hx''
    unfold objVal at h4 ⊢
    linarith
  · rw [(hw.isSef_iff.mp hsef).2.2.2] at hmin
    cases hmin
  · rw [List.forall₂_iff_get]
    refine ⟨by simp, fun i h1 h2 => ?_⟩
    simpa using hx _

theorem unbounded_of {P : LP m n} {x d : Fin n → ℚ} (h1 : ∀ t : ℚ, 0 ≤ t → Feas P (x + t • d))
    (h2 : ∀ M : ℚ, ∃ T : ℚ, ∀ t, T ≤ t → M < objVal P (x + t • d)) : Unbounded P := by
  intro M
  obtain ⟨T, hT⟩ := h2 M
  exact ⟨_, h1 (max T 0) (le_max_right _ _), hT _ (le_max_left _ _)⟩

/-- C161. Answers of `simplex` in double precision, started at a feasible basis. -/
theorem C161_simplex (hC : C.Accurate) (hU : C.Underflows) (hL : Gaussian C L) {P : LP m n} (hw : WF P)
    (he : Exact P) (hs : Scale m a t β γ α ε δ) (hP : DoubleData P a β γ) (fuel : ℕ) {basis : List ℤ}
    (hb : isBasisFeasible P basis = .ok true)
    (hsafe : ∀ l, Relation.ReflTransGen (Steps P) basis l → Safe P a t β α ε δ l) {r : Answer m n}
    (h : (fsimplex L fuel P basis).1 = .ok r) : RightUpTo P a γ (solutionSlack m ε (m * (t * β) + ε)) r := by
  have hsame := (C157_simplex hC hU hL hs hP fuel hsafe).1
  rw [h] at hsame
  cases h2 : (simplex fuel P basis).1 with
  | error e => rw [h2] at hsame; cases r <;> exact hsame.elim
  | ok r' =>
    rw [h2] at hsame
    have hsef := (simplex_sef h2).1
    cases r <;> cases r' <;> first | exact hsame.elim | skip
    next x l y x' l' y' =>
      obtain ⟨hf, ho, -⟩ := C38_exact_partial fuel P hw he basis l' x' y' h2
      exact right_optimal hw hsef hP hsame.2.1 hf ho (C38_optimal_partial fuel P hw basis l' x' y' h2).1
    next x d x' d' =>
      obtain ⟨h3, h4⟩ := C39_exact_partial fuel P hw he basis hb x' d' h2
      exact unbounded_of h3 h4

/-- C161. `simplex` in double precision, started at a feasible basis, comes to an end: at most `n ^ m` iterations. -/
theorem C161_terminates (hC : C.Accurate) (hU : C.Underflows) (hL : Gaussian C L) {P : LP m n} (hw : WF P)
    (he : Exact P) (hsef : P.isSef = true) (hs : Scale m a t β γ α ε δ) (hP : DoubleData P a β γ) (fuel : ℕ)
    (hf : n ^ m ≤ fuel) {basis : List ℤ} (hb : isBasisFeasible P basis = .ok true)
    (hsafe : ∀ l, Relation.ReflTransGen (Steps P) basis l → Safe P a t β α ε δ l) :
    ∃ r, (fsimplex L fuel P basis).1 = .ok r ∧ RightUpTo P a γ (solutionSlack m ε (m * (t * β) + ε)) r := by
  obtain ⟨r', h2⟩ : ∃ r', (simplex fuel P basis).1 = .ok r' := by
    rcases C40_terminates_partial P hsef he basis hb fuel hf with ⟨x, l, y, h⟩ | ⟨x, d, h⟩
    · exact ⟨_, h⟩
    · exact ⟨_, h⟩
  have hsame := (C157_simplex hC hU hL hs hP fuel hsafe).1
  rw [h2] at hsame
  cases h : (fsimplex L fuel P basis).1 with
  | error e => rw [h] at hsame; cases r' <;> exact hsame.elim
  | ok r => exact ⟨r, rfl, C161_simplex hC hU hL hw he hs hP fuel hb hsafe h⟩

/-- C161. Answers of `two_phase_simplex` in double precision: an optimal one is feasible and optimal up to rounding and
near an optimal solution, an infeasible program has no feasible solution, and an unbounded one has no bound. -/
theorem C161_two_phase (hC : C.Accurate) (hU : C.Underflows) (hL : Gaussian C L) {P : LP m n} (hw : WF P)
    (he : Exact P) (he' : Exact (auxSef P))
    (hs : Scale m a t β γ α ε δ) (hP : DoubleData P a β γ) (hc : ∀ j, binary64.Rep (P.c j)) (hz : binary64.Rep P.z)
    (ha : 1 ≤ a) (hγ : 1 ≤ γ) (hN : n + m ≤ 100) (fuel : ℕ)
    (hfirst : ∀ l, Relation.ReflTransGen (Steps (auxSef P)) (lastColumns m n) l → Safe (auxSef P) a t β α ε δ l)
    (hdec : Decided P fuel a t β α ε δ) {r : Answer m n} (h : (ftwoPhase L fuel P).1 = .ok r) :
    RightUpTo P a γ (solutionSlack m ε (m * (t * β) + ε)) r := by
  have hsame := (C159_two_phase hC hU hL hs hP hc hz ha hγ hN fuel hfirst hdec).1
  rw [h] at hsame
  cases h2 : (twoPhase fuel P).1 with
  | error e => rw [h2] at hsame; cases r <;> exact hsame.elim
  | ok r' =>
    rw [h2] at hsame
    have hcor := C42_correct_partial fuel P hw he he' r' h2
    have hsef := (twoPhase_ok h2).1
    cases r <;> cases r' <;> first | exact hsame.elim | skip
    next x l y x' l' y' =>
      exact right_optimal hw hsef hP hsame.2.1 hcor.1 hcor.2.1
        ((C42_tolerance_partial fuel P hw _ h2).1 x' l' y' rfl).1
    next x d x' d' => exact unbounded_of hcor.1 hcor.2
    next y y' => exact hcor.2.2

/-- C161. With enough iterations `two_phase_simplex` in double precision answers exactly if the program is infeasible or its
rows are independent. -/
theorem C161_answers (hC : C.Accurate) (hU : C.Underflows) (hL : Gaussian C L) {P : LP m n} (hw : WF P)
    (he : Exact P) (he' : Exact (auxSef P)) (hsef : P.isSef = true)
    (hs : Scale m a t β γ α ε δ) (hP : DoubleData P a β γ) (hc : ∀ j, binary64.Rep (P.c j)) (hz : binary64.Rep P.z)
    (ha : 1 ≤ a) (hγ : 1 ≤ γ) (hN : n + m ≤ 100) (fuel : ℕ) (hf : (n + m) ^ m ≤ fuel)
    (hfirst : ∀ l, Relation.ReflTransGen (Steps (auxSef P)) (lastColumns m n) l → Safe (auxSef P) a t β α ε δ l)
    (hdec : Decided P fuel a t β α ε δ) :
    (∃ r, (ftwoPhase L fuel P).1 = .ok r) ↔ (FullRank P ∨ ¬ ∃ x, Feas P x) := by
  rw [← C43_answers_partial P hw hsef hs.pos he he' fuel ((Nat.pow_le_pow_left (Nat.le_add_right _ _) _).trans hf) hf]
  have hsame := (C159_two_phase hC hU hL hs hP hc hz ha hγ hN fuel hfirst hdec).1
  revert hsame
  cases (ftwoPhase L fuel P).1 with
  | error e =>
    cases (twoPhase fuel P).1 with
    | error e' => exact fun _ => ⟨(fun ⟨r, h⟩ => by cases h), (fun ⟨r, h⟩ => by cases h)⟩
    | ok r' => intro h; cases r' <;> exact h.elim
  | ok r =>
    cases (twoPhase fuel P).1 with
    | error e' => intro h; cases r <;> exact h.elim
    | ok r' => exact fun _ => ⟨fun _ => ⟨r', rfl⟩, fun _ => ⟨r, rfl⟩⟩

/-- C161. What `solve` returns in double precision for a program in SEF is near an optimal solution. -/
theorem C161_solve_sef (hC : C.Accurate) (hU : C.Underflows) (hL : Gaussian C L) {P : LP m n} (hw : WF P)
    (he : Exact (toSef P).lp)
    (hs : Scale m a t β γ α ε δ) (hP : DoubleData P a β γ) (hc : ∀ j, binary64.Rep (P.c j)) (hz : binary64.Rep P.z)
    (ha : 1 ≤ a) (hγ : 1 ≤ γ) (hN : n + m ≤ 100) (hsef : P.isSef = true) (fuel : ℕ)
    (hfirst : ∀ l, Relation.ReflTransGen (Steps (auxSef P)) (lastColumns m n) l → Safe (auxSef P) a t β α ε δ l)
    (hdec : Decided P fuel a t β α ε δ) {v : List ℚ} (h : fsolve L fuel P = .ok (some v)) :
    NearOptimum P (solutionSlack m ε (m * (t * β) + ε)) v :=
  nearOptimum_of hw he (C159_solve hC hU hL hs hP hc hz ha hγ hN hsef fuel hfirst hdec) h

/-- C161. What `solve` returns in double precision for a program in any other form is near an optimal solution. -/
theorem C161_solve (hC : C.Accurate) (hU : C.Underflows) (hL : Gaussian C L) {P : LP m n} (hw : WF P)
    (he : Exact (toSef P).lp) (hst : Stored binary64 P) (hsef : P.isSef = false) (hs : Scale m a t β γ α ε δ)
    (hP : DoubleData (toSef P).lp a β γ) (ha : 1 ≤ a) (hγ : 1 ≤ γ) (hN : (toSef P).n + m ≤ 100) (fuel : ℕ)
    (hset : Settled (toSef P).lp fuel a t β α ε δ) {v : List ℚ}
    (h : fsolve L fuel P = .ok (some v)) :
    NearOptimum P (mergedSlack (solutionSlack m ε (m * (t * β) + ε)) (m * (t * β))) v :=
  nearOptimum_of hw he (C160_solve hC hU hL hst hw.freeSorted hsef hs hP ha hγ hN fuel hset) h

/-- C161. If there is an optimal solution, `solve` in double precision returns a vector near one. As in exact arithmetic
(C45), the rows of the converted program have to be independent, and the columns tried first no infeasible basis. -/
theorem C161_finds (hC : C.Accurate) (hU : C.Underflows) (hL : Gaussian C L) {P : LP m n} (hw : WF P)
    (he : Exact (toSef P).lp) (he' : Exact (auxSef (toSef P).lp)) (hr : FullRank (toSef P).lp)
    (ht : isBasis (toSef P).lp (tried m (toSef P).n) = .ok true →
      isBasisFeasible (toSef P).lp (tried m (toSef P).n) = .ok true)
    (hst : Stored binary64 P) (hsef : P.isSef = false) (hs : Scale m a t β γ α ε δ)
    (hP : DoubleData (toSef P).lp a β γ) (ha : 1 ≤ a) (hγ : 1 ≤ γ) (hN : (toSef P).n + m ≤ 100) (fuel : ℕ)
    (hf : ((toSef P).n + m) ^ m ≤ fuel)
    (hset : Settled (toSef P).lp fuel a t β α ε δ)
    (hopt : ∃ x, Optimal P x) :
    ∃ v, fsolve L fuel P = .ok (some v) ∧ NearOptimum P (mergedSlack (solutionSlack m ε (m * (t * β) + ε)) (m * (t * β))) v :=
  found_of (C160_solve hC hU hL hst hw.freeSorted hsef hs hP ha hγ hN fuel hset)
    (C45_complete_partial P hw hs.pos he he' hr (fun _ => ht) fuel
      ((Nat.pow_le_pow_left (Nat.le_add_right _ _) _).trans hf) hf hopt)

/-- C161. The same for a program in SEF, where no columns are tried first. -/
theorem C161_finds_sef (hC : C.Accurate) (hU : C.Underflows) (hL : Gaussian C L) {P : LP m n} (hw : WF P)
    (he : Exact (toSef P).lp) (he' : Exact (auxSef (toSef P).lp)) (hr : FullRank (toSef P).lp)
    (hs : Scale m a t β γ α ε δ) (hP : DoubleData P a β γ) (hc : ∀ j, binary64.Rep (P.c j)) (hz : binary64.Rep P.z)
    (ha : 1 ≤ a) (hγ : 1 ≤ γ) (hN : n + m ≤ 100) (hsef : P.isSef = true) (fuel : ℕ)
    (hf : ((toSef P).n + m) ^ m ≤ fuel)
    (hfirst : ∀ l, Relation.ReflTransGen (Steps (auxSef P)) (lastColumns m n) l → Safe (auxSef P) a t β α ε δ l)
    (hdec : Decided P fuel a t β α ε δ) (hopt : ∃ x, Optimal P x) :
    ∃ v, fsolve L fuel P = .ok (some v) ∧ NearOptimum P (solutionSlack m ε (m * (t * β) + ε)) v :=
  found_of (C159_solve hC hU hL hs hP hc hz ha hγ hN hsef fuel hfirst hdec)
    (C45_complete_partial P hw hs.pos he he' hr (fun h => by rw [hsef] at h; cases h) fuel
      ((Nat.pow_le_pow_left (Nat.le_add_right _ _) _).trans hf) hf hopt)

/-! ### Cases -/

theorem intData_of {P : LP m n} {K L : ℕ} (hA : ∀ i j, (P.A i j).den = 1) (hb : ∀ i, (P.b i).den = 1)
    (hc : ∀ j, (P.c j).den = 1) (hK : ∀ B : Fin m → Fin n, |(P.A.submatrix id B).det| ≤ K)
    (hL : ∀ (B : Fin m → Fin n) (i : Fin m), |((P.A.submatrix id B).updateCol i P.b).det| ≤ L) : IntData P K L :=
  ⟨⟨fun i j => (P.A i j).num, fun i => (P.b i).num, fun j => (P.c j).num,
    funext fun i => funext fun j => (Rat.coe_int_num_of_den_eq_one (hA i j)).symm,
    funext fun i => (Rat.coe_int_num_of_den_eq_one (hb i)).symm,
    funext fun j => (Rat.coe_int_num_of_den_eq_one (hc j)).symm⟩, hK, hL⟩

theorem feasibleSample_int : IntData feasibleSample 5 5 :=
  intData_of (by decide +kernel) (by decide +kernel) (by decide +kernel) (by decide +kernel) (by decide +kernel)

theorem feasibleSample_aux_int : IntData (auxSef feasibleSample) 5 5 :=
  intData_of (by decide +kernel) (by decide +kernel) (by decide +kernel) (by decide +kernel) (by decide +kernel)

/-- Whatever `two_phase_simplex` reports on the first program of C159 is right. -/
example (hC : C.Accurate) (hU : C.Underflows) (hL : Gaussian C L) {r : Answer 2 3}
    (h : (ftwoPhase L 9 feasibleSample).1 = .ok r) :
    RightUpTo feasibleSample 3 2 (solutionSlack 2 (1 / 10 ^ 9) ((2 : ℕ) * (1 * 4) + 1 / 10 ^ 9)) r :=
  C161_two_phase hC hU hL ⟨by decide, by decide, by decide, by decide, by decide, by decide⟩
    (exact_of_int feasibleSample_int (by norm_num)) (exact_of_int feasibleSample_aux_int (by norm_num)) sample_scale
    feasibleSample_data (fun j => rep_of_den (by revert j; decide +kernel)) (rep_of_den (by decide +kernel)) (by norm_num)
    (by norm_num) (by norm_num) 9 (fun l hl => feasibleSample_first hl) feasibleSample_decided h

/-- `simplex` comes to an end on it, started at the first two columns. -/
example (hC : C.Accurate) (hU : C.Underflows) (hL : Gaussian C L) : ∃ r, (fsimplex L 9 feasibleSample [1, 2]).1 = .ok r ∧
    RightUpTo feasibleSample 3 2 (solutionSlack 2 (1 / 10 ^ 9) ((2 : ℕ) * (1 * 4) + 1 / 10 ^ 9)) r :=
  C161_terminates hC hU hL ⟨by decide, by decide, by decide, by decide, by decide, by decide⟩
    (exact_of_int feasibleSample_int (by norm_num)) rfl sample_scale feasibleSample_data 9 (by norm_num)
    (by decide +kernel) fun l hl => feasibleSample_second hl

theorem feasibleSample_decided' : Decided feasibleSample 25 3 1 4 (1 / 10) (1 / 10 ^ 9) (1 / 10 ^ 7) := fun x l y h => by
  have h1 : optimalIs (fun _ l _ => decide (l = [1, 2])) (simplex 25 (auxSef feasibleSample) (lastColumns 2 3)).1 =
      true := by decide +kernel
  obtain rfl := of_decide_eq_true (of_optimalIs h1 h)
  exact Or.inl ⟨by with_unfolding_all rfl, fun l' hl => feasibleSample_second hl⟩

/-- And so does `two_phase_simplex`, as the rows are independent. -/
example (hC : C.Accurate) (hU : C.Underflows) (hL : Gaussian C L) : ∃ r, (ftwoPhase L 25 feasibleSample).1 = .ok r :=
  (C161_answers hC hU hL ⟨by decide, by decide, by decide, by decide, by decide, by decide⟩
    (exact_of_int feasibleSample_int (by norm_num)) (exact_of_int feasibleSample_aux_int (by norm_num)) rfl sample_scale
    feasibleSample_data (fun j => rep_of_den (by revert j; decide +kernel)) (rep_of_den (by decide +kernel)) (by norm_num)
    (by norm_num) (by norm_num) 25 (by norm_num) (fun l hl => feasibleSample_first hl) feasibleSample_decided').mpr
    (Or.inl ⟨![0, 1], by unfold Nonsing; decide +kernel⟩)

theorem feasibleSample_rank : FullRank (toSef feasibleSample).lp :=
  show FullRank feasibleSample from ⟨![0, 1], by unfold Nonsing; decide +kernel⟩

theorem feasibleSample_optimal : ∃ x, Optimal feasibleSample x := by
  have e : ∃ v, solve 25 feasibleSample = .ok (some v) := ⟨[0, 2 / 3, 5 / 3], by decide +kernel⟩
  obtain ⟨v, hv⟩ := e
  obtain ⟨x, -, hx⟩ := C44_sound_partial 25 feasibleSample ⟨by decide, by decide, by decide, by decide, by decide, by decide⟩
    (exact_of_int feasibleSample_int (by norm_num)) v hv
  exact ⟨x, hx⟩

/-- `solve` finds a solution of it. -/
example (hC : C.Accurate) (hU : C.Underflows) (hL : Gaussian C L) :
    ∃ v, fsolve L 25 feasibleSample = .ok (some v) ∧
      NearOptimum feasibleSample (solutionSlack 2 (1 / 10 ^ 9) ((2 : ℕ) * (1 * 4) + 1 / 10 ^ 9)) v :=
  C161_finds_sef (P := feasibleSample) hC hU hL ⟨by decide, by decide, by decide, by decide, by decide, by decide⟩
    (exact_of_int feasibleSample_int (by norm_num)) (exact_of_int feasibleSample_aux_int (by norm_num))
    feasibleSample_rank sample_scale
    feasibleSample_data (fun j => rep_of_den (by revert j; decide +kernel)) (rep_of_den (by decide +kernel)) (by norm_num)
    (by norm_num) (by norm_num) rfl 25 (by decide +kernel) (fun l hl => feasibleSample_first hl) feasibleSample_decided'
    feasibleSample_optimal

theorem infeasibleSample_int : IntData infeasibleSample 2 5 :=
  intData_of (by decide +kernel) (by decide +kernel) (by decide +kernel) (by decide +kernel) (by decide +kernel)

theorem infeasibleSample_aux_int : IntData (auxSef infeasibleSample) 2 5 :=
  intData_of (by decide +kernel) (by decide +kernel) (by decide +kernel) (by decide +kernel) (by decide +kernel)

example (hC : C.Accurate) (hU : C.Underflows) (hL : Gaussian C L) {r : Answer 2 2}
    (h : (ftwoPhase L 9 infeasibleSample).1 = .ok r) :
    RightUpTo infeasibleSample 3 2 (solutionSlack 2 (1 / 10 ^ 9) ((2 : ℕ) * (1 * 4) + 1 / 10 ^ 9)) r :=
  C161_two_phase hC hU hL ⟨by decide, by decide, by decide, by decide, by decide, by decide⟩
    (exact_of_int infeasibleSample_int (by norm_num)) (exact_of_int infeasibleSample_aux_int (by norm_num)) sample_scale
    infeasibleSample_data (fun j => rep_of_den (by revert j; decide +kernel)) (rep_of_den (by decide +kernel)) (by norm_num)
    (by norm_num) (by norm_num) 9 (fun l hl => infeasibleSample_first hl) infeasibleSample_decided h

theorem freeSample_wf : WF freeSample := ⟨by decide, by decide, by decide, by decide, by decide, by decide⟩

theorem freeSample_int : IntData (toSef freeSample).lp 2 3 :=
  intData_of (by decide +kernel) (by decide +kernel) (by decide +kernel) (by decide +kernel) (by decide +kernel)

theorem freeSample_aux_int : IntData (auxSef (toSef freeSample).lp) 2 3 :=
  intData_of (by decide +kernel) (by decide +kernel) (by decide +kernel) (by decide +kernel) (by decide +kernel)

/-- `solve` finds a solution of the program of C160. -/
example (hC : C.Accurate) (hU : C.Underflows) (hL : Gaussian C L) :
    ∃ v, fsolve L 9 freeSample = .ok (some v) ∧
      NearOptimum freeSample (mergedSlack (solutionSlack 1 (1 / 10 ^ 11) ((1 : ℕ) * (1 * 3) + 1 / 10 ^ 11)) ((1 : ℕ) * (1 * 3))) v := by
  have he := exact_of_int freeSample_int (by norm_num)
  refine C161_finds hC hU hL freeSample_wf he (exact_of_int freeSample_aux_int (by norm_num))
    ⟨fun _ => ⟨0, by decide +kernel⟩, by unfold Nonsing; decide +kernel⟩
    (fun h => by rw [show tried 1 (toSef freeSample).n = triedColumns 1 (toSef freeSample).n from rfl, freeSample_tried] at h; cases h)
    freeSample_stored rfl freeSample_scale freeSample_data (by norm_num) (by norm_num) (by decide +kernel) 9
    (by decide +kernel) freeSample_settled ?_
  have hs : solve 9 freeSample = .ok (some [3 / 2]) := by decide +kernel
  obtain ⟨x, -, hx⟩ := C44_sound_partial 9 freeSample freeSample_wf he _ hs
  exact ⟨x, hx⟩

end Props
end Pytimize
