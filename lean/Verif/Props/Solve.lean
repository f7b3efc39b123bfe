/-
Properties C44 and C45 (`solve`), the two-phase part of C41 and the certificates of C50.
-/
import Verif.LP.Rank
import Verif.Props.TwoPhase

namespace Pytimize
namespace Props
open LinProg Comparator

variable {m n : ℕ}

/-! ### C41, two phases -/

/-- C41 for calls of `two_phase_simplex` that return. -/
theorem C41_two_phase_returns_partial (fuel : ℕ) (P : LP m n) (a : Answer m n)
    (h : (twoPhase fuel P).1 = .ok a) : (twoPhase fuel P).2 = P := (twoPhase_ok h).2.2.1

/-- After `two_phase_simplex` the program is unchanged, or it is what a call of `simplex` left. -/
theorem twoPhase_state (fuel : ℕ) (P : LP m n) :
    (twoPhase fuel P).2 = P ∨ ∃ l, (twoPhase fuel P).2 = (simplex fuel P l).2 := by
  unfold twoPhase
  by_cases hs : P.isSef = true
  · simp only [hs, Bool.not_true, Bool.false_eq_true, if_false]
    unfold twoPhaseWith
    generalize (simplex fuel (toSef (auxLp P)).lp ((List.range m).map fun i : ℕ => (n : ℤ) + i + 1)).1 = r
    match r with
    | .error e => exact Or.inl rfl
    | .ok (.unbounded _ _) => exact Or.inl rfl
    | .ok (.infeasible _) => exact Or.inl rfl
    | .ok (.optimal x l _) =>
      simp only
      split
      · generalize isBasis P l = b
        match b with
        | .error e => exact Or.inl rfl
        | .ok true => exact Or.inr ⟨_, rfl⟩
        | .ok false =>
          simp only
          generalize completeBasis P ((List.ofFn x).take n) = q
          match q with
          | .error e => exact Or.inl rfl
          | .ok l' => exact Or.inr ⟨_, rfl⟩
      · generalize toCols m (toSef (auxLp P)).n (toArrayIndexing l) = q
        match q with
        | none => exact Or.inl rfl
        | some B => exact Or.inl rfl
  · rw [Bool.not_eq_true] at hs
    simp [hs]

/-- C41 for `two_phase_simplex` on programs without negative right-hand sides, whether it returns or raises. -/
theorem C41_two_phase_nonneg_partial (fuel : ℕ) (P : LP m n) (hb : ∀ i, 0 ≤ P.b i) :
    (twoPhase fuel P).2 = P := by
  rcases twoPhase_state fuel P with h | ⟨l, h⟩
  · exact h
  · rw [h]; exact C41_nonneg_partial fuel P l hb

/-- In every case the program afterwards has the same feasible points and objective. -/
theorem C41_two_phase_equivalent_partial (fuel : ℕ) (P : LP m n) (hP : WF P) :
    (twoPhase fuel P).2.c = P.c ∧ (twoPhase fuel P).2.z = P.z ∧
      ∀ x, Feas (twoPhase fuel P).2 x ↔ Feas P x := by
  rcases twoPhase_state fuel P with h | ⟨l, h⟩
  · rw [h]; simp
  · rw [h]; exact C41_equivalent_partial fuel P hP l

/-- C41 is false for `two_phase_simplex`, too: on `-x₁ - x₂ = -1` given twice it raises and leaves the rows
negated. -/
theorem C41_two_phase_wrong : ∃ P : LP 2 2, WF P ∧ P.isSef = true ∧
    (twoPhase 10 P).1 = .error .valueError ∧ (twoPhase 10 P).2.b ≠ P.b :=
  ⟨⟨!![-1, -1; -1, -1], ![-1, -1], ![1, 0], 0, .max, fun _ => .eq, [], [], true⟩,
    ⟨by decide, by decide, by decide, by decide, by decide, by decide⟩, rfl,
    errOf_some (by decide +kernel), by decide +kernel⟩

/-! ### C50 -/

/-- Does the verifier that belongs to the answer accept its certificate? -/
def passes (P : LP m n) : Answer m n → Except PyErr Bool
  | .optimal _ _ y => verifyOptimality P (List.ofFn y)
  | .infeasible y => verifyInfeasibility P (List.ofFn y)
  | .unbounded x d => verifyUnboundedness P (List.ofFn x) (List.ofFn d)

theorem passes_unbounded {fuel : ℕ} {P : LP m n} (hP : WF P) (he : Exact P) {basis : List ℤ}
    (hb : isBasisFeasible P basis = .ok true) {x d : Fin n → ℚ}
    (h : (simplex fuel P basis).1 = .ok (.unbounded x d)) :
    verifyUnboundedness P (List.ofFn x) (List.ofFn d) = .ok true := by
  obtain ⟨h1, -⟩ := C39_exact_partial fuel P hP he basis hb x d h
  obtain ⟨-, h3, -⟩ := C39_unbounded_partial fuel P hP basis x d h
  obtain ⟨_, hs, D, k, _, hd, -, rfl, hk, hc, -⟩ := simplex_unbounded h
  have hn := isBasis_nonsing hd
  have hx : Feas P x := by simpa using h1 0 le_rfl
  refine C48_accepts P hP hs x _ hx (fun j => ?_) (fun i => congrFun h3 i) ?_
  · by_contra hneg
    rw [not_le] at hneg
    have hxj := hx.nonneg hP hs j
    have := (h1 ((x j + 1) / -(rayOf D (canon P D) k j)) (div_nonneg (by linarith) (by linarith))).nonneg hP hs j
    rw [Pi.add_apply, Pi.smul_apply, smul_eq_mul, div_neg, neg_mul, div_mul_cancel₀ _ (ne_of_lt hneg)] at this
    linarith
  · have := rayOf_cost hn hk
    have h4 : tol ≤ (canon P D).c k := (he.cost D hn k).resolve_left (not_le.mpr hc)
    rw [← this] at h4
    exact h4

/-- C50 for `simplex` started at a feasible basis, on programs clear of the tolerances. Missing: programs with
tiny numbers (`C50_tiny_wrong`). -/
theorem C50_simplex_partial (fuel : ℕ) (P : LP m n) (hP : WF P) (he : Exact P) (basis : List ℤ)
    (hb : isBasisFeasible P basis = .ok true) (a : Answer m n) (h : (simplex fuel P basis).1 = .ok a) :
    passes P a = .ok true := by
  cases a with
  | optimal x l y => exact C50_optimal fuel P hP basis l x y h
  | infeasible y => exact (simplex_not_infeasible h).elim
  | unbounded x d => exact passes_unbounded hP he hb h

/-- C50 for `two_phase_simplex`. -/
theorem C50_two_phase_partial (fuel : ℕ) (P : LP m n) (hP : WF P) (he : Exact P) (he' : Exact (auxSef P))
    (a : Answer m n) (h : (twoPhase fuel P).1 = .ok a) : passes P a = .ok true := by
  have hcor := C42_correct_partial fuel P hP he he' a h
  have htol := C42_tolerance_partial fuel P hP a h
  obtain ⟨hs, hm, -, D, hd, hc, hx, hcase⟩ := twoPhase_ok h
  have hn := isBasis_nonsing hd
  cases a with
  | optimal x l y =>
    refine (verifyOptimality_iff P hs y).mpr fun j => ?_
    exact (htol.1 x l y rfl).2.2.2.2.1 j
  | infeasible y =>
    refine (verifyInfeasibility_iff P hs y).mpr ⟨fun j => lt_of_lt_of_le (neg_lt_zero.mpr tol_pos) (hcor.1 j), ?_⟩
    have h1 := (htol.2.1 y rfl).2.1
    rw [abs_of_neg hcor.2.1] at h1
    unfold tol
    linarith
  | unbounded x d =>
    rcases hcase with ⟨hv, l, hl, hcov⟩ | ⟨_, h'⟩
    · obtain ⟨_, B, hB, hdB⟩ : 0 < m ∧ ∃ B : Fin m → Fin n, toArrayIndexing l = colsList B ∧
          tol ≤ |(colSel P.A B).det| := by
        refine (isBasis_iff P l).mp ?_
        obtain ⟨hsef, hbody, -⟩ := simplex_sef hl
        unfold simplexBody at hbody
        cases hloop : simplexLoop fuel (flipRows (negRows P) P) l with
        | error e => simp [hloop] at hbody
        | ok r =>
          cases fuel with
          | zero => simp [simplexLoop] at hloop
          | succ f =>
            unfold simplexLoop at hloop
            cases hit : simplexIteration (flipRows (negRows P) P) l with
            | error e => simp [hit] at hloop
            | ok r' => exact (isBasis_flip _ _ _).mp (simplexIteration_error hit).2
      have hF := second_start he' hn hx hv hcov hB (isBasis_nonsing hdB)
      exact passes_unbounded hP he (isBasisFeasible_iff.mpr ⟨hm, B, hB, hdB, fun i =>
        lt_of_lt_of_le (by have := tol_pos; linarith) (hF.rhs i)⟩) hl
    · cases h'

/-- C50 for certificates of infeasibility of a single equation, without further assumption. -/
theorem C50_single_row_partial (fuel : ℕ) (P : LP 1 n) (hP : WF P) (y : Fin 1 → ℚ)
    (h : (twoPhase fuel P).1 = .ok (.infeasible y)) : verifyInfeasibility P (List.ofFn y) = .ok true := by
  obtain ⟨h1, h2, h3⟩ := (C42_tolerance_partial fuel P hP _ h).2.1 y rfl
  refine (verifyInfeasibility_iff P (twoPhase_ok h).1 y).mpr ⟨h1, ?_⟩
  unfold tol
  rw [Nat.cast_one, one_mul] at h3
  rcases le_abs.mp h2 with h4 | h4 <;> linarith

/-- `max 0.5e-10 x₁ + x₂` subject to `x₁ + x₃ = 1`: the entering variable is `x₂`, but the certificate is
computed for `x₁`. -/
def tinyRay : LP 1 3 := ⟨!![1, 0, 1], ![1], ![1 / (2 * 10 ^ 10), 1, 0], 0, .max, fun _ => .eq, [], [], true⟩

theorem tinyRay_wf : WF tinyRay := ⟨by decide, by decide, by decide, by decide, by decide, by decide⟩

/-- C50 as stated is false: the certificate returned for this program is rejected. -/
theorem C50_tiny_wrong : (simplex 2 tinyRay [3]).1 = .ok (.unbounded ![0, 0, 1] ![1, 0, -1]) ∧
    verifyUnboundedness tinyRay (List.ofFn ![0, 0, 1]) (List.ofFn ![1, 0, -1]) = .ok false :=
  ⟨unbOf_some (by decide +kernel), by decide +kernel⟩

/-! ### C44 -/

/-- `x` is an optimal solution of `P`. -/
def Optimal (P : LP m n) (x : Fin n → ℚ) : Prop :=
  Feas P x ∧ ∀ x', Feas P x' →
    (P.objective = .max → objVal P x' ≤ objVal P x) ∧ (P.objective = .min → objVal P x ≤ objVal P x')

/-- Optimal solutions of the converted program give optimal solutions of the program. -/
theorem optimal_of_sef {P : LP m n} (hP : WF P) {s : Fin (toSef P).n → ℚ} (hf : Feas (toSef P).lp s)
    (ho : ∀ s', Feas (toSef P).lp s' → objVal (toSef P).lp s' ≤ objVal (toSef P).lp s) :
    ∃ x : Fin n → ℚ, reverseSol (toSef P).rev s = List.ofFn x ∧ Optimal P x := by
  obtain ⟨_, h2, h3⟩ := C32_to_sef_partial P hP
  obtain ⟨x, hx, hxf, hmax, hmin⟩ := h2 s hf
  refine ⟨x, hx, hxf, fun x' hx' => ?_⟩
  obtain ⟨s', hs', he'⟩ := h3 x' hx'
  obtain ⟨x'', hx'', _, hmax', hmin'⟩ := h2 s' hs'
  have hxx : x'' = x' := List.ofFn_injective (hx''.symm.trans he')
  subst hxx
  have := ho s' hs'
  constructor
  · intro hobj; rw [hmax hobj, hmax' hobj] at this; exact this
  · intro hobj; rw [hmin hobj, hmin' hobj] at this; linarith

theorem solution_eq {a : Answer m n} {x : Fin n → ℚ} (h : a.solution = some x) :
    ∃ l y, a = .optimal x l y := by
  cases a with
  | optimal x' l y =>
    simp only [Answer.solution, Option.some.injEq] at h
    subst h
    exact ⟨l, y, rfl⟩
  | unbounded _ _ => cases h
  | infeasible _ => cases h

theorem twoPhase_solution {fuel : ℕ} {P : LP m n} {x : Fin n → ℚ} {l : List ℤ} {y : Fin m → ℚ}
    (h : (twoPhase fuel P).1 = .ok (.optimal x l y)) : ∃ basis, (simplex fuel P basis).1 = .ok (.optimal x l y) := by
  obtain ⟨_, _, _, D, _, _, _, hcase⟩ := twoPhase_ok h
  rcases hcase with ⟨_, l, hl, _⟩ | ⟨_, h'⟩
  · exact ⟨l, hl⟩
  · cases h'

/-- A vector returned by `solve` is the reversal of an optimal answer of `simplex` on the converted
program. -/
theorem solve_some {fuel : ℕ} {P : LP m n} {v : List ℚ} (h : solve fuel P = .ok (some v)) :
    ∃ (s : Fin (toSef P).n → ℚ) (basis l : List ℤ) (y : Fin m → ℚ),
      (simplex fuel (toSef P).lp basis).1 = .ok (.optimal s l y) ∧ v = reverseSol (toSef P).rev s := by
  unfold solve at h
  by_cases hs : P.isSef = true
  · rw [if_pos hs] at h
    have e : toSef P = ⟨n, P, none⟩ := by simp [toSef, hs]
    rw [e]
    generalize ha : (twoPhase fuel P).1 = a at h
    match a, h with
    | .ok a, h =>
      simp only [Except.ok.injEq, Option.map_eq_some_iff] at h
      obtain ⟨x, hx, rfl⟩ := h
      obtain ⟨l, y, rfl⟩ := solution_eq hx
      obtain ⟨basis, hb⟩ := twoPhase_solution ha
      exact ⟨x, basis, l, y, hb, rfl⟩
  · rw [if_neg hs] at h
    generalize toSef P = R at h ⊢
    unfold solveSef at h
    simp only at h
    have htwo : ∀ v, (match (twoPhase fuel R.lp).1 with
        | .error e => (.error e : Except PyErr (Option (List ℚ)))
        | .ok a => .ok (a.solution.map (reverseSol R.rev))) = .ok (some v) →
        ∃ (s : Fin R.n → ℚ) (basis l : List ℤ) (y : Fin m → ℚ),
          (simplex fuel R.lp basis).1 = .ok (.optimal s l y) ∧ v = reverseSol R.rev s := by
      intro v hv
      generalize ha : (twoPhase fuel R.lp).1 = a at hv
      match a, hv with
      | .ok a, hv =>
        simp only [Except.ok.injEq, Option.map_eq_some_iff] at hv
        obtain ⟨x, hx, rfl⟩ := hv
        obtain ⟨l, y, rfl⟩ := solution_eq hx
        obtain ⟨basis, hb⟩ := twoPhase_solution ha
        exact ⟨x, basis, l, y, hb, rfl⟩
    by_cases hmn : m ≤ R.n
    · rw [if_pos hmn] at h
      generalize hb : isBasis R.lp ((List.range (R.n - m)).map fun i : ℕ => (m : ℤ) + i + 1) = b at h
      match b, h with
      | .ok true, h =>
        simp only at h
        generalize ha : (simplex fuel R.lp ((List.range (R.n - m)).map fun i : ℕ => (m : ℤ) + i + 1)).1 = a at h
        match a, h with
        | .error e, h => cases e <;> cases h
        | .ok a, h =>
          simp only [Except.ok.injEq, Option.map_eq_some_iff] at h
          obtain ⟨x, hx, rfl⟩ := h
          obtain ⟨l, y, rfl⟩ := solution_eq hx
          exact ⟨x, _, l, y, ha, rfl⟩
      | .ok false, h => exact htwo v h
    · rw [if_neg hmn] at h
      exact htwo v h

/-- C44 for programs whose SEF stays clear of the tolerances; whatever mixture of inequalities, free and
nonpositive variables. Missing: programs with tiny numbers (`C44_tiny_wrong`). -/
theorem C44_sound_partial (fuel : ℕ) (P : LP m n) (hP : WF P) (he : Exact (toSef P).lp) (v : List ℚ)
    (h : solve fuel P = .ok (some v)) : ∃ x : Fin n → ℚ, v = List.ofFn x ∧ Optimal P x := by
  obtain ⟨s, basis, l, y, hsim, rfl⟩ := solve_some h
  obtain ⟨h1, h2, _⟩ := C38_exact_partial fuel _ hP.toSef he basis l s y hsim
  exact optimal_of_sef hP h1 h2

/-- C44 for integer data, where a bound on the subdeterminants of the SEF is all that is needed. -/
theorem C44_integer_partial (fuel : ℕ) (P : LP m n) (hP : WF P) (K L : ℕ) (hi : IntData (toSef P).lp K L)
    (hKL : (K : ℚ) * K / 10 ^ 8 + (K : ℚ) * L / 10 ^ 5 < 1) (v : List ℚ)
    (h : solve fuel P = .ok (some v)) : ∃ x : Fin n → ℚ, v = List.ofFn x ∧ Optimal P x :=
  C44_sound_partial fuel P hP (exact_of_int hi hKL) v h

/-- C44 as stated is false: on an unbounded program with a tiny cost a vector is returned. -/
theorem C44_tiny_wrong : solve 3 tinyCost = .ok (some [0, 1]) ∧ Unbounded tinyCost :=
  ⟨by decide +kernel, C38_tiny_cost_wrong.2.2⟩

/-- `optimal_value` is the optimal value: it evaluates the objective at an optimal solution. -/
theorem C44_optimal_value_partial (fuel : ℕ) (P : LP m n) (hP : WF P) (he : Exact (toSef P).lp) (q : ℚ)
    (h : optimalValue fuel P = .ok (some q)) : ∃ x : Fin n → ℚ, Optimal P x ∧ objVal P x = q := by
  unfold optimalValue at h
  generalize hs : solve fuel P = r at h
  match r, h with
  | .ok (some v), h =>
    obtain ⟨x, rfl, hx⟩ := C44_sound_partial fuel P hP he v hs
    simp only [evaluate, toVec_ofFn, Except.ok.injEq, Option.some.injEq] at h
    exact ⟨x, hx, h⟩

/-! ### C45 -/

/-- A program with an optimal solution is not unbounded. -/
theorem not_ray {P : LP m n} {s x d : Fin n → ℚ} (ho : ∀ s', Feas P s' → objVal P s' ≤ objVal P s)
    (h1 : ∀ t : ℚ, 0 ≤ t → Feas P (x + t • d))
    (h2 : ∀ M : ℚ, ∃ T : ℚ, ∀ t, T ≤ t → M < objVal P (x + t • d)) : False := by
  obtain ⟨T, hT⟩ := h2 (objVal P s)
  have := ho _ (h1 (max T 0) (le_max_right _ _))
  have := hT (max T 0) (le_max_left _ _)
  linarith

/-- The two-phase method finds an optimal solution if there is one. -/
theorem twoPhase_finds {P : LP m n} (hP : WF P) (hs : P.isSef = true) (hm : 0 < m) (he : Exact P)
    (he' : Exact (auxSef P)) (hr : FullRank P) {fuel : ℕ} (hf : n ^ m ≤ fuel) (hf' : (n + m) ^ m ≤ fuel)
    {s : Fin n → ℚ} (hsf : Feas P s) (ho : ∀ s', Feas P s' → objVal P s' ≤ objVal P s) :
    ∃ x l y, (twoPhase fuel P).1 = .ok (.optimal x l y) := by
  obtain ⟨a, ha⟩ := (C43_answers_partial P hP hs hm he he' fuel hf hf').mpr (Or.inl hr)
  have hcor := C42_correct_partial fuel P hP he he' a ha
  cases a with
  | optimal x l y => exact ⟨x, l, y, ha⟩
  | infeasible y => exact absurd ⟨s, hsf⟩ hcor.2.2
  | unbounded x d => exact (not_ray ho hcor.1 hcor.2).elim

theorem sef_of_optimal {P : LP m n} (hP : WF P) {x : Fin n → ℚ} (h : Optimal P x) :
    ∃ s, Feas (toSef P).lp s ∧ ∀ s', Feas (toSef P).lp s' → objVal (toSef P).lp s' ≤ objVal (toSef P).lp s := by
  obtain ⟨_, h2, h3⟩ := C32_to_sef_partial P hP
  obtain ⟨s, hs, hse⟩ := h3 x h.1
  obtain ⟨x1, hx1, _, hmax, hmin⟩ := h2 s hs
  have hxx : x1 = x := List.ofFn_injective (hx1.symm.trans hse)
  subst hxx
  refine ⟨s, hs, fun s' hs' => ?_⟩
  obtain ⟨x', hx', hxf, hmax', hmin'⟩ := h2 s' hs'
  have := h.2 x' hxf
  cases ho : P.objective with
  | max => rw [hmax ho, hmax' ho]; exact this.1 ho
  | min => rw [hmin ho, hmin' ho]; have := this.2 ho; linarith

/-- The columns `solve` tries first. -/
def tried (m N : ℕ) : List ℤ := (List.range (N - m)).map fun i : ℕ => (m : ℤ) + i + 1

theorem solveSef_finds {R : SefRes m} (hP : WF R.lp) (hs : R.lp.isSef = true) (hm : 0 < m) (he : Exact R.lp)
    (ht : isBasis R.lp (tried m R.n) = .ok true → isBasisFeasible R.lp (tried m R.n) = .ok true) {fuel : ℕ}
    (hf : R.n ^ m ≤ fuel) {s x2 : Fin R.n → ℚ} (hso : ∀ s', Feas R.lp s' → objVal R.lp s' ≤ objVal R.lp s)
    {l2 : List ℤ} {y2 : Fin m → ℚ} (h2 : (twoPhase fuel R.lp).1 = .ok (.optimal x2 l2 y2)) :
    ∃ v, solveSef fuel R = .ok (some v) := by
  unfold solveSef
  simp only [h2, Answer.solution, Option.map_some]
  by_cases hmn : m ≤ R.n
  · rw [if_pos hmn]
    obtain ⟨b, hb⟩ := isBasis_total R.lp hm (tried m R.n)
    unfold tried at hb ht
    cases b with
    | false => exact ⟨reverseSol R.rev x2, by simp only [hb]⟩
    | true =>
      have hfb := ht hb
      obtain ⟨_, B, hB, _, hF⟩ := exact_start he hfb
      obtain ⟨D, _, _, hD⟩ := simplex_exact hs hm he hf hB hF
      simp only [hb]
      rcases hD with ⟨_, h⟩ | ⟨k, _, _, _, h⟩
      · exact ⟨reverseSol R.rev (sol R.lp D), by simp only [h, Option.map_some]⟩
      · have := C39_exact_partial fuel R.lp hP he _ hfb _ _ h
        exact (not_ray hso this.1 this.2).elim
  · rw [if_neg hmn]
    exact ⟨_, rfl⟩

/-- C45 for programs whose SEF stays clear of the tolerances and has independent rows, unless the columns
tried first form a basis that is not feasible. Missing: exactly these cases (`C45_tried_wrong`,
`C45_redundant_wrong`). -/
theorem C45_complete_partial (P : LP m n) (hP : WF P) (hm : 0 < m) (he : Exact (toSef P).lp)
    (he' : Exact (auxSef (toSef P).lp)) (hr : FullRank (toSef P).lp)
    (ht : P.isSef = false → isBasis (toSef P).lp (tried m (toSef P).n) = .ok true →
      isBasisFeasible (toSef P).lp (tried m (toSef P).n) = .ok true)
    (fuel : ℕ) (hf : (toSef P).n ^ m ≤ fuel) (hf' : ((toSef P).n + m) ^ m ≤ fuel)
    (hopt : ∃ x, Optimal P x) :
    ∃ x, solve fuel P = .ok (some (List.ofFn x)) ∧ Optimal P x := by
  suffices ∃ v, solve fuel P = .ok (some v) by
    obtain ⟨v, hv⟩ := this
    obtain ⟨x, rfl, hx⟩ := C44_sound_partial fuel P hP he v hv
    exact ⟨x, hv, hx⟩
  obtain ⟨x, hx⟩ := hopt
  obtain ⟨s, hsf, hso⟩ := sef_of_optimal hP hx
  obtain ⟨x2, l2, y2, h2⟩ := twoPhase_finds hP.toSef (toSef_isSef P) hm he he' hr hf hf' hsf hso
  unfold solve
  by_cases hs : P.isSef = true
  · rw [if_pos hs]
    have e : toSef P = ⟨n, P, none⟩ := by simp [toSef, hs]
    revert x2 h2
    rw [e]
    intro x2 h2
    simp only at h2
    exact ⟨List.ofFn x2, by simp only [h2, Answer.solution, Option.map_some]⟩
  · rw [if_neg hs]
    rw [Bool.not_eq_true] at hs
    exact solveSef_finds hP.toSef (toSef_isSef P) hm he (ht hs) hf hso h2

/-- C45 for programs without equations: their SEF always has independent rows. -/
theorem C45_inequalities_partial (P : LP m n) (hP : WF P) (hm : 0 < m) (hq : ∀ i, P.ineq i ≠ .eq)
    (he : Exact (toSef P).lp) (he' : Exact (auxSef (toSef P).lp))
    (ht : isBasis (toSef P).lp (tried m (toSef P).n) = .ok true →
      isBasisFeasible (toSef P).lp (tried m (toSef P).n) = .ok true)
    (fuel : ℕ) (hf : (toSef P).n ^ m ≤ fuel) (hf' : ((toSef P).n + m) ^ m ≤ fuel)
    (hopt : ∃ x, Optimal P x) :
    ∃ x, solve fuel P = .ok (some (List.ofFn x)) ∧ Optimal P x := by
  refine C45_complete_partial P hP hm he he' ?_ (fun _ => ht) fuel hf hf' hopt
  cases hs : P.isSef with
  | true => exact absurd ((hP.isSef_iff.mp hs).1 ⟨0, hm⟩) (hq _)
  | false => exact exists_nonsing_of_surj _ (sef_surj P hP hq hs)

/-- C45 when the number of columns of the SEF is not twice the number of rows: then the columns tried first
are no basis. -/
theorem C45_shape_partial (P : LP m n) (hP : WF P) (hm : 0 < m) (hr : FullRank (toSef P).lp)
    (hshape : (toSef P).n ≠ 2 * m) (he : Exact (toSef P).lp) (he' : Exact (auxSef (toSef P).lp))
    (fuel : ℕ) (hf : (toSef P).n ^ m ≤ fuel) (hf' : ((toSef P).n + m) ^ m ≤ fuel)
    (hopt : ∃ x, Optimal P x) :
    ∃ x, solve fuel P = .ok (some (List.ofFn x)) ∧ Optimal P x := by
  refine C45_complete_partial P hP hm he he' hr (fun _ h => ?_) fuel hf hf' hopt
  exfalso
  obtain ⟨_, B, hB, _⟩ := (isBasis_iff _ _).mp h
  have := congrArg List.length hB
  rw [length_colsList] at this
  simp only [toArrayIndexing, tried, List.length_map, List.length_range] at this
  omega

/-- The program `min x` subject to `x >= 1`. -/
def triedBad : LP 1 1 := ⟨!![1], ![1], ![1], 0, .min, ![.ge], [], [], false⟩

theorem triedBad_wf : WF triedBad := ⟨by decide, by decide, by decide, by decide, by decide, by decide⟩

/-- C45 as stated is false: `solve` returns `None` for `min x` subject to `x >= 1`, because the slack column
is a basis that is not feasible. -/
theorem C45_tried_wrong : solve 10 triedBad = .ok none ∧ Optimal triedBad ![1] := by
  refine ⟨by decide +kernel, ⟨fun i => ?_, fun j hj => ?_, fun j _ _ => ?_⟩, fun x' hx' => ⟨fun h => ?_, fun _ => ?_⟩⟩
  · fin_cases i; simp [triedBad, rowHolds, Matrix.mulVec, dotProduct]
  · simp [triedBad] at hj
  · fin_cases j; simp
  · cases h
  · have := hx'.rows 0
    simp only [triedBad, rowHolds, Matrix.mulVec, dotProduct, Finset.univ_unique, Fin.default_eq_zero,
      Finset.sum_singleton, Matrix.cons_val_zero, Matrix.of_apply, Matrix.cons_val'] at this
    simp [triedBad, objVal, dotProduct] at this ⊢
    linarith

/-- C45 also fails with an exception on redundant rows. -/
theorem C45_redundant_wrong : solve 10 redundant = .error .valueError ∧ Optimal redundant ![1, 0] := by
  refine ⟨errOf_some (by decide +kernel), C43_redundant_wrong.2.1, fun x' hx' => ⟨fun _ =>
    C43_redundant_wrong.2.2 x' hx', fun h => by cases h⟩⟩

/-! ### The hypotheses are satisfiable -/

theorem sample_aux_int : IntData (auxSef sample) 2 6 where
  data := ⟨!![1, 1, 1, 0, 1, 0; 2, 1, 0, 1, 0, 1], ![4, 6], ![0, 0, 0, 0, -1, -1],
    by ext i j; fin_cases i <;> fin_cases j <;> (norm_num [sample, auxSef, auxLp, negRows, Fin.append, Fin.addCases]; try rfl),
    by funext i; revert i; decide +kernel, by funext j; revert j; decide +kernel⟩
  detK := by decide +kernel
  detL := by decide +kernel

example : Exact sample ∧ Exact (auxSef sample) ∧ FullRank sample ∧
    (twoPhase 20 sample).1 = .ok (.optimal ![2, 2, 0, 0] [1, 2] ![1, 0]) ∧
    solve 20 sample = .ok (some [2, 2, 0, 0]) :=
  ⟨exact_of_int sample_int (by norm_num), exact_of_int sample_aux_int (by norm_num),
    ⟨![2, 3], by unfold Nonsing; decide +kernel⟩, optOf_some (by decide +kernel), by decide +kernel⟩

/-- `max x₁ + x₂` subject to `x₁ + x₂ <= 4`, `2 x₁ + x₂ <= 6`, `x₁ >= 0`, `x₂` free: the SEF has five columns. -/
example : solve 100 (⟨!![1, 1; 2, 1], ![4, 6], ![1, 1], 5, .max, ![.le, .le], [1], [], false⟩ : LP 2 2)
    = .ok (some [2, 2]) := by decide +kernel

end Props
end Pytimize
