/-
C109: exactly what `solve` answers, and a program on which it never does.
-/
import Verif.LP.RankEq
import Verif.Props.IntegerBox

namespace Pytimize
namespace Props

open LinProg Comparator Matrix

variable {m n : ℕ}

theorem no_basis {P : LP m n} (hr : ¬ FullRank P) (hm : 0 < m) (l : List ℤ) : isBasis P l = .ok false := by
  obtain ⟨b, hb⟩ := isBasis_total P hm l
  cases b with
  | false => exact hb
  | true =>
    obtain ⟨_, B, _, hB⟩ := (isBasis_iff P l).mp hb
    exact absurd ⟨B, isBasis_nonsing hB⟩ hr

theorem simplex_no_basis {P : LP m n} (hs : P.isSef = true) (hm : 0 < m) {l : List ℤ} (hb : isBasis P l = .ok false) {fuel : ℕ}
    (hf : 0 < fuel) : (simplex fuel P l).1 = .error .valueError := by
  obtain ⟨f, rfl⟩ : ∃ f, fuel = f + 1 := ⟨fuel - 1, by omega⟩
  have h1 : simplexIteration (flipRows (negRows P) P) l = .error .valueError := by
    have h2 : isBasis (flipRows (negRows P) P) l = .ok false := by
      obtain ⟨b, h⟩ := isBasis_total (flipRows (negRows P) P) hm l
      cases b with
      | false => exact h
      | true =>
        rw [(isBasis_flip _ _ _).mp h] at hb
        cases hb
    unfold simplexIteration
    rw [flipRows_isSef, hs, h2]
    rfl
  unfold simplex
  simp only [hs, Bool.not_true, Bool.false_eq_true, if_false]
  unfold simplexBody simplexLoop
  simp only [h1]

/-- The two-phase method on a feasible program with dependent rows. -/
theorem twoPhase_dependent {P : LP m n} (hP : WF P) (hs : P.isSef = true) (hm : 0 < m)
    (he' : Exact (auxSef P)) {fuel : ℕ} (hf' : (n + m) ^ m ≤ fuel)
    (hr : ¬ FullRank P) (hx : ∃ x, Feas P x) : (twoPhase fuel P).1 = .error .valueError := by
  have hf : 0 < fuel := lt_of_lt_of_le (Nat.pow_pos (by omega)) hf'
  obtain ⟨D, hD, hmono, hcase⟩ := simplex_exact (P := auxSef P) rfl hm he' hf' (aux_basis_list m n)
    (aux_feasBasis P)
  have hfe : Feas (auxSef P) (sol (auxSef P) D) :=
    (feas_sef_iff (aux_wf P) rfl).mpr ⟨sol_eq hD.ns, hD.nonneg⟩
  rcases hcase with ⟨hc, hsim⟩ | ⟨k, hk, hck, hA, -⟩
  · have hxx : ∀ j, -tol < sol (auxSef P) D j := fun j =>
      lt_of_lt_of_le (by have := tol_pos; linarith) (hD.nonneg j)
    have hobj : (auxSef P).c ⬝ᵥ sol (auxSef P) D + (auxSef P).z = objVal (auxSef P) (sol (auxSef P) D) := rfl
    have hv : isCloseToZero (objVal (auxSef P) (sol (auxSef P) D)) = true := by
      obtain ⟨x, hx⟩ := hx
      -- the feasible point, with zero artificial variables, has value `0`
      have hw : Feas (auxSef P) (Fin.append x fun _ => 0) := by
        refine (feas_sef_iff (aux_wf P) rfl).mpr ⟨(aux_eq_iff P _ fun k => Fin.append_right _ _ _).mpr ?_, fun j => ?_⟩
        · simp only [Fin.append_left]
          exact hx.eqs hP hs
        · induction j using Fin.addCases with
          | left j => rw [Fin.append_left]; exact hx.nonneg hP hs j
          | right k => rw [Fin.append_right]
      have h1 : objVal (auxSef P) (Fin.append x fun _ => 0) ≤ objVal (auxSef P) (sol (auxSef P) D) :=
        (optimal_of_cost (aux_wf P) rfl hD hc).2 _ hw
      rw [aux_obj] at h1
      simp only [Fin.append_right, Finset.sum_const_zero, neg_zero] at h1
      have h2 : objVal (auxSef P) (sol (auxSef P) D) ≤ 0 := by
        rw [aux_obj]
        have : 0 ≤ ∑ k' : Fin m, sol (auxSef P) D (Fin.natAdd n k') :=
          Finset.sum_nonneg fun k _ => hD.nonneg _
        linarith
      rw [le_antisymm h2 h1, isCloseToZero_iff, abs_zero]
      exact tol_pos
    unfold twoPhase
    rw [toSef_aux]
    simp only [hs, Bool.not_true, Bool.false_eq_true, if_false]
    unfold twoPhaseWith
    dsimp only
    simp only [hsim, hobj, hv, if_true, no_basis hr hm, take_ofFn]
    -- the support of the point found is too small
    set v : Fin n → ℚ := fun j => sol (auxSef P) D (Fin.castAdd m j) with hvdef
    have hlen : (indicesWhere (List.ofFn v) fun v => !isCloseToZero v).length < m := by
      by_contra hge
      rw [not_lt] at hge
      apply hr
      let S : Finset (Fin n) := Finset.univ.filter fun j => isCloseToZero (v j) = false
      have hSD : ∀ j ∈ S, ∃ i, D i = Fin.castAdd m j := by
        intro j hj
        have := (Finset.mem_filter.mp hj).2
        by_contra hno
        push Not at hno
        simp only [hvdef] at this
        rw [sol_off hD.ns hno] at this
        have h0 : isCloseToZero 0 = true := by rw [isCloseToZero_iff, abs_zero]; exact tol_pos
        rw [h0] at this
        cases this
      have hcard : (indicesWhere (List.ofFn v) fun v => !isCloseToZero v).length ≤ S.card := by
        rw [← List.toFinset_card_of_nodup (nodup_indicesWhere _ _)]
        have himg : (indicesWhere (List.ofFn v) fun v => !isCloseToZero v).toFinset ⊆
            S.image fun j : Fin n => ((j : ℕ) : ℤ) + 1 := by
          intro z hz
          obtain ⟨j, hj, rfl⟩ := mem_indicesWhere.mp (List.mem_toFinset.mp hz)
          exact Finset.mem_image.mpr ⟨j, Finset.mem_filter.mpr ⟨Finset.mem_univ _, by simpa using hj⟩, rfl⟩
        exact (Finset.card_le_card himg).trans Finset.card_image_le
      have hall : ∀ i, ∃ j ∈ S, D i = Fin.castAdd m j := by
        intro i
        have h1 : S.image (Fin.castAdd m) ⊆ Finset.univ.image D := by
          intro z hz
          obtain ⟨j, hj, rfl⟩ := Finset.mem_image.mp hz
          obtain ⟨i, hi⟩ := hSD j hj
          exact Finset.mem_image.mpr ⟨i, Finset.mem_univ _, hi⟩
        have h2 : (Finset.univ.image D).card ≤ (S.image (Fin.castAdd m)).card := by
          rw [Finset.card_image_of_injective _ hD.ns.inj,
            Finset.card_image_of_injective _ (Fin.castAdd_injective _ _), Finset.card_univ,
            Fintype.card_fin]
          omega
        have h3 := Finset.eq_of_subset_of_card_le h1 h2
        have h4 : D i ∈ S.image (Fin.castAdd m) := by
          rw [h3]; exact Finset.mem_image.mpr ⟨i, Finset.mem_univ _, rfl⟩
        obtain ⟨j, hj, hji⟩ := Finset.mem_image.mp h4
        exact ⟨j, hj, hji.symm⟩
      choose E hES hE using hall
      refine ⟨E, ?_⟩
      rw [nonsing_iff]
      refine ⟨fun a b hab => hD.ns.inj (by rw [hE, hE, hab]), fun d hd h0 => ?_⟩
      refine aux_independent hD.ns d hd fun j hj => h0 j fun i hi => hj i ?_
      rw [hE, hi]
    have hcomp : ∃ l, completeBasis P (List.ofFn v) = .ok l := by
      unfold completeBasis
      dsimp only
      rw [if_neg (by omega)]
      generalize indicesWhere (List.ofFn v) isCloseToZero = zs
      generalize indicesWhere (List.ofFn v) (fun v => !isCloseToZero v) = pb at hlen
      obtain ⟨r, hr'⟩ := search_terminates P hm pb zs (m - pb.length) (2 ^ (zs.length + 1))
        ((List.range (zs.length + 1 - (m - pb.length))).reverse.map fun i => (i, [zs.getD i 0]))
        (by
          intro p hp
          obtain ⟨i, hi, rfl⟩ := List.mem_map.mp hp
          rw [List.mem_reverse, List.mem_range] at hi
          show i < zs.length
          omega)
        (stackSize_seeds _ _ (by omega) _)
      rw [hr']
      cases r with
      | some l => exact ⟨l, rfl⟩
      | none => exact ⟨pb, rfl⟩
    obtain ⟨l, hl⟩ := hcomp
    simp only [hl]
    exact simplex_no_basis hs hm (no_basis hr hm l) hf
  · exfalso
    have hub := unbounded_of_ray (aux_wf P) rfl hfe (rayOf_nonneg hD.ns hk hA) (rayOf_ker hD.ns hk)
      (by rw [rayOf_cost hD.ns hk]; exact hck)
    obtain ⟨T, hT⟩ := hub.2 0
    have h1 := hT (max T 0) (le_max_left _ _)
    have h2 := hub.1 (max T 0) (le_max_right _ _)
    rw [aux_obj] at h1
    have : 0 ≤ ∑ k' : Fin m, (sol (auxSef P) D + max T 0 • rayOf D (canon (auxSef P) D) k)
        (Fin.natAdd n k') := Finset.sum_nonneg fun k _ => h2.nonneg (aux_wf P) rfl _
    linarith

/-- The columns `solve` tries first are no basis, or a feasible one: the program is in SEF, or variables, free
variables and inequalities together are not twice as many as rows, or there are no equations and the origin is
feasible. -/
def Regular (P : LP m n) : Prop :=
  P.isSef = true ∨ n + P.free.length + (Finset.univ.filter fun i => P.ineq i ≠ .eq).card ≠ 2 * m ∨
    ((∀ i, P.ineq i ≠ .eq) ∧ Feas P 0)

theorem slackCount_card (q : Fin m → Ineq) :
    slackCount q (List.finRange m) = (Finset.univ.filter fun i => q i ≠ .eq).card := by
  unfold slackCount
  rw [← List.toFinset_card_of_nodup ((List.nodup_finRange m).filter _)]
  congr 1
  ext i
  simp

theorem Regular.tried {P : LP m n} (hP : WF P) (h : Regular P) (hs : P.isSef = false)
    (hb : isBasis (toSef P).lp (tried m (toSef P).n) = .ok true) :
    isBasisFeasible (toSef P).lp (tried m (toSef P).n) = .ok true := by
  rcases h with h | h | ⟨hq, h0⟩
  · rw [hs] at h
    cases h
  · exfalso
    obtain ⟨_, B, hB, _⟩ := (isBasis_iff _ _).mp hb
    have := congrArg List.length hB
    rw [length_colsList] at this
    simp only [toArrayIndexing, Props.tried, List.length_map, List.length_range] at this
    rw [toSef_n P hP, slackCount_card] at this
    have hm : 0 < m := ((isBasis_iff _ _).mp hb).1
    omega
  · exact tried_of_origin hP hq h0 hb

/-- `solve` returns on a program whose SEF gets an answer. -/
theorem solve_returns {P : LP m n} (hP : WF P) (hm : 0 < m) (he : Exact (toSef P).lp) {fuel : ℕ}
    (hf : (toSef P).n ^ m ≤ fuel) (hreg : Regular P) {a : Answer m (toSef P).n}
    (ha : (twoPhase fuel (toSef P).lp).1 = .ok a) : ∃ r, solve fuel P = .ok r := by
  unfold solve
  by_cases hs : P.isSef = true
  · rw [if_pos hs]
    have e : toSef P = ⟨n, P, none⟩ := by simp [toSef, hs]
    revert a
    rw [e]
    intro a ha
    simp only at ha
    simp only [ha]
    exact ⟨_, rfl⟩
  · rw [if_neg hs]
    rw [Bool.not_eq_true] at hs
    have ht := hreg.tried hP hs
    unfold solveSef
    simp only [ha]
    by_cases hmn : m ≤ (toSef P).n
    · rw [if_pos hmn]
      obtain ⟨b, hb⟩ := isBasis_total (toSef P).lp hm (tried m (toSef P).n)
      unfold tried at hb ht
      cases b with
      | false => simp only [hb]; exact ⟨_, rfl⟩
      | true =>
        obtain ⟨_, B, hB, _, hF⟩ := exact_start he (ht hb)
        obtain ⟨D, _, _, hD⟩ := simplex_exact (toSef_isSef P) hm he hf hB hF
        simp only [hb]
        rcases hD with ⟨_, h⟩ | ⟨k, _, _, _, h⟩ <;> (simp only [h]; exact ⟨_, rfl⟩)
    · rw [if_neg hmn]
      exact ⟨_, rfl⟩

theorem feas_toSef {P : LP m n} (hP : WF P) : (∃ s, Feas (toSef P).lp s) ↔ ∃ x, Feas P x := by
  obtain ⟨_, h2, h3⟩ := C32_to_sef_partial P hP
  constructor
  · rintro ⟨s, hs⟩
    obtain ⟨x, _, hx, _⟩ := h2 s hs
    exact ⟨x, hx⟩
  · rintro ⟨x, hx⟩
    obtain ⟨s, hs, _⟩ := h3 x hx
    exact ⟨s, hs⟩

/-- C109 for regular programs with data the tolerances do not blur: exactly what `solve` does. An optimal solution if
there is one and the equations are independent, `None` if there is none (and the equations are independent or the
program is infeasible), `ValueError` for a feasible program with dependent equations. Missing: programs that are not
regular (`C109_none_wrong`, `C109_loops_wrong`). -/
theorem C109_partial (P : LP m n) (hP : WF P) (hm : 0 < m) (r : Fin m → ℕ) (N K β : ℕ) (h : Decimal P r N K β)
    (hreg : Regular P) (fuel : ℕ)
    (hf : (n + P.free.length + (Finset.univ.filter fun i => P.ineq i ≠ .eq).card + m) ^ m ≤ fuel) :
    (EqIndep P → (∃ x, Optimal P x) → ∃ x, solve fuel P = .ok (some (List.ofFn x)) ∧ Optimal P x) ∧
    (EqIndep P → (¬ ∃ x, Optimal P x) → solve fuel P = .ok none) ∧
    ((¬ ∃ x, Feas P x) → solve fuel P = .ok none) ∧
    (¬ EqIndep P → (∃ x, Feas P x) → solve fuel P = .error .valueError) := by
  have hn : (toSef P).n = n + P.free.length + (Finset.univ.filter fun i => P.ineq i ≠ .eq).card := by
    rw [toSef_n P hP, slackCount_card]
  have hf' : ((toSef P).n + m) ^ m ≤ fuel := by rw [hn]; exact hf
  have hf1 : (toSef P).n ^ m ≤ fuel := le_trans (Nat.pow_le_pow_left (by omega) m) hf'
  have hret : (EqIndep P ∨ ¬ ∃ x, Feas P x) → ∃ v, solve fuel P = .ok v := by
    intro hor
    obtain ⟨a, ha⟩ := (C43_answers_partial _ hP.toSef (toSef_isSef P) hm h.exactSef h.exactAux fuel hf1 hf').mpr
      (hor.imp (fullRank_toSef P hP).mpr fun hx => by rwa [feas_toSef hP])
    exact solve_returns hP hm h.exactSef hf1 hreg ha
  have hnone : (EqIndep P ∨ ¬ ∃ x, Feas P x) → (¬ ∃ x, Optimal P x) → solve fuel P = .ok none := by
    intro hor hno
    obtain ⟨v, hv⟩ := hret hor
    cases v with
    | none => exact hv
    | some v =>
      obtain ⟨x, _, hx⟩ := C44_sound_partial fuel P hP h.exactSef v hv
      exact absurd ⟨x, hx⟩ hno
  refine ⟨fun hi ho => ?_, fun hi => hnone (Or.inl hi), fun hx => hnone (Or.inr hx) fun ⟨x, ho⟩ => hx ⟨x, ho.1⟩,
    fun hi hx => ?_⟩
  · exact C45_complete_partial P hP hm h.exactSef h.exactAux ((fullRank_toSef P hP).mpr hi)
      (fun hs hb => hreg.tried hP hs hb) fuel hf1 hf' ho
  · have hr : ¬ FullRank (toSef P).lp := fun hr => hi ((fullRank_toSef P hP).mp hr)
    have htp := twoPhase_dependent hP.toSef (toSef_isSef P) hm h.exactAux hf' hr ((feas_toSef hP).mpr hx)
    unfold solve
    by_cases hs : P.isSef = true
    · rw [if_pos hs]
      have e : toSef P = ⟨n, P, none⟩ := by simp [toSef, hs]
      rw [e] at htp
      simp only at htp
      simp only [htp]
    · rw [if_neg hs]
      unfold solveSef
      simp only [htp, no_basis hr hm]
      split <;> rfl

/-! ### Programs that are not regular -/

/-- C109 as stated is false: `None` for a program with an optimal solution. -/
theorem C109_none_wrong : solve 10 triedBad = .ok none ∧ Optimal triedBad ![1] := C45_tried_wrong

/-- `max x₁ + x₂ - 4 x₃ + 2 x₄` subject to `4 x₁ + 2 x₂ - x₄ <= -4`, `3 x₂ - x₃ + 3 x₄ <= -4`,
`-3 x₁ + x₂ - 3 x₃ <= -2`, `-x₁ - 3 x₂ - 2 x₃ - 3 x₄ <= 1`. -/
def looping : LP 4 4 :=
  ⟨![![4, 2, 0, -1], ![0, 3, -1, 3], ![-3, 1, -3, 0], ![-1, -3, -2, -3]], ![-4, -4, -2, 1], ![1, 1, -4, 2], 0, .max,
    fun _ => .le, [], [], false⟩

theorem looping_wf : WF looping := ⟨by decide, by decide, by decide, by decide, by decide, by decide⟩

/-- The SEF of `looping` as `simplex` sees it, with the signs of the rows with negative right-hand side changed. -/
def loopSef : LP 4 (toSef looping).n := flipRows (negRows (toSef looping).lp) (toSef looping).lp

/-- The bases visited by `simplex`; from the last it goes back to the second. -/
def loopBases : List (List ℤ) :=
  [[5, 6, 7, 8], [1, 6, 7, 8], [2, 6, 7, 8], [2, 4, 6, 8], [1, 2, 4, 8], [1, 2, 4, 5], [1, 4, 5, 7], [1, 5, 6, 7]]

theorem loop_step (l : List ℤ) (h : l ∈ loopBases) :
    ∃ l' ∈ loopBases, nextOf (simplexIteration loopSef l) = some l' := by
  simp only [loopBases, List.mem_cons, List.not_mem_nil, or_false] at h
  rcases h with rfl | rfl | rfl | rfl | rfl | rfl | rfl | rfl
  · exact ⟨[1, 6, 7, 8], by decide, by decide +kernel⟩
  · exact ⟨[2, 6, 7, 8], by decide, by decide +kernel⟩
  · exact ⟨[2, 4, 6, 8], by decide, by decide +kernel⟩
  · exact ⟨[1, 2, 4, 8], by decide, by decide +kernel⟩
  · exact ⟨[1, 2, 4, 5], by decide, by decide +kernel⟩
  · exact ⟨[1, 4, 5, 7], by decide, by decide +kernel⟩
  · exact ⟨[1, 5, 6, 7], by decide, by decide +kernel⟩
  · exact ⟨[1, 6, 7, 8], by decide, by decide +kernel⟩

theorem loop_forever (fuel : ℕ) : ∀ l ∈ loopBases, simplexLoop fuel loopSef l = .error .notTerminated := by
  induction fuel with
  | zero => intro l _; rfl
  | succ f ih =>
    intro l hl
    obtain ⟨l', hl', h⟩ := loop_step l hl
    obtain ⟨C, hC⟩ := nextOf_some h
    unfold simplexLoop
    simp only [hC]
    exact ih l' hl'

/-- C109 and C45 fail for a program with four inequalities in four nonnegative variables: it has an optimal solution,
but however long one waits `solve` does not return. The slack columns are a basis that is not feasible; `simplex` starts
from it nevertheless and repeats seven bases for ever. -/
theorem C109_loops_wrong : Optimal looping ![0, 0, 16, 4] ∧ ∀ fuel, solve fuel looping = .error .notTerminated := by
  constructor
  · refine ⟨⟨fun i => ?_, fun j hj => ?_, fun j _ _ => ?_⟩, fun x' hx' => ⟨fun _ => ?_, fun h => by cases h⟩⟩
    · have : ∀ i, rowHolds .le (looping.A.mulVec ![0, 0, 16, 4] i) (looping.b i) := by
        unfold rowHolds
        decide +kernel
      exact this i
    · simp [looping] at hj
    · revert j; decide +kernel
    · have h0 := hx'.rows 0
      have h1 := hx'.rows 1
      have p0 := hx'.poss 0 (by simp [looping]) (by simp [looping])
      have p1 := hx'.poss 1 (by simp [looping]) (by simp [looping])
      simp [looping, rowHolds, mulVec, dotProduct, Fin.sum_univ_four] at h0 h1
      simp [looping, objVal, dotProduct, Fin.sum_univ_four]
      linarith
  · intro fuel
    have hb : isBasis (toSef looping).lp [5, 6, 7, 8] = .ok true := by decide +kernel
    have ht : ((List.range ((toSef looping).n - 4)).map fun i : ℕ => ((4 : ℕ) : ℤ) + i + 1) = [5, 6, 7, 8] := by
      decide +kernel
    have hl : (simplex fuel (toSef looping).lp [5, 6, 7, 8]).1 = .error .notTerminated := by
      have h := loop_forever fuel [5, 6, 7, 8] (by decide)
      unfold simplex
      simp only [toSef_isSef, Bool.not_true, Bool.false_eq_true, if_false]
      unfold simplexBody
      unfold loopSef at h
      simp only [h]
    unfold solve
    rw [if_neg (by decide)]
    unfold solveSef
    simp only [ht, hb, hl]
    rw [if_pos (by decide +kernel)]

/-! ### The hypotheses are satisfiable -/

/-- `max x₁ + 2 x₂` subject to `x₁ + x₂ = 3`, `x₁ - x₂ >= -1`. -/
def mixedSample : LP 2 2 := ⟨!![1, 1; 1, -1], ![3, -1], ![1, 2], 0, .max, ![.eq, .ge], [], [], false⟩

theorem mixedSample_data : Decimal mixedSample (fun _ => 1) 1 2 3 :=
  Moderate.decimal
    { isInt := ⟨fun i j => ⟨(!![1, 1; 1, -1] : Matrix (Fin 2) (Fin 2) ℤ) i j, by
          fin_cases i <;> fin_cases j <;> norm_num [mixedSample]⟩,
        fun i => ⟨(![3, -1] : Fin 2 → ℤ) i, by fin_cases i <;> norm_num [mixedSample]⟩,
        fun j => ⟨(![1, 2] : Fin 2 → ℤ) j, by fin_cases j <;> norm_num [mixedSample]⟩⟩
      subdet := subdet_of_le (by decide +kernel)
      rhs := by decide +kernel
      small := by norm_num }

example : WF mixedSample ∧ Regular mixedSample ∧ EqIndep mixedSample ∧ solve 25 mixedSample = .ok (some [1, 2]) := by
  refine ⟨⟨by decide, by decide, by decide, by decide, by decide, by decide⟩, Or.inr (Or.inl (by decide)),
    fun y h1 h2 i => ?_, by decide +kernel⟩
  have e1 := h1 1 (by decide)
  have e0 := h2 0
  simp [mixedSample, Fin.sum_univ_two, e1] at e0
  fin_cases i
  · exact e0
  · exact e1

/-- `x₁ + x₂ = 1` written twice, and `x₁ <= 1`. -/
def doubleSample : LP 3 2 := ⟨!![1, 1; 1, 1; 1, 0], ![1, 1, 1], ![1, 0], 0, .max, ![.eq, .eq, .le], [], [], false⟩

theorem doubleSample_data : Decimal doubleSample (fun _ => 1) 1 2 1 :=
  Moderate.decimal
    { isInt := ⟨fun i j => ⟨(!![1, 1; 1, 1; 1, 0] : Matrix (Fin 3) (Fin 2) ℤ) i j, by
          fin_cases i <;> fin_cases j <;> norm_num [doubleSample]⟩,
        fun i => ⟨(![1, 1, 1] : Fin 3 → ℤ) i, by fin_cases i <;> norm_num [doubleSample]⟩,
        fun j => ⟨(![1, 0] : Fin 2 → ℤ) j, by fin_cases j <;> norm_num [doubleSample]⟩⟩
      subdet := subdet_of_le (by decide +kernel)
      rhs := by decide +kernel
      small := by norm_num }

example : WF doubleSample ∧ Regular doubleSample ∧ ¬ EqIndep doubleSample ∧ Feas doubleSample ![1, 0] ∧
    errOf (solve 216 doubleSample) = some .valueError := by
  refine ⟨⟨by decide, by decide, by decide, by decide, by decide, by decide⟩, Or.inr (Or.inl (by decide)),
    fun h => ?_, ⟨fun i => ?_, fun j hj => ?_, fun j _ _ => ?_⟩, by decide +kernel⟩
  · have := h ![1, -1, 0] (by decide +kernel) (by decide +kernel) 0
    norm_num at this
  · fin_cases i <;> simp [doubleSample, rowHolds, mulVec, dotProduct, Fin.sum_univ_two]
  · simp [doubleSample] at hj
  · revert j; decide +kernel

end Props
end Pytimize
