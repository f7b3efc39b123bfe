/-
C159: `two_phase_simplex` in double precision decides as the exact method does when no decision is close.
-/
import Verif.Float.OffBasis
import Verif.Float.Descent

namespace Pytimize
namespace Props
open LinProg Floating Matrix Comparator

variable {m n : ℕ} {C : Libm} {L : Lapack binary64} {a t β γ α ε δ : ℚ}

/-! ### Specification -/

/-- The same outcome: the same error, or the same kind of answer. An optimal answer has the same basis, the solution up to
`ξ` and the certificate up to `υ`; an infeasible one has the certificate up to `υ`. -/
def SameOutcome (ξ υ : ℚ) : Except PyErr (Answer m n) → Except PyErr (Answer m n) → Prop
  | .ok (.infeasible y), .ok (.infeasible y') => ∀ i, |y i - y' i| ≤ υ
  | r, r' => SameAnswer ξ υ r r'

/-- The same solution: the same error, both `None`, or vectors of the same length that differ by at most `ξ`. -/
def SameSolution (ξ : ℚ) : Except PyErr (Option (List ℚ)) → Except PyErr (Option (List ℚ)) → Prop
  | .error e, .error e' => e = e'
  | .ok none, .ok none => True
  | .ok (some x), .ok (some x') => List.Forall₂ (fun v v' => |v - v'| ≤ ξ) x x'
  | _, _ => False

/-- The accuracy of the value of the auxiliary program in `k` variables of size `χ` known up to `ξ`. -/
def valueSlack (k : ℕ) (ξ χ : ℚ) : ℚ := k * ξ + (k + 2) / 2 ^ 52 * (k * (χ + ξ)) + 1 / 2 ^ 500

/-- The columns added for the auxiliary program. -/
def lastColumns (m n : ℕ) : List ℤ := (List.range m).map fun i : ℕ => (n : ℤ) + i + 1

/-- The first phase leaves no doubt: it ends at a basis of the program itself, from where no decision is close, or the
program is clearly infeasible. -/
def Decided (P : LP m n) (fuel : ℕ) (a t β α ε δ : ℚ) : Prop :=
  ∀ x l y, (simplex fuel (auxSef P) (lastColumns m n)).1 = .ok (.optimal x l y) →
    (isBasis P l = .ok true ∧ ∀ l', Relation.ReflTransGen (Steps P) l l' → Safe P a t β α ε δ l') ∨
    ∃ χ, (∀ j, |x j| ≤ χ) ∧
      11 / 10 ^ 11 + valueSlack (n + m) (solutionSlack m ε (m * (t * β) + ε)) χ ≤ ∑ k : Fin m, x (Fin.natAdd n k)

/-! ### Proof -/

theorem sameOutcome_of {ξ υ : ℚ} {r r' : Except PyErr (Answer m n)} (h : SameAnswer ξ υ r r') : SameOutcome ξ υ r r' := by
  cases r with
  | error e => exact h
  | ok r =>
    cases r' with
    | error e => cases r <;> exact h
    | ok r' => cases r <;> cases r' <;> first | exact h | exact h.elim

theorem aux_data {P : LP m n} (hP : DoubleData P a β γ) (ha : 1 ≤ a) (hγ : 1 ≤ γ) : DoubleData (auxSef P) a β γ where
  repA i j := by
    refine Fin.addCases (fun j => ?_) (fun k => ?_) j
    · rw [aux_A_left]; exact (hP.flip _).repA i j
    · rw [aux_A_right]; split
      · exact rep_one
      · exact rep_zero
  repb i := by rw [aux_b]; exact (hP.flip _).repb i
  A i j := by
    refine Fin.addCases (fun j => ?_) (fun k => ?_) j
    · rw [aux_A_left]; exact (hP.flip _).A i j
    · rw [aux_A_right]; split
      · rw [abs_one]; exact ha
      · rw [abs_zero]; linarith
  b i := by rw [aux_b]; exact (hP.flip _).b i
  c j := by
    refine Fin.addCases (fun j => ?_) (fun k => ?_) j
    · rw [aux_c_left, abs_zero]; linarith
    · rw [aux_c_right, abs_neg, abs_one]; exact hγ

theorem aux_z (P : LP m n) : (auxSef P).z = 0 := rfl

/-- The artificial columns are no columns of a basis of the program. -/
theorem artificial_off {P : LP m n} {l : List ℤ} (h : isBasis P l = .ok true) (k : Fin m) :
    (((Fin.natAdd n k : Fin (n + m)) : ℕ) : ℤ) + 1 ∉ l := by
  intro hk
  unfold isBasis at h
  simp only at h
  split at h
  · cases h
  · split at h
    · cases h
    · split at h
      · cases h
      · next B ht =>
        have h1 := toCols_iff.mp ht
        have h2 : ((n + (k : ℕ) : ℕ) : ℤ) ∈ sortInt (toArrayIndexing l) := by
          refine (List.perm_insertionSort _ _).mem_iff.mpr ?_
          unfold toArrayIndexing
          exact List.mem_map.mpr ⟨_, hk, by simp⟩
        rw [h1] at h2
        obtain ⟨i, hi⟩ := List.mem_ofFn.mp h2
        have := (B i).isLt
        omega

theorem value_products {P : LP m n} {l : List ℤ} {x : Fin (n + m) → ℚ} (h : isBasis P l = .ok true)
    (hx : ∀ j : Fin (n + m), ((j : ℕ) : ℤ) + 1 ∉ l → x j = 0) (j : Fin (n + m)) : (auxSef P).c j * x j = 0 := by
  refine Fin.addCases (fun j => ?_) (fun k => ?_) j
  · rw [aux_c_left, zero_mul]
  · rw [hx _ (artificial_off h k), mul_zero]

theorem aux_value (P : LP m n) (x : Fin (n + m) → ℚ) :
    ∑ j, (auxSef P).c j * x j = -∑ k : Fin m, x (Fin.natAdd n k) := by
  rw [Fin.sum_univ_add]
  simp only [aux_c_left, aux_c_right, zero_mul, Finset.sum_const_zero, zero_add, neg_one_mul, Finset.sum_neg_distrib]

/-- The computed value of the auxiliary program. -/
theorem value_near (P : LP m n) (hm : 1 ≤ m) (hN : n + m ≤ 100) {x x' : Fin (n + m) → ℚ} {ξ χ r : ℚ}
    (hx : ∀ j, |x j - x' j| ≤ ξ) (hχ : ∀ j, |x' j| ≤ χ) (h : DotVal binary64 (auxSef P).c x r) :
    |r + ∑ k : Fin m, x' (Fin.natAdd n k)| ≤ valueSlack (n + m) ξ χ := by
  have hc : ∀ j, |(auxSef P).c j| ≤ 1 := by
    intro j
    refine Fin.addCases (fun j => ?_) (fun k => ?_) j
    · rw [aux_c_left, abs_zero]; norm_num
    · rw [aux_c_right, abs_neg, abs_one]
  have h1 := near_dot (q := (auxSef P).c) (ε := 0) (s := 1) (β := χ + ξ) (by omega) hN h
    (fun k => by rw [sub_self, abs_zero]) hc (fun j => by
      have := abs_add_le (x' j) (x j - x' j)
      rw [add_sub_cancel] at this
      linarith [hx j, hχ j])
  have h2 : |∑ j, (auxSef P).c j * x j - ∑ j, (auxSef P).c j * x' j| ≤ ((n + m : ℕ) : ℚ) * ξ := by
    rw [← Finset.sum_sub_distrib]
    refine (Finset.abs_sum_le_sum_abs _ _).trans (sum_le_card fun j => ?_)
    rw [← mul_sub, abs_mul]
    calc |(auxSef P).c j| * |x j - x' j| ≤ 1 * |x j - x' j| := mul_le_mul_of_nonneg_right (hc j) (abs_nonneg _)
      _ ≤ ξ := by rw [one_mul]; exact hx j
  rw [aux_value P x'] at h2
  have h3 := abs_add_le (r - ∑ j, (auxSef P).c j * x j) (∑ j, (auxSef P).c j * x j - -∑ k : Fin m, x' (Fin.natAdd n k))
  rw [sub_add_sub_cancel, sub_neg_eq_add] at h3
  unfold valueSlack
  rw [zero_mul, mul_zero, zero_add, add_zero, one_mul] at h1
  generalize (1 : ℚ) / 2 ^ 500 = τ at *
  linarith

theorem closeToZero_high {v : ℚ} (h : 11 / 10 ^ 11 ≤ |v|) : closeToZero binary64 v = false := by
  unfold closeToZero
  rw [decide_eq_false_iff_not, not_lt]
  exact (zeroTol_bounds fine_binary64).2.trans (le_trans (by norm_num) h)

theorem isCloseToZero_high {v : ℚ} (h : 11 / 10 ^ 11 ≤ |v|) : isCloseToZero v = false := by
  unfold isCloseToZero tol
  rw [decide_eq_false_iff_not, not_lt]
  exact le_trans (by norm_num) h

theorem closeToZero_zero : closeToZero binary64 0 = true := by
  unfold closeToZero
  rw [decide_eq_true_iff, abs_zero]
  exact lt_of_lt_of_le (by norm_num) (zeroTol_bounds fine_binary64).1

theorem valueSlack_nonneg {k : ℕ} {ξ χ : ℚ} (hξ : 0 ≤ ξ) (hχ : 0 ≤ χ) : 0 ≤ valueSlack k ξ χ := by
  unfold valueSlack
  positivity

/-- C159. `two_phase_simplex` in double precision: if no decision of the exact method is close, in the first phase and in
the second, and the first phase ends at a basis of the program or with a clearly positive infeasibility, then it reports
the same: the same error, unboundedness, infeasibility with the exact certificate up to rounding, or an optimum with the
same basis. The program object is left in the same state. -/
theorem C159_two_phase (hC : C.Accurate) (hU : C.Underflows) (hL : Gaussian C L) {P : LP m n}
    (hs : Scale m a t β γ α ε δ) (hP : DoubleData P a β γ) (hc : ∀ j, binary64.Rep (P.c j)) (hz : binary64.Rep P.z)
    (ha : 1 ≤ a) (hγ : 1 ≤ γ) (hN : n + m ≤ 100) (fuel : ℕ)
    (hfirst : ∀ l, Relation.ReflTransGen (Steps (auxSef P)) (lastColumns m n) l → Safe (auxSef P) a t β α ε δ l)
    (hdec : Decided P fuel a t β α ε δ) :
    SameOutcome (solutionSlack m ε (m * (t * β) + ε)) (productSlack m a t γ) (ftwoPhase L fuel P).1 (twoPhase fuel P).1 ∧
      (ftwoPhase L fuel P).2 = (twoPhase fuel P).2 := by
  obtain ⟨e1, s1⟩ := fauxLp_eq rep_one (P := P) ⟨hP.repA, hP.repb, hc, hz⟩
  have hA := aux_data hP ha hγ
  unfold ftwoPhase twoPhase
  split
  · exact ⟨rfl, rfl⟩
  rw [e1, (ftoSef_eq rep_one s1).1, toSef_aux]
  unfold ftwoPhaseWith twoPhaseWith
  simp only
  have hrun := (C157_simplex hC hU hL hs hA fuel hfirst).1
  have hdec' := hdec
  unfold Decided at hdec'
  unfold lastColumns at hrun hdec'
  cases h1 : (fsimplex L fuel (auxSef P) ((List.range m).map fun i : ℕ => (n : ℤ) + i + 1)).1 with
  | error e =>
    cases h2 : (simplex fuel (auxSef P) ((List.range m).map fun i : ℕ => (n : ℤ) + i + 1)).1 with
    | error e' => rw [h1, h2] at hrun; exact ⟨hrun, rfl⟩
    | ok r' => rw [h1, h2] at hrun; cases r' <;> exact hrun.elim
  | ok r =>
    cases h2 : (simplex fuel (auxSef P) ((List.range m).map fun i : ℕ => (n : ℤ) + i + 1)).1 with
    | error e' => rw [h1, h2] at hrun; cases r <;> exact hrun.elim
    | ok r' =>
      rw [h1, h2] at hrun
      cases r <;> cases r' <;> first | exact hrun.elim | exact ⟨rfl, rfl⟩ | skip
      next x l y x' l' y' =>
        obtain ⟨rfl, hx, -⟩ := hrun
        obtain ⟨l0, B, hl0, hN0, hd, hlB, hoff⟩ := simplex_last h2
        simp only [aux_z, add_zero]
        have hdot := L.dot_val (auxSef P).c x
        rw [dotVal_rep hdot]
        rcases hdec' _ _ _ h2 with ⟨hb, hsecond⟩ | ⟨χ, hχ, hv⟩
        · have v1 : L.dot (auxSef P).c x = 0 :=
            hdot.zero (value_products hb fun j hj => fsimplex_off h1 hj)
          have v2 : (auxSef P).c ⬝ᵥ x' = 0 := Finset.sum_eq_zero fun j _ => value_products hb hoff j
          have hbasis : fisBasis L P l = isBasis P l := by
            refine C156_is_basis hC hU hL hs.toSmallSquare hP.A l fun B hB => ?_
            have hN : Names l B := by rw [Names, ← show l = _ from hB]
            rcases hsecond l .refl B hN with h | h
            · exact Or.inr h
            · exact Or.inl h.1
          have v3 : isCloseToZero 0 = true := by decide +kernel
          rw [v1, v2, closeToZero_zero, v3, if_pos rfl, if_pos rfl, hbasis, hb]
          simp only
          obtain ⟨k1, k2⟩ := C157_simplex hC hU hL hs hP fuel hsecond
          exact ⟨sameOutcome_of k1, k2⟩
        · have hnear := value_near P hs.pos hN hx hχ hdot
          have hξ0 : 0 ≤ solutionSlack m ε (m * (t * β) + ε) := (abs_nonneg _).trans (hx (Fin.natAdd n ⟨0, hs.pos⟩))
          have hχ0 : 0 ≤ χ := (abs_nonneg _).trans (hχ (Fin.natAdd n ⟨0, hs.pos⟩))
          have hslack := valueSlack_nonneg (k := n + m) hξ0 hχ0
          generalize valueSlack (n + m) (solutionSlack m ε (m * (t * β) + ε)) χ = ν at *
          have f1 : closeToZero binary64 (L.dot (auxSef P).c x) = false := by
            refine closeToZero_high ?_
            obtain ⟨h3, h4⟩ := abs_le.mp hnear
            rw [le_abs]
            right
            linarith
          have f2 : isCloseToZero ((auxSef P).c ⬝ᵥ x') = false := by
            refine isCloseToZero_high ?_
            rw [show (auxSef P).c ⬝ᵥ x' = -∑ k : Fin m, x' (Fin.natAdd n k) from aux_value P x', abs_neg, le_abs]
            left
            linarith
          have h0 : Nonsing (auxSef P) B := isBasis_nonsing hd
          rw [f1, f2, if_neg Bool.false_ne_true, if_neg Bool.false_ne_true, hlB, toArrayIndexing_succ, toCols_colsList]
          simp only
          rcases hfirst l0 hl0 B hN0 with h | ⟨-, ⟨N, hN1, hNt⟩, -⟩
          · exfalso
            have h2 : 0 ≤ detAccuracy m a := by
              unfold detAccuracy
              positivity
            unfold tol at hd
            norm_num at hd h
            linarith
          · rw [← inverse_of hN1] at hNt
            obtain ⟨y2, hy, hyd⟩ := dual_near hL hs hA h0 hNt (negRows P)
            rw [hy]
            exact ⟨hyd, rfl⟩

/-- C159. `solve` on a program in SEF. -/
theorem C159_solve (hC : C.Accurate) (hU : C.Underflows) (hL : Gaussian C L) {P : LP m n}
    (hs : Scale m a t β γ α ε δ) (hP : DoubleData P a β γ) (hc : ∀ j, binary64.Rep (P.c j)) (hz : binary64.Rep P.z)
    (ha : 1 ≤ a) (hγ : 1 ≤ γ) (hN : n + m ≤ 100) (hsef : P.isSef = true) (fuel : ℕ)
    (hfirst : ∀ l, Relation.ReflTransGen (Steps (auxSef P)) (lastColumns m n) l → Safe (auxSef P) a t β α ε δ l)
    (hdec : Decided P fuel a t β α ε δ) :
    SameSolution (solutionSlack m ε (m * (t * β) + ε)) (fsolve L fuel P) (solve fuel P) := by
  have h := (C159_two_phase hC hU hL hs hP hc hz ha hγ hN fuel hfirst hdec).1
  unfold fsolve solve
  rw [if_pos hsef, if_pos hsef]
  revert h
  cases (ftwoPhase L fuel P).1 with
  | error e =>
    cases (twoPhase fuel P).1 with
    | error e' => exact fun h => h
    | ok r' => intro h; cases r' <;> exact h.elim
  | ok r =>
    cases (twoPhase fuel P).1 with
    | error e' => intro h; cases r <;> exact h.elim
    | ok r' =>
      intro h
      cases r <;> cases r' <;> first | exact h.elim | exact trivial | skip
      next x l y x' l' y' =>
        obtain ⟨-, hx, -⟩ := h
        show List.Forall₂ _ (List.ofFn x) (List.ofFn x')
        rw [List.forall₂_iff_get]
        refine ⟨by simp, fun i h1 h2 => ?_⟩
        simpa using hx _

/-! ### Cases -/

/-- Two steps in the first phase, one in the second. -/
def feasibleSample : LP 2 3 where
  A := !![3, 1, 2; 1, 2, 1]
  b := ![4, 3]
  c := ![1, 1, 2]
  z := 0
  ineq _ := .eq
  neg := []
  free := []
  objective := .max
  isSef := true

/-- One step in the first phase, and two units of infeasibility are left. -/
def infeasibleSample : LP 2 2 where
  A := !![1, 2; 1, 1]
  b := ![1, 3]
  c := ![1, 1]
  z := 0
  ineq _ := .eq
  neg := []
  free := []
  objective := .max
  isSef := true

theorem sample_scale : Scale 2 3 1 4 2 (1 / 10) (1 / 10 ^ 9) (1 / 10 ^ 7) where
  pos := by norm_num
  size := by norm_num
  low := by decide +kernel
  high := by decide +kernel
  digits := by decide +kernel
  noOverflow := by decide +kernel
  accuracy := by decide +kernel
  table := by decide +kernel
  rhs := by decide +kernel
  costs := by decide +kernel
  small := by decide +kernel
  identity := by decide +kernel
  least := by decide +kernel
  twice := by decide +kernel
  unit := by decide +kernel

theorem feasibleSample_data : DoubleData feasibleSample 3 4 2 where
  repA i j := rep_of_den (by revert i j; decide +kernel)
  repb i := rep_of_den (by revert i; decide +kernel)
  A := by decide +kernel
  b := by decide +kernel
  c := by decide +kernel

theorem infeasibleSample_data : DoubleData infeasibleSample 3 4 2 where
  repA i j := rep_of_den (by revert i j; decide +kernel)
  repb i := rep_of_den (by revert i; decide +kernel)
  A := by decide +kernel
  b := by decide +kernel
  c := by decide +kernel

theorem sample_slacks : ratioSlack (1 / 10 ^ 9) (1 / 10) ((2 : ℕ) * (1 * 4) + 1 / 10 ^ 9) ≤ 1 / 10 ^ 4 ∧
    solutionSlack 2 (1 / 10 ^ 9) ((2 : ℕ) * (1 * 4) + 1 / 10 ^ 9) ≤ 1 / 10 ^ 4 := by decide +kernel

theorem feasibleSample_first {l : List ℤ} (h : Relation.ReflTransGen (Steps (auxSef feasibleSample)) (lastColumns 2 3) l) :
    Safe (auxSef feasibleSample) 3 1 4 (1 / 10) (1 / 10 ^ 9) (1 / 10 ^ 7) l := by
  have hv := visits_of (V := [[4, 5], [1, 5], [1, 2]]) (visits_check (by decide +kernel)) (by decide +kernel) h
  have k1 : ∀ l ∈ ([[4, 5], [1, 5]] : List (List ℤ)), ∀ B : Fin 2 → Fin (3 + 2),
      l.Perm (List.ofFn fun i => ((B i : ℕ) : ℤ) + 1) →
      SafeCheck (auxSef feasibleSample) 3 1 (1 / 10) (1 / 10 ^ 9) (1 / 10 ^ 7) B := by decide +kernel
  have k2 : ∀ B : Fin 2 → Fin (3 + 2), ([1, 2] : List ℤ).Perm (List.ofFn fun i => ((B i : ℕ) : ℤ) + 1) →
      SafeCheck (auxSef feasibleSample) 3 1 (1 / 10) (1 / 10 ^ 9) 0 B ∧ ∀ i, (auxSef feasibleSample).c (B i) = 0 := by
    decide +kernel
  simp only [List.mem_cons, List.not_mem_nil, or_false] at hv
  rcases hv with rfl | rfl | rfl
  · exact safe_of sample_slacks.1 sample_slacks.2 _ (Or.inl rfl) (k1 _ (by decide))
  · exact safe_of sample_slacks.1 sample_slacks.2 _ (Or.inl rfl) (k1 _ (by decide))
  · exact safe_of sample_slacks.1 sample_slacks.2 _
      (Or.inr ⟨rfl, fun j => rep_of_den (by revert j; decide +kernel), fun B hB => (k2 B hB).2⟩) fun B hB => (k2 B hB).1

theorem feasibleSample_second {l : List ℤ} (h : Relation.ReflTransGen (Steps feasibleSample) [1, 2] l) :
    Safe feasibleSample 3 1 4 (1 / 10) (1 / 10 ^ 9) (1 / 10 ^ 7) l := by
  have hv := visits_of (V := [[1, 2], [2, 3]]) (visits_check (by decide +kernel)) (by decide +kernel) h
  have k1 : ∀ l ∈ ([[1, 2], [2, 3]] : List (List ℤ)), ∀ B : Fin 2 → Fin 3,
      l.Perm (List.ofFn fun i => ((B i : ℕ) : ℤ) + 1) →
      SafeCheck feasibleSample 3 1 (1 / 10) (1 / 10 ^ 9) (1 / 10 ^ 7) B := by decide +kernel
  exact safe_of sample_slacks.1 sample_slacks.2 _ (Or.inl rfl) (k1 _ hv)

theorem infeasibleSample_first {l : List ℤ}
    (h : Relation.ReflTransGen (Steps (auxSef infeasibleSample)) (lastColumns 2 2) l) :
    Safe (auxSef infeasibleSample) 3 1 4 (1 / 10) (1 / 10 ^ 9) (1 / 10 ^ 7) l := by
  have hv := visits_of (V := [[3, 4], [1, 4]]) (visits_check (by decide +kernel)) (by decide +kernel) h
  have k1 : ∀ l ∈ ([[3, 4], [1, 4]] : List (List ℤ)), ∀ B : Fin 2 → Fin (2 + 2),
      l.Perm (List.ofFn fun i => ((B i : ℕ) : ℤ) + 1) →
      SafeCheck (auxSef infeasibleSample) 3 1 (1 / 10) (1 / 10 ^ 9) (1 / 10 ^ 7) B := by decide +kernel
  exact safe_of sample_slacks.1 sample_slacks.2 _ (Or.inl rfl) (k1 _ hv)

theorem feasibleSample_decided : Decided feasibleSample 9 3 1 4 (1 / 10) (1 / 10 ^ 9) (1 / 10 ^ 7) := by
  intro x l y h
  have h1 : optimalIs (fun _ l _ => decide (l = [1, 2])) (simplex 9 (auxSef feasibleSample) (lastColumns 2 3)).1 = true := by
    decide +kernel
  obtain rfl := of_decide_eq_true (of_optimalIs h1 h)
  exact Or.inl ⟨by with_unfolding_all rfl, fun l' hl => feasibleSample_second hl⟩

theorem infeasibleSample_decided : Decided infeasibleSample 9 3 1 4 (1 / 10) (1 / 10 ^ 9) (1 / 10 ^ 7) := by
  intro x l y h
  have h1 : optimalIs (fun x _ _ => decide (x = ![1, 0, 0, 2]))
      (simplex 9 (auxSef infeasibleSample) (lastColumns 2 2)).1 = true := by
    decide +kernel
  obtain rfl := of_decide_eq_true (of_optimalIs h1 h)
  exact Or.inr ⟨2, by decide +kernel, by decide +kernel⟩

/-- `two_phase_simplex` in double precision solves the first program. -/
example (hC : C.Accurate) (hU : C.Underflows) (hL : Gaussian C L) :
    ∃ x y, (ftwoPhase L 9 feasibleSample).1 = .ok (.optimal x [2, 3] y) ∧
      ∀ j, |x j - ![0, 2 / 3, 5 / 3] j| ≤ 1 / 10 ^ 4 := by
  have h := (C159_two_phase hC hU hL sample_scale feasibleSample_data
    (fun j => rep_of_den (by revert j; decide +kernel)) (rep_of_den (by decide +kernel)) (by norm_num) (by norm_num)
    (by norm_num) 9 (fun l hl => feasibleSample_first hl) feasibleSample_decided).1
  have h1 : optimalIs (fun x l _ => decide (x = ![0, 2 / 3, 5 / 3] ∧ l = [2, 3])) (twoPhase 9 feasibleSample).1 = true := by
    decide +kernel
  revert h h1
  cases (twoPhase 9 feasibleSample).1 with
  | error e => intro _ h1; cases h1
  | ok r' =>
    cases r' with
    | unbounded x d => intro _ h1; cases h1
    | infeasible y => intro _ h1; cases h1
    | optimal x' l' y' =>
      intro h h1
      obtain ⟨rfl, rfl⟩ := of_decide_eq_true h1
      revert h
      cases (ftwoPhase L 9 feasibleSample).1 with
      | error e => exact fun h => h.elim
      | ok r =>
        cases r with
        | unbounded x d => exact fun h => h.elim
        | infeasible y => exact fun h => h.elim
        | optimal x l y =>
          rintro ⟨rfl, hx, -⟩
          exact ⟨x, y, rfl, fun j => (hx j).trans sample_slacks.2⟩

/-- `two_phase_simplex` in double precision finds the second program infeasible, with nearly the exact certificate. -/
example (hC : C.Accurate) (hU : C.Underflows) (hL : Gaussian C L) :
    ∃ y, (ftwoPhase L 9 infeasibleSample).1 = .ok (.infeasible y) ∧ ∀ i, |y i - ![1, -1] i| ≤ 1 / 10 ^ 4 := by
  have h := (C159_two_phase hC hU hL sample_scale infeasibleSample_data
    (fun j => rep_of_den (by revert j; decide +kernel)) (rep_of_den (by decide +kernel)) (by norm_num) (by norm_num)
    (by norm_num) 9 (fun l hl => infeasibleSample_first hl) infeasibleSample_decided).1
  have h1 : (match (twoPhase 9 infeasibleSample).1 with
    | .ok (.infeasible y) => decide (y = ![1, -1])
    | _ => false) = true := by decide +kernel
  revert h h1
  cases (twoPhase 9 infeasibleSample).1 with
  | error e => intro _ h1; cases h1
  | ok r' =>
    cases r' with
    | unbounded x d => intro _ h1; cases h1
    | optimal x l y => intro _ h1; cases h1
    | infeasible y' =>
      intro h h1
      obtain rfl := of_decide_eq_true h1
      revert h
      cases (ftwoPhase L 9 infeasibleSample).1 with
      | error e => exact fun h => h.elim
      | ok r =>
        cases r with
        | unbounded x d => exact fun h => h.elim
        | optimal x l y => exact fun h => h.elim
        | infeasible y => exact fun hy => ⟨y, rfl, fun i => (hy i).trans (by decide +kernel)⟩

end Props
end Pytimize
