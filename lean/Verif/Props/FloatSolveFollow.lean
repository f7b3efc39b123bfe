/-
C160: `solve` in double precision, for programs in any form.
-/
import Verif.Float.ReverseNear
import Verif.Props.FloatTwoPhase

namespace Pytimize
namespace Props
open LinProg Floating Matrix Comparator

variable {m n : ℕ} {C : Libm} {L : Lapack binary64} {a t β γ α ε δ : ℚ}

/-! ### Specification -/

/-- The columns `solve` tries first. -/
def triedColumns (m k : ℕ) : List ℤ := (List.range (k - m)).map fun i : ℕ => (m : ℤ) + i + 1

/-- No decision of `solve` on the converted program is close: neither whether the tried columns are a basis, nor in the
method that follows. -/
structure Settled {k : ℕ} (P : LP m k) (fuel : ℕ) (a t β α ε δ : ℚ) : Prop where
  tried : m ≤ k → Safe P a t β α ε δ (triedColumns m k)
  direct : m ≤ k → isBasis P (triedColumns m k) = .ok true →
    ∀ l, Relation.ReflTransGen (Steps P) (triedColumns m k) l → Safe P a t β α ε δ l
  first : ¬ (m ≤ k ∧ isBasis P (triedColumns m k) = .ok true) →
    ∀ l, Relation.ReflTransGen (Steps (auxSef P)) (lastColumns m k) l → Safe (auxSef P) a t β α ε δ l
  second : ¬ (m ≤ k ∧ isBasis P (triedColumns m k) = .ok true) → Decided P fuel a t β α ε δ

/-! ### Proof -/

/-- The solutions the exact method ends with are bounded, because the inverses are. -/
theorem simplex_bounded {P : LP m n} (hb : ∀ i, |P.b i| ≤ β) (ha : 0 ≤ a) {fuel : ℕ} {basis l : List ℤ} {x : Fin n → ℚ}
    {y : Fin m → ℚ} (hsafe : ∀ l, Relation.ReflTransGen (Steps P) basis l → Safe P a t β α ε δ l)
    (h : (simplex fuel P basis).1 = .ok (.optimal x l y)) (j : Fin n) : |x j| ≤ m * (t * β) := by
  obtain ⟨l0, B, hl0, hN0, hd, hlB, -⟩ := simplex_last h
  obtain ⟨hm, -, D, -, -, rfl, hlD, -⟩ := simplex_optimal h
  obtain rfl : B = D := by
    refine LinProg.colsList_inj ?_
    have h1 := congrArg toArrayIndexing (hlB.symm.trans hlD)
    rwa [toArrayIndexing_succ, toArrayIndexing_succ] at h1
  have h0 : Nonsing P B := isBasis_nonsing hd
  rcases hsafe l0 hl0 B hN0 with h1 | ⟨-, ⟨N, hN1, hNt⟩, -⟩
  · exfalso
    have h2 : 0 ≤ detAccuracy m a := by
      unfold detAccuracy
      positivity
    unfold tol at hd
    norm_num at hd h1
    linarith
  · have ht : 0 ≤ t := (abs_nonneg _).trans (hNt ⟨0, hm⟩ ⟨0, hm⟩)
    have hβ : 0 ≤ β := (abs_nonneg _).trans (hb ⟨0, hm⟩)
    rw [← inverse_of hN1] at hNt
    by_cases hj : ∃ i, B i = j
    · obtain ⟨i, rfl⟩ := hj
      rw [sol_apply h0]
      exact canon_rhs ht hb hNt i
    · push Not at hj
      rw [sol_off h0 hj, abs_zero]
      positivity

theorem slack_nonneg (hs : Scale m a t β γ α ε δ) (h : 0 ≤ m * (t * β)) : 0 ≤ solutionSlack m ε (m * (t * β) + ε) := by
  have hε : 0 ≤ ε := by
    refine le_trans ?_ hs.table
    have e : productSlack m a t a = 2 * m * (100 * m ^ 3 * (m + 2) * 4 ^ m * (a * t) ^ 2 / 2 ^ 52) + 1 / 2 ^ 500 := by
      unfold productSlack inverseAccuracy
      ring
    rw [e]
    positivity
  unfold solutionSlack identitySlack inverseAccuracy
  positivity

theorem twoPhase_bounded {P : LP m n} (hs : Scale m a t β γ α ε δ) (hP : DoubleData P a β γ) (ha : 1 ≤ a) (hγ : 1 ≤ γ)
    {fuel : ℕ} {l : List ℤ} {x : Fin n → ℚ} {y : Fin m → ℚ}
    (hfirst : ∀ l, Relation.ReflTransGen (Steps (auxSef P)) (lastColumns m n) l → Safe (auxSef P) a t β α ε δ l)
    (hdec : Decided P fuel a t β α ε δ)
    (h : (twoPhase fuel P).1 = .ok (.optimal x l y)) (j : Fin n) : |x j| ≤ m * (t * β) := by
  have hm := (twoPhase_ok h).2.1
  unfold twoPhase at h
  split at h
  · cases h
  rw [toSef_aux] at h
  unfold twoPhaseWith at h
  unfold Decided at hdec
  unfold lastColumns at hdec hfirst
  simp only at h
  cases h2 : (simplex fuel (auxSef P) ((List.range m).map fun i : ℕ => (n : ℤ) + i + 1)).1 with
  | error e => rw [h2] at h; cases h
  | ok r =>
    rw [h2] at h
    cases r with
    | unbounded x d => cases h
    | infeasible y => cases h
    | optimal x' l' y' =>
      simp only [aux_z, add_zero] at h
      rcases hdec _ _ _ h2 with ⟨hbasis, hsecond⟩ | ⟨χ, hχ, hv⟩
      · split at h
        · rw [hbasis] at h
          exact simplex_bounded hP.b (zero_le_one.trans ha) hsecond h j
        · split at h <;> cases h
      · have hχ0 : 0 ≤ χ := (abs_nonneg _).trans (hχ (Fin.natAdd n ⟨0, hm⟩))
        have hξ := slack_nonneg hs ((abs_nonneg _).trans
          (simplex_bounded (aux_data hP ha hγ).b (zero_le_one.trans ha) hfirst h2 (Fin.natAdd n ⟨0, hm⟩)))
        have hslack := valueSlack_nonneg (k := n + m) hξ hχ0
        have f2 : isCloseToZero ((auxSef P).c ⬝ᵥ x') = false := by
          refine isCloseToZero_high ?_
          rw [show (auxSef P).c ⬝ᵥ x' = -∑ k : Fin m, x' (Fin.natAdd n k) from aux_value P x', abs_neg, le_abs]
          left
          linarith
        rw [f2, if_neg Bool.false_ne_true] at h
        split at h <;> cases h

theorem back_near {P : LP m n} (hfree : P.free.Pairwise (· < ·)) {k d : ℕ} {ξ υ χ : ℚ}
    {r r' : Answer m k} (h : SameOutcome ξ υ (.ok r) (.ok r')) (hrep : ∀ x l y, r = .optimal x l y → ∀ j, binary64.Rep (x j))
    (hχ : ∀ x l y, r' = .optimal x l y → ∀ j, |x j| ≤ χ) :
    SameSolution (mergedSlack ξ χ) (.ok (r.solution.map (freverseSol binary64 (some ⟨d, concatOf P.free 0, P.neg⟩))))
      (.ok (r'.solution.map (reverseSol (some ⟨d, concatOf P.free 0, P.neg⟩)))) := by
  cases r <;> cases r' <;> first | exact h.elim | exact trivial | skip
  next x l y x' l' y' =>
    obtain ⟨-, hx, -⟩ := h
    have hχ' := hχ x' l' y' rfl
    rcases Nat.eq_zero_or_pos k with rfl | hk
    · show List.Forall₂ _ (freverseSol binary64 _ x) (reverseSol _ x')
      unfold freverseSol reverseSol
      simp only [Nat.zero_sub, List.range_zero, List.map_nil]
      exact List.Forall₂.nil
    · exact reverseSol_near hfree (hrep x l y rfl) hx hχ' ((abs_nonneg _).trans (hx ⟨0, hk⟩))
        ((abs_nonneg _).trans (hχ' ⟨0, hk⟩))

/-- C160. `solve` in double precision on a program in any form: if the data are doubles and no decision of the exact method
on the converted program is close, then it raises the same errors, returns `None` in the same cases, and otherwise returns
the solution of the exact method up to rounding. -/
theorem C160_solve (hC : C.Accurate) (hU : C.Underflows) (hL : Gaussian C L) {P : LP m n} (hst : Stored binary64 P)
    (hfree : P.free.Pairwise (· < ·)) (hsef : P.isSef = false) (hs : Scale m a t β γ α ε δ)
    (hP : DoubleData (toSef P).lp a β γ) (ha : 1 ≤ a) (hγ : 1 ≤ γ) (hN : (toSef P).n + m ≤ 100) (fuel : ℕ)
    (hset : Settled (toSef P).lp fuel a t β α ε δ) :
    SameSolution (mergedSlack (solutionSlack m ε (m * (t * β) + ε)) (m * (t * β))) (fsolve L fuel P) (solve fuel P) := by
  obtain ⟨e, hst'⟩ := ftoSef_eq rep_one hst
  have hrev : (toSef P).rev = some ⟨((List.finRange m).filter fun i => decide (P.ineq i ≠ .eq)).length,
      concatOf P.free 0, P.neg⟩ := by
    unfold toSef
    rw [if_neg (by rw [hsef]; exact Bool.false_ne_true)]
  unfold fsolve solve
  rw [if_neg (by rw [hsef]; exact Bool.false_ne_true), if_neg (by rw [hsef]; exact Bool.false_ne_true), e]
  generalize toSef P = R at *
  obtain ⟨k, Q, rev⟩ := R
  simp only at hrev hP hN hset hst'
  subst hrev
  have htwo : ¬ (m ≤ k ∧ isBasis Q (triedColumns m k) = .ok true) →
      SameSolution (mergedSlack (solutionSlack m ε (m * (t * β) + ε)) (m * (t * β)))
        (match (ftwoPhase L fuel Q).1 with
          | .error e => .error e
          | .ok a => .ok (a.solution.map (freverseSol binary64
              (some ⟨((List.finRange m).filter fun i => decide (P.ineq i ≠ .eq)).length, concatOf P.free 0, P.neg⟩))))
        (match (twoPhase fuel Q).1 with
          | .error e => .error e
          | .ok a => .ok (a.solution.map (reverseSol
              (some ⟨((List.finRange m).filter fun i => decide (P.ineq i ≠ .eq)).length, concatOf P.free 0, P.neg⟩)))) := by
    intro hno
    have h := (C159_two_phase hC hU hL hs hP hst'.c hst'.z ha hγ hN fuel (hset.first hno) (hset.second hno)).1
    cases h1 : (ftwoPhase L fuel Q).1 with
    | error e =>
      cases h2 : (twoPhase fuel Q).1 with
      | error e' => rw [h1, h2] at h; exact h
      | ok r' => rw [h1, h2] at h; cases r' <;> exact h.elim
    | ok r =>
      cases h2 : (twoPhase fuel Q).1 with
      | error e' => rw [h1, h2] at h; cases r <;> exact h.elim
      | ok r' =>
        rw [h1, h2] at h
        refine back_near hfree h (fun x l y e => ?_) fun x l y e => ?_
        · subst e; exact ftwoPhase_rep h1
        · subst e
          exact twoPhase_bounded hs hP ha hγ (hset.first hno) (hset.second hno) h2
  unfold fsolveSef solveSef
  simp only
  by_cases hmk : m ≤ k
  · rw [if_pos hmk, if_pos hmk]
    have hbasis : fisBasis L Q (triedColumns m k) = isBasis Q (triedColumns m k) := by
      refine C156_is_basis hC hU hL hs.toSmallSquare hP.A _ fun B hB => ?_
      have hN : Names (triedColumns m k) B := by rw [Names, ← show triedColumns m k = _ from hB]
      rcases hset.tried hmk B hN with h | h
      · exact Or.inr h
      · exact Or.inl h.1
    have hdirect := hset.direct hmk
    have hrun := fun hb => (C157_simplex hC hU hL hs hP fuel (hdirect hb)).1
    unfold triedColumns at hbasis htwo hrun
    rw [hbasis]
    cases hb : isBasis Q ((List.range (k - m)).map fun i : ℕ => (m : ℤ) + i + 1) with
    | error e => exact rfl
    | ok v =>
      cases v with
      | false =>
        have h := htwo fun h => by rw [hb] at h; cases h.2
        revert h
        cases (ftwoPhase L fuel Q).1 <;> cases (twoPhase fuel Q).1 <;> exact id
      | true =>
        simp only
        have h := hrun hb
        cases h1 : (fsimplex L fuel Q ((List.range (k - m)).map fun i : ℕ => (m : ℤ) + i + 1)).1 with
        | error e =>
          cases h2 : (simplex fuel Q ((List.range (k - m)).map fun i : ℕ => (m : ℤ) + i + 1)).1 with
          | error e' =>
            rw [h1, h2] at h
            obtain rfl : e = e' := h
            cases e <;> first | exact rfl | exact trivial
          | ok r' => rw [h1, h2] at h; cases r' <;> exact h.elim
        | ok r =>
          cases h2 : (simplex fuel Q ((List.range (k - m)).map fun i : ℕ => (m : ℤ) + i + 1)).1 with
          | error e' => rw [h1, h2] at h; cases r <;> exact h.elim
          | ok r' =>
            rw [h1, h2] at h
            refine back_near hfree (sameOutcome_of h) (fun x l y e => ?_) fun x l y e => ?_
            · subst e; exact fsimplex_rep h1
            · subst e; exact simplex_bounded hP.b (zero_le_one.trans ha) (hdirect hb) h2
  · rw [if_neg hmk, if_neg hmk]
    have h := htwo fun h => hmk h.1
    revert h
    cases (ftwoPhase L fuel Q).1 <;> cases (twoPhase fuel Q).1 <;> exact id

/-! ### A case -/

/-- `max x` subject to `2 x <= 3`, `x` free: the conversion splits the variable and adds a slack variable. -/
def freeSample : LP 1 1 where
  A := !![2]
  b := ![3]
  c := ![1]
  z := 0
  ineq _ := .le
  neg := []
  free := [0]
  objective := .max
  isSef := false

theorem freeSample_scale : Scale 1 2 1 3 1 (1 / 4) (1 / 10 ^ 11) (5 / 10 ^ 11) where
  pos := by norm_num
  size := by norm_num
  low := by decide +kernel
  high := by decide +kernel
  digits := by decide +kernel
  noOverflow := by decide +kernel
  accuracy := by decide +kernel
  table := by decide +kernel
  rhs := by decide +kernel
  costs := by decide +kernel
  small := by decide +kernel
  identity := by decide +kernel
  least := by decide +kernel
  twice := by decide +kernel
  unit := by decide +kernel

theorem freeSample_stored : Stored binary64 freeSample :=
  ⟨fun i j => rep_of_den (by revert i j; decide +kernel), fun i => rep_of_den (by revert i; decide +kernel),
    fun j => rep_of_den (by revert j; decide +kernel), rep_of_den (by decide +kernel)⟩

theorem freeSample_data : DoubleData (toSef freeSample).lp 2 3 1 where
  repA i j := rep_of_den (by revert i j; decide +kernel)
  repb i := rep_of_den (by revert i; decide +kernel)
  A := by decide +kernel
  b := by decide +kernel
  c := by decide +kernel

theorem freeSample_slacks : ratioSlack (1 / 10 ^ 11) (1 / 4) ((1 : ℕ) * (1 * 3) + 1 / 10 ^ 11) ≤ 1 / 10 ^ 4 ∧
    solutionSlack 1 (1 / 10 ^ 11) ((1 : ℕ) * (1 * 3) + 1 / 10 ^ 11) ≤ 1 / 10 ^ 4 := by decide +kernel

theorem freeSample_first {l : List ℤ}
    (h : Relation.ReflTransGen (Steps (auxSef (toSef freeSample).lp)) (lastColumns 1 (toSef freeSample).n) l) :
    Safe (auxSef (toSef freeSample).lp) 2 1 3 (1 / 4) (1 / 10 ^ 11) (5 / 10 ^ 11) l := by
  have hv := visits_of (V := [[4], [1]]) (visits_check (by decide +kernel)) (by decide +kernel) h
  have k1 : ∀ B : Fin 1 → Fin ((toSef freeSample).n + 1), ([4] : List ℤ).Perm (List.ofFn fun i => ((B i : ℕ) : ℤ) + 1) →
      SafeCheck (auxSef (toSef freeSample).lp) 2 1 (1 / 4) (1 / 10 ^ 11) (5 / 10 ^ 11) B := by decide +kernel
  have k2 : ∀ B : Fin 1 → Fin ((toSef freeSample).n + 1), ([1] : List ℤ).Perm (List.ofFn fun i => ((B i : ℕ) : ℤ) + 1) →
      SafeCheck (auxSef (toSef freeSample).lp) 2 1 (1 / 4) (1 / 10 ^ 11) 0 B ∧
        ∀ i, (auxSef (toSef freeSample).lp).c (B i) = 0 := by
    decide +kernel
  simp only [List.mem_cons, List.not_mem_nil, or_false] at hv
  rcases hv with rfl | rfl
  · exact safe_of freeSample_slacks.1 freeSample_slacks.2 _ (Or.inl rfl) k1
  · exact safe_of freeSample_slacks.1 freeSample_slacks.2 _
      (Or.inr ⟨rfl, fun j => rep_of_den (by revert j; decide +kernel), fun B hB => (k2 B hB).2⟩) fun B hB => (k2 B hB).1

theorem freeSample_second {l : List ℤ} (h : Relation.ReflTransGen (Steps (toSef freeSample).lp) [1] l) :
    Safe (toSef freeSample).lp 2 1 3 (1 / 4) (1 / 10 ^ 11) (5 / 10 ^ 11) l := by
  have hv := visits_of (V := [[1]]) (visits_check (by decide +kernel)) (by decide +kernel) h
  have k1 : ∀ l ∈ ([[1]] : List (List ℤ)), ∀ B : Fin 1 → Fin (toSef freeSample).n,
      l.Perm (List.ofFn fun i => ((B i : ℕ) : ℤ) + 1) →
      SafeCheck (toSef freeSample).lp 2 1 (1 / 4) (1 / 10 ^ 11) (5 / 10 ^ 11) B := by decide +kernel
  exact safe_of freeSample_slacks.1 freeSample_slacks.2 _ (Or.inl rfl) (k1 _ hv)

theorem freeSample_tried : isBasis (toSef freeSample).lp (triedColumns 1 (toSef freeSample).n) = .ok false := by
  with_unfolding_all rfl

theorem freeSample_settled : Settled (toSef freeSample).lp 9 2 1 3 (1 / 4) (1 / 10 ^ 11) (5 / 10 ^ 11) where
  tried _ B hB := by
    have h := hB.length_eq
    have h1 : (triedColumns 1 (toSef freeSample).n).length = 2 := by decide +kernel
    rw [h1, List.length_ofFn] at h
    cases h
  direct _ h := by rw [freeSample_tried] at h; cases h
  first _ l hl := freeSample_first hl
  second _ x l y h := by
    have h1 : optimalIs (fun _ l _ => decide (l = [1]))
        (simplex 9 (auxSef (toSef freeSample).lp) (lastColumns 1 (toSef freeSample).n)).1 = true := by
      decide +kernel
    obtain rfl := of_decide_eq_true (of_optimalIs h1 h)
    exact Or.inl ⟨by with_unfolding_all rfl, fun l' hl => freeSample_second hl⟩

/-- `solve` in double precision solves the program. -/
example (hC : C.Accurate) (hU : C.Underflows) (hL : Gaussian C L) :
    ∃ v, fsolve L 9 freeSample = .ok (some [v]) ∧ |v - 3 / 2| ≤ 1 / 10 ^ 9 := by
  have h := C160_solve hC hU hL freeSample_stored (by decide) rfl freeSample_scale freeSample_data (by norm_num)
    (by norm_num) (by decide +kernel) 9 freeSample_settled
  have e : solve 9 freeSample = .ok (some [3 / 2]) := by
    have h1 : (match solve 9 freeSample with
      | .ok (some v) => decide (v = [3 / 2])
      | _ => false) = true := by decide +kernel
    revert h1
    cases solve 9 freeSample with
    | error e => intro h1; cases h1
    | ok v =>
      cases v with
      | none => intro h1; cases h1
      | some v => intro h1; rw [of_decide_eq_true h1]
  rw [e] at h
  revert h
  cases fsolve L 9 freeSample with
  | error e => exact fun h => h.elim
  | ok v =>
    cases v with
    | none => exact fun h => h.elim
    | some v =>
      intro h
      cases h with
      | cons h1 h2 =>
        cases h2
        exact ⟨_, rfl, h1.trans (by decide +kernel)⟩

end Props
end Pytimize
