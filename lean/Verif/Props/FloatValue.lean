/-
C162: `optimal_value` in double precision.
-/
import Verif.Float.Value
import Verif.Props.FloatOptimal

namespace Pytimize
namespace Props
open LinProg Floating Matrix Comparator

variable {m n : ℕ} {C : Libm} {L : Lapack binary64} {a t β γ α ε δ κ ζ : ℚ}

/-! ### Specification -/

/-- The accuracy of `c x` if the costs are up to `κ` and the `n` entries of `x`, up to `χ`, are known up to `ξ`. -/
def productAccuracy (n : ℕ) (κ ξ χ : ℚ) : ℚ := n * (κ * ξ) + (n + 2) / 2 ^ 52 * (n * (κ * (χ + ξ))) + 1 / 2 ^ 500

/-- The accuracy of `c x + z` with `z` up to `ζ`. -/
def valueAccuracy (n : ℕ) (κ ζ ξ χ : ℚ) : ℚ :=
  productAccuracy n κ ξ χ + 1 / 2 ^ 53 * (n * (κ * χ) + productAccuracy n κ ξ χ + ζ) + 1 / 2 ^ 1075

/-- The same error, both `None`, or a number within `η` of the optimal value of the program, which is attained. -/
def SameValue (P : LP m n) (η : ℚ) : Except PyErr (Option ℚ) → Except PyErr (Option ℚ) → Prop
  | .error e, .error e' => e = e'
  | .ok none, .ok none => True
  | .ok (some q), .ok (some _) => (∃ x, Optimal P x) ∧ ∀ x, Optimal P x → |q - objVal P x| ≤ η
  | _, _ => False

/-! ### Proof -/

theorem eval_near {P : LP m n} {v x : Fin n → ℚ} {ξ χ : ℚ} (hn : 1 ≤ n) (hn' : n ≤ 100) (hc : ∀ j, |P.c j| ≤ κ)
    (hz : |P.z| ≤ ζ) (hx : ∀ j, |v j - x j| ≤ ξ) (hχ : ∀ j, |x j| ≤ χ) :
    |binary64.rd (L.dot P.c v + P.z) - objVal P x| ≤ valueAccuracy n κ ζ ξ χ := by
  have h1 := near_dot (q := P.c) (ε := 0) (s := κ) (β := χ + ξ) hn hn' (L.dot_val P.c v)
    (fun k => by rw [sub_self, abs_zero]) hc (fun j => by
      have := abs_add_le (x j) (v j - x j)
      rw [add_sub_cancel] at this
      linarith [hx j, hχ j])
  have h2 := dot_diff hc hx
  have h3 : |P.c ⬝ᵥ x| ≤ n * (κ * χ) := by
    have := dot_diff (x := x) (x' := 0) hc (fun j => by rw [Pi.zero_apply, sub_zero]; exact hχ j)
    rwa [dotProduct_zero, sub_zero] at this
  have h4 : |L.dot P.c v - P.c ⬝ᵥ x| ≤ productAccuracy n κ ξ χ := by
    have h5 := abs_add_le (L.dot P.c v - P.c ⬝ᵥ v) (P.c ⬝ᵥ v - P.c ⬝ᵥ x)
    rw [sub_add_sub_cancel] at h5
    have h6 : |L.dot P.c v - P.c ⬝ᵥ v| ≤ _ := h1
    unfold productAccuracy
    rw [zero_mul, mul_zero, zero_add, add_zero] at h6
    generalize (1 : ℚ) / 2 ^ 500 = τ at *
    linarith
  have h5 : |L.dot P.c v + P.z - objVal P x| ≤ productAccuracy n κ ξ χ := by
    unfold objVal
    rwa [add_sub_add_right_eq_sub]
  have h6 : |L.dot P.c v + P.z| ≤ n * (κ * χ) + productAccuracy n κ ξ χ + ζ := by
    have h7 := abs_add_le (L.dot P.c v - P.c ⬝ᵥ x) (P.c ⬝ᵥ x)
    rw [sub_add_cancel] at h7
    have h8 := abs_add_le (L.dot P.c v) P.z
    linarith
  have h7 := binary64.err (L.dot P.c v + P.z)
  have h8 := abs_add_le (binary64.rd (L.dot P.c v + P.z) - (L.dot P.c v + P.z)) (L.dot P.c v + P.z - objVal P x)
  rw [sub_add_sub_cancel] at h8
  have h9 := mul_le_mul_of_nonneg_left h6 binary64.u_nonneg
  unfold valueAccuracy
  have e1 : binary64.u = 1 / 2 ^ 53 := rfl
  have e2 : binary64.tiny = 1 / 2 ^ 1075 := rfl
  rw [e1] at h7 h9
  rw [e2] at h7
  generalize (1 : ℚ) / 2 ^ 1075 = τ at *
  linarith

theorem mergeCode_bounded (l : List ℕ) (i p : ℕ) {f : ℕ → ℚ} {χ : ℚ} (hl : l.Pairwise fun a b => a + 2 ≤ b)
    (hp : ∀ a ∈ l, i + p ≤ a) (h1 : ∀ j, |f j| ≤ 2 * χ) (h2 : ∀ j, p ≤ j → |f j| ≤ χ) (j : ℕ) :
    |mergeCode l i f j| ≤ 2 * χ := by
  induction l generalizing i p f with
  | nil => exact h1 j
  | cons a l ih =>
    obtain ⟨ha, hl'⟩ := List.pairwise_cons.mp hl
    have hpa := hp a List.mem_cons_self
    rw [mergeCode]
    refine ih (i + 1) (a - i + 1) hl' (fun b hb => ?_) (fun j => ?_) fun j hj => ?_
    · have := ha b hb
      omega
    · unfold mergeAt
      split
      · exact h1 j
      · split
        · have h3 := h2 (a - i) (by omega)
          have h4 := h2 (a - i + 1) (by omega)
          rw [abs_le] at h3 h4 ⊢
          constructor <;> linarith
        · exact h1 (j + 1)
    · unfold mergeAt
      rw [if_neg (by omega), if_neg (by omega)]
      exact h2 (j + 1) (by omega)

theorem negAll_bounded (l : List ℕ) {f : ℕ → ℚ} {χ : ℚ} (h : ∀ j, |f j| ≤ χ) (j : ℕ) : |l.foldl negAt f j| ≤ χ := by
  induction l generalizing f with
  | nil => exact h j
  | cons a l ih =>
    rw [List.foldl_cons]
    refine ih fun j => ?_
    unfold negAt
    split
    · rw [mul_neg_one, abs_neg]; exact h j
    · exact h j

theorem reverseSol_bounded {P : LP m n} (hfree : P.free.Pairwise (· < ·)) {k d : ℕ} {s : Fin k → ℚ} {χ : ℚ}
    (hs : ∀ j, |s j| ≤ χ) {q : ℚ} (hq : q ∈ reverseSol (some ⟨d, concatOf P.free 0, P.neg⟩) s) : |q| ≤ 2 * χ := by
  rcases Nat.eq_zero_or_pos k with rfl | hk
  · unfold reverseSol at hq
    simp only [Nat.zero_sub, List.range_zero, List.map_nil] at hq
    cases hq
  have hχ0 : 0 ≤ χ := (abs_nonneg _).trans (hs ⟨0, hk⟩)
  have hext : ∀ j, |LinProg.ext s j| ≤ χ := by
    intro j
    unfold LinProg.ext
    split
    · exact hs _
    · rwa [abs_zero]
  obtain ⟨h1, -⟩ := concatOf_spaced hfree 0
  unfold reverseSol at hq
  obtain ⟨j, -, rfl⟩ := List.mem_map.mp hq
  refine negAll_bounded _ (fun j => ?_) j
  exact mergeCode_bounded _ 0 0 h1 (fun a _ => Nat.zero_le a) (fun j => (hext j).trans (by linarith)) (fun j _ => hext j) j

/-- The solution the exact method returns for a program in SEF is bounded. -/
theorem solve_sef_bounded {P : LP m n} (hs : Scale m a t β γ α ε δ) (hP : DoubleData P a β γ) (ha : 1 ≤ a) (hγ : 1 ≤ γ)
    (hsef : P.isSef = true) {fuel : ℕ}
    (hfirst : ∀ l, Relation.ReflTransGen (Steps (auxSef P)) (lastColumns m n) l → Safe (auxSef P) a t β α ε δ l)
    (hdec : Decided P fuel a t β α ε δ) {w : List ℚ}
    (h : solve fuel P = .ok (some w)) {q : ℚ} (hq : q ∈ w) : |q| ≤ m * (t * β) := by
  unfold solve at h
  rw [if_pos hsef] at h
  cases h1 : (twoPhase fuel P).1 with
  | error e => rw [h1] at h; cases h
  | ok r =>
    rw [h1] at h
    cases r with
    | unbounded x d => cases h
    | infeasible y => cases h
    | optimal x l y =>
      obtain rfl : List.ofFn x = w := Option.some.inj (Except.ok.inj h)
      obtain ⟨j, rfl⟩ := (List.mem_ofFn' x q).mp hq
      exact twoPhase_bounded hs hP ha hγ hfirst hdec h1 j

/-- The solution the exact method returns for a program in any other form is bounded. -/
theorem solve_bounded {P : LP m n} (hfree : P.free.Pairwise (· < ·)) (hsef : P.isSef = false)
    (hs : Scale m a t β γ α ε δ) (hP : DoubleData (toSef P).lp a β γ) (ha : 1 ≤ a) (hγ : 1 ≤ γ) {fuel : ℕ}
    (hset : Settled (toSef P).lp fuel a t β α ε δ) {w : List ℚ}
    (h : solve fuel P = .ok (some w)) {q : ℚ} (hq : q ∈ w) : |q| ≤ 2 * (m * (t * β)) := by
  have hrev : (toSef P).rev = some ⟨((List.finRange m).filter fun i => decide (P.ineq i ≠ .eq)).length,
      concatOf P.free 0, P.neg⟩ := by
    unfold toSef
    rw [if_neg (by rw [hsef]; exact Bool.false_ne_true)]
  unfold solve at h
  rw [if_neg (by rw [hsef]; exact Bool.false_ne_true)] at h
  generalize toSef P = R at *
  obtain ⟨k, Q, rev⟩ := R
  simp only at hrev hP hset
  subst hrev
  have back : ∀ r : Answer m k, (∀ x l y, r = .optimal x l y → ∀ j, |x j| ≤ m * (t * β)) →
      r.solution.map (reverseSol
        (some ⟨((List.finRange m).filter fun i => decide (P.ineq i ≠ .eq)).length, concatOf P.free 0, P.neg⟩)) = some w →
      |q| ≤ 2 * (m * (t * β)) := by
    intro r hr e
    cases r with
    | unbounded x d => cases e
    | infeasible y => cases e
    | optimal x l y =>
      rw [← Option.some.inj e] at hq
      exact reverseSol_bounded hfree (hr x l y rfl) hq
  have htwo : ¬ (m ≤ k ∧ isBasis Q (triedColumns m k) = .ok true) → ∀ r, (twoPhase fuel Q).1 = .ok r →
      ∀ x l y, r = .optimal x l y → ∀ j, |x j| ≤ m * (t * β) := by
    intro hno r hr x l y e j
    subst e
    exact twoPhase_bounded hs hP ha hγ (hset.first hno) (hset.second hno) hr j
  unfold solveSef at h
  simp only at h
  by_cases hmk : m ≤ k
  · rw [if_pos hmk] at h
    have hdirect := hset.direct hmk
    unfold triedColumns at hdirect htwo
    cases hv : isBasis Q ((List.range (k - m)).map fun i : ℕ => (m : ℤ) + i + 1) with
    | error e => rw [hv] at h; cases h
    | ok v =>
      rw [hv] at h
      cases v with
      | false =>
        simp only at h
        cases h2 : (twoPhase fuel Q).1 with
        | error e => rw [h2] at h; cases h
        | ok r =>
          rw [h2] at h
          exact back r (htwo (fun h => by rw [hv] at h; cases h.2) r h2) (Except.ok.inj h)
      | true =>
        simp only at h
        cases h2 : (simplex fuel Q ((List.range (k - m)).map fun i : ℕ => (m : ℤ) + i + 1)).1 with
        | error e => rw [h2] at h; cases e <;> cases h
        | ok r =>
          rw [h2] at h
          refine back r (fun x l y e => ?_) (Except.ok.inj h)
          subst e
          exact simplex_bounded hP.b (zero_le_one.trans ha) (hdirect hv) h2
  · rw [if_neg hmk] at h
    cases h2 : (twoPhase fuel Q).1 with
    | error e => rw [h2] at h; cases h
    | ok r =>
      rw [h2] at h
      exact back r (htwo (fun h => hmk h.1) r h2) (Except.ok.inj h)

theorem optimal_same {P : LP m n} {x y : Fin n → ℚ} (hx : Optimal P x) (hy : Optimal P y) : objVal P x = objVal P y := by
  obtain ⟨h1, h2⟩ := hx.2 y hy.1
  obtain ⟨h3, h4⟩ := hy.2 x hx.1
  cases h : P.objective with
  | max => exact le_antisymm (h3 h) (h1 h)
  | min => exact le_antisymm (h2 h) (h4 h)

theorem value_follows {P : LP m n} {fuel : ℕ} {ξ χ : ℚ} (hP : WF P) (he : Exact (toSef P).lp) (hn : 1 ≤ n) (hn' : n ≤ 100)
    (hc : ∀ j, |P.c j| ≤ κ) (hz : |P.z| ≤ ζ) (h : SameSolution ξ (fsolve L fuel P) (solve fuel P))
    (hχ : ∀ w, solve fuel P = .ok (some w) → ∀ q ∈ w, |q| ≤ χ) :
    SameValue P (valueAccuracy n κ ζ ξ χ) (foptimalValue L fuel P) (optimalValue fuel P) := by
  unfold foptimalValue optimalValue
  cases h1 : fsolve L fuel P with
  | error e =>
    cases h2 : solve fuel P with
    | error e' => rw [h1, h2] at h; exact h
    | ok w => rw [h1, h2] at h; cases w <;> exact h.elim
  | ok v =>
    cases h2 : solve fuel P with
    | error e' => rw [h1, h2] at h; cases v <;> exact h.elim
    | ok w =>
      rw [h1, h2] at h
      cases v with
      | none =>
        cases w with
        | none => exact trivial
        | some w => exact h.elim
      | some v =>
        cases w with
        | none => exact h.elim
        | some w =>
          obtain ⟨x, rfl, hx⟩ := C44_sound_partial fuel P hP he w h2
          have hl : v.length = n := by
            have := List.Forall₂.length_eq h
            rwa [List.length_ofFn] at this
          obtain ⟨u, rfl⟩ : ∃ u : Fin n → ℚ, v = List.ofFn u := by
            subst hl
            exact ⟨v.get, (List.ofFn_get v).symm⟩
          have hux : ∀ j, |u j - x j| ≤ ξ := by
            intro j
            have := (List.forall₂_iff_get.mp h).2 j (by simp) (by simp)
            simpa using this
          simp only [fevaluate, evaluate, toVec_ofFn]
          refine ⟨⟨x, hx⟩, fun x' hx' => ?_⟩
          rw [optimal_same hx' hx]
          exact eval_near hn hn' hc hz hux fun j =>
            hχ _ h2 _ ((List.mem_ofFn' x _).mpr ⟨j, rfl⟩)

/-- C162. `optimal_value` in double precision on a program in SEF: the same errors and `None` in the same cases as in exact
arithmetic, and otherwise the optimal value up to rounding. -/
theorem C162_value_sef (hC : C.Accurate) (hU : C.Underflows) (hL : Gaussian C L) {P : LP m n} (hw : WF P)
    (he : Exact (toSef P).lp) (hn : 1 ≤ n) (hκ : ∀ j, |P.c j| ≤ κ) (hζ : |P.z| ≤ ζ)
    (hs : Scale m a t β γ α ε δ) (hP : DoubleData P a β γ) (hc : ∀ j, binary64.Rep (P.c j)) (hz : binary64.Rep P.z)
    (ha : 1 ≤ a) (hγ : 1 ≤ γ) (hN : n + m ≤ 100) (hsef : P.isSef = true) (fuel : ℕ)
    (hfirst : ∀ l, Relation.ReflTransGen (Steps (auxSef P)) (lastColumns m n) l → Safe (auxSef P) a t β α ε δ l)
    (hdec : Decided P fuel a t β α ε δ) :
    SameValue P (valueAccuracy n κ ζ (solutionSlack m ε (m * (t * β) + ε)) (m * (t * β))) (foptimalValue L fuel P) (optimalValue fuel P) :=
  value_follows hw he hn (by omega) hκ hζ (C159_solve hC hU hL hs hP hc hz ha hγ hN hsef fuel hfirst hdec)
    fun _ h _ hq => solve_sef_bounded hs hP ha hγ hsef hfirst hdec h hq

/-- C162. `optimal_value` in double precision on a program in any other form. -/
theorem C162_value (hC : C.Accurate) (hU : C.Underflows) (hL : Gaussian C L) {P : LP m n} (hw : WF P)
    (he : Exact (toSef P).lp) (hn : 1 ≤ n) (hn' : n ≤ 100) (hκ : ∀ j, |P.c j| ≤ κ) (hζ : |P.z| ≤ ζ)
    (hst : Stored binary64 P) (hsef : P.isSef = false) (hs : Scale m a t β γ α ε δ)
    (hP : DoubleData (toSef P).lp a β γ) (ha : 1 ≤ a) (hγ : 1 ≤ γ) (hN : (toSef P).n + m ≤ 100) (fuel : ℕ)
    (hset : Settled (toSef P).lp fuel a t β α ε δ) :
    SameValue P (valueAccuracy n κ ζ (mergedSlack (solutionSlack m ε (m * (t * β) + ε)) (m * (t * β))) (2 * (m * (t * β))))
      (foptimalValue L fuel P) (optimalValue fuel P) :=
  value_follows hw he hn hn' hκ hζ (C160_solve hC hU hL hst hw.freeSorted hsef hs hP ha hγ hN fuel hset)
    fun _ h _ hq => solve_bounded hw.freeSorted hsef hs hP ha hγ hset h hq

/-- C162. If there is an optimal solution, `optimal_value` in double precision returns the optimal value up to rounding. -/
theorem C162_finds (hC : C.Accurate) (hU : C.Underflows) (hL : Gaussian C L) {P : LP m n} (hw : WF P)
    (he : Exact (toSef P).lp) (he' : Exact (auxSef (toSef P).lp)) (hr : FullRank (toSef P).lp)
    (ht : isBasis (toSef P).lp (tried m (toSef P).n) = .ok true →
      isBasisFeasible (toSef P).lp (tried m (toSef P).n) = .ok true)
    (hn : 1 ≤ n) (hn' : n ≤ 100) (hκ : ∀ j, |P.c j| ≤ κ) (hζ : |P.z| ≤ ζ)
    (hst : Stored binary64 P) (hsef : P.isSef = false) (hs : Scale m a t β γ α ε δ)
    (hP : DoubleData (toSef P).lp a β γ) (ha : 1 ≤ a) (hγ : 1 ≤ γ) (hN : (toSef P).n + m ≤ 100) (fuel : ℕ)
    (hf : ((toSef P).n + m) ^ m ≤ fuel)
    (hset : Settled (toSef P).lp fuel a t β α ε δ)
    (hopt : ∃ x, Optimal P x) :
    ∃ q, foptimalValue L fuel P = .ok (some q) ∧ ∀ x, Optimal P x → |q - objVal P x| ≤
      valueAccuracy n κ ζ (mergedSlack (solutionSlack m ε (m * (t * β) + ε)) (m * (t * β))) (2 * (m * (t * β))) := by
  obtain ⟨x, hx, ho⟩ := C45_complete_partial P hw hs.pos he he' hr (fun _ => ht) fuel
      ((Nat.pow_le_pow_left (Nat.le_add_right _ _) _).trans hf) hf hopt
  have h := C162_value hC hU hL hw he hn hn' hκ hζ hst hsef hs hP ha hγ hN fuel hset
  have e : optimalValue fuel P = .ok (some (P.c ⬝ᵥ x + P.z)) := by
    simp only [optimalValue, hx, evaluate, toVec_ofFn]
  rw [e] at h
  cases h1 : foptimalValue L fuel P with
  | error e => rw [h1] at h; exact h.elim
  | ok w =>
    cases w with
    | none => rw [h1] at h; exact h.elim
    | some q =>
      rw [h1] at h
      exact ⟨q, rfl, h.2⟩

/-- C162. The same for a program in SEF. -/
theorem C162_finds_sef (hC : C.Accurate) (hU : C.Underflows) (hL : Gaussian C L) {P : LP m n} (hw : WF P)
    (he : Exact (toSef P).lp) (he' : Exact (auxSef (toSef P).lp)) (hr : FullRank (toSef P).lp)
    (hn : 1 ≤ n) (hκ : ∀ j, |P.c j| ≤ κ) (hζ : |P.z| ≤ ζ)
    (hs : Scale m a t β γ α ε δ) (hP : DoubleData P a β γ) (hc : ∀ j, binary64.Rep (P.c j)) (hz : binary64.Rep P.z)
    (ha : 1 ≤ a) (hγ : 1 ≤ γ) (hN : n + m ≤ 100) (hsef : P.isSef = true) (fuel : ℕ)
    (hf : ((toSef P).n + m) ^ m ≤ fuel)
    (hfirst : ∀ l, Relation.ReflTransGen (Steps (auxSef P)) (lastColumns m n) l → Safe (auxSef P) a t β α ε δ l)
    (hdec : Decided P fuel a t β α ε δ) (hopt : ∃ x, Optimal P x) :
    ∃ q, foptimalValue L fuel P = .ok (some q) ∧ ∀ x, Optimal P x →
      |q - objVal P x| ≤ valueAccuracy n κ ζ (solutionSlack m ε (m * (t * β) + ε)) (m * (t * β)) := by
  obtain ⟨x, hx, ho⟩ := C45_complete_partial P hw hs.pos he he' hr (fun h => by rw [hsef] at h; cases h) fuel
      ((Nat.pow_le_pow_left (Nat.le_add_right _ _) _).trans hf) hf hopt
  have h := C162_value_sef hC hU hL hw he hn hκ hζ hs hP hc hz ha hγ hN hsef fuel hfirst hdec
  have e : optimalValue fuel P = .ok (some (P.c ⬝ᵥ x + P.z)) := by
    simp only [optimalValue, hx, evaluate, toVec_ofFn]
  rw [e] at h
  cases h1 : foptimalValue L fuel P with
  | error e => rw [h1] at h; exact h.elim
  | ok w =>
    cases w with
    | none => rw [h1] at h; exact h.elim
    | some q =>
      rw [h1] at h
      exact ⟨q, rfl, h.2⟩

/-! ### Cases -/

/-- `optimal_value` of the program of C160 is nearly `3/2`. -/
example (hC : C.Accurate) (hU : C.Underflows) (hL : Gaussian C L) :
    ∃ q, foptimalValue L 9 freeSample = .ok (some q) ∧ |q - 3 / 2| ≤ 1 / 10 ^ 9 := by
  have he := exact_of_int freeSample_int (by norm_num)
  have h := C162_value (κ := 1) (ζ := 0) hC hU hL freeSample_wf he (by norm_num) (by norm_num) (by decide +kernel)
    (by decide +kernel) freeSample_stored rfl freeSample_scale freeSample_data (by norm_num) (by norm_num)
    (by decide +kernel) 9 freeSample_settled
  have e : optimalValue 9 freeSample = .ok (some (3 / 2)) := by decide +kernel
  rw [e] at h
  cases h1 : foptimalValue L 9 freeSample with
  | error e => rw [h1] at h; exact h.elim
  | ok w =>
    cases w with
    | none => rw [h1] at h; exact h.elim
    | some q =>
      rw [h1] at h
      obtain ⟨⟨y, hy⟩, hb⟩ := h
      have hv := C44_sound_partial 9 freeSample freeSample_wf he [3 / 2] (by decide +kernel)
      obtain ⟨x, hx1, hx⟩ := hv
      have hx0 : x 0 = 3 / 2 := by simpa using hx1.symm
      have hval : objVal freeSample x = 3 / 2 := by
        have : objVal freeSample x = 1 * x 0 + 0 := by simp [objVal, freeSample, dotProduct]
        rw [this, hx0]
        norm_num
      refine ⟨q, rfl, ?_⟩
      rw [← hval]
      exact (hb x hx).trans (by decide +kernel)

/-- And a number is returned for the first program of C159. -/
example (hC : C.Accurate) (hU : C.Underflows) (hL : Gaussian C L) :
    ∃ q, foptimalValue L 25 feasibleSample = .ok (some q) ∧ ∀ x, Optimal feasibleSample x →
      |q - objVal feasibleSample x| ≤
        valueAccuracy 3 2 0 (solutionSlack 2 (1 / 10 ^ 9) ((2 : ℕ) * (1 * 4) + 1 / 10 ^ 9)) ((2 : ℕ) * (1 * 4)) :=
  C162_finds_sef (P := feasibleSample) hC hU hL ⟨by decide, by decide, by decide, by decide, by decide, by decide⟩
    (exact_of_int feasibleSample_int (by norm_num)) (exact_of_int feasibleSample_aux_int (by norm_num))
    feasibleSample_rank (by norm_num) (by decide +kernel) (by decide +kernel) sample_scale
    feasibleSample_data (fun j => rep_of_den (by revert j; decide +kernel)) (rep_of_den (by decide +kernel)) (by norm_num)
    (by norm_num) (by norm_num) rfl 25 (by decide +kernel) (fun l hl => feasibleSample_first hl) feasibleSample_decided'
    feasibleSample_optimal

end Props
end Pytimize
