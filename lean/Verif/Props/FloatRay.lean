/-
C158: certificates of unboundedness in double precision.
-/
import Verif.Props.FloatFollow

namespace Pytimize
namespace Props
open LinProg Floating Matrix Comparator

variable {m n : ℕ} {C : Libm} {L : Lapack binary64} {a t β γ α ε δ : ℚ}

/-! ### When the certificate is right -/

/-- If the exact method ends at this basis with an unbounded program, then the first column with a positive reduced cost
is beyond doubt: the reduced costs before it are clearly negative. In particular no basic column precedes it. -/
def ClearRay (P : LP m n) (δ : ℚ) (l : List ℤ) : Prop :=
  ∀ x B T, simplexIteration P l = .ok (.unbounded x B T) → ∃ k, δ < T.c k ∧ ∀ j < k, T.c j ≤ -δ

theorem loop_last_unbounded {P : LP m n} {fuel : ℕ} {basis : List ℤ} {x : Fin n → ℚ} {B : Fin m → Fin n} {T : LP m n}
    (h : simplexLoop fuel P basis = .ok (.unbounded x B T)) :
    ∃ l0, Relation.ReflTransGen (Steps P) basis l0 ∧ simplexIteration P l0 = .ok (.unbounded x B T) := by
  induction fuel generalizing basis with
  | zero => cases h
  | succ fuel ih =>
    rw [simplexLoop] at h
    cases h2 : simplexIteration P basis with
    | error e => rw [h2] at h; cases h
    | ok r =>
      rw [h2] at h
      cases r with
      | optimal x' l' T' => cases h
      | unbounded x' B T' => exact ⟨basis, .refl, by rw [h2]; exact h⟩
      | next l' T' =>
        obtain ⟨l0, h3, h4⟩ := ih h
        exact ⟨l0, .head ⟨T', h2⟩ h3, h4⟩

theorem argmaxPos_eq {c : Fin n → ℚ} {k : Fin n} (hk : 0 < c k) (hj : ∀ j < k, c j ≤ 0) : argmaxPos c = some k := by
  obtain ⟨k', h1, h2, h3⟩ := argmaxPos_spec ⟨k, hk⟩
  rw [h1]
  congr 1
  rcases lt_trichotomy k k' with h | h | h
  · exact absurd (h3 k h) (not_le.mpr hk)
  · exact h.symm
  · exact absurd (hj k' h) (not_le.mpr h2)

theorem assign_near {B : Fin m → Fin n} {u v : Fin m → ℚ} (hε : 0 ≤ ε) (h : ∀ i, |u i - v i| ≤ ε) (j : Fin n) :
    |assign B u j - assign B v j| ≤ ε := by
  have key : ∀ (l : List (Fin m)) (x y : Fin n → ℚ), (∀ j, |x j - y j| ≤ ε) →
      ∀ j, |l.foldl (fun x i => Function.update x (B i) (u i)) x j -
        l.foldl (fun x i => Function.update x (B i) (v i)) y j| ≤ ε := by
    intro l
    induction l with
    | nil => exact fun x y hxy => hxy
    | cons i l ih =>
      intro x y hxy
      rw [List.foldl_cons, List.foldl_cons]
      refine ih _ _ fun j => ?_
      by_cases hj : j = B i
      · subst hj; rw [Function.update_self, Function.update_self]; exact h i
      · rw [Function.update_of_ne hj, Function.update_of_ne hj]; exact hxy j
  exact key _ _ _ (fun _ => by rw [sub_self, abs_zero]; exact hε) j

/-- C158, in part: the certificate of unboundedness in double precision is the exact one up to rounding, if in addition to
the margins of C157 the first positive reduced cost is preceded by clearly negative ones only. -/
theorem C158_ray_partial (hC : C.Accurate) (hU : C.Underflows) (hL : Gaussian C L) {P : LP m n}
    (hs : Scale m a t β γ α ε δ) (hP : DoubleData P a β γ) (fuel : ℕ) {basis : List ℤ}
    (hsafe : ∀ l, Relation.ReflTransGen (Steps P) basis l → Safe P a t β α ε δ l ∧ ClearRay P δ l)
    {x' d' : Fin n → ℚ} (hr : (simplex fuel P basis).1 = .ok (.unbounded x' d')) :
    ∃ x d, (fsimplex L fuel P basis).1 = .ok (.unbounded x d) ∧
      (∀ j, |x j - x' j| ≤ solutionSlack m ε (m * (t * β) + ε)) ∧ ∀ j, |d j - d' j| ≤ ε := by
  unfold simplex at hr
  by_cases hsef : (!P.isSef) = true
  · rw [if_pos hsef] at hr; cases hr
  · rw [if_neg hsef] at hr
    unfold fsimplex
    rw [if_neg hsef]
    have hP' := hP.flip (negRows P)
    have hsafe' : ∀ l, Relation.ReflTransGen (Steps (flipRows (negRows P) P)) basis l →
        Safe (flipRows (negRows P) P) a t β α ε δ l ∧ ClearRay (flipRows (negRows P) P) δ l := by
      intro l hl
      rw [steps_flip] at hl
      refine ⟨(hsafe l hl).1.flip _, ?_⟩
      unfold ClearRay
      rw [iteration_flip]
      exact (hsafe l hl).2
    have hloop := C157_loop hC hU hL hs hP' fuel fun l hl => (hsafe' l hl).1
    simp only [fflipRows_eq hP.repA hP.repb]
    simp only at hr
    generalize flipRows (negRows P) P = P' at *
    generalize negRows P = S at *
    have hb : simplexBody fuel P' S basis = .ok (.unbounded x' d') := by
      cases hb : simplexBody fuel P' S basis with
      | error e => rw [hb] at hr; cases hr
      | ok r => rw [hb] at hr; exact hr
    suffices h : ∃ x d, fsimplexBody L fuel P' S basis = .ok (.unbounded x d) ∧
        (∀ j, |x j - x' j| ≤ solutionSlack m ε (m * (t * β) + ε)) ∧ ∀ j, |d j - d' j| ≤ ε by
      obtain ⟨x, d, h1, h2⟩ := h
      refine ⟨x, d, ?_, h2⟩
      rw [h1]
    clear hr
    unfold simplexBody at hb
    unfold fsimplexBody
    cases h2 : simplexLoop fuel P' basis with
    | error e => rw [h2] at hb; cases hb
    | ok r =>
      rw [h2] at hb hloop
      cases r with
      | next l T => cases hb
      | optimal x l T =>
        simp only at hb
        split at hb <;> cases hb
      | unbounded x1 B T =>
        obtain ⟨l0, hl0, hit⟩ := loop_last_unbounded h2
        obtain ⟨k, hk, hj⟩ := (hsafe' l0 hl0).2 _ _ _ hit
        cases h1 : fsimplexLoop L fuel P' basis with
        | error e => rw [h1] at hloop; exact hloop.elim
        | ok r' =>
          rw [h1] at hloop
          cases r' with
          | next l T => exact hloop.elim
          | optimal x l T => exact hloop.elim
          | unbounded x2 B2 Q =>
            obtain ⟨rfl, hx, hnear⟩ := hloop
            have hδ : 0 ≤ δ := (abs_nonneg _).trans (hnear.c k)
            have hε : 0 ≤ ε := (abs_nonneg _).trans (hnear.b ⟨0, hs.pos⟩)
            have e1 : argmaxPos T.c = some k := argmaxPos_eq (by linarith) fun j hjk => by linarith [hj j hjk]
            have e2 : argmaxPos Q.c = some k := by
              refine argmaxPos_eq ?_ fun j hjk => ?_
              · linarith [(abs_le.mp (hnear.c k)).1]
              · linarith [(abs_le.mp (hnear.c j)).2, hj j hjk]
            simp only [e1, Except.ok.injEq, Answer.unbounded.injEq] at hb
            obtain ⟨rfl, rfl⟩ := hb
            refine ⟨x2, rayOf B2 Q k, by simp only [e2], hx, fun j => ?_⟩
            unfold rayOf
            by_cases hjk : j = k
            · subst hjk
              rw [Function.update_self, Function.update_self, sub_self, abs_zero]
              exact hε
            · rw [Function.update_of_ne hjk, Function.update_of_ne hjk]
              refine assign_near hε (fun i => ?_) j
              have := hnear.A i k
              rw [abs_sub_comm] at this
              rwa [neg_sub_neg]

/-- The same program as below with the columns exchanged: the certificate is right. -/
def rayRight : LP 1 2 where
  A := !![-1, 49]
  b := ![49]
  c := ![1, 1]
  z := 0
  ineq _ := .eq
  neg := []
  free := []
  objective := .max
  isSef := true

example (hC : C.Accurate) (hU : C.Underflows) (hL : Gaussian C L) :
    ∃ x d, (fsimplex L 1 rayRight [2]).1 = .ok (.unbounded x d) ∧ |d 0 - 1| ≤ 1 / 10 ^ 8 ∧ |d 1 - 1 / 49| ≤ 1 / 10 ^ 8 := by
  have hs : Scale 1 49 1 49 1 1 (1 / 10 ^ 8) (1 / 10 ^ 8) :=
    ⟨⟨⟨by norm_num, by norm_num, by decide +kernel, by decide +kernel⟩, by decide +kernel, by decide +kernel⟩,
      by decide +kernel, by decide +kernel, by decide +kernel, by decide +kernel, by decide +kernel, by decide +kernel,
      by decide +kernel, by decide +kernel, by decide +kernel⟩
  have hd : DoubleData rayRight 49 49 1 := by
    refine ⟨fun i j => ?_, fun i => ?_, by decide +kernel, by decide +kernel, by decide +kernel⟩
    · have h : (rayRight.A i j).den = 1 ∧ |rayRight.A i j| ≤ 2 ^ 53 := by revert i j; decide +kernel
      have e := (Rat.den_eq_one_iff _).mp h.1
      rw [← e] at h ⊢
      exact binary64_rep.mpr (isDouble_int (by exact_mod_cast h.2))
    · have h : (rayRight.b i).den = 1 ∧ |rayRight.b i| ≤ 2 ^ 53 := by revert i; decide +kernel
      have e := (Rat.den_eq_one_iff _).mp h.1
      rw [← e] at h ⊢
      exact binary64_rep.mpr (isDouble_int (by exact_mod_cast h.2))
  have hit : ∃ x T, simplexIteration rayRight [2] = .ok (.unbounded x ![1] T) ∧ T = canon rayRight ![1] := by
    refine ⟨assign ![1] ((npInv (colSel (canon rayRight ![1]).A ![1])).mulVec (canon rayRight ![1]).b), _, ?_, rfl⟩
    have hb : isBasis rayRight [2] = .ok true := by decide +kernel
    have hl : sortInt (toArrayIndexing [2]) = [1] := by decide +kernel
    have ht : toCols 1 2 [1] = some ![1] := by decide +kernel
    unfold simplexIteration
    rw [if_neg (by decide +kernel), hb]
    simp only [hl, ht, canon_flip]
    with_unfolding_all rfl
  have hvis : ∀ l, Relation.ReflTransGen (Steps rayRight) [2] l → l = [2] := by
    intro l h
    induction h with
    | refl => rfl
    | tail _ hst ih =>
      subst ih
      obtain ⟨T, hT⟩ := hst
      obtain ⟨x, T', h', -⟩ := hit
      rw [h'] at hT
      cases hT
  have key : ∀ B : Fin 1 → Fin 2, ([2] : List ℤ).Perm (List.ofFn fun i => ((B i : ℕ) : ℤ) + 1) → B = ![1] := by
    decide +kernel
  have hsafe : Safe rayRight 49 1 49 1 (1 / 10 ^ 8) (1 / 10 ^ 8) [2] := by
    intro B hB
    rw [key B hB]
    refine Or.inr ⟨by decide +kernel, ⟨npInv (colSel rayRight.A ![1]), by decide +kernel, by decide +kernel⟩,
      Or.inl (Or.inr ⟨0, by decide +kernel, by decide +kernel, by decide +kernel, by decide +kernel, ?_⟩)⟩
    intro i i' hi
    exact absurd hi (by rw [Subsingleton.elim i i']; exact lt_irrefl _)
  have hray : ClearRay rayRight (1 / 10 ^ 8) [2] := by
    intro x B T h
    obtain ⟨x', T', h', hT'⟩ := hit
    rw [h'] at h
    cases h
    exact ⟨0, by rw [hT']; decide +kernel, fun j hj => absurd hj (by simp)⟩
  have he : (simplex 1 rayRight [2]).1 = .ok (.unbounded ![0, 1] ![1, 1 / 49]) := by
    have h1 : (match (simplex 1 rayRight [2]).1 with
      | .ok (.unbounded x d) => decide (x = ![0, 1] ∧ d = ![1, 1 / 49])
      | _ => false) = true := by decide +kernel
    revert h1
    cases (simplex 1 rayRight [2]).1 with
    | error e => intro h1; cases h1
    | ok r =>
      cases r with
      | optimal x' l y' => intro h1; cases h1
      | unbounded x d =>
        intro h1
        obtain ⟨rfl, rfl⟩ := of_decide_eq_true h1
        rfl
      | infeasible y => intro h1; cases h1
  obtain ⟨x, d, h1, -, h2⟩ := C158_ray_partial hC hU hL hs hd 1
    (fun l hl => by rw [hvis l hl]; exact ⟨hsafe, hray⟩) he
  exact ⟨x, d, h1, h2 0, h2 1⟩

/-! ### When it is wrong -/

/-- `max x1 + x2` subject to `49 x1 - x2 = 49`. -/
def rayProg : LP 1 2 where
  A := !![49, -1]
  b := ![49]
  c := ![1, 1]
  z := 0
  ineq _ := .eq
  neg := []
  free := []
  objective := .max
  isSef := true

theorem inv_one_by_one {v : ℚ} (hL : Gaussian C L) (hv : binary64.Rep v) (h0 : v ≠ 0) {M : Matrix (Fin 1) (Fin 1) ℚ}
    (hM : M 0 0 = v) : ∃ T, L.inv M = .ok T ∧ T 0 0 = binary64.rd (1 / v) := by
  have hu : ∀ {π l u}, Factored binary64 M π l u → u 0 0 = v := by
    intro π l u h
    have := reduced_none (h.upper 0 0 le_rfl) (by decide)
    rw [Subsingleton.elim (π 0) 0, hM, mul_one, show binary64.rd v = v from hv] at this
    exact this
  rcases hL.inv M with ⟨T, hT, π, l, u, hf, -, y, hy, hx⟩ | ⟨-, π, l, u, hf, i, hi⟩
  · refine ⟨T, hT, ?_⟩
    have h1 := reduced_none (hy 0 0) (by decide)
    rw [if_pos (Subsingleton.elim _ _)] at h1
    have e1 : binary64.rd (1 * 1) = 1 := by decide +kernel
    rw [e1] at h1
    obtain ⟨s, hs, hq⟩ := hx 0 0
    have h2 := reduced_none hs (by decide)
    rw [h1, e1] at h2
    rw [h2, hu hf] at hq
    rcases hq with hq | hq
    · exact hq
    · rw [hq, one_mul]; exact binary64.idem _
  · rw [Subsingleton.elim i 0, hu hf] at hi
    exact absurd hi h0

theorem dot_one_by_one {R : Rounding} {u v : Fin 1 → ℚ} {r : ℚ} (h : DotVal R u v r) : r = R.rd (u 0 * v 0) := by
  rcases h with ⟨h, -⟩ | h
  · cases h
  · exact h.one (x := (u 0, v 0)) (by simp [pairs])

/-- The canonical form that is computed: the reduced cost of the basic column is `2^-53` instead of zero. -/
theorem rayProg_canon (hL : Gaussian C L) : ∃ Q, fcanon L rayProg ![0] = .ok Q ∧ Q.A 0 0 = 1 - 1 / 2 ^ 53 ∧
    Q.A 0 1 = -binary64.rd (1 / 49) ∧ Q.b 0 = 1 - 1 / 2 ^ 53 ∧ Q.c 0 = 1 / 2 ^ 53 ∧ 1 ≤ Q.c 1 := by
  obtain ⟨T, hT, hT0⟩ := inv_one_by_one (M := colSel rayProg.A ![0]) (v := 49) hL (by unfold Rounding.Rep; decide +kernel) (by norm_num)
    rfl
  have hy := dot_one_by_one (L.mulVec_val T.transpose (fun i => rayProg.c (![0] i)) 0)
  rw [Matrix.transpose_apply, hT0] at hy
  have hy' : L.mulVec T.transpose (fun i => rayProg.c (![0] i)) 0 = binary64.rd (1 / 49) := hy.trans (by decide +kernel)
  refine ⟨_, by unfold fcanon; rw [hT], ?_, ?_, ?_, ?_, ?_⟩
  · refine (dot_one_by_one (L.matMul_val T rayProg.A 0 0)).trans ?_
    rw [hT0]
    decide +kernel
  · refine (dot_one_by_one (L.matMul_val T rayProg.A 0 1)).trans ?_
    rw [hT0]
    decide +kernel
  · refine (dot_one_by_one (L.mulVec_val T rayProg.b 0)).trans ?_
    rw [hT0]
    decide +kernel
  · show binary64.rd (rayProg.c 0 - L.vecMul _ rayProg.A 0) = _
    rw [dot_one_by_one (L.vecMul_val _ rayProg.A 0), hy']
    decide +kernel
  · show 1 ≤ binary64.rd (rayProg.c 1 - L.vecMul _ rayProg.A 1)
    rw [dot_one_by_one (L.vecMul_val _ rayProg.A 1), hy']
    decide +kernel

theorem rayProg_answer (hC : C.Accurate) (hU : C.Underflows) (hL : Gaussian C L) :
    ∃ x, (fsimplex L 1 rayProg [1]).1 = .ok (.unbounded x ![1, 0]) := by
  have hb : fisBasis L rayProg [1] = .ok true := by
    have hs : SmallSquare 1 49 := ⟨⟨by norm_num, by norm_num, by decide +kernel, by decide +kernel⟩, by decide +kernel,
      by decide +kernel⟩
    rw [C156_is_basis hC hU hL (P := rayProg) hs (by decide +kernel) [1] fun B hB => ?_]
    · decide +kernel
    · left
      have : B = ![0] := lists_unique hB (by unfold Lists; decide +kernel)
      subst this
      decide +kernel
  have hneg : ∀ i, negRows rayProg i = false := by decide +kernel
  have hflip : fflipRows binary64 (negRows rayProg) rayProg = rayProg := by
    unfold fflipRows
    simp [hneg]
  obtain ⟨Q, hQ, q1, q2, q3, q4, q5⟩ := rayProg_canon hL
  obtain ⟨T, hT, -⟩ := inv_one_by_one (M := colSel Q.A ![0]) (v := 1 - 1 / 2 ^ 53) hL
    (by unfold Rounding.Rep; decide +kernel) (by norm_num) q1
  have hN : (List.finRange 2).filter (fun j : Fin 2 => !decide (((j : ℕ) : ℤ) ∈ ([0] : List ℤ))) = [1] := by decide +kernel
  have hit : fsimplexIteration L rayProg [1] = .ok (.unbounded (assign ![0] (L.mulVec T Q.b)) ![0] Q) := by
    have ht : toCols 1 2 [0] = some ![0] := by decide +kernel
    have hl : sortInt (toArrayIndexing [1]) = [0] := by decide +kernel
    have hc : cmpTol binary64 (Q.c 1) .le 0 = false := le_zero_high fine_binary64 (le_trans (by norm_num) q5)
    have hp : positive binary64 (Q.c 1) = true := positive_high fine_binary64 (le_trans (by norm_num) q5)
    have hA : ∀ i, cmpTol binary64 (Q.A i 1) .le 0 = true := by
      intro i
      rw [Subsingleton.elim i 0, q2]
      decide +kernel
    unfold fsimplexIteration
    rw [if_neg (by decide +kernel), hb]
    simp only [ht, hl, hflip, hQ]
    unfold fiterStep
    simp only [hT, hN, hA, hc, hp, List.all_cons, List.all_nil, List.find?_cons]
    simp
  have hk : argmaxPos Q.c = some 0 := argmaxPos_eq (by rw [q4]; norm_num) fun j hj => absurd hj (by simp)
  have hd : rayOf ![0] Q 0 = ![1, 0] := by
    have hinj : Function.Injective (![0] : Fin 1 → Fin 2) := fun i j _ => Subsingleton.elim i j
    funext j
    unfold rayOf
    fin_cases j
    · simp
    · show Function.update _ (0 : Fin 2) (1 : ℚ) (1 : Fin 2) = 0
      rw [Function.update_of_ne (by decide), assign_off hinj]
      intro i
      rw [Subsingleton.elim i 0]
      decide
  refine ⟨assign ![0] (L.mulVec T Q.b), ?_⟩
  unfold fsimplex
  rw [if_neg (by decide +kernel)]
  simp only [hflip]
  have hbody : fsimplexBody L 1 rayProg (negRows rayProg) [1] =
      .ok (.unbounded (assign ![0] (L.mulVec T Q.b)) ![1, 0]) := by
    unfold fsimplexBody
    rw [fsimplexLoop, hit]
    simp only [hk, hd]
  rw [hbody]

/-- C158. The certificate can be wrong: `simplex` reports rightly that the program is unbounded, but the direction it
returns, `(1, 0)`, is not one in which the program is unbounded, and `verify_unboundedness` rejects it. The reason is the
search for the column by `c > 0`, which takes the error `2^-53` of a basic column for a positive reduced cost. In exact
arithmetic the direction is `(1/49, 1)`. -/
theorem C158_ray_wrong (hC : C.Accurate) (hU : C.Underflows) (hL : Gaussian C L) :
    (∃ x, (fsimplex L 1 rayProg [1]).1 = .ok (.unbounded x ![1, 0]) ∧
      ∀ ans, UnboundedAnswer binary64 rayProg x ![1, 0] ans → ans = false) ∧
    rayProg.A.mulVec ![1, 0] ≠ 0 ∧
    (simplex 1 rayProg [1]).1 = .ok (.unbounded ![1, 0] ![1 / 49, 1]) := by
  refine ⟨?_, ?_, ?_⟩
  · obtain ⟨x, hx⟩ := rayProg_answer hC hU hL
    refine ⟨x, hx, ?_⟩
    rintro ans ⟨f, v, w, -, hv, -, rfl⟩
    have e : v 0 = 49 := by
      rw [(hv 0).int (fun i => ?_) (fun i => ?_) (by decide +kernel)]
      · decide +kernel
      · have h : (rayProg.A 0 i).den = 1 := by revert i; decide +kernel
        exact ⟨_, ((Rat.den_eq_one_iff _).mp h).symm⟩
      · have h : ((![1, 0] : Fin 2 → ℚ) i).den = 1 := by revert i; decide +kernel
        exact ⟨_, ((Rat.den_eq_one_iff _).mp h).symm⟩
    have h2 : ¬∀ i, npClose binary64 (v i) 0 = true := by
      intro h
      have := npClose_sound fine_binary64 (h 0)
      rw [e] at this
      norm_num at this
    rw [decide_eq_false h2]
    simp
  · intro h
    exact absurd (congrFun h 0) (by decide +kernel)
  · have h1 : (match (simplex 1 rayProg [1]).1 with
      | .ok (.unbounded x d) => decide (x = ![1, 0] ∧ d = ![1 / 49, 1])
      | _ => false) = true := by decide +kernel
    revert h1
    cases (simplex 1 rayProg [1]).1 with
    | error e => intro h1; cases h1
    | ok r =>
      cases r with
      | optimal x' l y' => intro h1; cases h1
      | unbounded x d =>
        intro h1
        obtain ⟨rfl, rfl⟩ := of_decide_eq_true h1
        rfl
      | infeasible y => intro h1; cases h1

end Props
end Pytimize
