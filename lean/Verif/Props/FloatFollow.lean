/-
C157: `simplex` in double precision goes through the bases of the exact method when no decision is close.
-/
import Verif.Float.Descent
import Verif.Float.Follow
import Verif.Float.NearIdentity
import Verif.Props.FloatDet
import Mathlib.Logic.Relation

namespace Pytimize
namespace Props
open LinProg Floating Matrix Comparator

variable {m n : ℕ} {C : Libm} {L : Lapack binary64} {a t β γ α ε δ : ℚ}

/-! ### Specification -/

/-- The accuracy of the computed inverse of the basic columns of a canonical form, which are nearly the identity. -/
def identitySlack (m : ℕ) (ε : ℚ) : ℚ := 2 * ε + 2 * inverseAccuracy m 2 2

/-- The accuracy of the basic solution; `σ` bounds the computed right-hand side. -/
def solutionSlack (m : ℕ) (ε σ : ℚ) : ℚ := 2 * m * identitySlack m ε * σ + ε + 1 / 2 ^ 500

/-- The accuracy of the ratios. -/
def ratioSlack (ε α σ : ℚ) : ℚ := 4 * ε * (1 / α + σ / α ^ 2)

/-- Sizes for which the bounds mean something: `a`, `t`, `β`, `γ` bound the coefficients, the inverses, the right-hand side
and the objective function; `ε` is an accuracy for the tables and `δ` one for the reduced costs; `α` is the least entry of
an entering column that counts. -/
structure Scale (m : ℕ) (a t β γ α ε δ : ℚ) : Prop extends SmallSquare m a where
  accuracy : inverseAccuracy m a t ≤ 1
  table : productSlack m a t a ≤ ε
  rhs : productSlack m a t β ≤ ε
  costs : objectiveSlack m a t a γ γ ≤ δ
  small : m * ε ≤ 1 / 2
  identity : identitySlack m ε ≤ 1
  least : 11 / 10 ^ 11 + ε ≤ α
  twice : 2 * ε ≤ α
  unit : α ≤ 1

/-- The data of a program are doubles of bounded size. -/
structure DoubleData (P : LP m n) (a β γ : ℚ) : Prop where
  repA : ∀ i j, binary64.Rep (P.A i j)
  repb : ∀ i, binary64.Rep (P.b i)
  A : ∀ i j, |P.A i j| ≤ a
  b : ∀ i, |P.b i| ≤ β
  c : ∀ j, |P.c j| ≤ γ

/-- `basis` lists the columns of `B`, in some order. -/
def Names (basis : List ℤ) (B : Fin m → Fin n) : Prop := basis.Perm (List.ofFn fun i => ((B i : ℕ) : ℤ) + 1)

/-- A step of the exact method from one basis to the next. -/
def Steps (P : LP m n) (l l' : List ℤ) : Prop := ∃ T, simplexIteration P l = .ok (.next l' T)

/-- No decision at this basis is close: either the columns are clearly no basis, or clearly one and the canonical form
leaves no doubt. If the basic columns have no costs, then the reduced costs are not rounded. -/
def Safe (P : LP m n) (a t β α ε δ : ℚ) (basis : List ℤ) : Prop :=
  ∀ B : Fin m → Fin n, Names basis B → |(colSel P.A B).det| + 3 * detAccuracy m a ≤ 9 / 10 ^ 11 ∨
    2 / 10 ^ 10 + 3 * detAccuracy m a ≤ |(colSel P.A B).det| ∧
      (∃ N : Matrix (Fin m) (Fin m) ℚ, N * colSel P.A B = 1 ∧ ∀ i j, |N i j| ≤ t) ∧
      (Clear ε δ α (ratioSlack ε α (m * (t * β) + ε)) (solutionSlack m ε (m * (t * β) + ε)) (canon P B) B ∨
        (∀ j, binary64.Rep (P.c j)) ∧ (∀ i, P.c (B i) = 0) ∧
          Clear ε 0 α (ratioSlack ε α (m * (t * β) + ε)) (solutionSlack m ε (m * (t * β) + ε)) (canon P B) B)

/-- The same answer: the same error, or the same kind of answer with the same basis, the solution up to `ξ` and the
certificate of optimality up to `υ`. -/
def SameAnswer (ξ υ : ℚ) : Except PyErr (Answer m n) → Except PyErr (Answer m n) → Prop
  | .error e, .error e' => e = e'
  | .ok (.optimal x l y), .ok (.optimal x' l' y') => l = l' ∧ (∀ j, |x j - x' j| ≤ ξ) ∧ ∀ i, |y i - y' i| ≤ υ
  | .ok (.unbounded x _), .ok (.unbounded x' _) => ∀ j, |x j - x' j| ≤ ξ
  | _, _ => False

/-! ### One iteration -/

theorem dots_rep {R : Rounding} {l : List (ℚ × ℚ)} {r : ℚ} (h : Dots R l r) : R.Rep r := by
  induction h with
  | prod u v => exact R.idem _
  | add _ _ _ _ => exact R.idem _
  | fma u v _ _ => exact R.idem _
  | perm _ _ ih => exact ih

theorem dotVal_rep {R : Rounding} {u v : Fin m → ℚ} {r : ℚ} (h : DotVal R u v r) : R.Rep r := by
  rcases h with ⟨-, rfl⟩ | h
  · exact R.rd_zero
  · exact dots_rep h

/-- A product with the computed inverse. -/
theorem product_near {p v q : Fin m → ℚ} {r x : ℚ} (hs : Moderate m a) (h1 : 1 ≤ m * (a * t))
    (hδ : inverseAccuracy m a t ≤ 1) (h : DotVal binary64 p v r) (h2 : ∀ k, |p k - q k| ≤ inverseAccuracy m a t * t)
    (h3 : ∀ k, |q k| ≤ t) (h4 : ∀ k, |v k| ≤ x) : |r - ∑ k, q k * v k| ≤ productSlack m a t x := by
  have hx : 0 ≤ x := (abs_nonneg _).trans (h4 ⟨0, hs.pos⟩)
  have ht0 : 0 ≤ t := (abs_nonneg _).trans (h3 ⟨0, hs.pos⟩)
  have hm0 : (0 : ℚ) ≤ m := Nat.cast_nonneg m
  have hu := unit_le_accuracy hs.pos h1
  have ha0 : 0 ≤ a := le_trans (by decide +kernel) hs.low
  have hδ0 : 0 ≤ inverseAccuracy m a t := by unfold inverseAccuracy; positivity
  refine (near_dot hs.pos hs.size h h2 h3 h4).trans ?_
  unfold productSlack
  have : (m + 2 : ℚ) / 2 ^ 52 * (m * ((t + inverseAccuracy m a t * t) * x)) ≤
      inverseAccuracy m a t / 100 * (m * ((t + t) * x)) := by
    refine mul_le_mul (by linarith) ?_ (by positivity) (by positivity)
    refine mul_le_mul_of_nonneg_left (mul_le_mul_of_nonneg_right ?_ hx) hm0
    nlinarith
  have h5 : 0 ≤ m * inverseAccuracy m a t * t * x := by positivity
  generalize (1 : ℚ) / 2 ^ 500 = τ
  linarith

/-- The computed canonical form. -/
theorem canon_near (hL : Gaussian C L) {P : LP m n} {B : Fin m → Fin n} (hs : Scale m a t β γ α ε δ)
    (hP : DoubleData P a β γ) (h0 : Nonsing P B) (hNt : ∀ i j, |npInv (colSel P.A B) i j| ≤ t) :
    ∃ Q, fcanon L P B = .ok Q ∧ TableNear ε δ (canon P B) Q := by
  obtain ⟨Q, hQ, hA, hb, hc, -⟩ := C154_canonical (N := npInv (colSel P.A B)) hL hs.toModerate hP.A (npInv_mul h0) hNt
    hs.accuracy hP.b hP.c
  refine ⟨Q, hQ, fun i j => (hA i j).trans hs.table, fun i => (hb i).trans hs.rhs, fun j => ?_⟩
  exact (hc j).trans hs.costs

/-- Without costs on the basic columns the objective function stays as it is. -/
theorem costs_kept {P Q : LP m n} {B : Fin m → Fin n} (hQ : fcanon L P B = .ok Q) (hrep : ∀ j, binary64.Rep (P.c j))
    (hB : ∀ i, P.c (B i) = 0) : Q.c = (canon P B).c := by
  have e : (fun i => P.c (B i)) = 0 := funext hB
  unfold fcanon at hQ
  split at hQ
  · cases hQ
  · next T hT =>
    simp only [Except.ok.injEq] at hQ
    subst hQ
    have hy : ∀ i, L.mulVec Tᵀ (fun i => P.c (B i)) i = 0 := fun i =>
      (L.mulVec_val _ _ i).zero fun k => by simp only [hB, mul_zero]
    funext j
    have hv : L.vecMul (L.mulVec Tᵀ fun i => P.c (B i)) P.A j = 0 :=
      (L.vecMul_val _ _ j).zero fun i => by rw [hy, zero_mul]
    have h1 : (canon P B).c j = P.c j := by
      unfold canon
      simp only [e, Matrix.mulVec_zero, Matrix.zero_vecMul, sub_zero]
    rw [h1]
    show binary64.rd (P.c j - L.vecMul (L.mulVec Tᵀ fun i => P.c (B i)) P.A j) = P.c j
    rw [hv, sub_zero]
    exact hrep j

theorem follows_mono {R R' : Except PyErr (Iter m n)} {δ' ξ : ℚ} (h : Follows ε δ' ξ R R') (hδ : δ' ≤ δ) :
    Follows ε δ ξ R R' := by
  cases R with
  | error e => cases R' with
    | error e' => exact h
    | ok r' => cases r' <;> exact h.elim
  | ok r => cases R' with
    | error e' => cases r <;> exact h.elim
    | ok r' =>
      cases r <;> cases r' <;> first | exact h.elim | exact h | exact ⟨h.1, h.2.1, h.2.2.A, h.2.2.b, fun j => (h.2.2.c j).trans hδ⟩

theorem eps_low (hs : Scale m a t β γ α ε δ) {P : LP m n} {B : Fin m → Fin n} (hP : DoubleData P a β γ) (h0 : Nonsing P B)
    (hNt : ∀ i j, |npInv (colSel P.A B) i j| ≤ t) : 1 / 2 ^ 52 ≤ ε := by
  have hp : 0 < m := hs.pos
  have hm1 : (1 : ℚ) ≤ m := by exact_mod_cast hs.pos
  have ha0 : 0 ≤ a := le_trans (by decide +kernel) hs.low
  have ht0 : 0 ≤ t := (abs_nonneg _).trans (hNt ⟨0, hp⟩ ⟨0, hp⟩)
  have h := hs.table
  have h1 : 1 ≤ m * (a * t) := one_le_size (M := colSel P.A B) hs.pos (fun i j => hP.A i (B j)) (npInv_mul h0) hNt
  have hu := unit_le_accuracy hs.pos h1
  have h2 : inverseAccuracy m a t ≤ productSlack m a t a := by
    unfold productSlack
    have hδ0 : 0 ≤ inverseAccuracy m a t := by unfold inverseAccuracy; positivity
    have h3 := mul_le_mul_of_nonneg_left h1 hδ0
    have h4 : (0 : ℚ) ≤ 1 / 2 ^ 500 := by positivity
    generalize (1 : ℚ) / 2 ^ 500 = τ at h4
    nlinarith
  have h5 : (1 : ℚ) / 2 ^ 52 ≤ 100 * ((m + 2) / 2 ^ 52) := by
    rw [← mul_div_assoc]
    exact div_le_div_of_nonneg_right (by linarith) (by positivity)
  linarith

/-- The computed basic solution. -/
theorem solution_near (hL : Gaussian C L) {T Q : LP m n} {B : Fin m → Fin n} (hs : Scale m a t β γ α ε δ)
    (hone : colSel T.A B = 1) (hnear : TableNear ε δ T Q) {σ : ℚ} (hσ : ∀ i, |T.b i| + ε ≤ σ) :
    ∃ N, L.inv (colSel Q.A B) = .ok N ∧ ∀ i, |L.mulVec N Q.b i - T.b i| ≤ solutionSlack m ε σ := by
  have hp : 0 < m := hs.pos
  have hm1 : (1 : ℚ) ≤ m := by exact_mod_cast hs.pos
  have hε0 : 0 ≤ ε := (abs_nonneg _).trans (hnear.b ⟨0, hp⟩)
  have hε1 : ε ≤ 1 / 2 := by
    have := hs.small
    nlinarith
  have hE : ∀ i j, |colSel Q.A B i j - (1 : Matrix (Fin m) (Fin m) ℚ) i j| ≤ ε := by
    intro i j
    rw [← hone]
    exact hnear.A i (B j)
  obtain ⟨N', hN', hNe⟩ := near_identity hE hs.small
  have one_le : ∀ i j : Fin m, |(1 : Matrix (Fin m) (Fin m) ℚ) i j| ≤ 1 := by
    intro i j
    rw [Matrix.one_apply]
    split <;> simp
  have bound : ∀ {x y e : ℚ}, |x - y| ≤ e → |y| ≤ 1 → e ≤ 1 → |x| ≤ 2 := by
    intro x y e h1 h2 h3
    have := abs_add_le (x - y) y
    rw [sub_add_cancel] at this
    linarith
  have hacc : 0 ≤ inverseAccuracy m 2 2 := by unfold inverseAccuracy; positivity
  have hid := hs.identity
  unfold identitySlack at hid
  have hmod : Moderate m 2 := ⟨hs.pos, hs.size, by decide +kernel, by decide +kernel⟩
  obtain ⟨N, hN, hNN⟩ := C154_double (M := colSel Q.A B) (N := N') hL hmod
    (fun i j => bound (hE i j) (one_le i j) (by linarith)) hN' (fun i j => bound (hNe i j) (one_le i j) (by linarith))
    (by linarith)
  refine ⟨N, hN, fun i => ?_⟩
  have hη : ∀ k, |N i k - (1 : Matrix (Fin m) (Fin m) ℚ) i k| ≤ identitySlack m ε := by
    intro k
    have := abs_add_le (N i k - N' i k) (N' i k - (1 : Matrix (Fin m) (Fin m) ℚ) i k)
    rw [sub_add_sub_cancel] at this
    unfold identitySlack
    linarith [hNN i k, hNe i k]
  have hQ : ∀ k, |Q.b k| ≤ σ := by
    intro k
    have := abs_add_le (Q.b k - T.b k) (T.b k)
    rw [sub_add_cancel] at this
    linarith [hnear.b k, hσ k]
  have hσ0 : 0 ≤ σ := (abs_nonneg _).trans (hQ i)
  have h1 := near_dot hs.pos hs.size (L.mulVec_val N Q.b i) hη (one_le i) hQ
  have e1 : ∑ k, (1 : Matrix (Fin m) (Fin m) ℚ) i k * Q.b k = Q.b i := by
    have := congrFun (Matrix.one_mulVec Q.b) i
    exact this
  rw [e1] at h1
  have h2 : |L.mulVec N Q.b i - T.b i| ≤ |L.mulVec N Q.b i - Q.b i| + |Q.b i - T.b i| := by
    have := abs_add_le (L.mulVec N Q.b i - Q.b i) (Q.b i - T.b i)
    rwa [sub_add_sub_cancel] at this
  have h3 := hnear.b i
  have hu := unit_le_accuracy (a := 2) (t := 2) hs.pos (by linarith)
  have hη1 : identitySlack m ε ≤ 1 := hs.identity
  have h4 : (m + 2 : ℚ) / 2 ^ 52 * (m * ((1 + identitySlack m ε) * σ)) ≤ m * (identitySlack m ε * σ) := by
    have h5 : 2 * ((m + 2 : ℚ) / 2 ^ 52) ≤ identitySlack m ε := by
      have : (0 : ℚ) ≤ (m + 2) / 2 ^ 52 := by positivity
      unfold identitySlack
      linarith
    have h6 := mul_le_mul_of_nonneg_right h5 (show 0 ≤ m * σ by positivity)
    have h7 : m * ((1 + identitySlack m ε) * σ) ≤ m * (2 * σ) :=
      mul_le_mul_of_nonneg_left (mul_le_mul_of_nonneg_right (by linarith) hσ0) (by linarith)
    have h8 := mul_le_mul_of_nonneg_left h7 (show (0 : ℚ) ≤ (m + 2) / 2 ^ 52 by positivity)
    linarith
  unfold solutionSlack
  generalize (1 : ℚ) / 2 ^ 500 = τ at h1 ⊢
  linarith

theorem DoubleData.flip {P : LP m n} (h : DoubleData P a β γ) (S : Fin m → Bool) : DoubleData (flipRows S P) a β γ where
  repA i j := by
    show binary64.Rep (if S i then P.A i j * (-1) else P.A i j)
    split
    · exact rd_neg_one (h.repA i j)
    · exact h.repA i j
  repb i := by
    show binary64.Rep (if S i then P.b i * (-1) else P.b i)
    split
    · exact rd_neg_one (h.repb i)
    · exact h.repb i
  A i j := by
    show |if S i then P.A i j * (-1) else P.A i j| ≤ a
    split
    · rw [mul_neg_one, abs_neg]; exact h.A i j
    · exact h.A i j
  b i := by
    show |if S i then P.b i * (-1) else P.b i| ≤ β
    split
    · rw [mul_neg_one, abs_neg]; exact h.b i
    · exact h.b i
  c := h.c

theorem flip_inverse {P : LP m n} {B : Fin m → Fin n} (hNt : ∀ i j, |npInv (colSel P.A B) i j| ≤ t) (S : Fin m → Bool)
    (i j : Fin m) : |npInv (colSel (flipRows S P).A B) i j| ≤ t := by
  rw [npInv_flip, signs, Matrix.mul_diagonal, abs_mul]
  split
  · rw [abs_neg, abs_one, mul_one]; exact hNt i j
  · rw [abs_one, mul_one]; exact hNt i j

theorem inverse_of {P : LP m n} {B : Fin m → Fin n} {N : Matrix (Fin m) (Fin m) ℚ} (h : N * colSel P.A B = 1) :
    npInv (colSel P.A B) = N := by
  rw [npInv_eq]
  exact Matrix.inv_eq_left_inv h

theorem canon_rhs {P : LP m n} {B : Fin m → Fin n} (ht : 0 ≤ t) (hb : ∀ i, |P.b i| ≤ β)
    (hNt : ∀ i j, |npInv (colSel P.A B) i j| ≤ t) (i : Fin m) : |(canon P B).b i| ≤ m * (t * β) :=
  (Finset.abs_sum_le_sum_abs _ _).trans (sum_le_card fun k => by
    rw [abs_mul]
    exact mul_le_mul (hNt i k) (hb k) (abs_nonneg _) ht)

/-- The sorted columns of a basis. -/
theorem sorted_basis {P : LP m n} {basis : List ℤ} {B : Fin m → Fin n} (hb : isBasis P basis = .ok true)
    (ht : toCols m n (sortInt (toArrayIndexing basis)) = some B) :
    sortInt (toArrayIndexing basis) = colsList B ∧ Names basis B ∧ tol ≤ |(colSel P.A B).det| := by
  have h1 := toCols_iff.mp ht
  have h2 : (toArrayIndexing basis).Perm (colsList B) := by
    rw [← h1]
    exact (List.perm_insertionSort _ _).symm
  have h3 : basis.Perm ((colsList B).map (· + 1)) := by
    have h4 := h2.map (· + 1)
    have h5 : (toArrayIndexing basis).map (· + 1) = basis := by
      unfold toArrayIndexing
      rw [List.map_map]
      conv_rhs => rw [← List.map_id basis]
      refine List.map_congr_left fun z _ => ?_
      simp
    rwa [h5] at h4
  refine ⟨h1, ?_, ?_⟩
  · have h6 : (colsList B).map (· + 1) = List.ofFn fun i => ((B i : ℕ) : ℤ) + 1 := by
      unfold colsList
      rw [List.map_ofFn]
      rfl
    rw [h6] at h3
    exact h3
  · rw [isBasis_perm P h3] at hb
    obtain ⟨-, B', hB', hd⟩ := (isBasis_iff P _).mp hb
    rw [toArrayIndexing_succ] at hB'
    rwa [LinProg.colsList_inj hB']

/-- C157. One iteration in double precision: the same decision as in exact arithmetic, and nearly the same solution. -/
theorem C157_iteration (hC : C.Accurate) (hU : C.Underflows) (hL : Gaussian C L) {P : LP m n}
    (hs : Scale m a t β γ α ε δ) (hP : DoubleData P a β γ) {basis : List ℤ} (hsafe : Safe P a t β α ε δ basis) :
    Follows ε δ (solutionSlack m ε (m * (t * β) + ε)) (fsimplexIteration L P basis) (simplexIteration P basis) := by
  have hbasis : fisBasis L P basis = isBasis P basis := by
    refine C156_is_basis hC hU hL hs.toSmallSquare hP.A basis fun B hB => ?_
    have hN : Names basis B := by rw [Names, ← show basis = _ from hB]
    rcases hsafe B hN with h | h
    · exact Or.inr h
    · exact Or.inl h.1
  unfold fsimplexIteration simplexIteration
  rw [hbasis]
  split
  · rfl
  · cases hb : isBasis P basis with
    | error e => rfl
    | ok v =>
      cases v with
      | false => rfl
      | true =>
        simp only
        cases ht : toCols m n (sortInt (toArrayIndexing basis)) with
        | none => rfl
        | some B =>
          obtain ⟨h1, hN, hd⟩ := sorted_basis hb ht
          have h0 : Nonsing P B := isBasis_nonsing hd
          rcases hsafe B hN with h | ⟨-, ⟨N, hN1, hNt⟩, hclear⟩
          · exfalso
            have h2 : 0 ≤ detAccuracy m a := by
              have ha0 : 0 ≤ a := le_trans (by decide +kernel) hs.low
              unfold detAccuracy
              positivity
            unfold tol at hd
            norm_num at hd h
            linarith
          · rw [← inverse_of hN1] at hNt
            have hp : 0 < m := hs.pos
            have ht0 : 0 ≤ t := (abs_nonneg _).trans (hNt ⟨0, hp⟩ ⟨0, hp⟩)
            obtain ⟨Q, hQ, hnear⟩ := canon_near hL hs (hP.flip (negRows P)) ((nonsing_flip _).mpr h0)
              (flip_inverse hNt _)
            rw [canon_flip] at hnear
            have hrhs := canon_rhs ht0 hP.b hNt
            have hε := eps_low hs hP h0 hNt
            have hε0 : 0 ≤ ε := le_trans (by norm_num) hε
            obtain ⟨T, hT, hx⟩ := solution_near hL hs (colSel_canon h0) hnear (σ := m * (t * β) + ε)
              fun i => by linarith [hrhs i]
            simp only [fflipRows_eq hP.repA hP.repb, hQ, canon_flip, h1]
            have hα : 0 < α := lt_of_lt_of_le (by positivity) hs.least
            have hval : ∀ i k, α ≤ (canon P B).A i k →
                |binary64.rd (Q.b i / Q.A i k) - (canon P B).b i / (canon P B).A i k| ≤
                  ratioSlack ε α (m * (t * β) + ε) := fun i k hik =>
              quotient_near (hnear.b i) (hnear.A i k) hα hik hs.twice hs.unit ((hrhs i).trans (by linarith)) hε
            rcases hclear with hclear | ⟨hrep, hcosts, hclear⟩
            · exact iter_follow fine_binary64 h0.inj (colSel_canon h0) hT hx hnear hε0 hs.least
                ((abs_nonneg _).trans (hx ⟨0, hp⟩)) hval hclear
            · have e := costs_kept hQ hrep hcosts
              rw [canon_flip] at e
              have hnear' : TableNear ε 0 (canon P B) Q :=
                ⟨hnear.A, hnear.b, fun j => by rw [e, sub_self, abs_zero]⟩
              have hδ : 0 ≤ δ := (abs_nonneg _).trans (hnear.c (B ⟨0, hp⟩))
              exact follows_mono (iter_follow fine_binary64 h0.inj (colSel_canon h0) hT hx hnear' hε0 hs.least
                ((abs_nonneg _).trans (hx ⟨0, hp⟩)) hval hclear) hδ

/-! ### The method -/

/-- C157. The loop in double precision goes through the same bases. -/
theorem C157_loop (hC : C.Accurate) (hU : C.Underflows) (hL : Gaussian C L) {P : LP m n} (hs : Scale m a t β γ α ε δ)
    (hP : DoubleData P a β γ) (fuel : ℕ) {basis : List ℤ}
    (hsafe : ∀ l, Relation.ReflTransGen (Steps P) basis l → Safe P a t β α ε δ l) :
    Follows ε δ (solutionSlack m ε (m * (t * β) + ε)) (fsimplexLoop L fuel P basis) (simplexLoop fuel P basis) := by
  induction fuel generalizing basis with
  | zero => exact rfl
  | succ fuel ih =>
    have h := C157_iteration hC hU hL hs hP (hsafe basis .refl)
    rw [fsimplexLoop, simplexLoop]
    cases h1 : fsimplexIteration L P basis with
    | error e =>
      cases h2 : simplexIteration P basis with
      | error e' => rw [h1, h2] at h; exact h
      | ok r' => rw [h1, h2] at h; cases r' <;> exact h.elim
    | ok r =>
      cases h2 : simplexIteration P basis with
      | error e' => rw [h1, h2] at h; cases r <;> exact h.elim
      | ok r' =>
        rw [h1, h2] at h
        cases r <;> cases r' <;> first | exact h.elim | exact h | skip
        next l T l' T' =>
          have : l = l' := h
          subst this
          exact ih fun l'' hl => hsafe l'' (.head ⟨T', h2⟩ hl)

theorem isBasis_of_flip (S : Fin m → Bool) (P : LP m n) (l : List ℤ) : isBasis (flipRows S P) l = isBasis P l := by
  unfold isBasis isCloseToZero
  simp only [abs_det_flip]

theorem iteration_flip (S : Fin m → Bool) (P : LP m n) (l : List ℤ) :
    simplexIteration (flipRows S P) l = simplexIteration P l := by
  unfold simplexIteration
  rw [isBasis_of_flip]
  simp only [canon_flip]
  rfl

theorem steps_flip (S : Fin m → Bool) (P : LP m n) : Steps (flipRows S P) = Steps P := by
  funext l l'
  unfold Steps
  rw [iteration_flip]

theorem Safe.flip {P : LP m n} {l : List ℤ} (h : Safe P a t β α ε δ l) (S : Fin m → Bool) :
    Safe (flipRows S P) a t β α ε δ l := by
  intro B hB
  rw [abs_det_flip, canon_flip]
  rcases h B hB with h1 | ⟨h1, ⟨N, hN, hNt⟩, h2⟩
  · exact Or.inl h1
  · refine Or.inr ⟨h1, ⟨npInv (colSel (flipRows S P).A B), ?_, ?_⟩, h2⟩
    · rw [npInv_flip, colSel_flip, Matrix.mul_assoc, ← Matrix.mul_assoc (signs S), signs_sq, Matrix.one_mul, inverse_of hN,
        hN]
    · rw [← inverse_of hN] at hNt
      exact flip_inverse hNt S

/-- The basis at which the loop ends. -/
theorem loop_last {P : LP m n} {fuel : ℕ} {basis l : List ℤ} {x : Fin n → ℚ} {T : LP m n}
    (h : simplexLoop fuel P basis = .ok (.optimal x l T)) :
    ∃ l0, Relation.ReflTransGen (Steps P) basis l0 ∧ simplexIteration P l0 = .ok (.optimal x l T) := by
  induction fuel generalizing basis with
  | zero => cases h
  | succ fuel ih =>
    rw [simplexLoop] at h
    cases h2 : simplexIteration P basis with
    | error e => rw [h2] at h; cases h
    | ok r =>
      rw [h2] at h
      cases r with
      | optimal x' l' T' => exact ⟨basis, .refl, by rw [h2]; exact h⟩
      | unbounded x' B T' => cases h
      | next l' T' =>
        obtain ⟨l0, h3, h4⟩ := ih h
        exact ⟨l0, .head ⟨T', h2⟩ h3, h4⟩

theorem iteration_optimal {P : LP m n} {l0 l : List ℤ} {x : Fin n → ℚ} {T : LP m n}
    (h : simplexIteration P l0 = .ok (.optimal x l T)) :
    ∃ B, isBasis P l0 = .ok true ∧ toCols m n (sortInt (toArrayIndexing l0)) = some B ∧ l = (colsList B).map (· + 1) := by
  unfold simplexIteration at h
  split at h
  · cases h
  · split at h
    · cases h
    · cases h
    · next hb =>
      simp only at h
      split at h
      · cases h
      · next B ht =>
        refine ⟨B, hb, ht, ?_⟩
        rw [(sorted_basis hb ht).1] at h
        unfold iterStep at h
        simp only at h
        split at h
        · split at h
          · cases h
          · cases h; rfl
        · split at h
          · cases h
          · split at h
            · cases h
            · split at h
              · cases h
              · cases h

/-- The computed certificate of optimality. -/
theorem dual_near (hL : Gaussian C L) {P : LP m n} {B : Fin m → Fin n} (hs : Scale m a t β γ α ε δ)
    (hP : DoubleData P a β γ) (h0 : Nonsing P B) (hNt : ∀ i j, |npInv (colSel P.A B) i j| ≤ t) (S : Fin m → Bool) :
    ∃ y, fdualCert L P S B = .ok y ∧ ∀ i, |y i - dualCert P S B i| ≤ productSlack m a t γ := by
  have hd : (colSel P.A B)ᵀ.det ≠ 0 := by rw [Matrix.det_transpose]; exact h0
  have hN : ∀ i j, |npInv (colSel P.A B)ᵀ i j| ≤ t := by
    intro i j
    rw [npInv_eq, ← Matrix.transpose_nonsing_inv, ← npInv_eq, Matrix.transpose_apply]
    exact hNt j i
  have hA : ∀ i j, |(colSel P.A B)ᵀ i j| ≤ a := fun i j => hP.A j (B i)
  have h1 := one_le_size hs.pos hA (npInv_mul hd) hN
  obtain ⟨T, hT, hTN⟩ := C154_double hL hs.toModerate hA (npInv_mul hd) hN hs.accuracy
  unfold fdualCert dualCert
  rw [hT]
  refine ⟨_, rfl, fun i => ?_⟩
  have hv := L.mulVec_val T (fun i => P.c (B i)) i
  have h2 := product_near hs.toModerate h1 hs.accuracy hv (q := npInv (colSel P.A B)ᵀ i) (hTN i) (hN i)
    fun k => hP.c (B k)
  have e : (npInv (colSel P.A B)ᵀ).mulVec (fun i => P.c (B i)) i = ∑ k, npInv (colSel P.A B)ᵀ i k * P.c (B k) := rfl
  rw [← e] at h2
  split
  · rw [rd_neg_one (dotVal_rep hv), ← sub_mul, mul_neg_one, abs_neg]
    exact h2
  · exact h2

theorem argmaxPos_some (hn : 0 < n) (c : Fin n → ℚ) : ∃ k, argmaxPos c = some k := by
  unfold argmaxPos
  split
  · exact ⟨_, rfl⟩
  · rw [dif_pos hn]; exact ⟨_, rfl⟩

/-- C157. `simplex` in double precision, when no decision on the way of the exact method is close: it goes through the
same bases, ends with the same kind of answer, and the solution and the certificate of optimality are those of the exact
method up to rounding. The program object is left in the same state. -/
theorem C157_simplex (hC : C.Accurate) (hU : C.Underflows) (hL : Gaussian C L) {P : LP m n} (hs : Scale m a t β γ α ε δ)
    (hP : DoubleData P a β γ) (fuel : ℕ) {basis : List ℤ}
    (hsafe : ∀ l, Relation.ReflTransGen (Steps P) basis l → Safe P a t β α ε δ l) :
    SameAnswer (solutionSlack m ε (m * (t * β) + ε)) (productSlack m a t γ) (fsimplex L fuel P basis).1
      (simplex fuel P basis).1 ∧ (fsimplex L fuel P basis).2 = (simplex fuel P basis).2 := by
  unfold fsimplex simplex
  split
  · exact ⟨rfl, rfl⟩
  · have hP' := hP.flip (negRows P)
    have hsafe' : ∀ l, Relation.ReflTransGen (Steps (flipRows (negRows P) P)) basis l →
        Safe (flipRows (negRows P) P) a t β α ε δ l := by
      intro l hl
      rw [steps_flip] at hl
      exact (hsafe l hl).flip _
    have hloop := C157_loop hC hU hL hs hP' fuel hsafe'
    simp only [fflipRows_eq hP.repA hP.repb, fflipRows_eq hP'.repA hP'.repb]
    suffices hbody : SameAnswer (solutionSlack m ε (m * (t * β) + ε)) (productSlack m a t γ)
        (fsimplexBody L fuel (flipRows (negRows P) P) (negRows P) basis)
        (simplexBody fuel (flipRows (negRows P) P) (negRows P) basis) by
      revert hbody
      cases fsimplexBody L fuel (flipRows (negRows P) P) (negRows P) basis with
      | error e =>
        cases simplexBody fuel (flipRows (negRows P) P) (negRows P) basis with
        | error e' => exact fun h => ⟨h, rfl⟩
        | ok r' => intro h; cases r' <;> exact h.elim
      | ok r =>
        cases simplexBody fuel (flipRows (negRows P) P) (negRows P) basis with
        | error e' => intro h; cases r <;> exact h.elim
        | ok r' => exact fun h => ⟨h, rfl⟩
    generalize flipRows (negRows P) P = P' at *
    generalize negRows P = S at *
    unfold fsimplexBody simplexBody
    cases h1 : fsimplexLoop L fuel P' basis with
    | error e =>
      cases h2 : simplexLoop fuel P' basis with
      | error e' => rw [h1, h2] at hloop; exact hloop
      | ok r' => rw [h1, h2] at hloop; cases r' <;> exact hloop.elim
    | ok r =>
      cases h2 : simplexLoop fuel P' basis with
      | error e' => rw [h1, h2] at hloop; cases r <;> exact hloop.elim
      | ok r' =>
        rw [h1, h2] at hloop
        cases r <;> cases r' <;> first | exact hloop.elim | exact rfl | skip
        · next x l T x' l' T' =>
          obtain ⟨hl, hx⟩ := hloop
          subst hl
          obtain ⟨l0, hl0, hopt⟩ := loop_last h2
          obtain ⟨B, hb, ht, rfl⟩ := iteration_optimal hopt
          obtain ⟨-, hN, hd⟩ := sorted_basis hb ht
          have h0 : Nonsing P' B := isBasis_nonsing hd
          rcases hsafe' l0 hl0 B hN with h | ⟨-, ⟨N, hN1, hNt⟩, -⟩
          · exfalso
            have h2 : 0 ≤ detAccuracy m a := by
              have ha0 : 0 ≤ a := le_trans (by decide +kernel) hs.low
              unfold detAccuracy
              positivity
            unfold tol at hd
            norm_num at hd h
            linarith
          · rw [← inverse_of hN1] at hNt
            obtain ⟨y, hy, hyd⟩ := dual_near hL hs hP' h0 hNt S
            simp only [toArrayIndexing_succ, toCols_colsList, hy]
            exact ⟨rfl, hx, hyd⟩
        · next x B T x' B' T' =>
          obtain ⟨k, hk⟩ := argmaxPos_some (B ⟨0, hs.pos⟩).pos T.c
          obtain ⟨k', hk'⟩ := argmaxPos_some (B ⟨0, hs.pos⟩).pos T'.c
          simp only [hk, hk']
          exact hloop.2.1

/-! ### A case -/

/-- Sufficient for `Safe`, and can be computed. -/
def SafeCheck (P : LP m n) (a t α ε d : ℚ) (B : Fin m → Fin n) : Prop :=
  (2 / 10 ^ 10 + 3 * detAccuracy m a ≤ |(colSel P.A B).det| ∧ npInv (colSel P.A B) * colSel P.A B = 1 ∧
    ∀ i j, |npInv (colSel P.A B) i j| ≤ t) ∧
  ((∀ j, (∀ i, B i ≠ j) → (canon P B).c j + d ≤ 9 / 10 ^ 11) ∧ (∀ i, 1 / 2 ≤ (canon P B).b i) ∨
    ∃ k, (∀ i, B i ≠ k) ∧ 11 / 10 ^ 11 + d ≤ (canon P B).c k ∧
      (∀ j, j < k → (∀ i, B i ≠ j) → (canon P B).c j + d ≤ 9 / 10 ^ 11) ∧
      (∀ i, (canon P B).A i k + ε ≤ 9 / 10 ^ 11 ∨ α ≤ (canon P B).A i k) ∧
      ∀ i i', i' < i → α ≤ (canon P B).A i k → α ≤ (canon P B).A i' k →
        1 / 10 ^ 2 ≤ |(canon P B).b i' / (canon P B).A i' k - (canon P B).b i / (canon P B).A i k| ∧
        |(canon P B).b i' / (canon P B).A i' k| ≤ 10)

instance (P : LP m n) (a t α ε d : ℚ) (B : Fin m → Fin n) : Decidable (SafeCheck P a t α ε d B) := by
  unfold SafeCheck
  have : ∀ j : Fin n, Decidable (∀ i, B i ≠ j) := fun j => inferInstance
  refine @instDecidableAnd _ _ inferInstance (@instDecidableOr _ _ inferInstance
    (@Nat.decidableExistsFin _ _ fun k => @instDecidableAnd _ _ inferInstance (@instDecidableAnd _ _ inferInstance
      (@instDecidableAnd _ _ inferInstance (@instDecidableAnd _ _ inferInstance inferInstance)))))

theorem safe_of {P : LP m n} {l : List ℤ} (e1 : ratioSlack ε α (m * (t * β) + ε) ≤ 1 / 10 ^ 4)
    (e2 : solutionSlack m ε (m * (t * β) + ε) ≤ 1 / 10 ^ 4) (d : ℚ)
    (hd : d = δ ∨ d = 0 ∧ (∀ j, binary64.Rep (P.c j)) ∧ ∀ B : Fin m → Fin n, Names l B → ∀ i, P.c (B i) = 0)
    (h : ∀ B : Fin m → Fin n, Names l B → SafeCheck P a t α ε d B) : Safe P a t β α ε δ l := by
  intro B hB
  obtain ⟨⟨h1, h2, h3⟩, h4⟩ := h B hB
  have hclear : Clear ε d α (ratioSlack ε α (m * (t * β) + ε)) (solutionSlack m ε (m * (t * β) + ε)) (canon P B) B := by
    rcases h4 with ⟨h5, h6⟩ | ⟨k, hk, hkc, hbefore, hcol, hrat⟩
    · refine Or.inl ⟨h5, fun i => Or.inl ?_⟩
      have := h6 i
      norm_num at this e2 ⊢
      linarith
    · refine Or.inr ⟨k, hk, hkc, hbefore, hcol, fun i i' hi hA hA' => ?_⟩
      obtain ⟨k1, k2⟩ := hrat i i' hi hA hA'
      unfold Floating.Apart
      rcases le_abs.mp k1 with h | h
      · right
        norm_num at h k2 e1 ⊢
        linarith
      · left
        norm_num at h e1 ⊢
        linarith
  rcases hd with rfl | ⟨rfl, hr, hz⟩
  · exact Or.inr ⟨h1, ⟨_, h2, h3⟩, Or.inl hclear⟩
  · exact Or.inr ⟨h1, ⟨_, h2, h3⟩, Or.inr ⟨hr, hz B hB, hclear⟩⟩

theorem rep_of_den {q : ℚ} (h : q.den = 1 ∧ |q| ≤ 2 ^ 53) : binary64.Rep q := by
  have e := (Rat.den_eq_one_iff _).mp h.1
  rw [← e] at h ⊢
  exact binary64_rep.mpr (isDouble_int (by exact_mod_cast h.2))

/-- The bases that can be reached along a path of steps are those of the path. -/
theorem visits_of {P : LP m n} {V : List (List ℤ)} (hV : ∀ l ∈ V, ∀ l' T, simplexIteration P l = .ok (.next l' T) → l' ∈ V)
    {l l' : List ℤ} (hl : l ∈ V) (h : Relation.ReflTransGen (Steps P) l l') : l' ∈ V := by
  induction h with
  | refl => exact hl
  | tail _ hs ih =>
    obtain ⟨T, hT⟩ := hs
    exact hV _ ih _ _ hT

/-- The next basis, if there is one. -/
def nextBasis (P : LP m n) (l : List ℤ) : Option (List ℤ) :=
  match simplexIteration P l with
  | .ok (.next l' _) => some l'
  | _ => none

theorem visits_check {P : LP m n} {V : List (List ℤ)} (h : ∀ l ∈ V, ∀ l' ∈ nextBasis P l, l' ∈ V) :
    ∀ l ∈ V, ∀ l' T, simplexIteration P l = .ok (.next l' T) → l' ∈ V := by
  intro l hl l' T hT
  refine h l hl l' ?_
  unfold nextBasis
  rw [hT]
  rfl

/-- What an optimal answer is, as a Boolean. -/
def optimalIs (p : (Fin n → ℚ) → List ℤ → (Fin m → ℚ) → Bool) : Except PyErr (Answer m n) → Bool
  | .ok (.optimal x l y) => p x l y
  | _ => false

theorem of_optimalIs {p : (Fin n → ℚ) → List ℤ → (Fin m → ℚ) → Bool} {r : Except PyErr (Answer m n)}
    (h : optimalIs p r = true) {x : Fin n → ℚ} {l : List ℤ} {y : Fin m → ℚ} (hr : r = .ok (.optimal x l y)) :
    p x l y = true := by
  subst hr
  exact h

/-- Two steps of the method, with thirds and fifths on the way. -/
def followSample : LP 2 4 where
  A := !![3, 1, 1, 0; 1, 2, 0, 1]
  b := ![4, 3]
  c := ![1, 1, 0, 0]
  z := 0
  ineq _ := .eq
  neg := []
  free := []
  objective := .max
  isSef := true

theorem followSample_scale : Scale 2 3 1 4 1 (1 / 4) (1 / 10 ^ 9) (1 / 10 ^ 8) where
  pos := by norm_num
  size := by norm_num
  low := by decide +kernel
  high := by decide +kernel
  digits := by decide +kernel
  noOverflow := by decide +kernel
  accuracy := by decide +kernel
  table := by decide +kernel
  rhs := by decide +kernel
  costs := by decide +kernel
  small := by decide +kernel
  identity := by decide +kernel
  least := by decide +kernel
  twice := by decide +kernel
  unit := by decide +kernel

theorem followSample_data : DoubleData followSample 3 4 1 where
  repA i j := rep_of_den (by revert i j; decide +kernel)
  repb i := rep_of_den (by revert i; decide +kernel)
  A := by decide +kernel
  b := by decide +kernel
  c := by decide +kernel

theorem followSample_safe {l : List ℤ} (h : Relation.ReflTransGen (Steps followSample) [3, 4] l) :
    Safe followSample 3 1 4 (1 / 4) (1 / 10 ^ 9) (1 / 10 ^ 8) l := by
  have hv := visits_of (V := [[3, 4], [1, 4], [1, 2]]) (visits_check (by decide +kernel)) (by decide +kernel) h
  have k1 : ∀ l ∈ ([[3, 4], [1, 4], [1, 2]] : List (List ℤ)), ∀ B : Fin 2 → Fin 4,
      l.Perm (List.ofFn fun i => ((B i : ℕ) : ℤ) + 1) →
      SafeCheck followSample 3 1 (1 / 4) (1 / 10 ^ 9) (1 / 10 ^ 8) B := by decide +kernel
  exact safe_of (by decide +kernel) (by decide +kernel) _ (Or.inl rfl) (k1 _ hv)

/-- The answer in double precision. -/
example (hC : C.Accurate) (hU : C.Underflows) (hL : Gaussian C L) :
    ∃ x y, (fsimplex L 5 followSample [3, 4]).1 = .ok (.optimal x [1, 2] y) ∧
      (∀ j, |x j - ![1, 1, 0, 0] j| ≤ 1 / 10 ^ 6) ∧ ∀ i, |y i - ![1 / 5, 2 / 5] i| ≤ 1 / 10 ^ 6 := by
  have h := (C157_simplex hC hU hL followSample_scale followSample_data 5 (basis := [3, 4])
    fun l hl => followSample_safe hl).1
  have e : ∃ x' y', (simplex 5 followSample [3, 4]).1 = .ok (.optimal x' [1, 2] y') ∧ x' = ![1, 1, 0, 0] ∧
      y' = ![1 / 5, 2 / 5] := by
    have h1 : (match (simplex 5 followSample [3, 4]).1 with
      | .ok (.optimal x' l y') => decide (l = [1, 2] ∧ x' = ![1, 1, 0, 0] ∧ y' = ![1 / 5, 2 / 5])
      | _ => false) = true := by decide +kernel
    revert h1
    cases (simplex 5 followSample [3, 4]).1 with
    | error e => intro h1; cases h1
    | ok r =>
      cases r with
      | optimal x' l y' =>
        intro h1
        obtain ⟨rfl, h2, h3⟩ := of_decide_eq_true h1
        exact ⟨x', y', rfl, h2, h3⟩
      | unbounded x d => intro h1; cases h1
      | infeasible y => intro h1; cases h1
  obtain ⟨x', y', e1, rfl, rfl⟩ := e
  rw [e1] at h
  revert h
  cases (fsimplex L 5 followSample [3, 4]).1 with
  | error e => exact fun h => h.elim
  | ok r =>
    cases r with
    | optimal x l y =>
      rintro ⟨rfl, h1, h2⟩
      exact ⟨x, y, rfl, fun j => (h1 j).trans (by decide +kernel), fun i => (h2 i).trans (by decide +kernel)⟩
    | unbounded x d => exact fun h => h.elim
    | infeasible y => exact fun h => h.elim

end Props
end Pytimize
