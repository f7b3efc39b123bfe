/-
On totally unimodular programs with integers of moderate size the simplex method in double precision computes exactly.
-/
import Verif.Float.Unimodular
import Verif.LP.TwoPhaseAnswer
import Verif.Float.WholeProgram

namespace Pytimize
namespace Floating
open LinProg Comparator Matrix

variable {m n : ℕ}

/-- What is assumed of `np.linalg.det` and `np.linalg.inv`: they are exact on totally unimodular matrices of size `m`.
(Gaussian elimination is, see Float/Gauss.lean.) -/
def ExactOnUnimodular (L : Lapack binary64) (m : ℕ) : Prop :=
  ∀ M : Matrix (Fin m) (Fin m) ℚ, M.IsTotallyUnimodular → L.det M = M.det ∧ (M.det ≠ 0 → L.inv M = .ok M⁻¹)

/-- A totally unimodular program with integers up to `β` on the right-hand side, `γ` in the objective, and a constant up
to `ζ`. -/
structure Tame (P : LP m n) (β γ ζ : ℤ) : Prop where
  tu : P.A.IsTotallyUnimodular
  b : ∀ i, IntUpTo β (P.b i)
  c : ∀ j, IntUpTo γ (P.c j)
  z : IntUpTo ζ P.z

/-- The numbers that occur for `m` rows have 53 bits, the ratios 40. -/
structure Fits (m : ℕ) (β γ ζ : ℤ) : Prop where
  β0 : 0 ≤ β
  γ0 : 0 ≤ γ
  rows : (m : ℤ) ≤ 2 ^ 53
  rhs : m * β ≤ 2 ^ 40
  mult : m * γ ≤ 2 ^ 53
  cost : γ + m * (m * γ) ≤ 2 ^ 53
  val : m * (m * γ * β) + ζ ≤ 2 ^ 53

variable {P : LP m n} {β γ ζ : ℤ} {L : Lapack binary64}

theorem Tame.entry (h : Tame P β γ ζ) (i : Fin m) (j : Fin n) : IntUpTo 1 (P.A i j) := tu_entry h.tu i j

theorem Tame.cols (h : Tame P β γ ζ) (B : Fin m → Fin n) : (colSel P.A B).IsTotallyUnimodular := h.tu.submatrix id B

/-! ### Bases -/

theorem det_exact (hL : ExactOnUnimodular L m) (h : Tame P β γ ζ) (B : Fin m → Fin n) :
    closeToZero binary64 (L.det (colSel P.A B)) = isCloseToZero (colSel P.A B).det := by
  rw [(hL _ (h.cols B)).1]
  exact closeToZero_int (tu_det_self (h.cols B)).int

theorem fisBasis_eq (hL : ExactOnUnimodular L m) (h : Tame P β γ ζ) (basis : List ℤ) :
    fisBasis L P basis = isBasis P basis := by
  unfold fisBasis isBasis
  simp only [det_exact hL h]
  rfl

theorem inv_exact (hL : ExactOnUnimodular L m) {M : Matrix (Fin m) (Fin m) ℚ} (hM : M.IsTotallyUnimodular)
    (h0 : M.det ≠ 0) : L.inv M = .ok (npInv M) := by
  rw [npInv_eq]
  exact (hL M hM).2 h0

theorem mulVec_exact (M : Matrix (Fin m) (Fin n) ℚ) {A B : ℤ} (hM : ∀ i j, IntUpTo A (M i j)) {v : Fin n → ℚ}
    (hv : ∀ j, IntUpTo B (v j)) (hs : n * (A * B) ≤ 2 ^ 53) :
    L.mulVec M v = M.mulVec v ∧ ∀ i, IntUpTo (n * (A * B)) (M.mulVec v i) := by
  have key := fun i => (L.mulVec_val M v i).upTo (hM i) hv hs
  have e : L.mulVec M v = M.mulVec v := funext fun i => (key i).1
  exact ⟨e, fun i => e ▸ (key i).2⟩

theorem vecMul_exact (M : Matrix (Fin m) (Fin n) ℚ) {A B : ℤ} (hM : ∀ i j, IntUpTo A (M i j)) {v : Fin m → ℚ}
    (hv : ∀ j, IntUpTo B (v j)) (hs : m * (B * A) ≤ 2 ^ 53) :
    L.vecMul v M = M.vecMul v ∧ ∀ j, IntUpTo (m * (B * A)) (M.vecMul v j) := by
  have key := fun j => (L.vecMul_val v M j).upTo hv (fun i => hM i j) hs
  have e : L.vecMul v M = M.vecMul v := funext fun j => (key j).1
  exact ⟨e, fun j => e ▸ (key j).2⟩

theorem dot_exact {A B : ℤ} {u v : Fin n → ℚ} (hu : ∀ j, IntUpTo A (u j)) (hv : ∀ j, IntUpTo B (v j))
    (hs : n * (A * B) ≤ 2 ^ 53) : L.dot u v = u ⬝ᵥ v ∧ IntUpTo (n * (A * B)) (u ⬝ᵥ v) := by
  have key := (L.dot_val u v).upTo hu hv hs
  have e : L.dot u v = u ⬝ᵥ v := key.1
  exact ⟨e, e ▸ key.2⟩

/-! ### Canonical forms -/

theorem canon_entry (h : Tame P β γ ζ) {B : Fin m → Fin n} (h0 : Nonsing P B) (i : Fin m) (j : Fin n) :
    IntUpTo 1 ((canon P B).A i j) := by
  rw [canon_A_cramer]
  have e : (colSel P.A B).updateCol i (fun i => P.A i j) = P.A.submatrix id (Function.update B i j) := by
    ext r k
    by_cases hk : k = i
    · subst hk; simp
    · simp [hk, colSel]
  rw [e]
  simpa using (unit_inv (tu_det_self (h.cols B)) h0).mul (tu_det h.tu id _)

/-- The canonical form is computed exactly. -/
theorem fcanon_eq (hL : ExactOnUnimodular L m) (h : Tame P β γ ζ) (hf : Fits m β γ ζ) {B : Fin m → Fin n}
    (h0 : Nonsing P B) : fcanon L P B = .ok (canon P B) ∧ (∀ i, IntUpTo (m * β) ((canon P B).b i)) ∧
      ∀ j, ∃ k : ℤ, (canon P B).c j = k := by
  have hT := tu_npInv (h.cols B) h0
  have e1 : L.matMul (npInv (colSel P.A B)) P.A = npInv (colSel P.A B) * P.A := by
    ext i j
    refine ((L.matMul_val (npInv (colSel P.A B)) P.A i j).upTo (hT i) (fun l => h.entry l j) ?_).1
    simpa using hf.rows
  obtain ⟨e2, b2⟩ := mulVec_exact (L := L) (npInv (colSel P.A B)) hT h.b
    (by rw [one_mul]; exact hf.rhs.trans (by norm_num))
  obtain ⟨e3, b3⟩ := mulVec_exact (L := L) (npInv (colSel P.A B)).transpose (fun i j => hT j i)
    (v := fun i => P.c (B i)) (fun i => h.c (B i)) (by rw [one_mul]; exact hf.mult)
  simp only [one_mul] at b2 b3
  have hc2 : m * (m * γ * 1) ≤ 2 ^ 53 := by rw [mul_one]; linarith [hf.cost, hf.γ0]
  obtain ⟨e4, b4⟩ := vecMul_exact (L := L) P.A h.entry b3 hc2
  have hz := h.z.nonneg
  obtain ⟨e5, b5⟩ := dot_exact (L := L) b3 h.b (by linarith [hf.val])
  have e6 : ∀ j, binary64.rd (P.c j - P.A.vecMul ((npInv (colSel P.A B)).transpose.mulVec fun i => P.c (B i)) j) =
      P.c j - P.A.vecMul ((npInv (colSel P.A B)).transpose.mulVec fun i => P.c (B i)) j := fun j =>
    ((h.c j).sub (b4 j)).rd_eq (by rw [mul_one]; exact hf.cost)
  refine ⟨?_, b2, fun j => ((h.c j).sub (b4 j)).int⟩
  unfold fcanon
  rw [inv_exact hL (h.cols B) h0]
  simp only [e1, e2, e3, e4, e5, e6, (b5.add h.z).rd_eq hf.val]
  rfl

/-! ### One iteration -/

theorem assign_upTo {A : ℤ} (hA : 0 ≤ A) (B : Fin m → Fin n) {v : Fin m → ℚ} (hv : ∀ i, IntUpTo A (v i)) (j : Fin n) :
    IntUpTo A (assign B v j) := by
  have : ∀ (l : List (Fin m)) (x : Fin n → ℚ), (∀ j, IntUpTo A (x j)) →
      ∀ j, IntUpTo A (l.foldl (fun x i => Function.update x (B i) (v i)) x j) := by
    intro l
    induction l with
    | nil => intro x hx j; exact hx j
    | cons a l ih =>
      intro x hx
      rw [List.foldl_cons]
      refine ih _ fun j => ?_
      by_cases hj : j = B a
      · subst hj; rw [Function.update_self]; exact hv a
      · rw [Function.update_of_ne hj]; exact hx j
  exact this _ _ (fun _ => IntUpTo.zero hA) j

theorem fratioLt_eq {v : ℚ} (hv : IntUpTo (2 ^ 40) v) {o : Option ℚ} (ho : ∀ t, o = some t → IntUpTo (2 ^ 40) t) :
    fratioLt binary64 v o = ratioLt v o := by
  cases o with
  | none => rfl
  | some t =>
    unfold fratioLt ratioLt
    exact cmp_int hv (ho t rfl) .lt

theorem one_of_positive {x : ℚ} (hx : IntUpTo 1 x) (hp : isPositive x = true) : x = 1 := by
  obtain ⟨k, hk1, hk2⟩ := hx
  have := abs_le.mp hk2
  have : k = -1 ∨ k = 0 ∨ k = 1 := by omega
  rw [hk1] at hp ⊢
  rcases this with rfl | rfl | rfl
  · exact absurd hp (by decide +kernel)
  · exact absurd hp (by decide +kernel)
  · simp

theorem fratioTest_eq {A : ℤ} (hA : A ≤ 2 ^ 40) {b Ak : Fin m → ℚ} (hb : ∀ i, IntUpTo A (b i))
    (hk : ∀ i, IntUpTo 1 (Ak i)) : fratioTest binary64 b Ak = ratioTest b Ak := by
  have key : ∀ (l : List (Fin m)) (s : Option ℚ × Option (Fin m)), (∀ t, s.1 = some t → IntUpTo (2 ^ 40) t) →
      l.foldl (fun s i => if positive binary64 (Ak i) then
        if fratioLt binary64 (binary64.rd (b i / Ak i)) s.1 then (some (binary64.rd (b i / Ak i)), some i) else s
        else s) s =
      l.foldl (fun s i => if isPositive (Ak i) then
        if ratioLt (b i / Ak i) s.1 then (some (b i / Ak i), some i) else s else s) s := by
    intro l
    induction l with
    | nil => intro s _; rw [List.foldl_nil, List.foldl_nil]
    | cons i l ih =>
      intro s hs
      rw [List.foldl_cons, List.foldl_cons, positive_int (hk i).int]
      by_cases hp : isPositive (Ak i) = true
      · have hq : IntUpTo (2 ^ 40) (b i / Ak i) := by
          rw [one_of_positive (hk i) hp, div_one]; exact (hb i).mono hA
        rw [if_pos hp, if_pos hp, hq.rd_eq (by norm_num), fratioLt_eq hq hs]
        by_cases hl : ratioLt (b i / Ak i) s.1 = true
        · rw [if_pos hl]
          exact ih _ fun t ht => by rw [← Option.some.inj ht]; exact hq
        · rw [if_neg hl]
          exact ih s hs
      · rw [if_neg hp, if_neg hp]
        exact ih s hs
  unfold fratioTest ratioTest
  exact key _ _ fun t ht => by cases ht

theorem fiterStep_eq (hL : ExactOnUnimodular L m) (h : Tame P β γ ζ) (hf : Fits m β γ ζ) {B : Fin m → Fin n}
    (h0 : Nonsing P B) (l : List ℤ) :
    fiterStep L (canon P B) l B = iterStep (canon P B) l B := by
  obtain ⟨-, hb, hc⟩ := fcanon_eq hL h hf h0
  have hinv : L.inv (colSel (canon P B).A B) = .ok (npInv (colSel (canon P B).A B)) := by
    rw [colSel_canon h0]
    exact inv_exact hL tu_one (by simp)
  have hmv : L.mulVec (npInv (colSel (canon P B).A B)) (canon P B).b =
      (npInv (colSel (canon P B).A B)).mulVec (canon P B).b := by
    rw [colSel_canon h0, npInv_one]
    funext i
    refine (L.mulVec_val _ _ i).int (fun k => ?_) (fun k => (hb k).int) ?_
    · rw [Matrix.one_apply]
      split
      · exact ⟨1, by simp⟩
      · exact ⟨0, by simp⟩
    · have : ∑ k, |(1 : Matrix (Fin m) (Fin m) ℚ) i k * (canon P B).b k| = |(canon P B).b i| := by
        rw [Finset.sum_eq_single i]
        · simp
        · intro k _ hk; simp [Ne.symm hk]
        · simp
      rw [this]
      refine (hb i).abs_le.trans ?_
      exact_mod_cast hf.rhs.trans (by norm_num)
  have hx : ∀ j, IntUpTo (m * β) (assign B ((npInv (colSel (canon P B).A B)).mulVec (canon P B).b) j) := by
    refine assign_upTo (mul_nonneg (Int.natCast_nonneg m) hf.β0) B fun i => ?_
    rw [colSel_canon h0, npInv_one, Matrix.one_mulVec]
    exact hb i
  unfold fiterStep iterStep
  simp only [hinv, hmv]
  have c1 : ∀ j, cmpTol binary64 ((canon P B).c j) .le 0 = pyCmp ((canon P B).c j) .le 0 := fun j =>
    cmp_zero_int (hc j) _
  have c2 : ∀ j, positive binary64 ((canon P B).c j) = isPositive ((canon P B).c j) := fun j => positive_int (hc j)
  have c3 : ∀ i j, cmpTol binary64 ((canon P B).A i j) .le 0 = pyCmp ((canon P B).A i j) .le 0 := fun i j =>
    cmp_zero_int (canon_entry h h0 i j).int _
  have c4 : ∀ k, fratioTest binary64 (canon P B).b (fun i => (canon P B).A i k) =
      ratioTest (canon P B).b fun i => (canon P B).A i k := fun k =>
    fratioTest_eq hf.rhs hb fun i => canon_entry h h0 i k
  have c5 := fun j => negative_int (hx j).int
  simp only [c1, c2, c3, c4, c5]
  rfl

/-! ### Rows with their signs changed -/

theorem fflipRows_eq {R : Rounding} (hA : ∀ i j, R.Rep (P.A i j)) (hb : ∀ i, R.Rep (P.b i)) (S : Fin m → Bool) :
    fflipRows R S P = flipRows S P := by
  unfold fflipRows flipRows
  simp only [fun i j => rd_neg_one (hA i j), fun i => rd_neg_one (hb i)]

theorem Tame.flip (h : Tame P β γ ζ) (S : Fin m → Bool) : Tame (flipRows S P) β γ ζ where
  tu := by
    rw [tu_iff] at *
    obtain ⟨h1, h2⟩ := tu_iff.mp h.tu
    refine ⟨fun i j => ?_, h2.flip fun i => ⟨if S i then -1 else 1, by split <;> simp, fun j => ?_⟩⟩
    · obtain ⟨z, hz⟩ := h1 i j
      simp only [flipRows]
      split
      · exact ⟨-z, by rw [hz]; push_cast; ring⟩
      · exact ⟨z, hz⟩
    · simp only [flipRows]
      split <;> simp
  b i := by
    simp only [flipRows]
    split
    · rw [mul_neg_one]; exact (h.b i).neg
    · exact h.b i
  c := h.c
  z := h.z

theorem Tame.fflip (h : Tame P β γ ζ) (hf : Fits m β γ ζ) (S : Fin m → Bool) :
    fflipRows binary64 S P = flipRows S P := by
  refine fflipRows_eq (fun i j => (h.entry i j).rd_eq (by norm_num)) (fun i => (h.b i).rd_eq ?_) S
  have hm : (1 : ℤ) ≤ m := by exact_mod_cast (Nat.zero_lt_of_lt i.2)
  nlinarith [hf.rhs, hf.β0]


/-! ### The simplex method -/

theorem fsimplexIteration_eq (hL : ExactOnUnimodular L m) (h : Tame P β γ ζ) (hf : Fits m β γ ζ) (basis : List ℤ) :
    fsimplexIteration L P basis = simplexIteration P basis := by
  unfold fsimplexIteration simplexIteration
  rw [fisBasis_eq hL h]
  cases hb : isBasis P basis with
  | error e => rfl
  | ok v =>
    cases v with
    | false => rfl
    | true =>
      simp only
      obtain ⟨hm, B', hB', hd⟩ := (isBasis_iff P basis).mp hb
      cases ht : toCols m n (sortInt (toArrayIndexing basis)) with
      | none => rfl
      | some B =>
        have h0 : Nonsing P B := by
          obtain ⟨B'', h1, rfl⟩ := toCols_sortInt.mp ht
          rw [hB'] at h1
          have : B' = B'' := by
            have := congrArg (toCols m n) h1
            rwa [toCols_colsList, toCols_colsList, Option.some.injEq] at this
          subst this
          exact (isBasis_nonsing hd).same (sortCols_same B')
        have h0' : Nonsing (flipRows (negRows P) P) B := (nonsing_flip _).mpr h0
        simp only [h.fflip hf, (fcanon_eq hL (h.flip _) hf h0').1, fiterStep_eq hL (h.flip _) hf h0']

theorem fsimplexLoop_eq (hL : ExactOnUnimodular L m) (h : Tame P β γ ζ) (hf : Fits m β γ ζ) (fuel : ℕ)
    (basis : List ℤ) : fsimplexLoop L fuel P basis = simplexLoop fuel P basis := by
  induction fuel generalizing basis with
  | zero => rfl
  | succ fuel ih =>
    rw [fsimplexLoop, simplexLoop, fsimplexIteration_eq hL h hf]
    cases simplexIteration P basis with
    | error e => rfl
    | ok r => cases r <;> first | rfl | exact ih _

theorem Tame.sol (hL : ExactOnUnimodular L m) (h : Tame P β γ ζ) (hf : Fits m β γ ζ) {B : Fin m → Fin n}
    (h0 : Nonsing P B) (j : Fin n) : IntUpTo (m * β) (sol P B j) :=
  assign_upTo (mul_nonneg (Int.natCast_nonneg m) hf.β0) B (fcanon_eq hL h hf h0).2.1 j

theorem fdualCert_eq (hL : ExactOnUnimodular L m) (h : Tame P β γ ζ) (hf : Fits m β γ ζ) (S : Fin m → Bool)
    {B : Fin m → Fin n} (h0 : Nonsing P B) : fdualCert L P S B = .ok (dualCert P S B) := by
  have ht : (colSel P.A B)ᵀ.IsTotallyUnimodular := (transpose_isTotallyUnimodular_iff _).mpr (h.cols B)
  have hd : (colSel P.A B)ᵀ.det ≠ 0 := by rw [det_transpose]; exact h0
  obtain ⟨e, hy⟩ := mulVec_exact (L := L) (npInv (colSel P.A B)ᵀ) (tu_npInv ht hd) (v := fun i => P.c (B i))
    (fun i => h.c (B i)) (by rw [one_mul]; exact hf.mult)
  unfold fdualCert dualCert
  rw [inv_exact hL ht hd]
  simp only [e]
  congr 1
  funext i
  split
  · rw [mul_neg_one, binary64.odd, (hy i).rd_eq (by rw [one_mul]; exact hf.mult)]
  · rfl

theorem colsList_inj {B D : Fin m → Fin n} (h : colsList B = colsList D) : B = D := by
  have := congrArg (toCols m n) h
  rwa [toCols_colsList, toCols_colsList, Option.some.injEq] at this

theorem nonneg_of_int {v : ℚ} (h : ∃ k : ℤ, v = k) (h1 : -tol < v) : 0 ≤ v := by
  obtain ⟨k, rfl⟩ := h
  have : (-1 : ℚ) < k := by
    refine lt_of_le_of_lt ?_ h1
    unfold tol
    norm_num
  have : -1 < k := by exact_mod_cast this
  exact_mod_cast (by omega : 0 ≤ k)

/-- What an optimal answer of the loop looks like. -/
theorem loop_optimal {fuel : ℕ} {basis l : List ℤ} {x : Fin n → ℚ} {C : LP m n}
    (hr : simplexLoop fuel P basis = .ok (.optimal x l C)) :
    ∃ D, Nonsing P D ∧ toArrayIndexing l = colsList D ∧ x = LinProg.sol P D ∧ ∀ j, -tol < x j := by
  obtain ⟨D, -, hd, hs, -, -⟩ := simplexLoop_answer fuel basis hr
  cases hs with
  | optimal hc hx => exact ⟨D, isBasis_nonsing hd, toArrayIndexing_succ _, rfl, hx⟩

theorem fsimplexBody_eq (hL : ExactOnUnimodular L m) (h : Tame P β γ ζ) (hf : Fits m β γ ζ) (fuel : ℕ)
    (S : Fin m → Bool) (basis : List ℤ) : fsimplexBody L fuel P S basis = simplexBody fuel P S basis := by
  unfold fsimplexBody simplexBody
  rw [fsimplexLoop_eq hL h hf]
  cases hr : simplexLoop fuel P basis with
  | error e => rfl
  | ok r =>
    cases r with
    | unbounded x B C => rfl
    | next l C => rfl
    | optimal x l C =>
      obtain ⟨D, h0, hD, -, -⟩ := loop_optimal hr
      simp only [hD, toCols_colsList, fdualCert_eq hL h hf S h0]

/-- `simplex` computes exactly. -/
theorem fsimplex_eq (hL : ExactOnUnimodular L m) (h : Tame P β γ ζ) (hf : Fits m β γ ζ) (fuel : ℕ) (basis : List ℤ) :
    fsimplex L fuel P basis = simplex fuel P basis := by
  unfold fsimplex simplex
  simp only [h.fflip hf, (h.flip _).fflip hf, fsimplexBody_eq hL (h.flip _) hf]
  rfl

theorem simplex_basis {fuel : ℕ} {basis l : List ℤ} {x : Fin n → ℚ} {y : Fin m → ℚ}
    (hr : (simplex fuel P basis).1 = .ok (.optimal x l y)) :
    ∃ D, Nonsing P D ∧ toArrayIndexing l = colsList D ∧ x = LinProg.sol P D ∧ ∀ j, -tol < x j := by
  unfold simplex at hr
  by_cases hs : (!P.isSef) = true
  · rw [if_pos hs] at hr; cases hr
  · rw [if_neg hs] at hr
    simp only at hr
    cases hb : simplexBody fuel (flipRows (negRows P) P) (negRows P) basis with
    | error e => rw [hb] at hr; cases hr
    | ok a =>
      rw [hb] at hr
      simp only [Except.ok.injEq] at hr
      subst hr
      unfold simplexBody at hb
      cases hl : simplexLoop fuel (flipRows (negRows P) P) basis with
      | error e => rw [hl] at hb; cases hb
      | ok r =>
        rw [hl] at hb
        cases r with
        | unbounded x B C =>
          simp only at hb
          split at hb <;> cases hb
        | next l C => cases hb
        | optimal x' l' C =>
          obtain ⟨D, h2, h3, h4, h5⟩ := loop_optimal hl
          simp only [h3, toCols_colsList, Except.ok.injEq, Answer.optimal.injEq] at hb
          obtain ⟨rfl, rfl, -⟩ := hb
          exact ⟨D, (nonsing_flip _).mp h2, h3, by rw [h4, sol_flip], h5⟩

theorem simplex_optimal (hL : ExactOnUnimodular L m) (h : Tame P β γ ζ) (hf : Fits m β γ ζ) {fuel : ℕ}
    {basis l : List ℤ} {x : Fin n → ℚ} {y : Fin m → ℚ} (hr : (simplex fuel P basis).1 = .ok (.optimal x l y)) :
    (∀ j, IntUpTo (m * β) (x j) ∧ 0 ≤ x j) ∧ ∃ D, Nonsing P D ∧ toArrayIndexing l = colsList D := by
  obtain ⟨D, h0, hD, rfl, hx⟩ := simplex_basis hr
  exact ⟨fun j => ⟨h.sol hL hf h0 j, nonneg_of_int (h.sol hL hf h0 j).int (hx j)⟩, D, h0, hD⟩

/-! ### Two phases -/

theorem fsearch_eq (hL : ExactOnUnimodular L m) (h : Tame P β γ ζ) (pb zs : List ℤ) (size : ℕ) (f : ℕ)
    (st : List (ℕ × List ℤ)) : fsearch L P pb zs size f st = search P pb zs size f st := by
  induction f generalizing st with
  | zero => rfl
  | succ f ih =>
    cases st with
    | nil => rfl
    | cons a rest =>
      obtain ⟨cur, l⟩ := a
      rw [fsearch, search, fisBasis_eq hL h]
      by_cases hl : l.length = size
      · rw [if_pos hl, if_pos hl]
        cases isBasis P (sortInt (pb ++ l)) with
        | error e => rfl
        | ok v => cases v <;> first | rfl | exact ih _
      · rw [if_neg hl, if_neg hl]
        exact ih _

theorem indicesWhere_congr {vals : List ℚ} {f g : ℚ → Bool} (h : ∀ v ∈ vals, f v = g v) :
    indicesWhere vals f = indicesWhere vals g := by
  unfold indicesWhere
  congr 1
  refine List.filter_congr fun i hi => ?_
  have hi' := List.mem_range.mp hi
  refine h _ ?_
  rw [List.getD_eq_getElem?_getD, List.getElem?_eq_getElem hi']
  exact List.getElem_mem hi'

theorem fcompleteBasis_eq (hL : ExactOnUnimodular L m) (h : Tame P β γ ζ) {vals : List ℚ}
    (hv : ∀ v ∈ vals, ∃ k : ℤ, v = k) : fcompleteBasis L P vals = completeBasis P vals := by
  have e1 : indicesWhere vals (closeToZero binary64) = indicesWhere vals isCloseToZero :=
    indicesWhere_congr fun v hm => closeToZero_int (hv v hm)
  have e2 : indicesWhere vals (fun v => !closeToZero binary64 v) = indicesWhere vals fun v => !isCloseToZero v :=
    indicesWhere_congr fun v hm => by rw [closeToZero_int (hv v hm)]
  unfold fcompleteBasis completeBasis
  simp only [e1, e2, fsearch_eq hL h]
  rfl

theorem Tame.isInt (h : Tame P β γ ζ) : IsInt P :=
  ⟨fun i j => (h.entry i j).int, fun i => (h.b i).int, fun j => (h.c j).int⟩

theorem Tame.aux (h : Tame P β γ ζ) : Tame (auxSef P) β 1 0 where
  tu := tu_iff.mpr ⟨h.isInt.aux.1, (tu_iff.mp h.tu).2.aux⟩
  b i := by
    simp only [auxSef, auxLp]
    split
    · rw [mul_neg_one]; exact (h.b i).neg
    · exact h.b i
  c j := by
    refine Fin.addCases (fun j => ?_) (fun k => ?_) j
    · simp only [auxSef, auxLp, Fin.append_left, neg_zero]
      exact IntUpTo.zero (by norm_num)
    · simp only [auxSef, auxLp, Fin.append_right]
      exact ⟨-1, by norm_num, by norm_num⟩
  z := IntUpTo.zero le_rfl

theorem Fits.aux (hf : Fits m β γ ζ) (hγ : 1 ≤ γ) (hζ : 0 ≤ ζ) : Fits m β 1 0 := by
  have hm : (0 : ℤ) ≤ m := Int.natCast_nonneg m
  have h1 : (m : ℤ) * 1 ≤ m * γ := mul_le_mul_of_nonneg_left hγ hm
  have h2 : (m : ℤ) * (m * 1) ≤ m * (m * γ) := mul_le_mul_of_nonneg_left h1 hm
  have h3 : (m : ℤ) * (m * 1 * β) ≤ m * (m * γ * β) :=
    mul_le_mul_of_nonneg_left (mul_le_mul_of_nonneg_right h1 hf.β0) hm
  exact ⟨hf.β0, by norm_num, hf.rows, hf.rhs, h1.trans hf.mult, by linarith [hf.cost], by linarith [hf.val]⟩

theorem Tame.stored (h : Tame P β γ ζ) (hβ : β ≤ 2 ^ 53) (hγ : γ ≤ 2 ^ 53) (hζ : ζ ≤ 2 ^ 53) : Stored binary64 P :=
  ⟨fun i j => (h.entry i j).rd_eq (by norm_num), fun i => (h.b i).rd_eq hβ, fun j => (h.c j).rd_eq hγ,
    h.z.rd_eq hζ⟩

theorem rep_one : binary64.Rep 1 := IntUpTo.rd_eq (B := 1) (by norm_num) ⟨1, by norm_num, by norm_num⟩

/-- `two_phase_simplex` computes exactly. -/
theorem ftwoPhase_eq (hL : ExactOnUnimodular L m) (h : Tame P β γ ζ) (hf : Fits m β γ ζ) (hγ : 1 ≤ γ)
    (hβ : β ≤ 2 ^ 53) (hv : ((n + m : ℕ) : ℤ) * (m * β) ≤ 2 ^ 53) (fuel : ℕ) :
    ftwoPhase L fuel P = twoPhase fuel P := by
  have hm : (0 : ℤ) ≤ m := Int.natCast_nonneg m
  have hζ := h.z.nonneg
  have hp : 0 ≤ (m : ℤ) * (m * γ * β) :=
    mul_nonneg hm (mul_nonneg (mul_nonneg hm hf.γ0) hf.β0)
  have hst : Stored binary64 P := h.stored hβ
    (by have := mul_nonneg hm (mul_nonneg hm hf.γ0); linarith [hf.cost]) (by linarith [hf.val])
  obtain ⟨e1, s1⟩ := fauxLp_eq rep_one hst
  have hT := h.aux
  have hF := hf.aux hγ hζ
  unfold ftwoPhase twoPhase
  rw [e1, (ftoSef_eq rep_one s1).1, toSef_aux]
  congr 1
  unfold ftwoPhaseWith twoPhaseWith
  simp only [fsimplex_eq hL hT hF, fsimplex_eq hL h hf, fisBasis_eq hL h]
  cases hr : (simplex fuel (auxSef P) ((List.range m).map fun i : ℕ => (n : ℤ) + i + 1)).1 with
  | error e => rfl
  | ok a =>
    cases a with
    | unbounded x d => rfl
    | infeasible y => rfl
    | optimal x l y =>
      obtain ⟨hx, D, h0, hD⟩ := simplex_optimal hL hT hF hr
      obtain ⟨e2, h2⟩ := dot_exact (L := L) hT.c (fun j => (hx j).1) (by rw [one_mul]; exact hv)
      have e3 : binary64.rd ((auxSef P).c ⬝ᵥ x + (auxSef P).z) = (auxSef P).c ⬝ᵥ x + (auxSef P).z :=
        (h2.add hT.z).rd_eq (by rw [one_mul, add_zero]; exact hv)
      have e4 : fcompleteBasis L P ((List.ofFn x).take n) = completeBasis P ((List.ofFn x).take n) := by
        refine fcompleteBasis_eq hL h fun v hm => ?_
        obtain ⟨j, rfl⟩ := List.mem_ofFn.mp (List.mem_of_mem_take hm)
        exact (hx j).1.int
      simp only [e2, e3, closeToZero_int (h2.add hT.z).int, e4, hD, toCols_colsList, fdualCert_eq hL hT hF _ h0]
      rfl

theorem twoPhase_optimal (hL : ExactOnUnimodular L m) (h : Tame P β γ ζ) (hf : Fits m β γ ζ) {fuel : ℕ}
    {l : List ℤ} {x : Fin n → ℚ} {y : Fin m → ℚ} (hr : (twoPhase fuel P).1 = .ok (.optimal x l y)) :
    ∀ j, IntUpTo (m * β) (x j) ∧ 0 ≤ x j := by
  unfold twoPhase at hr
  split at hr
  · cases hr
  · unfold twoPhaseWith at hr
    split at hr
    · cases hr
    · cases hr
    · cases hr
    · split at hr
      · split at hr
        · cases hr
        · exact (simplex_optimal hL h hf hr).1
        · split at hr
          · cases hr
          · exact (simplex_optimal hL h hf hr).1
      · split at hr <;> cases hr

/-! ### Conversion to SEF -/

/-- Clamping to `[-g, g]`: a rounding that leaves exactly the numbers up to `g` alone. -/
def clamp (g : ℚ) (hg : 0 ≤ g) : Rounding where
  rd x := max (-g) (min g x)
  u := 1
  tiny := 0
  u_nonneg := by norm_num
  tiny_nonneg := le_rfl
  mono h := max_le_max le_rfl (min_le_min le_rfl h)
  idem x := by
    rcases le_total x g with h | h
    · rw [min_eq_right h]
      rcases le_total (-g) x with h' | h'
      · rw [max_eq_right h', min_eq_right h, max_eq_right h']
      · rw [max_eq_left h', min_eq_right (by linarith), max_self]
    · rw [min_eq_left h, max_eq_right (by linarith : -g ≤ g), min_self, max_eq_right (by linarith)]
  odd x := by
    rcases le_total x g with h | h
    · rw [min_eq_right h]
      rcases le_total (-g) x with h' | h'
      · rw [max_eq_right h', min_eq_right (by linarith), max_eq_right (by linarith)]
      · rw [max_eq_left h', min_eq_left (by linarith), max_eq_right (by linarith), neg_neg]
    · rw [min_eq_left h, max_eq_right (by linarith : -g ≤ g), min_eq_right (by linarith), max_eq_left (by linarith)]
  err x := by
    rw [one_mul, add_zero]
    rcases le_total x g with h | h
    · rw [min_eq_right h]
      rcases le_total (-g) x with h' | h'
      · rw [max_eq_right h', sub_self, abs_zero]; exact abs_nonneg x
      · rw [max_eq_left h', abs_of_nonneg (by linarith), abs_of_nonpos (by linarith)]; linarith
    · rw [min_eq_left h, max_eq_right (by linarith), abs_of_nonpos (by linarith), abs_of_nonneg (by linarith)]
      linarith

theorem clamp_rep {g : ℚ} (hg : 0 ≤ g) {x : ℚ} : (clamp g hg).Rep x ↔ |x| ≤ g := by
  show max (-g) (min g x) = x ↔ |x| ≤ g
  constructor
  · intro h
    rw [← h, abs_le]
    exact ⟨le_max_left _ _, max_le (by linarith) (min_le_left _ _)⟩
  · intro h
    obtain ⟨h1, h2⟩ := abs_le.mp h
    rw [min_eq_right h2, max_eq_right h1]

theorem toSef_z (P : LP m n) : (toSef P).lp.z = P.z := by
  unfold toSef
  generalize P.isSef = b
  cases b <;> rfl

/-- The conversion keeps a program tame. -/
theorem Tame.toSef (h : Tame P β γ ζ) (hγ : 1 ≤ γ) : Tame (toSef P).lp β γ ζ where
  tu := tu_iff.mpr ⟨h.isInt.toSef.1, (tu_iff.mp h.tu).2.toSef⟩
  b i := by rw [toSef_b]; exact h.b i
  c j := by
    refine .of_abs (h.isInt.toSef.2.2 j) ?_
    have hg : (0 : ℚ) ≤ γ := by exact_mod_cast (by omega : 0 ≤ γ)
    have h1 : (1 : ℚ) ≤ γ := by exact_mod_cast hγ
    have key := (fsefCols_eq (R := clamp γ hg) ((clamp_rep hg).mpr (by rw [abs_one]; exact h1))
      (P := { P with b := fun _ => 0, z := 0 })
      ⟨fun i j => (clamp_rep hg).mpr ((h.entry i j).abs_le.trans (by exact_mod_cast hγ)),
        fun _ => (clamp_rep hg).mpr (by rw [abs_zero]; exact hg),
        fun j => (clamp_rep hg).mpr (h.c j).abs_le,
        (clamp_rep hg).mpr (by rw [abs_zero]; exact hg)⟩).2.2
    have key' : ∀ j, |(sefCols P).c j| ≤ γ := fun j => (clamp_rep hg).mp (key j)
    revert j
    unfold LinProg.toSef
    by_cases hs : P.isSef = true
    · rw [if_pos hs]; exact fun j => (h.c j).abs_le
    · rw [if_neg hs]; exact fun j => key' j
  z := by rw [toSef_z]; exact h.z

/-! ### `solve` -/

/-- `solve` computes exactly. -/
theorem fsolve_eq (hL : ExactOnUnimodular L m) (hP : WF P) (h : Tame P β γ ζ) (hf : Fits m β γ ζ) (hγ : 1 ≤ γ)
    (hβ : β ≤ 2 ^ 53) (hv : (((toSef P).n + m : ℕ) : ℤ) * (m * β) ≤ 2 ^ 53) (fuel : ℕ) :
    fsolve L fuel P = solve fuel P := by
  have hm : (0 : ℤ) ≤ m := Int.natCast_nonneg m
  have hp : 0 ≤ (m : ℤ) * (m * γ * β) :=
    mul_nonneg hm (mul_nonneg (mul_nonneg hm hf.γ0) hf.β0)
  have hst : Stored binary64 P := h.stored hβ
    (by have := mul_nonneg hm (mul_nonneg hm hf.γ0); linarith [hf.cost]) (by linarith [hf.val])
  have hT := h.toSef hγ
  unfold fsolve solve
  by_cases hs : P.isSef = true
  · have e : (toSef P).n = n := by simp [LinProg.toSef, hs]
    rw [e] at hv
    rw [if_pos hs, if_pos hs, ftwoPhase_eq hL h hf hγ hβ hv]
    rfl
  · rw [if_neg hs, if_neg hs, (ftoSef_eq rep_one hst).1]
    have rev : ∀ {x : Fin (toSef P).n → ℚ}, (∀ j, IntUpTo (m * β) (x j) ∧ 0 ≤ x j) →
        freverseSol binary64 (toSef P).rev x = reverseSol (toSef P).rev x := fun hx =>
      freverse_whole hP (fun j => (hx j).1.mono (hf.rhs.trans (by norm_num))) fun j => (hx j).2
    unfold fsolveSef solveSef
    simp only [ftwoPhase_eq hL hT hf hγ hβ hv, fsimplex_eq hL hT hf, fisBasis_eq hL hT]
    have e1 : ∀ a, (twoPhase fuel (toSef P).lp).1 = .ok a →
        a.solution.map (freverseSol binary64 (toSef P).rev) = a.solution.map (reverseSol (toSef P).rev) := by
      intro a hr
      cases a with
      | unbounded x d => rfl
      | infeasible y => rfl
      | optimal x l y => simp only [Answer.solution, Option.map_some, rev (twoPhase_optimal hL hT hf hr)]
    by_cases hmn : m ≤ (toSef P).n
    · rw [if_pos hmn, if_pos hmn]
      cases isBasis (toSef P).lp ((List.range ((toSef P).n - m)).map fun i : ℕ => (m : ℤ) + i + 1) with
      | error e => rfl
      | ok v =>
        cases v with
        | false =>
          simp only
          cases hr : (twoPhase fuel (toSef P).lp).1 with
          | error e => rfl
          | ok a => simp only [e1 a hr]
        | true =>
          simp only
          cases hr : (simplex fuel (toSef P).lp ((List.range ((toSef P).n - m)).map fun i : ℕ => (m : ℤ) + i + 1)).1 with
          | error e => cases e <;> rfl
          | ok a =>
            cases a with
            | unbounded x d => rfl
            | infeasible y => rfl
            | optimal x l y =>
              simp only [Answer.solution, Option.map_some, rev (simplex_optimal hL hT hf hr).1]
    · rw [if_neg hmn, if_neg hmn]
      cases hr : (twoPhase fuel (toSef P).lp).1 with
      | error e => rfl
      | ok a => simp only [e1 a hr]

end Floating
end Pytimize
