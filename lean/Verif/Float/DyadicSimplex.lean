/-
On programs whose subdeterminants are powers of two, with integers of moderate size, the simplex method in double
precision computes exactly.
-/
import Verif.Float.DyadicGauss
import Verif.Props.Solve

namespace Pytimize
namespace Floating
open LinProg Comparator Matrix

variable {m n : ℕ}

/-- A program whose matrix has subdeterminants `0` or `±2ʲ`, `0 ≤ j ≤ K` (up to a common factor), with integers up to
`β` on the right-hand side, `γ` in the objective, and a constant up to `ζ`. -/
structure DyadicLP (P : LP m n) (K : ℕ) (β γ ζ : ℤ) : Prop where
  mat : Dyadic K P.A
  b : ∀ i, IntUpTo β (P.b i)
  c : ∀ j, IntUpTo γ (P.c j)
  z : IntUpTo ζ P.z

/-- The numbers that occur for `m` rows have 53 bits, the ratios 40. -/
structure DyadicFits (m K : ℕ) (β γ ζ : ℤ) : Prop where
  K_le : K ≤ 16
  β1 : 1 ≤ β
  γ1 : 1 ≤ γ
  rhs : m * β * 2 ^ (4 * K) ≤ 2 ^ 40
  cost : (γ + m * (m * γ * 2 ^ (2 * K))) * 2 ^ (2 * K) ≤ 2 ^ 53
  val : (m * (m * γ * β * 2 ^ K) + ζ) * 2 ^ K ≤ 2 ^ 53

variable {P : LP m n} {K : ℕ} {β γ ζ : ℤ} {L : Lapack binary64}

section Bounds

theorem pow_split (K : ℕ) : (2 : ℚ) ^ (2 * K) = 2 ^ K * 2 ^ K ∧ (2 : ℚ) ^ (4 * K) = 2 ^ K * 2 ^ K * 2 ^ K * 2 ^ K ∧
    (1 : ℚ) ≤ 2 ^ K := by
  refine ⟨by rw [← pow_add]; congr 1; omega, by rw [← pow_add, ← pow_add, ← pow_add]; congr 1; omega,
    one_le_pow₀ (by norm_num)⟩

theorem DyadicFits.rhsQ (hf : DyadicFits m K β γ ζ) : (m : ℚ) * β * 2 ^ (4 * K) ≤ 2 ^ 40 := by exact_mod_cast hf.rhs

theorem DyadicFits.β1Q (hf : DyadicFits m K β γ ζ) : (1 : ℚ) ≤ β := by exact_mod_cast hf.β1

theorem DyadicFits.γ1Q (hf : DyadicFits m K β γ ζ) : (1 : ℚ) ≤ γ := by exact_mod_cast hf.γ1

theorem DyadicFits.rows (hf : DyadicFits m K β γ ζ) : (m : ℚ) * 2 ^ (4 * K) ≤ 2 ^ 40 := by
  refine le_trans ?_ hf.rhsQ
  have h1 : (m : ℚ) ≤ m * β := le_mul_of_one_le_right (Nat.cast_nonneg m) hf.β1Q
  exact mul_le_mul_of_nonneg_right h1 (by positivity)

/-- The right-hand side of a canonical form. -/
theorem DyadicFits.rhs2 (hf : DyadicFits m K β γ ζ) : (m : ℚ) * (2 ^ K * β) * 2 ^ (K + 0) ≤ 2 ^ 53 := by
  obtain ⟨-, h4, h1⟩ := pow_split K
  have hb := hf.rhsQ
  rw [h4] at hb
  have h2 : (1 : ℚ) ≤ 2 ^ K * 2 ^ K := one_le_mul_of_one_le_of_one_le h1 h1
  have hβ := hf.β1Q
  have h3 : (0 : ℚ) ≤ m * β * (2 ^ K * 2 ^ K) := by positivity
  rw [add_zero]
  nlinarith [mul_le_mul_of_nonneg_left h2 h3]

theorem DyadicFits.costQ (hf : DyadicFits m K β γ ζ) :
    ((γ : ℚ) + m * (m * (2 ^ K * γ) * 2 ^ K)) * 2 ^ (K + 0 + K) ≤ 2 ^ 53 := by
  obtain ⟨h2, -, -⟩ := pow_split K
  have h : ((γ : ℚ) + m * (m * γ * 2 ^ (2 * K))) * 2 ^ (2 * K) ≤ 2 ^ 53 := by exact_mod_cast hf.cost
  rw [show K + 0 + K = 2 * K by omega]
  refine le_trans (le_of_eq ?_) h
  rw [h2]
  ring

theorem DyadicFits.costQ' (hf : DyadicFits m K β γ ζ) :
    (m : ℚ) * (m * (2 ^ K * γ) * 2 ^ K) * 2 ^ (K + 0 + K) ≤ 2 ^ 53 := by
  refine le_trans (mul_le_mul_of_nonneg_right ?_ (by positivity)) hf.costQ
  linarith [hf.γ1Q]

theorem DyadicFits.mult (hf : DyadicFits m K β γ ζ) : (m : ℚ) * (2 ^ K * γ) * 2 ^ (K + 0) ≤ 2 ^ 53 := by
  rcases Nat.eq_zero_or_pos m with rfl | hm
  · simp
  · refine le_trans ?_ hf.costQ'
    have h0 := hf.γ1Q
    obtain ⟨-, -, h1⟩ := pow_split K
    have hm' : (1 : ℚ) ≤ m := by exact_mod_cast hm
    have hp : (0 : ℚ) ≤ m * (2 ^ K * γ) := by positivity
    have h2 : (m : ℚ) * (2 ^ K * γ) ≤ m * (m * (2 ^ K * γ) * 2 ^ K) :=
      (le_mul_of_one_le_right hp h1).trans (le_mul_of_one_le_left (by positivity) hm')
    exact mul_le_mul h2 (pow_le_pow_right₀ (by norm_num) (by omega)) (by positivity) (by positivity)

theorem DyadicFits.valQ (hf : DyadicFits m K β γ ζ) :
    ((m : ℚ) * (m * (2 ^ K * γ) * β) + ζ) * 2 ^ (K + 0 + 0) ≤ 2 ^ 53 := by
  have h : ((m : ℚ) * (m * γ * β * 2 ^ K) + ζ) * 2 ^ K ≤ 2 ^ 53 := by exact_mod_cast hf.val
  rw [add_zero, add_zero]
  refine le_trans (le_of_eq ?_) h
  ring

theorem DyadicFits.β_le (hf : DyadicFits m K β γ ζ) (hm : 0 < m) : β ≤ 2 ^ 53 := by
  have h1 := hf.rhs
  have h2 : (1 : ℤ) ≤ m := by exact_mod_cast hm
  have h3 : (1 : ℤ) ≤ 2 ^ (4 * K) := one_le_pow₀ (by norm_num)
  have h4 : β ≤ m * β := le_mul_of_one_le_left (by have := hf.β1; omega) h2
  have h5 : m * β ≤ m * β * 2 ^ (4 * K) := le_mul_of_one_le_right (by have := hf.β1; positivity) h3
  norm_num at h1 ⊢
  linarith

theorem DyadicFits.γ_le (hf : DyadicFits m K β γ ζ) : γ ≤ 2 ^ 53 := by
  have h1 := hf.cost
  have h3 : (1 : ℤ) ≤ 2 ^ (2 * K) := one_le_pow₀ (by norm_num)
  have h0 := hf.γ1
  have hp : (0 : ℤ) ≤ m * (m * γ * 2 ^ (2 * K)) := by positivity
  have h5 := le_mul_of_one_le_right (a := γ + m * (m * γ * 2 ^ (2 * K))) (by omega) h3
  linarith

theorem DyadicFits.ζ_le (hf : DyadicFits m K β γ ζ) (hζ : 0 ≤ ζ) : ζ ≤ 2 ^ 53 := by
  have h1 := hf.val
  have h3 : (1 : ℤ) ≤ 2 ^ K := one_le_pow₀ (by norm_num)
  have h0 := hf.γ1
  have h0' := hf.β1
  have hp : (0 : ℤ) ≤ m * (m * γ * β * 2 ^ K) := by positivity
  have h5 := le_mul_of_one_le_right (a := m * (m * γ * β * 2 ^ K) + ζ) (by omega) h3
  linarith

theorem DyadicFits.aux (hf : DyadicFits m K β γ ζ) (hζ : 0 ≤ ζ) : DyadicFits m K β 1 0 := by
  have hγ := hf.γ1
  have hβ := hf.β1
  refine ⟨hf.K_le, hf.β1, le_rfl, hf.rhs, le_trans ?_ hf.cost, le_trans ?_ hf.val⟩
  · gcongr
  · have : (m : ℤ) * (m * 1 * β * 2 ^ K) ≤ m * (m * γ * β * 2 ^ K) := by gcongr
    exact mul_le_mul_of_nonneg_right (by linarith) (by positivity)

end Bounds

/-! ### Bases -/

theorem DyadicLP.cols (h : DyadicLP P K β γ ζ) (B : Fin m → Fin n) : Dyadic K (colSel P.A B) := h.mat.submatrix id B

namespace Dy

theorem fisBasis_eq (hL : ExactOnDyadic L m K) (h : DyadicLP P K β γ ζ) (basis : List ℤ) :
    fisBasis L P basis = isBasis P basis := by
  unfold fisBasis isBasis
  simp only [fun B => (hL _ (h.cols B)).1]
  rfl

theorem inv_exact (hL : ExactOnDyadic L m K) {M : Matrix (Fin m) (Fin m) ℚ} (hM : Dyadic K M)
    (h0 : M.det ≠ 0) : L.inv M = .ok (npInv M) := by
  rw [npInv_eq]
  exact (hL M hM).2 h0

theorem mulVec_exact (M : Matrix (Fin m) (Fin n) ℚ) {s t : ℕ} {A B : ℚ} (hM : ∀ i j, Grid s A (M i j)) {v : Fin n → ℚ}
    (hv : ∀ j, Grid t B (v j)) (hs : n * (A * B) * 2 ^ (s + t) ≤ 2 ^ 53) (ht : s + t ≤ 1000) :
    L.mulVec M v = M.mulVec v ∧ ∀ i, Grid (s + t) (n * (A * B)) (M.mulVec v i) := by
  have key := fun i => (L.mulVec_val M v i).grid (hM i) hv hs ht
  have e : L.mulVec M v = M.mulVec v := funext fun i => (key i).1
  exact ⟨e, fun i => e ▸ (key i).2⟩

theorem vecMul_exact (M : Matrix (Fin m) (Fin n) ℚ) {s t : ℕ} {A B : ℚ} (hM : ∀ i j, Grid s A (M i j)) {v : Fin m → ℚ}
    (hv : ∀ j, Grid t B (v j)) (hs : m * (B * A) * 2 ^ (t + s) ≤ 2 ^ 53) (ht : t + s ≤ 1000) :
    L.vecMul v M = M.vecMul v ∧ ∀ j, Grid (t + s) (m * (B * A)) (M.vecMul v j) := by
  have key := fun j => (L.vecMul_val v M j).grid hv (fun i => hM i j) hs ht
  have e : L.vecMul v M = M.vecMul v := funext fun j => (key j).1
  exact ⟨e, fun j => e ▸ (key j).2⟩

theorem dot_exact {s t : ℕ} {A B : ℚ} {u v : Fin n → ℚ} (hu : ∀ j, Grid s A (u j)) (hv : ∀ j, Grid t B (v j))
    (hs : n * (A * B) * 2 ^ (s + t) ≤ 2 ^ 53) (ht : s + t ≤ 1000) :
    L.dot u v = u ⬝ᵥ v ∧ Grid (s + t) (n * (A * B)) (u ⬝ᵥ v) := by
  have key := (L.dot_val u v).grid hu hv hs ht
  have e : L.dot u v = u ⬝ᵥ v := key.1
  exact ⟨e, e ▸ key.2⟩

/-! ### Canonical forms -/

theorem canon_entry (h : DyadicLP P K β γ ζ) {B : Fin m → Fin n} (h0 : Nonsing P B) (i : Fin m) (j : Fin n) :
    TwoPow K ((canon P B).A i j) := by
  rw [canon_A_cramer]
  have e : (colSel P.A B).updateCol i (fun i => P.A i j) = P.A.submatrix id (Function.update B i j) := by
    ext r k
    by_cases hk : k = i
    · subst hk; simp
    · simp [hk, colSel]
  rw [e, ← div_eq_inv_mul]
  exact h.mat.ratio _ _ _ _ h0

/-- The bound for the entries of a solution. -/
theorem fcanon_eq (hL : ExactOnDyadic L m K) (h : DyadicLP P K β γ ζ) (hf : DyadicFits m K β γ ζ) {B : Fin m → Fin n}
    (h0 : Nonsing P B) : fcanon L P B = .ok (canon P B) ∧ (∀ i, Grid K (m * (2 ^ K * β)) ((canon P B).b i)) ∧
      ∀ j, ∃ k : ℤ, (canon P B).c j * 2 ^ (2 * K) = k := by
  have hK := hf.K_le
  have hT := fun i j => ((h.cols B).npInv h0 i j).grid
  have hA := fun i j => (h.mat.entry i j).grid
  have hb := fun i => (h.b i).grid
  have hc := fun j => (h.c j).grid
  have e1 : L.matMul (npInv (colSel P.A B)) P.A = npInv (colSel P.A B) * P.A := by
    ext i j
    refine ((L.matMul_val (npInv (colSel P.A B)) P.A i j).grid (hT i) (fun l => hA l j) ?_ (by omega)).1
    have := hf.rows
    rw [(pow_split K).2.1] at this
    rw [pow_add]
    norm_num at this ⊢
    linarith
  obtain ⟨e2, b2⟩ := mulVec_exact (L := L) (npInv (colSel P.A B)) hT hb hf.rhs2 (by omega)
  obtain ⟨e3, b3⟩ := mulVec_exact (L := L) (npInv (colSel P.A B)).transpose (fun i j => hT j i)
    (v := fun i => P.c (B i)) (fun i => hc (B i)) hf.mult (by omega)
  obtain ⟨e4, b4⟩ := vecMul_exact (L := L) P.A hA b3 hf.costQ' (by omega)
  have hz : (0 : ℚ) ≤ ζ := h.z.grid.nonneg
  have hv := hf.valQ
  obtain ⟨e5, b5⟩ := dot_exact (L := L) b3 hb (le_trans (mul_le_mul_of_nonneg_right (by linarith) (by positivity)) hv)
    (by omega)
  have e6 : ∀ j, binary64.rd (P.c j - P.A.vecMul ((npInv (colSel P.A B)).transpose.mulVec fun i => P.c (B i)) j) =
      P.c j - P.A.vecMul ((npInv (colSel P.A B)).transpose.mulVec fun i => P.c (B i)) j := fun j =>
    (((hc j).mono (Nat.zero_le _) le_rfl).sub (b4 j)).rd_eq hf.costQ (by omega)
  refine ⟨?_, fun i => (b2 i).mono (by omega) le_rfl, fun j => ?_⟩
  · unfold fcanon
    rw [inv_exact hL (h.cols B) h0]
    simp only [e1, e2, e3, e4, e5, e6, (b5.add (h.z.grid.mono (Nat.zero_le _) le_rfl)).rd_eq hv (by omega)]
    rfl
  · have := (((hc j).mono (Nat.zero_le _) le_rfl).sub (b4 j)).1
    rw [show K + 0 + K = 2 * K by omega] at this
    exact this

/-! ### One iteration -/

theorem assign_grid {s : ℕ} {A : ℚ} (hA : 0 ≤ A) (B : Fin m → Fin n) {v : Fin m → ℚ} (hv : ∀ i, Grid s A (v i))
    (j : Fin n) : Grid s A (assign B v j) := by
  have : ∀ (l : List (Fin m)) (x : Fin n → ℚ), (∀ j, Grid s A (x j)) →
      ∀ j, Grid s A (l.foldl (fun x i => Function.update x (B i) (v i)) x j) := by
    intro l
    induction l with
    | nil => intro x hx j; exact hx j
    | cons a l ih =>
      intro x hx
      rw [List.foldl_cons]
      refine ih _ fun j => ?_
      by_cases hj : j = B a
      · subst hj; rw [Function.update_self]; exact hv a
      · rw [Function.update_of_ne hj]; exact hx j
  exact this _ _ (fun _ => Grid.zero hA) j

theorem fratioLt_eq {s : ℕ} {A : ℚ} (hA : A * 2 ^ s ≤ 2 ^ 40) (hs : s ≤ 32) {v : ℚ} (hv : Grid s A v) {o : Option ℚ}
    (ho : ∀ t, o = some t → Grid s A t) : fratioLt binary64 v o = ratioLt v o := by
  cases o with
  | none => rfl
  | some t =>
    unfold fratioLt ratioLt
    exact cmp_grid hv (ho t rfl) hA hs .lt

theorem fratioTest_eq {A : ℚ} (hA : A * 2 ^ K * 2 ^ (2 * K) ≤ 2 ^ 40) (hK : K ≤ 16) {b Ak : Fin m → ℚ}
    (hb : ∀ i, Grid K A (b i)) (hk : ∀ i, TwoPow K (Ak i)) : fratioTest binary64 b Ak = ratioTest b Ak := by
  have key : ∀ (l : List (Fin m)) (s : Option ℚ × Option (Fin m)), (∀ t, s.1 = some t → Grid (2 * K) (A * 2 ^ K) t) →
      l.foldl (fun s i => if positive binary64 (Ak i) then
        if fratioLt binary64 (binary64.rd (b i / Ak i)) s.1 then (some (binary64.rd (b i / Ak i)), some i) else s
        else s) s =
      l.foldl (fun s i => if isPositive (Ak i) then
        if ratioLt (b i / Ak i) s.1 then (some (b i / Ak i), some i) else s else s) s := by
    intro l
    induction l with
    | nil => intro s _; rw [List.foldl_nil, List.foldl_nil]
    | cons i l ih =>
      intro s hs
      rw [List.foldl_cons, List.foldl_cons, positive_grid (hk i).grid.1 (by omega)]
      by_cases hp : isPositive (Ak i) = true
      · have hq : Grid (2 * K) (A * 2 ^ K) (b i / Ak i) := by
          rw [div_eq_mul_inv, two_mul]
          exact (hb i).mul (hk i).inv.grid
        rw [if_pos hp, if_pos hp, hq.rd_eq (hA.trans (by norm_num)) (by omega), fratioLt_eq hA (by omega) hq hs]
        by_cases hl : ratioLt (b i / Ak i) s.1 = true
        · rw [if_pos hl]
          exact ih _ fun t ht => by rw [← Option.some.inj ht]; exact hq
        · rw [if_neg hl]
          exact ih s hs
      · rw [if_neg hp, if_neg hp]
        exact ih s hs
  unfold fratioTest ratioTest
  exact key _ _ fun t ht => by cases ht

theorem fiterStep_eq (hL : ExactOnDyadic L m K) (h : DyadicLP P K β γ ζ) (hf : DyadicFits m K β γ ζ)
    {B : Fin m → Fin n} (h0 : Nonsing P B) (l : List ℤ) :
    fiterStep L (canon P B) l B = iterStep (canon P B) l B := by
  have hK := hf.K_le
  obtain ⟨-, hb, hc⟩ := fcanon_eq hL h hf h0
  have hA0 : (0 : ℚ) ≤ m * (2 ^ K * β) := by have := hf.β1Q; positivity
  have hinv : L.inv (colSel (canon P B).A B) = .ok (npInv (colSel (canon P B).A B)) := by
    rw [colSel_canon h0]
    exact inv_exact hL (dyadic_of_tu tu_one) (by simp)
  have hmv : L.mulVec (npInv (colSel (canon P B).A B)) (canon P B).b =
      (npInv (colSel (canon P B).A B)).mulVec (canon P B).b := by
    rw [colSel_canon h0, npInv_one]
    funext i
    show L.mulVec 1 (canon P B).b i = ∑ k, (1 : Matrix (Fin m) (Fin m) ℚ) i k * (canon P B).b k
    rcases L.mulVec_val 1 (canon P B).b i with ⟨rfl, -⟩ | hd
    · exact i.elim0
    · rw [← total_pairs]
      refine (hd.grid (s := K) (fun p hp => ?_) ?_ (by omega)).1
      · simp only [pairs, List.mem_ofFn] at hp
        obtain ⟨k, rfl⟩ := hp
        simp only [Matrix.one_apply]
        split
        · rw [one_mul]; exact (hb k).1
        · exact ⟨0, by simp⟩
      · rw [size_pairs]
        have : ∑ k, |(1 : Matrix (Fin m) (Fin m) ℚ) i k * (canon P B).b k| = |(canon P B).b i| := by
          rw [Finset.sum_eq_single i]
          · simp
          · intro k _ hk; simp [Ne.symm hk]
          · simp
        rw [this]
        exact (mul_le_mul_of_nonneg_right (hb i).2 (by positivity)).trans (by simpa using hf.rhs2)
  have hx : ∀ j, Grid K (m * (2 ^ K * β)) (assign B ((npInv (colSel (canon P B).A B)).mulVec (canon P B).b) j) := by
    refine assign_grid hA0 B fun i => ?_
    rw [colSel_canon h0, npInv_one, Matrix.one_mulVec]
    exact hb i
  unfold fiterStep iterStep
  simp only [hinv, hmv]
  have c1 : ∀ j, cmpTol binary64 ((canon P B).c j) .le 0 = pyCmp ((canon P B).c j) .le 0 := fun j =>
    cmp_zero_grid (hc j) (by omega) _
  have c2 : ∀ j, positive binary64 ((canon P B).c j) = isPositive ((canon P B).c j) := fun j =>
    positive_grid (hc j) (by omega)
  have c3 : ∀ i j, cmpTol binary64 ((canon P B).A i j) .le 0 = pyCmp ((canon P B).A i j) .le 0 := fun i j =>
    cmp_zero_grid (canon_entry h h0 i j).grid.1 (by omega) _
  have hr : (m : ℚ) * (2 ^ K * β) * 2 ^ K * 2 ^ (2 * K) ≤ 2 ^ 40 := by
    refine le_trans (le_of_eq ?_) hf.rhsQ
    rw [(pow_split K).1, (pow_split K).2.1]
    ring
  have c4 : ∀ k, fratioTest binary64 (canon P B).b (fun i => (canon P B).A i k) =
      ratioTest (canon P B).b fun i => (canon P B).A i k := fun k =>
    fratioTest_eq hr hK hb fun i => canon_entry h h0 i k
  have c5 := fun j => negative_grid (hx j).1 (by omega : K ≤ 32)
  simp only [c1, c2, c3, c4, c5]
  rfl

/-! ### Rows with their signs changed -/

theorem _root_.Pytimize.Floating.DyadicLP.flip (h : DyadicLP P K β γ ζ) (S : Fin m → Bool) : DyadicLP (flipRows S P) K β γ ζ where
  mat := h.mat.flip fun i => ⟨if S i then -1 else 1, by split <;> simp, fun j => by
    simp only [flipRows]
    split <;> simp⟩
  b i := by
    simp only [flipRows]
    split
    · rw [mul_neg_one]; exact (h.b i).neg
    · exact h.b i
  c := h.c
  z := h.z

theorem _root_.Pytimize.Floating.DyadicLP.fflip (h : DyadicLP P K β γ ζ) (hf : DyadicFits m K β γ ζ) (S : Fin m → Bool) :
    fflipRows binary64 S P = flipRows S P := by
  have := hf.K_le
  exact fflipRows_eq (fun i j => (h.mat.entry i j).rd_eq (by omega))
    (fun i => (h.b i).rd_eq (hf.β_le (Nat.zero_lt_of_lt i.2))) S

/-! ### The simplex method -/

theorem fsimplexIteration_eq (hL : ExactOnDyadic L m K) (h : DyadicLP P K β γ ζ) (hf : DyadicFits m K β γ ζ) (basis : List ℤ) :
    fsimplexIteration L P basis = simplexIteration P basis := by
  unfold fsimplexIteration simplexIteration
  rw [fisBasis_eq hL h]
  cases hb : isBasis P basis with
  | error e => rfl
  | ok v =>
    cases v with
    | false => rfl
    | true =>
      simp only
      obtain ⟨hm, B', hB', hd⟩ := (isBasis_iff P basis).mp hb
      cases ht : toCols m n (sortInt (toArrayIndexing basis)) with
      | none => rfl
      | some B =>
        have h0 : Nonsing P B := by
          obtain ⟨B'', h1, rfl⟩ := toCols_sortInt.mp ht
          rw [hB'] at h1
          have : B' = B'' := by
            have := congrArg (toCols m n) h1
            rwa [toCols_colsList, toCols_colsList, Option.some.injEq] at this
          subst this
          exact (isBasis_nonsing hd).same (sortCols_same B')
        have h0' : Nonsing (flipRows (negRows P) P) B := (nonsing_flip _).mpr h0
        simp only [h.fflip hf, (fcanon_eq hL (h.flip _) hf h0').1, fiterStep_eq hL (h.flip _) hf h0']

theorem fsimplexLoop_eq (hL : ExactOnDyadic L m K) (h : DyadicLP P K β γ ζ) (hf : DyadicFits m K β γ ζ) (fuel : ℕ)
    (basis : List ℤ) : fsimplexLoop L fuel P basis = simplexLoop fuel P basis := by
  induction fuel generalizing basis with
  | zero => rfl
  | succ fuel ih =>
    rw [fsimplexLoop, simplexLoop, fsimplexIteration_eq hL h hf]
    cases simplexIteration P basis with
    | error e => rfl
    | ok r => cases r <;> first | rfl | exact ih _

theorem _root_.Pytimize.Floating.DyadicLP.sol (hL : ExactOnDyadic L m K) (h : DyadicLP P K β γ ζ) (hf : DyadicFits m K β γ ζ) {B : Fin m → Fin n}
    (h0 : Nonsing P B) (j : Fin n) : Grid K (m * (2 ^ K * β)) (sol P B j) :=
  assign_grid (by have := hf.β1Q; positivity) B (fcanon_eq hL h hf h0).2.1 j

theorem fdualCert_eq (hL : ExactOnDyadic L m K) (h : DyadicLP P K β γ ζ) (hf : DyadicFits m K β γ ζ) (S : Fin m → Bool)
    {B : Fin m → Fin n} (h0 : Nonsing P B) : fdualCert L P S B = .ok (dualCert P S B) := by
  have hK := hf.K_le
  have ht : Dyadic K (colSel P.A B)ᵀ := (h.cols B).transpose
  have hd : (colSel P.A B)ᵀ.det ≠ 0 := by rw [det_transpose]; exact h0
  obtain ⟨e, hy⟩ := mulVec_exact (L := L) (npInv (colSel P.A B)ᵀ) (fun i j => (ht.npInv hd i j).grid)
    (v := fun i => P.c (B i)) (fun i => (h.c (B i)).grid) hf.mult (by omega)
  unfold fdualCert dualCert
  rw [inv_exact hL ht hd]
  simp only [e]
  congr 1
  funext i
  split
  · rw [mul_neg_one, binary64.odd, (hy i).rd_eq hf.mult (by omega)]
  · rfl

theorem fsimplexBody_eq (hL : ExactOnDyadic L m K) (h : DyadicLP P K β γ ζ) (hf : DyadicFits m K β γ ζ) (fuel : ℕ)
    (S : Fin m → Bool) (basis : List ℤ) : fsimplexBody L fuel P S basis = simplexBody fuel P S basis := by
  unfold fsimplexBody simplexBody
  rw [fsimplexLoop_eq hL h hf]
  cases hr : simplexLoop fuel P basis with
  | error e => rfl
  | ok r =>
    cases r with
    | unbounded x B C => rfl
    | next l C => rfl
    | optimal x l C =>
      obtain ⟨D, h0, hD, -, -⟩ := loop_optimal hr
      simp only [hD, toCols_colsList, fdualCert_eq hL h hf S h0]

/-- `simplex` computes exactly. -/
theorem fsimplex_eq (hL : ExactOnDyadic L m K) (h : DyadicLP P K β γ ζ) (hf : DyadicFits m K β γ ζ) (fuel : ℕ) (basis : List ℤ) :
    fsimplex L fuel P basis = simplex fuel P basis := by
  unfold fsimplex simplex
  simp only [h.fflip hf, (h.flip _).fflip hf, fsimplexBody_eq hL (h.flip _) hf]
  rfl

theorem simplex_optimal (hL : ExactOnDyadic L m K) (h : DyadicLP P K β γ ζ) (hf : DyadicFits m K β γ ζ) {fuel : ℕ}
    {basis l : List ℤ} {x : Fin n → ℚ} {y : Fin m → ℚ} (hr : (simplex fuel P basis).1 = .ok (.optimal x l y)) :
    (∀ j, Grid K (m * (2 ^ K * β)) (x j) ∧ 0 ≤ x j) ∧ ∃ D, Nonsing P D ∧ toArrayIndexing l = colsList D := by
  obtain ⟨D, h0, hD, rfl, hx⟩ := simplex_basis hr
  exact ⟨fun j => ⟨h.sol hL hf h0 j, nonneg_of_grid (h.sol hL hf h0 j).1 (by have := hf.K_le; omega) (hx j)⟩, D, h0, hD⟩

/-! ### Two phases -/

theorem fsearch_eq (hL : ExactOnDyadic L m K) (h : DyadicLP P K β γ ζ) (pb zs : List ℤ) (size : ℕ) (f : ℕ)
    (st : List (ℕ × List ℤ)) : fsearch L P pb zs size f st = search P pb zs size f st := by
  induction f generalizing st with
  | zero => rfl
  | succ f ih =>
    cases st with
    | nil => rfl
    | cons a rest =>
      obtain ⟨cur, l⟩ := a
      rw [fsearch, search, fisBasis_eq hL h]
      by_cases hl : l.length = size
      · rw [if_pos hl, if_pos hl]
        cases isBasis P (sortInt (pb ++ l)) with
        | error e => rfl
        | ok v => cases v <;> first | rfl | exact ih _
      · rw [if_neg hl, if_neg hl]
        exact ih _

theorem fcompleteBasis_eq (hL : ExactOnDyadic L m K) (h : DyadicLP P K β γ ζ) {vals : List ℚ}
    {s : ℕ} (hs : s ≤ 32) (hv : ∀ v ∈ vals, ∃ k : ℤ, v * 2 ^ s = k) : fcompleteBasis L P vals = completeBasis P vals := by
  have e1 : indicesWhere vals (closeToZero binary64) = indicesWhere vals isCloseToZero :=
    indicesWhere_congr fun v hm => closeToZero_grid (hv v hm) hs
  have e2 : indicesWhere vals (fun v => !closeToZero binary64 v) = indicesWhere vals fun v => !isCloseToZero v :=
    indicesWhere_congr fun v hm => by rw [closeToZero_grid (hv v hm) hs]
  unfold fcompleteBasis completeBasis
  simp only [e1, e2, fsearch_eq hL h]
  rfl

theorem _root_.Pytimize.Floating.DyadicLP.aux (h : DyadicLP P K β γ ζ) : DyadicLP (auxSef P) K β 1 0 where
  mat := h.mat.aux
  b i := by
    simp only [auxSef, auxLp]
    split
    · rw [mul_neg_one]; exact (h.b i).neg
    · exact h.b i
  c j := by
    refine Fin.addCases (fun j => ?_) (fun k => ?_) j
    · simp only [auxSef, auxLp, Fin.append_left, neg_zero]
      exact IntUpTo.zero (by norm_num)
    · simp only [auxSef, auxLp, Fin.append_right]
      exact ⟨-1, by norm_num, by norm_num⟩
  z := IntUpTo.zero le_rfl

theorem _root_.Pytimize.Floating.DyadicLP.stored (h : DyadicLP P K β γ ζ) (hf : DyadicFits m K β γ ζ) : Stored binary64 P :=
  ⟨fun i j => (h.mat.entry i j).rd_eq (by have := hf.K_le; omega),
    fun i => (h.b i).rd_eq (hf.β_le (Nat.zero_lt_of_lt i.2)), fun j => (h.c j).rd_eq hf.γ_le,
    h.z.rd_eq (hf.ζ_le h.z.nonneg)⟩

/-- `two_phase_simplex` computes exactly. -/
theorem ftwoPhase_eq (hL : ExactOnDyadic L m K) (h : DyadicLP P K β γ ζ) (hf : DyadicFits m K β γ ζ) 
    (hv : ((n + m : ℕ) : ℚ) * (m * (2 ^ K * β)) * 2 ^ K ≤ 2 ^ 53) (fuel : ℕ) :
    ftwoPhase L fuel P = twoPhase fuel P := by
  have hK := hf.K_le
  have hst : Stored binary64 P := h.stored hf
  obtain ⟨e1, s1⟩ := fauxLp_eq rep_one hst
  have hT := h.aux
  have hF := hf.aux h.z.nonneg
  unfold ftwoPhase twoPhase
  rw [e1, (ftoSef_eq rep_one s1).1, toSef_aux]
  congr 1
  unfold ftwoPhaseWith twoPhaseWith
  simp only [fsimplex_eq hL hT hF, fsimplex_eq hL h hf, fisBasis_eq hL h]
  cases hr : (simplex fuel (auxSef P) ((List.range m).map fun i : ℕ => (n : ℤ) + i + 1)).1 with
  | error e => rfl
  | ok a =>
    cases a with
    | unbounded x d => rfl
    | infeasible y => rfl
    | optimal x l y =>
      obtain ⟨hx, D, h0, hD⟩ := simplex_optimal hL hT hF hr
      obtain ⟨e2, h2⟩ := dot_exact (L := L) (fun j => (hT.c j).grid) (fun j => (hx j).1)
        (by rw [Int.cast_one, one_mul, zero_add]; exact hv) (by omega)
      have e3 : binary64.rd ((auxSef P).c ⬝ᵥ x + (auxSef P).z) = (auxSef P).c ⬝ᵥ x + (auxSef P).z :=
        (h2.add (hT.z.grid.mono (Nat.zero_le _) le_rfl)).rd_eq
          (by rw [Int.cast_one, one_mul, zero_add, Int.cast_zero, add_zero]; exact hv) (by omega)
      have e4 : fcompleteBasis L P ((List.ofFn x).take n) = completeBasis P ((List.ofFn x).take n) := by
        refine fcompleteBasis_eq hL h (s := K) (by omega) fun v hm => ?_
        obtain ⟨j, rfl⟩ := List.mem_ofFn.mp (List.mem_of_mem_take hm)
        exact (hx j).1.1
      simp only [e2, e3, closeToZero_grid (h2.add (hT.z.grid.mono (Nat.zero_le _) le_rfl)).1 (by omega), e4, hD, toCols_colsList, fdualCert_eq hL hT hF _ h0]
      rfl

theorem twoPhase_optimal (hL : ExactOnDyadic L m K) (h : DyadicLP P K β γ ζ) (hf : DyadicFits m K β γ ζ) {fuel : ℕ}
    {l : List ℤ} {x : Fin n → ℚ} {y : Fin m → ℚ} (hr : (twoPhase fuel P).1 = .ok (.optimal x l y)) :
    ∀ j, Grid K (m * (2 ^ K * β)) (x j) ∧ 0 ≤ x j := by
  unfold twoPhase at hr
  split at hr
  · cases hr
  · unfold twoPhaseWith at hr
    split at hr
    · cases hr
    · cases hr
    · cases hr
    · split at hr
      · split at hr
        · cases hr
        · exact (simplex_optimal hL h hf hr).1
        · split at hr
          · cases hr
          · exact (simplex_optimal hL h hf hr).1
      · split at hr <;> cases hr

theorem sefCols_c_all (S : ℚ → Prop) (h0 : S 0) (hn : ∀ q, S q → S (-q)) (P : LP m n) (hc : ∀ j, S (P.c j)) (j : ℕ) :
    S ((sefCols P).c j) := by
  have hslack : ∀ (l : List (Fin m)) (s : Cols m), (∀ j, S (s.c j)) →
      ∀ j, S ((l.foldl (addSlack P.ineq) s).c j) := by
    intro l
    induction l with
    | nil => intro s h; exact h
    | cons i l ih =>
      intro s h
      refine ih _ fun j => ?_
      unfold addSlack
      split
      · exact h j
      · simp only
        split
        · exact h0
        · exact h j
  have hsplit : ∀ (l : List ℕ) (i : ℕ) (s : Cols m), (∀ j, S (s.c j)) →
      ∀ j, S ((splitAll l i s).c j) := by
    intro l
    induction l with
    | nil => intro i s h; exact h
    | cons f l ih =>
      intro i s h
      refine ih _ _ fun j => ?_
      simp only [splitFree, npInsert]
      split
      · exact h j
      · split
        · exact hn _ (h (f + i))
        · exact h _
  have hneg : ∀ (l : List ℕ) (s : Cols m), (∀ j, S (s.c j)) →
      ∀ j, S ((l.foldl negColumn s).c j) := by
    intro l
    induction l with
    | nil => intro s h; exact h
    | cons k l ih =>
      intro s h
      refine ih _ fun j => ?_
      simp only [negColumn, negAt]
      split
      · rw [mul_neg_one]; exact hn _ (h j)
      · exact h j
  unfold sefCols
  refine hslack _ _ (hsplit _ _ _ (hneg _ _ fun j => ?_)) j
  simp only [colsOf, LinProg.ext]
  split
  · split
    · exact hn _ (hc _)
    · exact hc _
  · exact h0

/-- The conversion keeps a program tame. -/
theorem _root_.Pytimize.Floating.DyadicLP.toSef (h : DyadicLP P K β γ ζ) (hγ : 1 ≤ γ) : DyadicLP (toSef P).lp K β γ ζ where
  mat := h.mat.toSef
  b i := by rw [toSef_b]; exact h.b i
  c j := by
    have key' := sefCols_c_all (IntUpTo γ) (.zero (by omega)) (fun _ h => h.neg) P h.c
    revert j
    unfold LinProg.toSef
    by_cases hs : P.isSef = true
    · rw [if_pos hs]; exact fun j => h.c j
    · rw [if_neg hs]; exact fun j => key' j
  z := by rw [toSef_z]; exact h.z


/-! ### Back to the original variables -/

theorem merge_grid {s : ℕ} {B : ℚ} (l : List ℕ) (hl : l.Pairwise (· < ·)) (a : ℕ) (hla : ∀ f ∈ l, a ≤ f) {x : ℕ → ℚ}
    (hx : ∀ j, Grid s B (x j)) (h0 : ∀ j, a ≤ j → 0 ≤ x j) (j : ℕ) : Grid s B (l.foldl mergeAt x j) := by
  induction l generalizing a x with
  | nil => exact hx j
  | cons f l ih =>
    obtain ⟨h1, h2⟩ := List.pairwise_cons.mp hl
    have hf := hla f List.mem_cons_self
    rw [List.foldl_cons]
    refine ih h2 (f + 1) (fun g hg => h1 g hg) (fun j => ?_) fun j hj => ?_
    · unfold mergeAt
      split
      · exact hx j
      · split
        · refine ⟨((hx f).sub (hx (f + 1))).1, ?_⟩
          have p0 := h0 f hf
          have q0 := h0 (f + 1) (by omega)
          have p1 := (hx f).2
          have q1 := (hx (f + 1)).2
          rw [abs_of_nonneg p0] at p1
          rw [abs_of_nonneg q0] at q1
          exact abs_le.mpr ⟨by linarith, by linarith⟩
        · exact hx _
    · unfold mergeAt
      rw [if_neg (by omega), if_neg (by omega)]
      exact h0 _ (by omega)

theorem neg_grid {s : ℕ} {B : ℚ} (l : List ℕ) {f : ℕ → ℚ} (h : ∀ j, Grid s B (f j)) (j : ℕ) :
    Grid s B (l.foldl negAt f j) := by
  induction l generalizing f with
  | nil => exact h j
  | cons k l ih =>
    rw [List.foldl_cons]
    refine ih fun j => ?_
    unfold negAt
    split
    · rw [mul_neg_one]; exact (h j).neg
    · exact h j

theorem reverse_grid {s : ℕ} {B : ℚ} (hB : 0 ≤ B) (hP : WF P) {x : Fin (toSef P).n → ℚ} (hx : ∀ j, Grid s B (x j))
    (h0 : ∀ j, 0 ≤ x j) : ∀ v ∈ reverseSol (toSef P).rev x, Grid s B v := by
  by_cases h : P.isSef
  · have hr : (toSef P).rev = none := by simp [LinProg.toSef, h]
    rw [hr]
    intro v hv
    simp only [reverseSol, List.mem_ofFn] at hv
    obtain ⟨j, rfl⟩ := hv
    exact hx j
  · have hr : (toSef P).rev = some ⟨((List.finRange m).filter fun i => decide (P.ineq i ≠ .eq)).length,
        concatOf P.free 0, P.neg⟩ := by simp [LinProg.toSef, h]
    rw [hr]
    intro v hv
    simp only [reverseSol, List.mem_map] at hv
    obtain ⟨j, -, rfl⟩ := hv
    rw [mergeCode_concat]
    refine neg_grid _ (fun j => merge_grid _ hP.freeSorted 0 (fun _ _ => Nat.zero_le _) (fun j => ?_)
      (fun j _ => ?_) j) _
    · unfold LinProg.ext
      split
      · exact hx _
      · exact Grid.zero hB
    · unfold LinProg.ext
      split
      · exact h0 _
      · exact le_rfl

theorem freverse_grid {s : ℕ} {B : ℚ} (hB : 0 ≤ B) (hB2 : B * 2 ^ s ≤ 2 ^ 53) (hs : s ≤ 1000) (hP : WF P)
    {x : Fin (toSef P).n → ℚ} (hx : ∀ j, Grid s B (x j)) (h0 : ∀ j, 0 ≤ x j) :
    freverseSol binary64 (toSef P).rev x = reverseSol (toSef P).rev x := by
  rw [freverse_rd hP fun j => (hx j).rd_eq hB2 hs]
  conv_rhs => rw [← List.map_id (reverseSol (toSef P).rev x)]
  exact List.map_congr_left fun v hv => (reverse_grid hB hP hx h0 v hv).rd_eq hB2 hs

/-! ### `solve` -/

/-- `solve` computes exactly. -/
theorem fsolve_eq (hL : ExactOnDyadic L m K) (hP : WF P) (h : DyadicLP P K β γ ζ) (hf : DyadicFits m K β γ ζ) 
    (hv : (((toSef P).n + m : ℕ) : ℚ) * (m * (2 ^ K * β)) * 2 ^ K ≤ 2 ^ 53) (fuel : ℕ) :
    fsolve L fuel P = solve fuel P := by
  have hK := hf.K_le
  have hst : Stored binary64 P := h.stored hf
  have hT := h.toSef hf.γ1
  unfold fsolve solve
  by_cases hs : P.isSef = true
  · have e : (toSef P).n = n := by simp [LinProg.toSef, hs]
    rw [e] at hv
    rw [if_pos hs, if_pos hs, ftwoPhase_eq hL h hf hv]
    rfl
  · rw [if_neg hs, if_neg hs, (ftoSef_eq rep_one hst).1]
    have rev : ∀ {x : Fin (toSef P).n → ℚ}, (∀ j, Grid K (m * (2 ^ K * β)) (x j) ∧ 0 ≤ x j) →
        freverseSol binary64 (toSef P).rev x = reverseSol (toSef P).rev x := fun hx =>
      freverse_grid (by have := hf.β1Q; positivity) hf.rhs2 (by omega) hP (fun j => (hx j).1) fun j => (hx j).2
    unfold fsolveSef solveSef
    simp only [ftwoPhase_eq hL hT hf hv, fsimplex_eq hL hT hf, fisBasis_eq hL hT]
    have e1 : ∀ a, (twoPhase fuel (toSef P).lp).1 = .ok a →
        a.solution.map (freverseSol binary64 (toSef P).rev) = a.solution.map (reverseSol (toSef P).rev) := by
      intro a hr
      cases a with
      | unbounded x d => rfl
      | infeasible y => rfl
      | optimal x l y => simp only [Answer.solution, Option.map_some, rev (twoPhase_optimal hL hT hf hr)]
    by_cases hmn : m ≤ (toSef P).n
    · rw [if_pos hmn, if_pos hmn]
      cases isBasis (toSef P).lp ((List.range ((toSef P).n - m)).map fun i : ℕ => (m : ℤ) + i + 1) with
      | error e => rfl
      | ok v =>
        cases v with
        | false =>
          simp only
          cases hr : (twoPhase fuel (toSef P).lp).1 with
          | error e => rfl
          | ok a => simp only [e1 a hr]
        | true =>
          simp only
          cases hr : (simplex fuel (toSef P).lp ((List.range ((toSef P).n - m)).map fun i : ℕ => (m : ℤ) + i + 1)).1 with
          | error e => cases e <;> rfl
          | ok a =>
            cases a with
            | unbounded x d => rfl
            | infeasible y => rfl
            | optimal x l y =>
              simp only [Answer.solution, Option.map_some, rev (simplex_optimal hL hT hf hr).1]
    · rw [if_neg hmn, if_neg hmn]
      cases hr : (twoPhase fuel (toSef P).lp).1 with
      | error e => rfl
      | ok a => simp only [e1 a hr]

/-- What `solve` returns. -/
theorem solve_grid (hL : ExactOnDyadic L m K) (hP : WF P) (h : DyadicLP P K β γ ζ) (hf : DyadicFits m K β γ ζ)
    {fuel : ℕ} {v : List ℚ} (hv : solve fuel P = .ok (some v)) : ∀ x ∈ v, Grid K (m * (2 ^ K * β)) x := by
  have hB : (0 : ℚ) ≤ m * (2 ^ K * β) := by have := hf.β1Q; positivity
  have hT := h.toSef hf.γ1
  have rev : ∀ {x : Fin (toSef P).n → ℚ}, (∀ j, Grid K (m * (2 ^ K * β)) (x j) ∧ 0 ≤ x j) →
      ∀ v ∈ reverseSol (toSef P).rev x, Grid K (m * (2 ^ K * β)) v := fun hx =>
    reverse_grid hB hP (fun j => (hx j).1) fun j => (hx j).2
  obtain ⟨s, basis, l, y, hsim, hx⟩ := Props.solve_some hv
  subst hx
  exact rev (simplex_optimal hL hT hf hsim).1

end Dy
end Floating
end Pytimize
