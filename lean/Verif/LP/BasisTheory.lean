/-
Linear algebra of bases: canonical forms, basic solutions, directions, pivots.
-/
import Mathlib.LinearAlgebra.Matrix.NonsingularInverse
import Mathlib.LinearAlgebra.Matrix.ToLinearEquiv
import Mathlib.Tactic.FieldSimp
import Verif.LP.Simplex

namespace Pytimize
namespace LinProg
open Matrix

variable {m n : ℕ}

theorem npInv_eq (M : Matrix (Fin m) (Fin m) ℚ) : npInv M = M⁻¹ := by
  rw [npInv, Matrix.inv_def, Ring.inverse_eq_inv']

theorem npInv_mul {M : Matrix (Fin m) (Fin m) ℚ} (h : M.det ≠ 0) : npInv M * M = 1 := by
  rw [npInv_eq]; exact Matrix.nonsing_inv_mul _ (isUnit_iff_ne_zero.mpr h)

theorem mul_npInv {M : Matrix (Fin m) (Fin m) ℚ} (h : M.det ≠ 0) : M * npInv M = 1 := by
  rw [npInv_eq]; exact Matrix.mul_nonsing_inv _ (isUnit_iff_ne_zero.mpr h)

theorem npInv_one : npInv (1 : Matrix (Fin m) (Fin m) ℚ) = 1 := by rw [npInv_eq, inv_one]

/-! ### `assign` -/

theorem assign_aux (B : Fin m → Fin n) (hB : Function.Injective B) (v : Fin m → ℚ) (l : List (Fin m))
    (x : Fin n → ℚ) :
    (∀ i ∈ l, (l.foldl (fun x i => Function.update x (B i) (v i)) x) (B i) = v i) ∧
    (∀ j, (∀ i ∈ l, B i ≠ j) → (l.foldl (fun x i => Function.update x (B i) (v i)) x) j = x j) := by
  induction l generalizing x with
  | nil => simp
  | cons a l ih =>
    obtain ⟨h1, h2⟩ := ih (Function.update x (B a) (v a))
    rw [List.foldl_cons]
    refine ⟨fun i hi => ?_, fun j hj => ?_⟩
    · by_cases hil : i ∈ l
      · exact h1 i hil
      · rcases List.mem_cons.mp hi with rfl | hi
        · rw [h2 (B i) fun i' hi' he => hil (hB he ▸ hi'), Function.update_self]
        · exact absurd hi hil
    · rw [h2 j fun i hi => hj i (List.mem_cons_of_mem _ hi),
        Function.update_of_ne (hj a (List.mem_cons_self ..)).symm]

theorem assign_apply {B : Fin m → Fin n} (hB : Function.Injective B) (v : Fin m → ℚ) (i : Fin m) :
    assign B v (B i) = v i := (assign_aux B hB v _ _).1 i (List.mem_finRange i)

theorem assign_off {B : Fin m → Fin n} (hB : Function.Injective B) (v : Fin m → ℚ) {j : Fin n}
    (hj : ∀ i, B i ≠ j) : assign B v j = 0 := (assign_aux B hB v _ _).2 j fun i _ => hj i

theorem sum_off {B : Fin m → Fin n} (hB : Function.Injective B) (w d : Fin n → ℚ)
    (hd : ∀ j, (∀ i, B i ≠ j) → d j = 0) : w ⬝ᵥ d = ∑ i, w (B i) * d (B i) :=
  (Fintype.sum_of_injective B hB _ _ (fun j hj => by
    rw [hd j fun i he => hj ⟨i, he⟩, mul_zero]) fun i => rfl).symm

theorem mulVec_off {B : Fin m → Fin n} (hB : Function.Injective B) (A : Matrix (Fin m) (Fin n) ℚ)
    (d : Fin n → ℚ) (hd : ∀ j, (∀ i, B i ≠ j) → d j = 0) :
    A.mulVec d = (colSel A B).mulVec fun i => d (B i) := by
  funext i
  exact sum_off hB (A i) d hd

theorem mulVec_assign {B : Fin m → Fin n} (hB : Function.Injective B) (A : Matrix (Fin m) (Fin n) ℚ)
    (v : Fin m → ℚ) : A.mulVec (assign B v) = (colSel A B).mulVec v := by
  rw [mulVec_off hB A _ fun j hj => assign_off hB v hj]
  congr 1
  funext i
  exact assign_apply hB v i

/-! ### Canonical form -/

/-- The columns `B` are a basis of `P` in the exact sense. -/
def Nonsing (P : LP m n) (B : Fin m → Fin n) : Prop := (colSel P.A B).det ≠ 0

variable {P : LP m n} {B : Fin m → Fin n}

theorem canon_A (P : LP m n) (B : Fin m → Fin n) : (canon P B).A = npInv (colSel P.A B) * P.A := rfl

theorem canon_b (P : LP m n) (B : Fin m → Fin n) : (canon P B).b = (npInv (colSel P.A B)).mulVec P.b := rfl

/-- The multipliers of the canonical form. -/
def mult (P : LP m n) (B : Fin m → Fin n) : Fin m → ℚ :=
  (npInv (colSel P.A B)).transpose.mulVec fun i => P.c (B i)

theorem canon_c (P : LP m n) (B : Fin m → Fin n) : (canon P B).c = P.c - P.A.vecMul (mult P B) := rfl

theorem canon_z (P : LP m n) (B : Fin m → Fin n) : (canon P B).z = mult P B ⬝ᵥ P.b + P.z := rfl

theorem colSel_canon (h : Nonsing P B) : colSel (canon P B).A B = 1 := by
  have : colSel (canon P B).A B = npInv (colSel P.A B) * colSel P.A B := by
    ext i j; rfl
  rw [this, npInv_mul h]

theorem canon_col (h : Nonsing P B) (i k : Fin m) : (canon P B).A i (B k) = if i = k then 1 else 0 := by
  have := congrFun (congrFun (colSel_canon h) i) k
  rw [Matrix.one_apply] at this
  exact this

theorem Nonsing.inj (h : Nonsing P B) : Function.Injective B := by
  intro i k he
  by_contra hne
  have h1 := canon_col h i k
  have h2 := canon_col h i i
  rw [he, h1, if_neg hne, if_pos rfl] at h2
  exact zero_ne_one h2

theorem mul_canon_A (h : Nonsing P B) : colSel P.A B * (canon P B).A = P.A := by
  rw [canon_A, ← Matrix.mul_assoc, mul_npInv h, Matrix.one_mul]

theorem mul_canon_b (h : Nonsing P B) : (colSel P.A B).mulVec (canon P B).b = P.b := by
  rw [canon_b, Matrix.mulVec_mulVec, mul_npInv h, Matrix.one_mulVec]

theorem canon_mulVec (P : LP m n) (B : Fin m → Fin n) (x : Fin n → ℚ) :
    (canon P B).A.mulVec x = (npInv (colSel P.A B)).mulVec (P.A.mulVec x) := by
  rw [canon_A, Matrix.mulVec_mulVec]

theorem canon_eq_iff (h : Nonsing P B) (x : Fin n → ℚ) :
    (canon P B).A.mulVec x = (canon P B).b ↔ P.A.mulVec x = P.b := by
  constructor
  · intro hx
    rw [← mul_canon_b h, ← hx, Matrix.mulVec_mulVec, mul_canon_A h]
  · intro hx
    rw [canon_mulVec, hx]; rfl

theorem vecMul_mult (h : Nonsing P B) (i : Fin m) : (P.A.vecMul (mult P B)) (B i) = P.c (B i) := by
  have h1 : (P.A.vecMul (mult P B)) (B i) = ((colSel P.A B).vecMul (mult P B)) i := rfl
  rw [h1]
  have h2 : (colSel P.A B).vecMul (mult P B) = fun i => P.c (B i) := by
    rw [mult, Matrix.mulVec_transpose, Matrix.vecMul_vecMul, npInv_mul h, Matrix.vecMul_one]
  rw [h2]

theorem canon_c_basic (h : Nonsing P B) (i : Fin m) : (canon P B).c (B i) = 0 := by
  rw [canon_c, Pi.sub_apply, vecMul_mult h, sub_self]

theorem canon_c_dot (P : LP m n) (B : Fin m → Fin n) (x : Fin n → ℚ) :
    (canon P B).c ⬝ᵥ x = P.c ⬝ᵥ x - mult P B ⬝ᵥ P.A.mulVec x := by
  rw [canon_c, sub_dotProduct, Matrix.dotProduct_mulVec]

theorem canon_c_ker {d : Fin n → ℚ} (hd : P.A.mulVec d = 0) : (canon P B).c ⬝ᵥ d = P.c ⬝ᵥ d := by
  rw [canon_c_dot, hd, dotProduct_zero, sub_zero]

theorem canon_objVal {x : Fin n → ℚ} (hx : P.A.mulVec x = P.b) : objVal (canon P B) x = objVal P x := by
  unfold objVal
  rw [canon_c_dot, hx, canon_z]
  ring

/-! ### Basic solutions -/

/-- The basic solution of `B`. -/
def sol (P : LP m n) (B : Fin m → Fin n) : Fin n → ℚ := assign B (canon P B).b

theorem sol_apply (h : Nonsing P B) (i : Fin m) : sol P B (B i) = (canon P B).b i := assign_apply h.inj _ i

theorem sol_off (h : Nonsing P B) {j : Fin n} (hj : ∀ i, B i ≠ j) : sol P B j = 0 := assign_off h.inj _ hj

theorem sol_eq (h : Nonsing P B) : P.A.mulVec (sol P B) = P.b := by
  rw [sol, mulVec_assign h.inj, mul_canon_b h]

theorem ker_unique (h : Nonsing P B) {d : Fin n → ℚ} (hd : P.A.mulVec d = 0)
    (ho : ∀ j, (∀ i, B i ≠ j) → d j = 0) : d = 0 := by
  rw [mulVec_off h.inj _ _ ho] at hd
  have h1 : (fun i => d (B i)) = 0 := by
    have := congrArg (npInv (colSel P.A B)).mulVec hd
    rwa [Matrix.mulVec_mulVec, npInv_mul h, Matrix.one_mulVec, Matrix.mulVec_zero] at this
  funext j
  by_cases hj : ∃ i, B i = j
  · obtain ⟨i, rfl⟩ := hj
    exact congrFun h1 i
  · exact ho j fun i he => hj ⟨i, he⟩

theorem sol_unique (h : Nonsing P B) {x : Fin n → ℚ} (hx : P.A.mulVec x = P.b)
    (ho : ∀ j, (∀ i, B i ≠ j) → x j = 0) : x = sol P B := by
  have : x - sol P B = 0 := ker_unique h (by rw [Matrix.mulVec_sub, hx, sol_eq h, sub_self])
    fun j hj => by rw [Pi.sub_apply, ho j hj, sol_off h hj, sub_zero]
  exact sub_eq_zero.mp this

theorem objVal_sol (h : Nonsing P B) : objVal P (sol P B) = mult P B ⬝ᵥ P.b + P.z := by
  rw [← canon_objVal (B := B) (sol_eq h)]
  unfold objVal
  rw [sum_off h.inj _ _ fun j hj => sol_off h hj, canon_z]
  simp [canon_c_basic h]

/-! ### Two descriptions of the same basis -/

theorem nonsing_iff : Nonsing P B ↔
    Function.Injective B ∧ ∀ d, P.A.mulVec d = 0 → (∀ j, (∀ i, B i ≠ j) → d j = 0) → d = 0 := by
  constructor
  · exact fun h => ⟨h.inj, fun d => ker_unique h⟩
  · rintro ⟨hi, h⟩ h0
    obtain ⟨v, hv, h1⟩ := Matrix.exists_mulVec_eq_zero_iff.mpr h0
    refine hv ?_
    have := h (assign B v) (by rw [mulVec_assign hi, h1]) fun j hj => assign_off hi _ hj
    funext i
    rw [← assign_apply hi v i, this]; rfl

/-- `Set.range` equality, spelled out. -/
def SameCols (B B' : Fin m → Fin n) : Prop := ∀ j, (∃ i, B i = j) ↔ ∃ i, B' i = j

theorem SameCols.symm {B B' : Fin m → Fin n} (h : SameCols B B') : SameCols B' B := fun j => (h j).symm

theorem SameCols.off {B B' : Fin m → Fin n} (h : SameCols B B') {j : Fin n} (hj : ∀ i, B i ≠ j) :
    ∀ i, B' i ≠ j := fun i he => by
  obtain ⟨k, hk⟩ := (h j).mpr ⟨i, he⟩
  exact hj k hk

theorem injective_of_sameCols {B B' : Fin m → Fin n} (hB : Function.Injective B) (h : SameCols B B') :
    Function.Injective B' := by
  have h1 : Finset.univ.image B = Finset.univ.image B' := by
    ext j; simpa using h j
  have h2 : (Finset.univ.image B).card = m := by rw [Finset.card_image_of_injective _ hB]; simp
  rw [h1] at h2
  have := Finset.card_image_iff.mp (h2.trans (by simp : m = (Finset.univ : Finset (Fin m)).card))
  simpa using this

theorem Nonsing.same {B' : Fin m → Fin n} (h : Nonsing P B) (hs : SameCols B B') : Nonsing P B' := by
  obtain ⟨h1, h2⟩ := nonsing_iff.mp h
  exact nonsing_iff.mpr ⟨injective_of_sameCols h1 hs, fun d hd ho => h2 d hd fun j hj => ho j (hs.off hj)⟩

theorem sol_same {B' : Fin m → Fin n} (h : Nonsing P B) (hs : SameCols B B') : sol P B' = sol P B :=
  (sol_unique (h.same hs) (sol_eq h) fun _ hj => sol_off h (hs.symm.off hj)).symm

/-- The reduced costs depend only on the set of basic columns. -/
theorem canon_c_same {B' : Fin m → Fin n} (h : Nonsing P B) (hs : SameCols B B') :
    (canon P B').c = (canon P B).c := by
  have h' := h.same hs
  -- the multipliers are determined by their values on the basic columns
  have hm : mult P B' = mult P B := by
    have h1 : (colSel P.A B).vecMul (mult P B') = (colSel P.A B).vecMul (mult P B) := by
      funext i
      obtain ⟨k, hk⟩ := (hs (B i)).mp ⟨i, rfl⟩
      have e1 := vecMul_mult h' k
      have e2 := vecMul_mult h i
      rw [hk] at e1
      exact e1.trans e2.symm
    have := congrArg (fun v => (npInv (colSel P.A B)).vecMul v) h1
    simpa only [Matrix.vecMul_vecMul, mul_npInv h, Matrix.vecMul_one] using this
  rw [canon_c, canon_c, hm]

/-! ### Directions -/

theorem rayOf_self (P : LP m n) (B : Fin m → Fin n) (k : Fin n) : rayOf B (canon P B) k k = 1 := by
  simp [rayOf]

theorem rayOf_basic (h : Nonsing P B) {k : Fin n} (hk : ∀ i, B i ≠ k) (i : Fin m) :
    rayOf B (canon P B) k (B i) = -(canon P B).A i k := by
  rw [rayOf, Function.update_of_ne (hk i), assign_apply h.inj]

theorem rayOf_off (h : Nonsing P B) {k j : Fin n} (hj : ∀ i, B i ≠ j) (hjk : j ≠ k) :
    rayOf B (canon P B) k j = 0 := by
  rw [rayOf, Function.update_of_ne hjk, assign_off h.inj _ hj]

theorem rayOf_eq_add (h : Nonsing P B) {k : Fin n} (hk : ∀ i, B i ≠ k) :
    rayOf B (canon P B) k = Pi.single k 1 + assign B fun i => -(canon P B).A i k := by
  funext j
  by_cases hj : j = k
  · subst hj
    rw [rayOf_self, Pi.add_apply, Pi.single_eq_same, assign_off h.inj _ hk, add_zero]
  · rw [rayOf, Function.update_of_ne hj, Pi.add_apply, Pi.single_eq_of_ne hj, zero_add]

theorem rayOf_ker (h : Nonsing P B) {k : Fin n} (hk : ∀ i, B i ≠ k) :
    P.A.mulVec (rayOf B (canon P B) k) = 0 := by
  rw [rayOf_eq_add h hk, Matrix.mulVec_add, mulVec_assign h.inj]
  have h1 : P.A.mulVec (Pi.single k 1) = (colSel P.A B).mulVec fun i => (canon P B).A i k := by
    have : P.A.mulVec (Pi.single k 1) = (colSel P.A B * (canon P B).A).mulVec (Pi.single k 1) := by
      rw [mul_canon_A h]
    rw [this, ← Matrix.mulVec_mulVec]
    congr 1
    funext i
    simp
  have h2 : (fun i => -(canon P B).A i k) = -fun i => (canon P B).A i k := rfl
  rw [h1, h2, Matrix.mulVec_neg, add_neg_cancel]

theorem rayOf_cost (h : Nonsing P B) {k : Fin n} (hk : ∀ i, B i ≠ k) :
    P.c ⬝ᵥ rayOf B (canon P B) k = (canon P B).c k := by
  rw [← canon_c_ker (B := B) (rayOf_ker h hk), rayOf_eq_add h hk, dotProduct_add, dotProduct_single, mul_one,
    sum_off h.inj _ _ fun j hj => assign_off h.inj _ hj]
  simp [canon_c_basic h]

/-! ### Pivots -/

/-- `B'` lists the columns of `B` with `B r` replaced by `k`. -/
def Pivot (B : Fin m → Fin n) (r : Fin m) (k : Fin n) (B' : Fin m → Fin n) : Prop :=
  ∀ j, (∃ i, B' i = j) ↔ j = k ∨ ((∃ i, B i = j) ∧ j ≠ B r)

theorem Pivot.nonsing {r : Fin m} {k : Fin n} {B' : Fin m → Fin n} (h : Nonsing P B)
    (hk : ∀ i, B i ≠ k) (hr : (canon P B).A r k ≠ 0) (hp : Pivot B r k B') : Nonsing P B' := by
  -- `B'` has the columns of `Function.update B r k`
  let U := Function.update B r k
  have hU : ∀ j, (∃ i, U i = j) ↔ j = k ∨ ((∃ i, B i = j) ∧ j ≠ B r) := by
    intro j
    constructor
    · rintro ⟨i, rfl⟩
      by_cases hi : i = r
      · left; simp [U, hi]
      · right
        refine ⟨⟨i, by simp [U, hi]⟩, ?_⟩
        simp only [U, Function.update_of_ne hi]
        exact fun he => hi (h.inj he)
    · rintro (rfl | ⟨⟨i, rfl⟩, hi⟩)
      · exact ⟨r, by simp [U]⟩
      · exact ⟨i, by simp only [U]; rw [Function.update_of_ne]; rintro rfl; exact hi rfl⟩
  have hUi : Function.Injective U := by
    intro a b hab
    by_cases ha : a = r <;> by_cases hb : b = r
    · rw [ha, hb]
    · simp only [U, ha, Function.update_self, Function.update_of_ne hb] at hab
      exact absurd hab.symm (hk b)
    · simp only [U, hb, Function.update_self, Function.update_of_ne ha] at hab
      exact absurd hab (hk a)
    · simp only [U, Function.update_of_ne ha, Function.update_of_ne hb] at hab
      exact h.inj hab
  have hUn : Nonsing P U := by
    refine nonsing_iff.mpr ⟨hUi, fun d hd ho => ?_⟩
    have h0 : d - d k • rayOf B (canon P B) k = 0 := by
      refine ker_unique h ?_ fun j hj => ?_
      · rw [Matrix.mulVec_sub, Matrix.mulVec_smul, rayOf_ker h hk, hd, smul_zero, sub_zero]
      · by_cases hjk : j = k
        · subst hjk; simp [rayOf_self]
        · have : d j = 0 := ho j fun i he => by
            rcases (hU j).mp ⟨i, he⟩ with h1 | ⟨⟨i', h1⟩, _⟩
            · exact hjk h1
            · exact hj i' h1
          simp [rayOf_off h hj hjk, this]
    have h1 := congrFun h0 (B r)
    have h2 : d (B r) = 0 := ho (B r) fun i he => by
      rcases (hU (B r)).mp ⟨i, he⟩ with h1 | ⟨_, h1⟩
      · exact hk r h1
      · exact h1 rfl
    rw [Pi.sub_apply, Pi.smul_apply, rayOf_basic h hk, h2, smul_eq_mul, Pi.zero_apply] at h1
    have h3 : d k = 0 := by
      have : d k * (canon P B).A r k = 0 := by linarith
      exact (mul_eq_zero.mp this).resolve_right hr
    rw [h3, zero_smul, sub_zero] at h0
    exact h0
  exact hUn.same fun j => (hU j).trans (hp j).symm

theorem Pivot.sol {r : Fin m} {k : Fin n} {B' : Fin m → Fin n} (h : Nonsing P B)
    (hk : ∀ i, B i ≠ k) (hr : (canon P B).A r k ≠ 0) (hp : Pivot B r k B') :
    sol P B' = sol P B + ((canon P B).b r / (canon P B).A r k) • rayOf B (canon P B) k := by
  refine (sol_unique (hp.nonsing h hk hr) ?_ fun j hj => ?_).symm
  · rw [Matrix.mulVec_add, Matrix.mulVec_smul, rayOf_ker h hk, smul_zero, add_zero, sol_eq h]
  · have hj' : ¬ (j = k ∨ ((∃ i, B i = j) ∧ j ≠ B r)) := fun hc => by
      obtain ⟨i, hi⟩ := (hp j).mpr hc
      exact hj i hi
    push Not at hj'
    obtain ⟨h1, h2⟩ := hj'
    rw [Pi.add_apply, Pi.smul_apply, smul_eq_mul]
    by_cases h3 : ∃ i, B i = j
    · rw [h2 h3, sol_apply h, rayOf_basic h hk]
      field_simp
      ring
    · push Not at h3
      rw [sol_off h h3, rayOf_off h h3 h1, mul_zero, add_zero]

theorem Pivot.obj {r : Fin m} {k : Fin n} {B' : Fin m → Fin n} (h : Nonsing P B)
    (hk : ∀ i, B i ≠ k) (hr : (canon P B).A r k ≠ 0) (hp : Pivot B r k B') :
    objVal P (LinProg.sol P B') = objVal P (LinProg.sol P B)
      + (canon P B).b r / (canon P B).A r k * (canon P B).c k := by
  unfold objVal
  rw [hp.sol h hk hr, dotProduct_add, dotProduct_smul, rayOf_cost h hk, smul_eq_mul]
  ring

/-! ### Flipping rows -/

theorem flipRows_twice (S : Fin m → Bool) (P : LP m n) : flipRows S (flipRows S P) = P := by
  cases P with
  | mk A b c z o q f g s =>
    simp only [flipRows]
    congr
    · funext i j
      cases S i <;> simp
    · funext i
      cases S i <;> simp

/-- The diagonal matrix of signs. -/
def signs (S : Fin m → Bool) : Matrix (Fin m) (Fin m) ℚ := Matrix.diagonal fun i => if S i then -1 else 1

theorem signs_sq (S : Fin m → Bool) : signs S * signs S = 1 := by
  rw [signs, Matrix.diagonal_mul_diagonal, ← Matrix.diagonal_one]
  congr 1
  funext i
  cases S i <;> simp

theorem flipRows_A (S : Fin m → Bool) (P : LP m n) : (flipRows S P).A = signs S * P.A := by
  ext i j
  rw [signs, Matrix.diagonal_mul]
  simp only [flipRows]
  cases S i <;> simp

theorem flipRows_b (S : Fin m → Bool) (P : LP m n) : (flipRows S P).b = (signs S).mulVec P.b := by
  funext i
  rw [signs, Matrix.mulVec_diagonal]
  simp only [flipRows]
  cases S i <;> simp

theorem colSel_flip (S : Fin m → Bool) (P : LP m n) (B : Fin m → Fin n) :
    colSel (flipRows S P).A B = signs S * colSel P.A B := by
  rw [flipRows_A]; ext i j; rfl

theorem npInv_flip (S : Fin m → Bool) (P : LP m n) (B : Fin m → Fin n) :
    npInv (colSel (flipRows S P).A B) = npInv (colSel P.A B) * signs S := by
  rw [colSel_flip, npInv_eq, npInv_eq, Matrix.mul_inv_rev]
  congr 1
  exact Matrix.inv_eq_right_inv (signs_sq S)

theorem det_signs (S : Fin m → Bool) : |(signs S).det| = 1 := by
  have := congrArg Matrix.det (signs_sq S)
  rw [Matrix.det_mul, Matrix.det_one] at this
  have h : |(signs S).det| * |(signs S).det| = 1 := by rw [← abs_mul, this, abs_one]
  nlinarith [abs_nonneg (signs S).det]

theorem abs_det_flip (S : Fin m → Bool) (P : LP m n) (B : Fin m → Fin n) :
    |(colSel (flipRows S P).A B).det| = |(colSel P.A B).det| := by
  rw [colSel_flip, Matrix.det_mul, abs_mul, det_signs, one_mul]

theorem canon_flip (S : Fin m → Bool) (P : LP m n) (B : Fin m → Fin n) :
    canon (flipRows S P) B = canon P B := by
  have hs := signs_sq S
  have e1 : (canon (flipRows S P) B).A = (canon P B).A := by
    rw [canon_A, canon_A, npInv_flip, flipRows_A, Matrix.mul_assoc, ← Matrix.mul_assoc (signs S), hs,
      Matrix.one_mul]
  have e2 : (canon (flipRows S P) B).b = (canon P B).b := by
    rw [canon_b, canon_b, npInv_flip, flipRows_b, Matrix.mulVec_mulVec, Matrix.mul_assoc, hs, Matrix.mul_one]
  have hm : (signs S).vecMul (mult (flipRows S P) B) = mult P B := by
    rw [mult, mult, npInv_flip, Matrix.mulVec_transpose, Matrix.mulVec_transpose, Matrix.vecMul_vecMul,
      Matrix.mul_assoc, hs, Matrix.mul_one]
    rfl
  have e3 : (canon (flipRows S P) B).c = (canon P B).c := by
    rw [canon_c, canon_c, flipRows_A, ← Matrix.vecMul_vecMul, hm]
    rfl
  have e4 : (canon (flipRows S P) B).z = (canon P B).z := by
    rw [canon_z, canon_z, flipRows_b, Matrix.dotProduct_mulVec, hm]
    rfl
  have : canon (flipRows S P) B = ⟨(canon (flipRows S P) B).A, (canon (flipRows S P) B).b,
    (canon (flipRows S P) B).c, (canon (flipRows S P) B).z, P.objective, P.ineq, P.free, P.neg, P.isSef⟩ := rfl
  rw [this, e1, e2, e3, e4]
  rfl

end LinProg
end Pytimize
