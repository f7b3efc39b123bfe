/-
Property C154: the error of `np.linalg.inv`, and of the canonical form computed with it.
-/
import Verif.Float.GaussError
import Verif.Props.FloatGauss

namespace Pytimize
namespace Props
open LinProg Floating Matrix

variable {m n : ℕ} {R : Rounding} {C : Libm}

/-! ### Specification -/

/-- How large the entries can become in the elimination of a matrix with entries up to `a`. -/
def growthBound (R : Rounding) (n : ℕ) (a : ℚ) : ℚ := 4 ^ n * (2 * a + n * R.tiny * 4)

/-- What may be left of `M T - 1` if the entries of `M` are up to `a` and those of `T` up to `t`. -/
def inverseSlack (R : Rounding) (n : ℕ) (a t : ℚ) : ℚ :=
  relErr R n (growthBound R n a) * (1 + n * a * t + 16 * n ^ 2 * growthBound R n a * t) +
    absErr R n (growthBound R n a) * (n * t + 6 * n + 1)

/-! ### Any rounding -/

section
variable {L : Lapack R} {M : Matrix (Fin n) (Fin n) ℚ} {a : ℚ}

theorem growthBound_nonneg (ha : 0 ≤ a) : 0 ≤ growthBound R n a := by
  have := R.tiny_nonneg
  unfold growthBound
  positivity

/-- C154. Whatever matrix is inverted, the product of the matrix and what `np.linalg.inv` returns is the identity up to
rounding. -/
theorem C154_residual (hL : Gaussian C L) (ht : R.tiny ≤ 1 / 2) (ha : ∀ i j, |M i j| ≤ a)
    (hg : relErr R n (growthBound R n a) ≤ 1 / 2) {T : Matrix (Fin n) (Fin n) ℚ} (hT : L.inv M = .ok T) {t : ℚ}
    (htT : ∀ i j, |T i j| ≤ t) (i c : Fin n) : |(M * T) i c - (1 : Matrix (Fin n) (Fin n) ℚ) i c| ≤ inverseSlack R n a t := by
  rcases hL.inv M with ⟨T', h1, h2⟩ | ⟨h1, -⟩
  · rw [hT] at h1
    cases h1
    obtain ⟨π, l, u, hF, hS⟩ := h2.solve
    have h0 : ∀ i, u i i ≠ 0 := (hS i).2.1
    have ha0 : 0 ≤ a := (abs_nonneg _).trans (ha i i)
    have key := residual_le (hS c) hg ht ha (fun i j hij => growth hF ha ht hg i j hij fun k _ => h0 k)
      (growthBound_nonneg ha0) (fun i => htT i c) (β := 1) (fun i => by split <;> norm_num) i
    rw [mul_apply, one_apply]
    exact key
  · rw [hT] at h1
    cases h1

/-- C154. `np.linalg.inv` raises `LinAlgError` only for matrices that are nearly singular: any inverse has an entry that
is large. -/
theorem C154_error (hL : Gaussian C L) (ht : R.tiny ≤ 1 / 2) (ha : ∀ i j, |M i j| ≤ a)
    (hg : relErr R n (growthBound R n a) ≤ 1 / 2) {e : PyErr} (he : L.inv M = .error e)
    {N : Matrix (Fin n) (Fin n) ℚ} (hN : N * M = 1) {t : ℚ} (hNt : ∀ i j, |N i j| ≤ t) :
    e = .linAlgError ∧
      1 ≤ n ^ 2 * t * (relErr R n (growthBound R n a) * (a + 2 * n * growthBound R n a) +
        absErr R n (growthBound R n a)) := by
  rcases hL.inv M with ⟨T', h1, -⟩ | ⟨h1, π, l, u, hF, hz⟩
  · rw [he] at h1
    cases h1
  · rw [he] at h1
    cases h1
    obtain ⟨i, -⟩ := id hz
    have ha0 : 0 ≤ a := (abs_nonneg _).trans (ha i i)
    exact ⟨rfl, zero_pivot hF hz ha hg ht (growthBound_nonneg ha0)
      (fun i j hij h => growth hF ha ht hg i j hij h) hN hNt⟩

/-- C154. If a matrix has an inverse whose entries are not too large, `np.linalg.inv` raises nothing and returns that
inverse up to rounding. -/
theorem C154_inverse (hL : Gaussian C L) (ht : R.tiny ≤ 1 / 2) (ha : ∀ i j, |M i j| ≤ a)
    (hg : relErr R n (growthBound R n a) ≤ 1 / 2) {N : Matrix (Fin n) (Fin n) ℚ} (hN : N * M = 1) {t : ℚ}
    (hNt : ∀ i j, |N i j| ≤ t)
    (hκ : n ^ 2 * t * (relErr R n (growthBound R n a) * (a + 16 * n * growthBound R n a) +
      absErr R n (growthBound R n a)) ≤ 1 / 2) :
    ∃ T, L.inv M = .ok T ∧ ∀ i j, |T i j - N i j| ≤ 2 * n * t * inverseSlack R n a t := by
  rcases hI : L.inv M with e | T
  · exfalso
    have hn : 0 < n := by
      rcases hL.inv M with ⟨T', h1, -⟩ | ⟨-, -, -, -, -, i, -⟩
      · rw [hI] at h1
        cases h1
      · exact i.pos
    let i : Fin n := ⟨0, hn⟩
    have ha0 : 0 ≤ a := (abs_nonneg _).trans (ha i i)
    have ht0 : 0 ≤ t := (abs_nonneg _).trans (hNt i i)
    have hμ := growthBound_nonneg (R := R) (n := n) ha0
    have hg0 : 0 ≤ relErr R n (growthBound R n a) := relErr_nonneg hμ
    have h1 := (C154_error hL ht ha hg hI hN hNt).2
    have hn0 : (0 : ℚ) ≤ n := Nat.cast_nonneg n
    have h2 : n ^ 2 * t * (relErr R n (growthBound R n a) * (a + 2 * n * growthBound R n a) +
        absErr R n (growthBound R n a)) ≤ n ^ 2 * t * (relErr R n (growthBound R n a) * (a + 16 * n * growthBound R n a) +
        absErr R n (growthBound R n a)) := by
      refine mul_le_mul_of_nonneg_left (add_le_add_left (mul_le_mul_of_nonneg_left ?_ hg0) _) (by positivity)
      have : 0 ≤ n * growthBound R n a := by positivity
      linarith
    linarith
  · refine ⟨T, rfl, fun i j => ?_⟩
    have : Nonempty (Fin n) := ⟨i⟩
    obtain ⟨im, him⟩ := Finite.exists_max fun p : Fin n × Fin n => |T p.1 p.2|
    set s := |T im.1 im.2| with hs
    have hsT : ∀ i j, |T i j| ≤ s := fun i j => him (i, j)
    have ha0 : 0 ≤ a := (abs_nonneg _).trans (ha i i)
    have ht0 : 0 ≤ t := (abs_nonneg _).trans (hNt i i)
    have hμ := growthBound_nonneg (R := R) (n := n) ha0
    have hn0 : (0 : ℚ) ≤ n := Nat.cast_nonneg n
    have near : ∀ i j, |T i j - N i j| ≤ n * (t * inverseSlack R n a s) := by
      intro i j
      have e : T i j - N i j = ∑ k, N i k * ((M * T) k j - (1 : Matrix (Fin n) (Fin n) ℚ) k j) := by
        have : T - N = N * (M * T - 1) := by rw [mul_sub, ← mul_assoc, hN, one_mul, mul_one]
        rw [← Matrix.sub_apply, this, mul_apply]
        rfl
      rw [e]
      refine (Finset.abs_sum_le_sum_abs _ _).trans (sum_le_card fun k => ?_)
      rw [abs_mul]
      exact mul_le_mul (hNt i k) (C154_residual hL ht ha hg hI hsT k j) (abs_nonneg _) ht0
    have h1 : s ≤ t + n * (t * inverseSlack R n a s) := by
      have h2 := near im.1 im.2
      have h3 := abs_add_le (T im.1 im.2 - N im.1 im.2) (N im.1 im.2)
      rw [sub_add_cancel] at h3
      linarith [hNt im.1 im.2]
    refine (near i j).trans ?_
    have hg0 : 0 ≤ relErr R n (growthBound R n a) := relErr_nonneg hμ
    have hτ0 : 0 ≤ absErr R n (growthBound R n a) := absErr_nonneg hμ
    unfold inverseSlack at *
    generalize growthBound R n a = μ at *
    generalize relErr R n μ = g at *
    generalize absErr R n μ = τ at *
    set P := g + τ * (6 * n + 1) with hP
    set Q := g * (n * a + 16 * n ^ 2 * μ) + τ * n with hQ
    have eQ : ∀ x, g * (1 + n * a * x + 16 * n ^ 2 * μ * x) + τ * (n * x + 6 * n + 1) = P + Q * x := fun x => by
      rw [hP, hQ]; ring
    rw [eQ] at h1 ⊢
    rw [eQ]
    have hP0 : 0 ≤ P := by positivity
    have hQ0 : 0 ≤ Q := by positivity
    have hk : n * t * Q ≤ 1 / 2 := by
      refine le_trans (le_of_eq ?_) hκ
      rw [hQ]; ring
    have hs0 : 0 ≤ s := abs_nonneg _
    have h4 : n * t * Q * s ≤ 1 / 2 * s := mul_le_mul_of_nonneg_right hk hs0
    have h5 : s ≤ 2 * t + 2 * (n * t * P) := by nlinarith
    have h6 : n * t * Q * s ≤ n * t * Q * (2 * t + 2 * (n * t * P)) := mul_le_mul_of_nonneg_left h5 (by positivity)
    have h7 : n * t * Q * (2 * (n * t * P)) ≤ 1 / 2 * (2 * (n * t * P)) := mul_le_mul_of_nonneg_right hk (by positivity)
    nlinarith

end

/-! ### Double precision -/

/-- The relative error of an inverse in double precision, for a matrix of size `n` with entries up to `a` whose inverse has
entries up to `t`. -/
def inverseAccuracy (n : ℕ) (a t : ℚ) : ℚ := 100 * n ^ 3 * (n + 2) * 4 ^ n * (a * t) / 2 ^ 52

/-- Sizes for which there is no overflow or underflow to speak of. -/
structure Moderate (n : ℕ) (a : ℚ) : Prop where
  pos : 1 ≤ n
  size : n ≤ 100
  low : 1 / 2 ^ 300 ≤ a
  high : a ≤ 2 ^ 300

theorem pow_u_le (N : ℕ) (hN : N ≤ 2 ^ 20) : (1 + binary64.u) ^ N ≤ 1 + 3 / 2 * N * (1 / 2 ^ 53) := by
  have hu : binary64.u = 1 / 2 ^ 53 := rfl
  rw [hu]
  induction N with
  | zero => simp
  | succ N ih =>
    have h1 := ih (by omega)
    have h2 : (N : ℚ) ≤ 1048576 := by exact_mod_cast (by omega : N ≤ 1048576)
    rw [pow_succ]
    have h3 := mul_le_mul_of_nonneg_right h1 (show (0 : ℚ) ≤ 1 + 1 / 2 ^ 53 by norm_num)
    refine h3.trans ?_
    push_cast
    norm_num
    linarith

/-- The constants in double precision. -/
theorem double_constants {a : ℚ} (h : Moderate n a) :
    binary64.tiny ≤ 1 / 2 ∧ growthBound binary64 n a ≤ 3 * 4 ^ n * a ∧
      relErr binary64 n (growthBound binary64 n a) ≤ (n + 2) / 2 ^ 52 ∧
      absErr binary64 n (growthBound binary64 n a) ≤ 1 / 2 ^ 500 := by
  have hn : (n : ℚ) ≤ 100 := by exact_mod_cast h.size
  have hn1 : (1 : ℚ) ≤ n := by exact_mod_cast h.pos
  have ht0 := binary64.tiny_nonneg
  have ht : binary64.tiny ≤ 1 / 2 ^ 1075 := le_refl _
  have k1 : (1 : ℚ) / 2 ^ 1075 * 400 ≤ 1 / 2 ^ 300 := by decide +kernel
  have k2 : (3 : ℚ) * 4 ^ 100 * 2 ^ 300 * (1 / 2 ^ 1075) ≤ 1 / 2 ^ 570 := by decide +kernel
  have k2' : (1 : ℚ) / 2 ^ 570 ≤ 1 / 2 ^ 60 := by decide +kernel
  have k3 : (1 : ℚ) / 2 ^ 1075 * 400 + (3 : ℚ) * 4 ^ 100 * 2 ^ 300 * (1 / 2 ^ 1075) ≤ 1 / 2 ^ 500 := by decide +kernel
  have ha0 : 0 ≤ a := le_trans (by decide +kernel) h.low
  have h4 : (4 : ℚ) ^ n ≤ 4 ^ 100 := pow_le_pow_right₀ (by norm_num) h.size
  have h40 : (0 : ℚ) < 4 ^ n := by positivity
  have hlow := h.low
  have hhigh := h.high
  have g1 : growthBound binary64 n a ≤ 3 * 4 ^ n * a := by
    unfold growthBound
    have : (n : ℚ) * binary64.tiny * 4 ≤ a := by
      calc (n : ℚ) * binary64.tiny * 4 ≤ 100 * (1 / 2 ^ 1075) * 4 := by
            have := mul_le_mul hn ht ht0 (by norm_num)
            linarith
        _ ≤ a := by linarith
    calc (4 : ℚ) ^ n * (2 * a + n * binary64.tiny * 4) ≤ 4 ^ n * (2 * a + a) :=
          mul_le_mul_of_nonneg_left (by linarith) h40.le
      _ = 3 * 4 ^ n * a := by ring
  have hμ0 := growthBound_nonneg (R := binary64) (n := n) ha0
  have g2 : growthBound binary64 n a ≤ 3 * 4 ^ 100 * 2 ^ 300 :=
    g1.trans (mul_le_mul (mul_le_mul_of_nonneg_left h4 (by norm_num)) hhigh ha0 (by positivity))
  generalize growthBound binary64 n a = μ at *
  have g3 : μ * binary64.tiny ≤ 3 * 4 ^ 100 * 2 ^ 300 * (1 / 2 ^ 1075) := mul_le_mul g2 ht ht0 (by positivity)
  have hp := pow_u_le (n + 2) (by have := h.size; omega)
  have hp0 : (1 : ℚ) ≤ (1 + binary64.u) ^ (n + 2) := one_le_pow_u _
  push_cast at hp
  have tb : binary64.tiny ≤ 1 / 2 := ht.trans (by decide +kernel)
  have g4 : μ * binary64.tiny ≤ 1 / 2 ^ 60 := g3.trans (k2.trans k2')
  have hε0 : 0 ≤ μ * binary64.tiny := mul_nonneg hμ0 ht0
  have g5 : (1 + binary64.u) ^ (n + 2) * (1 + μ * binary64.tiny) - 1 ≤ (n + 2) / 2 ^ 52 := by
    generalize (1 + binary64.u) ^ (n + 2) = p at *
    generalize μ * binary64.tiny = ε at *
    clear k1 k2 k2' k3 hlow hhigh g3 ht tb g1 g2
    have h5 : p * ε ≤ 2 * (1 / 2 ^ 60) := mul_le_mul (by norm_num at hp ⊢; linarith) g4 hε0 (by norm_num)
    norm_num at hp h5 ⊢
    linarith
  refine ⟨tb, g1, g5, ?_⟩
  unfold absErr
  have g6 : (1 + binary64.u) ^ (n + 2) * (1 + μ * binary64.tiny) ≤ 2 := by
    have : ((n : ℚ) + 2) / 2 ^ 52 ≤ 1 := by
      rw [div_le_one (by norm_num)]
      norm_num
      linarith
    linarith
  have g7 : (1 + binary64.u) ^ (n + 2) * (1 + μ * binary64.tiny) * (2 * n) ≤ 400 := by
    have := mul_le_mul g6 (show 2 * (n : ℚ) ≤ 200 by linarith) (by positivity) (by norm_num)
    linarith
  calc ((1 + binary64.u) ^ (n + 2) * (1 + μ * binary64.tiny) * (2 * n) + μ) * binary64.tiny
      = (1 + binary64.u) ^ (n + 2) * (1 + μ * binary64.tiny) * (2 * n) * binary64.tiny + μ * binary64.tiny := by ring
    _ ≤ 400 * (1 / 2 ^ 1075) + 3 * 4 ^ 100 * 2 ^ 300 * (1 / 2 ^ 1075) :=
        add_le_add (mul_le_mul g7 ht ht0 (by norm_num)) g3
    _ ≤ 1 / 2 ^ 500 := by rw [mul_comm 400]; exact k3

variable {L : Lapack binary64} {M N : Matrix (Fin n) (Fin n) ℚ} {a t : ℚ}

theorem one_le_size (hn : 1 ≤ n) (ha : ∀ i j, |M i j| ≤ a) (hN : N * M = 1) (hNt : ∀ i j, |N i j| ≤ t) :
    1 ≤ n * (a * t) := by
  let i : Fin n := ⟨0, hn⟩
  have h1 : (N * M) i i = 1 := by rw [hN]; simp
  rw [mul_apply] at h1
  rw [← abs_one, ← h1]
  refine (Finset.abs_sum_le_sum_abs _ _).trans (sum_le_card fun k => ?_)
  rw [abs_mul, mul_comm a]
  exact mul_le_mul (hNt i k) (ha k i) (abs_nonneg _) ((abs_nonneg _).trans (hNt i i))

/-- The condition of C154 in double precision. -/
theorem double_condition (hs : Moderate n a) (ht0 : 0 ≤ t) :
    n ^ 2 * t * (relErr binary64 n (growthBound binary64 n a) * (a + 16 * n * growthBound binary64 n a) +
      absErr binary64 n (growthBound binary64 n a)) ≤ inverseAccuracy n a t / 2 := by
  obtain ⟨c1, c2, c3, c4⟩ := double_constants hs
  have hn1 : (1 : ℚ) ≤ n := by exact_mod_cast hs.pos
  have ha0 : 0 ≤ a := le_trans (by decide +kernel) hs.low
  have hμ0 := growthBound_nonneg (R := binary64) (n := n) ha0
  have hg0 : 0 ≤ relErr binary64 n (growthBound binary64 n a) := relErr_nonneg hμ0
  have q : (4 : ℚ) ≤ 4 ^ n := by
    calc (4 : ℚ) = 4 ^ 1 := by norm_num
      _ ≤ 4 ^ n := pow_le_pow_right₀ (by norm_num) hs.pos
  have hτa : absErr binary64 n (growthBound binary64 n a) ≤ a / 2 ^ 52 := by
    refine c4.trans (le_trans (show (1 : ℚ) / 2 ^ 500 ≤ 1 / 2 ^ 300 / 2 ^ 52 by decide +kernel) ?_)
    exact div_le_div_of_nonneg_right hs.low (by norm_num)
  unfold inverseAccuracy
  clear c1 c4 hs
  generalize growthBound binary64 n a = μ at *
  generalize relErr binary64 n μ = g at *
  generalize absErr binary64 n μ = τ at *
  generalize (4 : ℚ) ^ n = F at *
  have hε : (0 : ℚ) < 1 / 2 ^ 52 := by norm_num
  rw [div_eq_mul_one_div] at c3 hτa
  rw [div_eq_mul_one_div _ ((2 : ℚ) ^ 52)]
  generalize (1 : ℚ) / 2 ^ 52 = ε at *
  have hF0 : 0 ≤ F := by linarith
  have hnF : 4 ≤ n * F := by nlinarith
  have hn0 : (0 : ℚ) ≤ n := by linarith
  have s1 : a + 16 * n * μ ≤ a * (1 + 48 * (n * F)) := by nlinarith
  have s2 : g * (a + 16 * n * μ) ≤ (n + 2) * ε * (a * (1 + 48 * (n * F))) :=
    mul_le_mul c3 s1 (by positivity) (by positivity)
  have s3 : (n + 2) * (1 + 48 * (n * F)) + 1 ≤ (n + 2) * (50 * (n * F)) := by nlinarith
  have s4 := mul_le_mul_of_nonneg_left s3 (mul_nonneg ha0 hε.le)
  have s5 : g * (a + 16 * n * μ) + τ ≤ a * ε * ((n + 2) * (50 * (n * F))) := by linarith
  have s6 := mul_le_mul_of_nonneg_left s5 (show 0 ≤ n ^ 2 * t by positivity)
  linarith

/-- C154. In double precision: if the accuracy is at least one digit, so to speak, `np.linalg.inv` raises nothing and
returns the inverse with that accuracy. -/
theorem C154_double (hL : Gaussian C L) (hs : Moderate n a) (ha : ∀ i j, |M i j| ≤ a) (hN : N * M = 1)
    (hNt : ∀ i j, |N i j| ≤ t) (hδ : inverseAccuracy n a t ≤ 1) :
    ∃ T, L.inv M = .ok T ∧ ∀ i j, |T i j - N i j| ≤ inverseAccuracy n a t * t := by
  obtain ⟨c1, c2, c3, c4⟩ := double_constants hs
  have hn : (n : ℚ) ≤ 100 := by exact_mod_cast hs.size
  have hn1 : (1 : ℚ) ≤ n := by exact_mod_cast hs.pos
  have h1 := one_le_size hs.pos ha hN hNt
  have ha0 : 0 ≤ a := (abs_nonneg _).trans (ha ⟨0, hs.pos⟩ ⟨0, hs.pos⟩)
  have ht0 : 0 ≤ t := (abs_nonneg _).trans (hNt ⟨0, hs.pos⟩ ⟨0, hs.pos⟩)
  have hμ0 := growthBound_nonneg (R := binary64) (n := n) ha0
  have hg0 : 0 ≤ relErr binary64 n (growthBound binary64 n a) := relErr_nonneg hμ0
  have hτ0 : 0 ≤ absErr binary64 n (growthBound binary64 n a) := absErr_nonneg hμ0
  have hg : relErr binary64 n (growthBound binary64 n a) ≤ 1 / 2 := by
    refine c3.trans ?_
    rw [div_le_iff₀ (by norm_num)]
    norm_num
    linarith
  have q : (4 : ℚ) ≤ 4 ^ n := by
    calc (4 : ℚ) = 4 ^ 1 := by norm_num
      _ ≤ 4 ^ n := pow_le_pow_right₀ (by norm_num) hs.pos
  have hτa : absErr binary64 n (growthBound binary64 n a) ≤ a / 2 ^ 52 := by
    refine c4.trans (le_trans (show (1 : ℚ) / 2 ^ 500 ≤ 1 / 2 ^ 300 / 2 ^ 52 by decide +kernel) ?_)
    exact div_le_div_of_nonneg_right hs.low (by norm_num)
  have hτ1 : absErr binary64 n (growthBound binary64 n a) * (6 * n + 1) ≤ 1 / 2 ^ 52 := by
    calc absErr binary64 n (growthBound binary64 n a) * (6 * n + 1) ≤ 1 / 2 ^ 500 * 601 :=
          mul_le_mul c4 (by linarith) (by positivity) (by positivity)
      _ ≤ 1 / 2 ^ 52 := by decide +kernel
  have key := C154_inverse hL c1 ha hg hN hNt ((double_condition hs ht0).trans (by linarith))
  unfold inverseSlack at key
  unfold inverseAccuracy at hδ ⊢
  clear c1 c4 hg hs
  generalize growthBound binary64 n a = μ at *
  generalize relErr binary64 n μ = g at *
  generalize absErr binary64 n μ = τ at *
  generalize (4 : ℚ) ^ n = F at *
  have hε : (0 : ℚ) < 1 / 2 ^ 52 := by norm_num
  rw [div_eq_mul_one_div] at c3 hτa hδ ⊢
  generalize (1 : ℚ) / 2 ^ 52 = ε at *
  have hF0 : 0 ≤ F := by linarith
  have hnF : 4 ≤ n * F := by nlinarith
  have hat : 0 ≤ a * t := mul_nonneg ha0 ht0
  have hn0 : (0 : ℚ) ≤ n := by linarith
  obtain ⟨T, hT, hTN⟩ := key
  refine ⟨T, hT, fun i j => (hTN i j).trans ?_⟩
  have s1 : 1 + n * a * t + 16 * n ^ 2 * μ * t ≤ 1 + n * (a * t) + 48 * (n ^ 2 * F * (a * t)) := by
    have := mul_le_mul_of_nonneg_left c2 (show 0 ≤ 16 * n ^ 2 * t by positivity)
    linarith
  have s2 : g * (1 + n * a * t + 16 * n ^ 2 * μ * t) ≤
      (n + 2) * ε * (1 + n * (a * t) + 48 * (n ^ 2 * F * (a * t))) :=
    mul_le_mul c3 s1 (by positivity) (by positivity)
  have s3 : τ * (n * t) ≤ ε * (n * (a * t)) := by
    have := mul_le_mul_of_nonneg_right hτa (show 0 ≤ n * t by positivity)
    linarith
  have s4 : 4 * (n * (a * t)) ≤ n ^ 2 * F * (a * t) := by
    have := mul_le_mul_of_nonneg_right hnF (show 0 ≤ n * (a * t) by positivity)
    linarith
  have s5 : g * (1 + n * a * t + 16 * n ^ 2 * μ * t) + τ * (n * t + 6 * n + 1) ≤
      (n + 2) * ε * (49 * (n ^ 2 * F * (a * t))) := by
    have e1 : ε * (n * (a * t)) + ε ≤ (n + 2) * ε * (n * (a * t) + 1) := by
      have : 0 ≤ (n + 1) * (ε * (n * (a * t) + 1)) := by positivity
      linarith
    have e2 : (n + 2) * ε * (2 + 2 * (n * (a * t)) + 48 * (n ^ 2 * F * (a * t))) ≤
        (n + 2) * ε * (49 * (n ^ 2 * F * (a * t))) := mul_le_mul_of_nonneg_left (by linarith) (by positivity)
    linarith
  have s6 := mul_le_mul_of_nonneg_left s5 (show 0 ≤ 2 * n * t by positivity)
  have s7 : 0 ≤ n ^ 3 * (n + 2) * F * (a * t) * ε * t := by positivity
  linarith

/-- A product with approximate numbers. -/
theorem near_dot {p q v : Fin m → ℚ} {r ε s β : ℚ} (hm : 1 ≤ m) (hm1 : m ≤ 100) (h : DotVal binary64 p v r)
    (hp : ∀ k, |p k - q k| ≤ ε) (hq : ∀ k, |q k| ≤ s) (hv : ∀ k, |v k| ≤ β) :
    |r - ∑ k, q k * v k| ≤ m * (ε * β) + (m + 2) / 2 ^ 52 * (m * ((s + ε) * β)) + 1 / 2 ^ 500 := by
  have hε : 0 ≤ ε := (abs_nonneg _).trans (hp ⟨0, hm⟩)
  have hs : 0 ≤ s := (abs_nonneg _).trans (hq ⟨0, hm⟩)
  have hβ : 0 ≤ β := (abs_nonneg _).trans (hv ⟨0, hm⟩)
  have hmq : (m : ℚ) ≤ 100 := by exact_mod_cast hm1
  have h1 := h.error
  have h2 : |∑ k, p k * v k - ∑ k, q k * v k| ≤ m * (ε * β) := by
    rw [← Finset.sum_sub_distrib]
    refine (Finset.abs_sum_le_sum_abs _ _).trans (sum_le_card fun k => ?_)
    rw [← sub_mul, abs_mul]
    exact mul_le_mul (hp k) (hv k) (abs_nonneg _) hε
  have h3 : ∑ k, |p k * v k| ≤ m * ((s + ε) * β) := by
    refine sum_le_card fun k => ?_
    rw [abs_mul]
    refine mul_le_mul ?_ (hv k) (abs_nonneg _) (by positivity)
    have := abs_add_le (p k - q k) (q k)
    rw [sub_add_cancel] at this
    linarith [hp k, hq k]
  have h4 : binary64.slack m (∑ k, |p k * v k|) ≤ (m + 2) / 2 ^ 52 * (m * ((s + ε) * β)) + 1 / 2 ^ 500 := by
    unfold Rounding.slack
    have h5 := pow_u_le m (by omega)
    have h6 := one_le_pow_u (R := binary64) m
    have h7 : (1 + binary64.u) ^ m - 1 ≤ (m + 2) / 2 ^ 52 := by
      norm_num at h5 ⊢
      linarith
    have h8 : 2 * (m : ℚ) * (1 + binary64.u) ^ m ≤ 400 := by
      have : (1 + binary64.u) ^ m ≤ 2 := by
        norm_num at h5 ⊢
        linarith
      have := mul_le_mul (show 2 * (m : ℚ) ≤ 200 by linarith) this (by linarith) (by norm_num)
      linarith
    refine add_le_add (mul_le_mul h7 h3 (Finset.sum_nonneg fun k _ => abs_nonneg _) (by positivity)) ?_
    calc 2 * (m : ℚ) * (1 + binary64.u) ^ m * binary64.tiny ≤ 400 * (1 / 2 ^ 1075) :=
          mul_le_mul h8 (le_refl _) binary64.tiny_nonneg (by norm_num)
      _ ≤ 1 / 2 ^ 500 := by decide +kernel
  have h9 : |r - ∑ k, q k * v k| ≤ |r - ∑ k, p k * v k| + |∑ k, p k * v k - ∑ k, q k * v k| := by
    have := abs_add_le (r - ∑ k, p k * v k) (∑ k, p k * v k - ∑ k, q k * v k)
    rwa [sub_add_sub_cancel] at this
  linarith

theorem unit_le_accuracy (hm : 1 ≤ m) (h : 1 ≤ m * (a * t)) : 100 * ((m + 2 : ℚ) / 2 ^ 52) ≤ inverseAccuracy m a t := by
  have hm1 : (1 : ℚ) ≤ m := by exact_mod_cast hm
  have h4 : (1 : ℚ) ≤ 4 ^ m := one_le_pow₀ (by norm_num)
  have h5 : 1 ≤ (m : ℚ) ^ 2 := one_le_pow₀ hm1
  have h6 : 1 ≤ (m : ℚ) ^ 2 * 4 ^ m := one_le_mul_of_one_le_of_one_le h5 h4
  have h7 : 1 ≤ (m : ℚ) ^ 2 * 4 ^ m * (m * (a * t)) := one_le_mul_of_one_le_of_one_le h6 h
  have h8 : (0 : ℚ) ≤ (m + 2) / 2 ^ 52 := by positivity
  have := mul_le_mul_of_nonneg_left h7 h8
  unfold inverseAccuracy
  calc 100 * ((m + 2 : ℚ) / 2 ^ 52) ≤ 100 * ((m + 2) / 2 ^ 52 * (m ^ 2 * 4 ^ m * (m * (a * t)))) := by linarith
    _ = _ := by ring

/-- The accuracy of the entries of a canonical form that are products with the inverse. -/
def productSlack (m : ℕ) (a t β : ℚ) : ℚ := 2 * m * inverseAccuracy m a t * t * β + 1 / 2 ^ 500

/-- The accuracy of the numbers of the objective function of a canonical form: two products, added to a number up to
`κ`. -/
def objectiveSlack (m : ℕ) (a t β γ κ : ℚ) : ℚ :=
  10 * m ^ 2 * inverseAccuracy m a t * t * β * γ + inverseAccuracy m a t * κ + (4 * m * β + 3) / 2 ^ 500

/-- C154. `to_canonical_form` in double precision: the coefficients, the right-hand side and the objective function are
those of the exact canonical form up to rounding. -/
theorem C154_canonical (hL : Gaussian C L) {P : LP m n} {B : Fin m → Fin n} {N : Matrix (Fin m) (Fin m) ℚ}
    (hs : Moderate m a) (hA : ∀ i j, |P.A i j| ≤ a) (hN : N * P.A.submatrix id B = 1) (hNt : ∀ i j, |N i j| ≤ t)
    (hδ : inverseAccuracy m a t ≤ 1) {β γ : ℚ} (hb : ∀ i, |P.b i| ≤ β) (hc : ∀ j, |P.c j| ≤ γ) :
    ∃ Q, fcanon L P B = .ok Q ∧ (∀ i j, |Q.A i j - (N * P.A) i j| ≤ productSlack m a t a) ∧
      (∀ i, |Q.b i - N.mulVec P.b i| ≤ productSlack m a t β) ∧
      (∀ j, |Q.c j - (P.c j - ∑ i, (∑ k, N k i * P.c (B k)) * P.A i j)| ≤ objectiveSlack m a t a γ γ) ∧
      |Q.z - (P.z + ∑ i, (∑ k, N k i * P.c (B k)) * P.b i)| ≤ objectiveSlack m a t β γ |P.z| := by
  obtain ⟨T, hT, hTN⟩ := C154_double (M := P.A.submatrix id B) hL hs (fun i j => hA i (B j)) hN hNt hδ
  have h1 := one_le_size (M := P.A.submatrix id B) hs.pos (fun i j => hA i (B j)) hN hNt
  have hu := unit_le_accuracy hs.pos h1
  have hm1 : (1 : ℚ) ≤ m := by exact_mod_cast hs.pos
  have hm0 : (0 : ℚ) ≤ m := by linarith
  have ha0 : 0 ≤ a := le_trans (by decide +kernel) hs.low
  have ht0 : 0 ≤ t := (abs_nonneg _).trans (hNt ⟨0, hs.pos⟩ ⟨0, hs.pos⟩)
  have hγ : 0 ≤ γ := (abs_nonneg _).trans (hc (B ⟨0, hs.pos⟩))
  have hβ : 0 ≤ β := (abs_nonneg _).trans (hb ⟨0, hs.pos⟩)
  have hδ0 : 0 ≤ inverseAccuracy m a t := by unfold inverseAccuracy; positivity
  have hω : (0 : ℚ) ≤ (m + 2) / 2 ^ 52 := by positivity
  have hz : (0 : ℚ) ≤ 1 / 2 ^ 500 := by positivity
  have hu1 : binary64.u ≤ (m + 2) / 2 ^ 52 := by
    show (1 : ℚ) / 2 ^ 53 ≤ _
    norm_num
    linarith
  have htiny : binary64.tiny ≤ 1 / 2 ^ 500 := by
    show (1 : ℚ) / 2 ^ 1075 ≤ _
    decide +kernel
  have prod : ∀ {p v : Fin m → ℚ} {q : Fin m → ℚ} {r x : ℚ}, DotVal binary64 p v r →
      (∀ k, |p k - q k| ≤ inverseAccuracy m a t * t) → (∀ k, |q k| ≤ t) → (∀ k, |v k| ≤ x) → 0 ≤ x →
      |r - ∑ k, q k * v k| ≤ productSlack m a t x := by
    intro p v q r x h h2 h3 h4 hx
    refine (near_dot hs.pos hs.size h h2 h3 h4).trans ?_
    unfold productSlack
    have : (m + 2 : ℚ) / 2 ^ 52 * (m * ((t + inverseAccuracy m a t * t) * x)) ≤
        inverseAccuracy m a t / 100 * (m * ((t + t) * x)) := by
      refine mul_le_mul (by linarith) ?_ (by positivity) (by positivity)
      refine mul_le_mul_of_nonneg_left (mul_le_mul_of_nonneg_right ?_ hx) hm0
      nlinarith
    have h5 : 0 ≤ m * inverseAccuracy m a t * t * x := by positivity
    linarith
  set y := L.mulVec T.transpose fun i => P.c (B i) with hy
  set w : Fin m → ℚ := fun i => ∑ k, N k i * P.c (B k) with hw
  have hyw : ∀ i, |y i - w i| ≤ productSlack m a t γ := fun i =>
    prod (q := fun k => N k i) (L.mulVec_val T.transpose _ i) (fun k => hTN k i) (fun k => hNt k i)
      (fun k => hc (B k)) hγ
  have hws : ∀ i, |w i| ≤ m * (t * γ) := fun i =>
    (Finset.abs_sum_le_sum_abs _ _).trans (sum_le_card fun k => by
      rw [abs_mul]
      exact mul_le_mul (hNt k i) (hc (B k)) (abs_nonneg _) ht0)
  have two : ∀ {v : Fin m → ℚ} {r x κ k f : ℚ}, DotVal binary64 y v r → (∀ k, |v k| ≤ x) → 0 ≤ x → 0 ≤ κ →
      |k - f| ≤ |r - ∑ i, w i * v i| → |k| ≤ κ + |r| → |binary64.rd k - f| ≤ objectiveSlack m a t x γ κ := by
    intro v r x κ k f hr hv hx hκ hkf hk
    have h2 := near_dot hs.pos hs.size hr hyw hws hv
    set e := ∑ i, w i * v i with he
    have h3 := binary64.err k
    have h4 : |e| ≤ m * (m * (t * γ) * x) := (Finset.abs_sum_le_sum_abs _ _).trans (sum_le_card fun k => by
      rw [abs_mul]
      exact mul_le_mul (hws k) (hv k) (abs_nonneg _) (by positivity))
    have h5 : |binary64.rd k - f| ≤ |binary64.rd k - k| + |k - f| := by
      have := abs_add_le (binary64.rd k - k) (k - f)
      rwa [sub_add_sub_cancel] at this
    have h6 : |k| ≤ κ + m * (m * (t * γ) * x) + |r - e| := by
      have e2 := abs_add_le (r - e) e
      rw [sub_add_cancel] at e2
      linarith
    have h7 := mul_le_mul hu1 h6 (abs_nonneg _) hω
    have hre := abs_nonneg (r - e)
    clear_value e y w
    clear hyw hws prod hT hTN hNt hN hA hb hc h6 hu1 h4 hr hv hk
    unfold objectiveSlack productSlack at *
    rw [div_eq_mul_one_div (4 * (m : ℚ) * x + 3)]
    generalize (1 : ℚ) / 2 ^ 500 = η at *
    generalize inverseAccuracy m a t = D at *
    generalize ((m : ℚ) + 2) / 2 ^ 52 = ω at *
    have hK : 0 ≤ m ^ 2 * t * γ * x := by positivity
    have hDK : 0 ≤ D * (m ^ 2 * t * γ * x) := by positivity
    have hmη : 0 ≤ m * x * η := by positivity
    have k1 : ω * (m ^ 2 * t * γ * x) ≤ D / 100 * (m ^ 2 * t * γ * x) := mul_le_mul_of_nonneg_right (by linarith) hK
    have k2 : ω * (2 * (D * (m ^ 2 * t * γ * x)) + m * x * η) ≤ 1 / 100 * (2 * (D * (m ^ 2 * t * γ * x)) + m * x * η) :=
      mul_le_mul_of_nonneg_right (by linarith) (by positivity)
    have hX : |r - e| ≤ 3 * (D * (m ^ 2 * t * γ * x)) + 2 * (m * x * η) + η := by nlinarith
    have k3 : ω * |r - e| ≤ 1 / 100 * |r - e| := mul_le_mul_of_nonneg_right (by linarith) hre
    have k4 : ω * κ ≤ D / 100 * κ := mul_le_mul_of_nonneg_right (by linarith) hκ
    have hDγ : 0 ≤ D * κ := by positivity
    nlinarith
  have hT' : L.inv (colSel P.A B) = .ok T := hT
  refine ⟨_, by rw [fcanon, hT'], fun i j => ?_, fun i => ?_, fun j => ?_, ?_⟩
  · exact prod (L.matMul_val T P.A i j) (hTN i) (hNt i) (fun k => hA k j) ha0
  · exact prod (L.mulVec_val T P.b i) (hTN i) (hNt i) hb hβ
  · refine two (L.vecMul_val y P.A j) (fun k => hA k j) ha0 hγ (le_of_eq ?_) ?_
    · rw [← abs_neg]
      congr 1
      ring
    · exact (abs_sub _ _).trans (add_le_add_left (hc j) _)
  · refine two (L.dot_val y P.b) hb hβ (abs_nonneg _) (le_of_eq ?_) ?_
    · congr 1
      ring
    · rw [add_comm |P.z|]
      exact abs_add_le _ _

/-! ### A case -/

/-- A program whose basis has the determinant 5. -/
def fifthsSample : LP 2 3 where
  A := !![3, 1, 1; 1, 2, 0]
  b := ![4, 3]
  c := ![1, 1, 0]
  z := 0
  ineq _ := .eq
  neg := []
  free := []
  objective := .max
  isSef := true

/-- The inverse of its basis. -/
def fifthsInverse : Matrix (Fin 2) (Fin 2) ℚ := !![2 / 5, -1 / 5; -1 / 5, 3 / 5]

/-- The fifths come out with ten digits, whatever variant of the elimination is used. -/
example {C : Libm} {L : Lapack binary64} (hL : Gaussian C L) :
    ∃ Q, fcanon L fifthsSample ![0, 1] = .ok Q ∧ ∀ i, |Q.b i - 1| ≤ 1 / 10 ^ 9 := by
  have hN : fifthsInverse * fifthsSample.A.submatrix id ![0, 1] = 1 := by decide +kernel
  obtain ⟨Q, h1, -, h2, -⟩ := C154_canonical (a := 3) (t := 3 / 5) (β := 4) (γ := 1) hL
    ⟨by norm_num, by norm_num, by decide +kernel, by decide +kernel⟩ (by decide +kernel) hN (by decide +kernel)
    (by decide +kernel) (by decide +kernel) (by decide +kernel)
  refine ⟨Q, h1, fun i => ?_⟩
  have e : fifthsInverse.mulVec fifthsSample.b i = 1 := by revert i; decide +kernel
  have h3 := h2 i
  rw [e] at h3
  exact h3.trans (by decide +kernel)

example : Gaussian fixedPoint (eliminating fixedPoint binary64) := eliminating_gaussian _ _

end Props
end Pytimize
