/-
The way back from the solution of the converted program, in double precision.
-/
import Verif.Float.SimplexIdeal

namespace Pytimize
namespace Floating
open LinProg

variable {m n : ℕ} {ξ χ ζ : ℚ}

/-- The accuracy of the difference of two numbers of size `χ` known up to `ξ`. -/
def mergedSlack (ξ χ : ℚ) : ℚ := 2 * ξ + (χ + ξ) / 2 ^ 52 + 1 / 2 ^ 500

theorem merged_near {v w v' w' : ℚ} (hv : |v - v'| ≤ ξ) (hw : |w - w'| ≤ ξ) (hv' : |v'| ≤ χ) (hw' : |w'| ≤ χ) :
    |binary64.rd (v - w) - (v' - w')| ≤ mergedSlack ξ χ := by
  have h1 := binary64.err (v - w)
  have hu : binary64.u = 1 / 2 ^ 53 := rfl
  have ht : binary64.tiny ≤ 1 / 2 ^ 500 := by
    show (1 : ℚ) / 2 ^ 1075 ≤ 1 / 2 ^ 500
    exact one_div_le_one_div_of_le (by positivity) (pow_le_pow_right₀ (by norm_num) (by norm_num))
  rw [hu] at h1
  have h2 : |v - w| ≤ 2 * (χ + ξ) := by
    obtain ⟨a1, a2⟩ := abs_le.mp hv
    obtain ⟨b1, b2⟩ := abs_le.mp hw
    obtain ⟨c1, c2⟩ := abs_le.mp hv'
    obtain ⟨d1, d2⟩ := abs_le.mp hw'
    rw [abs_le]
    constructor <;> linarith
  have h3 : (1 : ℚ) / 2 ^ 53 * |v - w| ≤ (χ + ξ) / 2 ^ 52 := by
    have h4 : (1 : ℚ) / 2 ^ 53 * |v - w| ≤ 1 / 2 ^ 53 * (2 * (χ + ξ)) := mul_le_mul_of_nonneg_left h2 (by positivity)
    have h5 : (1 : ℚ) / 2 ^ 53 * (2 * (χ + ξ)) = (χ + ξ) / 2 ^ 52 := by ring
    rwa [h5] at h4
  unfold mergedSlack
  generalize (1 : ℚ) / 2 ^ 500 = τ at *
  generalize (χ + ξ) / 2 ^ 52 = κ at *
  generalize 1 / 2 ^ 53 * |v - w| = θ at *
  generalize binary64.tiny = τ' at *
  obtain ⟨a1, a2⟩ := abs_le.mp hv
  obtain ⟨b1, b2⟩ := abs_le.mp hw
  obtain ⟨c1, c2⟩ := abs_le.mp h1
  rw [abs_le]
  constructor <;> linarith

theorem mergeCode_near (l : List ℕ) (i p : ℕ) {f f' : ℕ → ℚ} (hl : l.Pairwise fun a b => a + 2 ≤ b)
    (hp : ∀ a ∈ l, i + p ≤ a) (hζ : mergedSlack ξ χ ≤ ζ) (h1 : ∀ j, |f j - f' j| ≤ ζ)
    (h2 : ∀ j, p ≤ j → |f j - f' j| ≤ ξ ∧ |f' j| ≤ χ) (j : ℕ) :
    |fmergeCode binary64 l i f j - mergeCode l i f' j| ≤ ζ := by
  induction l generalizing i p f f' with
  | nil => exact h1 j
  | cons a l ih =>
    obtain ⟨ha, hl'⟩ := List.pairwise_cons.mp hl
    have hpa := hp a List.mem_cons_self
    rw [fmergeCode, mergeCode]
    refine ih (i + 1) (a - i + 1) hl' (fun b hb => ?_) (fun j => ?_) fun j hj => ?_
    · have := ha b hb
      omega
    · unfold fmergeAt mergeAt
      split
      · exact h1 j
      · split
        · exact (merged_near (h2 (a - i) (by omega)).1 (h2 (a - i + 1) (by omega)).1 (h2 (a - i) (by omega)).2
            (h2 (a - i + 1) (by omega)).2).trans hζ
        · exact h1 (j + 1)
    · unfold fmergeAt mergeAt
      rw [if_neg (by omega), if_neg (by omega), if_neg (by omega), if_neg (by omega)]
      exact h2 (j + 1) (by omega)

theorem negAll_near (l : List ℕ) {f f' : ℕ → ℚ} (hr : ∀ j, binary64.Rep (f j)) (h : ∀ j, |f j - f' j| ≤ ζ) (j : ℕ) :
    |l.foldl (fnegAt binary64) f j - l.foldl negAt f' j| ≤ ζ := by
  induction l generalizing f f' with
  | nil => exact h j
  | cons a l ih =>
    rw [List.foldl_cons, List.foldl_cons]
    refine ih (fun j => ?_) fun j => ?_
    · unfold fnegAt
      split
      · exact Rounding.rep_rd _
      · exact hr j
    · unfold fnegAt negAt
      split
      · rw [rd_neg_one (hr j), ← sub_mul, mul_neg_one, abs_neg]
        exact h j
      · exact h j

theorem concatOf_spaced {l : List ℕ} (hl : l.Pairwise (· < ·)) (i : ℕ) :
    (concatOf l i).Pairwise (fun a b => a + 2 ≤ b) ∧ ∀ a ∈ concatOf l i, ∀ p, (∀ f ∈ l, p ≤ f) → p + i ≤ a := by
  induction l generalizing i with
  | nil => exact ⟨List.Pairwise.nil, fun a ha => by cases ha⟩
  | cons f l ih =>
    obtain ⟨h1, h2⟩ := List.pairwise_cons.mp hl
    obtain ⟨h3, h4⟩ := ih h2 (i + 1)
    rw [concatOf]
    refine ⟨List.pairwise_cons.mpr ⟨fun b hb => ?_, h3⟩, fun a ha p hp => ?_⟩
    · have := h4 b hb (f + 1) fun g hg => h1 g hg
      omega
    · rcases List.mem_cons.mp ha with rfl | ha
      · have := hp f List.mem_cons_self
        omega
      · have := h4 a ha p fun g hg => hp g (List.mem_cons_of_mem _ hg)
        omega

/-- The solution of the original program, from a solution of the converted one known up to `ξ`. -/
theorem reverseSol_near {P : LP m n} (hfree : P.free.Pairwise (· < ·)) {k : ℕ} {s s' : Fin k → ℚ}
    (hr : ∀ j, binary64.Rep (s j)) (hs : ∀ j, |s j - s' j| ≤ ξ) (hχ : ∀ j, |s' j| ≤ χ) (hξ0 : 0 ≤ ξ) (hχ0 : 0 ≤ χ)
    {d : ℕ} : List.Forall₂ (fun v v' => |v - v'| ≤ mergedSlack ξ χ)
      (freverseSol binary64 (some ⟨d, concatOf P.free 0, P.neg⟩) s) (reverseSol (some ⟨d, concatOf P.free 0, P.neg⟩) s') := by
  have hξζ : ξ ≤ mergedSlack ξ χ := by
    unfold mergedSlack
    have : 0 ≤ (χ + ξ) / 2 ^ 52 := by positivity
    have h2 : (0 : ℚ) ≤ 1 / 2 ^ 500 := by positivity
    generalize (1 : ℚ) / 2 ^ 500 = τ at *
    linarith
  have hnear : ∀ j, |ext s j - ext s' j| ≤ ξ ∧ |ext s' j| ≤ χ := by
    intro j
    unfold ext
    split
    · exact ⟨hs _, hχ _⟩
    · rw [sub_zero, abs_zero]; exact ⟨hξ0, hχ0⟩
  obtain ⟨h1, h2⟩ := concatOf_spaced hfree 0
  unfold freverseSol reverseSol
  simp only
  rw [List.forall₂_map_left_iff, List.forall₂_map_right_iff, List.forall₂_same]
  intro j _
  refine negAll_near _ (fmergeCode_rep _ _ (ext_rep hr)) (fun j => ?_) j
  exact mergeCode_near _ 0 0 h1 (fun a _ => Nat.zero_le a) le_rfl (fun j => (hnear j).1.trans hξζ) (fun j _ => hnear j) j

end Floating
end Pytimize
