/-
Programs whose rows are independent, and the conversion of programs without equations.
-/
import Mathlib.LinearAlgebra.Dimension.Finrank
import Mathlib.LinearAlgebra.Dimension.Constructions
import Mathlib.LinearAlgebra.Matrix.ToLin
import Verif.LP.BasisTheory
import Verif.LP.Sef

namespace Pytimize
namespace LinProg

variable {m n : ℕ}

/-- If every right-hand side can be reached, some columns form a nonsingular matrix. -/
theorem exists_nonsing_of_surj (P : LP m n) (h : ∀ v, ∃ s, P.A.mulVec s = v) : ∃ B, Nonsing P B := by
  obtain ⟨κ, a, ha, hspan, hli⟩ := exists_linearIndependent' ℚ P.A.col
  have htop : Submodule.span ℚ (Set.range P.A.col) = ⊤ := by
    rw [eq_top_iff]
    intro v _
    obtain ⟨s, rfl⟩ := h v
    rw [Matrix.mulVec_eq_sum]
    refine Submodule.sum_mem _ fun j _ => ?_
    rw [op_smul_eq_smul]
    exact Submodule.smul_mem _ _ (Submodule.subset_span ⟨j, rfl⟩)
  have : Finite κ := Finite.of_injective a ha
  have : Fintype κ := Fintype.ofFinite κ
  let b := Module.Basis.mk hli (by rw [hspan, htop])
  have hcard : Fintype.card κ = m := by
    rw [← Module.finrank_eq_card_basis b, Module.finrank_fin_fun]
  let e : Fin m ≃ κ := (finCongr hcard.symm).trans (Fintype.equivFin κ).symm
  refine ⟨a ∘ e, ?_⟩
  have hli' : LinearIndependent ℚ (colSel P.A (a ∘ e)).col := hli.comp e e.injective
  have := Matrix.linearIndependent_cols_iff_isUnit.mp hli'
  exact ((Matrix.isUnit_iff_isUnit_det _).mp this).ne_zero

/-- Slack columns reach every right-hand side, with nonnegative values if the signs fit. -/
theorem slackVal_surj_all (q : Fin m → Ineq) (l : List (Fin m)) (hl : l.Nodup) (k : ℕ) (t : Fin m → ℚ)
    (hq : ∀ r ∈ l, q r ≠ .eq) :
    ∃ y : ℕ → ℚ, (∀ r ∈ l, slackVal q l k y r = t r) ∧ ((∀ r, 0 ≤ slackSign (q r) * t r) → ∀ j, 0 ≤ y j) := by
  induction l generalizing k with
  | nil => exact ⟨fun _ => 0, by simp⟩
  | cons i l ih =>
    obtain ⟨h1, h2⟩ := List.nodup_cons.mp hl
    obtain ⟨y, he, hy⟩ := ih h2 (k + 1) fun r hr => hq r (List.mem_cons_of_mem _ hr)
    have hi := hq i (List.mem_cons_self ..)
    have hsgn : slackSign (q i) * slackSign (q i) = 1 := by
      cases q i <;> simp [slackSign]
    have hcongr : ∀ r, slackVal q l (k + 1) (Function.update y k (slackSign (q i) * t i)) r =
        slackVal q l (k + 1) y r := fun r =>
      slackVal_congr q l (k + 1) (fun j hj => Function.update_of_ne (by omega) _ _) r
    refine ⟨Function.update y k (slackSign (q i) * t i), fun r hr => ?_, fun h0 j => ?_⟩
    rotate_left
    · by_cases hj : j = k
      · rw [hj, Function.update_self]
        exact h0 i
      · rw [Function.update_of_ne hj]
        exact hy h0 j
    simp only [slackVal, if_neg hi, hcongr]
    rcases List.mem_cons.mp hr with rfl | hr
    · rw [if_pos rfl, slackVal_notMem q l (k + 1) y r (Or.inl h1), Function.update_self, ← mul_assoc, hsgn]
      ring
    · rw [if_neg (fun h : r = i => h1 (h ▸ hr)), zero_add, he r hr]

/-- In the SEF of a program without equations every right-hand side is reached by slack columns alone. -/
theorem sef_slack (P : LP m n) (hP : WF P) (hq : ∀ i, P.ineq i ≠ .eq) (hs : P.isSef = false) (v : Fin m → ℚ) :
    ∃ s, (toSef P).lp.A.mulVec s = v ∧ (∀ j : Fin (toSef P).n, (j : ℕ) < n + P.free.length → s j = 0) ∧
      ((∀ i, 0 ≤ slackSign (P.ineq i) * v i) → ∀ j, 0 ≤ s j) := by
  have e : toSef P = ⟨(sefCols P).n,
      { A := fun r j => (sefCols P).A r j, b := P.b, c := fun j => (sefCols P).c j, z := P.z,
        objective := .max, ineq := fun _ => .eq, free := [], neg := [], isSef := true },
      some ⟨((List.finRange m).filter fun i => decide (P.ineq i ≠ .eq)).length,
        concatOf P.free 0, P.neg⟩⟩ := by simp [toSef, hs]
  rw [e]
  simp only
  have hneg : P.neg.Nodup := hP.negSorted.imp (fun h => ne_of_lt h)
  obtain ⟨y, hy, hy0⟩ := slackVal_surj_all P.ineq (List.finRange m) (List.nodup_finRange m) (n + P.free.length)
    v fun r _ => hq r
  let w : ℕ → ℚ := fun j => if j < n + P.free.length then 0 else y j
  have hmerge : ∀ (l : List ℕ) (i k : ℕ) (u : ℕ → ℚ), (∀ f ∈ l, f + i < k) →
      (∀ j < k + l.length, u j = 0) → ∀ j < k, mergeL l i u j = 0 := by
    intro l
    induction l with
    | nil => intro i k u _ h j hj; exact h j (by simpa using hj)
    | cons f l ih =>
      intro i k u hk h j hj
      have := ih (i + 1) (k + 1) u
        (fun g hg => by have := hk g (List.mem_cons_of_mem _ hg); omega)
        (fun j hj => h j (by simp only [List.length_cons]; omega))
      have hfk := hk f (List.mem_cons_self ..)
      simp only [mergeL, mergeAt]
      rw [this j (by omega), this (f + i) (by omega), this (f + i + 1) (by omega), this (j + 1) (by omega)]
      simp
  have hback : (fun j : Fin n => backN P w j) = 0 := by
    funext j
    simp only [backN]
    rw [negAt_foldl _ hneg, hmerge P.free 0 n w (fun f hf => hP.freeLt f hf) (fun j hj => if_pos hj) j j.2]
    simp
  refine ⟨fun j => w j, ?_, fun j hj => if_pos hj, fun h0 j => ?_⟩
  rotate_left
  · by_cases hj : (j : ℕ) < n + P.free.length
    · exact le_of_eq (if_pos hj).symm
    · exact le_of_le_of_eq (hy0 h0 j) (if_neg hj).symm
  funext r
  show (fun j : Fin (sefCols P).n => (sefCols P).A r j) ⬝ᵥ (fun j => w j) = v r
  rw [← dotN_ext]
  rw [dotN_congr (w' := (sefCols P).A r) (x' := w) (fun j hj => ext_ofNat _ _ _ hj)
    (fun j hj => ext_ofNat _ _ _ hj), (sef_dot P hP w).1 r, hback, Matrix.mulVec_zero,
    slackVal_congr P.ineq _ _ (y := y) (fun j hj => if_neg (by omega)), hy r (List.mem_finRange r)]
  simp

/-- A program without equations has independent rows in SEF. -/
theorem sef_surj (P : LP m n) (hP : WF P) (hq : ∀ i, P.ineq i ≠ .eq) (hs : P.isSef = false) (v : Fin m → ℚ) :
    ∃ s, (toSef P).lp.A.mulVec s = v := by
  obtain ⟨s, h, -⟩ := sef_slack P hP hq hs v
  exact ⟨s, h⟩

end LinProg
end Pytimize
