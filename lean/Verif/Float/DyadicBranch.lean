/-
On bounded integer programs whose subdeterminants are powers of two the search of `branch_and_bound` in double precision
is the search of exact arithmetic.
-/
import Verif.Float.Branch
import Verif.Float.DyadicSimplex
import Verif.LP.IntegerBox

namespace Pytimize
namespace Floating
open LinProg Comparator Matrix

variable {m n K s : ℕ} {A q : ℚ} {L : Lapack binary64}

theorem integral_grid (h : ∃ k : ℤ, q * 2 ^ s = k) (hs : s ≤ 32) : integral binary64 q = isInteger q := by
  have hg : ∃ k : ℤ, (|q| - (⌊|q|⌋ : ℤ)) * 2 ^ s = k := by
    obtain ⟨k, hk⟩ := h
    refine ⟨|k| - ⌊|q|⌋ * 2 ^ s, ?_⟩
    have : |q| * 2 ^ s = |(k : ℚ)| := by
      rw [← hk, abs_mul, abs_of_nonneg (by positivity : (0 : ℚ) ≤ 2 ^ s)]
    push_cast
    rw [sub_mul, this]
  have h0 : 0 ≤ |q| - (⌊|q|⌋ : ℤ) := sub_nonneg.mpr (Int.floor_le _)
  have h1 : |q| - (⌊|q|⌋ : ℤ) ≤ 1 := by linarith [Int.lt_floor_add_one |q|]
  have g1 : Grid s 1 (|q| - (⌊|q|⌋ : ℤ)) := ⟨hg, by rw [abs_of_nonneg h0]; exact h1⟩
  have hp : (1 : ℚ) * 2 ^ s ≤ 2 ^ 53 := by
    rw [one_mul]; exact pow_le_pow_right₀ (by norm_num) (by omega)
  have g2 : Grid s 1 (1 - (|q| - (⌊|q|⌋ : ℤ))) := by
    refine ⟨?_, by rw [abs_of_nonneg (by linarith)]; linarith⟩
    obtain ⟨k, hk⟩ := hg
    exact ⟨2 ^ s - k, by rw [sub_mul, hk]; push_cast; ring⟩
  simp only [integral, isInteger, g1.rd_eq hp (by omega), g2.rd_eq hp (by omega), closeToZero_grid g1.1 hs,
    closeToZero_grid g2.1 hs]

theorem ffirstFractional_grid (hs : s ≤ 32) (l : Option (List ℤ)) (i : ℕ) {vs : List ℚ}
    (h : ∀ v ∈ vs, ∃ k : ℤ, v * 2 ^ s = k) : ffirstFractional binary64 l i vs = firstFractional l i vs := by
  induction vs generalizing i with
  | nil => rfl
  | cons v vs ih =>
    simp only [ffirstFractional, firstFractional, integral_grid (h v (by simp)) hs, ih _ fun w hw => h w (by simp [hw])]

theorem fevaluate_grid {P : LP m n} {γ ζ : ℤ} {B : ℚ} (hc : ∀ j, IntUpTo γ (P.c j)) (hz : IntUpTo ζ P.z)
    {x : List ℚ} (hx : ∀ v ∈ x, Grid K B v) (hs : (n * (γ * B) + ζ) * 2 ^ K ≤ 2 ^ 53) (hK : K ≤ 1000) :
    fevaluate L P x = evaluate P x := by
  unfold fevaluate evaluate toVec
  by_cases hlen : x.length = n
  · simp only [hlen, dite_true]
    have hz0 : (0 : ℚ) ≤ ζ := hz.grid.nonneg
    have hs' : (n * (γ * B) + ζ) * 2 ^ (0 + K) ≤ (2 : ℚ) ^ 53 := by rw [zero_add]; exact hs
    obtain ⟨e, h⟩ := Dy.dot_exact (L := L) (fun j => (hc j).grid)
      (v := fun j : Fin n => x.get (j.cast hlen.symm)) (fun j => hx _ (List.get_mem x _))
      (le_trans (mul_le_mul_of_nonneg_right (by linarith) (by positivity)) hs') (by omega)
    have e' := (h.add (hz.grid.mono (Nat.zero_le _) le_rfl)).rd_eq hs' (by omega)
    rw [← e] at e'
    exact congrArg Except.ok (e'.trans (congrArg (· + P.z) e))
  · simp only [hlen, dite_false]

/-! ### The search -/

theorem DyadicLP.child {P : LP m n} {β γ ζ : ℤ} (h : DyadicLP P K β γ ζ) (pos : ℕ) (op : Ineq) {k : ℤ}
    (hk : |k| ≤ β) : DyadicLP (LinProg.child P pos op k) K β γ ζ where
  mat := h.mat.child pos op k
  b i := by
    refine Fin.lastCases ?_ (fun i => ?_) i
    · exact ⟨k, by simp [LinProg.child], hk⟩
    · simpa [LinProg.child] using h.b i
  c := h.c
  z := h.z

theorem DyadicFits.mono {M : ℕ} {β γ ζ : ℤ} (h : DyadicFits M K β γ ζ) (hm : m ≤ M) : DyadicFits m K β γ ζ := by
  have h1 := h.β1
  have h2 := h.γ1
  have h3 : (m : ℤ) ≤ M := by exact_mod_cast hm
  refine ⟨h.K_le, h1, h2, le_trans ?_ h.rhs, le_trans ?_ h.cost, le_trans ?_ h.val⟩
  all_goals gcongr

theorem nodeClass_dyadic {G : ∀ m n : ℕ, LP m n → Prop} {β M : ℕ} {γ ζ : ℤ} (hG : NodeClass β M G) :
    NodeClass β M fun m n Q => G m n Q ∧ DyadicLP Q K β γ ζ where
  exactSef h := hG.exactSef h.1
  exactAux h := hG.exactAux h.1
  clear h := hG.clear h.1
  child h j op k h1 h2 h3 := ⟨hG.child h.1 j op k h1 h2 h3, h.2.child j op (by rw [abs_of_nonneg h2]; exact h3)⟩

theorem fbranch_dyadic {G : ∀ m n : ℕ, LP m n → Prop} {β M sf : ℕ} {γ ζ : ℤ} (hG : NodeClass β M G)
    (hL : ∀ m ≤ M, ExactOnDyadic L m K) (hf : DyadicFits M K β γ ζ) {l : Option (List ℤ)} : ∀ {fuel m n D : ℕ}
    {Q : LP m n}, BoxNode (fun m n Q => G m n Q ∧ DyadicLP Q K β γ ζ) β M D Q →
    ((n + 2 * M : ℕ) : ℚ) * (M * (2 ^ K * (β : ℤ))) * 2 ^ K ≤ 2 ^ 53 →
    (n * (γ * (M * (2 ^ K * (β : ℤ)))) + ζ) * 2 ^ K ≤ (2 : ℚ) ^ 53 →
    fbranch L sf l fuel ⟨m, n, Q⟩ = branch sf l fuel ⟨m, n, Q⟩ := by
  intro fuel
  induction fuel with
  | zero => intros; rfl
  | succ fuel ih =>
    intro m n D Q h hv he
    have hm : m ≤ M := (Nat.le_add_right m D).trans h.depth
    have hm' : (m : ℚ) ≤ M := by exact_mod_cast hm
    have hβ : (0 : ℚ) ≤ (β : ℤ) := by exact_mod_cast Nat.zero_le β
    have hfm := hf.mono hm
    have hle : (m : ℚ) * (2 ^ K * (β : ℤ)) ≤ M * (2 ^ K * (β : ℤ)) := by gcongr
    have hsolve : fsolve L sf Q = solve sf Q := by
      refine Dy.fsolve_eq (hL m hm) h.wf h.good.2 hfm (le_trans ?_ hv) sf
      rw [h.sef_n.2]
      have : ((n + m + m : ℕ) : ℚ) ≤ ((n + 2 * M : ℕ) : ℚ) := by exact_mod_cast (by omega : n + m + m ≤ n + 2 * M)
      gcongr
    have hK := hf.K_le
    have h1 : ∀ pos (q : ℚ), childProg Q pos "<=" (⌊q⌋ : ℤ) = .ok ⟨m + 1, n, LinProg.child Q pos .le (⌊q⌋ : ℤ)⟩ :=
      fun pos q => childProg_eq Q pos .le _
    have h2 : ∀ pos (q : ℚ), childProg Q pos ">=" (⌈q⌉ : ℤ) = .ok ⟨m + 1, n, LinProg.child Q pos .ge (⌈q⌉ : ℤ)⟩ :=
      fun pos q => childProg_eq Q pos .ge _
    rw [fbranch, branch]
    simp only [hsolve, h1, h2]
    cases hr : solve sf Q with
    | error e => rfl
    | ok r =>
      cases r with
      | none => rfl
      | some v =>
        have hg := Dy.solve_grid (hL m hm) h.wf h.good.2 hfm hr
        have e1 : fevaluate L Q v = evaluate Q v :=
          fevaluate_grid h.good.2.c h.good.2.z (fun w hw => (hg w hw).mono le_rfl hle) he (by omega)
        have e2 := ffirstFractional_grid (by omega : K ≤ 32) l 0 fun w hw => (hg w hw).1
        simp only [e1, e2]
        cases evaluate Q v with
        | error e => rfl
        | ok value =>
          cases hff : firstFractional l 0 v with
          | none => rfl
          | some p =>
            obtain ⟨pos, q⟩ := p
            obtain ⟨⟨D1, -, hb1⟩, D2, -, hb2⟩ := h.step (nodeClass_dyadic hG) hr hff
            simp only [ih hb1 hv he, ih hb2 hv he]
            rfl

theorem fbranchAndBound_dyadic {G : ∀ m n : ℕ, LP m n → Prop} {β M D sf : ℕ} {γ ζ : ℤ} (hG : NodeClass β M G)
    (hL : ∀ m ≤ M, ExactOnDyadic L m K) (hf : DyadicFits M K β γ ζ) {I : IntProgram}
    (h : BoxNode (fun m n Q => G m n Q ∧ DyadicLP Q K β γ ζ) β M D I.prog.lp)
    (hv : ((I.prog.n + 2 * M : ℕ) : ℚ) * (M * (2 ^ K * (β : ℤ))) * 2 ^ K ≤ 2 ^ 53)
    (he : (I.prog.n * (γ * (M * (2 ^ K * (β : ℤ)))) + ζ) * 2 ^ K ≤ (2 : ℚ) ^ 53) (fuel : ℕ) :
    fbranchAndBound L sf fuel I = branchAndBound sf fuel I := by
  unfold fbranchAndBound branchAndBound
  rw [relax_eq I h.wf]
  have : fbranch L sf I.integral fuel I.prog = branch sf I.integral fuel I.prog := fbranch_dyadic hG hL hf h hv he
  simp only [this]
  rfl

end Floating
end Pytimize
