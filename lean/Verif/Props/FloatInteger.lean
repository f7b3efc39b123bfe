/-
Property C132: `branch_and_bound` in floating point.
-/
import Verif.Float.Branch
import Verif.Props.FloatGauss
import Verif.Props.FloatLinear
import Verif.Props.Integer

namespace Pytimize
namespace Props
open LinProg Comparator Floating Matrix

variable {m n : ℕ} {C : Libm} {L : Lapack binary64}

/-- C132. Without rounding errors the search is the exact one. -/
theorem C132_exact {E : Lapack exact} (hE : Ideal E) (sf fuel : ℕ) (I : IntProgram) :
    fbranchAndBound E sf fuel I = branchAndBound sf fuel I :=
  fbranchAndBound_ideal hE sf fuel I

/-- C132. For every program and every implementation of the linear algebra: what is returned is a vector of doubles with
one entry for each variable, integers up to the tolerance where required. -/
theorem C132_near {I : IntProgram} (hI : WF I.prog.lp) {sf fuel : ℕ} {v : List ℚ}
    (h : fbranchAndBound L sf fuel I = .ok (some v)) :
    v.length = I.prog.n ∧ (∀ a ∈ v, IsDouble a) ∧
      ∀ j (hj : j < v.length), Required I.integral j → ∃ k : ℤ, |v[j] - k| < toDouble (1 / 10 ^ 10) := by
  unfold fbranchAndBound at h
  rw [relax_eq I hI] at h
  simp only at h
  split at h
  · cases h
  · rename_i r hr
    simp only [Except.ok.injEq] at h
    obtain ⟨⟨w, q⟩, rfl, rfl⟩ := Option.map_eq_some_iff.mp h
    obtain ⟨h1, h2, h3⟩ := fbranch_sound hr
    exact ⟨h1, fun a ha => binary64_rep.mp (h2 a ha), fun j hj hR =>
      (C102_integer (binary64_rep.mp (h2 _ (List.getElem_mem hj)))).mp (h3 j hj ((looksAt_iff _ _).mpr hR))⟩

/-- C132. With a totally unimodular matrix and integers of moderate size the search ends at its root, with the answer of
exact arithmetic. -/
theorem C132_root (hL : Gaussian C L) {I : IntProgram} (hI : WF I.prog.lp) (hm : 0 < I.prog.m) {β γ ζ : ℕ}
    (h : UnimodularData I.prog.lp β γ ζ) (sf fuel : ℕ) :
    fbranchAndBound L sf (fuel + 1) I = fsolve L sf I.prog.lp ∧
      fbranchAndBound L sf (fuel + 1) I = branchAndBound sf (fuel + 1) I := by
  have hm2 : I.prog.m < 2 ^ 53 := by
    have := h.ratios
    have : I.prog.m ≤ I.prog.m * β := Nat.le_mul_of_pos_right _ h.βpos
    omega
  have hs := (C131_solve hL hI hm h sf).2.2
  obtain ⟨h1, h2⟩ := fbranchAndBound_root hI hs (fun v hv =>
    solve_int (gaussian_exact hL hm2) h.tame (h.fits hm).1 (by exact_mod_cast h.γpos) hv) fuel
  exact ⟨h1.trans hs.symm, h1.trans h2.symm⟩

/-- C132. So the answer is a best integral point if there is one, and `None` if there is none. -/
theorem C132_optimal (hL : Gaussian C L) {I : IntProgram} (hI : WF I.prog.lp) (hm : 0 < I.prog.m) {β γ ζ : ℕ}
    (h : UnimodularData I.prog.lp β γ ζ) (hb : I.prog.m * β < 10 ^ 5) (hreg : Regular I.prog.lp) (sf fuel : ℕ)
    (hf : width I.prog.lp ^ I.prog.m ≤ sf) :
    (EqIndep I.prog.lp → (∃ x, BestIntegral I.prog.lp I.integral x) →
      ∃ x, fbranchAndBound L sf (fuel + 1) I = .ok (some (List.ofFn x)) ∧ BestIntegral I.prog.lp I.integral x ∧
        ∀ j, ∃ k : ℤ, x j = k) ∧
    (EqIndep I.prog.lp → (¬ ∃ x, BestIntegral I.prog.lp I.integral x) →
      fbranchAndBound L sf (fuel + 1) I = .ok none) ∧
    ((¬ ∃ x, Feas I.prog.lp x) → fbranchAndBound L sf (fuel + 1) I = .ok none) ∧
    (¬ EqIndep I.prog.lp → (∃ x, Feas I.prog.lp x) → fbranchAndBound L sf (fuel + 1) I = .error .valueError) := by
  rw [(C132_root hL hI hm h sf fuel).1]
  obtain ⟨h1, h2, h3, h4⟩ := C131_optimal hL hI hm h hb hreg sf hf
  refine ⟨fun he ⟨x0, a, b, c⟩ => ?_, fun he hno => h2 he ?_, h3, h4⟩
  · obtain ⟨x, e1, e2, e3⟩ := h1 he (relaxation_optimal a b c)
    exact ⟨x, e1, ⟨e2.1, fun j _ => e3 j, fun y hy _ => e2.2 y hy⟩, e3⟩
  · intro hx
    obtain ⟨x, -, e2, e3⟩ := h1 he hx
    exact hno ⟨x, e2.1, fun j _ => e3 j, fun y hy _ => e2.2 y hy⟩

/-! ### Witnesses -/

/-- The example of C130 with the first two variables required to be integers. -/
def intervalInteger : IntProgram := ⟨⟨2, 3, intervalSample⟩, some [0, 1]⟩

example : fbranchAndBound (eliminating fixedPoint binary64) 100 5 intervalInteger =
    .ok (some [0, 40000, 10000]) := by
  rw [(C132_root (eliminating_gaussian _ _) ⟨by decide, by decide, by decide, by decide, by decide, by decide⟩
    (by norm_num [intervalInteger]) intervalSample_data 100 4).2]
  decide +kernel

end Props
end Pytimize
