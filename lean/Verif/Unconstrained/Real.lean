/-
Termination of the backtracking loop for differentiable functions of real variables.
-/
import Mathlib.Analysis.Calculus.Deriv.Comp
import Mathlib.Analysis.Calculus.Deriv.Slope
import Mathlib.Analysis.Calculus.Deriv.Add
import Mathlib.Analysis.Calculus.Deriv.Mul
import Mathlib.Analysis.SpecificLimits.Basic
import Verif.Unconstrained.Proof

namespace Pytimize
namespace Unconstrained
open Filter Topology

variable {n : ℕ}

/-- The linear map `v ↦ g · v`. -/
noncomputable def gradMap (g : Vec ℝ n) : Vec ℝ n →L[ℝ] ℝ := ∑ i, g i • ContinuousLinearMap.proj (R := ℝ) i

theorem gradMap_apply (g v : Vec ℝ n) : gradMap g v = dot g v := by
  simp [gradMap, dot]

/-- `df x` is the gradient of `f` at `x`. -/
def IsGradient (f : Vec ℝ n → ℝ) (df : Vec ℝ n → Vec ℝ n) : Prop := ∀ x, HasFDerivAt f (gradMap (df x)) x

theorem backtrack_real {f : Vec ℝ n → ℝ} {g x : Vec ℝ n} (hf : HasFDerivAt f (gradMap g) x) {P : Params ℝ}
    (ha : 0 < P.alpha) (hp : 0 < P.p) (hp1 : P.p < 1) (hc : P.c < 1) :
    ∃ m, ¬ f (x + (P.alpha * P.p ^ m) • -g) > f x + P.c * (P.alpha * P.p ^ m) * dot g (-g) := by
  by_cases hg : g = 0
  · refine ⟨0, ?_⟩
    subst hg
    simp [dot]
  · have hs : dot g (-g) < 0 := by
      rw [dot_neg, neg_lt_zero]
      obtain ⟨i, hi⟩ := Function.ne_iff.mp hg
      exact Finset.sum_pos' (fun i _ => sq_nonneg _) ⟨i, Finset.mem_univ i, by
        have : g i ≠ 0 := hi
        positivity⟩
    have hline : HasDerivAt (fun t : ℝ => x + t • -g) (-g) 0 := by
      have h1 : HasDerivAt (fun t : ℝ => t • -g) ((1 : ℝ) • -g) 0 := (hasDerivAt_id (0 : ℝ)).smul_const (-g)
      simpa using h1.const_add x
    have hφ : HasDerivAt (fun t : ℝ => f (x + t • -g)) (dot g (-g)) 0 := by
      have := hf.comp_hasDerivAt_of_eq (x := (0 : ℝ)) (f := fun t : ℝ => x + t • -g) hline (by simp)
      rwa [gradMap_apply] at this
    have hslope := hφ.tendsto_slope
    have hlt : dot g (-g) < P.c * dot g (-g) := by nlinarith
    have hev := hslope.eventually (gt_mem_nhds hlt)
    have hseq : Tendsto (fun m : ℕ => P.alpha * P.p ^ m) atTop (𝓝[≠] 0) := by
      refine tendsto_nhdsWithin_iff.mpr ⟨?_, Eventually.of_forall fun m => ?_⟩
      · simpa using (tendsto_pow_atTop_nhds_zero_of_lt_one hp.le hp1).const_mul P.alpha
      · exact (mul_pos ha (pow_pos hp m)).ne'
    obtain ⟨m, hm⟩ := (hseq.eventually hev).exists
    refine ⟨m, ?_⟩
    have hpos : 0 < P.alpha * P.p ^ m := mul_pos ha (pow_pos hp m)
    rw [slope_def_field, sub_zero, div_lt_iff₀ hpos] at hm
    simp only [zero_smul, add_zero] at hm
    rw [not_lt]
    nlinarith

/-- With enough rounds for every backtracking loop, the whole method ends. -/
theorem descend_real {f : Vec ℝ n → ℝ} {df : Vec ℝ n → Vec ℝ n} (hf : IsGradient f df) {P : Params ℝ}
    (ha : 0 < P.alpha) (hp : 0 < P.p) (hp1 : P.p < 1) (hc : P.c < 1) (k : ℕ) (x : Vec ℝ n) :
    ∃ F, ∀ fuel ≥ F, ∃ r, descend f df P fuel k x = some r := by
  induction k generalizing x with
  | zero => exact ⟨0, fun fuel _ => ⟨_, rfl⟩⟩
  | succ k ih =>
    obtain ⟨m, hm⟩ := backtrack_real (hf x) ha hp hp1 hc
    obtain ⟨b, hb⟩ := backtrack_ends m hm (fuel := m + 1) (by omega)
    have hmono : ∀ fuel ≥ m + 1, backtrack f P x (-df x) (df x) fuel P.alpha = some b := by
      intro fuel hfu
      exact backtrack_mono hb hfu
    obtain ⟨F, hF⟩ := ih (stepFrom df x b)
    refine ⟨max F (m + 1), fun fuel hfu => ?_⟩
    rw [descend]
    simp only [hmono fuel (le_trans (le_max_right _ _) hfu), step_eq]
    split
    · exact ⟨_, rfl⟩
    · obtain ⟨⟨y, j⟩, hr⟩ := hF fuel (le_trans (le_max_left _ _) hfu)
      exact ⟨_, by rw [hr]⟩

end Unconstrained
end Pytimize
