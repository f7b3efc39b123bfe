/-
C140: how the optimal value changes when the program changes.
-/
import Verif.Props.LinearData
import Verif.Props.LinearStrong
import Verif.Props.SolveExact
import Verif.Props.Reorder

namespace Pytimize
namespace Props
open LinProg Matrix

variable {m n : ℕ}

/-- Specification: for the direction `o`, the value `p` is not better than `q`. -/
def NotBetter (o : Obj) (p q : ℚ) : Prop := (o = .max → p ≤ q) ∧ (o = .min → q ≤ p)

/-- The number returned by `optimal_value` is within reach, and nothing is better. -/
theorem value_spec {fuel : ℕ} {P : LP m n} (hP : WF P) {r : Fin m → ℕ} {N K β : ℕ} (h : Decimal P r N K β) {p : ℚ}
    (hp : optimalValue fuel P = .ok (some p)) :
    (∃ x, Feas P x ∧ objVal P x = p) ∧ ∀ x, Feas P x → NotBetter P.objective (objVal P x) p := by
  obtain ⟨x, hx, rfl⟩ := C44_value_data_partial fuel P hP r N K β h p hp
  exact ⟨⟨x, hx.1, rfl⟩, hx.2⟩

/-- `optimal_value` is the objective at the vector found by `solve`. -/
theorem value_of_solve {fuel : ℕ} {P : LP m n} {x : Fin n → ℚ} (hs : solve fuel P = .ok (some (List.ofFn x))) :
    optimalValue fuel P = .ok (some (objVal P x)) := by
  unfold optimalValue
  simp only [hs, evaluate, toVec_ofFn]
  rfl

theorem NotBetter.antisymm {o : Obj} {p q : ℚ} (h : NotBetter o p q) (h' : NotBetter o q p) : p = q := by
  cases o
  · exact le_antisymm (h.1 rfl) (h'.1 rfl)
  · exact le_antisymm (h'.2 rfl) (h.2 rfl)

/-! ### `add_constraint` and `add_variable` -/

/-- C140, `add_constraint`: the optimal value gets no better; it stays the same if the solution found before
satisfies the new constraint. Missing: larger numbers and smaller fractions (`C140_tiny_wrong`). -/
theorem C140_constraint_partial (fuel fuel' : ℕ) (P : LP m n) (hP : WF P) (r : Fin m → ℕ) (N K β : ℕ)
    (h : Decimal P r N K β) (a : Fin n → ℚ) (q : Ineq) (v : ℚ) (Q : LP (m + 1) n)
    (hQ : addConstraint P (List.ofFn a) q.sym v = .ok Q) (r' : Fin (m + 1) → ℕ) (N' K' β' : ℕ)
    (h' : Decimal Q r' N' K' β') (p p' : ℚ) (hp : optimalValue fuel P = .ok (some p))
    (hp' : optimalValue fuel' Q = .ok (some p')) :
    NotBetter P.objective p' p ∧
      ∀ x, solve fuel P = .ok (some (List.ofFn x)) → rowHolds q (∑ j, a j * x j) v → p' = p := by
  obtain ⟨Q', hQ', hf, hv, ho, -, -⟩ := C29_intersect P a q v
  obtain rfl : Q' = Q := by rw [hQ] at hQ'; exact (Except.ok.inj hQ').symm
  obtain ⟨⟨x', hx', e'⟩, hb'⟩ := value_spec (hP.addConstraint hQ) h' hp'
  obtain ⟨-, hb⟩ := value_spec hP h hp
  have h1 : NotBetter P.objective p' p := by
    rw [← e', hv]
    exact hb x' ((hf x').mp hx').1
  refine ⟨h1, fun x hx hrow => h1.antisymm ?_⟩
  have e : p = objVal P x := by
    rw [value_of_solve hx] at hp
    exact (Option.some.inj (Except.ok.inj hp)).symm
  obtain ⟨y, hy, hy'⟩ := C44_data_partial fuel P hP r N K β h _ hx
  obtain rfl := List.ofFn_injective hy
  have := hb' x ((hf x).mpr ⟨hy'.1, hrow⟩)
  rwa [hv, ho, ← e] at this

/-- C140, `add_constraint`: a program that was infeasible gets no solution. -/
theorem C140_constraint_none_partial (fuel' : ℕ) (P : LP m n) (hP : WF P) (a : Fin n → ℚ) (q : Ineq) (v : ℚ)
    (Q : LP (m + 1) n) (hQ : addConstraint P (List.ofFn a) q.sym v = .ok Q) (r' : Fin (m + 1) → ℕ) (N' K' β' : ℕ)
    (h' : Decimal Q r' N' K' β') (hn : ¬ ∃ x, Feas P x) (w : List ℚ) : solve fuel' Q ≠ .ok (some w) := by
  obtain ⟨Q', hQ', hf, -⟩ := C29_intersect P a q v
  obtain rfl : Q' = Q := by rw [hQ] at hQ'; exact (Except.ok.inj hQ').symm
  intro hw
  obtain ⟨x, -, hx⟩ := C44_data_partial fuel' _ (hP.addConstraint hQ) r' N' K' β' h' w hw
  exact hn ⟨x, ((hf x).mp hx.1).1⟩

/-- C140, `add_variable`: the optimal value gets no worse; it stays the same if the solution found afterwards does not
use the new variable. -/
theorem C140_variable_partial (fuel fuel' : ℕ) (P : LP m n) (hP : WF P) (r : Fin m → ℕ) (N K β : ℕ)
    (h : Decimal P r N K β) (coef : ℚ) (col : Fin m → ℚ) (free negative : Bool) (Q : LP m (n + 1))
    (hQ : addVariable P coef (some (List.ofFn col)) free negative = .ok Q) (r' : Fin m → ℕ) (N' K' β' : ℕ)
    (h' : Decimal Q r' N' K' β') (p p' : ℚ) (hp : optimalValue fuel P = .ok (some p))
    (hp' : optimalValue fuel' Q = .ok (some p')) :
    NotBetter P.objective p p' ∧
      ∀ x : Fin n → ℚ, solve fuel' Q = .ok (some (List.ofFn (Fin.snoc (α := fun _ => ℚ) x 0 : Fin (n + 1) → ℚ))) →
        p' = p := by
  have hfn : ¬ (free = true ∧ negative = true) := by
    rintro ⟨rfl, rfl⟩
    simp [addVariable] at hQ
  obtain ⟨Q', hQ', -, hv, hf, ho⟩ := C30_extend P hP coef col free negative hfn
  obtain rfl : Q' = Q := by rw [hQ] at hQ'; exact (Except.ok.inj hQ').symm
  obtain ⟨⟨x, hx, e⟩, hb⟩ := value_spec hP h hp
  obtain ⟨-, hb'⟩ := value_spec (hP.addVariable hQ) h' hp'
  have h1 : NotBetter P.objective p p' := by
    have := hb' _ ((hf x).mpr hx)
    rwa [hv, ho, mul_zero, add_zero, e] at this
  refine ⟨h1, fun w hw => NotBetter.antisymm ?_ h1⟩
  have e' : p' = objVal P w := by
    rw [value_of_solve hw, hv, mul_zero, add_zero] at hp'
    exact (Option.some.inj (Except.ok.inj hp')).symm
  obtain ⟨y, hy, hy'⟩ := C44_data_partial fuel' _ (hP.addVariable hQ) r' N' K' β' h' _ hw
  have hy2 := List.ofFn_injective hy
  have := hb w ((hf w).mp (by rw [hy2]; exact hy'.1))
  rwa [← e'] at this

/-! ### Costs and right-hand sides -/

/-- C140, costs: with other costs the solution found before is still available, and the new value is at least its new
objective. -/
theorem C140_cost_partial (fuel fuel' : ℕ) (P : LP m n) (hP : WF P) (r : Fin m → ℕ) (N K β : ℕ)
    (h : Decimal P r N K β) (c' : Fin n → ℚ) (r' : Fin m → ℕ) (N' K' β' : ℕ)
    (h' : Decimal { P with c := c' } r' N' K' β') (x : Fin n → ℚ) (p' : ℚ)
    (hx : solve fuel P = .ok (some (List.ofFn x)))
    (hp' : optimalValue fuel' { P with c := c' } = .ok (some p')) :
    NotBetter P.objective (objVal P x + ∑ j, (c' j - P.c j) * x j) p' := by
  obtain ⟨y, hy, hy'⟩ := C44_data_partial fuel P hP r N K β h _ hx
  obtain rfl := List.ofFn_injective hy
  obtain ⟨-, hb⟩ := value_spec (P := { P with c := c' }) ⟨hP.freeSorted, hP.negSorted, hP.freeLt, hP.negLt, hP.disj,
    hP.sef⟩ h' hp'
  have := hb x ⟨hy'.1.rows, hy'.1.negs, hy'.1.poss⟩
  have e : objVal { P with c := c' } x = objVal P x + ∑ j, (c' j - P.c j) * x j := by
    simp only [objVal, dotProduct, sub_mul, Finset.sum_sub_distrib]
    ring
  rwa [e] at this

/-- C140, shadow prices: if `y` is the vector that `solve` finds for `dual()`, then with other right-hand sides `b'`
the new value is not better than the old one plus `y · (b' - b)`. -/
theorem C140_prices_partial (fuel fuel' fuel'' : ℕ) (P : LP m n) (hP : WF P) (r : Fin m → ℕ) (N K β : ℕ)
    (h : Decimal P r N K β) (r₁ : Fin n → ℕ) (N₁ K₁ β₁ : ℕ) (h₁ : Decimal (dual P) r₁ N₁ K₁ β₁) (b' : Fin m → ℚ)
    (r' : Fin m → ℕ) (N' K' β' : ℕ) (h' : Decimal { P with b := b' } r' N' K' β') (y : Fin m → ℚ) (p p' : ℚ)
    (hp : optimalValue fuel P = .ok (some p)) (hy : solve fuel' (dual P) = .ok (some (List.ofFn y)))
    (hp' : optimalValue fuel'' { P with b := b' } = .ok (some p')) :
    NotBetter P.objective p' (p + ∑ i, y i * (b' i - P.b i)) := by
  obtain ⟨y', hy1, hy2⟩ := C44_data_partial fuel' (dual P) (WF.dual P) r₁ N₁ K₁ β₁ h₁ _ hy
  obtain rfl := List.ofFn_injective hy1
  obtain ⟨x, hx, e⟩ := C44_value_data_partial fuel P hP r N K β h p hp
  have hs := (C80_strong_partial P hP).2.1 x y hx hy2
  have ev : objVal (dual P) y = P.b ⬝ᵥ y + 0 := rfl
  rw [e, ev, add_zero] at hs
  obtain ⟨⟨x', hx', e'⟩, -⟩ := value_spec (P := { P with b := b' }) ⟨hP.freeSorted, hP.negSorted, hP.freeLt, hP.negLt,
    hP.disj, hP.sef⟩ h' hp'
  have hd : Feas (dual { P with b := b' }) y := ⟨hy2.1.rows, hy2.1.negs, hy2.1.poss⟩
  have es : ∑ i, y i * (b' i - P.b i) = b' ⬝ᵥ y - P.b ⬝ᵥ y := by
    simp only [dotProduct, mul_sub, Finset.sum_sub_distrib, mul_comm]
  have eo : objVal { P with b := b' } x' = P.c ⬝ᵥ x' + P.z := rfl
  rw [eo] at e'
  rw [es, hs, ← e']
  constructor
  · intro ho
    have : P.c ⬝ᵥ x' ≤ b' ⬝ᵥ y := weak_max { P with b := b' } ho hx' hd
    linarith
  · intro ho
    have : b' ⬝ᵥ y ≤ P.c ⬝ᵥ x' := weak_min { P with b := b' } ho hx' hd
    linarith

/-- C140, right-hand sides in between: the value is at least the same mixture of the values at the ends. -/
theorem C140_mixture_partial (f₀ f₁ f₂ : ℕ) (P : LP m n) (hP : WF P) (r : Fin m → ℕ) (N K β : ℕ)
    (h : Decimal P r N K β) (b' : Fin m → ℚ) (r' : Fin m → ℕ) (N' K' β' : ℕ)
    (h' : Decimal { P with b := b' } r' N' K' β') (s : ℚ) (hs : 0 ≤ s) (hs' : s ≤ 1) (r₂ : Fin m → ℕ) (N₂ K₂ β₂ : ℕ)
    (h₂ : Decimal { P with b := fun i => (1 - s) * P.b i + s * b' i } r₂ N₂ K₂ β₂) (p p' p₂ : ℚ)
    (hp : optimalValue f₀ P = .ok (some p)) (hp' : optimalValue f₁ { P with b := b' } = .ok (some p'))
    (hp₂ : optimalValue f₂ { P with b := fun i => (1 - s) * P.b i + s * b' i } = .ok (some p₂)) :
    NotBetter P.objective ((1 - s) * p + s * p') p₂ := by
  have wf : ∀ b'' : Fin m → ℚ, WF { P with b := b'' } := fun _ =>
    ⟨hP.freeSorted, hP.negSorted, hP.freeLt, hP.negLt, hP.disj, hP.sef⟩
  obtain ⟨⟨x, hx, e⟩, -⟩ := value_spec hP h hp
  obtain ⟨⟨x', hx', e'⟩, -⟩ := value_spec (wf b') h' hp'
  obtain ⟨-, hb⟩ := value_spec (wf _) h₂ hp₂
  have hs1 : 0 ≤ 1 - s := sub_nonneg.mpr hs'
  have hmul : ∀ i, (P.A.mulVec ((1 - s) • x + s • x')) i = (1 - s) * (P.A.mulVec x) i + s * (P.A.mulVec x') i := by
    intro i
    simp [Matrix.mulVec_add, Matrix.mulVec_smul]
  have hf : Feas { P with b := fun i => (1 - s) * P.b i + s * b' i } ((1 - s) • x + s • x') := by
    refine ⟨fun i => ?_, fun j hj => ?_, fun j hj hj' => ?_⟩
    · have h1 := hx.rows i
      have h2 := hx'.rows i
      simp only [hmul]
      simp only at h2
      cases hq : P.ineq i <;> rw [hq] at h1 h2 <;> simp only [rowHolds] at h1 h2 ⊢
      · rw [h1, h2]
      · exact add_le_add (mul_le_mul_of_nonneg_left h1 hs1) (mul_le_mul_of_nonneg_left h2 hs)
      · exact add_le_add (mul_le_mul_of_nonneg_left h1 hs1) (mul_le_mul_of_nonneg_left h2 hs)
    · have h1 := hx.negs j hj
      have h2 := hx'.negs j hj
      simp only [Pi.add_apply, Pi.smul_apply, smul_eq_mul]
      exact add_nonpos (mul_nonpos_of_nonneg_of_nonpos hs1 h1) (mul_nonpos_of_nonneg_of_nonpos hs h2)
    · have h1 := hx.poss j hj hj'
      have h2 := hx'.poss j hj hj'
      simp only [Pi.add_apply, Pi.smul_apply, smul_eq_mul]
      exact add_nonneg (mul_nonneg hs1 h1) (mul_nonneg hs h2)
  have := hb _ hf
  have ev : objVal { P with b := fun i => (1 - s) * P.b i + s * b' i } ((1 - s) • x + s • x') =
      (1 - s) * p + s * p' := by
    rw [← e, ← e']
    simp only [objVal, dotProduct_add, dotProduct_smul, smul_eq_mul]
    ring
  rwa [ev] at this

/-- C140, integrality: what `branch_and_bound` finds is not better than the value of the relaxation. -/
theorem C140_relax_partial (sf fuel fuel' : ℕ) (I : IntProgram) (r : Fin I.prog.m → ℕ) (N K β U : ℕ)
    (h : Bounded I.prog.lp r N K β U) (r' : Fin I.prog.m → ℕ) (N' K' β' : ℕ) (h' : Decimal I.prog.lp r' N' K' β')
    (v : List ℚ) (hv : branchAndBound sf fuel I = .ok (some v)) (p q : ℚ)
    (hp : optimalValue fuel' I.prog.lp = .ok (some p)) (hq : evaluate I.prog.lp v = .ok q) :
    NotBetter I.prog.lp.objective q p := by
  obtain ⟨x, rfl, hx, -⟩ := C59_bounded_partial sf fuel I r N K β U h v hv
  obtain ⟨-, hb⟩ := value_spec h.wf h' hp
  simp only [evaluate, toVec_ofFn, Except.ok.injEq] at hq
  rw [← hq]
  exact hb x hx

/-! ### Where it fails -/

/-- C140 as stated is false: `max 0.5e-10 x₁` subject to `x₂ = 1` is reported to have the optimal value 0; with the
additional constraint `x₁ >= 5` the reported value is better. -/
theorem C140_tiny_wrong : ∃ (P : LP 1 2) (a : Fin 2 → ℚ) (Q : LP 2 2), WF P ∧
    addConstraint P (List.ofFn a) Ineq.ge.sym 5 = .ok Q ∧ P.objective = .max ∧
    optimalValue 10 P = .ok (some 0) ∧ optimalValue 10 Q = .ok (some (1 / 4000000000)) :=
  ⟨tinyCost, ![1, 0], _, tinyCost_wf, rfl, rfl, by decide +kernel, by decide +kernel⟩

/-! ### The hypotheses are satisfiable -/

theorem mixedSample_wf : WF mixedSample := ⟨by decide, by decide, by decide, by decide, by decide, by decide⟩

/-- The additional constraint `x₂ <= 1` makes the value 4 instead of 5. -/
example : ∃ Q, addConstraint mixedSample (List.ofFn ![0, 1]) Ineq.le.sym 1 = .ok Q ∧
    Decimal Q (fun _ => 1) 1 2 3 ∧ optimalValue 25 mixedSample = .ok (some 5) ∧
    optimalValue 100 Q = .ok (some 4) := by
  refine ⟨_, rfl, Moderate.decimal
    { isInt := ⟨fun i j => ⟨(!![1, 1; 1, -1; 0, 1] : Matrix (Fin 3) (Fin 2) ℤ) i j, by
          fin_cases i <;> fin_cases j <;> with_unfolding_all rfl⟩,
        fun i => ⟨(![3, -1, 1] : Fin 3 → ℤ) i, by fin_cases i <;> with_unfolding_all rfl⟩,
        fun j => ⟨(![1, 2] : Fin 2 → ℤ) j, by fin_cases j <;> with_unfolding_all rfl⟩⟩
      subdet := subdet_of_le (by decide +kernel)
      rhs := by decide +kernel
      small := by norm_num }, by decide +kernel, by decide +kernel⟩

/-- A new variable with cost 3 and column `(1, 0)` makes the value 9. -/
example : ∃ Q, addVariable mixedSample 3 (some (List.ofFn ![1, 0])) false false = .ok Q ∧
    Decimal Q (fun _ => 1) 1 2 3 ∧ optimalValue 100 Q = .ok (some 9) := by
  refine ⟨_, rfl, Moderate.decimal
    { isInt := ⟨fun i j => ⟨(!![1, 1, 1; 1, -1, 0] : Matrix (Fin 2) (Fin 3) ℤ) i j, by
          fin_cases i <;> fin_cases j <;> with_unfolding_all rfl⟩,
        fun i => ⟨(![3, -1] : Fin 2 → ℤ) i, by fin_cases i <;> with_unfolding_all rfl⟩,
        fun j => ⟨(![1, 2, 3] : Fin 3 → ℤ) j, by fin_cases j <;> with_unfolding_all rfl⟩⟩
      subdet := fun k r s => (subdet_of_le (K := 2) (by decide +kernel)).transpose k r s
      rhs := by decide +kernel
      small := by norm_num }, by decide +kernel⟩

/-- The dual of `mixedSample`, and `mixedSample` with the right-hand side 4 in place of 3: the value 5 becomes 13/2, as
the prices `(3/2, -1/2)` say. -/
example : Decimal (dual mixedSample) (fun _ => 1) 1 2 2 ∧
    Decimal { mixedSample with b := ![4, -1] } (fun _ => 1) 1 2 4 ∧
    solve 100 (dual mixedSample) = .ok (some (List.ofFn ![3 / 2, -1 / 2])) ∧
    optimalValue 100 { mixedSample with b := ![4, -1] } = .ok (some (13 / 2)) := by
  refine ⟨Moderate.decimal
    { isInt := ⟨fun i j => ⟨(!![1, 1; 1, -1] : Matrix (Fin 2) (Fin 2) ℤ) i j, by
          fin_cases i <;> fin_cases j <;> with_unfolding_all rfl⟩,
        fun i => ⟨(![1, 2] : Fin 2 → ℤ) i, by fin_cases i <;> with_unfolding_all rfl⟩,
        fun j => ⟨(![3, -1] : Fin 2 → ℤ) j, by fin_cases j <;> with_unfolding_all rfl⟩⟩
      subdet := subdet_of_le (by decide +kernel)
      rhs := by decide +kernel
      small := by norm_num }, Moderate.decimal
    { isInt := ⟨fun i j => ⟨(!![1, 1; 1, -1] : Matrix (Fin 2) (Fin 2) ℤ) i j, by
          fin_cases i <;> fin_cases j <;> with_unfolding_all rfl⟩,
        fun i => ⟨(![4, -1] : Fin 2 → ℤ) i, by fin_cases i <;> with_unfolding_all rfl⟩,
        fun j => ⟨(![1, 2] : Fin 2 → ℤ) j, by fin_cases j <;> with_unfolding_all rfl⟩⟩
      subdet := mixedSample_data.subdet
      rhs := by decide +kernel
      small := by norm_num }, by decide +kernel, by decide +kernel⟩

end Props
end Pytimize
