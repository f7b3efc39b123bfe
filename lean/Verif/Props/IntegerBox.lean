/-
C44, C45, C59, C60 and C74 with conditions on the data the user supplies: bounded denominators, bounded
subdeterminants and (for branch and bound) a bounded feasible region.
-/
import Verif.LP.IntegerBox

namespace Pytimize
namespace Props

open Comparator LinProg Matrix

variable {m n : ℕ}

/-! ### C44 and C45 -/

/-- C44 for data with bounded denominators, subdeterminants and right-hand side (see `Decimal`): a returned vector
is optimal. Missing: larger numbers and smaller fractions (`C44_tiny_wrong`). -/
theorem C44_data_partial (fuel : ℕ) (P : LP m n) (hP : WF P) (r : Fin m → ℕ) (N K β : ℕ) (h : Decimal P r N K β)
    (v : List ℚ)
    (hv : solve fuel P = .ok (some v)) : ∃ x : Fin n → ℚ, v = List.ofFn x ∧ Optimal P x :=
  C44_sound_partial fuel P hP h.exactSef v hv

/-- C45 for data with bounded denominators, subdeterminants and right-hand side and inequalities only, if the number
of columns of the SEF is not twice the number of rows or the origin is feasible (for example `<=` rows with
nonnegative right-hand sides). Missing: the other cases (`C45_tried_wrong`, `C45_redundant_wrong`). -/
theorem C45_data_partial (P : LP m n) (hP : WF P) (hm : 0 < m) (hq : ∀ i, P.ineq i ≠ .eq)
    (r : Fin m → ℕ) (N K β : ℕ) (h : Decimal P r N K β) (hshape : n + P.free.length ≠ m ∨ Feas P 0) (fuel : ℕ)
    (hf : (n + P.free.length + 2 * m) ^ m ≤ fuel) (hopt : ∃ x, Optimal P x) :
    ∃ x, solve fuel P = .ok (some (List.ofFn x)) ∧ Optimal P x := by
  obtain ⟨hs, hn⟩ := sef_of_ineq hP hm hq
  have h1 : (toSef P).n ^ m ≤ fuel := le_trans (Nat.pow_le_pow_left (by rw [hn]; omega) m) hf
  have h2 : ((toSef P).n + m) ^ m ≤ fuel := le_trans (Nat.pow_le_pow_left (by rw [hn]; omega) m) hf
  rcases hshape with hshape | h0
  · exact C45_shape_partial P hP hm (exists_nonsing_of_surj _ (sef_surj P hP hq hs)) (by rw [hn]; omega)
      h.exactSef h.exactAux fuel h1 h2 hopt
  · exact C45_inequalities_partial P hP hm hq h.exactSef h.exactAux (tried_of_origin hP hq h0) fuel h1 h2 hopt

/-! ### Bounded integer programs -/

/-- An integer program with nonnegative variables and more inequalities than variables (or equally many, and the
origin is feasible), whose rows have
denominators `r i`, whose costs have denominator `N`, with subdeterminants at most `K` and right-hand sides at most
`β`, whose feasible points lie in the box
`[0, U]ⁿ`, all of this within the precision of the tolerances. -/
structure Bounded (P : LP m n) (r : Fin m → ℕ) (N K β U : ℕ) : Prop where
  wf : WF P
  free : P.free = []
  neg : P.neg = []
  ineq : ∀ i, P.ineq i ≠ .eq
  rpos : ∀ i, 0 < r i
  npos : 0 < N
  isInt : IsInt (scaled r N P)
  subdet : SubdetLe K P.A
  rhs : ∀ i, |P.b i| ≤ β
  shape : n < m ∨ n = m ∧ 0 < m ∧ Feas P 0
  box : ∀ x, Feas P x → ∀ j, x j ≤ U
  boxLe : U ≤ β
  costs : (∏ i, r i) * K * N ≤ 10 ^ 10
  small : (((∏ i, r i) * K : ℕ) : ℚ) * (((∏ i, r i) * K : ℕ) : ℚ) / 10 ^ 8 +
    (((∏ i, r i) * K : ℕ) : ℚ) * (((∏ i, r i) * ((m + n * U) * β * K) : ℕ) : ℚ) / 10 ^ 5 < 1

theorem node_bab {G : ∀ m n : ℕ, LP m n → Prop} {β M D sf fuel : ℕ} (hG : NodeClass β M G) (I : IntProgram)
    (h : BoxNode G β M D I.prog.lp) (hsf : (I.prog.n + 2 * M) ^ M ≤ sf) (hfuel : D < fuel) :
    ∃ r, branch sf I.integral fuel I.prog = .ok r ∧ branchAndBound sf fuel I = .ok (r.map Prod.fst) := by
  obtain ⟨r, hr⟩ := h.ends (integral := I.integral) hG hsf hfuel
  refine ⟨r, hr, ?_⟩
  unfold branchAndBound
  rw [relax_eq I h.wf]
  simp only
  have : branch sf I.integral fuel I.prog = .ok r := hr
  rw [this]

theorem node_sound {G : ∀ m n : ℕ, LP m n → Prop} {β M D sf fuel : ℕ} (hG : NodeClass β M G) (I : IntProgram)
    (h : BoxNode G β M D I.prog.lp) (v : List ℚ) (hv : branchAndBound sf fuel I = .ok (some v)) :
    ∃ x : Fin I.prog.n → ℚ, v = List.ofFn x ∧ Feas I.prog.lp x ∧ Integral I.integral x := by
  obtain ⟨q, hq⟩ := bab_some h.wf hv
  obtain ⟨x, h1, h2, h3, _⟩ := branch_sound (clear := True) h.wf h.neg
    (fun R hR => by
      obtain ⟨_, D, hD⟩ := h.visits (P := I.prog) hG hR
      exact hD.exactSef hG)
    (fun _ R hR x hx j hj => by
      obtain ⟨_, D, hD⟩ := h.visits (P := I.prog) hG hR
      exact hG.clear hD.good hD.wf hD.sef_n.1 (le_trans (Nat.le_add_right _ _) hD.depth) hx j hj) hq
  exact ⟨x, h1, h2, h3 trivial⟩

theorem node_best {G : ∀ m n : ℕ, LP m n → Prop} {β M D sf fuel : ℕ} (hG : NodeClass β M G) (I : IntProgram)
    (h : BoxNode G β M D I.prog.lp) (U : ℕ) (hbox : ∀ x, Feas I.prog.lp x → ∀ j, x j ≤ U)
    (hmax : I.prog.lp.objective = .max) (hsf : (I.prog.n + 2 * M) ^ M ≤ sf) (hfuel : D < fuel) :
    (∃ x : Fin I.prog.n → ℚ, branchAndBound sf fuel I = .ok (some (List.ofFn x)) ∧
      BestIntegral I.prog.lp I.integral x) ∨
    (branchAndBound sf fuel I = .ok none ∧ ¬ ∃ x, Feas I.prog.lp x ∧ Integral I.integral x) := by
  have hvis : ∀ R, Visits sf I.integral I.prog R → NodeClear sf R.lp := by
    intro R hR
    obtain ⟨hn, D, hD⟩ := h.visits (P := I.prog) hG hR
    exact hD.clear hG (by rw [hn]; exact hsf)
  obtain ⟨r, hr, he⟩ := node_bab (fuel := fuel) hG I h hsf hfuel
  have hb := branch_best h.wf hmax ⟨h.free, h.neg⟩ hvis hr
  rw [he]
  cases r with
  | none =>
    right
    refine ⟨rfl, ?_⟩
    rintro ⟨x, hx, hi⟩
    rcases hb.2 rfl with h1 | ⟨x0, d, h1, h2, _⟩
    · exact h1 x hx hi
    · -- a ray leaves the box
      have h3 := h2 hmax
      have hd : ∀ j, d j ≤ 0 := by
        intro j
        by_contra hlt
        push Not at hlt
        have h4 := hbox _ (h1 ((|(U : ℚ) - x0 j| + 1) / d j) (by positivity)) j
        simp only [Pi.add_apply, Pi.smul_apply, smul_eq_mul] at h4
        rw [div_mul_cancel₀ _ (ne_of_gt hlt)] at h4
        have := le_abs_self ((U : ℚ) - x0 j)
        linarith
      have hd' : ∀ j, 0 ≤ d j := by
        intro j
        by_contra hlt
        push Not at hlt
        have h4 := (h1 ((|x0 j| + 1) / -d j) (by have : 0 < -d j := by linarith
                                                 positivity)).poss j (by simp [h.neg]) (by simp [h.free])
        simp only [Pi.add_apply, Pi.smul_apply, smul_eq_mul] at h4
        rw [div_neg, neg_mul, div_mul_cancel₀ _ (ne_of_lt hlt)] at h4
        have := le_abs_self (x0 j)
        linarith
      have : d = 0 := funext fun j => le_antisymm (hd j) (hd' j)
      rw [this, dotProduct_zero] at h3
      exact lt_irrefl _ h3
  | some p =>
    obtain ⟨v, q⟩ := p
    left
    obtain ⟨x, rfl, hx, _⟩ := hb.1 _ _ rfl
    exact ⟨x, rfl, hx⟩

theorem Bounded.node {P : LP m n} {r : Fin m → ℕ} {N K β U : ℕ} (h : Bounded P r N K β U) :
    BoxNode (DetClass (∏ i, r i) N K β) β (m + n * U) (n * U) P :=
  ⟨h.wf, h.free, h.neg, h.ineq, ⟨r, h.rpos, rfl, h.isInt, h.subdet, h.rhs⟩, h.shape, le_rfl, fun _ => 0, fun _ => U,
    fun x hx j => ⟨by simpa using hx.poss j (by simp [h.neg]) (by simp [h.free]), by simpa using h.box x hx j⟩,
    fun j => ⟨le_rfl, by simp, by simpa using h.boxLe⟩, by simp⟩

/-- C59 on bounded integer programs: a returned vector is feasible and integral, without tolerance. Missing: see
`C59_partial`. -/
theorem C59_bounded_partial (sf fuel : ℕ) (I : IntProgram) (r : Fin I.prog.m → ℕ) (N K β U : ℕ)
    (h : Bounded I.prog.lp r N K β U)
    (v : List ℚ) (hv : branchAndBound sf fuel I = .ok (some v)) :
    ∃ x : Fin I.prog.n → ℚ, v = List.ofFn x ∧ Feas I.prog.lp x ∧ Integral I.integral x :=
  node_sound (detClass h.npos h.costs h.small) I h.node v hv

/-- C60 on bounded maximisation programs: branch and bound ends, and it returns a best integral point, or `None`
when there is no feasible integral point. Missing: `min` (`C60_min_wrong`), other sign classes
(`C60_free_wrong`), fewer rows than columns (`C60_knapsack_wrong`), an infeasible origin with equally many
(`C60_tried_wrong`), equations, larger numbers. -/
theorem C60_bounded_partial (sf fuel : ℕ) (I : IntProgram) (r : Fin I.prog.m → ℕ) (N K β U : ℕ)
    (h : Bounded I.prog.lp r N K β U)
    (hmax : I.prog.lp.objective = .max)
    (hsf : (I.prog.n + 2 * (I.prog.m + I.prog.n * U)) ^ (I.prog.m + I.prog.n * U) ≤ sf)
    (hfuel : I.prog.n * U < fuel) :
    (∃ x : Fin I.prog.n → ℚ, branchAndBound sf fuel I = .ok (some (List.ofFn x)) ∧
      BestIntegral I.prog.lp I.integral x) ∨
    (branchAndBound sf fuel I = .ok none ∧ ¬ ∃ x, Feas I.prog.lp x ∧ Integral I.integral x) :=
  node_best (detClass h.npos h.costs h.small) I h.node U h.box hmax hsf hfuel

/-- C74 on bounded integer programs (either objective): branch and bound returns. Missing: equations, free and
nonpositive variables, fewer rows than columns, an infeasible origin with equally many; it is false in general
(`C74_loops_wrong`, `C74_raises_wrong`). -/
theorem C74_bounded_partial (sf fuel : ℕ) (I : IntProgram) (r : Fin I.prog.m → ℕ) (N K β U : ℕ)
    (h : Bounded I.prog.lp r N K β U)
    (hsf : (I.prog.n + 2 * (I.prog.m + I.prog.n * U)) ^ (I.prog.m + I.prog.n * U) ≤ sf)
    (hfuel : I.prog.n * U < fuel) : ∃ r, branchAndBound sf fuel I = .ok r := by
  obtain ⟨r, _, hr⟩ := node_bab (fuel := fuel) (detClass h.npos h.costs h.small) I h.node hsf hfuel
  exact ⟨_, hr⟩

/-! ### Two variables per row -/

/-- An integer program with more inequalities than variables (or equally many, and the origin is feasible), at most
two variables per row with coefficients `1` or `-1`, and among the rows an upper bound `k ≤ U` for every variable. Its size does not matter. -/
structure TwoPerRow (P : LP m n) (β U : ℕ) : Prop where
  wf : WF P
  rows : TwoVarLP P β U
  shape : n < m ∨ n = m ∧ 0 < m ∧ Feas P 0
  boxLe : U ≤ β
  small : β + 2 * U ≤ 12000

theorem TwoPerRow.box {P : LP m n} {β U : ℕ} (h : TwoPerRow P β U) (x : Fin n → ℚ) (hx : Feas P x) (j : Fin n) :
    x j ≤ U := by
  obtain ⟨i, h1, h2, _, h3⟩ := h.rows.box j
  have h4 := hx.rows i
  rw [h1] at h4
  have h5 : (P.A *ᵥ x) i = x j := by simp [mulVec, dotProduct, h2]
  rw [h5] at h4
  exact le_trans h4 h3

theorem TwoPerRow.node {P : LP m n} {β U : ℕ} (h : TwoPerRow P β U) :
    BoxNode (fun m n (Q : LP m n) => TwoVarLP Q β U) β (m + n * U) (n * U) P :=
  ⟨h.wf, h.rows.free, h.rows.neg, h.rows.ineq, h.rows, h.shape, le_rfl, fun _ => 0, fun _ => U,
    fun x hx j => ⟨by simpa using hx.poss j (by simp [h.rows.neg]) (by simp [h.rows.free]),
      by simpa using h.box x hx j⟩,
    fun j => ⟨le_rfl, by simp, by simpa using h.boxLe⟩, by simp⟩

/-- C59 for programs with two variables per row, of any size. Missing: see `C59_partial`. -/
theorem C59_two_partial (sf fuel : ℕ) (I : IntProgram) (β U : ℕ) (h : TwoPerRow I.prog.lp β U)
    (v : List ℚ) (hv : branchAndBound sf fuel I = .ok (some v)) :
    ∃ x : Fin I.prog.n → ℚ, v = List.ofFn x ∧ Feas I.prog.lp x ∧ Integral I.integral x :=
  node_sound (twoVarClass h.small _) I h.node v hv

/-- C60 for maximisation programs with two variables per row, of any size. Missing: see `C60_bounded_partial`. -/
theorem C60_two_partial (sf fuel : ℕ) (I : IntProgram) (β U : ℕ) (h : TwoPerRow I.prog.lp β U)
    (hmax : I.prog.lp.objective = .max)
    (hsf : (I.prog.n + 2 * (I.prog.m + I.prog.n * U)) ^ (I.prog.m + I.prog.n * U) ≤ sf)
    (hfuel : I.prog.n * U < fuel) :
    (∃ x : Fin I.prog.n → ℚ, branchAndBound sf fuel I = .ok (some (List.ofFn x)) ∧
      BestIntegral I.prog.lp I.integral x) ∨
    (branchAndBound sf fuel I = .ok none ∧ ¬ ∃ x, Feas I.prog.lp x ∧ Integral I.integral x) :=
  node_best (twoVarClass h.small _) I h.node U h.box hmax hsf hfuel

/-- C74 for programs with two variables per row, of any size and either objective. Missing: see
`C74_bounded_partial`. -/
theorem C74_two_partial (sf fuel : ℕ) (I : IntProgram) (β U : ℕ) (h : TwoPerRow I.prog.lp β U)
    (hsf : (I.prog.n + 2 * (I.prog.m + I.prog.n * U)) ^ (I.prog.m + I.prog.n * U) ≤ sf)
    (hfuel : I.prog.n * U < fuel) : ∃ r, branchAndBound sf fuel I = .ok r := by
  obtain ⟨r, _, hr⟩ := node_bab (fuel := fuel) (twoVarClass h.small _) I h.node hsf hfuel
  exact ⟨_, hr⟩

/-! ### The hypotheses are satisfiable -/

/-- Only submatrices with at most `n` columns matter. -/
theorem subdet_of_le {K : ℕ} {X : Matrix (Fin m) (Fin n) ℚ} (h : ∀ k : Fin (n + 1),
    ∀ (r : Fin k → Fin m) (s : Fin k → Fin n), |(X.submatrix r s).det| ≤ K) : SubdetLe K X := by
  intro k r s
  by_cases hk : k ≤ n
  · exact h ⟨k, by omega⟩ r s
  · have : ¬ Function.Injective s := fun hi => hk (by simpa using Fintype.card_le_of_injective s hi)
    obtain ⟨a, b, hab, hne⟩ := Function.not_injective_iff.mp this
    rw [det_zero_of_column_eq hne (by intro c; simp [hab]), abs_zero]
    exact Nat.cast_nonneg K

/-- `max 1.1 x` subject to `2 x <= 3`, `x <= 2.5`. -/
def boxSample : LP 2 1 := ⟨!![2; 1], ![3, 5 / 2], ![11 / 10], 0, .max, fun _ => .le, [], [], false⟩

theorem boxSample_bounded : Bounded boxSample (fun _ => 2) 10 2 5 2 where
  wf := ⟨by decide, by decide, by decide, by decide, by decide, by decide⟩
  free := rfl
  neg := rfl
  ineq := by intro i; simp [boxSample]
  rpos _ := by norm_num
  npos := by norm_num
  isInt := by
    refine ⟨fun i j => ?_, fun i => ?_, fun j => ?_⟩
    · exact ⟨(!![4; 2] : Matrix (Fin 2) (Fin 1) ℤ) i j, by
        fin_cases i <;> fin_cases j <;> simp [boxSample, scaled] <;> norm_num⟩
    · exact ⟨(![6, 5] : Fin 2 → ℤ) i, by fin_cases i <;> simp [boxSample, scaled] <;> norm_num⟩
    · exact ⟨(![11] : Fin 1 → ℤ) j, by fin_cases j; simp [boxSample, scaled]; norm_num⟩
  subdet := subdet_of_le (by decide +kernel)
  rhs := by decide +kernel
  shape := Or.inl (by decide)
  box := by
    intro x hx j
    have h1 := hx.rows 0
    simp [boxSample, rowHolds, Matrix.mulVec, dotProduct] at h1
    fin_cases j
    show x 0 ≤ _
    push_cast; linarith
  boxLe := by norm_num
  costs := by simp
  small := by simp; norm_num

/-- The conditions of `C60_bounded_partial` hold for a program that has to branch (its relaxation is optimal at
`3/2`), and the answer is `1`. -/
example : Bounded boxSample (fun _ => 2) 10 2 5 2 ∧ solve 100 boxSample = .ok (some [3 / 2]) ∧
    branchAndBound 100 3 ⟨⟨2, 1, boxSample⟩, none⟩ = .ok (some [1]) :=
  ⟨boxSample_bounded, by decide +kernel, by decide +kernel⟩

example : ∃ r, Decimal boxSample r 10 2 5 :=
  boxSample_bounded.node.good.decimal (M := 4) boxSample_bounded.npos boxSample_bounded.costs (by norm_num)
    boxSample_bounded.small

/-- `max 1.1 x` subject to `2 x <= 3`. -/
def squareSample : LP 1 1 := ⟨!![2], ![3], ![11 / 10], 0, .max, fun _ => .le, [], [], false⟩

theorem squareSample_bounded : Bounded squareSample (fun _ => 1) 10 2 3 2 where
  wf := ⟨by decide, by decide, by decide, by decide, by decide, by decide⟩
  free := rfl
  neg := rfl
  ineq := by intro i; simp [squareSample]
  rpos _ := by norm_num
  npos := by norm_num
  isInt := by
    refine ⟨fun i j => ⟨2, ?_⟩, fun i => ⟨3, ?_⟩, fun j => ⟨11, ?_⟩⟩
    · fin_cases i; fin_cases j; simp [squareSample, scaled]
    · fin_cases i; simp [squareSample, scaled]
    · fin_cases j; simp [squareSample, scaled]; norm_num
  subdet := subdet_of_le (by decide +kernel)
  rhs := by decide +kernel
  shape := Or.inr ⟨rfl, one_pos, fun i => by simp [squareSample, rowHolds], by simp, by simp⟩
  box := by
    intro x hx j
    have h1 := hx.rows 0
    simp [squareSample, rowHolds, Matrix.mulVec, dotProduct] at h1
    fin_cases j
    show x 0 ≤ _
    push_cast; linarith
  boxLe := by norm_num
  costs := by simp
  small := by simp; norm_num

/-- With equally many rows and columns and a feasible origin the slack column is tried first, as a feasible basis;
`C45_data_partial` and `C60_bounded_partial` apply. -/
example : Bounded squareSample (fun _ => 1) 10 2 3 2 ∧ Feas squareSample 0 ∧
    isBasis (toSef squareSample).lp (tried 1 (toSef squareSample).n) = .ok true ∧
    (∃ r, Decimal squareSample r 10 2 3) ∧ solve 100 squareSample = .ok (some [3 / 2]) ∧
    branchAndBound 100 3 ⟨⟨1, 1, squareSample⟩, none⟩ = .ok (some [1]) :=
  ⟨squareSample_bounded, ⟨fun i => by simp [squareSample, rowHolds], by simp, by simp⟩, by decide +kernel,
    squareSample_bounded.node.good.decimal (M := 3) squareSample_bounded.npos squareSample_bounded.costs (by norm_num)
      squareSample_bounded.small, by decide +kernel, by decide +kernel⟩

/-- `max x + 0.5 y` subject to `x + y <= 1`, `x - y <= 0`, `x <= 1`, `y <= 1`. -/
def twoSample : LP 4 2 :=
  ⟨!![1, 1; 1, -1; 1, 0; 0, 1], ![1, 0, 1, 1], ![1, 1 / 2], 0, .max, fun _ => .le, [], [], false⟩

theorem twoSample_two : TwoPerRow twoSample 1 1 where
  wf := ⟨by decide, by decide, by decide, by decide, by decide, by decide⟩
  shape := Or.inl (by norm_num)
  boxLe := le_rfl
  small := by norm_num
  rows :=
    { free := rfl
      neg := rfl
      ineq := by decide
      costs := ⟨2, by norm_num, by norm_num,
        fun i => ⟨(![2, 1] : Fin 2 → ℤ) i, by fin_cases i <;> simp [twoSample]⟩⟩
      rhsInt := fun i => ⟨(![1, 0, 1, 1] : Fin 4 → ℤ) i, by fin_cases i <;> simp [twoSample]⟩
      rhs := by intro i; fin_cases i <;> simp [twoSample]
      sign := by intro i j; fin_cases i <;> fin_cases j <;> simp [twoSample]
      two := fun i => le_trans (Finset.card_le_univ _) (by simp)
      box := by
        intro j
        fin_cases j
        · refine ⟨2, rfl, ?_, by simp [twoSample], by simp [twoSample]⟩
          intro k; fin_cases k <;> simp [twoSample]
        · refine ⟨3, rfl, ?_, by simp [twoSample], by simp [twoSample]⟩
          intro k; fin_cases k <;> simp [twoSample] }

/-- The conditions of `C60_two_partial` hold for a program whose relaxation is optimal at `(1/2, 1/2)`, so that it
has to branch. -/
example : TwoPerRow twoSample 1 1 ∧ solve 100 twoSample = .ok (some [1 / 2, 1 / 2]) :=
  ⟨twoSample_two, by decide +kernel⟩

end Props
end Pytimize
