/-
C143: how the answer of branch and bound changes when the integer program changes.
-/
import Verif.Props.IntegerBox
import Verif.Props.ProgramChange

namespace Pytimize
namespace Props
open LinProg Matrix

variable {m n : ℕ}

/-- The integer programs of `C60_bounded_partial` and `C60_two_partial`: maximisation of one of the two kinds, with
enough steps. -/
def Searchable (sf fuel : ℕ) (P : LP m n) : Prop :=
  P.objective = .max ∧
    ((∃ (r : Fin m → ℕ) (N K β U : ℕ), Bounded P r N K β U ∧ (n + 2 * (m + n * U)) ^ (m + n * U) ≤ sf ∧ n * U < fuel) ∨
      ∃ β U : ℕ, TwoPerRow P β U ∧ (n + 2 * (m + n * U)) ^ (m + n * U) ≤ sf ∧ n * U < fuel)

theorem Searchable.wf {sf fuel : ℕ} {P : LP m n} (h : Searchable sf fuel P) : WF P := by
  rcases h.2 with ⟨_, _, _, _, _, h, _⟩ | ⟨_, _, h, _⟩ <;> exact h.wf

/-- What is found. -/
theorem Searchable.answer {sf fuel : ℕ} {P : LP m n} (h : Searchable sf fuel P) (ι : Option (List ℤ)) :
    (∃ x : Fin n → ℚ, branchAndBound sf fuel ⟨⟨m, n, P⟩, ι⟩ = .ok (some (List.ofFn x)) ∧ BestIntegral P ι x) ∨
    (branchAndBound sf fuel ⟨⟨m, n, P⟩, ι⟩ = .ok none ∧ ¬ ∃ x, Feas P x ∧ Integral ι x) := by
  rcases h.2 with ⟨r, N, K, β, U, hb, h1, h2⟩ | ⟨β, U, hb, h1, h2⟩
  · exact C60_bounded_partial sf fuel ⟨⟨m, n, P⟩, ι⟩ r N K β U hb h.1 h1 h2
  · exact C60_two_partial sf fuel ⟨⟨m, n, P⟩, ι⟩ β U hb h.1 h1 h2

/-- The value of an answer: that of the vector, or nothing if there is none. -/
def answerValue (P : LP m n) (r : Except PyErr (Option (List ℚ))) : Option ℚ :=
  match r with
  | .ok (some v) => (evaluate P v).toOption
  | _ => none

/-- `a` is at most `b`, where no value is less than every value. -/
def AtMost : Option ℚ → Option ℚ → Prop
  | none, _ => True
  | some _, none => False
  | some a, some b => a ≤ b

/-- The larger of two values, where no value is less than every value. -/
def larger : Option ℚ → Option ℚ → Option ℚ
  | none, b => b
  | a, none => a
  | some a, some b => some (max a b)

theorem answerValue_some (P : LP m n) (x : Fin n → ℚ) : answerValue P (.ok (some (List.ofFn x))) = some (objVal P x) := by
  simp only [answerValue, evaluate, toVec_ofFn]; rfl

theorem AtMost.antisymm {a b : Option ℚ} (h : AtMost a b) (h' : AtMost b a) : a = b := by
  cases a <;> cases b <;> simp_all [AtMost]
  exact le_antisymm h h'

/-- If every integral point of `Q` is one of `P`, of no larger objective, nothing better is found for `Q`. -/
theorem found_le {m' n' : ℕ} {sf fuel sf' fuel' : ℕ} {P : LP m n} {Q : LP m' n'} (hP : Searchable sf fuel P)
    (hQ : Searchable sf' fuel' Q) {ι ι' : Option (List ℤ)}
    (h : ∀ y, Feas Q y → Integral ι' y → ∃ x, Feas P x ∧ Integral ι x ∧ objVal Q y ≤ objVal P x) :
    AtMost (answerValue Q (branchAndBound sf' fuel' ⟨⟨m', n', Q⟩, ι'⟩))
      (answerValue P (branchAndBound sf fuel ⟨⟨m, n, P⟩, ι⟩)) := by
  rcases hQ.answer ι' with ⟨y, hy, hby⟩ | ⟨hy, -⟩
  · obtain ⟨x, hx1, hx2, hx3⟩ := h y hby.1 hby.2.1
    rcases hP.answer ι with ⟨x', hx', hb⟩ | ⟨-, hb⟩
    · rw [hy, hx', answerValue_some, answerValue_some]
      exact le_trans hx3 ((hb.2.2 x hx1 hx2).1 hP.1)
    · exact (hb ⟨x, hx1, hx2⟩).elim
  · rw [hy]
    exact trivial

/-! ### The properties -/

/-- C143, `add_constraint`: nothing better is found, and the same value if what was found before satisfies the new
constraint. Missing: the programs for which branch and bound is wrong (C60). -/
theorem C143_constraint_partial (sf fuel sf' fuel' : ℕ) (P : LP m n) (a : Fin n → ℚ) (q : Ineq) (v : ℚ)
    (Q : LP (m + 1) n) (hQ : addConstraint P (List.ofFn a) q.sym v = .ok Q) (ι : Option (List ℤ))
    (hs : Searchable sf fuel P) (hs' : Searchable sf' fuel' Q) :
    AtMost (answerValue Q (branchAndBound sf' fuel' ⟨⟨m + 1, n, Q⟩, ι⟩))
      (answerValue P (branchAndBound sf fuel ⟨⟨m, n, P⟩, ι⟩)) ∧
    ∀ x : Fin n → ℚ, branchAndBound sf fuel ⟨⟨m, n, P⟩, ι⟩ = .ok (some (List.ofFn x)) →
      rowHolds q (∑ j, a j * x j) v →
      answerValue Q (branchAndBound sf' fuel' ⟨⟨m + 1, n, Q⟩, ι⟩) = some (objVal P x) := by
  obtain ⟨Q', hQ', hf, hv, ho, -, -⟩ := C29_intersect P a q v
  obtain rfl : Q' = Q := by rw [hQ] at hQ'; exact (Except.ok.inj hQ').symm
  have h1 := found_le hs hs' (ι := ι) (ι' := ι) fun y hy hi => ⟨y, ((hf y).mp hy).1, hi, (hv y).le⟩
  refine ⟨h1, fun x hx hrow => ?_⟩
  rcases hs.answer ι with ⟨x', hx', hb⟩ | ⟨hn, -⟩
  swap
  · rw [hn] at hx; cases hx
  rw [hx'] at hx
  obtain rfl := List.ofFn_injective (Option.some.inj (Except.ok.inj hx))
  rw [hx', answerValue_some] at h1
  refine h1.antisymm ?_
  rcases hs'.answer ι with ⟨y, hy, hby⟩ | ⟨-, hno⟩
  · rw [hy, answerValue_some, ← hv]
    exact (hby.2.2 x' ((hf _).mpr ⟨hb.1, hrow⟩) hb.2.1).1 hs'.1
  · exact (hno ⟨x', (hf _).mpr ⟨hb.1, hrow⟩, hb.2.1⟩).elim

/-- C143, integrality: if more variables have to be integral, nothing better is found, and the same value if what was
found before is integral there. -/
theorem C143_integral_partial (sf fuel sf' fuel' : ℕ) (P : LP m n) (ι ι' : Option (List ℤ))
    (hι : ∀ j : Fin n, Required ι j → Required ι' j) (hs : Searchable sf fuel P) (hs' : Searchable sf' fuel' P) :
    AtMost (answerValue P (branchAndBound sf' fuel' ⟨⟨m, n, P⟩, ι'⟩))
      (answerValue P (branchAndBound sf fuel ⟨⟨m, n, P⟩, ι⟩)) ∧
    ∀ x : Fin n → ℚ, branchAndBound sf fuel ⟨⟨m, n, P⟩, ι⟩ = .ok (some (List.ofFn x)) → Integral ι' x →
      answerValue P (branchAndBound sf' fuel' ⟨⟨m, n, P⟩, ι'⟩) = some (objVal P x) := by
  have h1 := found_le hs hs' (ι := ι) (ι' := ι') fun y hy hi => ⟨y, hy, fun j hj => hi j (hι j hj), le_rfl⟩
  refine ⟨h1, fun x hx hint => ?_⟩
  rcases hs.answer ι with ⟨x', hx', hb⟩ | ⟨hn, -⟩
  swap
  · rw [hn] at hx; cases hx
  rw [hx'] at hx
  obtain rfl := List.ofFn_injective (Option.some.inj (Except.ok.inj hx))
  rw [hx', answerValue_some] at h1
  refine h1.antisymm ?_
  rcases hs'.answer ι' with ⟨y, hy, hby⟩ | ⟨-, hno⟩
  · rw [hy, answerValue_some]
    exact (hby.2.2 x' hb.1 hint).1 hs'.1
  · exact (hno ⟨x', hb.1, hint⟩).elim

/-- C143, right-hand sides: with larger bounds above and smaller bounds below, nothing worse is found. -/
theorem C143_rhs_partial (sf fuel sf' fuel' : ℕ) (P : LP m n) (b' : Fin m → ℚ) (ι : Option (List ℤ))
    (hle : ∀ i, P.ineq i = .le → P.b i ≤ b' i) (hge : ∀ i, P.ineq i = .ge → b' i ≤ P.b i)
    (heq : ∀ i, P.ineq i = .eq → b' i = P.b i)
    (hs : Searchable sf fuel P) (hs' : Searchable sf' fuel' { P with b := b' }) :
    AtMost (answerValue P (branchAndBound sf fuel ⟨⟨m, n, P⟩, ι⟩))
      (answerValue { P with b := b' } (branchAndBound sf' fuel' ⟨⟨m, n, { P with b := b' }⟩, ι⟩)) := by
  refine found_le hs' hs fun y hy hi => ⟨y, ⟨fun i => ?_, hy.negs, hy.poss⟩, hi, le_rfl⟩
  have h1 := hy.rows i
  show rowHolds (P.ineq i) ((P.A *ᵥ y) i) (b' i)
  cases hq : P.ineq i with
  | le => rw [hq] at h1; exact le_trans h1 (hle i hq)
  | ge => rw [hq] at h1; exact le_trans (hge i hq) h1
  | eq => rw [hq] at h1; rw [heq i hq]; exact h1

/-- C143, costs: with other costs, what is found is at least as good as what was found before, and a vector is found
iff one was found before. -/
theorem C143_cost_partial (sf fuel sf' fuel' : ℕ) (P : LP m n) (c' : Fin n → ℚ) (z' : ℚ) (ι : Option (List ℤ))
    (hs : Searchable sf fuel P) (hs' : Searchable sf' fuel' { P with c := c', z := z' }) :
    (branchAndBound sf fuel ⟨⟨m, n, P⟩, ι⟩ = .ok none ↔
      branchAndBound sf' fuel' ⟨⟨m, n, { P with c := c', z := z' }⟩, ι⟩ = .ok none) ∧
    ∀ x y : Fin n → ℚ, branchAndBound sf fuel ⟨⟨m, n, P⟩, ι⟩ = .ok (some (List.ofFn x)) →
      branchAndBound sf' fuel' ⟨⟨m, n, { P with c := c', z := z' }⟩, ι⟩ = .ok (some (List.ofFn y)) →
      c' ⬝ᵥ x ≤ c' ⬝ᵥ y ∧ P.c ⬝ᵥ y ≤ P.c ⬝ᵥ x := by
  have hf : ∀ x, Feas { P with c := c', z := z' } x ↔ Feas P x := fun x =>
    ⟨fun h => ⟨h.rows, h.negs, h.poss⟩, fun h => ⟨h.rows, h.negs, h.poss⟩⟩
  rcases hs.answer ι with ⟨x, hx, hbx⟩ | ⟨hx, hnx⟩ <;> rcases hs'.answer ι with ⟨y, hy, hby⟩ | ⟨hy, hny⟩
  · refine ⟨by rw [hx, hy]; simp, fun x' y' hx' hy' => ?_⟩
    rw [hx] at hx'
    rw [hy] at hy'
    obtain rfl := List.ofFn_injective (Option.some.inj (Except.ok.inj hx'))
    obtain rfl := List.ofFn_injective (Option.some.inj (Except.ok.inj hy'))
    have h1 := (hbx.2.2 y ((hf y).mp hby.1) hby.2.1).1 hs.1
    have h2 := (hby.2.2 x ((hf x).mpr hbx.1) hbx.2.1).1 hs'.1
    simp only [objVal] at h1 h2
    exact ⟨by linarith, by linarith⟩
  · exact (hny ⟨x, (hf x).mpr hbx.1, hbx.2.1⟩).elim
  · exact (hnx ⟨y, (hf y).mp hby.1, hby.2.1⟩).elim
  · refine ⟨by rw [hx, hy], fun x' y' hx' => ?_⟩
    rw [hx] at hx'; cases hx'

/-- C143, splitting: for a variable that has to be integral and an integer `k`, the value found is the larger one of
those found with the additional constraint `x_j <= k` and with `x_j >= k + 1`. -/
theorem C143_split_partial (sf fuel sf₁ fuel₁ sf₂ fuel₂ : ℕ) (P : LP m n) (ι : Option (List ℤ)) (j : Fin n)
    (hj : Required ι j) (k : ℤ) (lo hi : LP (m + 1) n)
    (hlo : addConstraint P (List.ofFn fun i => if i = j then 1 else 0) Ineq.le.sym k = .ok lo)
    (hhi : addConstraint P (List.ofFn fun i => if i = j then 1 else 0) Ineq.ge.sym (k + 1) = .ok hi)
    (hs : Searchable sf fuel P) (hs₁ : Searchable sf₁ fuel₁ lo) (hs₂ : Searchable sf₂ fuel₂ hi) :
    answerValue P (branchAndBound sf fuel ⟨⟨m, n, P⟩, ι⟩) =
      larger (answerValue lo (branchAndBound sf₁ fuel₁ ⟨⟨m + 1, n, lo⟩, ι⟩))
        (answerValue hi (branchAndBound sf₂ fuel₂ ⟨⟨m + 1, n, hi⟩, ι⟩)) := by
  obtain ⟨l1, l2⟩ := C143_constraint_partial sf fuel sf₁ fuel₁ P _ .le k lo hlo ι hs hs₁
  obtain ⟨u1, u2⟩ := C143_constraint_partial sf fuel sf₂ fuel₂ P _ .ge (k + 1) hi hhi ι hs hs₂
  rcases hs.answer ι with ⟨x, hx, hb⟩ | ⟨hx, hno⟩
  · rw [hx, answerValue_some] at l1 u1 ⊢
    obtain ⟨z, hz⟩ := hb.2.1 j hj
    have hsum : ∑ i, (if i = j then (1 : ℚ) else 0) * x i = z := by simp [hz]
    rcases le_or_gt z k with hzk | hzk
    · rw [l2 x hx (by rw [hsum]; show (z : ℚ) ≤ k; exact_mod_cast hzk)]
      generalize answerValue hi _ = u at u1
      cases u with
      | none => rfl
      | some u => simp only [larger]; rw [max_eq_left (show u ≤ objVal P x from u1)]
    · rw [u2 x hx (by rw [hsum]; show (k : ℚ) + 1 ≤ z; exact_mod_cast hzk)]
      generalize answerValue lo _ = u at l1
      cases u with
      | none => rfl
      | some u => simp only [larger]; rw [max_eq_right (show u ≤ objVal P x from l1)]
  · rw [hx] at l1 u1 ⊢
    have none_of : ∀ a, AtMost a (answerValue P (.ok none)) → a = none := by
      intro a ha
      cases a with
      | none => rfl
      | some a => exact ha.elim
    rw [none_of _ l1, none_of _ u1]
    rfl

/-- C143, rounding: if all variables have to be integral and all costs are integers, the value found is an integer plus
the constant of the objective, so it is at most the value of the relaxation rounded down. -/
theorem C143_floor_partial (sf fuel fuel' : ℕ) (P : LP m n) (hc : ∀ j, ∃ k : ℤ, P.c j = k)
    (hs : Searchable sf fuel P) (r : Fin m → ℕ) (N K β : ℕ) (h : Decimal P r N K β) (p : ℚ)
    (hp : optimalValue fuel' P = .ok (some p)) :
    AtMost (answerValue P (branchAndBound sf fuel ⟨⟨m, n, P⟩, none⟩)) (some (⌊p - P.z⌋ + P.z)) := by
  rcases hs.answer none with ⟨x, hx, hb⟩ | ⟨hx, -⟩
  · rw [hx, answerValue_some]
    have h1 := ((value_spec hs.wf h hp).2 x hb.1).1 hs.1
    choose k hk using hc
    choose l hl using fun j => hb.2.1 j (fun _ h => by cases h)
    have e : P.c ⬝ᵥ x = ((∑ j, k j * l j : ℤ) : ℚ) := by
      simp only [dotProduct, hk, hl]
      push_cast
      rfl
    have h2 : (∑ j, k j * l j : ℤ) ≤ ⌊p - P.z⌋ := by
      rw [Int.le_floor, ← e]
      simp only [objVal] at h1
      linarith
    have h3 : ((∑ j, k j * l j : ℤ) : ℚ) ≤ ⌊p - P.z⌋ := by exact_mod_cast h2
    show objVal P x ≤ _
    simp only [objVal, e]
    linarith
  · rw [hx]
    exact trivial

/-! ### Where it fails -/

/-- C143 is false for `min`: with the additional constraint `x_1 >= 2` a better vector is found than without. -/
theorem C143_min_wrong : ∃ Q, addConstraint minBadLp (List.ofFn ![1, 0]) Ineq.ge.sym 2 = .ok Q ∧
    minBadLp.objective = .min ∧ answerValue minBadLp (branchAndBound 1000 6 minBad) = some (-21) ∧
    answerValue Q (branchAndBound 1000 6 ⟨⟨3, 2, Q⟩, none⟩) = some (-22) := by
  refine ⟨_, rfl, rfl, by decide +kernel, by decide +kernel⟩

/-- C143 is false for `max` when `solve` gives up on a node: with the additional constraint `x_1 <= 0` the knapsack
problem gets a better answer than without. -/
theorem C143_knapsack_wrong : ∃ Q, addConstraint knapsackLp (List.ofFn ![1, 0, 0]) Ineq.le.sym 0 = .ok Q ∧
    knapsackLp.objective = .max ∧ answerValue knapsackLp (branchAndBound 200 6 knapsack) = some 14 ∧
    answerValue Q (branchAndBound 200 6 ⟨⟨2, 3, Q⟩, none⟩) = some 20 := by
  refine ⟨_, rfl, rfl, by decide +kernel, by decide +kernel⟩
/-! ### The hypotheses are satisfiable -/

/-- `boxSample` with one more constraint on its variable. -/
def cutSample (q : Ineq) (k : ℕ) : LP 3 1 :=
  ⟨!![2; 1; 1], ![3, 5 / 2, k], ![11 / 10], 0, .max, ![.le, .le, q], [], [], false⟩

theorem cutSample_bounded {q : Ineq} (hq : q ≠ .eq) {k : ℕ} (hk : k ≤ 5) :
    Bounded (cutSample q k) (fun i => ![1, 2, 1] i) 10 2 5 2 where
  wf := ⟨by simp [cutSample], by simp [cutSample], by simp [cutSample], by simp [cutSample], by simp [cutSample],
    by simp [cutSample, sefFlag, Fin.forall_fin_succ]⟩
  free := rfl
  neg := rfl
  ineq := by intro i; fin_cases i <;> simp [cutSample, hq]
  rpos i := by fin_cases i <;> simp
  npos := by norm_num
  isInt := by
    refine ⟨fun i j => ?_, fun i => ?_, fun j => ?_⟩
    · exact ⟨(!![2; 2; 1] : Matrix (Fin 3) (Fin 1) ℤ) i j, by
        fin_cases i <;> fin_cases j <;> simp [cutSample, scaled]⟩
    · exact ⟨(![3, 5, (k : ℤ)] : Fin 3 → ℤ) i, by fin_cases i <;> simp [cutSample, scaled]; norm_num⟩
    · exact ⟨(![11] : Fin 1 → ℤ) j, by fin_cases j; simp [cutSample, scaled]; norm_num⟩
  subdet := subdet_of_le (show ∀ k : Fin 2, ∀ (r : Fin k → Fin 3) (s : Fin k → Fin 1),
    |((!![2; 1; 1] : Matrix (Fin 3) (Fin 1) ℚ).submatrix r s).det| ≤ (2 : ℕ) by decide +kernel)
  rhs i := by
    have : (k : ℚ) ≤ 5 := by exact_mod_cast hk
    fin_cases i <;> simp [cutSample, abs_of_pos]
    · norm_num [abs_div]
    · exact hk
  shape := Or.inl (by decide)
  box := by
    intro x hx j
    have h1 := hx.rows 0
    simp [cutSample, rowHolds, Matrix.mulVec, dotProduct] at h1
    fin_cases j
    show x 0 ≤ _
    push_cast; linarith
  boxLe := by norm_num
  costs := by simp [Fin.prod_univ_three]
  small := by simp [Fin.prod_univ_three]; norm_num

/-- The conditions of `C143_split_partial` hold for `max 1.1 x` subject to `2 x <= 3`, `x <= 2.5`, split at 1. -/
example : ∃ lo hi, addConstraint boxSample (List.ofFn fun i : Fin 1 => if i = 0 then 1 else 0) Ineq.le.sym (1 : ℤ) = .ok lo ∧
    addConstraint boxSample (List.ofFn fun i : Fin 1 => if i = 0 then 1 else 0) Ineq.ge.sym ((1 : ℤ) + 1) = .ok hi ∧
    Required none (0 : Fin 1) ∧ Searchable (9 ^ 4) 3 boxSample ∧ Searchable (11 ^ 5) 3 lo ∧
    Searchable (11 ^ 5) 3 hi ∧ answerValue boxSample (branchAndBound 100 3 ⟨⟨2, 1, boxSample⟩, none⟩) = some (11 / 10) ∧
    answerValue lo (branchAndBound 100 3 ⟨⟨3, 1, lo⟩, none⟩) = some (11 / 10) ∧
    answerValue hi (branchAndBound 100 3 ⟨⟨3, 1, hi⟩, none⟩) = none := by
  have e1 : addConstraint boxSample (List.ofFn fun i : Fin 1 => if i = 0 then 1 else 0) Ineq.le.sym (1 : ℤ) =
      .ok (cutSample .le 1) := by
    refine congrArg Except.ok (LP.mk.injEq .. |>.mpr ⟨?_, ?_, ?_, rfl, rfl, ?_, rfl, rfl, rfl⟩)
    · funext i j; fin_cases i <;> fin_cases j <;> rfl
    · funext i; fin_cases i <;> simp [boxSample]
    · rfl
    · funext i; fin_cases i <;> rfl
  have e2 : addConstraint boxSample (List.ofFn fun i : Fin 1 => if i = 0 then 1 else 0) Ineq.ge.sym ((1 : ℤ) + 1) =
      .ok (cutSample .ge 2) := by
    refine congrArg Except.ok (LP.mk.injEq .. |>.mpr ⟨?_, ?_, ?_, rfl, rfl, ?_, rfl, rfl, rfl⟩)
    · funext i j; fin_cases i <;> fin_cases j <;> rfl
    · funext i; fin_cases i <;> simp [boxSample]; norm_num
    · rfl
    · funext i; fin_cases i <;> rfl
  refine ⟨_, _, e1, e2, (fun _ h => by cases h), ⟨rfl, Or.inl ⟨_, _, _, _, _, boxSample_bounded, le_rfl, by norm_num⟩⟩,
    ⟨rfl, Or.inl ⟨_, _, _, _, _, cutSample_bounded (by simp) (by norm_num), le_rfl, by norm_num⟩⟩,
    ⟨rfl, Or.inl ⟨_, _, _, _, _, cutSample_bounded (by simp) (by norm_num), le_rfl, by norm_num⟩⟩,
    by decide +kernel, by decide +kernel, by decide +kernel⟩

/-- A larger bound, as in `C143_rhs_partial`. -/
example : Searchable (11 ^ 5) 3 (cutSample .le 1) ∧
    Searchable (11 ^ 5) 3 { cutSample .le 1 with b := ![3, 5 / 2, (2 : ℕ)] } :=
  ⟨⟨rfl, Or.inl ⟨_, _, _, _, _, cutSample_bounded (by simp) (by norm_num), le_rfl, by norm_num⟩⟩,
    ⟨rfl, Or.inl ⟨_, _, _, _, _, cutSample_bounded (q := .le) (k := 2) (by simp) (by norm_num), le_rfl, by norm_num⟩⟩⟩

/-- `twoSample` with integral costs. -/
def pairSample : LP 4 2 := { twoSample with c := ![2, 1] }

theorem pairSample_two : TwoPerRow pairSample 1 1 where
  wf := ⟨by decide, by decide, by decide, by decide, by decide, by decide⟩
  shape := twoSample_two.shape.imp_right fun h => ⟨h.1, h.2.1, ⟨h.2.2.rows, h.2.2.negs, h.2.2.poss⟩⟩
  boxLe := le_rfl
  small := by norm_num
  rows := { twoSample_two.rows with
    costs := ⟨1, by norm_num, by norm_num,
      fun i => ⟨(![2, 1] : Fin 2 → ℤ) i, by fin_cases i <;> simp [pairSample]⟩⟩ }

/-- Other costs, as in `C143_cost_partial`. -/
example : Searchable (14 ^ 6) 3 twoSample ∧ Searchable (14 ^ 6) 3 { twoSample with c := ![2, 1], z := 0 } :=
  ⟨⟨rfl, Or.inr ⟨1, 1, twoSample_two, by norm_num, by norm_num⟩⟩,
    ⟨rfl, Or.inr ⟨1, 1, pairSample_two, by norm_num, by norm_num⟩⟩⟩

theorem pairSample_subdet : SubdetLe 2 pairSample.A :=
  subdet_of_le (show ∀ k : Fin 3, ∀ (r : Fin k → Fin 4) (s : Fin k → Fin 2),
    |((!![1, 1; 1, -1; 1, 0; 0, 1] : Matrix (Fin 4) (Fin 2) ℚ).submatrix r s).det| ≤ (2 : ℕ) by decide +kernel)

/-- Costs that are integers, as in `C143_floor_partial`. The relaxation is optimal at `(1/2, 1/2)`, so
that the vector found has at most the value 1. -/
example : (∀ j, ∃ k : ℤ, pairSample.c j = k) ∧ Decimal pairSample (fun _ => 1) 1 2 1 := by
  refine ⟨fun i => ⟨(![2, 1] : Fin 2 → ℤ) i, by fin_cases i <;> simp [pairSample]⟩, Moderate.decimal
    { isInt := ⟨fun i j => ⟨(!![1, 1; 1, -1; 1, 0; 0, 1] : Matrix (Fin 4) (Fin 2) ℤ) i j, by
          fin_cases i <;> fin_cases j <;> simp [pairSample, twoSample]⟩,
        fun i => ⟨(![1, 0, 1, 1] : Fin 4 → ℤ) i, by fin_cases i <;> simp [pairSample, twoSample]⟩,
        fun j => ⟨(![2, 1] : Fin 2 → ℤ) j, by fin_cases j <;> simp [pairSample]⟩⟩
      subdet := pairSample_subdet
      rhs := by decide +kernel
      small := by norm_num }⟩

end Props
end Pytimize
