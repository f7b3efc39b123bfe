/-
Properties C90-C93: the step log.
-/
import Verif.LP.StepsProof
import Verif.Props.Format
import Verif.Props.LinearBasis
import Verif.LP.SimplexAnswer

namespace Pytimize
namespace Props
open LinProg Comparator

variable {m n : ℕ}

/-! ### C90: recording steps does not change answers -/

/-- C90: with and without steps, and whatever was recorded before, the methods return (or raise) the same, namely
what the model without log says. -/
theorem C90_same (hm : m ≠ 0) (T : Texts) (P : LP m n) (b : Bool) (s : List Step) :
    (∀ x, (isFeasibleRec T b P x s).1 = isFeasible P x) ∧
    (∀ x basis, (isBasicSolutionRec T b P x basis s).1 = isBasicSolution P x basis) ∧
    (∀ basis, (toCanonicalFormRec T b P basis s).1 = toCanonicalForm P basis) ∧
    (toSefRec T b P s).1 = .ok (toSef P) ∧
    (∀ basis, (simplexIterationRec T b P basis s).1 = simplexIteration P basis) ∧
    (∀ fuel basis, (simplexRec T fuel b P basis s).1 = simplex fuel P basis) ∧
    (∀ fuel, (twoPhaseRec T fuel b P s).1 = twoPhase fuel P) ∧
    (∀ fuel, (solveRec T fuel b P s).1 = solve fuel P) := by
  refine ⟨fun x => ?_, fun x basis => ?_, fun basis => ?_, ?_, fun basis => ?_, fun fuel basis => ?_, fun fuel => ?_,
    fun fuel => ?_⟩
  · obtain ⟨l, hl⟩ := isFeasibleRec_result T b P x
    rw [hl s]
  · obtain ⟨l, hl⟩ := isBasicSolutionRec_result T b P x basis
    rw [hl s]
  · obtain ⟨l, hl⟩ := toCanonicalFormRec_result T b P basis
    rw [hl s]
  · rw [toSefRec_acts T b P s]
  · obtain ⟨l, hl⟩ := simplexIterationRec_result T b P basis
    rw [hl s]
  · obtain ⟨Cs, -, hCs⟩ := simplexRec_eq hm T fuel b P basis
    rw [hCs s]
  · obtain ⟨l, hl⟩ := twoPhaseRec_eq hm T fuel b P
    rw [hl s]
  · obtain ⟨l, hl⟩ := solveRec_eq hm T fuel b P
    rw [hl s]

/-- `max x` subject to `x = 1` and `x >= 0`, in SEF. -/
def stepSample : LP 1 1 :=
  { A := fun _ _ => 1, b := fun _ => 1, c := fun _ => 1, z := 0, objective := .max, ineq := fun _ => .eq, free := [],
    neg := [], isSef := true }

/-- A program without constraints, in SEF. -/
def stepNoRows : LP 0 1 :=
  { A := fun i => i.elim0, b := fun i => i.elim0, c := fun _ => -1, z := 0, objective := .max, ineq := fun i => i.elim0,
    free := [], neg := [], isSef := true }

/-- A program without constraints: `simplex` raises in both cases, but `UnboundLocalError` with steps and
`ValueError` without. -/
theorem C90_norows (T : Texts) : (simplexRec T 1 false stepNoRows [] []).1.1 = .error .valueError ∧
    (simplexRec T 1 true stepNoRows [] []).1.1 = .error .unboundLocalError :=
  ⟨by with_unfolding_all rfl, by with_unfolding_all rfl⟩

/-! ### C91: the flag `show_steps` -/

/-- C91, partial: without `show_steps` nothing is recorded, and with it the steps recorded before are kept and new
ones put behind them. Missing: `solve`, for which the flag has no effect (`C91_solve`, `C91_wrong`). -/
theorem C91_flag_partial (hm : m ≠ 0) (T : Texts) (P : LP m n) (s : List Step) :
    (∀ x, (isFeasibleRec T false P x s).2 = s ∧ s <+: (isFeasibleRec T true P x s).2) ∧
    (∀ x basis, (isBasicSolutionRec T false P x basis s).2 = s ∧ s <+: (isBasicSolutionRec T true P x basis s).2) ∧
    (∀ basis, (toCanonicalFormRec T false P basis s).2 = s ∧ s <+: (toCanonicalFormRec T true P basis s).2) ∧
    ((toSefRec T false P s).2 = s ∧ s <+: (toSefRec T true P s).2) ∧
    (∀ basis, (simplexIterationRec T false P basis s).2 = s ∧ s <+: (simplexIterationRec T true P basis s).2) ∧
    (∀ fuel basis, (simplexRec T fuel false P basis s).2 = s ∧ s <+: (simplexRec T fuel true P basis s).2) ∧
    (∀ fuel, (twoPhaseRec T fuel false P s).2 = s ∧ s <+: (twoPhaseRec T fuel true P s).2) := by
  have hf : ∀ l, s ++ record false l = s := fun l => by simp [record]
  refine ⟨fun x => ⟨?_, ?_⟩, fun x basis => ⟨?_, ?_⟩, fun basis => ⟨?_, ?_⟩, ⟨?_, ?_⟩, fun basis => ⟨?_, ?_⟩,
    fun fuel basis => ⟨?_, ?_⟩, fun fuel => ⟨?_, ?_⟩⟩
  · obtain ⟨l, hl⟩ := isFeasibleRec_result T false P x
    rw [hl s, hf]
  · obtain ⟨l, hl⟩ := isFeasibleRec_result T true P x
    rw [hl s]
    exact List.prefix_append _ _
  · obtain ⟨l, hl⟩ := isBasicSolutionRec_result T false P x basis
    rw [hl s, hf]
  · obtain ⟨l, hl⟩ := isBasicSolutionRec_result T true P x basis
    rw [hl s]
    exact List.prefix_append _ _
  · obtain ⟨l, hl⟩ := toCanonicalFormRec_result T false P basis
    rw [hl s, hf]
  · obtain ⟨l, hl⟩ := toCanonicalFormRec_result T true P basis
    rw [hl s]
    exact List.prefix_append _ _
  · rw [toSefRec_acts T false P s, hf]
  · rw [toSefRec_acts T true P s]
    exact List.prefix_append _ _
  · obtain ⟨l, hl⟩ := simplexIterationRec_result T false P basis
    rw [hl s, hf]
  · obtain ⟨l, hl⟩ := simplexIterationRec_result T true P basis
    rw [hl s]
    exact List.prefix_append _ _
  · obtain ⟨Cs, -, hCs⟩ := simplexRec_eq hm T fuel false P basis
    rw [hCs s, hf]
  · obtain ⟨Cs, -, hCs⟩ := simplexRec_eq hm T fuel true P basis
    rw [hCs s]
    exact List.prefix_append _ _
  · obtain ⟨l, hl⟩ := twoPhaseRec_eq hm T fuel false P
    rw [hl s, hf]
  · obtain ⟨l, hl⟩ := twoPhaseRec_eq hm T fuel true P
    rw [hl s]
    exact List.prefix_append _ _

/-- C91 is false for `solve`: it records the same with and without `show_steps`, and nothing for a program that is
not in SEF. -/
theorem C91_solve (hm : m ≠ 0) (T : Texts) (fuel : ℕ) (P : LP m n) (s : List Step) :
    (solveRec T fuel true P s).2 = (solveRec T fuel false P s).2 ∧ (P.isSef = false → (solveRec T fuel true P s).2 = s) := by
  constructor
  · unfold solveRec
    by_cases hs : P.isSef = true
    · simp only [if_pos hs]
    · simp only [if_neg hs]
      rw [toSefRec_acts T true P s, toSefRec_acts T false P s]
  · intro hs
    obtain ⟨l, hl⟩ := solveRec_eq hm T fuel true P
    rw [hl s, hs]
    simp

theorem twoPhase_of_solve {P : LP m n} (hs : P.isSef = true) {fuel : ℕ} {x : List ℚ} (h : solve fuel P = .ok (some x)) :
    ∃ v l y, (twoPhase fuel P).1 = .ok (.optimal v l y) ∧ x = List.ofFn v := by
  unfold solve at h
  rw [if_pos hs] at h
  generalize (twoPhase fuel P).1 = r at h ⊢
  rcases r with e | (⟨v, l, y⟩ | _ | _)
  · cases h
  · refine ⟨v, l, y, rfl, ?_⟩
    simp only [Answer.solution, Option.map_some] at h
    exact (Option.some.inj (Except.ok.inj h)).symm
  · simp [Answer.solution] at h
  · simp [Answer.solution] at h

/-- C91 is false: whenever `solve` of a program in SEF returns a solution, it has recorded steps also with
`show_steps=False`. -/
theorem C91_wrong (hm : m ≠ 0) (T : Texts) {P : LP m n} (hs : P.isSef = true) {fuel : ℕ} {x : List ℚ}
    (h : solve fuel P = .ok (some x)) (s : List Step) : (solveRec T fuel false P s).2 ≠ s := by
  obtain ⟨l, hl⟩ := solveRec_eq hm T fuel false P
  obtain ⟨v, basis, y, h2, -⟩ := twoPhase_of_solve hs h
  rw [hl s, if_pos hs, h2]
  simp [record, answerNotes]

example : stepSample.isSef = true ∧ solve 10 stepSample = .ok (some [1]) := ⟨rfl, by decide +kernel⟩

/-! ### C92: what the steps say -/

/-- The texts of the steps. -/
theorem stepOf_texts (s t : List Char) :
    (stepOf (.tup "2.01" [.plain s])).text = "Is ".toList ++ s ++ " Feasible?".toList ∧
    (stepOf (.tup "2.02" [.plain s])).text = s ++ " is Feasible:".toList ∧
    (stepOf (.tup "2.06" [.plain s])).text = s ++ " is Not Feasible:".toList ∧
    (stepOf (.tup "4.02" [.plain s])).text = "Column ".toList ++ s ++ " Is Not a Zero".toList ∧
    (stepOf (.tup "4.04" [.plain s, .plain t])).text = s ++ " is A Basic Solution for Basis ".toList ++ t ∧
    (stepOf (.tup "4.05" [.plain s, .plain t])).text = s ++ " is Not A Basic Solution for Basis ".toList ++ t ∧
    (stepOf (.tup "5.02" [.plain s])).text = "Iteration ".toList ++ s ++ " =================================".toList ∧
    (stepOf (.tup "5.03" [.plain s])).text = "Solution: ".toList ++ s ∧
    (stepOf (.tup "5.04" [.plain s])).text = "Optimal Basis: ".toList ++ s ∧
    (stepOf (.tup "5.06" [.plain s])).text = "Optimality Certificate: ".toList ++ s := by
  simp [stepOf, renderDescriptor, templates, Dict.get?, fill, Entity.key, Entity.args, Arg.text, Except.toOption]

/-- The entries a call of `is_feasible` adds to the log. -/
theorem feasible_log (T : Texts) (P : LP m n) {x : List ℚ} {v : Fin n → ℚ} (hx : toVec n x = some v) (s : List Step) :
    (isFeasibleRec T true P x s).2 = s ++ (feasibleNotes T P v).map stepOf := by
  rw [isFeasibleRec_acts T true P hx s]
  rfl

theorem keys_stepOf (l : List Entity) : (l.map stepOf).map Step.key = l.map Entity.key := by
  rw [List.map_map]
  rfl

/-- C92, partial: `is_feasible` records the question, and that the vector is feasible exactly if it answers `True`.
For a program in SEF it records that the vector is not feasible exactly if it answers `False`, that some entry is
negative exactly if one is, and that a constraint is violated exactly if one is (both up to the tolerances of
`Comparator` and NumPy). Missing: other programs (`C92_wrong`). -/
theorem C92_feasible_partial (T : Texts) (P : LP m n) {x : List ℚ} {v : Fin n → ℚ} (hx : toVec n x = some v) (s : List Step) :
    ∃ new, (isFeasibleRec T true P x s).2 = s ++ new ∧ (new.map Step.key).head? = some "2.01" ∧
      ("2.02" ∈ new.map Step.key ↔ isFeasible P x = .ok true) ∧
      (P.isSef = true → ("2.06" ∈ new.map Step.key ↔ isFeasible P x = .ok false) ∧
        ("2.07" ∈ new.map Step.key ↔ ∃ j, pyCmp (v j) .ge 0 = false) ∧
        ("2.08" ∈ new.map Step.key ↔ ∃ i, npIsClose ((P.A.mulVec v) i) (P.b i) = false)) := by
  refine ⟨_, feasible_log T P hx s, ?_⟩
  rw [keys_stepOf]
  have hf : isFeasible P x = .ok (isFeasibleVec P v) := by
    unfold isFeasible
    rw [hx]
  rw [hf]
  unfold feasibleNotes verdictNotes
  refine ⟨rfl, ?_, fun hs => ?_⟩
  · by_cases hs : P.isSef = true
    · cases hv : isFeasibleVec P v
      · rw [if_pos hs, if_neg (by simp)]
        split_ifs <;> simp [Entity.key]
      · rw [if_pos hs]
        simp [Entity.key]
    · cases hv : isFeasibleVec P v
      · rw [if_neg hs]
        simp [Entity.key]
      · rw [if_neg hs]
        simp [Entity.key]
  · have hv : isFeasibleVec P v = (decide (∀ j, pyCmp (v j) .ge 0 = true) &&
        decide (∀ i, npIsClose ((P.A.mulVec v) i) (P.b i) = true)) := by
      unfold isFeasibleVec
      rw [if_pos hs]
    rw [if_pos hs, hv]
    by_cases ha : ∀ j, pyCmp (v j) .ge 0 = true <;>
      by_cases hc : ∀ i, npIsClose ((P.A.mulVec v) i) (P.b i) = true
    · have ha' : ¬ ∃ j, pyCmp (v j) .ge 0 = false := fun ⟨j, h⟩ => by rw [ha j] at h; cases h
      have hc' : ¬ ∃ i, npIsClose ((P.A.mulVec v) i) (P.b i) = false := fun ⟨j, h⟩ => by rw [hc j] at h; cases h
      rw [decide_eq_true ha, decide_eq_true hc, iff_false_right ha', iff_false_right hc']
      simp [Entity.key]
    · have ha' : ¬ ∃ j, pyCmp (v j) .ge 0 = false := fun ⟨j, h⟩ => by rw [ha j] at h; cases h
      have hc' : ∃ i, npIsClose ((P.A.mulVec v) i) (P.b i) = false := by simpa using hc
      rw [decide_eq_true ha, decide_eq_false hc, iff_false_right ha', iff_true_right hc', if_neg hc, if_pos ha]
      simp [Entity.key]
    · have ha' : ∃ j, pyCmp (v j) .ge 0 = false := by simpa using ha
      have hc' : ¬ ∃ i, npIsClose ((P.A.mulVec v) i) (P.b i) = false := fun ⟨j, h⟩ => by rw [hc j] at h; cases h
      rw [decide_eq_false ha, decide_eq_true hc, iff_true_right ha', iff_false_right hc', if_pos hc, if_neg ha]
      simp [Entity.key]
    · have ha' : ∃ j, pyCmp (v j) .ge 0 = false := by simpa using ha
      have hc' : ∃ i, npIsClose ((P.A.mulVec v) i) (P.b i) = false := by simpa using hc
      rw [decide_eq_false ha, decide_eq_false hc, iff_true_right ha', iff_true_right hc', if_neg hc, if_neg ha]
      simp [Entity.key]

/-- C92 is false: for a program that is not in SEF, nothing but the question is recorded when the answer is no. -/
theorem C92_wrong (T : Texts) {P : LP m n} (hs : P.isSef = false) {x : List ℚ} (h : isFeasible P x = .ok false) (s : List Step) :
    ∃ q, (isFeasibleRec T true P x s).2 = s ++ [q] ∧ q.key = "2.01" := by
  cases hx : toVec n x with
  | none => simp [isFeasible, hx] at h
  | some v =>
    have hv : isFeasibleVec P v = false := by
      unfold isFeasible at h
      rw [hx] at h
      exact Except.ok.inj h
    refine ⟨stepOf (.tup "2.01" [T.v v]), ?_, rfl⟩
    rw [feasible_log T P hx s]
    unfold feasibleNotes verdictNotes
    rw [hs, hv]
    rfl

example : isFeasible printSample [2] = .ok false ∧ printSample.isSef = false := ⟨by decide +kernel, rfl⟩

theorem natChars_toString (k : ℕ) : natChars k = (toString k).toList := by
  rw [Nat.toString_eq_ofList_toDigits, String.toList_ofList]
  rfl

/-- C92: `is_basic_solution` records its answer, and exactly the columns outside the basis whose entry is not zero
(one-based, in order). -/
theorem C92_basic (T : Texts) {P : LP m n} (hs : P.isSef = true) {x : List ℚ} {v : Fin n → ℚ} (hx : toVec n x = some v)
    {basis : List ℤ} (hB : isBasis P basis = .ok true) (s : List Step) :
    ∃ new, (isBasicSolutionRec T true P x basis s).2 = s ++ new ∧
      ("4.04" ∈ new.map Step.key ↔ isBasicSolution P x basis = .ok true) ∧
      ("4.05" ∈ new.map Step.key ↔ isBasicSolution P x basis = .ok false) ∧
      (new.filter fun q => q.key = "4.02").map Step.text =
        ((List.finRange n).filter fun j : Fin n => decide (((j : ℕ) : ℤ) + 1 ∉ basis ∧ isCloseToZero (v j) = false)).map
          fun j : Fin n => "Column ".toList ++ (toString ((j : ℕ) + 1)).toList ++ " Is Not a Zero".toList := by
  have ha := isBasicSolutionRec_acts T true P hs hx hB
  have hr : isBasicSolution P x basis = .ok ((badColumns (toArrayIndexing basis) v (List.finRange n)).isEmpty &&
      decide (∀ i, npIsClose ((P.A.mulVec v) i) (P.b i) = true)) := by
    obtain ⟨l, hl⟩ := isBasicSolutionRec_result T true P x basis
    have := (hl s).symm.trans (ha s)
    exact (Prod.mk.inj this).1
  refine ⟨(basicNotes T P v basis).map stepOf, by rw [ha s]; rfl, ?_⟩
  rw [hr, keys_stepOf]
  unfold basicNotes
  generalize decide (∀ i, npIsClose ((P.A.mulVec v) i) (P.b i) = true) = d
  have hbad : badColumns (toArrayIndexing basis) v (List.finRange n) = (List.finRange n).filter fun j : Fin n =>
      decide (((j : ℕ) : ℤ) + 1 ∉ basis ∧ isCloseToZero (v j) = false) := by
    unfold badColumns
    apply List.filter_congr
    intro j _
    congr 2
    rw [eq_iff_iff, not_iff_not]
    unfold toArrayIndexing
    rw [List.mem_map]
    constructor
    · rintro ⟨k, hk, e⟩
      rw [← e, sub_add_cancel]
      exact hk
    · exact fun h => ⟨_, h, by ring⟩
  rw [← hbad]
  generalize badColumns (toArrayIndexing basis) v (List.finRange n) = bad
  have hcol : ∀ j : Fin n, (Entity.tup "4.02" [.plain (natChars (j + 1))]).key = "4.02" := fun _ => rfl
  refine ⟨?_, ?_, ?_⟩
  · cases d <;> cases bad <;> simp [Entity.key]
  · cases d <;> cases bad <;> simp [Entity.key]
  · have hcols : ((bad.map fun j : Fin n => Entity.tup "4.02" [.plain (natChars (j + 1))]).map stepOf).filter
        (fun q => q.key = "4.02") = (bad.map fun j : Fin n => Entity.tup "4.02" [.plain (natChars (j + 1))]).map stepOf := by
      rw [List.filter_eq_self]
      intro q hq
      obtain ⟨e, he, rfl⟩ := List.mem_map.mp hq
      obtain ⟨j, -, rfl⟩ := List.mem_map.mp he
      rfl
    have htexts : ∀ j : Fin n, (stepOf (.tup "4.02" [.plain (natChars (j + 1))])).text =
        "Column ".toList ++ (toString ((j : ℕ) + 1)).toList ++ " Is Not a Zero".toList := by
      intro j
      rw [(stepOf_texts _ []).2.2.2.1, natChars_toString]
    have hk : ∀ e : Entity, (stepOf e).key = e.key := fun _ => rfl
    simp only [List.map_append, List.filter_append, hcols]
    have hrest : ∀ l : List Entity, "4.02" ∉ l.map Entity.key → (l.map stepOf).filter (fun q => q.key = "4.02") = [] := by
      intro l hl
      rw [List.filter_eq_nil_iff]
      intro q hq
      obtain ⟨e, he, rfl⟩ := List.mem_map.mp hq
      simp only [hk, decide_eq_true_eq]
      intro h
      exact hl (List.mem_map.mpr ⟨e, he, h⟩)
    rw [hrest [_] (by simp [Entity.key]), hrest _ (by split_ifs <;> simp [Entity.key]),
      hrest _ (by split_ifs <;> simp [Entity.key])]
    simp only [List.map_nil, List.nil_append, List.append_nil]
    rw [List.map_map, List.map_map]
    apply List.map_congr_left
    intro j _
    exact htexts j

/-- C92 is false: the text about the answer of `is_basic_solution` does not name the basis asked about, but the list
with every entry one smaller. -/
theorem C92_basis_wrong (T : Texts) {P : LP m n} (hs : P.isSef = true) {x : List ℚ} {basis : List ℤ}
    (h : isBasicSolution P x basis = .ok true) (s : List Step) :
    ∃ v q, toVec n x = some v ∧ (isBasicSolutionRec T true P x basis s).2.getLast? = some q ∧
      q.text = tidy (T.vec (List.ofFn v)) ++ " is A Basic Solution for Basis ".toList ++ T.ints (basis.map (· - 1)) := by
  cases hx : toVec n x with
  | none => simp [isBasicSolution, hs, hx] at h
  | some v =>
    have hB : isBasis P basis = .ok true := by
      unfold isBasicSolution at h
      simp only [hs, hx, Bool.not_true, Bool.false_eq_true, if_false] at h
      generalize isBasis P basis = r at h ⊢
      rcases r with e | (_ | _)
      · cases h
      · cases h
      · rfl
    have ha := isBasicSolutionRec_acts T true P hs hx hB
    obtain ⟨l, hl⟩ := isBasicSolutionRec_result T true P x basis
    have hr : ((badColumns (toArrayIndexing basis) v (List.finRange n)).isEmpty &&
        decide (∀ i, npIsClose ((P.A.mulVec v) i) (P.b i) = true)) = true := by
      have := (Prod.mk.inj ((hl s).symm.trans (ha s))).1
      rw [h] at this
      exact (Except.ok.inj this).symm
    refine ⟨v, stepOf (.tup "4.04" [T.v v, .plain (T.ints (toArrayIndexing basis))]), rfl, ?_, ?_⟩
    · rw [ha s]
      unfold basicNotes
      simp only [if_pos hr]
      show List.getLast? (s ++ List.map stepOf (_ ++ [.str "4.06", .str "4.07", _])) = _
      rw [List.map_append, ← List.append_assoc, List.getLast?_append]
      rfl
    · simp [stepOf, renderDescriptor, templates, Dict.get?, fill, Entity.key, Entity.args, Arg.text, Except.toOption,
        Texts.v, toArrayIndexing]

example : stepSample.isSef = true ∧ isBasicSolution stepSample [1] [1] = .ok true := ⟨rfl, by decide +kernel⟩

/-- The steps about one iteration: its number and the program as printed. -/
def iterationSteps (i : ℕ) (text : List Char) : List Step :=
  [⟨"5.02", "Iteration ".toList ++ (toString i).toList ++ " =================================".toList⟩, ⟨"5.01", text⟩]

/-- The steps about iterations `i`, `i + 1`, .... -/
def iterationsFrom : ℕ → List (List Char) → List Step
  | _, [] => []
  | i, t :: ts => iterationSteps i t ++ iterationsFrom (i + 1) ts

/-- The steps about the answer. -/
def answerSteps (T : Texts) : Answer m n → List Step
  | .optimal x basis y => [⟨"5.03", "Solution: ".toList ++ tidy (T.vec (List.ofFn x))⟩,
      ⟨"5.04", "Optimal Basis: ".toList ++ T.ints basis⟩,
      ⟨"5.06", "Optimality Certificate: ".toList ++ tidy (T.vec (List.ofFn y))⟩]
  | .unbounded _ _ => [⟨"5.05", "The Program is Unbounded".toList⟩]
  | .infeasible _ => []

theorem loopNotes_steps (hm : m ≠ 0) (k : ℕ) (Cs : List (LP m n)) :
    (loopNotes k Cs).map stepOf = iterationsFrom k (Cs.map shownText) := by
  induction Cs generalizing k with
  | nil => rfl
  | cons C Cs ih =>
    rw [loopNotes, List.map_append, ih, List.map_cons, iterationsFrom]
    congr 1
    unfold iterationNotes iterationSteps
    rw [List.map_cons, List.map_cons, List.map_nil]
    congr 1
    · show Step.mk "5.02" _ = Step.mk "5.02" _
      congr 1
      have := (stepOf_texts (natChars k) []).2.2.2.2.2.2.1
      rw [natChars_toString] at this ⊢
      exact this
    · congr 1
      rw [reprText_eq, if_neg hm]
      simp [stepOf, renderDescriptor, templates, Dict.get?, fill, Entity.key, Entity.args, Arg.text, Except.toOption]

theorem answerNotes_steps (T : Texts) (a : Answer m n) : (answerNotes T (.ok a)).map stepOf = answerSteps T a := by
  cases a <;>
  simp [answerNotes, answerSteps, stepOf, renderDescriptor, templates, Dict.get?, fill, Entity.key, Entity.args, Arg.text,
    Except.toOption, Texts.v]

/-- `C` is a canonical form of `P` for the columns `B`: unit columns and no cost there, the same solutions of
`Ax = b`, and the same objective value on them. -/
structure CanonicalFor (P C : LP m n) (B : Fin m → Fin n) : Prop where
  unit : ∀ i k, C.A i (B k) = if i = k then 1 else 0
  cost : ∀ k, C.c (B k) = 0
  sols : ∀ x, C.A.mulVec x = C.b ↔ P.A.mulVec x = P.b
  value : ∀ x, P.A.mulVec x = P.b → objVal C x = objVal P x

theorem canonicalFor_canon {P : LP m n} {B : Fin m → Fin n} (hd : tol ≤ |(colSel P.A B).det|) : CanonicalFor P (canon P B) B :=
  have hn := isBasis_nonsing hd
  ⟨canon_col hn, canon_c_basic hn, fun x => canon_eq_iff hn x, fun _ hx => canon_objVal hx⟩

/-- C92: `simplex` records the start program (rows with negative right-hand side multiplied by -1) and one program per
iteration, numbered from 0, each printed as C88 says; then the solution, basis and certificate it returns, or that
the program is unbounded. The programs of the iterations are canonical forms of the start program; that of the last
is the one for the basis returned, and its constant is the objective value of the solution returned. -/
theorem C92_simplex (hm : m ≠ 0) (T : Texts) (fuel : ℕ) {P : LP m n} (hs : P.isSef = true) (basis : List ℤ) {a : Answer m n}
    (h : (simplex fuel P basis).1 = .ok a) (s : List Step) :
    ∃ (Cs : List (LP m n)) (ts : List (List Char)),
      List.Forall₂ (fun C t => reprText C = .ok t) (flipRows (negRows P) P :: Cs) ts ∧
      (simplexRec T fuel true P basis s).2 = s ++ iterationsFrom 0 ts ++ answerSteps T a ∧
      (∀ C ∈ Cs, ∃ B, CanonicalFor P C B) ∧
      ∀ x basis' y, a = .optimal x basis' y →
        ∃ C B, Cs.getLast? = some C ∧ Lists basis' B ∧ CanonicalFor P C B ∧ C.z = objVal P x := by
  obtain ⟨Cs, hC, hCs⟩ := simplexRec_eq hm T fuel true P basis
  have hcan : ∀ D, tol ≤ |(colSel (flipRows (negRows P) P).A D).det| → CanonicalFor P (canon (flipRows (negRows P) P) D) D := by
    intro D hD
    rw [canon_flip]
    rw [abs_det_flip] at hD
    exact canonicalFor_canon hD
  refine ⟨Cs, (flipRows (negRows P) P :: Cs).map shownText, ?_, ?_, ?_, ?_⟩
  · rw [List.forall₂_map_right_iff, List.forall₂_same]
    intro C _
    rw [reprText_eq, if_neg hm]
  · rw [hCs s, if_pos hs, h, List.append_assoc]
    show _ ++ List.map _ _ = _
    rw [List.map_append, loopNotes_steps hm, answerNotes_steps]
  · intro C hmem
    rw [hC] at hmem
    obtain ⟨D, -, hD, rfl⟩ := loopPrograms_canon fuel basis hmem
    exact ⟨D, hcan D hD⟩
  · rintro x basis' y rfl
    have hbody : simplexBody fuel (flipRows (negRows P) P) (negRows P) basis = .ok (.optimal x basis' y) := by
      unfold simplex at h
      rw [hs] at h
      simp only [Bool.not_true, Bool.false_eq_true, if_false] at h
      generalize simplexBody fuel (flipRows (negRows P) P) (negRows P) basis = q at h ⊢
      rcases q with e | q
      · cases h
      · exact h
    clear h
    rename' hbody => h
    unfold simplexBody at h
    rcases hl : simplexLoop fuel (flipRows (negRows P) P) basis with e | r
    · rw [hl] at h
      cases h
    · obtain ⟨D, -, hd, hspec, -, -⟩ := simplexLoop_answer fuel basis hl
      rw [hl] at h
      have hlast := loopPrograms_last fuel basis hl
      cases hspec with
      | next k _ _ _ _ _ _ _ _ _ => cases h
      | unbounded k _ _ _ _ =>
        simp only at h
        split at h <;> cases h
      | optimal _ _ =>
        simp only at h
        split at h
        · cases h
        · rename_i B' heq
          have he := Except.ok.inj h
          injection he with e1 e2 e3
          refine ⟨_, D, by rw [hC]; exact hlast, ?_, hcan D hd, ?_⟩
          · rw [← e2]
            unfold Lists colsList
            rw [List.map_ofFn]
            rfl
          · rw [← e1]
            have hn : Nonsing P D := isBasis_nonsing (by rwa [abs_det_flip] at hd)
            rw [sol_flip, objVal_sol hn, ← canon_z, ← canon_flip (negRows P) P D]

example : ∃ a, (simplex 10 stepSample [1]).1 = .ok a := by
  have h : (simplex 10 stepSample [1]).1.toOption.isSome = true := by decide +kernel
  generalize (simplex 10 stepSample [1]).1 = r at h ⊢
  rcases r with e | a
  · cases h
  · exact ⟨a, rfl⟩

example : isBasis stepSample [1] = .ok true ∧ isBasicSolution stepSample [2] [1] = .ok false :=
  ⟨by decide +kernel, by decide +kernel⟩

/-! ### C93: texts -/

theorem pieces_ne (t : List Char) : pieces t ≠ [] := by
  fun_cases pieces t <;> simp

theorem weave_cons (c : Char) (p : List Char) (ps ts : List (List Char)) :
    weave ((c :: p) :: ps) ts = c :: weave (p :: ps) ts := by
  cases ts with
  | nil => rfl
  | cons a ts => cases ps <;> rfl

theorem weave_fill {ps : List (List Char)} (h : ps ≠ []) (a : List Char) (ts : List (List Char)) :
    weave ([] :: ps) (a :: ts) = a ++ weave ps ts := by
  cases ps with
  | nil => exact absurd rfl h
  | cons q ps => rfl

theorem pieces_char {c : Char} {t : List Char} (h : ∀ t', c = '{' → t = '}' :: t' → False) :
    pieces (c :: t) = (c :: (pieces t).headD []) :: (pieces t).tail ∧ placeholders (c :: t) = placeholders t := by
  rw [pieces, placeholders]
  · exact ⟨rfl, rfl⟩
  · exact h
  · exact h

theorem fill_weave (t : List Char) (as : List Arg) (ts : List (List Char)) (h : List.Forall₂ (fun a s => a.text = .ok s) as ts) :
    fill t as = if placeholders t ≤ as.length then .ok (weave (pieces t) ts) else .error .indexError := by
  induction t using placeholders.induct generalizing as ts with
  | case1 =>
    rw [fill, placeholders, if_pos (Nat.zero_le _), pieces]
    cases ts <;> rfl
  | case2 t ih =>
    cases h with
    | nil =>
      rw [fill, placeholders, if_neg (by simp)]
    | @cons a s as ts ha h =>
      rw [fill, ha, ih as ts h, placeholders, List.length_cons, pieces, weave_fill (pieces_ne t)]
      by_cases hp : placeholders t ≤ as.length
      · rw [if_pos hp, if_pos (by omega)]
      · rw [if_neg hp, if_neg (by omega)]
  | case3 c t hc ih =>
    have hc' : ∀ t', c = '{' → t = '}' :: t' → False := fun t' h1 h2 => hc t' h1 h2
    rw [fill, ih as ts h, (pieces_char hc').1, (pieces_char hc').2, weave_cons]
    · have : (pieces t).headD [] :: (pieces t).tail = pieces t := by
        cases hp : pieces t with
        | nil => exact absurd hp (pieces_ne t)
        | cons p ps => rfl
      rw [this]
      by_cases hp : placeholders t ≤ as.length
      · rw [if_pos hp, if_pos hp]
      · rw [if_neg hp, if_neg hp]
    · intro t' a as' _ h1 h2
      exact hc t' h1 h2
    · intro t' _ h1 h2
      exact hc t' h1 h2

theorem pieces_length (t : List Char) : (pieces t).length = placeholders t + 1 := by
  induction t using placeholders.induct with
  | case1 => rfl
  | case2 t ih => rw [pieces, placeholders, List.length_cons, ih]
  | case3 c t hc ih =>
    rw [(pieces_char hc).1, (pieces_char hc).2, List.length_cons, List.length_tail, ih]
    omega

theorem pieces_intercalate (t : List Char) : t = List.intercalate ['{', '}'] (pieces t) := by
  induction t using placeholders.induct with
  | case1 => rfl
  | case2 t ih =>
    rw [pieces]
    cases hp : pieces t with
    | nil => exact absurd hp (pieces_ne t)
    | cons p ps =>
      rw [List.intercalate_cons_cons, ← hp, ← ih]
      rfl
  | case3 c t hc ih =>
    rw [(pieces_char hc).1]
    cases hp : pieces t with
    | nil => exact absurd hp (pieces_ne t)
    | cons p ps =>
      rw [hp] at ih
      cases ps with
      | nil =>
        simp at ih ⊢
        exact ih
      | cons q ps =>
        simp only [List.headD_cons, List.tail_cons]
        rw [List.intercalate_cons_cons] at ih ⊢
        rw [List.cons_append, List.cons_append, ← ih]

/-- C93: `render_descriptor` raises `KeyError` exactly for unknown keys. For a known key and arguments that can be
printed it raises `IndexError` if the template has more placeholders than arguments are given; otherwise the text is
the template with the placeholders replaced by the arguments from left to right. -/
theorem C93_render (key : String) (as : List Arg) (ts : List (List Char)) (h : List.Forall₂ (fun a s => a.text = .ok s) as ts) :
    (renderDescriptor key as = .error .keyError ↔ key ∉ templates.map Prod.fst) ∧
    ∀ t, (key, t) ∈ templates → ∃ ps : List (List Char), t.toList = List.intercalate ['{', '}'] ps ∧
      (∀ p ∈ ps, '{' ∉ p) ∧
      if ps.length ≤ as.length + 1 then renderDescriptor key as = .ok (weave ps ts)
      else renderDescriptor key as = .error .indexError := by
  constructor
  · unfold renderDescriptor
    cases hk : Dict.get? templates key with
    | none =>
      refine ⟨fun _ hmem => ?_, fun _ => rfl⟩
      obtain ⟨v, hv⟩ := Dict.exists_get?_of_mem hmem
      rw [hk] at hv
      cases hv
    | some t =>
      simp only
      rw [fill_weave _ _ _ h]
      constructor
      · intro he
        split_ifs at he
        cases he
      · intro hn
        exact absurd (List.mem_map.mpr ⟨_, Dict.mem_of_get? hk, rfl⟩) hn
  · intro t ht
    refine ⟨pieces t.toList, pieces_intercalate _, ?_, ?_⟩
    · have : ∀ kt ∈ templates, ∀ p ∈ pieces kt.2.toList, '{' ∉ p := by decide +kernel
      exact this _ ht
    · have hk : Dict.get? templates key = some t := by
        have : ∀ kt ∈ templates, Dict.get? templates kt.1 = some kt.2 := by decide +kernel
        exact this _ ht
      unfold renderDescriptor
      rw [hk]
      simp only
      rw [fill_weave _ _ _ h, pieces_length]
      by_cases hp : placeholders t.toList ≤ as.length
      · rw [if_pos (by omega), if_pos hp]
      · rw [if_neg (by omega), if_neg hp]

/-- C93 is not vacuous: two printed arguments for a template with two placeholders. -/
example : renderDescriptor "4.04" [.plain "x".toList, .plain "[1]".toList] =
    .ok "x is A Basic Solution for Basis [1]".toList := by decide +kernel

/-- The pieces of a text between blanks and square brackets: of a printed array, the numbers. -/
def numbersIn (s : List Char) : List (List Char) :=
  (s.splitOnP fun c => c == ' ' || c == '[' || c == ']').filter fun w => w ≠ []

theorem numbersIn_sep {c : Char} (hc : (c == ' ' || c == '[' || c == ']') = true) (a b : List Char) :
    numbersIn (a ++ c :: b) = numbersIn a ++ numbersIn b := by
  unfold numbersIn
  rw [List.splitOnP_append_cons (p := fun c => c == ' ' || c == '[' || c == ']') _ _ hc, List.filter_append]

theorem numbersIn_nil : numbersIn [] = [] := by simp [numbersIn]

theorem numbersIn_seps {u : List Char} (hu : ∀ c ∈ u, (c == ' ' || c == '[' || c == ']') = true) (h0 : u ≠ []) (a b : List Char) :
    numbersIn (a ++ (u ++ b)) = numbersIn a ++ numbersIn b := by
  induction u generalizing a with
  | nil => exact absurd rfl h0
  | cons c u ih =>
    rw [List.cons_append, numbersIn_sep (hu c List.mem_cons_self)]
    congr 1
    by_cases hu0 : u = []
    · rw [hu0, List.nil_append]
    · have := ih (fun d hd => hu d (List.mem_cons_of_mem _ hd)) hu0 []
      rwa [numbersIn_nil, List.nil_append, List.nil_append] at this

theorem numbersIn_replace {old new : List Char} (ho : ∀ c ∈ old, (c == ' ' || c == '[' || c == ']') = true) (ho0 : old ≠ [])
    (hn : ∀ c ∈ new, (c == ' ' || c == '[' || c == ']') = true) (hn0 : new ≠ []) (fuel : ℕ) (a s : List Char) :
    numbersIn (a ++ replaceChars old new fuel s) = numbersIn (a ++ s) := by
  induction fuel generalizing a s with
  | zero => rfl
  | succ f ih =>
    cases s with
    | nil => rfl
    | cons c s =>
      rw [replaceChars]
      by_cases hp : old.isPrefixOf (c :: s) = true
      · rw [if_pos hp]
        obtain ⟨r, hr⟩ := List.isPrefixOf_iff_prefix.mp hp
        rw [← hr, List.drop_left, numbersIn_seps hn hn0, numbersIn_seps ho ho0]
        have := ih [] r
        rw [List.nil_append, List.nil_append] at this
        rw [this]
      · rw [if_neg hp]
        have := ih (a ++ [c]) s
        rwa [List.append_assoc, List.append_assoc] at this

theorem numbersIn_join (ws : List (List Char)) : numbersIn (joinChars [' '] ws) = ws.flatMap numbersIn := by
  induction ws with
  | nil => simp [joinChars, numbersIn_nil]
  | cons w ws ih =>
    cases ws with
    | nil => simp [joinChars]
    | cons w' ws =>
      rw [joinChars, List.append_assoc, List.singleton_append, numbersIn_sep (by rfl), ih]
      · rfl
      · simp

theorem numbersIn_intercalate (ws : List (List Char)) : numbersIn (List.intercalate [' '] ws) = ws.flatMap numbersIn := by
  induction ws with
  | nil => simp [numbersIn_nil]
  | cons w ws ih =>
    cases ws with
    | nil => simp
    | cons w' ws =>
      rw [List.intercalate_cons_cons, List.append_assoc, List.singleton_append, numbersIn_sep (by rfl), ih]
      rfl

/-- C93: the cleanup of printed arrays neither loses, merges, splits nor reorders numbers. -/
theorem C93_array (s : List Char) : numbersIn (tidy s) = numbersIn s := by
  have hfold : ∀ (rules : List (List Char × List Char)), (∀ r ∈ rules, (r.1 ≠ [] ∧ r.2 ≠ []) ∧
      ∀ c ∈ r.1 ++ r.2, (c == ' ' || c == '[' || c == ']') = true) → ∀ t,
      numbersIn (rules.foldl (fun t r => replaceChars r.1 r.2 t.length t) t) = numbersIn t := by
    intro rules
    induction rules with
    | nil => exact fun _ _ => rfl
    | cons r rules ih =>
      intro h t
      rw [List.foldl_cons, ih fun r' hr' => h r' (List.mem_cons_of_mem _ hr')]
      obtain ⟨⟨h1, h2⟩, h3⟩ := h r List.mem_cons_self
      exact numbersIn_replace (fun c hc => h3 c (List.mem_append_left _ hc)) h1
        (fun c hc => h3 c (List.mem_append_right _ hc)) h2 t.length [] t
  unfold tidy
  rw [hfold cleanupRules (by decide), numbersIn_join]
  have h : s = List.intercalate [' '] (s.splitOn ' ') := (List.intercalate_splitOn ' ').symm
  conv_rhs => rw [h]
  rw [numbersIn_intercalate]
  generalize s.splitOn ' ' = ws
  induction ws with
  | nil => rfl
  | cons w ws ih =>
    rw [List.filter_cons]
    by_cases hw : w = []
    · rw [hw, List.flatMap_cons, numbersIn_nil, List.nil_append, ← ih]
      simp
    · rw [if_pos (by simpa using hw), List.flatMap_cons, List.flatMap_cons, ih]

/-- What becomes of a printed matrix: the opening brackets are halved, of the closing ones one is left over. -/
example : tidy "[[ 1.  2.]\n [10. -3.]]".toList = "[1. 2.]\n[10. -3.]]".toList := by decide +kernel

theorem foldl_lines (s : List Step) (acc : List Char) :
    s.foldl (fun previous current => previous ++ '\n' :: current.text) acc =
      acc ++ (s.map fun q => '\n' :: q.text).flatten := by
  induction s generalizing acc with
  | nil => simp
  | cons q s ih => rw [List.foldl_cons, ih, List.map_cons, List.flatten_cons, List.append_assoc]

theorem join_lines (q : Step) (s : List Step) :
    ((q :: s).map fun q => '\n' :: q.text).flatten = '\n' :: joinChars ['\n'] ((q :: s).map Step.text) := by
  induction s generalizing q with
  | nil => simp [joinChars]
  | cons r s ih =>
    rw [List.map_cons, List.flatten_cons, ih r]
    simp [joinChars]

/-- C93: `steps_string` is the texts of the steps, separated by line feeds, without the white space around. -/
theorem C93_string (blank : Char → Bool) (hb : blank '\n' = true) (s : List Step) :
    ∃ before after, joinChars ['\n'] (s.map Step.text) = before ++ stepsString blank s ++ after ∧
      (∀ c ∈ before, blank c = true) ∧ (∀ c ∈ after, blank c = true) ∧
      (∀ c, (stepsString blank s).head? = some c → blank c = false) ∧
      (∀ c, (stepsString blank s).getLast? = some c → blank c = false) := by
  have hstrip : stepsString blank s = ((joinChars ['\n'] (s.map Step.text)).dropWhile blank).rdropWhile blank := by
    unfold stepsString
    rw [foldl_lines, List.nil_append]
    cases s with
    | nil => rfl
    | cons q s => rw [join_lines, List.dropWhile_cons_of_pos hb]
  rw [hstrip]
  generalize joinChars ['\n'] (s.map Step.text) = t
  refine ⟨t.takeWhile blank, (t.dropWhile blank).rtakeWhile blank, ?_, ?_, ?_, ?_, ?_⟩
  · rw [List.append_assoc, List.rdropWhile_append_rtakeWhile, List.takeWhile_append_dropWhile]
  · exact fun c hc => List.mem_takeWhile_imp hc
  · exact fun c hc => List.mem_rtakeWhile_imp hc
  · intro c hc
    have hpre : (t.dropWhile blank).rdropWhile blank <+: t.dropWhile blank := List.rdropWhile_prefix _ _
    cases hd : (t.dropWhile blank).rdropWhile blank with
    | nil => rw [hd] at hc; cases hc
    | cons a l =>
      rw [hd] at hc hpre
      obtain ⟨r, hr⟩ := hpre
      have hne : t.dropWhile blank ≠ [] := by rw [← hr]; simp
      have := List.dropWhile_get_zero_not blank t (List.length_pos_of_ne_nil hne)
      have h0 : (t.dropWhile blank).head? = some c := by
        rw [← hr]
        exact hc
      rw [List.head?_eq_getElem?] at h0
      have h1 := List.getElem?_eq_getElem (List.length_pos_of_ne_nil hne)
      rw [h0] at h1
      have h2 := Option.some.inj h1
      simp only [List.get_eq_getElem] at this
      rw [h2]
      simpa using this
  · intro c hc
    have h0 : (t.dropWhile blank).rdropWhile blank ≠ [] := by
      intro h
      rw [h] at hc
      cases hc
    have := List.rdropWhile_last_not (p := blank) (t.dropWhile blank) h0
    rw [List.getLast?_eq_some_getLast h0] at hc
    rw [← Option.some.inj hc]
    simpa using this

example : ∃ s : List Step, 2 ≤ s.length := ⟨[⟨"3.01", "Convert to SEF".toList⟩, ⟨"5.05", "The Program is Unbounded".toList⟩], by decide⟩


end Props
end Pytimize
