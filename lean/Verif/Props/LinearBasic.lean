/-
Properties C27-C31: construction of linear programs, sign classes, adding constraints and variables,
feasibility and objective.
-/
import Verif.LP.Verify

namespace Pytimize
namespace Props
open LinProg Comparator

variable {m n : ℕ}

/-! ### C27 -/

/-- C27: the constructor returns `p` exactly when the arguments describe `p` (`ArgsFor`). -/
theorem C27_ctor (A b c : PyVal) (z : ℚ) (objective : String) (inequalities : Option (List String))
    (free neg : Option (List ℤ)) (p : Prog) :
    ctor A b c z objective inequalities free neg = .ok p ↔
      ArgsFor A b c z objective inequalities free neg p := ctor_iff

/-- C27: the only exception is `ValueError`. -/
theorem C27_errors (A b c : PyVal) (z : ℚ) (objective : String) (inequalities : Option (List String))
    (free neg : Option (List ℤ)) (e : PyErr)
    (h : ctor A b c z objective inequalities free neg = .error e) : e = .valueError := ctor_error h

/-- C27: acceptance in terms of the arguments alone, for matrices and vectors of the right shape. -/
theorem C27_accepts (A b c : PyVal) (z : ℚ) (objective : String) (inequalities : Option (List String))
    (free neg : Option (List ℤ)) :
    (∃ p, ctor A b c z objective inequalities free neg = .ok p) ↔
      ∃ (m n : ℕ) (f : Matrix (Fin m) (Fin n) ℚ) (v w : List ℚ),
        IsMatrix A m n f ∧ IsVector b v ∧ v.length = m ∧ IsVector c w ∧ w.length = n ∧
        (objective = "max" ∨ objective = "min") ∧
        (∀ l, inequalities = some l → l.length = m ∧ ∀ s ∈ l, s = "=" ∨ s = "<=" ∨ s = ">=") ∧
        (free.getD []).Nodup ∧ (neg.getD []).Nodup ∧
        (∀ i ∈ free.getD [], 1 ≤ i ∧ i ≤ n) ∧ (∀ i ∈ neg.getD [], 1 ≤ i ∧ i ≤ n) ∧
        ∀ i ∈ free.getD [], i ∉ neg.getD [] := by
  constructor
  · rintro ⟨p, h⟩
    have h := ctor_iff.mp h
    have key : ∀ {l : List ℤ} {q : List ℕ}, IndexSpec p.n l q → l.Nodup ∧ (∀ i ∈ l, 1 ≤ i ∧ i ≤ p.n) ∧
        ∀ i ∈ l, ∃ j ∈ q, i = (j : ℤ) + 1 := by
      intro l q hq
      refine ⟨?_, fun i hi => ?_, fun i hi => ?_⟩
      · rw [← hq.perm.nodup_iff]
        refine (List.nodup_map_iff (fun a b h => ?_)).mpr (hq.sorted.imp fun h => ne_of_lt h)
        omega
      · obtain ⟨j, hj, rfl⟩ := List.mem_map.mp (hq.perm.mem_iff.mpr hi)
        have := hq.lt j hj
        omega
      · obtain ⟨j, hj, rfl⟩ := List.mem_map.mp (hq.perm.mem_iff.mpr hi)
        exact ⟨j, hj, rfl⟩
    obtain ⟨f1, f2, f3⟩ := key h.frees
    obtain ⟨g1, g2, g3⟩ := key h.negs
    refine ⟨p.m, p.n, p.lp.A, _, _, h.matrix, h.rhs, by simp, h.cost, by simp, ?_, ?_, f1, g1, f2, g2, ?_⟩
    · rw [h.obj]; cases p.lp.objective <;> simp [Obj.name]
    · intro l hl
      rcases h.ineqs with ⟨h0, _⟩ | h0
      · rw [hl] at h0; cases h0
      · rw [hl] at h0
        cases h0
        refine ⟨by simp, fun s hs => ?_⟩
        obtain ⟨i, rfl⟩ := (List.mem_ofFn' _ _).mp hs
        simp only
        cases p.lp.ineq i <;> simp [Ineq.sym]
    · intro i hi hi'
      obtain ⟨j, hj, rfl⟩ := f3 i hi
      obtain ⟨k, hk, he⟩ := g3 _ hi'
      have : j = k := by omega
      subst this
      exact h.disj j hj hk
  · rintro ⟨m, n, f, v, w, hA, hb, hv, hc, hw, ho, hq, hf, hn, hf', hn', hd⟩
    have key : ∀ {l : List ℤ}, l.Nodup → (∀ i ∈ l, 1 ≤ i ∧ i ≤ n) → ∃ q, IndexSpec n l q := by
      intro l hl hr
      have hp : (sortInt (toArrayIndexing l)).Perm (toArrayIndexing l) := List.perm_insertionSort _ _
      refine ⟨_, indexSpec_iff.mpr ⟨?_, rfl⟩⟩
      unfold indexListOk
      simp only [Bool.or_eq_true, Bool.and_eq_true, decide_eq_true_eq, List.all_eq_true]
      right
      refine ⟨?_, fun i hi => ?_⟩
      · rw [hp.nodup_iff]
        exact (List.nodup_map_iff (fun a b h => by omega)).mpr hl
      · obtain ⟨j, hj, rfl⟩ := List.mem_map.mp (hp.mem_iff.mp hi)
        have := hr j hj
        omega
    obtain ⟨p, hp⟩ := key hf hf'
    obtain ⟨q, hqq⟩ := key hn hn'
    obtain ⟨o, ho⟩ : ∃ o : Obj, objective = o.name := by
      rcases ho with h | h
      · exact ⟨.max, h⟩
      · exact ⟨.min, h⟩
    obtain ⟨g, hg⟩ : ∃ g : Fin m → Ineq, (inequalities = none ∧ ∀ i, g i = .eq) ∨
        inequalities = some (List.ofFn fun i => (g i).sym) := by
      cases inequalities with
      | none => exact ⟨fun _ => .eq, Or.inl ⟨rfl, fun _ => rfl⟩⟩
      | some l =>
        obtain ⟨h1, h2⟩ := hq l rfl
        have : ∀ i : Fin m, ∃ s : Ineq, l[i]'(by rw [h1]; exact i.2) = s.sym := by
          intro i
          rcases h2 _ (List.getElem_mem (by rw [h1]; exact i.2 : (i : ℕ) < l.length)) with h | h | h
          · exact ⟨.eq, h⟩
          · exact ⟨.le, h⟩
          · exact ⟨.ge, h⟩
        choose g hg using this
        refine ⟨g, Or.inr ?_⟩
        congr 1
        apply List.ext_getElem
        · simp [h1]
        · intro i h3 h4
          rw [List.getElem_ofFn]
          exact hg ⟨i, by rw [← h1]; exact h3⟩
    subst hv hw
    refine ⟨⟨v.length, w.length, f, fun i => v[i], fun j => w[j], z, o, g, p, q, sefFlag g p q o⟩,
      ctor_iff.mpr ⟨hA, ?_, ?_, rfl, ho, hg, hp, hqq, ?_, ?_⟩⟩
    · simpa using hb
    · simpa using hc
    · intro j hj hj'
      exact hd _ (hp.perm.mem_iff.mp (List.mem_map.mpr ⟨j, hj, rfl⟩))
        (hqq.perm.mem_iff.mp (List.mem_map.mpr ⟨j, hj', rfl⟩))
    · rw [sefFlag_iff]; tauto

/-- A concrete accepted call: `min x1 - x2`, one `>=` row, `x2` free. -/
example : ∃ p, ctor (.list [.list [.num 1, .num 2]]) (.list [.num 3]) (.list [.num 1, .num (-1)]) 0 "min"
    (some [">="]) (some [2]) none = .ok p := ⟨_, rfl⟩

/-- A concrete rejected call (`x2` both free and negative). -/
example : ctor (.list [.list [.num 1, .num 2]]) (.list [.num 3]) (.list [.num 1, .num (-1)]) 0 "min"
    (some [">="]) (some [2]) (some [2]) = .error .valueError := rfl

/-! ### C28 -/

/-- Programs reachable through successful calls. -/
inductive Reach : Prog → Prop
  | ctor {A b c z o q f g p} : LinProg.ctor A b c z o q f g = .ok p → Reach p
  | addConstraint {p : Prog} {a s v Q} : Reach p → LinProg.addConstraint p.lp a s v = .ok Q →
      Reach ⟨p.m + 1, p.n, Q⟩
  | addVariable {p : Prog} {a col f g Q} : Reach p → LinProg.addVariable p.lp a col f g = .ok Q →
      Reach ⟨p.m, p.n + 1, Q⟩
  | dual {p : Prog} : Reach p → Reach ⟨p.n, p.m, LinProg.dual p.lp⟩
  | toSef {p : Prog} : Reach p → Reach ⟨p.m, (LinProg.toSef p.lp).n, (LinProg.toSef p.lp).lp⟩

theorem reach_wf {p : Prog} (h : Reach p) : WF p.lp := by
  induction h with
  | ctor h => exact ctor_wf h
  | addConstraint _ h ih => exact ih.addConstraint h
  | addVariable _ h ih => exact ih.addVariable h
  | dual _ _ => exact WF.dual _
  | toSef _ ih => exact ih.toSef

/-- The three index lists together list `1..n`, each once. -/
theorem signs_partition {P : LP m n} (h : WF P) :
    (P.positiveVariables ++ P.negativeVariables ++ P.freeVariables).Perm
      ((List.range n).map fun i : ℕ => (i : ℤ) + 1) := by
  have : ((List.range n).filter (fun i => !decide (i ∈ P.neg) && !decide (i ∈ P.free)) ++ P.neg ++ P.free).Perm
      (List.range n) := by
    have nd : ((List.range n).filter (fun i => !decide (i ∈ P.neg) && !decide (i ∈ P.free)) ++ P.neg
        ++ P.free).Nodup := by
      rw [List.append_assoc, List.nodup_append', List.nodup_append']
      refine ⟨List.nodup_range.filter _, ⟨h.negSorted.imp fun h => ne_of_lt h,
        h.freeSorted.imp fun h => ne_of_lt h, ?_⟩, ?_⟩
      · intro a ha hb
        exact h.disj a hb ha
      · intro a ha hb
        have := (List.mem_filter.mp ha).2
        rcases List.mem_append.mp hb with hb | hb <;> simp [hb] at this
    refine (List.perm_ext_iff_of_nodup nd List.nodup_range).mpr fun a => ?_
    simp only [List.mem_append, List.mem_filter, List.mem_range, Bool.and_eq_true, Bool.not_eq_true',
      decide_eq_false_iff_not]
    constructor
    · rintro ((h1 | h1) | h1)
      · exact h1.1
      · exact h.negLt a h1
      · exact h.freeLt a h1
    · intro h1
      by_cases h2 : a ∈ P.neg
      · exact Or.inl (Or.inr h2)
      · by_cases h3 : a ∈ P.free
        · exact Or.inr h3
        · exact Or.inl (Or.inl ⟨h1, h2, h3⟩)
  have := this.map fun i : ℕ => (i : ℤ) + 1
  simpa [LP.positiveVariables, LP.negativeVariables, LP.freeVariables, toMathIndexing] using this

/-- C28 for every program obtained by calls that succeed. Missing from the full statement: an
`add_variable(..., in_place=True)` that raises, see `C28_failed_call_wrong`. -/
theorem C28_partition_partial (p : Prog) (h : Reach p) :
    (p.lp.positiveVariables ++ p.lp.negativeVariables ++ p.lp.freeVariables).Perm
      ((List.range p.n).map fun i : ℕ => (i : ℤ) + 1) := signs_partition (reach_wf h)

/-- C28 is false after a failing in-place call: the index lists name a variable that does not exist. -/
theorem C28_failed_call_wrong : ∃ (P : LP 1 1) (col : List ℚ), Reach ⟨1, 1, P⟩ ∧
    addVariable P 0 (some col) true false = .error .valueError ∧
    ¬ ((addVariableFailed P true false).positiveVariables ++ (addVariableFailed P true false).negativeVariables
      ++ (addVariableFailed P true false).freeVariables).Perm ((List.range 1).map fun i : ℕ => (i : ℤ) + 1) := by
  refine ⟨⟨fun _ _ => 1, fun _ => 1, fun _ => 1, 0, .max, fun _ => .eq, [], [], true⟩, [1, 1], ?_, rfl, ?_⟩
  · refine Reach.ctor (A := .nd2 1 1 fun _ _ => 1) (b := .nd1 [1]) (c := .nd1 [1]) (z := 0) (o := "max")
      (q := none) (f := none) (g := none) (ctor_iff.mpr ?_)
    refine ⟨Or.inl rfl, Or.inl (by simp), Or.inl (by simp), rfl, rfl, Or.inl ⟨rfl, fun _ => rfl⟩, ?_, ?_,
      by simp, by simp⟩
    · exact ⟨List.Pairwise.nil, by simp, by simp⟩
    · exact ⟨List.Pairwise.nil, by simp, by simp⟩
  · decide +kernel

/-! ### C29 -/

/-- C29: the feasible points of the extended program are the feasible points satisfying the new
constraint, and the objective is the same. -/
theorem C29_intersect (P : LP m n) (a : Fin n → ℚ) (q : Ineq) (v : ℚ) :
    ∃ Q, addConstraint P (List.ofFn a) q.sym v = .ok Q ∧
      (∀ x, Feas Q x ↔ Feas P x ∧ rowHolds q (∑ j, a j * x j) v) ∧
      (∀ x, objVal Q x = objVal P x) ∧ Q.objective = P.objective ∧ Q.free = P.free ∧ Q.neg = P.neg := by
  have hq : Ineq.parse q.sym = some q := Ineq.parse_iff.mpr rfl
  refine ⟨_, by simp only [addConstraint, toVec_ofFn, hq]; rfl, fun x => ?_, fun x => rfl, rfl, rfl, rfl⟩
  have e1 : ∀ i : Fin m, (Matrix.mulVec (Fin.snoc (α := fun _ => Fin n → ℚ) P.A a : Fin (m + 1) → Fin n → ℚ) x)
      i.castSucc = P.A.mulVec x i := fun i => by
    exact congrArg (fun r : Fin n → ℚ => r ⬝ᵥ x) (Fin.snoc_castSucc (α := fun _ => Fin n → ℚ) a P.A i)
  have e2 : (Matrix.mulVec (Fin.snoc (α := fun _ => Fin n → ℚ) P.A a : Fin (m + 1) → Fin n → ℚ) x)
      (Fin.last m) = ∑ j, a j * x j := by
    exact congrArg (fun r : Fin n → ℚ => r ⬝ᵥ x) (Fin.snoc_last (α := fun _ => Fin n → ℚ) a P.A)
  constructor
  · intro h
    refine ⟨⟨fun i => ?_, h.negs, h.poss⟩, ?_⟩
    · have := h.rows i.castSucc
      simp only [e1] at this
      simpa using this
    · have := h.rows (Fin.last m)
      simp only [e2] at this
      simpa using this
  · rintro ⟨h, h'⟩
    refine ⟨fun i => ?_, h.negs, h.poss⟩
    refine Fin.lastCases ?_ (fun i => ?_) i
    · simp only [e2]; simpa using h'
    · simp only [e1]; simpa using h.rows i

/-- C29: exactly the calls of the wrong length or with an unknown operator raise, always `ValueError`
(the model returns no new state on failure: all checks precede the first assignment). -/
theorem C29_rejects (P : LP m n) (a : List ℚ) (s : String) (v : ℚ) :
    (addConstraint P a s v = .error .valueError ↔
      a.length ≠ n ∨ (s ≠ "=" ∧ s ≠ "<=" ∧ s ≠ ">=")) ∧
    ∀ e, addConstraint P a s v = .error e → e = .valueError := by
  unfold addConstraint
  cases h1 : toVec n a with
  | none =>
    have := toVec_none.mp h1
    simp [this]
  | some w =>
    have h1' := toVec_iff.mp h1
    have hl : a.length = n := by rw [h1']; simp
    cases h2 : Ineq.parse s with
    | none =>
      have h2' : ∀ q : Ineq, s ≠ q.sym := fun q hq => by rw [Ineq.parse_iff.mpr hq] at h2; cases h2
      have := h2' .eq
      have := h2' .le
      have := h2' .ge
      simp_all [Ineq.sym]
    | some q =>
      have := Ineq.parse_iff.mp h2
      simp only [reduceCtorEq, false_iff, not_or, not_and, ne_eq, not_not, hl, true_and, false_imp_iff,
        implies_true, and_true]
      rw [this]
      cases q <;> decide

/-- A concrete case: adding `x1 + x2 <= 4` to a program with one equality. -/
example : ∃ Q, addConstraint (⟨!![1, 0], ![1], ![1, 1], 0, .max, ![.eq], [], [], true⟩ : LP 1 2) [1, 1] "<=" 4
    = .ok Q ∧ Q.isSef = false := ⟨_, rfl, rfl⟩

/-! ### C30 -/

/-- C30: `(x, t)` is feasible for the extended program iff `t` obeys its sign and `x` satisfies the
constraints whose left side is increased by `column * t`; the objective gains `coef * t`. -/
theorem C30_extend (P : LP m n) (hP : WF P) (coef : ℚ) (col : Fin m → ℚ) (free negative : Bool)
    (hfn : ¬ (free = true ∧ negative = true)) :
    ∃ Q, addVariable P coef (some (List.ofFn col)) free negative = .ok Q ∧
      (∀ (x : Fin n → ℚ) (t : ℚ), Feas Q (Fin.snoc (α := fun _ => ℚ) x t) ↔
        (∀ i, rowHolds (P.ineq i) ((∑ j, P.A i j * x j) + col i * t) (P.b i)) ∧
        (∀ j : Fin n, (j : ℕ) ∈ P.neg → x j ≤ 0) ∧
        (∀ j : Fin n, (j : ℕ) ∉ P.neg → (j : ℕ) ∉ P.free → 0 ≤ x j) ∧
        (if negative then t ≤ 0 else if free then True else 0 ≤ t)) ∧
      (∀ (x : Fin n → ℚ) (t : ℚ), objVal Q (Fin.snoc (α := fun _ => ℚ) x t) = objVal P x + coef * t) ∧
      (∀ x : Fin n → ℚ, Feas Q (Fin.snoc (α := fun _ => ℚ) x 0) ↔ Feas P x) ∧
      Q.objective = P.objective := by
  have hnf : (n : ℕ) ∉ P.free := fun h => absurd (hP.freeLt n h) (lt_irrefl _)
  have hnn : (n : ℕ) ∉ P.neg := fun h => absurd (hP.negLt n h) (lt_irrefl _)
  have hadd : addVariable P coef (some (List.ofFn col)) free negative = .ok
      { A := fun i => (Fin.snoc (α := fun _ => ℚ) (P.A i) (col i) : Fin (n + 1) → ℚ)
        b := P.b
        c := (Fin.snoc (α := fun _ => ℚ) P.c coef : Fin (n + 1) → ℚ)
        z := P.z, objective := P.objective, ineq := P.ineq
        free := if free then P.free ++ [n] else P.free
        neg := if negative then P.neg ++ [n] else P.neg
        isSef := if free || negative then false else P.isSef } := by
    unfold addVariable
    rw [if_neg (by simpa using hfn)]
    simp only [Option.getD_some, toVec_ofFn]
    cases free <;> cases negative <;> simp_all [addVariableMark]
  have hfeas : ∀ (x : Fin n → ℚ) (t : ℚ), Feas
      { A := fun i => (Fin.snoc (α := fun _ => ℚ) (P.A i) (col i) : Fin (n + 1) → ℚ)
        b := P.b
        c := (Fin.snoc (α := fun _ => ℚ) P.c coef : Fin (n + 1) → ℚ)
        z := P.z, objective := P.objective, ineq := P.ineq
        free := if free then P.free ++ [n] else P.free
        neg := if negative then P.neg ++ [n] else P.neg
        isSef := if free || negative then false else P.isSef } (Fin.snoc (α := fun _ => ℚ) x t) ↔
        (∀ i, rowHolds (P.ineq i) ((∑ j, P.A i j * x j) + col i * t) (P.b i)) ∧
        (∀ j : Fin n, (j : ℕ) ∈ P.neg → x j ≤ 0) ∧
        (∀ j : Fin n, (j : ℕ) ∉ P.neg → (j : ℕ) ∉ P.free → 0 ≤ x j) ∧
        (if negative then t ≤ 0 else if free then True else 0 ≤ t) := by
    intro x t
    have hmul : ∀ i, (Matrix.mulVec (fun i => (Fin.snoc (α := fun _ => ℚ) (P.A i) (col i) : Fin (n + 1) → ℚ))
        (Fin.snoc (α := fun _ => ℚ) x t)) i = (∑ j, P.A i j * x j) + col i * t := by
      intro i
      simp [Matrix.mulVec, dotProduct, Fin.sum_univ_castSucc]
    constructor
    · intro h
      refine ⟨fun i => ?_, fun j hj => ?_, fun j hj hj' => ?_, ?_⟩
      · have := h.rows i
        simp only [hmul] at this
        exact this
      · have := h.negs j.castSucc (by
          cases negative <;> simp [hj])
        simpa using this
      · have := h.poss j.castSucc
          (by cases negative <;> simp [hj, (ne_of_lt j.2)])
          (by cases free <;> simp [hj', (ne_of_lt j.2)])
        simpa using this
      · cases hn : negative with
        | true =>
          have := h.negs (Fin.last n) (by simp [hn])
          simpa using this
        | false =>
          cases hf : free with
          | true => simp
          | false =>
            have := h.poss (Fin.last n) (by simp [hn, hnn]) (by simp [hf, hnf])
            simpa using this
    · rintro ⟨h1, h2, h3, h4⟩
      refine ⟨fun i => ?_, fun j => ?_, fun j => ?_⟩
      · simp only [hmul]; exact h1 i
      · refine Fin.lastCases ?_ (fun j => ?_) j
        · intro hj
          cases hn : negative with
          | true => simpa [hn] using h4
          | false => simp [hn, hnn] at hj
        · intro hj
          have : (j : ℕ) ∈ P.neg := by
            cases hn : negative with
            | true => simpa [hn, (ne_of_lt j.2)] using hj
            | false => simpa [hn] using hj
          simpa using h2 j this
      · refine Fin.lastCases ?_ (fun j => ?_) j
        · intro hj hj'
          cases hn : negative with
          | true => simp [hn] at hj
          | false =>
            cases hf : free with
            | true => simp [hf] at hj'
            | false => simpa [hn, hf] using h4
        · intro hj hj'
          have e1 : (j : ℕ) ∉ P.neg := by
            cases hn : negative with
            | true => simp [hn] at hj; exact hj.1
            | false => simpa [hn] using hj
          have e2 : (j : ℕ) ∉ P.free := by
            cases hn : free with
            | true => simp [hn] at hj'; exact hj'.1
            | false => simpa [hn] using hj'
          simpa using h3 j e1 e2
  refine ⟨_, hadd, hfeas, fun x t => ?_, fun x => ?_, rfl⟩
  · simp [objVal, dotProduct, Fin.sum_univ_castSucc]; ring
  · rw [hfeas]
    constructor
    · rintro ⟨h1, h2, h3, _⟩
      exact ⟨fun i => by simpa [Matrix.mulVec, dotProduct] using h1 i, h2, h3⟩
    · intro h
      refine ⟨fun i => by simpa [Matrix.mulVec, dotProduct] using h.rows i, h.negs, h.poss, ?_⟩
      cases negative <;> cases free <;> simp

/-- C30: without a column the new variable does not occur in the constraints. -/
theorem C30_default_column (P : LP m n) (coef : ℚ) (free negative : Bool) :
    addVariable P coef none free negative
      = addVariable P coef (some (List.ofFn fun _ : Fin m => 0)) free negative := by
  unfold addVariable
  have : List.replicate m (0 : ℚ) = List.ofFn fun _ : Fin m => 0 := by rw [List.ofFn_const]
  simp only [Option.getD_none, Option.getD_some, this]

/-- C30: a variable cannot be declared free and negative, and the column must have one entry per row. -/
theorem C30_rejects (P : LP m n) (coef : ℚ) (col : List ℚ) (free negative : Bool) :
    (free = true ∧ negative = true) ∨ col.length ≠ m ↔
      addVariable P coef (some col) free negative = .error .valueError := by
  unfold addVariable
  by_cases h : free = true ∧ negative = true
  · simp [h.1, h.2]
  · rw [if_neg (by simpa using h)]
    cases hc : toVec m col with
    | none =>
      have := toVec_none.mp hc
      simp [hc, this]
    | some v =>
      have : col.length = m := by rw [toVec_iff.mp hc]; simp
      simp only [h, false_or, ne_eq, this, not_true, false_iff, Option.getD_some, hc]
      simp

/-- A concrete case: adding a negative variable. -/
example : ∃ Q, addVariable (⟨!![1, 0], ![1], ![1, 1], 0, .max, ![.eq], [], [], true⟩ : LP 1 2) 5 (some [7])
    false true = .ok Q ∧ Q.neg = [2] ∧ Q.c (Fin.last 2) = 5 ∧ Q.A 0 (Fin.last 2) = 7 := ⟨_, rfl, rfl, rfl, rfl⟩

/-! ### C31 -/

/-- C31: `evaluate(x) = c.x + z`. -/
theorem C31_evaluate (P : LP m n) (x : Fin n → ℚ) :
    evaluate P (List.ofFn x) = .ok ((∑ j, P.c j * x j) + P.z) := by
  simp only [evaluate, toVec_ofFn]; rfl

/-- C31: vectors of the wrong length raise `ValueError`. -/
theorem C31_length (P : LP m n) (x : List ℚ) (h : x.length ≠ n) :
    evaluate P x = .error .valueError ∧ isFeasible P x = .error .valueError ∧
      valueOf P x = .error .valueError := by
  have := toVec_none.mpr h
  simp [evaluate, isFeasible, valueOf, this]

/-- C31: every exactly feasible point is accepted. -/
theorem C31_accepts (P : LP m n) (hP : WF P) (x : Fin n → ℚ) (h : Feas P x) :
    isFeasible P (List.ofFn x) = .ok true := by
  simp only [isFeasible, toVec_ofFn, Except.ok.injEq]
  unfold isFeasibleVec
  split
  · rename_i hs
    obtain ⟨h1, h2⟩ := (feas_sef_iff hP hs).mp h
    simp only [Bool.and_eq_true, decide_eq_true_eq]
    refine ⟨fun j => ?_, fun i => ?_⟩
    · rw [pyCmp_ge_zero_iff]; have := tol_pos; have := h2 j; linarith
    · rw [h1]; exact npIsClose_self _
  · simp only [Bool.and_eq_true, decide_eq_true_eq]
    refine ⟨fun j => ?_, fun i => ?_⟩
    · split
      · exact h.negs j (by assumption)
      · split
        · exact h.poss j (by assumption) (by assumption)
        · trivial
    · have := h.rows i
      cases hq : P.ineq i
      · rw [hq] at this
        simp only [rowHolds] at this
        rw [this]
        simp only [rowOk, mathIsClose, sub_self, abs_zero, decide_eq_true_eq]
        positivity
      · rw [hq] at this
        simpa [rowOk, rowHolds] using this
      · rw [hq] at this
        simpa [rowOk, rowHolds] using this

/-- How far a point accepted by `is_feasible` may be from feasible. In SEF: every entry is above
`-1e-10` and every row is within NumPy's closeness of its right side. Otherwise signs and
inequalities hold exactly and equalities hold within relative `1e-9`. -/
def NearFeas (P : LP m n) (x : Fin n → ℚ) : Prop :=
  if P.isSef then
    (∀ j, -(1 / 10 ^ 10) < x j) ∧
    ∀ i, |(∑ j, P.A i j * x j) - P.b i| ≤ 1 / 10 ^ 8 + 1 / 10 ^ 5 * |P.b i|
  else
    (∀ j : Fin n, (j : ℕ) ∈ P.neg → x j ≤ 0) ∧
    (∀ j : Fin n, (j : ℕ) ∉ P.neg → (j : ℕ) ∉ P.free → 0 ≤ x j) ∧
    ∀ i, match P.ineq i with
      | .le => (∑ j, P.A i j * x j) ≤ P.b i
      | .ge => P.b i ≤ ∑ j, P.A i j * x j
      | .eq => |(∑ j, P.A i j * x j) - P.b i| ≤ 1 / 10 ^ 9 * max |∑ j, P.A i j * x j| |P.b i|

/-- C31: `is_feasible` answers `True` exactly on the points feasible within the tolerances. -/
theorem C31_tolerance (P : LP m n) (x : Fin n → ℚ) :
    isFeasible P (List.ofFn x) = .ok true ↔ NearFeas P x := by
  simp only [isFeasible, toVec_ofFn, Except.ok.injEq]
  unfold isFeasibleVec NearFeas
  split
  · simp only [Bool.and_eq_true, decide_eq_true_eq, pyCmp_ge_zero_iff, npIsClose_iff, tol]
    rfl
  · simp only [Bool.and_eq_true, decide_eq_true_eq, and_assoc]
    constructor
    · rintro ⟨h1, h2⟩
      refine ⟨fun j hj => ?_, fun j hj hj' => ?_, fun i => ?_⟩
      · have := h1 j; rwa [if_pos hj] at this
      · have := h1 j; rwa [if_neg hj, if_pos hj'] at this
      · have := h2 i
        cases hq : P.ineq i
        · rw [hq] at this
          simp only [rowOk, mathIsClose, decide_eq_true_eq] at this
          exact this
        · rw [hq] at this
          simp only [rowOk, gt_iff_lt, Bool.not_eq_true', decide_eq_false_iff_not, not_lt] at this
          exact this
        · rw [hq] at this
          simp only [rowOk, Bool.not_eq_true', decide_eq_false_iff_not, not_lt] at this
          exact this
    · rintro ⟨h1, h2, h3⟩
      refine ⟨fun j => ?_, fun i => ?_⟩
      · by_cases hj : (j : ℕ) ∈ P.neg
        · rw [if_pos hj]; exact h1 j hj
        · rw [if_neg hj]
          by_cases hj' : (j : ℕ) ∈ P.free
          · rw [if_neg (by simpa using hj')]; trivial
          · rw [if_pos hj']; exact h2 j hj hj'
      · have := h3 i
        cases hq : P.ineq i
        · rw [hq] at this
          simp only [rowOk, mathIsClose, decide_eq_true_eq]
          exact this
        · rw [hq] at this
          simp only [rowOk, gt_iff_lt, Bool.not_eq_true', decide_eq_false_iff_not, not_lt]
          exact this
        · rw [hq] at this
          simp only [rowOk, Bool.not_eq_true', decide_eq_false_iff_not, not_lt]
          exact this

/-- C31: without equality rows (and not in SEF) `is_feasible` is exact. -/
theorem C31_exact (P : LP m n) (hs : P.isSef = false) (hq : ∀ i, P.ineq i ≠ .eq) (x : Fin n → ℚ) :
    isFeasible P (List.ofFn x) = .ok true ↔ Feas P x := by
  rw [C31_tolerance, NearFeas, if_neg (by simp [hs])]
  constructor
  · rintro ⟨h1, h2, h3⟩
    refine ⟨fun i => ?_, h1, h2⟩
    have := h3 i
    cases h : P.ineq i
    · exact absurd h (hq i)
    · rw [h] at this; exact this
    · rw [h] at this; exact this
  · intro h
    refine ⟨h.negs, h.poss, fun i => ?_⟩
    have := h.rows i
    cases h : P.ineq i
    · exact absurd h (hq i)
    · rw [h] at this; exact this
    · rw [h] at this; exact this

/-- C31: `value_of(x)` returns `evaluate(x)` if `is_feasible(x)`, else raises `ValueError`. -/
theorem C31_valueOf (P : LP m n) (x : List ℚ) :
    (isFeasible P x = .ok true → ∃ v, evaluate P x = .ok v ∧ valueOf P x = .ok v) ∧
    (isFeasible P x ≠ .ok true → valueOf P x = .error .valueError) := by
  unfold valueOf isFeasible evaluate
  cases h : toVec n x with
  | none => simp
  | some v =>
    simp only [Except.ok.injEq, ne_eq]
    refine ⟨fun h => ?_, fun h => ?_⟩
    · rw [h]; exact ⟨_, rfl, rfl⟩
    · rw [Bool.not_eq_true] at h
      rw [h]

/-- A concrete feasible point of a program with a `<=` row, a `>=` row and a negative variable. -/
example : Feas (⟨!![1, 1; 1, 0], ![3, 1], ![1, 1], 0, .max, ![.le, .ge], [], [1], false⟩ : LP 2 2) ![2, -1] := by
  refine ⟨fun i => ?_, fun j hj => ?_, fun j hj _ => ?_⟩
  · fin_cases i <;> simp [rowHolds] <;> norm_num
  · fin_cases j
    · simp at hj
    · norm_num
  · fin_cases j
    · norm_num
    · simp at hj

end Props
end Pytimize
