/-
Helper lemmas about the program constructor and the well-formedness of programs.
-/
import Mathlib.Data.List.Perm.Lattice
import Mathlib.Data.List.OfFn
import Verif.LP.Sef

namespace Pytimize
namespace LinProg

/-- A Python value that denotes the vector `l`. -/
def IsVector (v : PyVal) (l : List ℚ) : Prop := v = .nd1 l ∨ v = .list (l.map .num)

/-- A Python value that denotes the `m × n` matrix `f`. A list of lists must have at least one row. -/
def IsMatrix (v : PyVal) (m n : ℕ) (f : Matrix (Fin m) (Fin n) ℚ) : Prop :=
  v = .nd2 m n f ∨
  0 < m ∧ v = .list ((List.ofFn fun i => PyVal.list (List.ofFn fun j => PyVal.num (f i j))))

theorem nums_iff {l : List PyVal} {q : List ℚ} : nums l = some q ↔ l = q.map .num := by
  induction l generalizing q with
  | nil => simp [nums]
  | cons a l ih =>
    cases a with
    | num x =>
      simp only [nums, Option.map_eq_some_iff]
      constructor
      · rintro ⟨q', h, rfl⟩
        rw [ih.mp h]; rfl
      · intro h
        cases q with
        | nil => simp at h
        | cons y q =>
          simp only [List.map_cons, List.cons.injEq, PyVal.num.injEq] at h
          exact ⟨q, ih.mpr h.2, by rw [h.1]⟩
    | list _ => simp only [nums]; constructor <;> intro h <;> cases q <;> simp_all
    | nd1 _ => simp only [nums]; constructor <;> intro h <;> cases q <;> simp_all
    | nd2 _ _ _ => simp only [nums]; constructor <;> intro h <;> cases q <;> simp_all
    | other => simp only [nums]; constructor <;> intro h <;> cases q <;> simp_all

theorem rowsOf_iff {l : List PyVal} {q : List (List ℚ)} :
    rowsOf l = some q ↔ l = q.map fun r => .list (r.map .num) := by
  induction l generalizing q with
  | nil => simp [rowsOf]
  | cons a l ih =>
    cases a with
    | list x =>
      simp only [rowsOf]
      cases hx : nums x with
      | none =>
        simp only [reduceCtorEq, false_iff]
        intro h
        cases q with
        | nil => simp at h
        | cons y q =>
          simp only [List.map_cons, List.cons.injEq, PyVal.list.injEq] at h
          rw [nums_iff.mpr h.1] at hx
          simp at hx
      | some r =>
        simp only [Option.map_eq_some_iff]
        have hr := nums_iff.mp hx
        constructor
        · rintro ⟨q', h, rfl⟩
          rw [ih.mp h, hr]; rfl
        · intro h
          cases q with
          | nil => simp at h
          | cons y q =>
            simp only [List.map_cons, List.cons.injEq, PyVal.list.injEq] at h
            have : nums x = some y := nums_iff.mpr h.1
            rw [hx] at this
            exact ⟨q, ih.mpr h.2, by rw [Option.some.inj this]⟩
    | num _ => simp only [rowsOf]; constructor <;> intro h <;> cases q <;> simp_all
    | nd1 _ => simp only [rowsOf]; constructor <;> intro h <;> cases q <;> simp_all
    | nd2 _ _ _ => simp only [rowsOf]; constructor <;> intro h <;> cases q <;> simp_all
    | other => simp only [rowsOf]; constructor <;> intro h <;> cases q <;> simp_all

theorem toNdarray_error {v : PyVal} {e : PyErr} (h : toNdarray v = .error e) : e = .valueError := by
  cases v with
  | num q => simp only [toNdarray, Except.error.injEq] at h; exact h.symm
  | list l =>
    simp only [toNdarray] at h
    split at h
    · cases h
    · split at h
      · cases h; rfl
      · split at h
        · cases h
        · cases h; rfl
  | nd1 l => cases h
  | nd2 m n f => cases h
  | other => simp only [toNdarray, Except.error.injEq] at h; exact h.symm

theorem toNdarray_vec {v : PyVal} {l : List ℚ} : toNdarray v = .ok (.d1 l) ↔ IsVector v l := by
  unfold IsVector
  cases v with
  | num q => simp [toNdarray]
  | list k =>
    simp only [toNdarray, reduceCtorEq, false_or, PyVal.list.injEq]
    constructor
    · intro h
      split at h
      · rename_i q hq
        cases h
        exact nums_iff.mp hq
      · split at h
        · cases h
        · split at h <;> cases h
    · intro h
      rw [nums_iff.mpr h]
  | nd1 l' => simp [toNdarray]
  | nd2 m n f => simp [toNdarray]
  | other => simp [toNdarray]

theorem ofFn_rows (rows : List (List ℚ)) (n : ℕ) (h : ∀ r ∈ rows, r.length = n) :
    (List.ofFn fun i : Fin rows.length => PyVal.list (List.ofFn fun j : Fin n =>
      PyVal.num ((rows[i])[j]'(by rw [Fin.getElem_fin, h _ (List.getElem_mem _)]; exact j.2))))
      = rows.map fun r => .list (r.map .num) := by
  apply List.ext_getElem
  · simp
  · intro i h1 h2
    simp only [List.getElem_ofFn, List.getElem_map, PyVal.list.injEq]
    have hi : i < rows.length := by simpa using h2
    apply List.ext_getElem
    · simp [h _ (List.getElem_mem hi)]
    · intro j h3 h4
      simp

theorem toNdarray_mat {v : PyVal} {m n : ℕ} {f : Matrix (Fin m) (Fin n) ℚ} :
    toNdarray v = .ok (.d2 m n f) ↔ IsMatrix v m n f := by
  unfold IsMatrix
  cases v with
  | num q => simp [toNdarray]
  | nd1 l' => simp [toNdarray]
  | other => simp [toNdarray]
  | nd2 m' n' f' =>
    simp only [toNdarray, Except.ok.injEq, reduceCtorEq, and_false, or_false]
    constructor <;> (intro h; cases h; rfl)
  | list l =>
    simp only [toNdarray, reduceCtorEq, false_or, PyVal.list.injEq]
    constructor
    · intro h
      split at h
      · cases h
      · rename_i hn
        split at h
        · cases h
        · rename_i rows hr
          split at h
          · rename_i hlen
            cases h
            have hl := rowsOf_iff.mp hr
            refine ⟨?_, ?_⟩
            · rcases rows with _ | ⟨r, rows⟩
              · rw [hl] at hn; simp [nums] at hn
              · simp
            · rw [hl]; exact (ofFn_rows rows _ hlen).symm
          · cases h
    · rintro ⟨hm, h⟩
      let rows : List (List ℚ) := List.ofFn fun i => List.ofFn fun j => f i j
      have hl : l = rows.map fun r => .list (r.map .num) := by
        rw [h, List.map_ofFn]
        congr 1
        funext i
        simp only [Function.comp, List.map_ofFn, PyVal.list.injEq]
        rfl
      have h1 : nums l = none := by
        rw [hl]
        obtain ⟨k, rfl⟩ : ∃ k, m = k + 1 := ⟨m - 1, by omega⟩
        simp [rows, List.ofFn_succ, nums]
      have h2 : rowsOf l = some rows := rowsOf_iff.mpr hl
      have hlen : rows.length = m := by simp [rows]
      have hmem : ∀ r ∈ rows, r.length = n := by
        intro r hr
        obtain ⟨i, rfl⟩ := (List.mem_ofFn' _ _).mp hr
        simp
      have hn : (rows.headD []).length = n := by
        obtain ⟨k, rfl⟩ : ∃ k, m = k + 1 := ⟨m - 1, by omega⟩
        simp [rows, List.ofFn_succ]
      rw [h1]
      simp only [h2]
      rw [dif_pos (by rw [hn]; exact hmem)]
      have key : ∀ (m' n' : ℕ) (hm' : m' = m) (hn' : n' = n) (g : Fin m' → Fin n' → ℚ),
          (∀ i j, g i j = f (Fin.cast hm' i) (Fin.cast hn' j)) →
          (Except.ok (Nd.d2 m' n' g) : Except PyErr Nd) = .ok (.d2 m n f) := by
        rintro m' n' rfl rfl g hg
        congr
        funext i j
        exact hg i j
      refine key _ _ hlen hn _ fun i j => ?_
      simp [rows]
      rfl

theorem toVec_iff {n : ℕ} {l : List ℚ} {f : Fin n → ℚ} : toVec n l = some f ↔ l = List.ofFn f := by
  unfold toVec
  constructor
  · intro h
    split at h
    · rename_i hl
      cases h
      apply List.ext_getElem
      · simp [hl]
      · intro i h1 h2; simp
    · cases h
  · rintro rfl
    rw [dif_pos (by simp)]
    congr
    funext i
    simp

theorem toVec_ofFn {n : ℕ} (f : Fin n → ℚ) : toVec n (List.ofFn f) = some f := toVec_iff.mpr rfl

theorem toVec_none {n : ℕ} {l : List ℚ} : toVec n l = none ↔ l.length ≠ n := by
  unfold toVec
  by_cases h : l.length = n <;> simp [h]

/-- `p` is the zero-based, increasing version of the one-based index list `l` of a program with `n`
variables. -/
structure IndexSpec (n : ℕ) (l : List ℤ) (p : List ℕ) : Prop where
  sorted : p.Pairwise (· < ·)
  lt : ∀ j ∈ p, j < n
  perm : (p.map fun j : ℕ => (j : ℤ) + 1).Perm l

theorem indexSpec_iff {n : ℕ} {l : List ℤ} {p : List ℕ} :
    IndexSpec n l p ↔ indexListOk (sortInt (toArrayIndexing l)) n = true ∧
      (sortInt (toArrayIndexing l)).map Int.toNat = p := by
  have hs : (sortInt (toArrayIndexing l)).Pairwise (· ≤ ·) := List.pairwise_insertionSort _ _
  have hp : (sortInt (toArrayIndexing l)).Perm (toArrayIndexing l) := List.perm_insertionSort _ _
  generalize sortInt (toArrayIndexing l) = k at hs hp
  unfold toArrayIndexing at hp
  have hp' : (k.map (· + 1)).Perm l := by
    have := hp.map (· + 1)
    rw [List.map_map] at this
    refine this.trans (List.Perm.of_eq ?_)
    exact List.map_id'' (fun _ => by simp) _
  constructor
  · rintro ⟨h1, h2, h3⟩
    have h4 : (p.map fun j : ℕ => (j : ℤ)).Perm k := by
      have h5 := h3.map (· - 1)
      simp only [List.map_map] at h5
      refine (List.Perm.trans ?_ h5).trans hp.symm
      apply List.Perm.of_eq
      congr 1
      funext j; simp
    have h5 : (p.map fun j : ℕ => (j : ℤ)).Pairwise (· ≤ ·) :=
      List.pairwise_map.mpr (h1.imp fun h => by exact_mod_cast h.le)
    have h6 : k = p.map fun j : ℕ => (j : ℤ) :=
      (List.Perm.eq_of_pairwise (fun a b _ _ h1 h2 => le_antisymm h1 h2) h5 hs h4).symm
    refine ⟨?_, ?_⟩
    · unfold indexListOk
      rw [h6]
      simp only [Bool.or_eq_true, Bool.and_eq_true, decide_eq_true_eq, List.all_eq_true]
      right
      refine ⟨?_, ?_⟩
      · exact (List.nodup_map_iff (fun a b h => by exact_mod_cast h)).mpr (h1.imp fun h => ne_of_lt h)
      · intro j hj
        obtain ⟨i, hi, rfl⟩ := List.mem_map.mp hj
        exact ⟨by omega, by exact_mod_cast h2 i hi⟩
    · rw [h6, List.map_map]
      exact List.map_id'' (fun _ => by simp) _
  · rintro ⟨h1, rfl⟩
    have h2 : k.Nodup ∧ ∀ i ∈ k, 0 ≤ i ∧ i < n := by
      unfold indexListOk at h1
      rcases k with _ | ⟨a, k⟩
      · simp
      · simpa using h1
    refine ⟨?_, ?_, ?_⟩
    · rw [List.pairwise_map]
      have : k.Pairwise fun a b => a ≤ b ∧ a ≠ b := List.Pairwise.and hs h2.1
      exact this.imp_of_mem fun {a b} ha hb h => by
        have := h2.2 a ha
        have := h2.2 b hb
        omega
    · intro j hj
      obtain ⟨i, hi, rfl⟩ := List.mem_map.mp hj
      have := h2.2 i hi
      omega
    · rw [List.map_map]
      refine List.Perm.trans (List.Perm.of_eq ?_) hp'
      apply List.map_congr_left
      intro i hi
      have := h2.2 i hi
      simp only [Function.comp]
      omega

/-- The symbol of an operator. -/
def Ineq.sym : Ineq → String
  | .eq => "="
  | .le => "<="
  | .ge => ">="

theorem Ineq.parse_iff {s : String} {q : Ineq} : Ineq.parse s = some q ↔ s = q.sym := by
  unfold Ineq.parse
  constructor
  · intro h
    split at h
    · cases h; assumption
    · split at h
      · cases h; assumption
      · split at h
        · cases h; assumption
        · cases h
  · rintro rfl
    cases q <;> decide

/-- The name of an objective. -/
def Obj.name : Obj → String
  | .max => "max"
  | .min => "min"

theorem Obj.parse_iff {s : String} {q : Obj} : Obj.parse s = some q ↔ s = q.name := by
  unfold Obj.parse
  constructor
  · intro h
    split at h
    · cases h; assumption
    · split at h
      · cases h; assumption
      · cases h
  · rintro rfl
    cases q <;> decide

theorem ineqArg_iff {m : ℕ} {a : Option (List String)} {q : Fin m → Ineq} :
    ineqArg m a = some q ↔
      (a = none ∧ q = fun _ => .eq) ∨ a = some (List.ofFn fun i => (q i).sym) := by
  cases a with
  | none => simp [ineqArg, eq_comm]
  | some l =>
    simp only [ineqArg, reduceCtorEq, false_and, false_or, Option.some.injEq]
    constructor
    · intro h
      split at h
      · rename_i hl
        split at h
        · rename_i hp
          cases h
          apply List.ext_getElem
          · simp [hl]
          · intro i h1 h2
            simp only [List.getElem_ofFn]
            exact Ineq.parse_iff.mp (Option.some_get _).symm
        · cases h
      · cases h
    · rintro rfl
      rw [dif_pos (by simp)]
      have hp : ∀ i : Fin m, Ineq.parse ((List.ofFn fun i => (q i).sym)[i]'(by simp)) = some (q i) := by
        intro i
        rw [Ineq.parse_iff]; simp
      rw [dif_pos (by intro i; rw [hp]; rfl)]
      congr
      funext i
      simp only [hp, Option.get_some]

variable {m n : ℕ}

theorem sefFlag_iff {q : Fin m → Ineq} {free neg : List ℕ} {o : Obj} :
    sefFlag q free neg o = true ↔ (∀ i, q i = .eq) ∧ free = [] ∧ neg = [] ∧ o = .max := by
  unfold sefFlag
  simp [and_assoc]

/-! ### Well-formedness is preserved -/

theorem WF.isSef_iff {P : LP m n} (h : WF P) :
    P.isSef = true ↔ (∀ i, P.ineq i = .eq) ∧ P.free = [] ∧ P.neg = [] ∧ P.objective = .max := by
  rw [h.sef, sefFlag_iff]

theorem WF.addConstraint {P : LP m n} (h : WF P) {a s v Q} (hq : addConstraint P a s v = .ok Q) :
    WF Q := by
  unfold LinProg.addConstraint at hq
  split at hq
  · cases hq
  · split at hq
    · cases hq
    · rename_i q _
      cases hq
      refine ⟨h.freeSorted, h.negSorted, h.freeLt, h.negLt, h.disj, ?_⟩
      rw [Bool.eq_iff_iff, sefFlag_iff]
      simp only
      constructor
      · intro hs
        split at hs
        · rename_i hq
          have := h.isSef_iff.mp hs
          refine ⟨fun i => ?_, this.2⟩
          refine Fin.lastCases ?_ (fun i => ?_) i
          · simpa using hq
          · simpa using this.1 i
        · cases hs
      · rintro ⟨h1, h2⟩
        have h3 : q = .eq := by simpa using h1 (Fin.last m)
        rw [if_pos h3]
        exact h.isSef_iff.mpr ⟨fun i => by simpa using h1 i.castSucc, h2⟩

theorem pairwise_append_last {l : List ℕ} {n : ℕ} (h : l.Pairwise (· < ·)) (hl : ∀ j ∈ l, j < n) :
    (l ++ [n]).Pairwise (· < ·) := by
  rw [List.pairwise_append]
  exact ⟨h, List.pairwise_singleton _ _, fun a ha b hb => by
    rw [List.mem_singleton.mp hb]; exact hl a ha⟩

theorem WF.addVariable {P : LP m n} (h : WF P) {a col f g Q} (hq : addVariable P a col f g = .ok Q) :
    WF Q := by
  unfold LinProg.addVariable at hq
  split at hq
  · cases hq
  · rename_i hfg
    simp only at hq
    split at hq
    · cases hq
    · cases hq
      have lt1 : ∀ j ∈ P.free, j < n + 1 := fun j hj => Nat.lt_succ_of_lt (h.freeLt j hj)
      have lt2 : ∀ j ∈ P.neg, j < n + 1 := fun j hj => Nat.lt_succ_of_lt (h.negLt j hj)
      cases f with
      | true =>
        simp only [addVariableMark, if_true]
        refine ⟨pairwise_append_last h.freeSorted h.freeLt, h.negSorted, ?_, lt2, ?_, ?_⟩
        · intro j hj
          rcases List.mem_append.mp hj with hj | hj
          · exact lt1 j hj
          · rw [List.mem_singleton.mp hj]; omega
        · intro j hj hj'
          rcases List.mem_append.mp hj with hj | hj
          · exact h.disj j hj hj'
          · rw [List.mem_singleton.mp hj] at hj'
            exact absurd (h.negLt n hj') (lt_irrefl _)
        · rw [eq_comm, Bool.eq_false_iff]
          intro hs
          have := (sefFlag_iff.mp hs).2.1
          simp at this
      | false =>
        cases g with
        | true =>
          simp only [addVariableMark, if_true, Bool.false_eq_true, if_false]
          refine ⟨h.freeSorted, pairwise_append_last h.negSorted h.negLt, lt1, ?_, ?_, ?_⟩
          · intro j hj
            rcases List.mem_append.mp hj with hj | hj
            · exact lt2 j hj
            · rw [List.mem_singleton.mp hj]; omega
          · intro j hj hj'
            rcases List.mem_append.mp hj' with hj' | hj'
            · exact h.disj j hj hj'
            · rw [List.mem_singleton.mp hj'] at hj
              exact absurd (h.freeLt n hj) (lt_irrefl _)
          · rw [eq_comm, Bool.eq_false_iff]
            intro hs
            have := (sefFlag_iff.mp hs).2.2.1
            simp at this
        | false =>
          exact ⟨h.freeSorted, h.negSorted, lt1, lt2, h.disj, h.sef⟩

theorem range_filter_sorted (n : ℕ) (p : ℕ → Bool) : ((List.range n).filter p).Pairwise (· < ·) :=
  (List.pairwise_lt_range).filter _

theorem WF.dual (P : LP m n) : WF (dual P) := by
  refine ⟨range_filter_sorted _ _, range_filter_sorted _ _, ?_, ?_, ?_, rfl⟩
  · intro j hj
    exact List.mem_range.mp (List.mem_filter.mp hj).1
  · intro j hj
    exact List.mem_range.mp (List.mem_filter.mp hj).1
  · intro j hj hj'
    have h1 := (List.mem_filter.mp hj)
    have h2 := (List.mem_filter.mp hj').2
    have hlt := List.mem_range.mp h1.1
    have h1 := h1.2
    simp only [hlt, dif_pos, decide_eq_true_eq] at h1
    simp [hlt, h1] at h2

theorem WF.toSef {P : LP m n} (h : WF P) : WF (toSef P).lp := by
  unfold LinProg.toSef
  by_cases hs : P.isSef = true
  · rw [if_pos hs]; exact h
  · rw [if_neg hs]; exact ⟨List.Pairwise.nil, List.Pairwise.nil, by simp, by simp, by simp, by
      rw [eq_comm, sefFlag_iff]; simp⟩

theorem toSef_isSef (P : LP m n) : (toSef P).lp.isSef = true := by
  unfold LinProg.toSef
  by_cases hs : P.isSef = true
  · rw [if_pos hs]; exact hs
  · rw [if_neg hs]

/-- What a successful construction looks like, read off the arguments. -/
structure ArgsFor (A b c : PyVal) (z : ℚ) (objective : String) (inequalities : Option (List String))
    (free neg : Option (List ℤ)) (p : Prog) : Prop where
  matrix : IsMatrix A p.m p.n p.lp.A
  rhs : IsVector b (List.ofFn p.lp.b)
  cost : IsVector c (List.ofFn p.lp.c)
  const : p.lp.z = z
  obj : objective = p.lp.objective.name
  ineqs : (inequalities = none ∧ ∀ i, p.lp.ineq i = .eq) ∨
    inequalities = some (List.ofFn fun i => (p.lp.ineq i).sym)
  frees : IndexSpec p.n (free.getD []) p.lp.free
  negs : IndexSpec p.n (neg.getD []) p.lp.neg
  disj : ∀ j ∈ p.lp.free, j ∉ p.lp.neg
  sef : p.lp.isSef = true ↔
    p.lp.objective = .max ∧ (∀ i, p.lp.ineq i = .eq) ∧ p.lp.free = [] ∧ p.lp.neg = []

theorem disj_iff {n : ℕ} {l k : List ℤ} {p q : List ℕ} (hp : IndexSpec n l p) (hq : IndexSpec n k q) :
    ((sortInt (toArrayIndexing l)).any fun i => decide (i ∈ sortInt (toArrayIndexing k))) = false ↔
      ∀ j ∈ p, j ∉ q := by
  obtain ⟨h1, h2⟩ := indexSpec_iff.mp hp
  obtain ⟨h3, h4⟩ := indexSpec_iff.mp hq
  generalize sortInt (toArrayIndexing l) = a at *
  generalize sortInt (toArrayIndexing k) = b at *
  have nn : ∀ {a : List ℤ} {n : ℕ}, indexListOk a n = true → ∀ i ∈ a, 0 ≤ i := by
    intro a n h i hi
    unfold indexListOk at h
    rcases a with _ | ⟨x, a⟩
    · simp at hi
    · simp only [List.isEmpty_cons, Bool.false_or, Bool.and_eq_true, List.all_eq_true,
        decide_eq_true_eq] at h
      exact (h.2 i hi).1
  rw [← Bool.not_eq_true, List.any_eq_true]
  subst h2 h4
  constructor
  · intro h j hj hj'
    obtain ⟨x, hx, rfl⟩ := List.mem_map.mp hj
    obtain ⟨y, hy, he⟩ := List.mem_map.mp hj'
    have := nn h1 x hx
    have := nn h3 y hy
    have : y = x := by omega
    subst this
    exact h ⟨y, hx, by simpa using hy⟩
  · rintro h ⟨x, hx, hy⟩
    exact h _ (List.mem_map.mpr ⟨x, hx, rfl⟩) (List.mem_map.mpr ⟨x, by simpa using hy, rfl⟩)

theorem ctor_error {A b c : PyVal} {z : ℚ} {objective : String} {inequalities : Option (List String)}
    {free neg : Option (List ℤ)} {e : PyErr}
    (h : ctor A b c z objective inequalities free neg = .error e) : e = .valueError := by
  unfold ctor at h
  split at h
  · split at h
    · simp only at h
      split at h
      · cases h; rfl
      · split at h
        · cases h; rfl
        · split at h
          · cases h; rfl
          · split at h
            · cases h; rfl
            · split at h
              · cases h; rfl
              · cases h
    · cases h; rfl
  · cases h; rfl

theorem ctor_iff {A b c : PyVal} {z : ℚ} {objective : String} {inequalities : Option (List String)}
    {free neg : Option (List ℤ)} {p : Prog} :
    ctor A b c z objective inequalities free neg = .ok p ↔
      ArgsFor A b c z objective inequalities free neg p := by
  constructor
  · intro h
    unfold ctor at h
    split at h
    · rename_i m n A' b' c' hA hb hc
      split at h
      · rename_i b'' c'' hb' hc'
        simp only at h
        split at h
        · cases h
        · rename_i h1
          split at h
          · cases h
          · rename_i h2
            split at h
            · cases h
            · rename_i h3
              split at h
              · cases h
              · rename_i q hq
                split at h
                · cases h
                · rename_i o ho
                  cases h
                  rw [toVec_iff] at hb' hc'
                  subst hb' hc'
                  have i1 : IndexSpec n (free.getD []) _ := indexSpec_iff.mpr ⟨by simpa using h1, rfl⟩
                  have i2 : IndexSpec n (neg.getD []) _ := indexSpec_iff.mpr ⟨by simpa using h2, rfl⟩
                  refine ⟨toNdarray_mat.mp hA, toNdarray_vec.mp hb, toNdarray_vec.mp hc, rfl,
                    Obj.parse_iff.mp ho, ?_, i1, i2, (disj_iff i1 i2).mp (by simpa using h3), ?_⟩
                  · rcases ineqArg_iff.mp hq with ⟨h, h'⟩ | h
                    · exact Or.inl ⟨h, fun i => by rw [h']⟩
                    · exact Or.inr h
                  · rw [sefFlag_iff]; tauto
      · cases h
    · cases h
  · obtain ⟨m, n, A', b', c', z', o, q, fr, ne, s⟩ := p
    rintro ⟨h1, h2, h3, h4, h5, h6, h7, h8, h9, h10⟩
    simp only at h1 h2 h3 h4 h5 h6 h7 h8 h9 h10
    subst h4
    unfold ctor
    rw [toNdarray_mat.mpr h1, toNdarray_vec.mpr h2, toNdarray_vec.mpr h3]
    simp only [toVec_ofFn]
    have i1 := indexSpec_iff.mp h7
    have i2 := indexSpec_iff.mp h8
    have i3 := (disj_iff h7 h8).mpr h9
    rw [if_neg (by rw [i1.1]; simp), if_neg (by rw [i2.1]; simp), if_neg (by rw [i3]; simp)]
    have hq : ineqArg m inequalities = some q := ineqArg_iff.mpr (by
      rcases h6 with ⟨h, h'⟩ | h
      · exact Or.inl ⟨h, funext h'⟩
      · exact Or.inr h)
    have ho : Obj.parse objective = some o := Obj.parse_iff.mpr h5
    simp only [hq, ho, i1.2, i2.2]
    have : sefFlag q fr ne o = s := by
      rw [Bool.eq_iff_iff, sefFlag_iff, h10]; tauto
    rw [this]

theorem ctor_wf {A b c : PyVal} {z : ℚ} {objective : String} {inequalities : Option (List String)}
    {free neg : Option (List ℤ)} {p : Prog}
    (h : ctor A b c z objective inequalities free neg = .ok p) : WF p.lp := by
  have h := ctor_iff.mp h
  exact ⟨h.frees.sorted, h.negs.sorted, h.frees.lt, h.negs.lt, h.disj, by
    rw [Bool.eq_iff_iff, sefFlag_iff, h.sef]; tauto⟩

end LinProg
end Pytimize
