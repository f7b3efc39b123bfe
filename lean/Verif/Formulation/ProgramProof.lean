/-
Lemmas about `subject_to`, `where` and the compiled program.
-/
import Mathlib.Data.Fin.VecNotation
import Verif.Formulation.EquationProof
import Verif.Formulation.Program

namespace Pytimize
namespace Formulation
open LinProg (Ineq Obj Prog IntProgram PyVal ctor LP Feas objVal rowHolds)

/-! ### `subject_to` -/

theorem linOnly_ok {cons : List Con} {cs : List LinCon} : linOnly cons = .ok cs ↔ cons = cs.map .lin := by
  induction cons generalizing cs with
  | nil =>
    simp only [linOnly, Except.ok.injEq]
    constructor
    · rintro rfl; rfl
    · intro h; cases cs with
      | nil => rfl
      | cons a l => cases h
  | cons c l ih =>
    cases c with
    | lin c =>
      simp only [linOnly]
      generalize hr : linOnly l = r at *
      rcases r with e | r
      · simp only [reduceCtorEq, false_iff] at ih ⊢
        cases cs with
        | nil => simp
        | cons a cs =>
          intro h
          simp only [List.map_cons, List.cons.injEq] at h
          exact (ih (cs := cs)) h.2
      · simp only [Except.ok.injEq] at ih ⊢
        cases cs with
        | nil => simp
        | cons a cs =>
          simp only [List.map_cons, List.cons.injEq, Con.lin.injEq]
          rw [← ih]
    | sign s => simp only [linOnly, reduceCtorEq, false_iff]; cases cs <;> simp
    | bool b => simp only [linOnly, reduceCtorEq, false_iff]; cases cs <;> simp

theorem padRight_ok {a : Option (List ℚ)} {n : ℕ} {l : List ℚ} (h : padRight a n = .ok l) :
    l.length = n ∧ ∀ p, dot l p = a.elim 0 fun b => dot b p := by
  unfold padRight at h
  cases a with
  | none =>
    cases h
    refine ⟨by simp, fun p => ?_⟩
    have := dot_pad [] n p
    simpa [dot] using this
  | some b =>
    simp only at h
    split at h
    · cases h
    · cases h
      exact ⟨by simp; omega, fun p => dot_pad _ _ _⟩

theorem padRight_iff {a : Option (List ℚ)} {n : ℕ} :
    (∃ l, padRight a n = .ok l) ↔ ∀ l, a = some l → l.length ≤ n := by
  unfold padRight
  cases a with
  | none => simp
  | some b =>
    simp only [Option.some.injEq, forall_eq']
    split
    · simpa using by assumption
    · simpa using by omega

theorem padRows_ok {n : ℕ} {cs : List LinCon} (hn : ∀ c ∈ cs, c.coeffs.length ≤ n) :
    ∃ rows, padRows n cs = .ok rows ∧
      List.Forall₂ (fun r c => r.length = n ∧ ∀ p, dot r p = dot (LinCon.coeffs c) p) rows cs := by
  induction cs with
  | nil => exact ⟨[], rfl, .nil⟩
  | cons c cs ih =>
    obtain ⟨rows, hr, hf⟩ := ih fun c hc => hn c (List.mem_cons_of_mem _ hc)
    obtain ⟨r, hp⟩ := (padRight_iff (a := some c.coeffs) (n := n)).mpr fun l hl => by
      cases hl; exact hn c (List.mem_cons_self ..)
    refine ⟨r :: rows, by simp only [padRows, hp, hr], .cons ?_ hf⟩
    exact padRight_ok hp

/-- What `subject_to` builds from constraints `cs` and an objective. -/
structure Built (O : Objective) (cs : List LinCon) (P : Abstract) : Prop where
  ne : cs ≠ []
  rows : List.Forall₂ (fun r c => r.length = P.c.length ∧ ∀ p, dot r p = dot (LinCon.coeffs c) p) P.A cs
  rhs : P.b = cs.map LinCon.const
  ops : P.ineqs = cs.map LinCon.op
  cost : ∀ p, dot P.c p = O.c.elim 0 fun b => dot b p
  z : P.z = O.z
  obj : P.objective = O.objective

theorem subjectTo_ok {O : Objective} {cons : List Con} {P : Abstract} (h : subjectTo O cons = .ok P) :
    ∃ cs, cons = cs.map .lin ∧ Built O cs P ∧ P.pos = [] ∧ P.neg = [] ∧ P.program = none ∧
      P.c.length = (cs.map fun c => c.coeffs.length).foldl max 0 := by
  unfold subjectTo at h
  generalize hl : linOnly cons = r at h
  rcases r with e | cs
  · cases h
  rw [linOnly_ok] at hl
  cases cs with
  | nil => cases h
  | cons c0 cs0 =>
    simp only at h
    generalize hcs : c0 :: cs0 = cs at *
    have hmax := (le_foldl_max (cs.map fun c => c.coeffs.length) 0).2
    generalize hn : (cs.map fun c => c.coeffs.length).foldl max 0 = n at *
    obtain ⟨rows, hr, hf⟩ := padRows_ok (n := n) (cs := cs) fun c hc => hmax _ (List.mem_map.mpr ⟨c, hc, rfl⟩)
    rw [hr] at h
    simp only at h
    generalize hp : padRight O.c n = r at h
    rcases r with e | c
    · cases h
    · cases h
      obtain ⟨h1, h2⟩ := padRight_ok hp
      refine ⟨cs, hl, ⟨by rw [← hcs]; simp, ?_, rfl, rfl, h2, rfl, rfl⟩, rfl, rfl, rfl, h1.trans hn.symm⟩
      simp only [h1]
      exact hf

theorem foldl_max_mem (l : List ℕ) (b : ℕ) : l.foldl max b = b ∨ l.foldl max b ∈ l := by
  induction l generalizing b with
  | nil => simp
  | cons c l ih =>
    rw [List.foldl_cons]
    rcases ih (max b c) with h | h
    · rw [h]
      rcases max_choice b c with h' | h' <;> simp [h']
    · simp [h]

theorem subjectTo_iff {O : Objective} {cons : List Con} :
    (∃ P, subjectTo O cons = .ok P) ↔
      cons ≠ [] ∧ (∀ c ∈ cons, ∃ l, c = .lin l) ∧
      ∀ l, O.c = some l → ∃ k, Con.lin k ∈ cons ∧ l.length ≤ k.coeffs.length := by
  constructor
  · rintro ⟨P, h⟩
    obtain ⟨cs, rfl, hb, -, -, -, hlen⟩ := subjectTo_ok h
    refine ⟨by simpa using hb.ne, fun c hc => ?_, fun l hl => ?_⟩
    · obtain ⟨k, _, rfl⟩ := List.mem_map.mp hc; exact ⟨k, rfl⟩
    · -- the padding of the objective succeeded
      have hpad : l.length ≤ (cs.map fun c => c.coeffs.length).foldl max 0 := by
        by_contra hc
        unfold subjectTo at h
        rw [linOnly_ok.mpr rfl] at h
        cases cs with
        | nil => exact hb.ne rfl
        | cons c0 cs0 =>
          simp only at h
          generalize c0 :: cs0 = cs at *
          have hmax := (le_foldl_max (cs.map fun c => c.coeffs.length) 0).2
          obtain ⟨rows, hr, hf⟩ := padRows_ok (n := (cs.map fun c => c.coeffs.length).foldl max 0) (cs := cs)
            fun c hc => hmax _ (List.mem_map.mpr ⟨c, hc, rfl⟩)
          rw [hr, hl] at h
          simp only [padRight] at h
          rw [if_pos (by omega)] at h
          cases h
      obtain ⟨c0, hc0⟩ := List.exists_mem_of_ne_nil _ hb.ne
      rcases foldl_max_mem (cs.map fun c => c.coeffs.length) 0 with h0 | h0
      · exact ⟨c0, List.mem_map.mpr ⟨c0, hc0, rfl⟩, by omega⟩
      · obtain ⟨k, hk, hke⟩ := List.mem_map.mp h0
        exact ⟨k, List.mem_map.mpr ⟨k, hk, rfl⟩, by rw [hke]; exact hpad⟩
  · rintro ⟨h1, h2, h3⟩
    have : ∃ cs : List LinCon, cons = cs.map .lin := by
      clear h1 h3
      induction cons with
      | nil => exact ⟨[], rfl⟩
      | cons c l ih =>
        obtain ⟨cs, rfl⟩ := ih fun c hc => h2 c (List.mem_cons_of_mem _ hc)
        obtain ⟨k, rfl⟩ := h2 c (List.mem_cons_self ..)
        exact ⟨k :: cs, rfl⟩
    obtain ⟨cs, rfl⟩ := this
    have hcs : cs ≠ [] := by simpa using h1
    unfold subjectTo
    rw [linOnly_ok.mpr rfl]
    cases cs with
    | nil => exact (hcs rfl).elim
    | cons c0 cs0 =>
      simp only
      generalize c0 :: cs0 = cs at *
      have hmax := (le_foldl_max (cs.map fun c => c.coeffs.length) 0).2
      obtain ⟨rows, hr, hf⟩ := padRows_ok (n := (cs.map fun c => c.coeffs.length).foldl max 0) (cs := cs)
        fun c hc => hmax _ (List.mem_map.mpr ⟨c, hc, rfl⟩)
      rw [hr]
      obtain ⟨c, hc⟩ := (padRight_iff (a := O.c) (n := (cs.map fun c => c.coeffs.length).foldl max 0)).mpr
        fun l hl => by
          obtain ⟨k, hk, hle⟩ := h3 l hl
          obtain ⟨k', hk', he⟩ := List.mem_map.mp hk
          cases he
          exact hle.trans (hmax _ (List.mem_map.mpr ⟨k, hk', rfl⟩))
      simp only [hc]
      exact ⟨_, rfl⟩

theorem subjectTo_package (O : Objective) (pk : Package) (cons : List Con) :
    subjectTo { O with package := pk } cons = subjectTo O cons := rfl

/-! ### Sign conditions -/

/-- The indices one list of a sign condition stands for. -/
def listed (n : ℕ) : Option (List ℤ) → List ℤ
  | none => []
  | some [] => (List.range n).map fun i : ℕ => (i : ℤ) + 1
  | some l => l

theorem addSigns_eq (n : ℕ) (s : Option (List ℤ)) (t : List ℤ) : addSigns n s t = t ++ listed n s := by
  unfold addSigns listed
  split <;> simp_all

/-- The variables required to be nonnegative (with repetitions) by a list of sign conditions. -/
def posListed (n : ℕ) (S : List VarCon) : List ℤ := S.flatMap fun s => listed n s.pos

/-- The variables required to be nonpositive. -/
def negListed (n : ℕ) (S : List VarCon) : List ℤ := S.flatMap fun s => listed n s.neg

theorem whereLoop_signs (P : Abstract) (S : List VarCon) :
    whereLoop P (S.map .sign) =
      ({ P with pos := P.pos ++ posListed P.c.length S, neg := P.neg ++ negListed P.c.length S }, none) := by
  induction S generalizing P with
  | nil => simp [whereLoop, posListed, negListed]
  | cons s S ih =>
    rw [List.map_cons, whereLoop, ih]
    simp only [addSigns_eq, posListed, negListed, List.flatMap_cons, List.append_assoc]

theorem whereLoop_cases (P : Abstract) (l : List Con) :
    (∃ S : List VarCon, l = S.map .sign) ∨ (whereLoop P l).2 = some .attributeError := by
  induction l generalizing P with
  | nil => exact Or.inl ⟨[], rfl⟩
  | cons c l ih =>
    cases c with
    | sign s =>
      rw [whereLoop]
      rcases ih { P with pos := addSigns P.c.length s.pos P.pos, neg := addSigns P.c.length s.neg P.neg } with h | h
      · obtain ⟨S, rfl⟩ := h; exact Or.inl ⟨s :: S, rfl⟩
      · exact Or.inr h
    | lin c => exact Or.inr rfl
    | bool b => exact Or.inr rfl

/-- No variable is listed twice or with both signs. -/
def Consistent (pos neg : List ℤ) : Prop := pos.Nodup ∧ neg.Nodup ∧ ∀ i ∈ pos, i ∉ neg

theorem addWhere_signs (P : Abstract) (S : List VarCon) :
    let pos := P.pos ++ posListed P.c.length S
    let neg := P.neg ++ negListed P.c.length S
    (Consistent pos neg ∧ addWhere P (S.map .sign) = ({ P with pos := pos, neg := neg, recompile := true }, none)) ∨
    (¬ Consistent pos neg ∧
      addWhere P (S.map .sign) = ({ P with pos := pos, neg := neg }, some .valueError)) := by
  intro pos neg
  unfold addWhere
  rw [whereLoop_signs]
  simp only
  by_cases h1 : ¬ pos.Nodup ∨ ¬ neg.Nodup
  · right
    rw [if_pos h1]
    refine ⟨fun h => ?_, rfl⟩
    rcases h1 with h1 | h1
    · exact h1 h.1
    · exact h1 h.2.1
  · rw [if_neg h1]
    by_cases h2 : ∃ i ∈ pos, i ∈ neg
    · right
      rw [if_pos h2]
      obtain ⟨i, hi, hi'⟩ := h2
      exact ⟨fun h => h.2.2 i hi hi', rfl⟩
    · left
      rw [if_neg h2]
      push Not at h1 h2
      exact ⟨⟨h1.1, h1.2, h2⟩, rfl⟩

/-- The sign conditions stated by a call. -/
def Call.signs : Call → List VarCon
  | .whereCall l => l.filterMap fun c => match c with
    | .sign s => some s
    | _ => none
  | .allPositive => [⟨some [], none⟩]
  | .allNegative => [⟨none, some []⟩]
  | .extend => []
  | .compile => []

/-- The sign conditions stated by a sequence of calls. -/
def signsOf (l : List Call) : List VarCon := l.flatMap Call.signs

/-- Every call of the sequence returned normally. -/
def Accepted (P : Abstract) : List Call → Prop
  | [] => True
  | c :: l => (call P c).2 = none ∧ Accepted (call P c).1 l

theorem filterMap_signs (S : List VarCon) : ((S.map Con.sign).filterMap fun c => match c with
    | .sign s => some s
    | _ => none) = S := by
  induction S with
  | nil => rfl
  | cons s S ih => simp [ih]

/-- What the state of a formulation is after accepted calls. -/
structure After (P : Abstract) (S : List VarCon) (P' : Abstract) : Prop where
  A : P'.A = P.A
  b : P'.b = P.b
  c : P'.c = P.c
  z : P'.z = P.z
  objective : P'.objective = P.objective
  ineqs : P'.ineqs = P.ineqs
  pos : P'.pos = P.pos ++ posListed P.c.length S
  neg : P'.neg = P.neg ++ negListed P.c.length S

theorem After.refl (P : Abstract) : After P [] P :=
  ⟨rfl, rfl, rfl, rfl, rfl, rfl, by simp [posListed], by simp [negListed]⟩

theorem After.trans {P Q R : Abstract} {S T : List VarCon} (h1 : After P S Q) (h2 : After Q T R) :
    After P (S ++ T) R :=
  ⟨h2.A.trans h1.A, h2.b.trans h1.b, h2.c.trans h1.c, h2.z.trans h1.z, h2.objective.trans h1.objective,
    h2.ineqs.trans h1.ineqs, by rw [h2.pos, h1.pos, h1.c]; simp [posListed],
    by rw [h2.neg, h1.neg, h1.c]; simp [negListed]⟩

/-- The cached program, when it would be used, is what compiling now would give. -/
def Fresh (P : Abstract) : Prop := ∀ q, P.program = some q → P.recompile = false → compile P = .ok q

theorem call_accepted {P : Abstract} {c : Call} (h : (call P c).2 = none) (hf : Fresh P)
    (hc : Consistent P.pos P.neg) :
    After P c.signs (call P c).1 ∧ Fresh (call P c).1 ∧ Consistent (call P c).1.pos (call P c).1.neg := by
  have hrange : ((List.range P.c.length).map fun i : ℕ => (i : ℤ) + 1).Nodup :=
    List.nodup_range.map fun a b h => by simpa using h
  cases c with
  | whereCall l =>
    simp only [call] at h ⊢
    rcases whereLoop_cases P l with ⟨S, rfl⟩ | hl
    · rcases addWhere_signs P S with ⟨hcon, he⟩ | ⟨hcon, he⟩
      · rw [he]
        refine ⟨⟨rfl, rfl, rfl, rfl, rfl, rfl, ?_, ?_⟩, fun q _ hq => (by cases hq), hcon⟩
        · simp only [Call.signs, filterMap_signs]
        · simp only [Call.signs, filterMap_signs]
      · rw [he] at h; cases h
    · unfold addWhere at h
      generalize whereLoop P l = r at h hl
      obtain ⟨P1, e⟩ := r
      simp only at hl
      subst hl
      cases h
  | allPositive =>
    simp only [call, whereAllPositive] at h ⊢
    by_cases h0 : P.neg.length + P.pos.length > 0
    · rw [if_pos h0] at h; cases h
    · rw [if_neg h0]
      have hn : P.neg = [] := List.length_eq_zero_iff.mp (by omega)
      have hp : P.pos = [] := List.length_eq_zero_iff.mp (by omega)
      refine ⟨⟨rfl, rfl, rfl, rfl, rfl, rfl, ?_, ?_⟩, fun q _ hq => (by cases hq), ?_⟩
      · simp [Call.signs, addSigns_eq, posListed]
      · simp [Call.signs, negListed, listed]
      · simp only [addSigns_eq, listed, hn, hp, List.nil_append]
        exact ⟨hrange, List.nodup_nil, by simp⟩
  | allNegative =>
    simp only [call, whereAllNegative] at h ⊢
    by_cases h0 : P.neg.length + P.pos.length > 0
    · rw [if_pos h0] at h; cases h
    · rw [if_neg h0]
      have hn : P.neg = [] := List.length_eq_zero_iff.mp (by omega)
      have hp : P.pos = [] := List.length_eq_zero_iff.mp (by omega)
      refine ⟨⟨rfl, rfl, rfl, rfl, rfl, rfl, ?_, ?_⟩, fun q _ hq => (by cases hq), ?_⟩
      · simp [Call.signs, posListed, listed]
      · simp [Call.signs, addSigns_eq, negListed]
      · simp only [addSigns_eq, listed, hn, hp, List.nil_append]
        exact ⟨List.nodup_nil, hrange, by simp⟩
  | extend =>
    exact ⟨⟨rfl, rfl, rfl, rfl, rfl, rfl, by simp [call, Formulation.extend, Call.signs, posListed],
      by simp [call, Formulation.extend, Call.signs, negListed]⟩, fun q _ hq => (by cases hq), hc⟩
  | compile =>
    simp only [call, getProgram] at h ⊢
    split
    · rename_i heq
      split at heq
      · cases heq
        exact ⟨After.refl P, hf, hc⟩
      · generalize hcm : Formulation.compile P = r at heq
        rcases r with e | q
        · cases heq
        · cases heq
          exact ⟨⟨rfl, rfl, rfl, rfl, rfl, rfl, by simp [Call.signs, posListed], by simp [Call.signs, negListed]⟩,
            fun q' hq _ => by cases hq; exact hcm, hc⟩
    · rename_i heq
      rw [heq] at h
      cases h

theorem calls_accepted {P : Abstract} {l : List Call} (h : Accepted P l) (hf : Fresh P)
    (hc : Consistent P.pos P.neg) :
    After P (signsOf l) (calls P l) ∧ Fresh (calls P l) ∧ Consistent (calls P l).pos (calls P l).neg := by
  induction l generalizing P with
  | nil => exact ⟨After.refl P, hf, hc⟩
  | cons c l ih =>
    obtain ⟨h1, h2, h3⟩ := call_accepted h.1 hf hc
    obtain ⟨h4, h5, h6⟩ := ih h.2 h2 h3
    exact ⟨by rw [signsOf, List.flatMap_cons]; exact h1.trans h4, h5, h6⟩

/-- With an up-to-date cache, `program` is the compiled state. -/
theorem getProgram_fresh {P : Abstract} (hf : Fresh P) : (getProgram P).2 = compile P := by
  unfold getProgram
  split
  · rename_i q h1 h2
    rw [hf q h1 h2]
  · generalize compile P = r
    rcases r with e | q <;> rfl

/-! ### The compiled program -/

theorem rowHolds_iff (op : Ineq) (a b : ℚ) : rowHolds op a b ↔ rel op a b := by
  cases op <;> exact Iff.rfl

/-- Membership in the signs of the compiled program. -/
theorem mem_index {n : ℕ} {l : List ℤ} {q : List ℕ} (h : LinProg.IndexSpec n l q) (j : ℕ) :
    j ∈ q ↔ (j : ℤ) + 1 ∈ l := by
  rw [← h.perm.mem_iff, List.mem_map]
  constructor
  · intro hj; exact ⟨j, hj, rfl⟩
  · rintro ⟨i, hi, he⟩
    have : i = j := by omega
    exact this ▸ hi

theorem mem_freeOf (P : Abstract) (j : ℕ) :
    (j : ℤ) + 1 ∈ freeOf P ↔ j < P.c.length ∧ (j : ℤ) + 1 ∉ P.neg ∧ (j : ℤ) + 1 ∉ P.pos := by
  unfold freeOf
  simp only [List.mem_filter, List.mem_map, List.mem_range, decide_eq_true_eq, List.mem_append, not_or]
  constructor
  · rintro ⟨⟨i, hi, he⟩, h⟩
    have : i = j := by omega
    exact ⟨this ▸ hi, h⟩
  · rintro ⟨h1, h2⟩
    exact ⟨⟨j, h1, rfl⟩, h2⟩

theorem forall₂_getElem {α β : Type} {R : α → β → Prop} {l : List α} {k : List β} (h : List.Forall₂ R l k)
    (i : ℕ) (hi : i < l.length) (hi' : i < k.length) : R l[i] k[i] := by
  induction h generalizing i with
  | nil => simp at hi
  | cons hr _ ih =>
    cases i with
    | zero => exact hr
    | succ i => exact ih i (by simpa using hi) (by simpa using hi')

theorem getD_ofFn {n : ℕ} (f : Fin n → ℚ) (j : Fin n) : (List.ofFn f).getD j 0 = f j := by
  simp [List.getD_eq_getElem?_getD]

/-- The meaning of the compiled program. -/
theorem compile_spec {O : Objective} {cs : List LinCon} {P P' : Abstract} {S : List VarCon} (hb : Built O cs P)
    (ha : After P S P') {q : Compiled} (hq : compile P' = .ok q) :
    ∃ Q, q = .linear Q ∧ Q.n = P.c.length ∧ Q.lp.objective = O.objective ∧
      (∀ i ∈ P'.neg, 1 ≤ i ∧ i ≤ Q.n) ∧
      ∀ p : Point, objVal Q.lp (fun j => p j) = (O.c.elim 0 fun b => dot b p) + O.z ∧
        (Feas Q.lp (fun j => p j) ↔ (∀ c ∈ cs, c.Holds p) ∧
          (∀ j < Q.n, (j : ℤ) + 1 ∈ P'.neg → p j ≤ 0) ∧
          (∀ j < Q.n, (j : ℤ) + 1 ∈ P'.pos → (j : ℤ) + 1 ∉ P'.neg → 0 ≤ p j)) := by
  unfold compile at hq
  simp only at hq
  generalize hr : ctor _ _ _ _ _ _ _ _ = r at hq
  rcases r with e | Q
  · cases hq
  cases hq
  rw [LinProg.ctor_iff] at hr
  obtain ⟨m, n, lp⟩ := Q
  obtain ⟨hmat, hrhs, hcost, hz, hobj, hineq, hfree, hneg, -, -⟩ := hr
  simp only at hmat hrhs hcost hz hobj hineq hfree hneg
  have hlen := hb.rows.length_eq
  have hA0 : P'.A ≠ [] := by
    rw [ha.A]
    intro h0
    rw [h0] at hlen
    exact hb.ne (List.length_eq_zero_iff.mp hlen.symm)
  have hhead : (P'.A.headD []).length = P.c.length := by
    have := hb.rows
    rw [ha.A] at hA0 ⊢
    cases h : P.A with
    | nil => exact (hA0 h).elim
    | cons r l =>
      rw [h] at this
      cases this with
      | cons h1 _ => exact h1.1
  have hcost' : P'.c = List.ofFn lp.c := by
    rcases hcost with h | h
    · simpa using h
    · cases h
  have hrhs' : P'.b = List.ofFn lp.b := by
    rcases hrhs with h | h
    · simpa using h
    · cases h
  have hn : n = P.c.length := by
    have := congrArg List.length hcost'
    rw [List.length_ofFn, ha.c] at this
    exact this.symm
  have hentry : m = P'.A.length ∧ ∀ (i : Fin m) (j : Fin n), lp.A i j = (P'.A.getD i []).getD j 0 := by
    rcases hmat with h | ⟨_, h⟩
    · injection h with h1 h2 h3
      subst h1 h2
      have h3 := eq_of_heq h3
      refine ⟨rfl, fun i j => ?_⟩
      rw [← h3]
      congr 1
      simp [List.getD_eq_getElem?_getD]
    · cases h
  obtain ⟨hm, hentry⟩ := hentry
  have hops : ∀ (i : Fin m) (hi : (i : ℕ) < P'.ineqs.length), lp.ineq i = P'.ineqs[(i : ℕ)] := by
    intro i hi
    rcases hineq with ⟨h, _⟩ | h
    · cases h
    · have h1 := Option.some.inj h
      have hinj : ∀ a b : Ineq, a.sym = b.sym → a = b := by
        intro a b; cases a <;> cases b <;> simp [Ineq.sym]
      apply hinj
      have := congrArg (fun l => l[(i : ℕ)]?) h1
      simpa [hi] using this.symm
  have hmc : m = cs.length := by rw [hm, ha.A, hlen]
  refine ⟨⟨m, n, lp⟩, rfl, hn, ?_, ?_, fun p => ⟨?_, ?_⟩⟩
  · have hinj : ∀ a b : Obj, a.name = b.name → a = b := by
      intro a b; cases a <;> cases b <;> simp [Obj.name]
    rw [← hb.obj, ← ha.objective]
    exact (hinj _ _ hobj).symm
  · intro i hi
    have hi' := hneg.perm.mem_iff.mpr hi
    obtain ⟨j, hj, rfl⟩ := List.mem_map.mp hi'
    have := hneg.lt j hj
    refine ⟨by omega, ?_⟩
    simp only
    omega
  · rw [← hb.cost p, ← hb.z, ← ha.z, ← ha.c, hcost']
    unfold objVal dot
    simp only [List.length_ofFn]
    rw [hz, Finset.sum_range]
    simp only [getD_ofFn]
    rfl
  · have hrow : ∀ (i : Fin m) (hi : (i : ℕ) < cs.length),
        rowHolds (lp.ineq i) (lp.A.mulVec (fun j => p j) i) (lp.b i) ↔ cs[(i : ℕ)].Holds p := by
      intro i hi
      have hiA : (i : ℕ) < P.A.length := by rw [hlen]; exact hi
      obtain ⟨hl, hd⟩ := forall₂_getElem hb.rows i hiA hi
      rw [rowHolds_iff]
      unfold LinCon.Holds
      have e1 : lp.A.mulVec (fun j => p j) i = dot cs[(i : ℕ)].coeffs p := by
        rw [← hd p]
        unfold dot
        rw [hl, ← hn, Finset.sum_range]
        simp only [Matrix.mulVec, dotProduct, hentry]
        refine Finset.sum_congr rfl fun j _ => ?_
        congr 2
        rw [ha.A]
        simp [List.getD_eq_getElem?_getD, hiA]
      have e2 : lp.b i = cs[(i : ℕ)].const := by
        have := congrArg (fun l => l[(i : ℕ)]?) hrhs'
        rw [ha.b, hb.rhs] at this
        simpa [hi] using this.symm
      have hio : (i : ℕ) < P'.ineqs.length := by rw [ha.ineqs, hb.ops]; simpa using hi
      have e3 : lp.ineq i = cs[(i : ℕ)].op := by
        rw [hops i hio]
        have : P'.ineqs = cs.map LinCon.op := by rw [ha.ineqs, hb.ops]
        simp [this]
      rw [e1, e2, e3]
    have hposs : ∀ j : Fin n, ((j : ℕ) ∉ lp.neg ∧ (j : ℕ) ∉ lp.free) ↔
        (((j : ℕ) : ℤ) + 1 ∉ P'.neg ∧ ((j : ℕ) : ℤ) + 1 ∈ P'.pos) := by
      intro j
      have e1 := mem_index hneg (j : ℕ)
      have e2 := mem_index hfree (j : ℕ)
      simp only [Option.getD_some] at e1 e2
      have hj : (j : ℕ) < P'.c.length := by rw [ha.c, ← hn]; exact j.2
      rw [e1, e2, mem_freeOf]
      tauto
    constructor
    · intro hF
      refine ⟨fun c hc => ?_, fun j hj hjn => ?_, fun j hj hjp hjn => ?_⟩
      · obtain ⟨i, hi, rfl⟩ := List.mem_iff_getElem.mp hc
        exact (hrow ⟨i, hmc ▸ hi⟩ hi).mp (hF.rows _)
      · exact hF.negs ⟨j, hj⟩ ((mem_index hneg j).mpr hjn)
      · have := (hposs ⟨j, hj⟩).mpr ⟨hjn, hjp⟩
        exact hF.poss ⟨j, hj⟩ this.1 this.2
    · rintro ⟨h1, h2, h3⟩
      refine ⟨fun i => ?_, fun j hj => ?_, fun j hj hj' => ?_⟩
      · have hi : (i : ℕ) < cs.length := hmc ▸ i.2
        exact (hrow i hi).mpr (h1 _ (List.getElem_mem hi))
      · exact h2 j j.2 ((mem_index hneg (j : ℕ)).mp hj)
      · have := (hposs j).mp ⟨hj, hj'⟩
        exact h3 j j.2 this.2 this.1

/-- Compiling succeeds when the sign conditions are consistent and the nonpositive variables exist. -/
theorem compile_ok {O : Objective} {cs : List LinCon} {P P' : Abstract} {S : List VarCon} (hb : Built O cs P)
    (ha : After P S P') (hc : Consistent P'.pos P'.neg) (hr : ∀ i ∈ P'.neg, 1 ≤ i ∧ i ≤ P.c.length) :
    ∃ Q, compile P' = .ok (.linear Q) := by
  have hlen := hb.rows.length_eq
  have hA0 : P'.A ≠ [] := by
    rw [ha.A]
    intro h0
    rw [h0] at hlen
    exact hb.ne (List.length_eq_zero_iff.mp hlen.symm)
  have hhead : (P'.A.headD []).length = P.c.length := by
    have := hb.rows
    rw [ha.A] at hA0 ⊢
    cases h : P.A with
    | nil => exact (hA0 h).elim
    | cons r l =>
      rw [h] at this
      cases this with
      | cons h1 _ => exact h1.1
  have hbl : P'.b.length = P'.A.length := by rw [ha.b, hb.rhs, ha.A, hlen]; simp
  have hil : P'.ineqs.length = P'.A.length := by rw [ha.ineqs, hb.ops, ha.A, hlen]; simp
  have hcl : P'.c.length = (P'.A.headD []).length := by rw [ha.c, hhead]
  have hix : ∀ {l : List ℤ}, l.Nodup → (∀ i ∈ l, 1 ≤ i ∧ i ≤ P.c.length) →
      ∃ q, LinProg.IndexSpec P.c.length l q := by
    intro l hl hr
    have hp : (LinProg.sortInt (LinProg.toArrayIndexing l)).Perm (LinProg.toArrayIndexing l) :=
      List.perm_insertionSort _ _
    refine ⟨_, LinProg.indexSpec_iff.mpr ⟨?_, rfl⟩⟩
    unfold LinProg.indexListOk
    simp only [Bool.or_eq_true, Bool.and_eq_true, decide_eq_true_eq, List.all_eq_true]
    right
    refine ⟨?_, fun i hi => ?_⟩
    · rw [hp.nodup_iff]
      exact hl.map fun a b h => by simpa using h
    · rw [hp.mem_iff] at hi
      obtain ⟨k, hk, rfl⟩ := List.mem_map.mp hi
      have := hr k hk
      constructor <;> omega
  obtain ⟨ng, hng⟩ := hix hc.2.1 hr
  have hfn : (freeOf P').Nodup := by
    unfold freeOf
    exact (List.nodup_range.map fun a b h => by simpa using h).filter _
  obtain ⟨fr, hfr⟩ := hix hfn (fun i hi => by
    unfold freeOf at hi
    simp only [List.mem_filter, List.mem_map, List.mem_range] at hi
    obtain ⟨⟨j, hj, rfl⟩, _⟩ := hi
    rw [ha.c] at hj
    constructor <;> omega)
  let n := (P'.A.headD []).length
  let lp : LP P'.A.length n := ⟨fun i j => (P'.A[i]).getD j 0, fun i => P'.b[(i : ℕ)]'(by rw [hbl]; exact i.2),
    fun j => P'.c[(j : ℕ)]'(by rw [hcl]; exact j.2), P'.z, P'.objective,
    fun i => P'.ineqs[(i : ℕ)]'(by rw [hil]; exact i.2), fr, ng,
    LinProg.sefFlag (fun i : Fin P'.A.length => P'.ineqs[(i : ℕ)]'(by rw [hil]; exact i.2)) fr ng P'.objective⟩
  refine ⟨⟨P'.A.length, n, lp⟩, ?_⟩
  unfold compile
  simp only
  have : ctor (.nd2 P'.A.length (P'.A.headD []).length fun i j => (P'.A[i]).getD j 0) (.nd1 P'.b) (.nd1 P'.c)
      P'.z P'.objective.name (some (P'.ineqs.map Ineq.sym)) (some (freeOf P')) (some P'.neg)
      = .ok ⟨P'.A.length, n, lp⟩ := by
    rw [LinProg.ctor_iff]
    refine ⟨Or.inl rfl, Or.inl ?_, Or.inl ?_, rfl, rfl, Or.inr ?_, ?_, ?_, ?_, ?_⟩
    · congr 1
      exact List.ext_getElem (by simp [hbl]) fun i h1 h2 => by simp [lp]
    · congr 1
      exact List.ext_getElem (by simp [hcl, n]) fun i h1 h2 => by simp [lp]
    · congr 1
      exact List.ext_getElem (by simp [hil]) fun i h1 h2 => by simp [lp]
    · simpa [n, hhead] using hfr
    · simpa [n, hhead] using hng
    · intro j hj hj'
      have h1 := (mem_index hfr j).mp hj
      have h2 := (mem_index hng j).mp hj'
      exact ((mem_freeOf P' j).mp h1).2.1 h2
    · simp only [lp, LinProg.sefFlag, Bool.and_eq_true, decide_eq_true_eq, List.isEmpty_iff]
      tauto
  rw [this]

end Formulation
end Pytimize
