/-
Properties C64-C66: the program built by a formulation, sign conditions, integer formulations.
-/
import Verif.Formulation.ProgramProof
import Verif.Props.Formulation

namespace Pytimize
namespace Props
open LinProg (Ineq Obj Feas objVal)
open Formulation

/-! ### C64 -/

/-- The explicit indices of the nonnegativity conditions name variables of the program. -/
def InRange (n : ℕ) (S : List VarCon) : Prop := ∀ s ∈ S, ∀ l, s.pos = some l → ∀ i ∈ l, 1 ≤ i ∧ i ≤ n

theorem mem_listed {n : ℕ} {s : Option (List ℤ)} {i : ℤ} :
    i ∈ listed n s ↔ ∃ l, s = some l ∧ (l = [] ∧ 1 ≤ i ∧ i ≤ n ∨ i ∈ l) := by
  unfold listed
  split
  · simp
  · simp only [List.mem_map, List.mem_range, Option.some.injEq, exists_eq_left', List.not_mem_nil, or_false,
      true_and]
    constructor
    · rintro ⟨j, hj, rfl⟩; omega
    · intro h; exact ⟨(i - 1).toNat, by omega, by omega⟩
  · rename_i l h
    simp only [Option.some.injEq, exists_eq_left']
    constructor
    · exact Or.inr
    · rintro (⟨h0, _⟩ | h0)
      · exact (h h0).elim
      · exact h0

/-- The sign lists of an accepted formulation say what its sign conditions say. -/
theorem signs_iff {n : ℕ} {S : List VarCon} (hin : InRange n S)
    (hneg : ∀ i ∈ negListed n S, 1 ≤ i ∧ i ≤ n) (hc : Consistent (posListed n S) (negListed n S)) (p : Point) :
    ((∀ j < n, (j : ℤ) + 1 ∈ negListed n S → p j ≤ 0) ∧
      (∀ j < n, (j : ℤ) + 1 ∈ posListed n S → (j : ℤ) + 1 ∉ negListed n S → 0 ≤ p j)) ↔
    ∀ s ∈ S, SignHolds n s p := by
  constructor
  · rintro ⟨h1, h2⟩ s hs
    refine ⟨fun l hl => ⟨fun h0 j hj => ?_, fun i hi => ?_⟩, fun l hl => ⟨fun h0 j hj => ?_, fun i hi => ?_⟩⟩
    · have hm : (j : ℤ) + 1 ∈ posListed n S :=
        List.mem_flatMap.mpr ⟨s, hs, mem_listed.mpr ⟨l, hl, Or.inl ⟨h0, by omega, by omega⟩⟩⟩
      exact h2 j hj hm (hc.2.2 _ hm)
    · have hr := hin s hs l hl i hi
      have hm : (((i - 1).toNat : ℕ) : ℤ) + 1 ∈ posListed n S := by
        rw [show (((i - 1).toNat : ℕ) : ℤ) + 1 = i by omega]
        exact List.mem_flatMap.mpr ⟨s, hs, mem_listed.mpr ⟨l, hl, Or.inr hi⟩⟩
      exact h2 _ (by omega) hm (hc.2.2 _ hm)
    · exact h1 j hj (List.mem_flatMap.mpr ⟨s, hs, mem_listed.mpr ⟨l, hl, Or.inl ⟨h0, by omega, by omega⟩⟩⟩)
    · have hm : i ∈ negListed n S := List.mem_flatMap.mpr ⟨s, hs, mem_listed.mpr ⟨l, hl, Or.inr hi⟩⟩
      have hr := hneg i hm
      refine h1 _ (by omega) ?_
      rwa [show (((i - 1).toNat : ℕ) : ℤ) + 1 = i by omega]
  · intro h
    refine ⟨fun j hj hm => ?_, fun j hj hm _ => ?_⟩
    · obtain ⟨s, hs, hm⟩ := List.mem_flatMap.mp hm
      obtain ⟨l, hl, hm⟩ := mem_listed.mp hm
      rcases hm with ⟨h0, _⟩ | hm
      · exact ((h s hs).2 l hl).1 h0 j hj
      · have := ((h s hs).2 l hl).2 _ hm
        rwa [show ((j : ℤ) + 1 - 1).toNat = j by omega] at this
    · obtain ⟨s, hs, hm⟩ := List.mem_flatMap.mp hm
      obtain ⟨l, hl, hm⟩ := mem_listed.mp hm
      rcases hm with ⟨h0, _⟩ | hm
      · exact ((h s hs).1 l hl).1 h0 j hj
      · have := ((h s hs).1 l hl).2 _ hm
        rwa [show ((j : ℤ) + 1 - 1).toNat = j by omega] at this

theorem consistent_nil : Consistent [] [] := ⟨List.nodup_nil, List.nodup_nil, by simp⟩

/-- C64: the program compiled after accepted calls has the given objective, and its feasible points are exactly
those satisfying every constraint and every sign condition; variables not mentioned in a sign condition are
free. Missing: formulations that are rejected although they are meaningful, see
`C64_objective_wrong` and the theorems after it. -/
theorem C64_partial {h : Heap} (hg : Good h) {v : Val} (hv : v.Ok h) {pk : Package} {o : Obj} {O : Objective}
    (hO : optimize pk o h v = .ok O) {cons : List Con} {P : Abstract} (hP : subjectTo O cons = .ok P)
    {cs : List Call} (hacc : Accepted P cs) {q : Compiled} (hq : (getProgram (calls P cs)).2 = .ok q)
    (hin : InRange P.c.length (signsOf cs)) :
    ∃ Q, q = .linear Q ∧ Q.n = P.c.length ∧ Q.lp.objective = o ∧ ∀ p : Point,
      objVal Q.lp (fun j => p j) = v.at h p ∧
      (Feas Q.lp (fun j => p j) ↔
        (∀ c ∈ cons, ConHolds Q.n p c) ∧ ∀ s ∈ signsOf cs, SignHolds Q.n s p) := by
  obtain ⟨ls, rfl, hb, hpos, hneg, hprog, -⟩ := subjectTo_ok hP
  have hfr : Fresh P := fun q hq => by rw [hprog] at hq; cases hq
  obtain ⟨ha, hf, hc⟩ := calls_accepted hacc hfr (by rw [hpos, hneg]; exact consistent_nil)
  rw [getProgram_fresh hf] at hq
  obtain ⟨Q, rfl, hn, hobj, hrange, hspec⟩ := compile_spec hb ha hq
  have e1 : (calls P cs).pos = posListed Q.n (signsOf cs) := by rw [ha.pos, hpos, hn]; rfl
  have e2 : (calls P cs).neg = negListed Q.n (signsOf cs) := by rw [ha.neg, hneg, hn]; rfl
  rw [e1, e2] at hc
  rw [e2] at hrange
  refine ⟨Q, rfl, hn, ?_, fun p => ⟨?_, ?_⟩⟩
  · rw [hobj]
    cases v with
    | num q => cases hO; rfl
    | eqn a => cases hO; rfl
    | var k => cases hO
    | none => cases hO
  · rw [(hspec p).1]
    cases v with
    | num q => cases hO; simp [Val.at]
    | eqn a =>
      cases hO
      obtain ⟨l, hl, _, hd⟩ := coefficients_spec (hg.deref hv).1 (hg.deref hv).2
      simp only [hl, Option.elim_some, hd]
      rfl
    | var k => cases hO
    | none => cases hO
  · rw [(hspec p).2, e1, e2, signs_iff (by rw [hn]; exact hin) hrange hc p]
    refine and_congr_left fun _ => ?_
    simp only [List.forall_mem_map, ConHolds]

/-- The constraint made by a comparison of two expressions without names. -/
theorem compareExpr_closed {h : Heap} (hg : Good h) {op : Ineq} {e f : Expr} (he : e.Linear) (hf : f.Linear)
    (hre : e.refs = []) (hrf : f.refs = []) (hpe : e.Plain []) (hpf : f.Plain []) {h' : Heap} {c : LinCon}
    (hc : compareExpr h op e f = .ok (h', .lin c)) :
    Good h' ∧ ∀ p, c.Holds p ↔ rel op (e.at [] p) (f.at [] p) := by
  have hr : (e.refs ++ f.refs).Nodup := by simp [hre, hrf]
  have hlt : ∀ a ∈ e.refs ++ f.refs, a < h.length := by simp [hre, hrf]
  have hfe : ∀ a ∈ e.refs, deref h a = deref [] a := by simp [hre]
  have hff : ∀ a ∈ f.refs, deref h a = deref [] a := by simp [hrf]
  obtain ⟨h1, v, h2, w, hse, hef, hsf, hvok, hd, hnw, -⟩ := evalPair hr hlt
    (eval_spec hg he (List.nodup_append.mp hr).1 fun a ha => hlt a (List.mem_append.mpr (Or.inl ha)))
    (fun k hk hk' => eval_spec hk hf (List.nodup_append.mp hr).2.1 hk')
  have hcmp := hc
  simp only [compareExpr, hse.run, hef] at hcmp
  have hn : ¬ (e.isNum ∧ f.isNum) := by
    rintro ⟨h3, h4⟩
    obtain ⟨a, rfl⟩ := hse.num.mpr h3
    obtain ⟨b, rfl⟩ := hnw.mpr h4
    simp [Formulation.compare] at hcmp
  have hv : e.isNum ∨ ∀ k, f ≠ .var k := by
    by_contra h0
    push Not at h0
    obtain ⟨h3, k, rfl⟩ := h0
    simp only [eval, Except.ok.injEq, Prod.mk.injEq] at hef
    obtain ⟨-, rfl⟩ := hef
    cases v with
    | num q => exact h3 (hse.num.mp ⟨q, rfl⟩)
    | var j => simp only [(C62_variable_wrong h2 op 0 j k).2] at hcmp; cases hcmp
    | eqn a => simp only [(C62_variable_wrong h2 op a 0 k).1] at hcmp; cases hcmp
    | none => exact hvok.elim
  obtain ⟨h3, c', hc', hg', _, hp⟩ := C62_expr_partial hg op he hf hr hlt ((Expr.plain_frame hfe).mpr hpe)
    ((Expr.plain_frame hff).mpr hpf) hn hv
  rw [hc] at hc'
  cases hc'
  refine ⟨hg', fun p => ?_⟩
  rw [← Expr.at_frame hfe p, ← Expr.at_frame hff p]
  exact hp 0 p

/-- An expression as users write it: no names, linear, and no added number is lost. -/
structure Simple (e : Expr) : Prop where
  closed : e.refs = []
  linear : e.Linear
  plain : e.Plain []

theorem compareExpr_good {h : Heap} (hg : Good h) {op : Ineq} {e f : Expr} (he : Simple e) (hf : Simple f)
    {h' : Heap} {c : Con} (hc : compareExpr h op e f = .ok (h', c)) : Good h' := by
  have hr : (e.refs ++ f.refs).Nodup := by simp [he.closed, hf.closed]
  have hlt : ∀ a ∈ e.refs ++ f.refs, a < h.length := by simp [he.closed, hf.closed]
  obtain ⟨h1, v, h2, w, hse, hef, hsf, -⟩ := evalPair hr hlt
    (eval_spec hg he.linear (List.nodup_append.mp hr).1 fun a ha => hlt a (List.mem_append.mpr (Or.inl ha)))
    (fun k hk hk' => eval_spec hk hf.linear (List.nodup_append.mp hr).2.1 hk')
  simp only [compareExpr, hse.run, hef] at hc
  generalize compare h2 op v w = r at hc
  rcases r with e | c
  · cases hc
  · cases hc; exact hsf.good

theorem evalCons_holds {h : Heap} (hg : Good h) {cons : List (Ineq × Expr × Expr)}
    (hs : ∀ t ∈ cons, Simple t.2.1 ∧ Simple t.2.2) {h' : Heap} {cs : List LinCon}
    (hc : evalCons h cons = .ok (h', cs.map .lin)) (p : Point) :
    (∀ c ∈ cs, c.Holds p) ↔ ∀ t ∈ cons, rel t.1 (t.2.1.at [] p) (t.2.2.at [] p) := by
  induction cons generalizing h h' cs with
  | nil =>
    simp only [evalCons, Except.ok.injEq, Prod.mk.injEq] at hc
    cases cs with
    | nil => simp
    | cons a l => simp at hc
  | cons t l ih =>
    obtain ⟨op, e, f⟩ := t
    simp only [evalCons] at hc
    generalize hr : compareExpr h op e f = r at hc
    rcases r with r | ⟨h1, c⟩
    · cases hc
    simp only at hc
    generalize hr2 : evalCons h1 l = r at hc
    rcases r with r | ⟨h2, ds⟩
    · cases hc
    simp only [Except.ok.injEq, Prod.mk.injEq] at hc
    obtain ⟨-, hcs⟩ := hc
    cases cs with
    | nil => cases hcs
    | cons k cs =>
      simp only [List.map_cons, List.cons.injEq] at hcs
      obtain ⟨rfl, rfl⟩ := hcs
      obtain ⟨s1, s2⟩ := hs _ (List.mem_cons_self ..)
      obtain ⟨hg1, hk⟩ := compareExpr_closed hg s1.linear s2.linear s1.closed s2.closed s1.plain s2.plain hr
      rw [List.forall_mem_cons, List.forall_mem_cons, hk p,
        ih hg1 (fun t ht => hs t (List.mem_cons_of_mem _ ht)) hr2]

/-- C64 on the text of a formulation: for `maximize(obj).subject_to(e1 <= f1, ...)` followed by sign conditions, the
compiled program's feasible points are the points at which the values of the expressions satisfy the stated
comparisons and sign conditions, and its objective is the value of `obj`. Missing: as in `C64_partial` and
`C61_partial`. -/
theorem C64_text_partial {h : Heap} (hg : Good h) {pk : Package} {o : Obj} {obj : Expr}
    {cons : List (Ineq × Expr × Expr)} {P : Abstract} (hP : formulate pk o h obj cons = .ok P)
    (hobj : Simple obj) (hcons : ∀ t ∈ cons, Simple t.2.1 ∧ Simple t.2.2)
    {cs : List Call} (hacc : Accepted P cs) {q : Compiled} (hq : (getProgram (calls P cs)).2 = .ok q)
    (hin : InRange P.c.length (signsOf cs)) :
    ∃ Q, q = .linear Q ∧ Q.lp.objective = o ∧ ∀ p : Point,
      objVal Q.lp (fun j => p j) = obj.at [] p ∧
      (Feas Q.lp (fun j => p j) ↔
        (∀ t ∈ cons, rel t.1 (t.2.1.at [] p) (t.2.2.at [] p)) ∧ ∀ s ∈ signsOf cs, SignHolds Q.n s p) := by
  obtain ⟨h1, v, hs⟩ := eval_spec hg hobj.linear (by simp [hobj.closed]) (by simp [hobj.closed])
  simp only [formulate, hs.run] at hP
  generalize hO : optimize pk o h1 v = r at hP
  rcases r with e | O
  · cases hP
  simp only at hP
  generalize hcs : evalCons h1 cons = r at hP
  rcases r with e | ⟨h2, ds⟩
  · cases hP
  simp only at hP
  obtain ⟨Q, rfl, hn, ho, hspec⟩ := C64_partial hs.step.good hs.step.ok hO hP hacc hq hin
  obtain ⟨ls, rfl, -⟩ := subjectTo_ok hP
  have hfr : ∀ a ∈ obj.refs, deref h a = deref [] a := by simp [hobj.closed]
  refine ⟨Q, rfl, ho, fun p => ⟨?_, ?_⟩⟩
  · rw [(hspec p).1, ← Expr.at_frame hfr p]
    have e1 := hs.lin p
    have e2 := hs.cst ((Expr.plain_frame hfr).mpr hobj.plain)
    unfold Val.lin at e1
    unfold Val.cst at e2
    linarith
  · rw [(hspec p).2]
    refine and_congr_left fun _ => ?_
    rw [← evalCons_holds hs.step.good hcons hcs p]
    simp only [List.forall_mem_map, ConHolds]

/-- C64: `subject_to` accepts exactly the nonempty lists of linear constraints one of which mentions a variable at
least as late as every variable of the objective. -/
theorem C64_accepts (O : Objective) (cons : List Con) :
    (∃ P, subjectTo O cons = .ok P) ↔
      cons ≠ [] ∧ (∀ c ∈ cons, ∃ l, c = .lin l) ∧
      ∀ l, O.c = some l → ∃ k, Con.lin k ∈ cons ∧ l.length ≤ k.coeffs.length := subjectTo_iff

/-- C64: after accepted calls that make only existing variables nonpositive, reading `program` succeeds. -/
theorem C64_compiles {O : Objective} {cons : List Con} {P : Abstract} (hP : subjectTo O cons = .ok P)
    {cs : List Call} (hacc : Accepted P cs)
    (hneg : ∀ s ∈ signsOf cs, ∀ l, s.neg = some l → ∀ i ∈ l, 1 ≤ i ∧ i ≤ P.c.length) :
    ∃ Q, (getProgram (calls P cs)).2 = .ok (.linear Q) := by
  obtain ⟨ls, rfl, hb, hpos, hneg0, hprog, -⟩ := subjectTo_ok hP
  have hfr : Fresh P := fun q hq => by rw [hprog] at hq; cases hq
  obtain ⟨ha, hf, hc⟩ := calls_accepted hacc hfr (by rw [hpos, hneg0]; exact consistent_nil)
  rw [getProgram_fresh hf]
  refine compile_ok hb ha hc fun i hi => ?_
  rw [ha.neg, hneg0, List.nil_append] at hi
  obtain ⟨s, hs, hi⟩ := List.mem_flatMap.mp hi
  obtain ⟨l, hl, hi⟩ := mem_listed.mp hi
  rcases hi with ⟨_, h1, h2⟩ | hi
  · exact ⟨h1, h2⟩
  · exact hneg s hs l hl i hi

/-- `maximize(3 * x[1] + x[2] + 1).subject_to(x[1] + 2 * x[2] <= 4, x[1] >= 1).where(x >= 0)` meets the
hypotheses of `C64_text_partial`. -/
example : ∃ P, formulate .linear .max [] (.add (.add (.mul (.num 3) (.x 1)) (.x 2)) (.num 1))
      [(.le, .add (.x 1) (.mul (.num 2) (.x 2)), .num 4), (.ge, .x 1, .num 1)] = .ok P ∧
    Simple (.add (.add (.mul (.num 3) (.x 1)) (.x 2)) (.num 1)) ∧
    Simple (.add (.x 1) (.mul (.num 2) (.x 2))) ∧ Simple (.num 4) ∧ Simple (.x 1) ∧ Simple (.num 1) ∧
    Accepted P [.whereCall [.sign ⟨some [], none⟩]] ∧
    InRange P.c.length (signsOf [.whereCall [.sign ⟨some [], none⟩]]) ∧
    ∃ q, (getProgram (calls P [.whereCall [.sign ⟨some [], none⟩]])).2 = .ok q := by
  refine ⟨⟨[[1, 2], [1, 0]], [4, 1], [3, 1], 1, .max, [.le, .ge], [], [], none, false⟩, by with_unfolding_all rfl,
    ⟨rfl, by simp [Expr.Linear, Expr.isNum], by simp [Expr.Plain, Expr.isNum, Expr.at]⟩,
    ⟨rfl, by simp [Expr.Linear, Expr.isNum], by simp [Expr.Plain, Expr.isNum, Expr.at]⟩,
    ⟨rfl, by simp [Expr.Linear], by simp [Expr.Plain]⟩, ⟨rfl, by simp [Expr.Linear], by simp [Expr.Plain]⟩,
    ⟨rfl, by simp [Expr.Linear], by simp [Expr.Plain]⟩, ?_, ?_, ?_⟩
  · exact ⟨by decide +kernel, trivial⟩
  · intro s hs l hl i hi
    simp [signsOf, Call.signs] at hs
    subst hs
    cases hl
    cases hi
  · exact ⟨_, rfl⟩

/-- C64 is false when the objective mentions a later variable than every constraint:
`maximize(x[1] + x[2]).subject_to(x[1] <= 1)` raises `ValueError`. -/
theorem C64_objective_wrong :
    formulate .linear .max [] (.add (.x 1) (.x 2)) [(.le, .x 1, .num 1)] = .error .valueError := rfl

/-- C64 is false when the objective is a single `Variable`: `AttributeError`. -/
theorem C64_variable_wrong (pk : Package) (o : Obj) (h : Heap) (k : ℕ) (cons : List (Ineq × Expr × Expr)) :
    formulate pk o h (.var k) cons = .error .attributeError := rfl

/-- C64 is false for sign conditions written with `x[i]`: `where(x[i] >= 0)` raises `AttributeError`. -/
theorem C64_where_wrong (P : Abstract) {h : Heap} (hg : Good h) {a : ℕ} (ha : a < h.length) (op : Ineq) :
    ∃ c, compare h op (.eqn a) (.num 0) = .ok c ∧ (call P (.whereCall [c])).2 = some .attributeError := by
  obtain ⟨c, hc, _⟩ := cmpEqn_spec hg op (hg.deref ha) (w := .num 0) trivial (fun k h => by cases h)
  exact ⟨.lin c, hc, rfl⟩

/-- C64 is false for sign conditions on a `Variable` among the constraints: `subject_to(v >= 0)` raises
`AttributeError`. -/
theorem C64_sign_wrong (O : Objective) (h : Heap) (k : ℕ) (l : List Con) :
    ∃ c, compare h .ge (.var k) (.num 0) = .ok c ∧ subjectTo O (c :: l) = .error .attributeError := by
  refine ⟨.sign ⟨some [(k : ℤ) + 1], none⟩, by simp [Formulation.compare, cmpVar], rfl⟩

/-! ### C65 -/

/-- C65: after accepted calls, `where` with sign conditions is accepted if and only if no variable is listed twice or
with both signs in all conditions stated so far, and otherwise raises `ValueError`. -/
theorem C65_where {O : Objective} {cons : List Con} {P : Abstract} (hP : subjectTo O cons = .ok P)
    {cs : List Call} (hacc : Accepted P cs) (S : List VarCon) :
    let n := P.c.length
    let r := (call (calls P cs) (.whereCall (S.map .sign))).2
    (r = none ↔ Consistent (posListed n (signsOf cs ++ S)) (negListed n (signsOf cs ++ S))) ∧
    (r = some .valueError ↔ ¬ Consistent (posListed n (signsOf cs ++ S)) (negListed n (signsOf cs ++ S))) := by
  intro n r
  obtain ⟨ls, rfl, hb, hpos, hneg, hprog, -⟩ := subjectTo_ok hP
  have hfr : Fresh P := fun q hq => by rw [hprog] at hq; cases hq
  obtain ⟨ha, hf, hc⟩ := calls_accepted hacc hfr (by rw [hpos, hneg]; exact consistent_nil)
  have e1 : (calls P cs).pos ++ posListed (calls P cs).c.length S = posListed n (signsOf cs ++ S) := by
    rw [ha.pos, hpos, ha.c]; simp [posListed, n]
  have e2 : (calls P cs).neg ++ negListed (calls P cs).c.length S = negListed n (signsOf cs ++ S) := by
    rw [ha.neg, hneg, ha.c]; simp [negListed, n]
  have := addWhere_signs (calls P cs) S
  simp only [e1, e2] at this
  rcases this with ⟨h1, h2⟩ | ⟨h1, h2⟩
  · have hr : r = none := by simp only [r, call, h2]
    rw [hr]
    exact ⟨⟨fun _ => h1, fun _ => rfl⟩, ⟨fun h => (by cases h), fun h => (h h1).elim⟩⟩
  · have hr : r = some .valueError := by simp only [r, call, h2]
    rw [hr]
    exact ⟨⟨fun h => (by cases h), fun h => (h1 h).elim⟩, ⟨fun _ => h1, fun _ => rfl⟩⟩

/-- C65: after accepted calls, `whereAllPositive` and `whereAllNegative` are accepted if and only if no sign
condition has been stated, and otherwise raise `ValueError` and change nothing. -/
theorem C65_all {O : Objective} {cons : List Con} {P : Abstract} (hP : subjectTo O cons = .ok P)
    {cs : List Call} (hacc : Accepted P cs) {c : Call} (hc : c = .allPositive ∨ c = .allNegative) :
    let n := P.c.length
    let none_stated := posListed n (signsOf cs) = [] ∧ negListed n (signsOf cs) = []
    ((call (calls P cs) c).2 = none ↔ none_stated) ∧
    (¬ none_stated → call (calls P cs) c = (calls P cs, some .valueError)) := by
  intro n none_stated
  obtain ⟨ls, rfl, hb, hpos, hneg, hprog, -⟩ := subjectTo_ok hP
  have hfr : Fresh P := fun q hq => by rw [hprog] at hq; cases hq
  obtain ⟨ha, -, -⟩ := calls_accepted hacc hfr (by rw [hpos, hneg]; exact consistent_nil)
  have hp := ha.pos
  have hn := ha.neg
  rw [hpos, List.nil_append] at hp
  rw [hneg, List.nil_append] at hn
  have hiff : ¬ ((calls P cs).neg.length + (calls P cs).pos.length > 0) ↔ none_stated := by
    simp only [none_stated, n, ← hp, ← hn, ← List.length_eq_zero_iff]
    omega
  rcases hc with rfl | rfl
  · simp only [call, whereAllPositive]
    by_cases h0 : (calls P cs).neg.length + (calls P cs).pos.length > 0
    · rw [if_pos h0]
      exact ⟨⟨fun h => (by cases h), fun h => (hiff.mpr h h0).elim⟩, fun _ => rfl⟩
    · rw [if_neg h0]
      exact ⟨⟨fun _ => hiff.mp h0, fun _ => rfl⟩, fun h => (h (hiff.mp h0)).elim⟩
  · simp only [call, whereAllNegative]
    by_cases h0 : (calls P cs).neg.length + (calls P cs).pos.length > 0
    · rw [if_pos h0]
      exact ⟨⟨fun h => (by cases h), fun h => (hiff.mpr h h0).elim⟩, fun _ => rfl⟩
    · rw [if_neg h0]
      exact ⟨⟨fun _ => hiff.mp h0, fun _ => rfl⟩, fun h => (h (hiff.mp h0)).elim⟩

/-- C65, the part of atomicity that holds: a call that raises leaves the compiled program as it was, provided it had
been compiled after the last accepted call. Missing: programs not compiled yet, see `C65_atomic_wrong`. -/
theorem C65_atomic_partial {P : Abstract} {q : Compiled} (hp : P.program = some q) (hr : P.recompile = false)
    (c : Call) {e : PyErr} (he : (call P c).2 = some e) : (getProgram (call P c).1).2 = .ok q := by
  have key : ∀ P' : Abstract, P'.program = some q → P'.recompile = false → (getProgram P').2 = .ok q := by
    intro P' h1 h2
    unfold getProgram
    rw [h1, h2]
  cases c with
  | whereCall l =>
    have hloop : ∀ (P : Abstract) (l : List Con), (whereLoop P l).1.program = P.program ∧
        (whereLoop P l).1.recompile = P.recompile := by
      intro P l
      induction l generalizing P with
      | nil => exact ⟨rfl, rfl⟩
      | cons c l ih =>
        cases c with
        | sign s =>
          rw [whereLoop]
          exact ih { P with pos := addSigns P.c.length s.pos P.pos, neg := addSigns P.c.length s.neg P.neg }
        | lin c => exact ⟨rfl, rfl⟩
        | bool b => exact ⟨rfl, rfl⟩
    obtain ⟨h1, h2⟩ := hloop P l
    simp only [call, addWhere] at he ⊢
    generalize whereLoop P l = r at *
    obtain ⟨P1, _ | e1⟩ := r
    · simp only at he ⊢ h1 h2
      split
      · exact key P1 (h1.trans hp) (h2.trans hr)
      · rename_i h3
        rw [if_neg h3] at he
        split
        · exact key P1 (h1.trans hp) (h2.trans hr)
        · rename_i h4
          rw [if_neg h4] at he
          cases he
    · exact key P1 (h1.trans hp) (h2.trans hr)
  | allPositive =>
    simp only [call, whereAllPositive] at he ⊢
    split
    · exact key P hp hr
    · rename_i h0; rw [if_neg h0] at he; cases he
  | allNegative =>
    simp only [call, whereAllNegative] at he ⊢
    split
    · exact key P hp hr
    · rename_i h0; rw [if_neg h0] at he; cases he
  | extend => cases he
  | compile =>
    simp only [call, getProgram, hp, hr] at he
    cases he

/-- The sign classes of a compiled program. -/
def compiledSigns : Except PyErr Compiled → Option (List ℕ × List ℕ)
  | .ok (.linear Q) => some (Q.lp.free, Q.lp.neg)
  | _ => none

/-- C65 is false: after `maximize(v).subject_to(x[1] <= 1)`-like formulations, the rejected call
`where(v >= 0, v <= 0)` turns the free variable `v` into a nonpositive one. -/
theorem C65_atomic_wrong : ∃ P : Abstract,
    formulate .linear .max [] (.x 1) [(.le, .x 1, .num 1)] = .ok P ∧
    let r := call P (.whereCall [.sign ⟨some [1], none⟩, .sign ⟨none, some [1]⟩])
    r.2 = some .valueError ∧
    compiledSigns (getProgram P).2 = some ([0], []) ∧
    compiledSigns (getProgram r.1).2 = some ([], [0]) := by
  refine ⟨⟨[[1]], [1], [1], 0, .max, [.le], [], [], none, false⟩, by with_unfolding_all rfl, ?_⟩
  refine ⟨by decide +kernel, by decide +kernel, by decide +kernel⟩

/-- C65 is false: once `where` has raised `ValueError`, it raises it for ever, even without arguments. -/
theorem C65_stuck_wrong (P : Abstract) (S : List VarCon)
    (h : (call P (.whereCall (S.map .sign))).2 = some .valueError) (T : List VarCon) :
    (call (call P (.whereCall (S.map .sign))).1 (.whereCall (T.map .sign))).2 = some .valueError := by
  simp only [call] at h ⊢
  rcases addWhere_signs P S with ⟨-, he⟩ | ⟨hc, he⟩
  · rw [he] at h; cases h
  · rw [he]
    generalize hP' : ({ P with
      pos := P.pos ++ posListed P.c.length S
      neg := P.neg ++ negListed P.c.length S } : Abstract) = P'
    have hpos : P'.pos = P.pos ++ posListed P.c.length S := by rw [← hP']
    have hneg : P'.neg = P.neg ++ negListed P.c.length S := by rw [← hP']
    simp only
    rcases addWhere_signs P' T with ⟨hc', -⟩ | ⟨-, he'⟩
    · exfalso
      apply hc
      simp only [hpos, hneg] at hc'
      exact ⟨(List.nodup_append.mp hc'.1).1, (List.nodup_append.mp hc'.2.1).1,
        fun i hi hi' => hc'.2.2 i (List.mem_append_left _ hi) (List.mem_append_left _ hi')⟩
    · rw [he']

/-- A history meeting the hypotheses of `C65_where`, followed by an accepted and by a rejected call. -/
example : ∃ P : Abstract,
    formulate .linear .max [] (.x 2) [(.le, .x 2, .num 1)] = .ok P ∧
    Accepted P [.whereCall [.sign ⟨some [1], none⟩], .compile] ∧
    (call (calls P [.whereCall [.sign ⟨some [1], none⟩], .compile]) (.whereCall [.sign ⟨none, some [2]⟩])).2
      = none ∧
    (call (calls P [.whereCall [.sign ⟨some [1], none⟩], .compile]) (.whereCall [.sign ⟨none, some [1]⟩])).2
      = some .valueError := by
  refine ⟨⟨[[0, 1]], [1], [0, 1], 0, .max, [.le], [], [], none, false⟩, by with_unfolding_all rfl, ?_⟩
  refine ⟨⟨by decide +kernel, by decide +kernel, trivial⟩, by decide +kernel, by decide +kernel⟩

/-! ### C66 -/

/-- The program requires some variable to be an integer. -/
def RequiresIntegers : Compiled → Prop
  | .linear _ => False
  | .integer I => 0 < I.prog.n ∧ I.integral ≠ some []

/-- C66 is false for every formulation: whatever calls are made, the compiled program of a formulation from
`pytimize.formulations.integer` is an ordinary linear program. -/
theorem C66_wrong {O : Objective} (_hO : O.package = .integer) {cons : List Con} {P : Abstract}
    (hP : subjectTo O cons = .ok P) (cs : List Call) {q : Compiled}
    (hq : (getProgram (calls P cs)).2 = .ok q) : (∃ Q, q = .linear Q) ∧ ¬ RequiresIntegers q := by
  have hcomp : ∀ (P : Abstract) (q : Compiled), compile P = .ok q → ∃ Q, q = .linear Q := by
    intro P q h
    unfold compile at h
    simp only at h
    generalize LinProg.ctor _ _ _ _ _ _ _ _ = r at h
    rcases r with e | Q
    · cases h
    · cases h; exact ⟨Q, rfl⟩
  have hget : ∀ P : Abstract, (∀ q, P.program = some q → ∃ Q, q = .linear Q) →
      (∀ q, (getProgram P).2 = .ok q → ∃ Q, q = .linear Q) ∧
      ∀ q, (getProgram P).1.program = some q → ∃ Q, q = .linear Q := by
    intro P h
    unfold getProgram
    split
    · rename_i q h1 h2
      exact ⟨fun q' hq' => by cases hq'; exact h _ h1, h⟩
    · generalize hc : compile P = r
      rcases r with e | q
      · exact ⟨fun q hq => (by cases hq), h⟩
      · exact ⟨fun q' hq' => by cases hq'; exact hcomp P _ hc, fun q' hq' => by cases hq'; exact hcomp P _ hc⟩
  have hloop : ∀ (l : List Con) (P : Abstract), (whereLoop P l).1.program = P.program := by
    intro l
    induction l with
    | nil => intro P; rfl
    | cons c l ih =>
      intro P
      cases c with
      | sign s => rw [whereLoop, ih]
      | lin c => rfl
      | bool b => rfl
  have hcall : ∀ (c : Call) (P : Abstract), (∀ q, P.program = some q → ∃ Q, q = .linear Q) →
      ∀ q, (call P c).1.program = some q → ∃ Q, q = .linear Q := by
    intro c P h
    cases c with
    | whereCall l =>
      have h1 := hloop l P
      simp only [call, addWhere]
      generalize whereLoop P l = r at h1
      obtain ⟨P1, _ | e⟩ := r
      · simp only at h1 ⊢
        split
        · rw [h1]; exact h
        · split
          · rw [h1]; exact h
          · simp only [h1]; exact h
      · rw [h1]; exact h
    | allPositive => simp only [call, whereAllPositive]; split <;> exact h
    | allNegative => simp only [call, whereAllNegative]; split <;> exact h
    | extend => exact h
    | compile =>
      have h2 := (hget P h).2
      simp only [call]
      generalize getProgram P = r at h2
      obtain ⟨P1, e | q⟩ := r <;> exact h2
  have hcalls : ∀ (cs : List Call) (P : Abstract), (∀ q, P.program = some q → ∃ Q, q = .linear Q) →
      ∀ q, (calls P cs).program = some q → ∃ Q, q = .linear Q := by
    intro cs
    induction cs with
    | nil => intro P h; exact h
    | cons c cs ih => intro P h; exact ih _ (hcall c P h)
  obtain ⟨ls, rfl, -, -, -, hprog, -⟩ := subjectTo_ok hP
  obtain ⟨Q, rfl⟩ := (hget _ (hcalls cs P fun q hq => by rw [hprog] at hq; cases hq)).1 q hq
  exact ⟨⟨Q, rfl⟩, id⟩

/-- C66, what holds instead: a formulation from `pytimize.formulations.integer` behaves exactly like the one from
`pytimize.formulations.linear` with the same text, so `C64_text_partial` describes its relaxation. Missing:
integrality, which is never required (`C66_wrong`). -/
theorem C66_partial (o : Obj) (h : Heap) (obj : Expr) (cons : List (Ineq × Expr × Expr)) :
    formulate .integer o h obj cons = formulate .linear o h obj cons := by
  unfold formulate
  generalize eval h obj = r
  rcases r with e | ⟨h1, v⟩
  · rfl
  · cases v with
    | num q => rfl
    | eqn a => rfl
    | var k => rfl
    | none => rfl

/-- An integer formulation meeting the hypotheses of `C66_wrong`. -/
example : ∃ P : Abstract, formulate .integer .max [] (.x 1) [(.le, .x 1, .num 1)] = .ok P :=
  ⟨⟨[[1]], [1], [1], 0, .max, [.le], [], [], none, false⟩, by with_unfolding_all rfl⟩

end Props
end Pytimize
