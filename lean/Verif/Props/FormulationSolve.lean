/-
Property C94: solving a formulation solves the problem as written.
-/
import Verif.Props.FormulationProgram
import Verif.Props.IntegerBox

namespace Pytimize
namespace Props
open LinProg (Ineq Obj Feas objVal WF Decimal)
open Formulation

/-- The problem a user writes down: an objective, comparisons of expressions, and sign conditions on variables
`x[1], ..., x[n]`. -/
structure Written where
  o : Obj
  obj : Expr
  cons : List (Ineq × Expr × Expr)
  signs : List VarCon
  n : ℕ

/-- `p` satisfies what is written. -/
def Written.Sat (w : Written) (p : Point) : Prop :=
  (∀ t ∈ w.cons, rel t.1 (t.2.1.at [] p) (t.2.2.at [] p)) ∧ ∀ s ∈ w.signs, SignHolds w.n s p

/-- `p` satisfies what is written, and no point that does is better. -/
def Written.Best (w : Written) (p : Point) : Prop :=
  w.Sat p ∧ ∀ p', w.Sat p' →
    (w.o = .max → w.obj.at [] p' ≤ w.obj.at [] p) ∧ (w.o = .min → w.obj.at [] p ≤ w.obj.at [] p')

/-- A vector as a point, with zeros behind it. -/
def pointOf (v : List ℚ) : Point := fun j => v.getD j 0

theorem pointOf_ofFn {n : ℕ} (x : Fin n → ℚ) : (fun j : Fin n => pointOf (List.ofFn x) j) = x := by
  funext j
  simp [pointOf]

/-- The number of rows and the operators of a compiled program. -/
theorem compile_rows {O : Objective} {cs : List LinCon} {P P' : Abstract} {S : List VarCon} (hb : Built O cs P)
    (ha : After P S P') {Q : LinProg.Prog} (hq : Formulation.compile P' = .ok (.linear Q)) :
    WF Q.lp ∧ Q.m = cs.length ∧ ∀ i : Fin Q.m, ∃ c ∈ cs, Q.lp.ineq i = c.op := by
  unfold Formulation.compile at hq
  simp only at hq
  generalize hr : LinProg.ctor _ _ _ _ _ _ _ _ = r at hq
  rcases r with e | Q0
  · cases hq
  cases hq
  refine ⟨LinProg.ctor_wf hr, ?_⟩
  have h := (LinProg.ctor_iff.mp hr).ineqs
  have hi : P'.ineqs = cs.map LinCon.op := by rw [ha.ineqs, hb.ops]
  rw [hi] at h
  rcases h with ⟨h, _⟩ | h
  · cases h
  have h := Option.some.inj h
  have hm : Q.m = cs.length := by simpa using (congrArg List.length h).symm
  refine ⟨hm, fun i => ⟨cs[(i : ℕ)]'(by rw [← hm]; exact i.2), List.getElem_mem _, ?_⟩⟩
  have hinj : ∀ a b : Ineq, a.sym = b.sym → a = b := by
    intro a b; cases a <;> cases b <;> simp [LinProg.Ineq.sym]
  apply hinj
  have := congrArg (fun l => l[(i : ℕ)]?) h
  have hlt : (i : ℕ) < cs.length := by rw [← hm]; exact i.2
  simpa [hlt] using this.symm

theorem cmpEqn_op {h : Heap} {op : Ineq} {e : Eqn} {w : Val} {c : LinCon} (hc : cmpEqn h op e w = .ok (.lin c)) :
    c.op = op := by
  have key : ∀ f : Eqn, ∀ d, generate op e f = .ok d → d.op = op := by
    intro f d hd
    unfold generate at hd
    generalize broadcastSubtract _ _ = r at hd
    rcases r with _ | _ | r
    · cases hd
    · cases hd
    · cases hd; rfl
  cases w with
  | num q =>
    simp only [cmpEqn] at hc
    generalize hr : generate _ _ _ = r at hc
    rcases r with _ | r
    · cases hc
    · cases hc; exact key _ _ hr
  | eqn b =>
    simp only [cmpEqn] at hc
    generalize hr : generate _ _ _ = r at hc
    rcases r with _ | r
    · cases hc
    · cases hc; exact key _ _ hr
  | var k => cases hc
  | none => cases hc

theorem cmpVar_op {h : Heap} {op : Ineq} {k : ℕ} {w : Val} {c : LinCon} (hc : cmpVar h op k w = .ok (.lin c)) :
    c.op = op := by
  unfold cmpVar at hc
  split at hc
  · split at hc
    · cases hc
    · exact cmpEqn_op hc
  · split at hc
    · cases hc
    · exact cmpEqn_op hc
  · exact cmpEqn_op hc

theorem compare_op {h : Heap} {op : Ineq} {v w : Val} {c : LinCon}
    (hc : Formulation.compare h op v w = .ok (.lin c)) : c.op = op ∨ c.op = flip op := by
  unfold Formulation.compare at hc
  split at hc
  · cases hc
  · exact Or.inl (cmpEqn_op hc)
  · exact Or.inl (cmpVar_op hc)
  · exact Or.inr (cmpEqn_op hc)
  · exact Or.inr (cmpVar_op hc)
  · split at hc <;> cases hc

/-- Inequalities stay inequalities. -/
theorem evalCons_ops {h h' : Heap} {cons : List (Ineq × Expr × Expr)} {cs : List LinCon}
    (hc : evalCons h cons = .ok (h', cs.map .lin)) (hq : ∀ t ∈ cons, t.1 ≠ .eq) :
    cs.length = cons.length ∧ ∀ c ∈ cs, c.op ≠ .eq := by
  induction cons generalizing h h' cs with
  | nil =>
    simp only [evalCons, Except.ok.injEq, Prod.mk.injEq] at hc
    cases cs with
    | nil => simp
    | cons a l => simp at hc
  | cons t l ih =>
    obtain ⟨op, e, f⟩ := t
    simp only [evalCons] at hc
    generalize hr : compareExpr h op e f = r at hc
    rcases r with r | ⟨h1, c⟩
    · cases hc
    simp only at hc
    generalize hr2 : evalCons h1 l = r at hc
    rcases r with r | ⟨h2, ds⟩
    · cases hc
    simp only [Except.ok.injEq, Prod.mk.injEq] at hc
    obtain ⟨-, hcs⟩ := hc
    cases cs with
    | nil => cases hcs
    | cons k cs =>
      simp only [List.map_cons, List.cons.injEq] at hcs
      obtain ⟨rfl, rfl⟩ := hcs
      obtain ⟨i1, i2⟩ := ih hr2 fun t ht => hq t (List.mem_cons_of_mem _ ht)
      refine ⟨by simp [i1], ?_⟩
      rw [List.forall_mem_cons]
      refine ⟨?_, i2⟩
      have h0 := hq _ (List.mem_cons_self ..)
      simp only at h0
      have : k.op = op ∨ k.op = flip op := by
        unfold compareExpr at hr
        generalize eval h e = r1 at hr
        rcases r1 with _ | ⟨g1, v⟩
        · cases hr
        simp only at hr
        generalize eval g1 f = r2 at hr
        rcases r2 with _ | ⟨g2, w⟩
        · cases hr
        simp only at hr
        generalize hc : Formulation.compare g2 op v w = r3 at hr
        rcases r3 with _ | c
        · cases hr
        simp only [Except.ok.injEq, Prod.mk.injEq] at hr
        obtain ⟨-, rfl⟩ := hr
        exact compare_op hc
      rcases this with h1 | h1
      · rw [h1]; exact h0
      · rw [h1]; cases op <;> simp [Formulation.flip] at h0 ⊢

/-- The compiled program is the written problem. -/
theorem written_compiled {h : Heap} (hg : Good h) {pk : Package} {o : Obj} {obj : Expr}
    {cons : List (Ineq × Expr × Expr)} {P : Abstract} (hP : formulate pk o h obj cons = .ok P)
    (hobj : Simple obj) (hcons : ∀ t ∈ cons, Simple t.2.1 ∧ Simple t.2.2)
    {cs : List Call} (hacc : Accepted P cs) {q : Compiled} (hq : (getProgram (calls P cs)).2 = .ok q)
    (hin : InRange P.c.length (signsOf cs)) :
    ∃ Q, q = .linear Q ∧ WF Q.lp ∧ Q.n = P.c.length ∧ 0 < Q.m ∧ ((∀ t ∈ cons, t.1 ≠ .eq) →
        Q.m = cons.length ∧ ∀ i, Q.lp.ineq i ≠ .eq) ∧
      (∀ p : Point, Feas Q.lp (fun j => p j) ↔ (Written.mk o obj cons (signsOf cs) P.c.length).Sat p) ∧
      ∀ p : Point, Optimal Q.lp (fun j => p j) ↔ (Written.mk o obj cons (signsOf cs) P.c.length).Best p := by
  obtain ⟨Q, rfl, ho, hspec⟩ := C64_text_partial hg hP hobj hcons hacc hq hin
  have hP' := hP
  simp only [formulate] at hP'
  generalize eval h obj = r at hP'
  rcases r with e | ⟨h1, v⟩
  · cases hP'
  simp only at hP'
  generalize optimize pk o h1 v = r at hP'
  rcases r with e | O
  · cases hP'
  simp only at hP'
  generalize hcs : evalCons h1 cons = r at hP'
  rcases r with e | ⟨h2, ds⟩
  · cases hP'
  simp only at hP'
  obtain ⟨ls, rfl, hb, hpos, hneg, hprog, -⟩ := subjectTo_ok hP'
  have hfr : Fresh P := fun q hq => by rw [hprog] at hq; cases hq
  obtain ⟨ha, hf, hc⟩ := calls_accepted hacc hfr (by rw [hpos, hneg]; exact consistent_nil)
  rw [getProgram_fresh hf] at hq
  obtain ⟨hwf, hm, hops⟩ := compile_rows hb ha hq
  obtain ⟨Q', hQ', hn, -⟩ := compile_spec hb ha hq
  cases hQ'
  have hsat : ∀ p : Point, Feas Q.lp (fun j => p j) ↔ (Written.mk o obj cons (signsOf cs) P.c.length).Sat p := by
    intro p
    rw [(hspec p).2, hn]
    rfl
  refine ⟨Q, rfl, hwf, hn, ?_, fun hne => ?_, hsat, fun p => ?_⟩
  · rw [hm]; exact List.length_pos_iff.mpr hb.ne
  · obtain ⟨e1, e2⟩ := evalCons_ops hcs hne
    refine ⟨hm.trans e1, fun i => ?_⟩
    obtain ⟨c, hc, e⟩ := hops i
    rw [e]
    exact e2 c hc
  · constructor
    · rintro ⟨h1, h2⟩
      refine ⟨(hsat p).mp h1, fun p' hp' => ?_⟩
      have h3 := h2 _ ((hsat p').mpr hp')
      rw [(hspec p).1, (hspec p').1, ho] at h3
      exact h3
    · rintro ⟨h1, h2⟩
      refine ⟨(hsat p).mpr h1, fun x hx => ?_⟩
      rw [← pointOf_ofFn x] at hx ⊢
      have h3 := h2 _ ((hsat _).mp hx)
      rw [(hspec p).1, (hspec _).1, ho]
      exact h3

theorem solveFormulation_eq {fuel : ℕ} {P : Abstract} {Q : LinProg.Prog} (h : (getProgram P).2 = .ok (.linear Q)) :
    (solveFormulation fuel P).2 = LinProg.solve fuel Q.lp := by
  unfold solveFormulation
  generalize getProgram P = r at h
  obtain ⟨P', r⟩ := r
  simp only at h
  subst h
  rfl

/-- C94, soundness: the vector returned by `p.solve()` for
`p = maximize(obj).subject_to(e1 <= f1, ...).where(...)` has one entry per variable, satisfies every comparison and
every sign condition as written, and no point that does has a better value of `obj`. Missing: expressions the
formulation changes the meaning of or rejects (see `C61_partial` and `C64_partial`), and numbers beyond the precision
of the tolerances (`Decimal`, `C44_tiny_wrong`). -/
theorem C94_sound_partial {h : Heap} (hg : Good h) {pk : Package} {o : Obj} {obj : Expr}
    {cons : List (Ineq × Expr × Expr)} {P : Abstract} (hP : formulate pk o h obj cons = .ok P)
    (hobj : Simple obj) (hcons : ∀ t ∈ cons, Simple t.2.1 ∧ Simple t.2.2)
    {cs : List Call} (hacc : Accepted P cs) (hin : InRange P.c.length (signsOf cs))
    (hdec : ∀ Q, (getProgram (calls P cs)).2 = .ok (.linear Q) → ∃ r N K β, Decimal Q.lp r N K β)
    {fuel : ℕ} {v : List ℚ} (hv : (solveFormulation fuel (calls P cs)).2 = .ok (some v)) :
    v.length = P.c.length ∧ (Written.mk o obj cons (signsOf cs) P.c.length).Best (pointOf v) := by
  have hq : ∃ q, (getProgram (calls P cs)).2 = .ok q := by
    unfold solveFormulation at hv
    generalize getProgram (calls P cs) = r at hv
    obtain ⟨P', _ | q⟩ := r
    · cases hv
    · exact ⟨q, rfl⟩
  obtain ⟨q, hq⟩ := hq
  obtain ⟨Q, rfl, hwf, hn, -, -, -, hbest⟩ := written_compiled hg hP hobj hcons hacc hq hin
  obtain ⟨r, N, K, β, hd⟩ := hdec Q hq
  rw [solveFormulation_eq hq] at hv
  obtain ⟨x, rfl, hx⟩ := C44_data_partial fuel Q.lp hwf r N K β hd v hv
  refine ⟨by simp [hn], (hbest _).mp ?_⟩
  rw [pointOf_ofFn]
  exact hx

/-- C94, completeness: if the written problem has a best point, `p.solve()` returns one, for comparisons without
`==`, unless the origin violates a comparison and the variables, free ones counted twice, are as many as the
comparisons. Missing: see `C94_sound_partial` and `C45_data_partial`. -/
theorem C94_complete_partial {h : Heap} (hg : Good h) {pk : Package} {o : Obj} {obj : Expr}
    {cons : List (Ineq × Expr × Expr)} {P : Abstract} (hP : formulate pk o h obj cons = .ok P)
    (hobj : Simple obj) (hcons : ∀ t ∈ cons, Simple t.2.1 ∧ Simple t.2.2) (hne : ∀ t ∈ cons, t.1 ≠ .eq)
    {cs : List Call} (hacc : Accepted P cs) (hin : InRange P.c.length (signsOf cs))
    {Q : LinProg.Prog} (hq : (getProgram (calls P cs)).2 = .ok (.linear Q))
    {r : Fin Q.m → ℕ} {N K β : ℕ} (hd : Decimal Q.lp r N K β)
    (hshape : P.c.length + Q.lp.free.length ≠ cons.length ∨
      ∀ t ∈ cons, rel t.1 (t.2.1.at [] fun _ => 0) (t.2.2.at [] fun _ => 0))
    {fuel : ℕ} (hf : (P.c.length + Q.lp.free.length + 2 * cons.length) ^ cons.length ≤ fuel)
    (hopt : ∃ p, (Written.mk o obj cons (signsOf cs) P.c.length).Best p) :
    ∃ v, (solveFormulation fuel (calls P cs)).2 = .ok (some v) ∧
      (Written.mk o obj cons (signsOf cs) P.c.length).Best (pointOf v) := by
  obtain ⟨Q', hQ', hwf, hn, hm, hineq, hsat, hbest⟩ := written_compiled hg hP hobj hcons hacc hq hin
  cases hQ'
  obtain ⟨hm', hineq⟩ := hineq hne
  obtain ⟨p, hp⟩ := hopt
  rw [solveFormulation_eq hq]
  obtain ⟨x, h1, h2⟩ := C45_data_partial Q.lp hwf hm hineq r N K β hd
    (hshape.imp (by omega) fun h0 => (hsat fun _ => 0).mpr ⟨h0, fun s _ =>
      ⟨fun _ _ => ⟨fun _ _ _ => le_rfl, fun _ _ => le_rfl⟩, fun _ _ => ⟨fun _ _ _ => le_rfl, fun _ _ => le_rfl⟩⟩⟩)
    fuel (le_trans (le_of_eq (by congr 1; omega)) hf) ⟨_, (hbest p).mpr hp⟩
  refine ⟨_, h1, (hbest _).mp ?_⟩
  rw [pointOf_ofFn]
  exact h2

/-- C94 is false as stated: `minimize(x[1]).subject_to(x[1] >= 1).where(x >= 0).solve()` returns `None`. -/
theorem C94_tried_wrong : ∃ P, formulate .linear .min [] (.x 1) [(.ge, .x 1, .num 1)] = .ok P ∧
    Accepted P [.whereCall [.sign ⟨some [], none⟩]] ∧
    (solveFormulation 20 (calls P [.whereCall [.sign ⟨some [], none⟩]])).2 = .ok none ∧
    (Written.mk .min (.x 1) [(.ge, .x 1, .num 1)] (signsOf [.whereCall [.sign ⟨some [], none⟩]]) P.c.length).Best
      fun _ => 1 := by
  refine ⟨⟨[[1]], [1], [1], 0, .min, [.ge], [], [], none, false⟩, by with_unfolding_all rfl,
    ⟨by decide +kernel, trivial⟩, by decide +kernel, ⟨by simp [rel, Expr.at], fun s hs => ?_⟩, fun p' hp' => ⟨?_, ?_⟩⟩
  · simp [signsOf, Call.signs] at hs
    subst hs
    exact ⟨fun l hl => ⟨fun _ _ _ => zero_le_one, fun _ _ => zero_le_one⟩, fun l hl => by cases hl⟩
  · intro h; cases h
  · intro _
    have := hp'.1 _ (List.mem_cons_self ..)
    simpa [rel, Expr.at] using this

/-! ### The hypotheses are satisfiable -/

/-- What `maximize(x[1] + x[2]).subject_to(x[1] <= 5, x[2] <= 5)` builds (`test_integration.py:11`). -/
def textP : Abstract := ⟨[[1, 0], [0, 1]], [5, 5], [1, 1], 0, .max, [.le, .le], [], [], none, false⟩

/-- The program compiled after `whereAllNegative()`. -/
def textLp : LinProg.LP 2 2 := ⟨!![1, 0; 0, 1], ![5, 5], ![1, 1], 0, .max, fun _ => .le, [], [0, 1], false⟩

theorem textLp_compiled : (getProgram (calls textP [.allNegative])).2 = .ok (.linear ⟨2, 2, textLp⟩) := by
  have e : calls textP [.allNegative] = { textP with neg := [1, 2], recompile := true } := by with_unfolding_all rfl
  have hc : LinProg.ctor (.nd2 2 2 fun i j => ([[1, 0], [0, 1]][i]).getD j 0) (.nd1 [5, 5]) (.nd1 [1, 1]) 0 "max"
      (some ["<=", "<="]) (some []) (some [1, 2]) = .ok ⟨2, 2, textLp⟩ := by
    refine LinProg.ctor_iff.mpr ⟨Or.inl ?_, Or.inl rfl, Or.inl rfl, rfl, rfl, Or.inr rfl,
      ⟨by decide, by decide, by simp [textLp]⟩, ⟨by decide, by decide, by decide⟩, by decide, by decide⟩
    congr 1
    funext i j
    fin_cases i <;> fin_cases j <;> rfl
  have e3 : Formulation.compile { textP with neg := [1, 2], recompile := true } = .ok (.linear ⟨2, 2, textLp⟩) := by
    unfold Formulation.compile
    have e2 : freeOf { textP with neg := [1, 2], recompile := true } = [] := by decide +kernel
    simp only [e2]
    generalize hr : LinProg.ctor _ _ _ _ _ _ _ _ = r
    have : r = .ok ⟨2, 2, textLp⟩ := hr.symm.trans hc
    subst this
    rfl
  rw [e]
  show (getProgram { textP with neg := [1, 2], recompile := true }).2 = _
  unfold getProgram
  simp only [textP] at e3 ⊢
  rw [e3]

/-- `maximize(x[1] + x[2]).subject_to(x[1] <= 5, x[2] <= 5).whereAllNegative()` meets the hypotheses of
`C94_complete_partial` (and `C94_sound_partial`), by the feasible origin; its best point is `(0, 0)`. -/
example : formulate .linear .max [] (.add (.x 1) (.x 2)) [(.le, .x 1, .num 5), (.le, .x 2, .num 5)] = .ok textP ∧
    Simple (.add (.x 1) (.x 2)) ∧ Simple (.x 1) ∧ Simple (.x 2) ∧ Simple (.num 5) ∧ Accepted textP [.allNegative] ∧
    InRange textP.c.length (signsOf [.allNegative]) ∧
    (getProgram (calls textP [.allNegative])).2 = .ok (.linear ⟨2, 2, textLp⟩) ∧
    Decimal textLp (fun _ => 1) 1 1 5 ∧
    (∀ t ∈ [(Ineq.le, Expr.x 1, Expr.num 5), (.le, .x 2, .num 5)],
      rel t.1 (t.2.1.at [] fun _ => 0) (t.2.2.at [] fun _ => 0)) ∧
    (Written.mk .max (.add (.x 1) (.x 2)) [(.le, .x 1, .num 5), (.le, .x 2, .num 5)] (signsOf [.allNegative])
      textP.c.length).Best fun _ => 0 := by
  refine ⟨by with_unfolding_all rfl, ⟨rfl, by simp [Expr.Linear], by simp [Expr.Plain, Expr.at]⟩,
    ⟨rfl, by simp [Expr.Linear], by simp [Expr.Plain]⟩, ⟨rfl, by simp [Expr.Linear], by simp [Expr.Plain]⟩,
    ⟨rfl, by simp [Expr.Linear], by simp [Expr.Plain]⟩, ⟨by decide +kernel, trivial⟩, ?_, textLp_compiled, ?_, ?_,
    ⟨?_, ?_⟩, ?_⟩
  · intro s hs l hl i hi
    simp [signsOf, Call.signs] at hs
    subst hs
    cases hl
  · refine ⟨fun _ => one_pos, one_pos, ⟨fun i j => ?_, fun i => ⟨5, ?_⟩, fun j => ⟨1, ?_⟩⟩, subdet_of_le (by decide +kernel),
      by decide +kernel, by norm_num, by norm_num⟩
    · exact ⟨(!![1, 0; 0, 1] : Matrix (Fin 2) (Fin 2) ℤ) i j, by
        fin_cases i <;> fin_cases j <;> simp [textLp, LinProg.scaled]⟩
    · fin_cases i <;> simp [textLp, LinProg.scaled]
    · fin_cases j <;> simp [textLp, LinProg.scaled]
  · simp [rel, Expr.at]
  · simp [rel, Expr.at]
  · intro s hs
    simp [signsOf, Call.signs] at hs
    subst hs
    refine ⟨fun l hl => ?_, fun l hl => ⟨fun _ _ _ => le_rfl, fun _ _ => le_rfl⟩⟩
    cases hl
  · intro p' hp'
    refine ⟨fun _ => ?_, fun h => by cases h⟩
    have h := (hp'.2 ⟨none, some []⟩ (by simp [signsOf, Call.signs])).2 [] rfl
    have h1 := h.1 rfl 0 (by simp [textP])
    have h2 := h.1 rfl 1 (by simp [textP])
    simp [Expr.at]
    linarith

end Props
end Pytimize
