/-
C94 for all comparisons, equations included: exactly what `p.solve()` answers.
-/
import Verif.Props.FormulationSolve
import Verif.Props.SolveExact

namespace Pytimize
namespace Props
open LinProg (Ineq Obj Feas objVal WF Decimal EqIndep)
open Formulation

/-- C94, what `p.solve()` answers, for comparisons of every kind: a best point of the written problem if there is one,
`None` if there is none or no point at all, `ValueError` if the problem has points but its equations are dependent.
Missing: see `C94_sound_partial`; compiled programs that are not regular (`C94_tried_wrong`). -/
theorem C94_exact_partial {h : Heap} (hg : Good h) {pk : Package} {o : Obj} {obj : Expr}
    {cons : List (Ineq × Expr × Expr)} {P : Abstract} (hP : formulate pk o h obj cons = .ok P)
    (hobj : Simple obj) (hcons : ∀ t ∈ cons, Simple t.2.1 ∧ Simple t.2.2)
    {cs : List Call} (hacc : Accepted P cs) (hin : InRange P.c.length (signsOf cs))
    {Q : LinProg.Prog} (hq : (getProgram (calls P cs)).2 = .ok (.linear Q))
    {r : Fin Q.m → ℕ} {N K β : ℕ} (hd : Decimal Q.lp r N K β) (hreg : Regular Q.lp) {fuel : ℕ}
    (hf : (Q.n + Q.lp.free.length + (Finset.univ.filter fun i => Q.lp.ineq i ≠ .eq).card + Q.m) ^ Q.m ≤ fuel)
    (w : Written) (hw : w = ⟨o, obj, cons, signsOf cs, P.c.length⟩) :
    (EqIndep Q.lp → (∃ p, w.Best p) → ∃ v, (solveFormulation fuel (calls P cs)).2 = .ok (some v) ∧
      v.length = P.c.length ∧ w.Best (pointOf v)) ∧
    (EqIndep Q.lp → (¬ ∃ p, w.Best p) → (solveFormulation fuel (calls P cs)).2 = .ok none) ∧
    ((¬ ∃ p, w.Sat p) → (solveFormulation fuel (calls P cs)).2 = .ok none) ∧
    (¬ EqIndep Q.lp → (∃ p, w.Sat p) → (solveFormulation fuel (calls P cs)).2 = .error .valueError) := by
  subst hw
  obtain ⟨Q', hQ, hwf, hn, hm, -, hsat, hbest⟩ := written_compiled hg hP hobj hcons hacc hq hin
  cases hQ
  have hopt : (∃ x, Optimal Q.lp x) ↔ ∃ p, (Written.mk o obj cons (signsOf cs) P.c.length).Best p :=
    ⟨fun ⟨x, hx⟩ => ⟨pointOf (List.ofFn x), (hbest _).mp (by rw [pointOf_ofFn]; exact hx)⟩,
      fun ⟨p, hp⟩ => ⟨_, (hbest p).mpr hp⟩⟩
  have hfeas : (∃ x, Feas Q.lp x) ↔ ∃ p, (Written.mk o obj cons (signsOf cs) P.c.length).Sat p :=
    ⟨fun ⟨x, hx⟩ => ⟨pointOf (List.ofFn x), (hsat _).mp (by rw [pointOf_ofFn]; exact hx)⟩,
      fun ⟨p, hp⟩ => ⟨_, (hsat p).mpr hp⟩⟩
  rw [solveFormulation_eq hq, ← hopt, ← hfeas]
  obtain ⟨h1, h2, h3, h4⟩ := C109_partial Q.lp hwf hm r N K β hd hreg fuel hf
  refine ⟨fun hi ho => ?_, h2, h3, h4⟩
  obtain ⟨x, e, hx⟩ := h1 hi ho
  refine ⟨_, e, by simp [hn], (hbest _).mp ?_⟩
  rw [pointOf_ofFn]
  exact hx

/-! ### The hypotheses are satisfiable -/

/-- What `maximize(x[1] + 2 * x[2]).subject_to(x[1] + x[2] == 3, x[1] - x[2] >= -1)` builds. -/
def mixedP : Abstract := ⟨[[1, 1], [1, -1]], [3, -1], [1, 2], 0, .max, [.eq, .ge], [], [], none, false⟩

theorem mixedP_compiled :
    (getProgram (calls mixedP [.whereCall [.sign ⟨some [], none⟩]])).2 = .ok (.linear ⟨2, 2, mixedSample⟩) := by
  have e : calls mixedP [.whereCall [.sign ⟨some [], none⟩]] = { mixedP with pos := [1, 2], recompile := true } := by
    with_unfolding_all rfl
  have hc : LinProg.ctor (.nd2 2 2 fun i j => ([[1, 1], [1, -1]][i]).getD j 0) (.nd1 [3, -1]) (.nd1 [1, 2]) 0 "max"
      (some ["=", ">="]) (some []) (some []) = .ok ⟨2, 2, mixedSample⟩ := by
    refine LinProg.ctor_iff.mpr ⟨Or.inl ?_, Or.inl rfl, Or.inl rfl, rfl, rfl, Or.inr rfl,
      ⟨by decide, by decide, by simp [mixedSample]⟩, ⟨by decide, by decide, by decide⟩, by decide, by decide⟩
    congr 1
    funext i j
    fin_cases i <;> fin_cases j <;> rfl
  have e3 : Formulation.compile { mixedP with pos := [1, 2], recompile := true } =
      .ok (.linear ⟨2, 2, mixedSample⟩) := by
    unfold Formulation.compile
    have e2 : freeOf { mixedP with pos := [1, 2], recompile := true } = [] := by decide +kernel
    simp only [e2]
    generalize hr : LinProg.ctor _ _ _ _ _ _ _ _ = r
    have : r = .ok ⟨2, 2, mixedSample⟩ := hr.symm.trans hc
    subst this
    rfl
  rw [e]
  show (getProgram { mixedP with pos := [1, 2], recompile := true }).2 = _
  unfold getProgram
  simp only [mixedP] at e3 ⊢
  rw [e3]

/-- `maximize(x[1] + 2 * x[2]).subject_to(x[1] + x[2] == 3, x[1] - x[2] >= -1).where(x >= 0)` meets the hypotheses of
`C94_exact_partial` (the remaining ones are those of `mixedSample`, `Verif/Props/SolveExact.lean`). -/
example : formulate .linear .max [] (.add (.x 1) (.mul (.num 2) (.x 2)))
      [(.eq, .add (.x 1) (.x 2), .num 3), (.ge, .sub (.x 1) (.x 2), .num (-1))] = .ok mixedP ∧
    Simple (.add (.x 1) (.mul (.num 2) (.x 2))) ∧ Simple (.add (.x 1) (.x 2)) ∧ Simple (.sub (.x 1) (.x 2)) ∧
    Accepted mixedP [.whereCall [.sign ⟨some [], none⟩]] ∧
    InRange mixedP.c.length (signsOf [.whereCall [.sign ⟨some [], none⟩]]) ∧
    (solveFormulation 25 (calls mixedP [.whereCall [.sign ⟨some [], none⟩]])).2 = .ok (some [1, 2]) := by
  refine ⟨by with_unfolding_all rfl, ⟨rfl, by simp [Expr.Linear, Expr.isNum], by simp [Expr.Plain, Expr.isNum, Expr.at]⟩,
    ⟨rfl, by simp [Expr.Linear], by simp [Expr.Plain, Expr.at]⟩,
    ⟨rfl, by simp [Expr.Linear], by simp [Expr.Plain, Expr.at]⟩, ⟨by decide +kernel, trivial⟩, ?_, by decide +kernel⟩
  intro s hs l hl i hi
  simp [signsOf, Call.signs] at hs
  subst hs
  cases hl
  cases hi

end Props
end Pytimize
