/-
Property C128: answers checked in double arithmetic solve the problem that was written down.
-/
import Verif.Float.WholeProgram
import Verif.Props.FloatCertified
import Verif.Props.FloatGenerate
import Verif.Props.FloatSef
import Verif.Props.LinearDual

namespace Pytimize
namespace Props
open LinProg Floating
open Formulation (Package Abstract Call Accepted signsOf getProgram calls Good)

/-- An optimal solution of the standard equality form is an optimal solution of the program. -/
theorem optimal_back {m n : ℕ} {P : LP m n} (hP : WF P) {s : Fin (toSef P).n → ℚ} (hf : Feas (toSef P).lp s)
    (ho : ∀ s', Feas (toSef P).lp s' → objVal (toSef P).lp s' ≤ objVal (toSef P).lp s) :
    ∃ x, reverseSol (toSef P).rev s = List.ofFn x ∧ Optimal P x := by
  obtain ⟨-, h2, h3⟩ := C32_to_sef_partial P hP
  obtain ⟨x, e, hx, hmax, hmin⟩ := h2 s hf
  refine ⟨x, e, hx, fun x' hx' => ?_⟩
  obtain ⟨s', hs', e'⟩ := h3 x' hx'
  obtain ⟨x'', e'', -, hmax', hmin'⟩ := h2 s' hs'
  have : x'' = x' := List.ofFn_injective (e''.symm.trans e')
  subst this
  have := ho s' hs'
  refine ⟨fun h => ?_, fun h => ?_⟩
  · rw [hmax h, hmax' h] at this; exact this
  · rw [hmin h, hmin' h] at this; linarith

/-- C128, the arrays: a formulation written with integers, each expression of size at most `2 ^ 51`, compiles in
doubles to a program whose numbers are integers of absolute value at most `2 ^ 53`, all of them doubles, and so is its
conversion to standard equality form, which is computed exactly. -/
theorem C128_whole {pk : Package} {o : Obj} {obj : GExpr ℤ} {cons : List (Ineq × GExpr ℤ × GExpr ℤ)}
    (ho : Simple (ratExpr obj)) (wo : weight obj ≤ 2 ^ 51)
    (hc : ∀ t ∈ cons, (Simple (ratExpr t.2.1) ∧ weight t.2.1 ≤ 2 ^ 51) ∧
      (Simple (ratExpr t.2.2) ∧ weight t.2.2 ≤ 2 ^ 51)) {P : Abstract}
    (hP : fformulate binary64 pk o [] (obj.map PyNum.int)
      (cons.map fun t => (t.1, t.2.1.map PyNum.int, t.2.2.map PyNum.int)) = .ok P)
    {cs : List Call} (hacc : Accepted P cs) (hin : InRange P.c.length (signsOf cs)) {Q : Prog}
    (hq : (getProgram (calls P cs)).2 = .ok (.linear Q)) :
    (∀ i j, ∃ k : ℤ, Q.lp.A i j = k ∧ |k| ≤ 2 ^ 53) ∧ (∀ i, ∃ k : ℤ, Q.lp.b i = k ∧ |k| ≤ 2 ^ 53) ∧
      (∀ j, ∃ k : ℤ, Q.lp.c j = k ∧ |k| ≤ 2 ^ 53) ∧ (∃ k : ℤ, Q.lp.z = k ∧ |k| ≤ 2 ^ 53) ∧
      ftoSef binary64 Q.lp = toSef Q.lp ∧ (∀ i j, ∃ k : ℤ, (toSef Q.lp).lp.A i j = k) ∧
      (∀ i, ∃ k : ℤ, (toSef Q.lp).lp.b i = k) ∧ (∀ j, ∃ k : ℤ, (toSef Q.lp).lp.c j = k) ∧
      ∃ k : ℤ, (toSef Q.lp).lp.z = k := by
  have he := C124_int pk o ho wo hc
  rw [he] at hP
  have hw := compiled_whole ⟨ho, wo⟩ (fun t ht => ⟨⟨(hc t ht).1.1, (hc t ht).1.2⟩, ⟨(hc t ht).2.1, (hc t ht).2.2⟩⟩)
    hP hacc hin hq
  exact ⟨hw.A, hw.b, hw.c, hw.z, (C126_to_sef hw.stored).1, hw.sef⟩

/-- C128, the answer: write a problem with integers, compile it, convert it to standard equality form, all in doubles;
take integer vectors `s` and `y` of moderate size from anywhere, and check them with `is_feasible(s)`,
`verify_optimality(y)` and `evaluate(s) == y b + z`. If the checks pass, what `solve` makes of `s` on the way back,
computed in doubles, is a best point of the problem as written. -/
theorem C128_checked {pk : Package} {o : Obj} {obj : GExpr ℤ} {cons : List (Ineq × GExpr ℤ × GExpr ℤ)}
    (ho : Simple (ratExpr obj)) (wo : weight obj ≤ 2 ^ 51)
    (hc : ∀ t ∈ cons, (Simple (ratExpr t.2.1) ∧ weight t.2.1 ≤ 2 ^ 51) ∧
      (Simple (ratExpr t.2.2) ∧ weight t.2.2 ≤ 2 ^ 51)) {P : Abstract}
    (hP : fformulate binary64 pk o [] (obj.map PyNum.int)
      (cons.map fun t => (t.1, t.2.1.map PyNum.int, t.2.2.map PyNum.int)) = .ok P)
    {cs : List Call} (hacc : Accepted P cs) (hin : InRange P.c.length (signsOf cs)) {Q : Prog}
    (hq : (getProgram (calls P cs)).2 = .ok (.linear Q)) {S : SefRes Q.m} (hS : S = ftoSef binary64 Q.lp)
    {s : Fin S.n → ℚ} {y : Fin Q.m → ℚ} (hs : ∀ j, ∃ k : ℤ, s j = k ∧ |k| ≤ 2 ^ 53) (hy : ∀ i, ∃ k : ℤ, y i = k)
    (hAs : ∀ i, ∑ j, |S.lp.A i j * s j| ≤ 5 * 10 ^ 8) (hbs : ∀ i, |S.lp.b i| ≤ 90000)
    (hyA : ∀ j, ∑ i, |y i * S.lp.A i j| ≤ 2 ^ 53) (hcs : ∑ j, |S.lp.c j * s j| + |S.lp.z| ≤ 2 ^ 53)
    (h1 : FeasAnswer binary64 S.lp s true) (h2 : OptimalAnswer binary64 S.lp y true)
    (h3 : EvalAnswer binary64 S.lp s (∑ i, y i * S.lp.b i + S.lp.z)) :
    (freverseSol binary64 S.rev s).length = P.c.length ∧
    (Written.mk o (ratExpr obj) (cons.map fun t => (t.1, ratExpr t.2.1, ratExpr t.2.2)) (signsOf cs) P.c.length).Best
      (pointOf (freverseSol binary64 S.rev s)) := by
  obtain ⟨-, -, -, -, e, hA, hb, hcc, hz⟩ := C128_whole ho wo hc hP hacc hin hq
  rw [e] at hS
  subst hS
  rw [C124_int pk o ho wo hc] at hP
  have hg : Good [] := by intro e he; simp at he
  obtain ⟨Q', hQ', hwf, hn, -, -, -, hbest⟩ := written_compiled hg hP ho
    (fun t ht => by
      obtain ⟨u, hu, rfl⟩ := List.mem_map.mp ht
      exact ⟨(hc u hu).1.1, (hc u hu).2.1⟩) hacc hq hin
  cases hQ'
  have hsef := (C32_to_sef_partial Q.lp hwf).1.1
  obtain ⟨hf, hopt⟩ := C119_optimal (toSef Q.lp).lp hwf.toSef hsef hA hb hcc hz
    (fun j => by obtain ⟨k, hk, -⟩ := hs j; exact ⟨k, hk⟩) hy hAs hbs hyA hcs h1 h2 h3
  obtain ⟨x, ex, hx⟩ := optimal_back hwf hf hopt
  rw [freverse_whole hwf hs (hf.nonneg hwf.toSef hsef), ex]
  refine ⟨by simp [hn], (hbest _).mp ?_⟩
  rw [pointOf_ofFn]
  exact hx

/-! ### The hypotheses are satisfiable -/

/-- `maximize(x[1] + 2 * x[2]).subject_to(x[1] + x[2] <= 3).where(x >= 0)`, its objective. -/
def wholeObj : GExpr ℤ := .add (.x 1) (.mul (.num 2) (.x 2))
/-- Its constraint. -/
def wholeCons : List (Ineq × GExpr ℤ × GExpr ℤ) := [(.le, .add (.x 1) (.x 2), .num 3)]
/-- What it builds. -/
def wholeP : Abstract := ⟨[[1, 1]], [3], [1, 2], 0, .max, [.le], [], [], none, false⟩
/-- What it compiles to. -/
def wholeSample : LP 1 2 := ⟨!![1, 1], ![3], ![1, 2], 0, .max, ![.le], [], [], false⟩

theorem wholeP_compiled :
    (getProgram (calls wholeP [.whereCall [.sign ⟨some [], none⟩]])).2 = .ok (.linear ⟨1, 2, wholeSample⟩) := by
  have e : calls wholeP [.whereCall [.sign ⟨some [], none⟩]] = { wholeP with pos := [1, 2], recompile := true } := by
    with_unfolding_all rfl
  have hc : LinProg.ctor (.nd2 1 2 fun i j => ([[1, 1]][i]).getD j 0) (.nd1 [3]) (.nd1 [1, 2]) 0 "max"
      (some ["<="]) (some []) (some []) = .ok ⟨1, 2, wholeSample⟩ := by
    refine LinProg.ctor_iff.mpr ⟨Or.inl ?_, Or.inl rfl, Or.inl rfl, rfl, rfl, Or.inr rfl,
      ⟨by decide, by decide, by simp [wholeSample]⟩, ⟨by decide, by decide, by decide⟩, by decide, by decide⟩
    congr 1
    funext i j
    fin_cases i; fin_cases j <;> rfl
  have e3 : Formulation.compile { wholeP with pos := [1, 2], recompile := true } =
      .ok (.linear ⟨1, 2, wholeSample⟩) := by
    unfold Formulation.compile
    have e2 : Formulation.freeOf { wholeP with pos := [1, 2], recompile := true } = [] := by decide +kernel
    simp only [e2]
    generalize hr : LinProg.ctor _ _ _ _ _ _ _ _ = r
    have : r = .ok ⟨1, 2, wholeSample⟩ := hr.symm.trans hc
    subst this
    rfl
  rw [e]
  show (getProgram { wholeP with pos := [1, 2], recompile := true }).2 = _
  unfold getProgram
  simp only [wholeP] at e3 ⊢
  rw [e3]

/-- The formulation meets the hypotheses on what is written. -/
example : Simple (ratExpr wholeObj) ∧ weight wholeObj ≤ 2 ^ 51 ∧
    (∀ t ∈ wholeCons, (Simple (ratExpr t.2.1) ∧ weight t.2.1 ≤ 2 ^ 51) ∧
      (Simple (ratExpr t.2.2) ∧ weight t.2.2 ≤ 2 ^ 51)) ∧
    fformulate binary64 .linear .max [] (wholeObj.map PyNum.int)
      (wholeCons.map fun t => (t.1, t.2.1.map PyNum.int, t.2.2.map PyNum.int)) = .ok wholeP ∧
    Accepted wholeP [.whereCall [.sign ⟨some [], none⟩]] ∧
    InRange wholeP.c.length (signsOf [.whereCall [.sign ⟨some [], none⟩]]) := by
  have h1 : Simple (ratExpr wholeObj) :=
    ⟨rfl, by simp [wholeObj, GExpr.read, Formulation.Expr.Linear, Formulation.Expr.isNum],
      by simp [wholeObj, GExpr.read, Formulation.Expr.Plain, Formulation.Expr.isNum, Formulation.Expr.at]⟩
  have h2 : weight wholeObj ≤ 2 ^ 51 := by decide
  have h3 : ∀ t ∈ wholeCons, (Simple (ratExpr t.2.1) ∧ weight t.2.1 ≤ 2 ^ 51) ∧
      (Simple (ratExpr t.2.2) ∧ weight t.2.2 ≤ 2 ^ 51) := by
    intro t ht
    simp only [wholeCons, List.mem_singleton] at ht
    subst ht
    exact ⟨⟨⟨rfl, by simp [GExpr.read, Formulation.Expr.Linear],
      by simp [GExpr.read, Formulation.Expr.Plain, Formulation.Expr.at]⟩, by decide⟩,
      ⟨⟨rfl, by simp [GExpr.read, Formulation.Expr.Linear],
      by simp [GExpr.read, Formulation.Expr.Plain]⟩, by decide⟩⟩
  refine ⟨h1, h2, h3, ?_, ⟨by decide +kernel, trivial⟩, ?_⟩
  · rw [C124_int .linear .max h1 h2 h3]
    with_unfolding_all rfl
  · intro s hs l hl i hi
    simp [signsOf, Call.signs] at hs
    subst hs
    cases hl
    cases hi

/-- The standard equality form, with the slack variable `x[3]`. -/
theorem wholeSample_sef : ∃ A : Matrix (Fin 1) (Fin 3) ℚ, ∃ c : Fin 3 → ℚ,
    ftoSef binary64 wholeSample =
      ⟨3, ⟨A, ![3], c, 0, .max, fun _ => .eq, [], [], true⟩, some ⟨1, [], []⟩⟩ ∧ A = !![1, 1, 1] ∧ c = ![1, 2, 0] := by
  have h1 : IntUpTo (2 ^ 53) 1 := ⟨1, by simp, by norm_num⟩
  have h2 : IntUpTo (2 ^ 53) 2 := ⟨2, by simp, by norm_num⟩
  have h3 : IntUpTo (2 ^ 53) 3 := ⟨3, by simp, by norm_num⟩
  have hw : WholeLP wholeSample := ⟨fun i j => by fin_cases i; fin_cases j <;> exact h1,
    fun i => by fin_cases i; exact h3, fun j => by fin_cases j; exacts [h1, h2], IntUpTo.zero (by norm_num)⟩
  rw [(C126_to_sef hw.stored).1]
  refine ⟨fun r j => (sefCols wholeSample).A r j, fun j => (sefCols wholeSample).c j, by with_unfolding_all rfl, ?_, ?_⟩
  · funext i j
    fin_cases i
    fin_cases j <;> decide +kernel
  · funext j
    fin_cases j <;> decide +kernel

/-- The point `(0, 3)` with slack zero and the certificate `2`: every possible run of the checks passes, and the
vectors meet the remaining hypotheses. -/
example : ∀ S : SefRes 1, S = ftoSef binary64 wholeSample → ∃ s : Fin S.n → ℚ, ∃ y : Fin 1 → ℚ,
    (∀ j, ∃ k : ℤ, s j = k ∧ |k| ≤ 2 ^ 53) ∧ (∀ i, ∃ k : ℤ, y i = k) ∧
    (∀ i, ∑ j, |S.lp.A i j * s j| ≤ 5 * 10 ^ 8) ∧ (∀ i, |S.lp.b i| ≤ 90000) ∧
    (∀ j, ∑ i, |y i * S.lp.A i j| ≤ 2 ^ 53) ∧ ∑ j, |S.lp.c j * s j| + |S.lp.z| ≤ 2 ^ 53 ∧
    freverseSol binary64 S.rev s = [0, 3] ∧
    ∀ feasible accepted r, FeasAnswer binary64 S.lp s feasible → OptimalAnswer binary64 S.lp y accepted →
      EvalAnswer binary64 S.lp s r → feasible = true ∧ accepted = true ∧ r = ∑ i, y i * S.lp.b i + S.lp.z := by
  intro S hS
  obtain ⟨A, c, e, rfl, rfl⟩ := wholeSample_sef
  rw [e] at hS
  subst hS
  have hP : WF (⟨!![1, 1, 1], ![3], ![1, 2, 0], 0, .max, fun _ => .eq, [], [], true⟩ : LP 1 3) :=
    ⟨List.Pairwise.nil, List.Pairwise.nil, by simp, by simp, by simp, by simp [sefFlag]⟩
  have hs : ∀ j : Fin 3, ∃ k : ℤ, (![0, 3, 0] : Fin 3 → ℚ) j = k ∧ |k| ≤ 2 ^ 53 := by
    intro j
    fin_cases j
    exacts [⟨0, by simp, by norm_num⟩, ⟨3, by simp, by norm_num⟩, ⟨0, by simp, by norm_num⟩]
  have hy : ∀ i : Fin 1, ∃ k : ℤ, (![2] : Fin 1 → ℚ) i = k := fun i => ⟨2, by fin_cases i; simp⟩
  have h1 : ∀ i : Fin 1, ∑ j : Fin 3, |(!![1, 1, 1] : Matrix (Fin 1) (Fin 3) ℚ) i j * (![0, 3, 0] : Fin 3 → ℚ) j| ≤
      5 * 10 ^ 8 := by
    intro i; fin_cases i; simp [Fin.sum_univ_succ]; norm_num
  have h2 : ∀ i : Fin 1, |(![3] : Fin 1 → ℚ) i| ≤ 90000 := by intro i; fin_cases i; simp; norm_num
  have h3 : ∀ j : Fin 3, ∑ i : Fin 1, |(![2] : Fin 1 → ℚ) i * (!![1, 1, 1] : Matrix (Fin 1) (Fin 3) ℚ) i j| ≤ 2 ^ 53 := by
    intro j; fin_cases j <;> · simp; norm_num
  have h4 : ∑ j : Fin 3, |(![1, 2, 0] : Fin 3 → ℚ) j * (![0, 3, 0] : Fin 3 → ℚ) j| + |(0 : ℚ)| ≤ 2 ^ 53 := by
    simp [Fin.sum_univ_succ]; norm_num
  refine ⟨![0, 3, 0], ![2], hs, hy, h1, h2, h3, h4, by with_unfolding_all rfl, fun feasible accepted r k1 k2 k3 => ?_⟩
  refine (C119_integer _ hP rfl (fun i j => ⟨1, ?_⟩) (fun i => ⟨3, ?_⟩) (fun j => ?_) ⟨0, by simp⟩
    (fun j => by obtain ⟨k, hk, -⟩ := hs j; exact ⟨k, hk⟩) hy h1 h2 h3 h4 k1 k2 k3).mpr
    ⟨(feas_sef_iff hP rfl).mpr ⟨?_, fun j => ?_⟩, fun j => ?_, fun j => ?_⟩
  · fin_cases i; fin_cases j <;> simp
  · fin_cases i; simp
  · fin_cases j
    exacts [⟨1, by simp⟩, ⟨2, by simp⟩, ⟨0, by simp⟩]
  · funext i
    fin_cases i
    simp [Matrix.mulVec, dotProduct, Fin.sum_univ_succ]
  · fin_cases j <;> simp
  · fin_cases j <;> simp
  · fin_cases j <;> simp

end Props
end Pytimize
