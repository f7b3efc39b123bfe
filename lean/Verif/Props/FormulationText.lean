/-
Property C107: the text printed for a formulation says what was written.
-/
import Verif.Formulation.Text
import Verif.Props.Format
import Verif.Props.FormulationSolve

namespace Pytimize
namespace Props
open LinProg (Ineq Obj Feas objVal LP WF)
open Formulation

/-- The objective of a program as read from its text. -/
def Shown.valueAt (S : Shown) (p : Point) : ℚ := dot S.costs p + S.constant

/-- The points a program as read from its text admits. -/
def Shown.Admits (S : Shown) (p : Point) : Prop :=
  (∀ r ∈ S.rows, rel r.op (dot r.lhs p) r.rhs) ∧ (∀ k ∈ S.nonpos, p (k - 1) ≤ 0) ∧ ∀ k ∈ S.nonneg, 0 ≤ p (k - 1)

theorem dot_ofFn {n : ℕ} (v : Fin n → ℚ) (p : Point) : dot (List.ofFn v) p = v ⬝ᵥ fun j => p j := by
  unfold dot dotProduct
  rw [List.length_ofFn, Finset.sum_range]
  refine Finset.sum_congr rfl fun i _ => ?_
  simp

theorem Agrees.reads {m n : ℕ} {S : Shown} {P : LP m n} (h : Agrees Eq S P) (hw : WF P) (p : Point) :
    S.valueAt p = objVal P (fun j => p j) ∧ (S.Admits p ↔ Feas P fun j => p j) := by
  have hc : S.costs = List.ofFn P.c := List.forall₂_eq_eq_eq ▸ h.costs
  refine ⟨by unfold Shown.valueAt objVal; rw [hc, dot_ofFn, h.constant], ?_⟩
  have hforall : ∀ {R : ShownRow → Fin m → Prop} {l : List ShownRow} {k : List (Fin m)}, List.Forall₂ R l k →
      (∀ r ∈ l, ∃ i ∈ k, R r i) ∧ ∀ i ∈ k, ∃ r ∈ l, R r i := by
    intro R l k hl
    induction hl with
    | nil => simp
    | cons h _ ih =>
      refine ⟨fun r hr => ?_, fun i hi => ?_⟩
      · rcases List.mem_cons.mp hr with rfl | hr
        · exact ⟨_, List.mem_cons_self, h⟩
        · obtain ⟨i, hi, hR⟩ := ih.1 r hr
          exact ⟨i, List.mem_cons_of_mem _ hi, hR⟩
      · rcases List.mem_cons.mp hi with rfl | hi
        · exact ⟨_, List.mem_cons_self, h⟩
        · obtain ⟨r, hr, hR⟩ := ih.2 i hi
          exact ⟨r, List.mem_cons_of_mem _ hr, hR⟩
  obtain ⟨h1, h2⟩ := hforall h.rows
  have hrow : ∀ (r : ShownRow) (i : Fin m), List.Forall₂ Eq r.lhs (List.ofFn (P.A i)) ∧ r.op = P.ineq i ∧ r.rhs = P.b i →
      (rel r.op (dot r.lhs p) r.rhs ↔ LinProg.rowHolds (P.ineq i) ((P.A.mulVec fun j => p j) i) (P.b i)) := by
    rintro r i ⟨ha, ho, hb⟩
    have ha : r.lhs = List.ofFn (P.A i) := List.forall₂_eq_eq_eq ▸ ha
    rw [ha, ho, hb, dot_ofFn, rowHolds_iff]
    rfl
  constructor
  · rintro ⟨hr, hn, hp⟩
    refine ⟨fun i => ?_, fun j hj => ?_, fun j hj hf => ?_⟩
    · obtain ⟨r, hrm, hR⟩ := h2 i (List.mem_finRange i)
      exact (hrow r i hR).mp (hr r hrm)
    · exact hn (j + 1) ((h.nonpos _).mpr ⟨j, rfl, hj⟩)
    · exact hp (j + 1) ((h.nonneg _).mpr ⟨j, j.2, rfl, hj, hf⟩)
  · intro hF
    refine ⟨fun r hr => ?_, fun k hk => ?_, fun k hk => ?_⟩
    · obtain ⟨i, _, hR⟩ := h1 r hr
      exact (hrow r i hR).mpr (hF.rows i)
    · obtain ⟨j, rfl, hj⟩ := (h.nonpos k).mp hk
      exact hF.negs ⟨j, hw.negLt j hj⟩ hj
    · obtain ⟨j, hjn, rfl, hj, hf⟩ := (h.nonneg k).mp hk
      exact hF.poss ⟨j, hjn⟩ hj hf

/-- The numbers of a compiled program are printed exactly: at most three decimals, at most `1e10`. -/
structure Printable {m n : ℕ} (P : LP m n) : Prop where
  A : ∀ i j, ThreeDecimals (P.A i j)
  b : ∀ i, ThreeDecimals (P.b i)
  c : ∀ j, ThreeDecimals (P.c j)
  z : ThreeDecimals P.z

theorem reprFormulation_linear {P : Abstract} {Q : LinProg.Prog} (h : (getProgram P).2 = .ok (.linear Q)) :
    (reprFormulation P).2 = LinProg.reprText Q.lp := by
  unfold reprFormulation
  generalize getProgram P = r at h
  obtain ⟨P', x⟩ := r
  simp only at h
  subst h
  rfl

/-- C107: printing a formulation after accepted sign conditions shows a text from which the problem as it was written
is understood: the same direction, the same objective at every point, and exactly the points that satisfy the
comparisons and the sign conditions. Missing: numbers with more than three decimals, which are rounded
(`C107_rounded`), and what is missing in `C64_text_partial`. -/
theorem C107_text_partial {h : Heap} (hg : Good h) {pk : Package} {o : Obj} {obj : Expr}
    {cons : List (Ineq × Expr × Expr)} {P : Abstract} (hP : formulate pk o h obj cons = .ok P)
    (hobj : Simple obj) (hcons : ∀ t ∈ cons, Simple t.2.1 ∧ Simple t.2.2)
    {cs : List Call} (hacc : Accepted P cs) (hin : InRange P.c.length (signsOf cs))
    {Q : LinProg.Prog} (hq : (getProgram (calls P cs)).2 = .ok (.linear Q)) (hpr : Printable Q.lp) :
    ∃ s S, (reprFormulation (calls P cs)).2 = .ok s ∧ readProgram s = some S ∧ S.objective = o ∧ ∀ p : Point,
      S.valueAt p = obj.at [] p ∧
      (S.Admits p ↔ (∀ t ∈ cons, rel t.1 (t.2.1.at [] p) (t.2.2.at [] p)) ∧
        ∀ s ∈ signsOf cs, SignHolds P.c.length s p) := by
  obtain ⟨Q', hQ', hwf, hn, hm, -⟩ := written_compiled hg hP hobj hcons hacc hq hin
  cases hQ'
  obtain ⟨Q', hQ', ho, hspec⟩ := C64_text_partial hg hP hobj hcons hacc hq hin
  cases hQ'
  obtain ⟨s, S, hs, hS, hag⟩ := C88_exact hwf hm.ne' hpr.c hpr.z hpr.A hpr.b
  refine ⟨s, S, by rw [reprFormulation_linear hq, hs], hS, hag.objective.trans ho, fun p => ?_⟩
  obtain ⟨h1, h2⟩ := hag.reads hwf p
  rw [h1, h2, (hspec p).1, (hspec p).2, hn]
  exact ⟨rfl, Iff.rfl⟩

/-- C107: numbers with more decimals are shown as accurately as C87 says, and the text still reads back as a program of
the same shape: `p` with every number replaced by the shown one. -/
theorem C107_rounded {h : Heap} (hg : Good h) {pk : Package} {o : Obj} {obj : Expr}
    {cons : List (Ineq × Expr × Expr)} {P : Abstract} (hP : formulate pk o h obj cons = .ok P)
    (hobj : Simple obj) (hcons : ∀ t ∈ cons, Simple t.2.1 ∧ Simple t.2.2)
    {cs : List Call} (hacc : Accepted P cs) (hin : InRange P.c.length (signsOf cs))
    {Q : LinProg.Prog} (hq : (getProgram (calls P cs)).2 = .ok (.linear Q)) :
    ∃ s S, (reprFormulation (calls P cs)).2 = .ok s ∧ readProgram s = some S ∧ Agrees Shows S Q.lp := by
  obtain ⟨Q', hQ', hwf, hn, hm, -⟩ := written_compiled hg hP hobj hcons hacc hq hin
  cases hQ'
  obtain ⟨s, S, hs, hS, hag⟩ := C88_readable hwf hm.ne'
  exact ⟨s, S, by rw [reprFormulation_linear hq, hs], hS, hag⟩

/-- Printing compiles the formulation at most once more and changes nothing that later calls see: a formulation prints
and compiles after a printing as it would have without. -/
theorem C107_twice (P : Abstract) : (getProgram (reprFormulation P).1).2 = (getProgram P).2 ∧
    (reprFormulation (reprFormulation P).1).2 = (reprFormulation P).2 := by
  have e : (reprFormulation P).1 = (getProgram P).1 := by
    unfold reprFormulation
    generalize getProgram P = r
    rcases r with ⟨P', _ | _ | _⟩ <;> rfl
  have e1 : (getProgram (getProgram P).1).2 = (getProgram P).2 := by
    unfold getProgram
    rcases h1 : P.program with _ | q
    · simp only
      rcases h2 : compile P with e | q
      · simp only [h1, h2]
      · rfl
    · rcases h3 : P.recompile with _ | _
      · simp only [h1, h3]
      · simp only
        rcases h2 : compile P with e | q
        · simp only [h1, h3, h2]
        · rfl
  refine ⟨by rw [e, e1], ?_⟩
  rw [e]
  unfold reprFormulation
  generalize hr : getProgram (getProgram P).1 = r at e1
  generalize getProgram P = r' at e1
  obtain ⟨P1, x⟩ := r
  obtain ⟨P2, y⟩ := r'
  simp only at e1
  subst e1
  rcases x with _ | _ | _ <;> rfl

/-- `Max x` subject to `x ≤ β`, the variable free. -/
def oneLp (β : ℚ) : LP 1 1 := ⟨fun _ _ => 1, fun _ => β, fun _ => 1, 0, .max, fun _ => .le, [0], [], false⟩

/-- What `maximize(x[1]).subject_to(x[1] <= β)` builds. -/
def oneP (β : ℚ) : Abstract := ⟨[[1]], [β], [1], 0, .max, [.le], [], [], none, false⟩

theorem oneLp_compiled (β : ℚ) : (getProgram (oneP β)).2 = .ok (.linear ⟨1, 1, oneLp β⟩) := by
  have hc : LinProg.ctor (.nd2 1 1 fun i j => ([[1]][i]).getD j 0) (.nd1 [β]) (.nd1 [1]) 0 "max"
      (some ["<="]) (some [1]) (some []) = .ok ⟨1, 1, oneLp β⟩ := by
    refine LinProg.ctor_iff.mpr ⟨Or.inl ?_, Or.inl rfl, Or.inl rfl, rfl, rfl, Or.inr rfl,
      ⟨by simp [oneLp], by simp [oneLp], by simp [oneLp]⟩, ⟨by simp [oneLp], by simp [oneLp], by simp [oneLp]⟩,
      by simp [oneLp], by simp [oneLp]⟩
    congr 1
    funext i j
    fin_cases i <;> fin_cases j <;> rfl
  have e3 : Formulation.compile (oneP β) = .ok (.linear ⟨1, 1, oneLp β⟩) := by
    unfold Formulation.compile
    have e2 : freeOf (oneP β) = [1] := by with_unfolding_all rfl
    simp only [e2]
    generalize hr : LinProg.ctor _ _ _ _ _ _ _ _ = r
    have : r = .ok ⟨1, 1, oneLp β⟩ := hr.symm.trans hc
    subst this
    rfl
  unfold getProgram
  simp only [oneP] at e3 ⊢
  rw [e3]

/-- C107 is false for numbers with more decimals: `maximize(x[1]).subject_to(x[1] <= 1.0001)` and
`maximize(x[1]).subject_to(x[1] <= 1.0002)` print the same text. -/
theorem C107_wrong : ∃ P P', formulate .linear .max [] (.x 1) [(.le, .x 1, .num (10001 / 10000))] = .ok P ∧
    formulate .linear .max [] (.x 1) [(.le, .x 1, .num (10002 / 10000))] = .ok P' ∧
    (reprFormulation P).2 = .ok ("Max [1.]x\nSubject To:\n\n[1.]x    ≤   [1.0]\n".toList) ∧
    (reprFormulation P').2 = (reprFormulation P).2 := by
  refine ⟨oneP (10001 / 10000), oneP (10002 / 10000), by with_unfolding_all rfl, by with_unfolding_all rfl, ?_, ?_⟩
  · rw [reprFormulation_linear (oneLp_compiled _)]
    decide +kernel
  · rw [reprFormulation_linear (oneLp_compiled _), reprFormulation_linear (oneLp_compiled _)]
    decide +kernel

/-- The formulation `textP` of C94 meets the hypotheses of `C107_text_partial` (the others are shown there). -/
example : Printable textLp := by
  have h0 : ThreeDecimals 0 := ⟨⟨0, by norm_num⟩, by norm_num⟩
  have h1 : ThreeDecimals 1 := ⟨⟨1000, by norm_num⟩, by norm_num⟩
  have h5 : ThreeDecimals 5 := ⟨⟨5000, by norm_num⟩, by norm_num⟩
  refine ⟨fun i j => ?_, fun i => ?_, fun j => ?_, h0⟩
  · fin_cases i <;> fin_cases j <;> assumption
  · fin_cases i <;> assumption
  · fin_cases j <;> assumption

end Props
end Pytimize
