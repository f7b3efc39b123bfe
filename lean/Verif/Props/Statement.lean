/-
Property C106: programs that build expressions step by step with names and `+=`, `-=`, `*=`.
-/
import Verif.Formulation.StatementProof
import Mathlib.Algebra.BigOperators.Group.List.Basic

namespace Pytimize
namespace Props
open Formulation

/-- C106, part 1: for every state, operator and expression, `n op= e` has the effect of `n = n op e`: the same
exception or the same objects and bindings. -/
theorem C106_same (s : Frame) (n : ℕ) (op : Aug) (e : NExpr) :
    exec s (.aug n op e) = exec s (.assign n (op.expr (.name n) e)) := exec_aug s n op e

/-- C106: a program of any length runs without an exception and leaves every name standing for what the user
expects, if it is tidy: a statement binding `n` mentions no other linear expression by name (except as `n += m`),
and no expression with a constant term is negated, scaled, subtracted, or added on the right. Numbers and
`Variable` objects may be used freely. Missing: other programs, where the claim is false
(`C106_total_wrong`, `C106_minus_wrong`, `C106_times_wrong`, `C106_two_names_wrong`). -/
theorem C106_partial {l : List Stmt} {s : Frame} {ρ : ℕ → Sym} (hm : Means s ρ) (hl : TidyAll ρ l) :
    ∃ s', execAll s l = .ok s' ∧ ∀ n p, (s'.env n).at s'.heap p = (idealAll ρ l n).val p := by
  obtain ⟨s', h1, h2⟩ := hm.execAll hl
  exact ⟨s', h1, h2.val⟩

/-- The state read off as it is: it means itself when no two names share an equation. -/
theorem means_self {s : Frame} (hg : Good s.heap) (ho : ∀ n, (s.env n).Ok s.heap)
    (hi : ∀ m n a, s.env m = .eqn a → s.env n = .eqn a → m = n) :
    Means s fun n => ⟨(s.env n).kind, fun p => (s.env n).at s.heap p⟩ :=
  ⟨hg, ho, fun _ => rfl, fun _ _ => rfl, hi⟩

/-- A tidy program: `e = x[1] + 3; f = v - 2*x[2]; e += f; e -= 5*x[3]; f *= 4; e = e + 1; e += e0`, where `v` is a
`Variable` and the name `e0` a number. -/
example : let ρ : ℕ → Sym := fun _ => ⟨.num, fun _ => 7⟩
    TidyAll ρ [.assign 0 (.add (.x 1) (.num 3)), .assign 1 (.sub (.var 3) (.mul (.num 2) (.x 2))),
      .aug 0 .add (.name 1), .aug 0 .sub (.mul (.num 5) (.x 3)), .aug 1 .mul (.num 4),
      .assign 0 (.add (.name 0) (.num 1)), .aug 0 .add (.name 2)] := by
  intro ρ
  refine ⟨⟨?_, ?_, ?_⟩, ⟨?_, ?_, ?_⟩, Or.inr ⟨rfl, ?_, 1, rfl, ?_⟩, Or.inl ⟨?_, ?_, ?_⟩, Or.inl ⟨?_, ?_, ?_⟩,
    ⟨?_, ?_, ?_⟩, Or.inr ⟨rfl, ?_, 2, rfl, ?_⟩, trivial⟩ <;>
    simp [NExpr.Linear, NExpr.Plain, NExpr.Bare, NExpr.isNum, NExpr.value, NExpr.uses, NExpr.kind, Stmt.ideal,
      Aug.expr, ρ]

/-! ### Sums built in a loop -/

/-- `n = 0` followed by `for (c, i) in ts: n += c * x[i]`. -/
def sumLoop (n : ℕ) (ts : List (ℚ × ℤ)) : List Stmt :=
  .assign n (.num 0) :: ts.map fun t => .aug n .add (.mul (.num t.1) (.x t.2))

theorem sumLoop_tail {n : ℕ} {ts : List (ℚ × ℤ)} (h : ∀ t ∈ ts, 1 ≤ t.2) (ρ : ℕ → Sym) :
    TidyAll ρ (ts.map fun t => .aug n .add (.mul (.num t.1) (.x t.2))) ∧
    (∀ p, (idealAll ρ (ts.map fun t => .aug n .add (.mul (.num t.1) (.x t.2))) n).val p =
      (ρ n).val p + (ts.map fun t => t.1 * p (t.2 - 1).toNat).sum) ∧
    ∀ m, m ≠ n → idealAll ρ (ts.map fun t => .aug n .add (.mul (.num t.1) (.x t.2))) m = ρ m := by
  induction ts generalizing ρ with
  | nil => exact ⟨trivial, fun p => by simp [idealAll], fun m _ => rfl⟩
  | cons t ts ih =>
    have h1 := h t (by simp)
    obtain ⟨i1, i2, i3⟩ := ih (fun t ht => h t (List.mem_cons_of_mem _ ht))
      ((Stmt.aug n .add (.mul (.num t.1) (.x t.2))).ideal ρ)
    refine ⟨⟨Or.inl ⟨?_, ?_, ?_⟩, i1⟩, fun p => ?_, fun m hm => ?_⟩
    · exact ⟨trivial, trivial, h1, Or.inl rfl⟩
    · simp [Aug.expr, NExpr.Plain, NExpr.Bare, NExpr.isNum, NExpr.value]
    · simp only [Aug.expr, NExpr.uses]
      split <;> simp
    · simp only [List.map_cons, idealAll, i2 p, List.sum_cons]
      simp only [Stmt.ideal, if_true, Aug.expr, NExpr.value]
      ring
    · exact (i3 m hm).trans (by simp [Stmt.ideal, hm])

/-- C106, sums: for every list of coefficients and indices, adding up the terms in a loop gives the sum, and every
other name keeps its value. -/
theorem C106_sum {s : Frame} (hg : Good s.heap) (ho : ∀ n, (s.env n).Ok s.heap)
    (hi : ∀ m n a, s.env m = .eqn a → s.env n = .eqn a → m = n) (n : ℕ) {ts : List (ℚ × ℤ)}
    (h : ∀ t ∈ ts, 1 ≤ t.2) :
    ∃ s', execAll s (sumLoop n ts) = .ok s' ∧
      (∀ p, (s'.env n).at s'.heap p = (ts.map fun t => t.1 * p (t.2 - 1).toNat).sum) ∧
      ∀ m, m ≠ n → ∀ p, (s'.env m).at s'.heap p = (s.env m).at s.heap p := by
  have hm := means_self hg ho hi
  obtain ⟨i1, i2, i3⟩ := sumLoop_tail (n := n) h
    ((Stmt.assign n (.num 0)).ideal fun n => ⟨(s.env n).kind, fun p => (s.env n).at s.heap p⟩)
  obtain ⟨s', h1, h2⟩ := C106_partial (l := sumLoop n ts) hm
    ⟨⟨trivial, trivial, Or.inl rfl⟩, i1⟩
  refine ⟨s', h1, fun p => ?_, fun m hmn p => ?_⟩
  · rw [h2 n p]
    refine (i2 p).trans ?_
    simp [Stmt.ideal, NExpr.value]
  · rw [h2 m p]
    refine (congrArg (fun y => Sym.val y p) (i3 m hmn)).trans ?_
    simp [Stmt.ideal, hmn]

/-- A case of `C106_sum`: the loop over `2*x[1]`, `-3*x[4]` in a state with an equation and a `Variable`. -/
example : let s : Frame := ⟨[⟨[(0, 1)], 2⟩], fun n => if n = 0 then .eqn 0 else .var n⟩
    Good s.heap ∧ (∀ n, (s.env n).Ok s.heap) ∧ (∀ m n a, s.env m = .eqn a → s.env n = .eqn a → m = n) ∧
      ∀ t ∈ ([(2, 1), (-3, 4)] : List (ℚ × ℤ)), 1 ≤ t.2 := by
  refine ⟨fun e he => ?_, fun n => ?_, fun m n a h1 h2 => ?_, by simp⟩
  · simp only [List.mem_singleton] at he; subst he; simp [Dict.WF, Dict.keys]
  · by_cases h : n = 0 <;> simp [h, Val.Ok]
  · by_cases hm : m = 0 <;> by_cases hn : n = 0 <;> simp_all

/-! ### Where the claim is false -/

/-- The names `e = x[1]` (0), `f = x[2]` (1) and `total = 0` (all others). -/
def demo : Frame := ⟨[⟨[(0, 1)], 0⟩, ⟨[(1, 1)], 0⟩], fun n => if n = 0 then .eqn 0 else if n = 1 then .eqn 1 else .num 0⟩

/-- C106 is false: `total = 0; total += e; total += f` changes `e` (so does `sum([e, f])`). -/
theorem C106_total_wrong : ∃ s', execAll demo [.aug 2 .add (.name 0), .aug 2 .add (.name 1)] = .ok s' ∧
    ∃ p, (s'.env 0).at s'.heap p ≠ (demo.env 0).at demo.heap p := by
  refine ⟨_, rfl, fun n => if n = 1 then 1 else 0, ?_⟩
  simp [demo, Formulation.bind, Val.at, Eqn.at, deref, evalTerms, bump, Dict.setDefault, Dict.has, Dict.get?, Dict.set]

/-- C106 is false: `e -= f` changes `f`. -/
theorem C106_minus_wrong : ∃ s', execAll demo [.aug 0 .sub (.name 1)] = .ok s' ∧
    ∃ p, (s'.env 1).at s'.heap p ≠ (demo.env 1).at demo.heap p := by
  refine ⟨_, rfl, fun n => if n = 1 then 1 else 0, ?_⟩
  simp [demo, Formulation.bind, Val.at, Eqn.at, deref, evalTerms, bump, Dict.setDefault, Dict.has, Dict.get?, Dict.set]
  norm_num

/-- C106 is false: after `e += 3; e *= 2` the constant of `e` is `3`. -/
theorem C106_times_wrong : ∃ s', execAll demo [.aug 0 .add (.num 3), .aug 0 .mul (.num 2)] = .ok s' ∧
    (s'.env 0).at s'.heap (fun _ => 0) = 3 := by
  refine ⟨_, rfl, ?_⟩
  simp [demo, Formulation.bind, Val.at, Eqn.at, deref, evalTerms]

/-- C106 is false: after `g = e`, the statement `g += f` changes `e` too. -/
theorem C106_two_names_wrong : ∃ s', execAll demo [.assign 3 (.name 0), .aug 3 .add (.name 1)] = .ok s' ∧
    ∃ p, (s'.env 0).at s'.heap p ≠ (demo.env 0).at demo.heap p := by
  refine ⟨_, rfl, fun n => if n = 1 then 1 else 0, ?_⟩
  simp [demo, Formulation.bind, Val.at, Eqn.at, deref, evalTerms, bump, Dict.setDefault, Dict.has, Dict.get?, Dict.set]

end Props
end Pytimize
