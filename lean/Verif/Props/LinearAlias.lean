/-
Property C51: `in_place=False` and `copy()` isolate the receiver.
-/
import Mathlib.Tactic.Linarith
import Verif.LP.Heap

namespace Pytimize
namespace Props
open LinProg (Obj Ineq)
open LinHeap

theorem idxOf_fields (f : Field) : LinHeap.fields.idxOf f < 7 ∧ LinHeap.fields[LinHeap.fields.idxOf f]? = some f := by
  cases f <;> decide

theorem copy_spec (h : Heap) (p : Prg) (hp : Valid h p) :
    view (copy h p).1 (copy h p).2 = view h p ∧ view (copy h p).1 p = view h p ∧ Valid (copy h p).1 p ∧
      Valid (copy h p).1 (copy h p).2 ∧ Apart p (copy h p).2 := by
  have hold : ∀ a, a < h.next → (copy h p).1.cell a = h.cell a := fun a ha => by
    simp [copy, ha]
  have hv : ∀ q : Prg, Valid h q → view (copy h p).1 q = view h q := by
    intro q hq
    unfold view
    congr 1
    funext f
    unfold look
    rw [hold _ (hq f)]
  refine ⟨?_, hv p hp, fun f => ?_, fun f => ?_, fun f g => ?_⟩
  · unfold view
    congr 1
    funext f
    obtain ⟨h1, h2⟩ := idxOf_fields f
    have e : (copy h p).1.cell ((copy h p).2.addr f) = look h p f := by
      simp [copy, h2]
    rw [← e]
    simp [look, copy]
  · exact (hp f).trans (by simp [copy])
  · have := (idxOf_fields f).1
    simp only [copy]
    omega
  · have := hp f
    simp only [copy]
    omega

/-- C51, `copy`: the copy shows the same as the receiver, which is unchanged. -/
theorem C51_copy (h : Heap) (p : Prg) (hp : Valid h p) :
    view (copy h p).1 (copy h p).2 = view h p ∧ view (copy h p).1 p = view h p :=
  ⟨(copy_spec h p hp).1, (copy_spec h p hp).2.1⟩

/-- What happens later: acts on the receiver (`true`) and on the result (`false`), in any order. -/
def later (s : Heap × Prg × Prg) : List (Bool × Act) → Heap × Prg × Prg
  | [] => s
  | (true, a) :: l => later ((act (s.1, s.2.1) a).1, (act (s.1, s.2.1) a).2, s.2.2) l
  | (false, a) :: l => later ((act (s.1, s.2.2) a).1, s.2.1, (act (s.1, s.2.2) a).2) l

theorem later_apart (l : List (Bool × Act)) (s : Heap × Prg × Prg) (hp : Valid s.1 s.2.1)
    (hq : Valid s.1 s.2.2) (ha : Apart s.2.1 s.2.2) :
    Valid (later s l).1 (later s l).2.1 ∧ Valid (later s l).1 (later s l).2.2 ∧
      Apart (later s l).2.1 (later s l).2.2 := by
  induction l generalizing s with
  | nil => exact ⟨hp, hq, ha⟩
  | cons x l ih =>
    obtain ⟨b, a⟩ := x
    cases b with
    | true =>
      obtain ⟨_, h2, h3, h4⟩ := act_frame hq hp (fun f g e => ha g f e.symm) a
      exact ih _ h3 h2 fun f g e => h4 g f e.symm
    | false =>
      obtain ⟨_, h2, h3, h4⟩ := act_frame hp hq ha a
      exact ih _ h2 h3 h4

/-- C51: take a program, call a method with `in_place=False` (a copy on which the method then performs the
acts `method`), and let anything happen afterwards to the two programs, in any order. Then nothing done to
the result is ever visible in the receiver, and nothing done to the receiver is ever visible in the
result. -/
theorem C51_not_in_place (h : Heap) (p : Prg) (hp : Valid h p) (method : List Act)
    (history : List (Bool × Act)) (a : Act) :
    view (acts (copy h p) method).1 p = view h p ∧
    (let s := later ((acts (copy h p) method).1, p, (acts (copy h p) method).2) history
     view (act (s.1, s.2.2) a).1 s.2.1 = view s.1 s.2.1 ∧
     view (act (s.1, s.2.1) a).1 s.2.2 = view s.1 s.2.2) := by
  obtain ⟨_, h2, h3, h4, h5⟩ := copy_spec h p hp
  obtain ⟨k1, k2, k3, k4⟩ := acts_frame method h3 h4 h5
  refine ⟨k1.trans h2, ?_⟩
  obtain ⟨l1, l2, l3⟩ := later_apart history (_, p, _) k2 k3 k4
  exact ⟨(act_frame l1 l2 l3 a).1, (act_frame l2 l1 (fun f g e => l3 g f e.symm) a).1⟩

/-- C51 for `add_constraint`, `add_variable`, `to_sef`, `to_canonical_form` and `simplex_iteration` without
`in_place`: the receiver is as before. -/
theorem C51_methods (h : Heap) (p : Prg) (hp : Valid h p) :
    (∀ rows a q v, view (acts (copy h p) (addConstraintActs rows a q v)).1 p = view h p) ∧
    (∀ columns cost col free neg,
      view (acts (copy h p) (addVariableActs columns cost col free neg)).1 p = view h p) ∧
    (∀ o neg free ineq, view (acts (copy h p) (toSefActs o neg free ineq)).1 p = view h p) ∧
    (∀ A b c z t, view (acts (copy h p) (logActs t ++ canonicalActs A b c z)).1 p = view h p) ∧
    (∀ S A b c z, view (acts (copy h p) (simplexIterationActs S A b c z)).1 p = view h p) :=
  ⟨fun _ _ _ _ => (C51_not_in_place h p hp _ [] (.setZ 0)).1,
    fun _ _ _ _ _ => (C51_not_in_place h p hp _ [] (.setZ 0)).1,
    fun _ _ _ _ => (C51_not_in_place h p hp _ [] (.setZ 0)).1,
    fun _ _ _ _ _ => (C51_not_in_place h p hp _ [] (.setZ 0)).1,
    fun _ _ _ _ _ => (C51_not_in_place h p hp _ [] (.setZ 0)).1⟩

/-- An act that only creates new objects, or changes one of the lists. -/
def SafeForDual : Act → Prop
  | .poke f _ => f ≠ .A ∧ f ≠ .b ∧ f ≠ .c
  | _ => True

/-- The attributes of `q` that refer to objects of `p` are arrays. -/
def ArraysShared (h : Heap) (p q : Prg) : Prop :=
  Valid h p ∧ Valid h q ∧ ∀ f, f ≠ .A → f ≠ .b → f ≠ .c → ∀ g, p.addr g ≠ q.addr f

theorem dual_safe (l : List Act) {h : Heap} {p q : Prg} (hs : ∀ a ∈ l, SafeForDual a)
    (ha : ArraysShared h p q) : view (acts (h, q) l).1 p = view h p := by
  induction l generalizing h q with
  | nil => rfl
  | cons a l ih =>
    have key : view (act (h, q) a).1 p = view h p ∧ ArraysShared (act (h, q) a).1 p (act (h, q) a).2 := by
      obtain ⟨hp, hq, hd⟩ := ha
      have keep : ∀ (h' : Heap), (∀ f, h'.cell (p.addr f) = h.cell (p.addr f)) → view h' p = view h p := by
        intro h' hh
        unfold view
        congr 1
        funext f
        unfold look
        rw [hh f]
      cases a with
      | poke f g =>
        obtain ⟨h1, h2, h3⟩ := hs _ List.mem_cons_self
        refine ⟨keep _ fun f' => ?_, hp, hq, hd⟩
        simp only [act]
        exact Function.update_of_ne (hd f h1 h2 h3 f') _ _
      | bind f g =>
        refine ⟨keep _ fun f' => ?_, fun f' => Nat.lt_succ_of_lt (hp f'), fun f' => ?_,
          fun f' k1 k2 k3 g' => ?_⟩
        · simp only [act]
          exact Function.update_of_ne (ne_of_lt (hp f')) _ _
        · simp only [act]
          by_cases e : f' = f
          · rw [e, Function.update_self]; exact Nat.lt_succ_self _
          · rw [Function.update_of_ne e]; exact Nat.lt_succ_of_lt (hq f')
        · simp only [act]
          by_cases e : f' = f
          · rw [e, Function.update_self]; exact ne_of_lt (hp g')
          · rw [Function.update_of_ne e]; exact hd f' k1 k2 k3 g'
      | setZ z => exact ⟨rfl, hp, hq, hd⟩
      | setObjective o => exact ⟨rfl, hp, hq, hd⟩
      | setSef b => exact ⟨rfl, hp, hq, hd⟩
    exact (ih (fun a h => hs a (List.mem_cons_of_mem _ h)) key.2).trans key.1

theorem dual_shared (h : Heap) (p : Prg) (hp : Valid h p) (ineq free neg : Cell) (o : Obj) (sef : Bool) :
    view (dual h p ineq free neg o sef).1 p = view h p ∧
      ArraysShared (dual h p ineq free neg o sef).1 p (dual h p ineq free neg o sef).2 := by
  refine ⟨?_, fun f => ?_, fun f => ?_, fun f h1 h2 h3 g => ?_⟩
  · unfold view
    congr 1
    funext f
    unfold look
    have : (dual h p ineq free neg o sef).1.cell (p.addr f) = h.cell (p.addr f) := by
      have := hp f
      simp only [dual]
      rw [if_neg (by omega), if_neg (by omega), if_neg (by omega), if_neg (by omega)]
    rw [this]
  · exact Nat.lt_add_right 4 (hp f)
  · have hA := hp .A
    have hb := hp .b
    have hc := hp .c
    cases f <;> simp only [dual] <;> omega
  · have := hp g
    cases f <;> simp only [dual] <;> first | exact absurd rfl h1 | exact absurd rfl h2 | exact absurd rfl h3 | omega

/-- C51 for `dual`, the part that holds: `dual` does not change the receiver, and neither do later in-place
calls of `add_constraint`, `add_variable` and `to_canonical_form` on the dual (in any order, together with
any rebinding of attributes). Missing: operations that write into the arrays (`C51_dual_wrong`). -/
theorem C51_dual_partial (h : Heap) (p : Prg) (hp : Valid h p) (ineq free neg : Cell) (o : Obj) (sef : Bool)
    (l : List Act) (hl : ∀ a ∈ l, SafeForDual a) :
    view (dual h p ineq free neg o sef).1 p = view h p ∧
      view (acts (dual h p ineq free neg o sef) l).1 p = view h p := by
  obtain ⟨h1, h2⟩ := dual_shared h p hp ineq free neg o sef
  exact ⟨h1, (dual_safe l hl h2).trans h1⟩

/-- The calls named in `C51_dual_partial` are of that kind. -/
theorem safe_methods :
    (∀ rows a q v, ∀ x ∈ addConstraintActs rows a q v, SafeForDual x) ∧
    (∀ columns cost col free neg, ∀ x ∈ addVariableActs columns cost col free neg, SafeForDual x) ∧
    (∀ A b c z, ∀ x ∈ canonicalActs A b c z, SafeForDual x) := by
  refine ⟨?_, ?_, ?_⟩
  · intro rows a q v x hx
    by_cases hq : q = .eq <;> simp [addConstraintActs, hq] at hx
    · rcases hx with rfl | rfl <;> simp [SafeForDual]
    · rcases hx with rfl | rfl | rfl | rfl <;> simp [SafeForDual]
  · intro columns cost col free neg x hx
    cases free <;> cases neg <;> simp [addVariableActs] at hx
    · rcases hx with rfl | rfl <;> simp [SafeForDual]
    · rcases hx with rfl | rfl | rfl | rfl <;> simp [SafeForDual]
    · rcases hx with rfl | rfl | rfl | rfl <;> simp [SafeForDual]
    · rcases hx with rfl | rfl | rfl | rfl <;> simp [SafeForDual]
  · intro A b c z x hx
    simp only [canonicalActs, List.mem_cons, List.not_mem_nil, or_false] at hx
    rcases hx with rfl | rfl | rfl | rfl <;> simp [SafeForDual]

/-- The heap holding the program `max x` subject to `x >= 1`. -/
def sampleHeap : Heap :=
  ⟨fun a => match a with
    | 0 => .mat [[1]]
    | 1 => .vec [1]
    | 2 => .vec [1]
    | 3 => .ops [(0, .ge)]
    | 4 => .ints []
    | 5 => .ints []
    | _ => .text [], 7⟩

/-- That program. -/
def samplePrg : Prg :=
  ⟨fun f => match f with
    | .A => 0
    | .b => 1
    | .c => 2
    | .ineq => 3
    | .free => 4
    | .neg => 5
    | .steps => 6, false, 0, .max, false⟩

theorem sample_valid : Valid sampleHeap samplePrg := fun f => by cases f <;> decide

/-- C51 as stated is false for `dual`: the dual of `max x, x >= 1` is `min y, y >= 1, y <= 0`; calling
`to_sef(in_place=True)` on it negates the column of its `_A`, which is the receiver's `_A`. -/
theorem C51_dual_wrong :
    Valid sampleHeap samplePrg ∧ look sampleHeap samplePrg .A = .mat [[1]] ∧
      look (acts (dual sampleHeap samplePrg (.ops [(0, .ge)]) (.ints []) (.ints [0]) .min false)
        (toSefActs .min [0] [] [(0, .ge)])).1 samplePrg .A = .mat [[-1]] := by
  refine ⟨sample_valid, by decide +kernel, by decide +kernel⟩

/-- In-place calls do change the receiver: the model is able to see changes. -/
example : look (acts (copy sampleHeap samplePrg) (addConstraintActs 1 [2] .le 3)).1
      (acts (copy sampleHeap samplePrg) (addConstraintActs 1 [2] .le 3)).2 .A = .mat [[1], [2]] ∧
    look (acts (sampleHeap, samplePrg) (addConstraintActs 1 [2] .le 3)).1
      (acts (sampleHeap, samplePrg) (addConstraintActs 1 [2] .le 3)).2 .ineq = .ops [(0, .ge), (1, .le)] := by
  decide +kernel

end Props
end Pytimize
