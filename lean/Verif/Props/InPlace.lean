/-
Property C118: what a call leaves in the receiver (`in_place=True`) or in the returned program (`in_place=False`).
-/
import Verif.LP.HeapRefine
import Verif.Props.LinearShared

namespace Pytimize
namespace Props
open LinProg (Obj Ineq LP Prog)
open LinHeap

variable {m n : ℕ}

/-- The methods with a parameter `in_place`. -/
inductive Call
  | addConstraint (coefficients : List ℚ) (inequality : String) (value : ℚ)
  | addVariable (coefficient : ℚ) (column : Option (List ℚ)) (free negative : Bool)
  | toSef
  | toCanonicalForm (basis : List ℤ)
  | simplexIteration (basis : List ℤ)

/-- The program an iteration returns. -/
def iterProgram : LinProg.Iter m n → LP m n
  | .optimal _ _ P => P
  | .unbounded _ _ P => P
  | .next _ P => P

/-- The program that a call computes, by the models of the methods on values. -/
def Call.result : Call → Prog → Except PyErr Prog
  | .addConstraint a s v, P => (LinProg.addConstraint P.lp a s v).map fun Q => ⟨_, _, Q⟩
  | .addVariable d col free neg, P => (LinProg.addVariable P.lp d col free neg).map fun Q => ⟨_, _, Q⟩
  | .toSef, P => .ok ⟨_, _, (LinProg.toSef P.lp).lp⟩
  | .toCanonicalForm basis, P => (LinProg.toCanonicalForm P.lp basis).map fun Q => ⟨_, _, Q⟩
  | .simplexIteration basis, P => (LinProg.simplexIteration P.lp basis).map fun r => ⟨_, _, iterProgram r⟩

/-- The effects of a call on its receiver, which shows `P`, by the models of the methods on references
(`_linear.py:433-460`, `496-517`, `741-820`, `1137-1152`, `1576-1628`). The matrices of the canonical form are computed
from the arrays before they are bound. -/
def Call.effects (P : Prog) : Call → List Act
  | .addConstraint a s v =>
    match Ineq.parse s with
    | some q => addConstraintActs P.m a q v
    | none => []
  | .addVariable d col free neg => addVariableActs P.n d (col.getD (List.replicate P.m 0)) free neg
  | .toSef => if P.lp.isSef then [] else toSefActs P.lp.objective P.lp.neg P.lp.free (opsOf P.lp.ineq)
  | .toCanonicalForm basis =>
    match LinProg.toCols P.m P.n (LinProg.toArrayIndexing basis) with
    | some B =>
      let Q := LinProg.canon P.lp B
      canonicalActs (fun _ => matCell Q.A) (fun _ => vecCell Q.b) (fun _ => vecCell Q.c) Q.z
    | none => []
  | .simplexIteration basis =>
    match LinProg.toCols P.m P.n (LinProg.sortInt (LinProg.toArrayIndexing basis)) with
    | some B =>
      let Q := LinProg.canon (LinProg.flipRows (LinProg.negRows P.lp) P.lp) B
      simplexIterationActs (whereNeg P.lp) (fun _ => matCell Q.A) (fun _ => vecCell Q.b) (fun _ => vecCell Q.c) Q.z
    | none => []

/-- The call with the texts it logs. -/
def Call.acts (P : Prog) (k : Call) (log : List String) : List Act := log.flatMap logActs ++ k.effects P

/-- An object shows a program. -/
def Presents (s : Heap × Prg) (P : Prog) : Prop := Encodes (view s.1 s.2) P.lp

theorem map_ok {α β : Type} {x : Except PyErr α} {f : α → β} {b : β} (h : x.map f = .ok b) : ∃ a, x = .ok a ∧ f a = b := by
  cases x with
  | error e => cases h
  | ok a => exact ⟨a, rfl, Except.ok.inj h⟩

theorem effects_rect (P : Prog) (k : Call) : ∀ x ∈ k.effects P, RectAct x := by
  cases k with
  | addConstraint a s v =>
    simp only [Call.effects]
    split
    · exact addConstraint_rect _ _ _ _
    · simp
  | addVariable d col free neg => exact addVariable_rect _ _ _ _ _
  | toSef =>
    simp only [Call.effects]
    split
    · simp
    · exact toSef_rect _ _ _ _
  | toCanonicalForm basis =>
    simp only [Call.effects]
    split
    · exact canonical_rect _ _ _ _
    · simp
  | simplexIteration basis =>
    simp only [Call.effects]
    split
    · intro x hx
      rcases List.mem_append.mp hx with h | h
      · exact flip_rect _ x h
      · exact canonical_rect _ _ _ _ x h
    · simp

theorem iterStep_program {C : LP m n} {l : List ℤ} {B : Fin m → Fin n} {r : LinProg.Iter m n}
    (h : LinProg.iterStep C l B = .ok r) : iterProgram r = C := by
  unfold LinProg.iterStep at h
  simp only at h
  split at h
  · split at h
    · cases h
    · cases h; rfl
  · split at h
    · cases h
    · split at h
      · cases h; rfl
      · split at h
        · cases h
        · cases h; rfl

theorem effects_encodes {v : View} {P Q : Prog} (hv : Encodes v P.lp) (hfree : ∀ f ∈ P.lp.free, f < P.n) {k : Call}
    (h : k.result P = .ok Q) : Encodes ((k.effects P).foldl View.act v) Q.lp := by
  cases k with
  | addConstraint a s w =>
    obtain ⟨R, hR, rfl⟩ := map_ok h
    have hs : ∃ q, Ineq.parse s = some q := by
      cases hq : Ineq.parse s with
      | some q => exact ⟨q, rfl⟩
      | none =>
        unfold LinProg.addConstraint at hR
        rw [hq] at hR
        split at hR <;> cases hR
    obtain ⟨q, hq⟩ := hs
    simp only [Call.effects, hq]
    exact addConstraint_encodes hv hq hR
  | addVariable d col free neg =>
    obtain ⟨R, hR, rfl⟩ := map_ok h
    exact addVariable_encodes hv hR
  | toSef =>
    have h : (Except.ok (⟨_, _, (LinProg.toSef P.lp).lp⟩ : Prog) : Except PyErr Prog) = .ok Q := h
    cases h
    by_cases hs : P.lp.isSef = true
    · simp only [Call.effects, hs, if_true, List.foldl_nil]
      have : LinProg.toSef P.lp = ⟨P.n, P.lp, none⟩ := by unfold LinProg.toSef; rw [if_pos hs]
      rw [this]
      exact hv
    · have hs : P.lp.isSef = false := by simpa using hs
      simp only [Call.effects, hs, Bool.false_eq_true, if_false]
      exact toSef_encodes hv hs hfree
  | toCanonicalForm basis =>
    obtain ⟨R, hR, rfl⟩ := map_ok h
    unfold LinProg.toCanonicalForm at hR
    split at hR
    · cases hR
    · split at hR
      · cases hR
      · cases hR
      · split at hR
        · cases hR
        · rename_i B hB
          cases hR
          simp only [Call.effects, hB]
          exact canonical_encodes hv ⟨rfl, rfl, rfl, rfl, rfl⟩
  | simplexIteration basis =>
    obtain ⟨R, hR, rfl⟩ := map_ok h
    unfold LinProg.simplexIteration at hR
    split at hR
    · cases hR
    · split at hR
      · cases hR
      · cases hR
      · simp only at hR
        split at hR
        · cases hR
        · rename_i B hB
          simp only [Call.effects, hB, iterStep_program hR]
          have : ∀ A b c z, simplexIterationActs (whereNeg P.lp) A b c z =
              flipActs (whereNeg P.lp) ++ canonicalActs A b c z := fun _ _ _ _ => rfl
          rw [this, List.foldl_append]
          exact canonical_encodes (flip_encodes hv) ⟨rfl, rfl, rfl, rfl, rfl⟩

/-- C118 for `in_place=True`, the part that holds: for a program whose attributes are different objects, the receiver
shows the result afterwards, and its attributes are different objects again. Missing: programs with one array in two
attributes (`C118_shared_wrong`). -/
theorem C118_in_place_partial {s : Heap × Prg} {P Q : Prog} (ho : Own s.1 s.2) (hs : Presents s P)
    (hfree : ∀ f ∈ P.lp.free, f < P.n) {k : Call} (h : k.result P = .ok Q) (log : List String) :
    Presents (acts s (k.acts P log)) Q ∧ Own (acts s (k.acts P log)).1 (acts s (k.acts P log)).2 := by
  have hr : ∀ x ∈ k.acts P log, RectAct x := by
    intro x hx
    rcases List.mem_append.mp hx with h | h
    · obtain ⟨t, _, h⟩ := List.mem_flatMap.mp h
      exact log_rect t x h
    · exact effects_rect P k x h
  obtain ⟨h1, h2⟩ := acts_view (h := s.1) (p := s.2) _ ho hr
  refine ⟨?_, h1⟩
  show Encodes (view (acts s (k.acts P log)).1 (acts s (k.acts P log)).2) Q.lp
  rw [h2, Call.acts, List.foldl_append]
  exact effects_encodes (log_encodes log hs) hfree h

/-- C118 for `in_place=False`: for every program, the returned object shows the result, the receiver shows what it
showed before, and the attributes of the returned object are different objects. -/
theorem C118_not_in_place {s : Heap × Prg} {P Q : Prog} (hv : Valid s.1 s.2) (hs : Presents s P)
    (hfree : ∀ f ∈ P.lp.free, f < P.n) {k : Call} (h : k.result P = .ok Q) (log : List String) :
    let t := acts (copy s.1 s.2) (k.acts P log)
    Presents t Q ∧ view t.1 s.2 = view s.1 s.2 ∧ Own t.1 t.2 := by
  have hc : Presents (copy s.1 s.2) P := by
    show Encodes (view (copy s.1 s.2).1 (copy s.1 s.2).2) P.lp
    rw [(C51_copy s.1 s.2 hv).1]
    exact hs
  obtain ⟨h1, h2⟩ := C118_in_place_partial (copy_own hv) hc hfree h log
  exact ⟨h1, (C51_not_in_place s.1 s.2 hv _ [] (.setZ 0)).1, h2⟩

/-- C118 as stated is false for `in_place=True`: one array given as `b` and as `c`. The program `max x, x <= 1, x <= 0`
has the standard equality form `max -x', -x' + s = 1`, which `to_sef()` returns; `to_sef(in_place=True)` leaves the right-hand
side `-1` in the receiver. -/
theorem C118_shared_wrong :
    let s := construct callerHeap (.floats 0) (.floats 2) (.floats 2) (.ops [(0, .le)]) (.ints []) (.ints [0]) 0 .max false
    let P : Prog := ⟨1, 1, ⟨!![1], ![1], ![1], 0, .max, fun _ => .le, [], [0], false⟩⟩
    Valid s.1 s.2 ∧ Presents s P ∧
    (∃ Q : Prog, Call.toSef.result P = .ok Q ∧ Presents (acts (copy s.1 s.2) (Call.toSef.acts P [])) Q ∧
      ¬ Presents (acts s (Call.toSef.acts P [])) Q) ∧
    (view (acts (copy s.1 s.2) (Call.toSef.acts P [])).1 (acts (copy s.1 s.2) (Call.toSef.acts P [])).2).field .b = .vec [1] ∧
    (view (acts s (Call.toSef.acts P [])).1 (acts s (Call.toSef.acts P [])).2).field .b = .vec [-1] := by
  intro s P
  have hv : Valid s.1 s.2 := by
    intro f
    cases f <;> decide
  have hs : Presents s P := by
    refine ⟨?_, ?_, ?_, ?_, ?_, ?_, rfl, rfl, rfl⟩ <;> decide +kernel
  have hneg : (view (acts s (Call.toSef.acts P [])).1 (acts s (Call.toSef.acts P [])).2).field .b = .vec [-1] := by
    decide +kernel
  refine ⟨hv, hs, ⟨_, rfl, ?_, ?_⟩, by decide +kernel, hneg⟩
  · exact (C118_not_in_place hv hs (fun f hf => by cases hf) rfl []).1
  · intro h
    have h1 := h.b
    rw [hneg] at h1
    revert h1
    decide +kernel

/-! ### Building and dualising -/

/-- C118, the constructor: a program built from arrays (or lists) that are not the same object shows what the arrays
show, and its attributes are different objects. -/
theorem C118_constructor (h : Heap) {A b c : Given} (hA : Given.Ok h A) (hb : Given.Ok h b) (hc : Given.Ok h c)
    (hAb : ∀ a, A = .floats a → b ≠ .floats a) (hAc : ∀ a, A = .floats a → c ≠ .floats a)
    (hbc : ∀ a, b = .floats a → c ≠ .floats a) (P : LP m n) (eA : A.contents h = matCell P.A)
    (eb : b.contents h = vecCell P.b) (ec : c.contents h = vecCell P.c) :
    let s := construct h A b c (.ops (opsOf P.ineq)) (.ints P.free) (.ints P.neg) P.z P.objective P.isSef
    Presents s ⟨m, n, P⟩ ∧ Own s.1 s.2 := by
  intro s
  obtain ⟨_, _, h3, h4⟩ := construct_spec h hA hb hc (.ops (opsOf P.ineq)) (.ints P.free) (.ints P.neg) P.z P.objective
    P.isSef
  refine ⟨?_, h3, ?_, fun hf => by simp [s, construct] at hf⟩
  · show Encodes (view s.1 s.2) P
    have e : view s.1 s.2 = _ := h4.1
    rw [e]
    exact ⟨eA, eb, ec, rfl, rfl, rfl, rfl, rfl, rfl⟩
  · intro f g e
    cases A with
    | floats a =>
      cases b with
      | floats b =>
        have h1 : a ≠ b := fun e => hAb a rfl (by rw [e])
        have ha : a < h.next := hA
        have hb : b < h.next := hb
        cases c with
        | floats c =>
          have h2 : a ≠ c := fun e => hAc a rfl (by rw [e])
          have h3 : b ≠ c := fun e => hbc b rfl (by rw [e])
          have hc : c < h.next := hc
          cases f <;> cases g <;> first | rfl | (exfalso; simp only [s, construct, toNdarray] at e; omega)
        | other c =>
          cases f <;> cases g <;> first | rfl | (exfalso; simp only [s, construct, toNdarray, alloc] at e; omega)
      | other b =>
        have ha : a < h.next := hA
        cases c with
        | floats c =>
          have h2 : a ≠ c := fun e => hAc a rfl (by rw [e])
          have hc : c < h.next := hc
          cases f <;> cases g <;> first | rfl | (exfalso; simp only [s, construct, toNdarray, alloc] at e; omega)
        | other c =>
          cases f <;> cases g <;> first | rfl | (exfalso; simp only [s, construct, toNdarray, alloc] at e; omega)
    | other a =>
      cases b with
      | floats b =>
        have hb : b < h.next := hb
        cases c with
        | floats c =>
          have h3 : b ≠ c := fun e => hbc b rfl (by rw [e])
          have hc : c < h.next := hc
          cases f <;> cases g <;> first | rfl | (exfalso; simp only [s, construct, toNdarray, alloc] at e; omega)
        | other c =>
          cases f <;> cases g <;> first | rfl | (exfalso; simp only [s, construct, toNdarray, alloc] at e; omega)
      | other b =>
        cases c with
        | floats c =>
          have hc : c < h.next := hc
          cases f <;> cases g <;> first | rfl | (exfalso; simp only [s, construct, toNdarray, alloc] at e; omega)
        | other c =>
          cases f <;> cases g <;> first | rfl | (exfalso; simp only [s, construct, toNdarray, alloc] at e; omega)

/-- C118, `dual`: the object returned by `dual` shows the dual program although it shares its arrays with the receiver,
and its own attributes are different objects if those of the receiver are. -/
theorem C118_dual {s : Heap × Prg} {P : LP m n} (hm : 0 < m) (hn : 0 < n) (ho : Own s.1 s.2) (hs : Presents s ⟨m, n, P⟩) :
    let D := LinProg.dual P
    let t := LinHeap.dual s.1 s.2 (.ops (opsOf D.ineq)) (.ints D.free) (.ints D.neg) D.objective D.isSef
    Presents t ⟨n, m, D⟩ ∧ Own t.1 t.2 := by
  intro D t
  have hcell : ∀ f, t.1.cell (s.2.addr f) = s.1.cell (s.2.addr f) := by
    intro f
    have := ho.valid f
    simp only [t, LinHeap.dual]
    rw [if_neg (by omega), if_neg (by omega), if_neg (by omega), if_neg (by omega)]
  have hA : look s.1 s.2 .A = matCell P.A := hs.A
  have hback : Rect (s.1.cell (s.2.addr .A)) := by
    by_cases hf : s.2.flipped = true
    · exact ho.rect hf
    · unfold look at hA
      rw [if_neg (by simp [hf])] at hA
      rw [hA]
      exact matCell_rect hm hn _
  refine ⟨⟨?_, ?_, ?_, ?_, ?_, ?_, rfl, rfl, rfl⟩, fun f => ?_, fun f g e => ?_, fun _ => ?_⟩
  · show look t.1 t.2 .A = matCell D.A
    have hD : matCell D.A = transpose (matCell P.A) := (matCell_transpose hm _).symm
    rw [hD, ← hA]
    unfold look
    have e1 : t.2.addr .A = s.2.addr .A := rfl
    have e2 : t.2.flipped = !s.2.flipped := rfl
    rw [e1, e2, hcell]
    by_cases hf : s.2.flipped = true
    · simp [hf, hback.transpose_transpose]
    · simp [hf]
  · show look t.1 t.2 .b = vecCell D.b
    have : look s.1 s.2 .c = vecCell P.c := hs.c
    simp only [look, reduceCtorEq, false_and, if_false] at this ⊢
    rw [← hcell] at this
    exact this
  · show look t.1 t.2 .c = vecCell D.c
    have : look s.1 s.2 .b = vecCell P.b := hs.b
    simp only [look, reduceCtorEq, false_and, if_false] at this ⊢
    rw [← hcell] at this
    exact this
  · simp [view, look, t, LinHeap.dual]
  · simp [view, look, t, LinHeap.dual]
  · simp [view, look, t, LinHeap.dual]
  · have h1 := ho.valid .A
    have h2 := ho.valid .b
    have h3 := ho.valid .c
    cases f <;> simp only [t, LinHeap.dual] <;> omega
  · have h1 := ho.valid .A
    have h2 := ho.valid .b
    have h3 := ho.valid .c
    have k1 : s.2.addr .A ≠ s.2.addr .b := fun e => by cases ho.inj e
    have k2 : s.2.addr .A ≠ s.2.addr .c := fun e => by cases ho.inj e
    have k3 : s.2.addr .b ≠ s.2.addr .c := fun e => by cases ho.inj e
    cases f <;> cases g <;> first | rfl | (exfalso; simp only [t, LinHeap.dual] at e; omega)
  · show Rect (t.1.cell (s.2.addr .A))
    rw [hcell]
    exact hback

/-! ### Histories -/

/-- Going on with a program: calls in place, calls that return a copy, `copy` and `dual`, in any order. -/
inductive Uses : Prog → Heap × Prg → Prog → Heap × Prg → Prop
  | done (P : Prog) (s : Heap × Prg) : Uses P s P s
  | inPlace {P Q R : Prog} {s t : Heap × Prg} (k : Call) (log : List String) (h : k.result P = .ok Q)
      (u : Uses Q (acts s (k.acts P log)) R t) : Uses P s R t
  | copied {P Q R : Prog} {s t : Heap × Prg} (k : Call) (log : List String) (h : k.result P = .ok Q)
      (u : Uses Q (acts (copy s.1 s.2) (k.acts P log)) R t) : Uses P s R t
  | copy {P R : Prog} {s t : Heap × Prg} (u : Uses P (copy s.1 s.2) R t) : Uses P s R t
  | dual {P R : Prog} {s t : Heap × Prg} (hm : 0 < P.m) (hn : 0 < P.n)
      (u : Uses ⟨P.n, P.m, LinProg.dual P.lp⟩ (LinHeap.dual s.1 s.2 (.ops (opsOf (LinProg.dual P.lp).ineq))
        (.ints (LinProg.dual P.lp).free) (.ints (LinProg.dual P.lp).neg) (LinProg.dual P.lp).objective
        (LinProg.dual P.lp).isSef) R t) : Uses P s R t

theorem free_lt_result {P Q : Prog} (hfree : ∀ f ∈ P.lp.free, f < P.n) {k : Call} (h : k.result P = .ok Q) :
    ∀ f ∈ Q.lp.free, f < Q.n := by
  cases k with
  | addConstraint a s w =>
    obtain ⟨R, hR, rfl⟩ := map_ok h
    unfold LinProg.addConstraint at hR
    split at hR
    · cases hR
    · split at hR
      · cases hR
      · cases hR; exact hfree
  | addVariable d col free neg =>
    obtain ⟨R, hR, rfl⟩ := map_ok h
    unfold LinProg.addVariable at hR
    split at hR
    · cases hR
    · simp only at hR
      split at hR
      · cases hR
      · cases hR
        intro f hf
        show f < P.n + 1
        have hf : f ∈ (LinProg.addVariableMark P.lp free neg).free := hf
        unfold LinProg.addVariableMark at hf
        split at hf
        · rcases List.mem_append.mp hf with h | h
          · have := hfree f h; omega
          · have := List.mem_singleton.mp h; omega
        · split at hf
          · have := hfree f hf; omega
          · have := hfree f hf; omega
  | toSef =>
    have h : (Except.ok (⟨_, _, (LinProg.toSef P.lp).lp⟩ : Prog) : Except PyErr Prog) = .ok Q := h
    cases h
    by_cases hs : P.lp.isSef = true
    · have : LinProg.toSef P.lp = ⟨P.n, P.lp, none⟩ := by unfold LinProg.toSef; rw [if_pos hs]
      rw [this]
      exact hfree
    · intro f hf
      have e : (LinProg.toSef P.lp).lp.free = [] := by
        unfold LinProg.toSef
        rw [if_neg hs]
      simp only [e] at hf
      cases hf
  | toCanonicalForm basis =>
    obtain ⟨R, hR, rfl⟩ := map_ok h
    unfold LinProg.toCanonicalForm at hR
    split at hR
    · cases hR
    · split at hR
      · cases hR
      · cases hR
      · split at hR
        · cases hR
        · cases hR; exact hfree
  | simplexIteration basis =>
    obtain ⟨R, hR, rfl⟩ := map_ok h
    unfold LinProg.simplexIteration at hR
    split at hR
    · cases hR
    · split at hR
      · cases hR
      · cases hR
      · simp only at hR
        split at hR
        · cases hR
        · have := iterStep_program hR
          show ∀ f ∈ (iterProgram R).free, f < P.n
          rw [this]
          exact hfree

/-- C118, histories: however a program is used after it was built from different arrays, what the object at hand shows is
what the value models compute. -/
theorem C118_history_partial {P R : Prog} {s t : Heap × Prg} (u : Uses P s R t) (ho : Own s.1 s.2) (hs : Presents s P)
    (hfree : ∀ f ∈ P.lp.free, f < P.n) : Presents t R ∧ Own t.1 t.2 := by
  induction u with
  | done P s => exact ⟨hs, ho⟩
  | inPlace k log h u ih =>
    obtain ⟨h1, h2⟩ := C118_in_place_partial ho hs hfree h log
    exact ih h2 h1 (free_lt_result hfree h)
  | copied k log h u ih =>
    obtain ⟨h1, _, h2⟩ := C118_not_in_place ho.valid hs hfree h log
    exact ih h2 h1 (free_lt_result hfree h)
  | @copy P R s t u ih =>
    refine ih (copy_own ho.valid) ?_ hfree
    show Encodes (view (LinHeap.copy s.1 s.2).1 (LinHeap.copy s.1 s.2).2) P.lp
    rw [(C51_copy s.1 s.2 ho.valid).1]
    exact hs
  | @dual P R s t hm hn u ih =>
    obtain ⟨h1, h2⟩ := C118_dual hm hn ho hs
    refine ih h2 h1 ?_
    intro f hf
    have hf : f ∈ (LinProg.dual P.lp).free := hf
    show f < P.m
    unfold LinProg.dual at hf
    simp only [List.mem_filter, List.mem_range] at hf
    exact hf.1

/-- The hypotheses can be met: `max -x` subject to `x >= 1`, `x <= 0` built from lists, and a history of three calls, among
them calls in place on the dual. -/
example :
    let P : LP 1 1 := ⟨!![1], ![1], ![-1], 0, .max, fun _ => .ge, [], [0], false⟩
    let s := construct callerHeap (.other (.mat [[1]])) (.other (.vec [1])) (.other (.vec [-1])) (.ops (opsOf P.ineq))
      (.ints P.free) (.ints P.neg) P.z P.objective P.isSef
    Own s.1 s.2 ∧ Presents s ⟨1, 1, P⟩ ∧ (∃ R t, Uses ⟨1, 1, P⟩ s R t ∧ R.m = 2 ∧ R.n = 3 ∧
      (view t.1 t.2).field .A = .mat [[-1, 1, 0], [-2, 0, 1]]) := by
  intro P s
  obtain ⟨h1, h2⟩ := C118_constructor callerHeap (A := .other (.mat [[1]])) (b := .other (.vec [1]))
    (c := .other (.vec [-1])) trivial trivial trivial (by simp) (by simp) (by simp) P (by decide +kernel)
    (by decide +kernel) (by decide +kernel)
  exact ⟨h2, h1, _, _, .dual (by decide) (by decide) (.inPlace (.addConstraint [2] "<=" 3) ["added"] rfl
    (.inPlace .toSef [] rfl (.done _ _))), by decide +kernel, by decide +kernel, by decide +kernel⟩

end Props
end Pytimize
