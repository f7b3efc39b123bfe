/-
Aliasing model of `LinearProgram` objects, for `in_place` and `copy`.

`Verif.LP.Basic` treats programs as values. Here a program is a record of references into a heap, because
NumPy arrays, lists and dictionaries are shared unless they are copied. Every method is written as the list
of effects it has on its receiver: changing the contents of an object the receiver refers to (`poke`) or
binding an attribute to a newly created object (`bind`).
-/
import Mathlib.Data.List.Basic
import Mathlib.Logic.Function.Basic
import Verif.LP.Basic

namespace Pytimize
namespace LinHeap
open LinProg (Ineq Obj)

/-- The contents of a heap object: a matrix, a vector, a list of indices, the dictionary of operators, the
step log. -/
inductive Cell
  | mat (rows : List (List ℚ))
  | vec (l : List ℚ)
  | ints (l : List ℕ)
  | ops (l : List (ℕ × Ineq))
  | text (l : List String)
  deriving DecidableEq

/-- The attributes of a program that refer to mutable objects, `_linear.py:133-145`. -/
inductive Field | A | b | c | ineq | free | neg | steps
  deriving DecidableEq

/-- A heap: contents by address; addresses from `next` on are unused. -/
structure Heap where
  cell : ℕ → Cell
  next : ℕ

/-- A program object. `flipped` marks that `_A` is a transposed view (`A.T`) of the array at its address. -/
structure Prg where
  addr : Field → ℕ
  flipped : Bool
  z : ℚ
  objective : Obj
  isSef : Bool

/-- `a.T`. -/
def transpose : Cell → Cell
  | .mat rows => .mat ((List.range (rows.headD []).length).map fun j => rows.map fun r => r.getD j 0)
  | x => x

/-- What an attribute of a program shows. -/
def look (h : Heap) (p : Prg) (f : Field) : Cell :=
  if f = .A ∧ p.flipped then transpose (h.cell (p.addr f)) else h.cell (p.addr f)

/-- Everything that can be observed of a program through its accessors. -/
structure View where
  field : Field → Cell
  z : ℚ
  objective : Obj
  isSef : Bool

/-- The view of a program in a heap. -/
def view (h : Heap) (p : Prg) : View := ⟨look h p, p.z, p.objective, p.isSef⟩

/-- One effect of a method on its receiver. -/
inductive Act
  /-- change the object an attribute refers to, e.g. `self._A[:, i] *= -1` or `list.append` -/
  | poke (f : Field) (g : Cell → Cell)
  /-- bind an attribute to a new object, e.g. `self._A = np.c_[…]` -/
  | bind (f : Field) (g : (Field → Cell) → Cell)
  /-- assign one of the plain attributes -/
  | setZ (z : ℚ)
  | setObjective (o : Obj)
  | setSef (b : Bool)

/-- The effect of one act. -/
def act (s : Heap × Prg) : Act → Heap × Prg
  | .poke f g =>
    let h := s.1
    let p := s.2
    let new := if f = .A ∧ p.flipped then transpose (g (look h p f)) else g (look h p f)
    (⟨Function.update h.cell (p.addr f) new, h.next⟩, p)
  | .bind f g =>
    let h := s.1
    let p := s.2
    (⟨Function.update h.cell h.next (g (look h p)), h.next + 1⟩,
      { p with addr := Function.update p.addr f h.next
               flipped := if f = .A then false else p.flipped })
  | .setZ z => (s.1, { s.2 with z := z })
  | .setObjective o => (s.1, { s.2 with objective := o })
  | .setSef b => (s.1, { s.2 with isSef := b })

/-- A list of acts. -/
def acts (s : Heap × Prg) (l : List Act) : Heap × Prg := l.foldl act s

/-! ### `copy` and `dual` -/

/-- A newly created object. -/
def alloc (h : Heap) (c : Cell) : Heap × ℕ := (⟨Function.update h.cell h.next c, h.next + 1⟩, h.next)

/-- The attributes in the order in which `copy` copies them. -/
def fields : List Field := [.A, .b, .c, .ineq, .free, .neg, .steps]

/-- `copy`, `_linear.py:1537-1557`: every array, list and dictionary is copied. -/
def copy (h : Heap) (p : Prg) : Heap × Prg :=
  (⟨fun a => if a < h.next then h.cell a else
      match fields[a - h.next]? with
      | some f => look h p f
      | none => h.cell a, h.next + 7⟩,
    { p with addr := fun f => h.next + fields.idxOf f, flipped := false })

/-- `dual`, `_linear.py:822-872`: the constructor keeps the float arrays it is given, so `_A` is a view of
the receiver's `_A` and `_b`, `_c` are the receiver's `_c`, `_b`. The lists are new. -/
def dual (h : Heap) (p : Prg) (ineq free neg : Cell) (o : Obj) (sef : Bool) : Heap × Prg :=
  (⟨fun a => if a = h.next then ineq else if a = h.next + 1 then free else if a = h.next + 2 then neg
      else if a = h.next + 3 then .text [] else h.cell a, h.next + 4⟩,
    { addr := fun f => match f with
        | .A => p.addr .A
        | .b => p.addr .c
        | .c => p.addr .b
        | .ineq => h.next
        | .free => h.next + 1
        | .neg => h.next + 2
        | .steps => h.next + 3
      flipped := !p.flipped, z := 0, objective := o, isSef := sef })

/-! ### The methods as acts -/

/-- The rows of a matrix cell. -/
def Cell.rows : Cell → List (List ℚ)
  | .mat r => r
  | _ => []

/-- The entries of a vector cell. -/
def Cell.entries : Cell → List ℚ
  | .vec l => l
  | _ => []

/-- The entries of an index list. -/
def Cell.indices : Cell → List ℕ
  | .ints l => l
  | _ => []

/-- The entries of a dictionary. -/
def Cell.dict : Cell → List (ℕ × Ineq)
  | .ops l => l
  | _ => []

/-- `l[i] *= -1`. -/
def negEntry (i : ℕ) (l : List ℚ) : List ℚ := l.modify i (· * (-1))

/-- `add_constraint(…, in_place=True)`, `_linear.py:433-460`, for checked arguments. -/
def addConstraintActs (rows : ℕ) (a : List ℚ) (q : Ineq) (v : ℚ) : List Act :=
  (if q = .eq then [] else [.poke .ineq fun d => .ops (d.dict ++ [(rows, q)]), .setSef false]) ++
    [.bind .A fun w => .mat ((w .A).rows ++ [a]), .bind .b fun w => .vec ((w .b).entries ++ [v])]

/-- `add_variable(…, in_place=True)`, `_linear.py:496-517`, for checked arguments. -/
def addVariableActs (columns : ℕ) (cost : ℚ) (col : List ℚ) (free neg : Bool) : List Act :=
  (if free then [.poke .free fun l => .ints (l.indices ++ [columns]), .setSef false]
    else if neg then [.poke .neg fun l => .ints (l.indices ++ [columns]), .setSef false] else []) ++
    [.bind .A fun w => .mat (List.zipWith (fun r x => r ++ [x]) (w .A).rows col),
      .bind .c fun w => .vec ((w .c).entries ++ [cost])]

/-- `to_sef(…, in_place=True)`, `_linear.py:1582-1628`, for a program whose lists are given. Negated columns
are changed inside the array; split and slack columns create new arrays. -/
def toSefActs (o : Obj) (neg free : List ℕ) (ineq : List (ℕ × Ineq)) : List Act :=
  (if o = .min then [.bind .c fun w => .vec ((w .c).entries.map (- ·)), .setObjective .max] else []) ++
  (neg.flatMap fun i => [.poke .A fun a => .mat (a.rows.map (negEntry i)),
    .poke .c fun a => .vec (negEntry i a.entries)]) ++
  [.bind .neg fun _ => .ints []] ++
  (free.zipIdx.flatMap fun (f, i) =>
    [.bind .c fun w => .vec ((w .c).entries.insertIdx (f + i + 1) (-((w .c).entries.getD (f + i) 0))),
      .bind .A fun w => .mat ((w .A).rows.map fun r => r.insertIdx (f + i + 1) (-(r.getD (f + i) 0)))]) ++
  [.bind .free fun _ => .ints []] ++
  (ineq.flatMap fun (i, q) =>
    [.bind .A fun w => .mat ((w .A).rows.map (· ++ [0])), .bind .c fun w => .vec ((w .c).entries ++ [0]),
      .poke .A fun a => .mat (a.rows.modify i fun r => r.modify (r.length - 1) fun _ => slackOf q)]) ++
  [.bind .ineq fun _ => .ops [], .setSef true]
where
  /-- the slack coefficient -/
  slackOf : Ineq → ℚ
    | .ge => -1
    | .le => 1
    | .eq => 0

/-- `__to_canonical_form`, `_linear.py:798-820`: new arrays computed from the old ones. -/
def canonicalActs (A b c : (Field → Cell) → Cell) (z : ℚ) : List Act :=
  [.bind .A A, .bind .b b, .bind .c c, .setZ z]

/-- `simplex_iteration(…, in_place=True)`, `_linear.py:1146-1152`: rows with negative right-hand side are
negated inside the arrays, then the program is put into canonical form. -/
def simplexIterationActs (S : List ℕ) (A b c : (Field → Cell) → Cell) (z : ℚ) : List Act :=
  [.poke .b fun v => .vec (S.foldl (fun l i => negEntry i l) v.entries),
    .poke .A fun a => .mat (S.foldl (fun r i => r.modify i fun row => row.map (· * (-1))) a.rows)] ++
  canonicalActs A b c z

/-- The text log is appended to in place by every method called with `show_steps`. -/
def logActs (t : String) : List Act := [.poke .steps fun | .text l => .text (l ++ [t]) | x => x]

/-! ### Frame -/

/-- All addresses of a program are in use. -/
def Valid (h : Heap) (p : Prg) : Prop := ∀ f, p.addr f < h.next

/-- Two programs share nothing. -/
def Apart (p q : Prg) : Prop := ∀ f g, p.addr f ≠ q.addr g

theorem act_frame {h : Heap} {p q : Prg} (hp : Valid h p) (hq : Valid h q) (ha : Apart p q) (a : Act) :
    view (act (h, q) a).1 p = view h p ∧ Valid (act (h, q) a).1 p ∧ Valid (act (h, q) a).1 (act (h, q) a).2 ∧
      Apart p (act (h, q) a).2 := by
  have keep : ∀ (h' : Heap), (∀ f, h'.cell (p.addr f) = h.cell (p.addr f)) → view h' p = view h p := by
    intro h' hh
    unfold view
    congr 1
    funext f
    unfold look
    rw [hh f]
  cases a with
  | poke f g =>
    refine ⟨keep _ fun f' => ?_, hp, hq, ha⟩
    simp only [act]
    exact Function.update_of_ne (ha f' f) _ _
  | bind f g =>
    refine ⟨keep _ fun f' => ?_, fun f' => ?_, fun f' => ?_, fun f' g' => ?_⟩
    · simp only [act]
      exact Function.update_of_ne (ne_of_lt (hp f')) _ _
    · exact Nat.lt_succ_of_lt (hp f')
    · simp only [act]
      by_cases e : f' = f
      · rw [e, Function.update_self]; exact Nat.lt_succ_self _
      · rw [Function.update_of_ne e]; exact Nat.lt_succ_of_lt (hq f')
    · simp only [act]
      by_cases e : g' = f
      · rw [e, Function.update_self]; exact ne_of_lt (hp f')
      · rw [Function.update_of_ne e]; exact ha f' g'
  | setZ z => exact ⟨rfl, hp, hq, ha⟩
  | setObjective o => exact ⟨rfl, hp, hq, ha⟩
  | setSef b => exact ⟨rfl, hp, hq, ha⟩

theorem acts_frame (l : List Act) {h : Heap} {p q : Prg} (hp : Valid h p) (hq : Valid h q)
    (ha : Apart p q) :
    view (acts (h, q) l).1 p = view h p ∧ Valid (acts (h, q) l).1 p ∧
      Valid (acts (h, q) l).1 (acts (h, q) l).2 ∧ Apart p (acts (h, q) l).2 := by
  induction l generalizing h q with
  | nil => exact ⟨rfl, hp, hq, ha⟩
  | cons a l ih =>
    obtain ⟨h1, h2, h3, h4⟩ := act_frame hp hq ha a
    obtain ⟨k1, k2, k3, k4⟩ := ih (h := (act (h, q) a).1) (q := (act (h, q) a).2) h2 h3 h4
    exact ⟨k1.trans h1, k2, k3, k4⟩

end LinHeap
end Pytimize
