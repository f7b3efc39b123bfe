/-
Model of `pytimize/programs/_integer.py`: integer programs, the relaxation and branch and bound.

The recursion of `__branch` need not terminate, so the model takes the depth it may use as fuel; another fuel
bounds the number of simplex iterations of every call of `solve`. `__repr__`, `is_feasible` (which only calls
the base class) and the empty `cutting_plane` are not modelled.
-/
import Verif.LP.BasicLemmas
import Verif.LP.TwoPhase

namespace Pytimize
namespace LinProg

/-- `IntegerProgram.__init__`, `_integer.py:12-31`: the last argument is stored without a check. -/
def intCtor (A b c : PyVal) (z : ℚ) (objective : String) (inequalities : Option (List String))
    (free neg integral : Option (List ℤ)) : Except PyErr IntProgram :=
  match ctor A b c z objective inequalities free neg with
  | .error e => .error e
  | .ok p => .ok ⟨p, integral⟩

/-- The property `inequalities`, `_linear.py:1716-1733`, `:2061-2071`. -/
def LP.inequalities {m n : ℕ} (P : LP m n) : List String := List.ofFn fun i => (P.ineq i).sym

/-- `relax`, `_integer.py:184-202`. -/
def relax (I : IntProgram) : Except PyErr Prog :=
  let P := I.prog.lp
  ctor (.nd2 I.prog.m I.prog.n P.A) (.nd1 (List.ofFn P.b)) (.nd1 (List.ofFn P.c)) P.z P.objective.name
    (some P.inequalities) (some P.freeVariables) (some P.negativeVariables)

/-- The relaxation with one more constraint, as built in `_integer.py:98-120`: the sign classes are not
passed on. -/
def childProg {m n : ℕ} (P : LP m n) (pos : ℕ) (op : String) (k : ℚ) : Except PyErr Prog :=
  let row : Fin n → ℚ := fun j => if (j : ℕ) = pos then 1 else 0
  ctor (.nd2 (m + 1) n (Fin.snoc (α := fun _ => Fin n → ℚ) P.A row : Fin (m + 1) → Fin n → ℚ))
    (.nd1 (List.ofFn P.b ++ [k])) (.nd1 (List.ofFn P.c)) P.z P.objective.name
    (some (P.inequalities ++ [op])) none none

/-- Whether position `i` is looked at by the loop of `__branch`, `_integer.py:86-94`. The list is compared with
zero-based positions. -/
def looksAt (integral : Option (List ℤ)) (i : ℕ) : Bool :=
  match integral with
  | none => true
  | some l => decide ((i : ℤ) ∈ l)

/-- The first position the loop branches on, with its value, `_integer.py:86-97`. -/
def firstFractional (integral : Option (List ℤ)) : ℕ → List ℚ → Option (ℕ × ℚ)
  | _, [] => none
  | i, v :: vs =>
    if looksAt integral i && !Comparator.isInteger v then some (i, v)
    else firstFractional integral (i + 1) vs

/-- The choice between the answers of the two branches, `_integer.py:124-141`: both objectives take the
larger value. -/
def betterOf : Option (List ℚ × ℚ) → Option (List ℚ × ℚ) → Option (List ℚ × ℚ)
  | none, none => none
  | none, some h => some h
  | some l, none => some l
  | some l, some h => if h.2 > l.2 then some h else some l

/-- `__branch`, `_integer.py:58-145`. -/
def branch (sf : ℕ) (integral : Option (List ℤ)) : ℕ → Prog → Except PyErr (Option (List ℚ × ℚ))
  | 0, _ => .error .notTerminated
  | fuel + 1, Q =>
    match solve sf Q.lp with
    | .error e => .error e
    | .ok none => .ok none
    | .ok (some v) =>
      match evaluate Q.lp v with
      | .error e => .error e
      | .ok value =>
        match firstFractional integral 0 v with
        | none => .ok (some (v, value))
        | some (pos, q) =>
          match childProg Q.lp pos "<=" (⌊q⌋ : ℤ) with
          | .error e => .error e
          | .ok lo =>
            match branch sf integral fuel lo with
            | .error e => .error e
            | .ok rl =>
              match childProg Q.lp pos ">=" (⌈q⌉ : ℤ) with
              | .error e => .error e
              | .ok hi =>
                match branch sf integral fuel hi with
                | .error e => .error e
                | .ok rh => .ok (betterOf rl rh)

/-- `branch_and_bound`, `_integer.py:41-56`. -/
def branchAndBound (sf fuel : ℕ) (I : IntProgram) : Except PyErr (Option (List ℚ)) :=
  match relax I with
  | .error e => .error e
  | .ok P =>
    match branch sf I.integral fuel P with
    | .error e => .error e
    | .ok r => .ok (r.map Prod.fst)

end LinProg
end Pytimize
