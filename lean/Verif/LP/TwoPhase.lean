/-
Model of `auxiliary`, `two_phase_simplex` and `solve` of `_linear.py`.
-/
import Verif.LP.Sef
import Verif.LP.Simplex

namespace Pytimize
namespace LinProg
open Comparator

variable {m n : ℕ}

/-- The program returned by `auxiliary`, `_linear.py:890-903`. -/
def auxLp (P : LP m n) : LP m (n + m) :=
  { A := fun i => Fin.append (fun j => if negRows P i then P.A i j * (-1) else P.A i j)
      fun k => if i = k then 1 else 0
    b := fun i => if negRows P i then P.b i * (-1) else P.b i
    c := Fin.append (fun _ => 0) fun _ => 1
    z := 0, objective := .min, ineq := fun _ => .eq, free := [], neg := [], isSef := false }

/-- `auxiliary`, `_linear.py:874-903`. -/
def auxiliary (P : LP m n) : Except PyErr (LP m (n + m)) :=
  if !P.isSef then .error .arithmeticError else .ok (auxLp P)

/-- The search of `_linear.py:1012-1033`: the deque is used as a stack, its head here is the
element `pop()` returns. -/
def search (P : LP m n) (pb zs : List ℤ) (size : ℕ) :
    ℕ → List (ℕ × List ℤ) → Except PyErr (Option (List ℤ))
  | 0, _ => .error .notTerminated
  | _ + 1, [] => .ok none
  | f + 1, (cur, l) :: rest =>
    if l.length = size then
      match isBasis P (sortInt (pb ++ l)) with
      | .error e => .error e
      | .ok true => .ok (some (sortInt (pb ++ l)))
      | .ok false => search P pb zs size f rest
    else
      search P pb zs size f
        ((((List.range zs.length).filter fun i => decide (cur < i)).reverse.map fun i =>
          (i, l ++ [zs.getD i 0])) ++ rest)

/-- The one-based indices `i` of `vals` with `keep vals[i]`. -/
def indicesWhere (vals : List ℚ) (keep : ℚ → Bool) : List ℤ :=
  ((List.range vals.length).filter fun i => keep (vals.getD i 0)).map fun i : ℕ => (i : ℤ) + 1

/-- The completion of the support to a basis, `_linear.py:998-1033`. If the support already has `m`
elements the loop over the seeds reads `zero_set` past its end. The fuel always suffices
(`search_terminates`). -/
def completeBasis (P : LP m n) (vals : List ℚ) : Except PyErr (List ℤ) :=
  let pb := indicesWhere vals fun v => !isCloseToZero v
  let zs := indicesWhere vals isCloseToZero
  if m ≤ pb.length then .error .indexError
  else
    let size := m - pb.length
    let seeds := ((List.range (zs.length + 1 - size)).reverse.map fun i => (i, [zs.getD i 0]))
    match search P pb zs size (2 ^ (zs.length + 1)) seeds with
    | .error e => .error e
    | .ok (some l) => .ok l
    | .ok none => .ok pb

/-- `two_phase_simplex` after the auxiliary program has been converted, `_linear.py:985-1037`: the answer and
the program object afterwards. -/
def twoPhaseWith (fuel : ℕ) (P : LP m n) (R : SefRes m) : Except PyErr (Answer m n) × LP m n :=
  match (simplex fuel R.lp ((List.range m).map fun i : ℕ => (n : ℤ) + i + 1)).1 with
  | .error e => (.error e, P)
  | .ok (.unbounded _ _) => (.error .valueError, P)
  | .ok (.infeasible _) => (.error .valueError, P)
  | .ok (.optimal x l _) =>
    if isCloseToZero (R.lp.c ⬝ᵥ x + R.lp.z) then
      match isBasis P l with
      | .error e => (.error e, P)
      | .ok true => simplex fuel P l
      | .ok false =>
        match completeBasis P ((List.ofFn x).take n) with
        | .error e => (.error e, P)
        | .ok l' => simplex fuel P l'
    else
      match toCols m R.n (toArrayIndexing l) with
      | none => (.error .indexError, P)
      | some B => (.ok (.infeasible (dualCert R.lp (negRows P) B)), P)

/-- `two_phase_simplex`, `_linear.py:958-1037`. -/
def twoPhase (fuel : ℕ) (P : LP m n) : Except PyErr (Answer m n) × LP m n :=
  if !P.isSef then (.error .arithmeticError, P) else twoPhaseWith fuel P (toSef (auxLp P))

/-- The first component of an answer: the solution vector or `None`. -/
def Answer.solution : Answer m n → Option (Fin n → ℚ)
  | .optimal x _ _ => some x
  | _ => none

/-- `solve` on the converted program, `_linear.py:922-955`. -/
def solveSef (fuel : ℕ) (R : SefRes m) : Except PyErr (Option (List ℚ)) :=
  let twoPhaseBranch : Except PyErr (Option (List ℚ)) :=
    match (twoPhase fuel R.lp).1 with
    | .error e => .error e
    | .ok a => .ok (a.solution.map (reverseSol R.rev))
  if m ≤ R.n then
    let candidate := (List.range (R.n - m)).map fun i : ℕ => (m : ℤ) + i + 1
    match isBasis R.lp candidate with
    | .error e => .error e
    | .ok true =>
      match (simplex fuel R.lp candidate).1 with
      | .error .arithmeticError => .ok none
      | .error e => .error e
      | .ok a => .ok (a.solution.map (reverseSol R.rev))
    | .ok false => twoPhaseBranch
  else twoPhaseBranch

/-- `solve`, `_linear.py:905-956`. -/
def solve (fuel : ℕ) (P : LP m n) : Except PyErr (Option (List ℚ)) :=
  if P.isSef then
    match (twoPhase fuel P).1 with
    | .error e => .error e
    | .ok a => .ok (a.solution.map List.ofFn)
  else solveSef fuel (toSef P)

/-- `optimal_value`, `_linear.py:545-551`. -/
def optimalValue (fuel : ℕ) (P : LP m n) : Except PyErr (Option ℚ) :=
  match solve fuel P with
  | .error e => .error e
  | .ok none => .ok none
  | .ok (some x) =>
    match evaluate P x with
    | .error e => .error e
    | .ok v => .ok (some v)

end LinProg
end Pytimize
