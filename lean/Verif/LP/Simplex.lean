/-
Model of bases, canonical forms and the simplex method of `_linear.py`.

A basis is handled as in the code: a Python list of integers. `toCols` turns a zero-based list of the
right length into the selection of columns used in `A[:, basis]`.
-/
import Mathlib.LinearAlgebra.Matrix.Adjugate
import Verif.LP.Verify

namespace Pytimize
namespace LinProg
open Comparator

variable {m n : ℕ}

/-! ### Bases -/

/-- The columns named by a zero-based list, if it has `m` entries, all of them in range. -/
def toCols (m n : ℕ) (l : List ℤ) : Option (Fin m → Fin n) :=
  if h : l.length = m ∧ ∀ i ∈ l, 0 ≤ i ∧ i < n then
    some fun i => ⟨(l[i]'(by rw [h.1]; exact i.2)).toNat, by
      have := h.2 (l[i]'(by rw [h.1]; exact i.2)) (List.getElem_mem _); omega⟩
  else none

/-- `A[:, basis]`. -/
def colSel (A : Matrix (Fin m) (Fin n) ℚ) (B : Fin m → Fin n) : Matrix (Fin m) (Fin m) ℚ :=
  A.submatrix id B

/-- `np.linalg.inv` of a nonsingular matrix, by Cramer's rule. -/
def npInv (M : Matrix (Fin m) (Fin m) ℚ) : Matrix (Fin m) (Fin m) ℚ := (M.det)⁻¹ • M.adjugate

/-- `is_basis`, `_linear.py:630-655`. For a program without rows `max([])` raises `ValueError`. -/
def isBasis (P : LP m n) (basis : List ℤ) : Except PyErr Bool :=
  let l := sortInt (toArrayIndexing basis)
  if l.length ≠ m then .ok false
  else if l = [] then .error .valueError
  else
    match toCols m n l with
    | none => .ok false
    | some B => .ok (!isCloseToZero (colSel P.A B).det)

/-- `solution = np.zeros(n); for index, value in zip(basis, components): solution[index] = value`,
`_linear.py:1706-1712`. -/
def assign (B : Fin m → Fin n) (v : Fin m → ℚ) : Fin n → ℚ :=
  (List.finRange m).foldl (fun x i => Function.update x (B i) (v i)) fun _ => 0

/-- `__compute_basic_solution`, `_linear.py:1693-1714`, on the zero-based list `l` which must denote a
basis: the components are computed for the list as given and stored at the sorted indices. -/
def computeBasicSolution0 (P : LP m n) (l : List ℤ) : Except PyErr (Fin n → ℚ) :=
  match toCols m n l, toCols m n (sortInt l) with
  | some B, some B' =>
    if (colSel P.A B).det = 0 then .error .linAlgError
    else .ok (assign B' ((npInv (colSel P.A B)).mulVec P.b))
  | _, _ => .error .indexError

/-- `compute_basic_solution`, `_linear.py:718-739`. -/
def computeBasicSolution (P : LP m n) (basis : List ℤ) : Except PyErr (Fin n → ℚ) :=
  match isBasis P basis with
  | .error e => .error e
  | .ok false => .error .arithmeticError
  | .ok true => computeBasicSolution0 P (toArrayIndexing basis)

/-- `is_basis_feasible`, `_linear.py:699-716`. -/
def isBasisFeasible (P : LP m n) (basis : List ℤ) : Except PyErr Bool :=
  match isBasis P basis with
  | .error e => .error e
  | .ok false => .ok false
  | .ok true =>
    match computeBasicSolution P basis with
    | .error e => .error e
    | .ok x => .ok (decide (∀ j, pyCmp (x j) .ge 0 = true))

/-- `is_basic_solution`, `_linear.py:553-604`. -/
def isBasicSolution (P : LP m n) (x : List ℚ) (basis : List ℤ) : Except PyErr Bool :=
  if !P.isSef then .error .arithmeticError
  else
    match toVec n x with
    | none => .error .valueError
    | some x =>
      match isBasis P basis with
      | .error e => .error e
      | .ok false => .error .valueError
      | .ok true =>
        .ok (decide (∀ j : Fin n, ((j : ℕ) : ℤ) ∉ toArrayIndexing basis → isCloseToZero (x j) = true) &&
          decide (∀ i, npIsClose ((P.A.mulVec x) i) (P.b i) = true))

/-! ### Canonical form -/

/-- `__to_canonical_form`, `_linear.py:780-820`. -/
def canon (P : LP m n) (B : Fin m → Fin n) : LP m n :=
  let T := npInv (colSel P.A B)
  let y := T.transpose.mulVec fun i => P.c (B i)
  { P with A := T * P.A, b := T.mulVec P.b, c := P.c - P.A.vecMul y, z := y ⬝ᵥ P.b + P.z }

/-- `to_canonical_form`, `_linear.py:741-778`. -/
def toCanonicalForm (P : LP m n) (basis : List ℤ) : Except PyErr (LP m n) :=
  if !P.isSef then .error .arithmeticError
  else
    match isBasis P basis with
    | .error e => .error e
    | .ok false => .error .valueError
    | .ok true =>
      match toCols m n (toArrayIndexing basis) with
      | none => .error .indexError
      | some B => .ok (canon P B)

/-! ### Simplex -/

/-- `b[S] *= -1; A[S] *= -1`, e.g. `_linear.py:1077-1078`. -/
def flipRows (S : Fin m → Bool) (P : LP m n) : LP m n :=
  { P with
    A := fun i j => if S i then P.A i j * (-1) else P.A i j
    b := fun i => if S i then P.b i * (-1) else P.b i }

/-- `np.where(self._b < 0)`. -/
def negRows (P : LP m n) : Fin m → Bool := fun i => decide (P.b i < 0)

/-- The result of one iteration. The unbounded exit stores `_feasible_solution` and `_feasible_basis`
on the updated program. -/
inductive Iter (m n : ℕ)
  | optimal (x : Fin n → ℚ) (basis : List ℤ) (lp : LP m n)
  | unbounded (x : Fin n → ℚ) (basis : Fin m → Fin n) (lp : LP m n)
  | next (basis : List ℤ) (lp : LP m n)

/-- The comparison `is_close_compare(ratio, "<", t)` where `t` starts at infinity (`none`). -/
def ratioLt (v : ℚ) : Option ℚ → Bool
  | none => true
  | some t => pyCmp v .lt t

/-- The ratio test, `_linear.py:1176-1183`: `(t, leave)` after the loop. -/
def ratioTest (b Ak : Fin m → ℚ) : Option ℚ × Option (Fin m) :=
  (List.finRange m).foldl (fun s i =>
    if isPositive (Ak i) then
      if ratioLt (b i / Ak i) s.1 then (some (b i / Ak i), some i) else s
    else s) (none, none)

/-- One simplex iteration after the checks: `l` is the sorted zero-based basis and `B` its columns,
`_linear.py:1146-1194`. -/
def iterStep (C : LP m n) (l : List ℤ) (B : Fin m → Fin n) : Except PyErr (Iter m n) :=
  let x := assign B ((npInv (colSel C.A B)).mulVec C.b)
  let N := (List.finRange n).filter fun j : Fin n => !decide (((j : ℕ) : ℤ) ∈ l)
  if N.all fun j => pyCmp (C.c j) .le 0 then
    if (List.finRange n).any fun j => isNegative (x j) then .error .arithmeticError
    else .ok (.optimal x (l.map (· + 1)) C)
  else
    match N.find? fun j => isPositive (C.c j) with
    | none => .error .indexError
    | some k =>
      let Ak : Fin m → ℚ := fun i => C.A i k
      if (List.finRange m).all fun i => pyCmp (Ak i) .le 0 then .ok (.unbounded x B C)
      else
        match (ratioTest C.b Ak).2 with
        | none => .error .typeError
        | some r =>
          .ok (.next ((sortInt (l.erase (((B r : ℕ) : ℤ)) ++ [((k : ℕ) : ℤ)])).map (· + 1)) C)

/-- `simplex_iteration`, `_linear.py:1113-1194`. -/
def simplexIteration (P : LP m n) (basis : List ℤ) : Except PyErr (Iter m n) :=
  if !P.isSef then .error .arithmeticError
  else
    match isBasis P basis with
    | .error e => .error e
    | .ok false => .error .valueError
    | .ok true =>
      let l := sortInt (toArrayIndexing basis)
      match toCols m n l with
      | none => .error .indexError
      | some B => iterStep (canon (flipRows (negRows P) P) B) l B

/-- The answer of `simplex` / `two_phase_simplex`. -/
inductive Answer (m n : ℕ)
  | optimal (x : Fin n → ℚ) (basis : List ℤ) (y : Fin m → ℚ)
  | unbounded (x d : Fin n → ℚ)
  | infeasible (y : Fin m → ℚ)

/-- The loop of `simplex`, `_linear.py:1083-1088`; `none`: not finished within the fuel. -/
def simplexLoop : ℕ → LP m n → List ℤ → Except PyErr (Iter m n)
  | 0, _, _ => .error .notTerminated
  | fuel + 1, P, basis =>
    match simplexIteration P basis with
    | .error e => .error e
    | .ok (.next basis' _) => simplexLoop fuel P basis'
    | .ok r => .ok r

/-- `np.argmax(c > 0)`: the first index with a positive entry, else `0`. -/
def argmaxPos (c : Fin n → ℚ) : Option (Fin n) :=
  match (List.finRange n).find? fun j => decide (0 < c j) with
  | some k => some k
  | none => if h : 0 < n then some ⟨0, h⟩ else none

/-- The certificate of unboundedness, `_linear.py:1090-1094`. -/
def rayOf (B : Fin m → Fin n) (C : LP m n) (k : Fin n) : Fin n → ℚ :=
  Function.update (assign B fun i => -C.A i k) k 1

/-- The certificate of optimality, `_linear.py:1098-1102`; `P` has its rows flipped by `S`. -/
def dualCert (P : LP m n) (S : Fin m → Bool) (B : Fin m → Fin n) : Fin m → ℚ :=
  let y := (npInv (colSel P.A B).transpose).mulVec fun i => P.c (B i)
  fun i => if S i then y i * (-1) else y i

/-- The body of `simplex` after the rows have been flipped, `_linear.py:1083-1104`. -/
def simplexBody (fuel : ℕ) (P : LP m n) (S : Fin m → Bool) (basis : List ℤ) : Except PyErr (Answer m n) :=
  match simplexLoop fuel P basis with
  | .error e => .error e
  | .ok (.unbounded x B C) =>
    match argmaxPos C.c with
    | none => .error .valueError
    | some k => .ok (.unbounded x (rayOf B C k))
  | .ok (.optimal x basis' _) =>
    match toCols m n (toArrayIndexing basis') with
    | none => .error .indexError
    | some B => .ok (.optimal x basis' (dualCert P S B))
  | .ok (.next _ _) => .error .notTerminated

/-- `simplex`, `_linear.py:1039-1111`: the answer and the program object afterwards. The rows are
flipped back only when the body returns. -/
def simplex (fuel : ℕ) (P : LP m n) (basis : List ℤ) : Except PyErr (Answer m n) × LP m n :=
  if !P.isSef then (.error .arithmeticError, P)
  else
    let S := negRows P
    let P' := flipRows S P
    match simplexBody fuel P' S basis with
    | .error e => (.error e, P')
    | .ok a => (.ok a, flipRows S P')

end LinProg
end Pytimize
