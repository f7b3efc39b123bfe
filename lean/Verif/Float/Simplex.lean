/-
`is_basis`, `to_canonical_form`, `simplex`, `two_phase_simplex` and `solve` in floating point.

Every scalar operation is rounded. Matrix products may be summed in any order (`DotVal`), each entry in its own. What
`np.linalg.inv` and `np.linalg.det` compute is left open: they are parameters (`Lapack`).
-/
import Verif.Float.Linear
import Verif.Float.Sef
import Verif.LP.TwoPhase

namespace Pytimize
namespace Floating
open LinProg Comparator

variable {m n : ℕ}

/-! ### Model -/

/-- The linear algebra of NumPy: products with some order of summation, and an inverse and a determinant about which
nothing is assumed. -/
structure Lapack (R : Rounding) where
  matMul : {m k n : ℕ} → Matrix (Fin m) (Fin k) ℚ → Matrix (Fin k) (Fin n) ℚ → Matrix (Fin m) (Fin n) ℚ
  mulVec : {m n : ℕ} → Matrix (Fin m) (Fin n) ℚ → (Fin n → ℚ) → Fin m → ℚ
  vecMul : {m n : ℕ} → (Fin m → ℚ) → Matrix (Fin m) (Fin n) ℚ → Fin n → ℚ
  dot : {n : ℕ} → (Fin n → ℚ) → (Fin n → ℚ) → ℚ
  inv : {m : ℕ} → Matrix (Fin m) (Fin m) ℚ → Except PyErr (Matrix (Fin m) (Fin m) ℚ)
  det : {m : ℕ} → Matrix (Fin m) (Fin m) ℚ → ℚ
  matMul_val : ∀ {m k n : ℕ} (M : Matrix (Fin m) (Fin k) ℚ) (N : Matrix (Fin k) (Fin n) ℚ) (i : Fin m) (j : Fin n),
    DotVal R (M i) (fun l => N l j) (matMul M N i j)
  mulVec_val : ∀ {m n : ℕ} (M : Matrix (Fin m) (Fin n) ℚ) (v : Fin n → ℚ) (i : Fin m), DotVal R (M i) v (mulVec M v i)
  vecMul_val : ∀ {m n : ℕ} (v : Fin m → ℚ) (M : Matrix (Fin m) (Fin n) ℚ) (j : Fin n),
    DotVal R v (fun i => M i j) (vecMul v M j)
  dot_val : ∀ {n : ℕ} (u v : Fin n → ℚ), DotVal R u v (dot u v)

variable {R : Rounding}

/-- `is_basis`, `_linear.py:630-655`. -/
def fisBasis (L : Lapack R) (P : LP m n) (basis : List ℤ) : Except PyErr Bool :=
  let l := sortInt (toArrayIndexing basis)
  if l.length ≠ m then .ok false
  else if l = [] then .error .valueError
  else
    match toCols m n l with
    | none => .ok false
    | some B => .ok (!closeToZero R (L.det (colSel P.A B)))

/-- `__to_canonical_form`, `_linear.py:780-820`. -/
def fcanon (L : Lapack R) (P : LP m n) (B : Fin m → Fin n) : Except PyErr (LP m n) :=
  match L.inv (colSel P.A B) with
  | .error e => .error e
  | .ok T =>
    let y := L.mulVec T.transpose fun i => P.c (B i)
    .ok { P with
      A := L.matMul T P.A, b := L.mulVec T P.b, c := fun j => R.rd (P.c j - L.vecMul y P.A j),
      z := R.rd (L.dot y P.b + P.z) }

/-- `b[S] *= -1; A[S] *= -1`, e.g. `_linear.py:1077-1078`. -/
def fflipRows (R : Rounding) (S : Fin m → Bool) (P : LP m n) : LP m n :=
  { P with
    A := fun i j => if S i then R.rd (P.A i j * (-1)) else P.A i j
    b := fun i => if S i then R.rd (P.b i * (-1)) else P.b i }

/-- `is_close_compare(ratio, "<", t)` where `t` starts at infinity. -/
def fratioLt (R : Rounding) (v : ℚ) : Option ℚ → Bool
  | none => true
  | some t => cmpTol R v .lt t

/-- The ratio test, `_linear.py:1176-1183`. -/
def fratioTest (R : Rounding) (b Ak : Fin m → ℚ) : Option ℚ × Option (Fin m) :=
  (List.finRange m).foldl (fun s i =>
    if positive R (Ak i) then
      if fratioLt R (R.rd (b i / Ak i)) s.1 then (some (R.rd (b i / Ak i)), some i) else s
    else s) (none, none)

/-- One simplex iteration on the canonical form, `_linear.py:1146-1194`. -/
def fiterStep (L : Lapack R) (C : LP m n) (l : List ℤ) (B : Fin m → Fin n) : Except PyErr (Iter m n) :=
  match L.inv (colSel C.A B) with
  | .error e => .error e
  | .ok T =>
    let x := assign B (L.mulVec T C.b)
    let N := (List.finRange n).filter fun j : Fin n => !decide (((j : ℕ) : ℤ) ∈ l)
    if N.all fun j => cmpTol R (C.c j) .le 0 then
      if (List.finRange n).any fun j => negative R (x j) then .error .arithmeticError
      else .ok (.optimal x (l.map (· + 1)) C)
    else
      match N.find? fun j => positive R (C.c j) with
      | none => .error .indexError
      | some k =>
        let Ak : Fin m → ℚ := fun i => C.A i k
        if (List.finRange m).all fun i => cmpTol R (Ak i) .le 0 then .ok (.unbounded x B C)
        else
          match (fratioTest R C.b Ak).2 with
          | none => .error .typeError
          | some r =>
            .ok (.next ((sortInt (l.erase (((B r : ℕ) : ℤ)) ++ [((k : ℕ) : ℤ)])).map (· + 1)) C)

/-- `simplex_iteration`, `_linear.py:1113-1194`. -/
def fsimplexIteration (L : Lapack R) (P : LP m n) (basis : List ℤ) : Except PyErr (Iter m n) :=
  if !P.isSef then .error .arithmeticError
  else
    match fisBasis L P basis with
    | .error e => .error e
    | .ok false => .error .valueError
    | .ok true =>
      let l := sortInt (toArrayIndexing basis)
      match toCols m n l with
      | none => .error .indexError
      | some B =>
        match fcanon L (fflipRows R (negRows P) P) B with
        | .error e => .error e
        | .ok C => fiterStep L C l B

/-- The loop of `simplex`, `_linear.py:1083-1088`. -/
def fsimplexLoop (L : Lapack R) : ℕ → LP m n → List ℤ → Except PyErr (Iter m n)
  | 0, _, _ => .error .notTerminated
  | fuel + 1, P, basis =>
    match fsimplexIteration L P basis with
    | .error e => .error e
    | .ok (.next basis' _) => fsimplexLoop L fuel P basis'
    | .ok r => .ok r

/-- The certificate of optimality, `_linear.py:1098-1102`; the change of signs is a multiplication by `-1`. -/
def fdualCert (L : Lapack R) (P : LP m n) (S : Fin m → Bool) (B : Fin m → Fin n) : Except PyErr (Fin m → ℚ) :=
  match L.inv (colSel P.A B).transpose with
  | .error e => .error e
  | .ok T =>
    let y := L.mulVec T fun i => P.c (B i)
    .ok fun i => if S i then R.rd (y i * (-1)) else y i

/-- The body of `simplex` after the rows have been flipped, `_linear.py:1083-1104`. -/
def fsimplexBody (L : Lapack R) (fuel : ℕ) (P : LP m n) (S : Fin m → Bool) (basis : List ℤ) :
    Except PyErr (Answer m n) :=
  match fsimplexLoop L fuel P basis with
  | .error e => .error e
  | .ok (.unbounded x B C) =>
    match argmaxPos C.c with
    | none => .error .valueError
    | some k => .ok (.unbounded x (rayOf B C k))
  | .ok (.optimal x basis' _) =>
    match toCols m n (toArrayIndexing basis') with
    | none => .error .indexError
    | some B =>
      match fdualCert L P S B with
      | .error e => .error e
      | .ok y => .ok (.optimal x basis' y)
  | .ok (.next _ _) => .error .notTerminated

/-- `simplex`, `_linear.py:1039-1111`. -/
def fsimplex (L : Lapack R) (fuel : ℕ) (P : LP m n) (basis : List ℤ) : Except PyErr (Answer m n) × LP m n :=
  if !P.isSef then (.error .arithmeticError, P)
  else
    let S := negRows P
    let P' := fflipRows R S P
    match fsimplexBody L fuel P' S basis with
    | .error e => (.error e, P')
    | .ok a => (.ok a, fflipRows R S P')

/-- The search of `_linear.py:1012-1033`. -/
def fsearch (L : Lapack R) (P : LP m n) (pb zs : List ℤ) (size : ℕ) :
    ℕ → List (ℕ × List ℤ) → Except PyErr (Option (List ℤ))
  | 0, _ => .error .notTerminated
  | _ + 1, [] => .ok none
  | f + 1, (cur, l) :: rest =>
    if l.length = size then
      match fisBasis L P (sortInt (pb ++ l)) with
      | .error e => .error e
      | .ok true => .ok (some (sortInt (pb ++ l)))
      | .ok false => fsearch L P pb zs size f rest
    else
      fsearch L P pb zs size f
        ((((List.range zs.length).filter fun i => decide (cur < i)).reverse.map fun i =>
          (i, l ++ [zs.getD i 0])) ++ rest)

/-- The completion of the support to a basis, `_linear.py:998-1033`. -/
def fcompleteBasis (L : Lapack R) (P : LP m n) (vals : List ℚ) : Except PyErr (List ℤ) :=
  let pb := indicesWhere vals fun v => !closeToZero R v
  let zs := indicesWhere vals (closeToZero R)
  if m ≤ pb.length then .error .indexError
  else
    let size := m - pb.length
    let seeds := ((List.range (zs.length + 1 - size)).reverse.map fun i => (i, [zs.getD i 0]))
    match fsearch L P pb zs size (2 ^ (zs.length + 1)) seeds with
    | .error e => .error e
    | .ok (some l) => .ok l
    | .ok none => .ok pb

/-- `two_phase_simplex` after the auxiliary program has been converted, `_linear.py:985-1037`. -/
def ftwoPhaseWith (L : Lapack R) (fuel : ℕ) (P : LP m n) (S : SefRes m) : Except PyErr (Answer m n) × LP m n :=
  match (fsimplex L fuel S.lp ((List.range m).map fun i : ℕ => (n : ℤ) + i + 1)).1 with
  | .error e => (.error e, P)
  | .ok (.unbounded _ _) => (.error .valueError, P)
  | .ok (.infeasible _) => (.error .valueError, P)
  | .ok (.optimal x l _) =>
    if closeToZero R (R.rd (L.dot S.lp.c x + S.lp.z)) then
      match fisBasis L P l with
      | .error e => (.error e, P)
      | .ok true => fsimplex L fuel P l
      | .ok false =>
        match fcompleteBasis L P ((List.ofFn x).take n) with
        | .error e => (.error e, P)
        | .ok l' => fsimplex L fuel P l'
    else
      match toCols m S.n (toArrayIndexing l) with
      | none => (.error .indexError, P)
      | some B =>
        match fdualCert L S.lp (negRows P) B with
        | .error e => (.error e, P)
        | .ok y => (.ok (.infeasible y), P)

/-- `two_phase_simplex`, `_linear.py:958-1037`. -/
def ftwoPhase (L : Lapack R) (fuel : ℕ) (P : LP m n) : Except PyErr (Answer m n) × LP m n :=
  if !P.isSef then (.error .arithmeticError, P) else ftwoPhaseWith L fuel P (ftoSef R (fauxLp R P))

/-- `solve` on the converted program, `_linear.py:922-955`. -/
def fsolveSef (L : Lapack R) (fuel : ℕ) (S : SefRes m) : Except PyErr (Option (List ℚ)) :=
  let twoPhaseBranch : Except PyErr (Option (List ℚ)) :=
    match (ftwoPhase L fuel S.lp).1 with
    | .error e => .error e
    | .ok a => .ok (a.solution.map (freverseSol R S.rev))
  if m ≤ S.n then
    let candidate := (List.range (S.n - m)).map fun i : ℕ => (m : ℤ) + i + 1
    match fisBasis L S.lp candidate with
    | .error e => .error e
    | .ok true =>
      match (fsimplex L fuel S.lp candidate).1 with
      | .error .arithmeticError => .ok none
      | .error e => .error e
      | .ok a => .ok (a.solution.map (freverseSol R S.rev))
    | .ok false => twoPhaseBranch
  else twoPhaseBranch

/-- `solve`, `_linear.py:905-956`. -/
def fsolve (L : Lapack R) (fuel : ℕ) (P : LP m n) : Except PyErr (Option (List ℚ)) :=
  if P.isSef then
    match (ftwoPhase L fuel P).1 with
    | .error e => .error e
    | .ok a => .ok (a.solution.map List.ofFn)
  else fsolveSef L fuel (ftoSef R P)

end Floating
end Pytimize
