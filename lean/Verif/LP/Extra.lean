/-
Model of the remaining small methods of `_linear.py`: `random`, `__eq__`, `is_canonical_form_for`,
`is_feasible_basic_solution`, `clear_steps` and `graph_polyhedron`.
-/
import Verif.LP.BasicLemmas
import Verif.LP.SimplexProof

namespace Pytimize
namespace LinProg
open Comparator

variable {m n : ℕ}

/-! ### `is_canonical_form_for` -/

/-- `__convert_indices(indices, 0, n)`, `_linear.py:1795-1815`. The upper bound is ignored when it is
`0` (it is tested for truth). -/
def convertIndices (l : List ℤ) (n : ℕ) : Except PyErr (List ℤ) :=
  let l := toArrayIndexing l
  if (l.any fun i => decide (i < 0)) || (decide (n ≠ 0) && l.any fun i => decide ((n : ℤ) ≤ i)) then
    .error .indexError
  else .ok l

/-- `A[l]` for a list of nonnegative indices: the *rows* named by `l`. -/
def rowSel (A : Matrix (Fin m) (Fin n) ℚ) : List ℤ → Except PyErr (List (Fin n → ℚ))
  | [] => .ok []
  | i :: l =>
    if h : 0 ≤ i ∧ i < m then
      match rowSel A l with
      | .ok r => .ok (A ⟨i.toNat, by omega⟩ :: r)
      | .error e => .error e
    else .error .indexError

/-- `c[l]` for a list of nonnegative indices. -/
def vecSel (c : Fin n → ℚ) : List ℤ → Except PyErr (List ℚ)
  | [] => .ok []
  | i :: l =>
    if h : 0 ≤ i ∧ i < n then
      match vecSel c l with
      | .ok r => .ok (c ⟨i.toNat, by omega⟩ :: r)
      | .error e => .error e
    else .error .indexError

/-- `np.allclose(rows, np.eye(len(rows)))` where `rows` is a `k` by `n` array: NumPy broadcasts the two
shapes, which is possible if `n = k`, `k = 1` or `n = 1`. -/
def allcloseEye (rows : List (Fin n → ℚ)) : Except PyErr Bool :=
  let k := rows.length
  let eye : ℕ → ℕ → ℚ := fun i j => if i = j then 1 else 0
  if n = k then .ok (decide (∀ i : Fin k, ∀ j : Fin n, npIsClose (rows[i] j) (eye i j) = true))
  else if k = 1 then .ok (decide (∀ i : Fin k, ∀ j : Fin n, npIsClose (rows[i] j) 1 = true))
  else if n = 1 then
    .ok (decide (∀ i : Fin k, ∀ j : Fin n, ∀ q : Fin k, npIsClose (rows[i] j) (eye i q) = true))
  else .error .valueError

/-- `is_canonical_form_for`, `_linear.py:519-543`. The list given to `all` is evaluated completely; the
indices handed to `is_basis` have already been converted and are converted again there. -/
def isCanonicalFormFor (P : LP m n) (basis : List ℤ) : Except PyErr Bool :=
  match convertIndices basis n with
  | .error e => .error e
  | .ok l =>
    match isBasis P l with
    | .error e => .error e
    | .ok r1 =>
      match rowSel P.A l with
      | .error e => .error e
      | .ok rows =>
        match allcloseEye rows with
        | .error e => .error e
        | .ok r2 =>
          match vecSel P.c l with
          | .error e => .error e
          | .ok cs => .ok (r1 && r2 && cs.all fun v => npIsClose v 0)

/-! ### `is_feasible_basic_solution` -/

/-- The truth value of a NumPy boolean array: an error unless it has exactly one entry (an empty array is
false, with a deprecation warning). -/
def arrayTruth : List Bool → Except PyErr Bool
  | [] => .ok false
  | [b] => .ok b
  | _ => .error .valueError

/-- `is_feasible_basic_solution`, `_linear.py:606-628`. `__is_vector_of_size(x, self._c)` compares the
length with the *array* `c`. -/
def isFeasibleBasicSolution (P : LP m n) (x : List ℚ) (basis : List ℤ) : Except PyErr Bool :=
  match arrayTruth (List.ofFn fun j => decide ((x.length : ℚ) = P.c j)) with
  | .error e => .error e
  | .ok false => .error .valueError
  | .ok true =>
    if x.all fun v => pyCmp v .ge 0 then isBasicSolution P x basis else .ok false

/-! ### `clear_steps` and `==` -/

/-- A program object with its step log. -/
structure Logged (m n : ℕ) where
  lp : LP m n
  steps : List String

/-- `copy`, `_linear.py:1537-1557` (as a value). -/
def Logged.copy (p : Logged m n) : Logged m n := p

/-- `clear_steps`, `_linear.py:1641-1651`; `depth` is the remaining recursion depth. -/
def clearSteps : ℕ → Logged m n → (inPlace : Bool) → Except PyErr (Logged m n)
  | 0, _, _ => .error .recursionError
  | depth + 1, p, inPlace =>
    if !inPlace then clearSteps depth p.copy false else .ok { p with steps := [] }

/-- `__eq__`, `_linear.py:393-405`, between programs of the same shape: `other._A == self._A` is an
array of truth values. -/
def progEq (P Q : LP m n) : Except PyErr Bool :=
  match arrayTruth ((List.ofFn fun i => List.ofFn fun j => decide (Q.A i j = P.A i j)).flatten) with
  | .error e => .error e
  | .ok false => .ok false
  | .ok true =>
    match arrayTruth (List.ofFn fun i => decide (Q.b i = P.b i)) with
    | .error e => .error e
    | .ok false => .ok false
    | .ok true =>
      match arrayTruth (List.ofFn fun j => decide (Q.c j = P.c j)) with
      | .error e => .error e
      | .ok false => .ok false
      | .ok true => .ok (decide (Q.z = P.z) && decide (Q.objective = P.objective) &&
          decide (∀ i, Q.ineq i = P.ineq i) && decide (Q.free = P.free) && decide (Q.neg = P.neg) &&
          decide (Q.isSef = P.isSef))

/-! ### `random` -/

/-- Rounding to the nearest integer, ties to even. -/
def roundEven (v : ℚ) : ℤ :=
  let f := ⌊v⌋
  let r := v - f
  if r < 1 / 2 then f else if 1 / 2 < r then f + 1 else if f % 2 = 0 then f else f + 1

/-- `np.round(v, 2)` and `round(v, 2)`. -/
def round2 (v : ℚ) : ℚ := roundEven (v * 100) / 100

/-- The numbers drawn during one call of `random`: `uniform(-1, 1)` for the arrays, `random()` and a sign
for `z`, the two strings choices and one of `-1, 0, 1` per variable. -/
structure Draws (rows columns : ℕ) where
  A : Fin rows → Fin columns → ℚ
  b : Fin rows → ℚ
  c : Fin columns → ℚ
  z : ℚ
  zSign : Bool
  objective : Obj
  ineq : Fin rows → Ineq
  sign : Fin columns → Fin 3

/-- The one-based positions where the choice was `s`, `_linear.py:179-183`. -/
def signList {columns : ℕ} (sign : Fin columns → Fin 3) (s : Fin 3) : List ℤ :=
  ((List.finRange columns).filter fun j => decide (sign j = s)).map fun j : Fin columns => ((j : ℕ) : ℤ) + 1

/-- `LinearProgram.random`, `_linear.py:147-187`, for given draws; the sign choices `-1, 0, 1` are
`0, 1, 2` here. -/
def random (rows columns : ℕ) (magnitude : ℚ) (d : Draws rows columns) : Except PyErr Prog :=
  ctor (.nd2 rows columns fun i j => round2 (d.A i j * magnitude))
    (.nd1 (List.ofFn fun i => round2 (d.b i * magnitude)))
    (.nd1 (List.ofFn fun j => round2 (d.c j * magnitude)))
    (round2 (d.z * magnitude * (if d.zSign then 1 else -1)))
    d.objective.name (some (List.ofFn fun i => (d.ineq i).sym))
    (some (signList d.sign 0)) (some (signList d.sign 1))

/-! ### `graph_polyhedron` -/

/-- A line `a₁ x + a₂ y (op) b`. -/
structure Line where
  a₁ : ℚ
  a₂ : ℚ
  b : ℚ
  op : Ineq
  deriving DecidableEq

/-- Storing a float into an integer array: truncation toward zero. -/
def truncate (q : ℚ) : ℚ := if 0 ≤ q then (⌊q⌋ : ℤ) else (⌈q⌉ : ℤ)

/-- The rows of the program followed by the boundary lines, `_linear.py:1397-1409`. -/
def graphLines (P : LP m 2) (limit : ℚ) : List Line :=
  (List.ofFn fun i => ⟨P.A i 0, P.A i 1, P.b i, P.ineq i⟩) ++
    [⟨1, 0, |limit|, .le⟩, ⟨1, 0, -|limit|, .ge⟩, ⟨0, 1, |limit|, .le⟩, ⟨0, 1, -|limit|, .ge⟩]

/-- One step of the double loop, `_linear.py:1422-1438`: `A` and `b` are integer arrays. `none`: the pair
is skipped. -/
def meet (l k : Line) : Except PyErr (Option (ℚ × ℚ)) :=
  let a := truncate l.a₁
  let b := truncate l.a₂
  let c := truncate k.a₁
  let d := truncate k.a₂
  let e := truncate l.b
  let f := truncate k.b
  if a = 0 ∧ c = 0 then .ok none
  else if b = 0 ∧ d = 0 then .ok none
  else if a * d - b * c = 0 then .error .linAlgError
  else .ok (some ((e * d - b * f) / (a * d - b * c), (a * f - e * c) / (a * d - b * c)))

/-- The inner loop: the intersections of `l` with later lines. -/
def meetAll (l : Line) : List Line → Except PyErr (List (ℚ × ℚ))
  | [] => .ok []
  | k :: ks =>
    match meet l k with
    | .error e => .error e
    | .ok p =>
      match meetAll l ks with
      | .error e => .error e
      | .ok ps => .ok (p.toList ++ ps)

/-- The double loop, `_linear.py:1419-1438`. -/
def allMeets : List Line → Except PyErr (List (ℚ × ℚ))
  | [] => .ok []
  | l :: ls =>
    match meetAll l ls with
    | .error e => .error e
    | .ok ps =>
      match allMeets ls with
      | .error e => .error e
      | .ok qs => .ok (ps ++ qs)

/-- The test of one point against one line, `_linear.py:1446-1454`. -/
def lineOk (p : ℚ × ℚ) (l : Line) : Bool :=
  let v := p.1 * l.a₁ + p.2 * l.a₂
  match l.op with
  | .le => !(decide (l.b < v) && !mathIsClose v l.b)
  | .ge => !(decide (v < l.b) && !mathIsClose v l.b)
  | .eq => true

/-- `graph_polyhedron`, `_linear.py:1371-1490`: the points handed to the plot (before they are ordered by
angle, which only permutes them) and the operators of `_inequality_indices` afterwards. The four boundary
operators are removed again only when the method reaches its end. -/
def graphPolyhedron (P : LP m n) (limit : ℚ) : Except PyErr (List (ℚ × ℚ)) × List Ineq :=
  let ops := List.ofFn P.ineq
  if h : n = 2 then
    if !ops.all fun q => decide (q ≠ .eq) then (.error .arithmeticError, ops)
    else if !(ops.all fun q => decide (q = .le)) && !(ops.all fun q => decide (q = .ge)) then
      (.error .arithmeticError, ops)
    else
      let lines := graphLines (h ▸ P) limit
      match allMeets lines with
      | .error e => (.error e, ops ++ [.le, .ge, .le, .ge])
      | .ok pts =>
        match pts.filter fun p => lines.all fun l => lineOk p l with
        | [] => (.error .systemExit, ops ++ [.le, .ge, .le, .ge])
        | pts => (.ok pts, ops)
  else (.error .arithmeticError, ops)

end LinProg
end Pytimize
