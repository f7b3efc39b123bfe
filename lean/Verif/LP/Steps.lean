/-
Model of the step log of `_linear.py` (`__append_to_steps`, `steps`, `steps_string`) and of
`parsers/_description.py` (`render_descriptor`), and of the methods that record steps, with the log as state.

What NumPy prints for arrays and Python for lists of integers is arbitrary (`Texts`); what is printed for
programs is `reprText`.
-/
import Verif.LP.Format
import Verif.LP.TwoPhase

namespace Pytimize
namespace LinProg
open Comparator

variable {m n : ℕ}

/-! ### `parsers/_description.py` -/

/-- `_steps`, `_description.py:3-41`. -/
def templates : List (String × String) := [
  ("1.01", "Convert to Canonical Form for Base Indices of {}"),
  ("1.02", "Basis:\n{}"),
  ("1.03", "Corresponding Coefficient Entries: {}"),
  ("1.04", "Basis Inverse:\n{}"),
  ("1.05", "y Vector:\n{}"),
  ("2.01", "Is {} Feasible?"),
  ("2.02", "{} is Feasible:"),
  ("2.03", "* P is in SEF"),
  ("2.04", "* All Entries of {} is Nonnegative"),
  ("2.05", "* Constraints are Satisfied (Ax = b)"),
  ("2.06", "{} is Not Feasible:"),
  ("2.07", "* Some Entries of {} are Negative"),
  ("2.08", "* Constraints are Not Satisfied (Ax ≠ b)"),
  ("2.09", "* Entry at Index {} is Negative"),
  ("2.10", "* Entry at Index {} is Not a Free Variable"),
  ("2.11", "* {} • {} = {} and {} is Not ≤ {}"),
  ("2.12", "* {} • {} = {} and {} is Not ≥ {}"),
  ("2.13", "* {} • {} = {} and {} is Not ≠ {}"),
  ("2.14", "* Constraints are Satisfied"),
  ("2.15", "* All Entries are Either Nonnegative or is a Free Variable"),
  ("3.01", "Convert to SEF"),
  ("3.02", "Take Negative of Coefficient Vector to Set Objective to Maximization"),
  ("3.03", "{} => {}"),
  ("3.04", "Free Variables at Index x"),
  ("4.01", "Is {} A Basic Solution"),
  ("4.02", "Column {} Is Not a Zero"),
  ("4.03", "Ax ≠ b"),
  ("4.04", "{} is A Basic Solution for Basis {}"),
  ("4.05", "{} is Not A Basic Solution for Basis {}"),
  ("4.06", "Ax = b"),
  ("4.07", "Columns of Basis are Zero"),
  ("5.01", "{}"),
  ("5.02", "Iteration {} ================================="),
  ("5.03", "Solution: {}"),
  ("5.04", "Optimal Basis: {}"),
  ("5.05", "The Program is Unbounded"),
  ("5.06", "Optimality Certificate: {}")]

/-- An argument of a step. -/
inductive Arg
  /-- A number, string or list: its `str`. -/
  | plain (s : List Char)
  /-- An array: its `str`, which is tidied up. -/
  | array (s : List Char)
  /-- A program: `__repr__` is called while the text is rendered, and may raise. -/
  | program (s : Except PyErr (List Char))

/-- `s.replace(old, new)` for a nonempty `old`; the fuel is the length of `s`. -/
def replaceChars (old new : List Char) : ℕ → List Char → List Char
  | 0, s => s
  | _ + 1, [] => []
  | f + 1, c :: s =>
    if old.isPrefixOf (c :: s) then new ++ replaceChars old new f ((c :: s).drop old.length)
    else c :: replaceChars old new f s

/-- `_cleanup_rules`, `_description.py:43`. -/
def cleanupRules : List (List Char × List Char) :=
  [(['[', ' '], ['[']), ([' ', ']'], [']']), (['[', '['], ['[']), ([']', ']', ' '], [']']), ([' ', '['], ['['])]

/-- The treatment of an array, `_description.py:52-57`. -/
def tidy (s : List Char) : List Char :=
  cleanupRules.foldl (fun t r => replaceChars r.1 r.2 t.length t)
    (joinChars [' '] ((s.splitOn ' ').filter fun w => w ≠ []))

/-- The text of an argument. -/
def Arg.text : Arg → Except PyErr (List Char)
  | .plain s => .ok s
  | .array s => .ok (tidy s)
  | .program s => s

/-- `template.format(*arguments)` for a template whose only braces are `{}`: the placeholders are replaced from
left to right, further arguments ignored. -/
def fill : List Char → List Arg → Except PyErr (List Char)
  | [], _ => .ok []
  | '{' :: '}' :: t, a :: as =>
    match a.text with
    | .error e => .error e
    | .ok s =>
      match fill t as with
      | .error e => .error e
      | .ok r => .ok (s ++ r)
  | '{' :: '}' :: _, [] => .error .indexError
  | c :: t, as =>
    match fill t as with
    | .error e => .error e
    | .ok r => .ok (c :: r)

/-- `render_descriptor`, `_description.py:46-59`. -/
def renderDescriptor (key : String) (args : List Arg) : Except PyErr (List Char) :=
  match Dict.get? templates key with
  | none => .error .keyError
  | some t => fill t.toList args

/-! ### The log -/

/-- One entry of `_steps`. -/
structure Step where
  key : String
  text : List Char

/-- A computation that may record steps and may raise; the steps recorded before an exception stay. -/
def Rec (α : Type) := List Step → Except PyErr α × List Step

/-- `return a`. -/
def Rec.pure {α : Type} (a : α) : Rec α := fun s => (.ok a, s)

/-- One statement after another. -/
def Rec.bind {α β : Type} (x : Rec α) (f : α → Rec β) : Rec β := fun s =>
  match x s with
  | (.error e, s') => (.error e, s')
  | (.ok a, s') => f a s'

instance : Monad Rec where
  pure := Rec.pure
  bind := Rec.bind

/-- A computation that records nothing. -/
def Rec.lift {α : Type} (x : Except PyErr α) : Rec α := fun s => (x, s)

/-- `raise e`. -/
def Rec.raise {α : Type} (e : PyErr) : Rec α := fun s => (.error e, s)

/-- A computation on `self.copy()`, whose log starts as a copy of the log (`_linear.py:1554`) and belongs to the
copy: the result comes with the log of the copy, the own log stays. -/
def Rec.onCopy {α : Type} (x : Rec α) : Rec (α × List Step) := fun s =>
  match x s with
  | (.error e, _) => (.error e, s)
  | (.ok a, s') => (.ok (a, s'), s)

/-- A computation on a new program, whose log is empty. -/
def Rec.onNew {α : Type} (x : Rec α) : Rec (α × List Step) := fun s =>
  match x [] with
  | (.error e, _) => (.error e, s)
  | (.ok a, s') => (.ok (a, s'), s)

/-- What is passed to `__append_to_steps`: a key, or a tuple of a key and arguments. -/
inductive Entity
  | str (key : String)
  | tup (key : String) (args : List Arg)

def Entity.key : Entity → String
  | .str k => k
  | .tup k _ => k

/-- `list(step[1:])`: for a string these are its characters after the first. -/
def Entity.args : Entity → List Arg
  | .str k => k.toList.tail.map fun c => .plain [c]
  | .tup _ as => as

/-- `__append_to_steps`, `_linear.py:1735-1764`, for a string or tuple. -/
def appendStep (e : Entity) : Rec Unit := fun s =>
  match renderDescriptor e.key e.args with
  | .error r => (.error r, s)
  | .ok t => (.ok (), s ++ [⟨e.key, t⟩])

/-- `__append_to_steps`, `_linear.py:1740-1752`, for a list; `None` is skipped. -/
def appendSteps : List (Option Entity) → Rec Unit
  | [] => pure ()
  | none :: l => appendSteps l
  | some e :: l => do
    appendStep e
    appendSteps l

/-- `show_steps and self.__append_to_steps(e)`. -/
def note (showSteps : Bool) (e : Entity) : Rec Unit := if showSteps then appendStep e else pure ()

/-- `show_steps and self.__append_to_steps([...])`. -/
def notes (showSteps : Bool) (l : List (Option Entity)) : Rec Unit := if showSteps then appendSteps l else pure ()

/-- `steps_string`, `_linear.py:1768-1779` and `:2156-2166`; `blank` is `str.isspace` on a character. -/
def stepsString (blank : Char → Bool) (s : List Step) : List Char :=
  ((s.foldl (fun previous current => previous ++ '\n' :: current.text) []).dropWhile blank).rdropWhile blank

/-! ### The methods -/

/-- What `str` gives for arrays and for lists of integers. -/
structure Texts where
  vec : List ℚ → List Char
  mat : List (List ℚ) → List Char
  ints : List ℤ → List Char

/-- A vector as argument. -/
def Texts.v (T : Texts) {k : ℕ} (x : Fin k → ℚ) : Arg := .array (T.vec (List.ofFn x))

/-- A matrix as argument. -/
def Texts.M (T : Texts) {k l : ℕ} (X : Matrix (Fin k) (Fin l) ℚ) : Arg :=
  .array (T.mat (List.ofFn fun i => List.ofFn (X i)))

/-- `is_feasible`, `_linear.py:1299-1369`. -/
def isFeasibleRec (T : Texts) (showSteps : Bool) (P : LP m n) (x : List ℚ) : Rec Bool :=
  match toVec n x with
  | none => Rec.raise .valueError
  | some v => do
    note showSteps (.tup "2.01" [T.v v])
    if P.isSef then
      let allNonnegative := decide (∀ j, pyCmp (v j) .ge 0 = true)
      let satisfy := decide (∀ i, npIsClose ((P.A.mulVec v) i) (P.b i) = true)
      let feasible := allNonnegative && satisfy
      notes (showSteps && feasible) [some (.tup "2.02" [T.v v]), some (.str "2.03"), some (.tup "2.04" [T.v v]), some (.str "2.05")]
      notes (showSteps && !feasible) [some (.tup "2.06" [T.v v]), some (.str "2.03"),
        if !allNonnegative then some (.tup "2.07" [T.v v]) else none, if !satisfy then some (.str "2.08") else none]
      pure feasible
    else
      let feasible :=
        decide (∀ j : Fin n, if (j : ℕ) ∈ P.neg then v j ≤ 0 else if (j : ℕ) ∉ P.free then v j ≥ 0 else True) &&
          decide (∀ i, rowOk (P.ineq i) ((P.A.mulVec v) i) (P.b i) = true)
      if feasible then notes showSteps [some (.tup "2.02" [T.v v]), some (.str "2.14"), some (.str "2.15")]
      pure feasible

/-- The loop over the columns, `_linear.py:588-592`: the value of `result` after it. -/
def columnsRec (showSteps : Bool) (basis : List ℤ) (x : Fin n → ℚ) : List (Fin n) → Bool → Rec Bool
  | [], result => pure result
  | j :: l, result =>
    if ((j : ℕ) : ℤ) ∉ basis ∧ isCloseToZero (x j) = false then do
      note showSteps (.tup "4.02" [.plain (natChars (j + 1))])
      columnsRec showSteps basis x l false
    else columnsRec showSteps basis x l result

/-- `is_basic_solution`, `_linear.py:553-604`. -/
def isBasicSolutionRec (T : Texts) (showSteps : Bool) (P : LP m n) (x : List ℚ) (basis : List ℤ) : Rec Bool :=
  if !P.isSef then Rec.raise .arithmeticError
  else
    match toVec n x with
    | none => Rec.raise .valueError
    | some v => do
      let isB ← Rec.lift (isBasis P basis)
      if !isB then Rec.raise .valueError
      else
        note showSteps (.tup "4.01" [.plain (T.ints basis)])
        let result ← columnsRec showSteps (toArrayIndexing basis) v (List.finRange n) true
        let solves := decide (∀ i, npIsClose ((P.A.mulVec v) i) (P.b i) = true)
        if !solves then note showSteps (.str "4.03")
        let result := result && solves
        note (showSteps && !result) (.tup "4.05" [T.v v, .plain (T.ints (toArrayIndexing basis))])
        notes (showSteps && result) [some (.str "4.06"), some (.str "4.07"),
          some (.tup "4.04" [T.v v, .plain (T.ints (toArrayIndexing basis))])]
        pure result

/-- `__to_canonical_form`, `_linear.py:780-820`. -/
def canonRec (T : Texts) (showSteps : Bool) (P : LP m n) (B : Fin m → Fin n) : Rec (LP m n) := do
  note showSteps (.tup "1.02" [T.M (colSel P.A B)])
  note showSteps (.tup "1.03" [T.v fun i => P.c (B i)])
  note showSteps (.tup "1.04" [T.M (npInv (colSel P.A B))])
  note showSteps (.tup "1.05" [T.v ((npInv (colSel P.A B)).transpose.mulVec fun i => P.c (B i))])
  pure (canon P B)

/-- `to_canonical_form` in place, `_linear.py:767-778`. -/
def toCanonicalFormRec (T : Texts) (showSteps : Bool) (P : LP m n) (basis : List ℤ) : Rec (LP m n) :=
  if !P.isSef then Rec.raise .arithmeticError
  else do
    note showSteps (.tup "1.01" [.plain (T.ints basis)])
    let isB ← Rec.lift (isBasis P basis)
    if !isB then Rec.raise .valueError
    else
      match toCols m n (toArrayIndexing basis) with
      | none => Rec.raise .indexError
      | some B => canonRec T showSteps P B

/-- `to_sef` in place, `_linear.py:1582-1628`. -/
def toSefRec (T : Texts) (showSteps : Bool) (P : LP m n) : Rec (SefRes m) :=
  if P.isSef then pure (toSef P)
  else do
    note showSteps (.str "3.01")
    if P.objective = .min then
      notes showSteps [some (.str "3.02"), some (.tup "3.03" [T.v fun j => -(-P.c j), T.v fun j => -P.c j])]
    pure (toSef P)

/-- `simplex_iteration` in place, `_linear.py:1145-1194`. -/
def simplexIterationRec (T : Texts) (showSteps : Bool) (P : LP m n) (basis : List ℤ) : Rec (Iter m n) :=
  if !P.isSef then Rec.raise .arithmeticError
  else do
    let isB ← Rec.lift (isBasis P basis)
    if !isB then Rec.raise .valueError
    else
      match toCols m n (sortInt (toArrayIndexing basis)) with
      | none => Rec.raise .indexError
      | some B => do
        let C ← canonRec T showSteps (flipRows (negRows P) P) B
        Rec.lift (iterStep C (sortInt (toArrayIndexing basis)) B)

/-- The program an iteration leaves. -/
def Iter.lp : Iter m n → LP m n
  | .optimal _ _ C => C
  | .unbounded _ _ C => C
  | .next _ C => C

/-- The two notes about an iteration, `_linear.py:1080-1081` and `:1087-1088`. -/
def noteIteration (showSteps : Bool) (counter : ℕ) (P : LP m n) : Rec Unit := do
  note showSteps (.tup "5.02" [.plain (natChars counter)])
  note showSteps (.tup "5.01" [.program (reprText P)])

/-- The loop of `simplex`, `_linear.py:1083-1088`. Each iteration works on a copy. -/
def simplexLoopRec (T : Texts) (showSteps : Bool) (P : LP m n) : ℕ → ℕ → List ℤ → Rec (Iter m n)
  | 0, _, _ => Rec.raise .notTerminated
  | fuel + 1, counter, basis => do
    let r ← Rec.onCopy (simplexIterationRec T showSteps P basis)
    noteIteration showSteps (counter + 1) r.1.lp
    match r.1 with
    | .next basis' _ => simplexLoopRec T showSteps P fuel (counter + 1) basis'
    | r => pure r

/-- The body of `simplex` after the rows have been flipped, `_linear.py:1080-1106`. -/
def simplexBodyRec (T : Texts) (fuel : ℕ) (showSteps : Bool) (P : LP m n) (S : Fin m → Bool) (basis : List ℤ) :
    Rec (Answer m n) := do
  noteIteration showSteps 0 P
  let r ← simplexLoopRec T showSteps P fuel 0 basis
  match r with
  | .unbounded x B C =>
    match argmaxPos C.c with
    | none => Rec.raise .valueError
    | some k => do
      note showSteps (.str "5.05")
      pure (.unbounded x (rayOf B C k))
  | .optimal x basis' _ =>
    match toCols m n (toArrayIndexing basis') with
    | none => Rec.raise .indexError
    | some B => do
      note showSteps (.tup "5.03" [T.v x])
      note showSteps (.tup "5.04" [.plain (T.ints basis')])
      note showSteps (.tup "5.06" [T.v (dualCert P S B)])
      pure (.optimal x basis' (dualCert P S B))
  | .next _ _ => Rec.raise .notTerminated

/-- `simplex`, `_linear.py:1039-1111`: the answer, the program afterwards and the log afterwards. -/
def simplexRec (T : Texts) (fuel : ℕ) (showSteps : Bool) (P : LP m n) (basis : List ℤ) (s : List Step) :
    (Except PyErr (Answer m n) × LP m n) × List Step :=
  if !P.isSef then ((.error .arithmeticError, P), s)
  else
    let S := negRows P
    let P' := flipRows S P
    match simplexBodyRec T fuel showSteps P' S basis s with
    | (.error e, s') => ((.error e, P'), s')
    | (.ok a, s') => ((.ok a, flipRows S P'), s')

/-- `two_phase_simplex` after the auxiliary program has been converted, `_linear.py:988-1037`; `sa` is the log of the
auxiliary program. Its `simplex` is called without `show_steps` (`:992`), so it records. -/
def twoPhaseWithRec (T : Texts) (fuel : ℕ) (showSteps : Bool) (P : LP m n) (R : SefRes m) (sa s : List Step) :
    (Except PyErr (Answer m n) × LP m n) × List Step :=
  match (simplexRec T fuel true R.lp ((List.range m).map fun i : ℕ => (n : ℤ) + i + 1) sa).1.1 with
  | .error e => ((.error e, P), s)
  | .ok (.unbounded _ _) => ((.error .valueError, P), s)
  | .ok (.infeasible _) => ((.error .valueError, P), s)
  | .ok (.optimal x l _) =>
    if isCloseToZero (R.lp.c ⬝ᵥ x + R.lp.z) then
      match isBasis P l with
      | .error e => ((.error e, P), s)
      | .ok true => simplexRec T fuel showSteps P l s
      | .ok false =>
        match completeBasis P ((List.ofFn x).take n) with
        | .error e => ((.error e, P), s)
        | .ok l' => simplexRec T fuel showSteps P l' s
    else
      match toCols m R.n (toArrayIndexing l) with
      | none => ((.error .indexError, P), s)
      | some B => ((.ok (.infeasible (dualCert R.lp (negRows P) B)), P), s)

/-- `two_phase_simplex`, `_linear.py:958-1037`. -/
def twoPhaseRec (T : Texts) (fuel : ℕ) (showSteps : Bool) (P : LP m n) (s : List Step) :
    (Except PyErr (Answer m n) × LP m n) × List Step :=
  if !P.isSef then ((.error .arithmeticError, P), s)
  else
    match toSefRec T showSteps (auxLp P) [] with
    | (.error e, _) => ((.error e, P), s)
    | (.ok R, sa) => twoPhaseWithRec T fuel showSteps P R sa s

/-- `solve` on the converted program, `_linear.py:922-955`; `s` is the log of the converted program. -/
def solveSefRec (T : Texts) (fuel : ℕ) (showSteps : Bool) (R : SefRes m) (s : List Step) : Except PyErr (Option (List ℚ)) :=
  let twoPhaseBranch : Except PyErr (Option (List ℚ)) :=
    match (twoPhaseRec T fuel showSteps R.lp s).1.1 with
    | .error e => .error e
    | .ok a => .ok (a.solution.map (reverseSol R.rev))
  if m ≤ R.n then
    let candidate := (List.range (R.n - m)).map fun i : ℕ => (m : ℤ) + i + 1
    match isBasis R.lp candidate with
    | .error e => .error e
    | .ok true =>
      match (simplexRec T fuel showSteps R.lp candidate s).1.1 with
      | .error .arithmeticError => .ok none
      | .error e => .error e
      | .ok a => .ok (a.solution.map (reverseSol R.rev))
    | .ok false => twoPhaseBranch
  else twoPhaseBranch

/-- `solve`, `_linear.py:905-956`: the answer and the log of the program afterwards. For a program in SEF
`two_phase_simplex` is called without `show_steps` (`:921`); any other program is converted to a new program, whose
log is lost. -/
def solveRec (T : Texts) (fuel : ℕ) (showSteps : Bool) (P : LP m n) (s : List Step) :
    Except PyErr (Option (List ℚ)) × List Step :=
  if P.isSef then
    match twoPhaseRec T fuel true P s with
    | ((.error e, _), s') => (.error e, s')
    | ((.ok a, _), s') => (.ok (a.solution.map List.ofFn), s')
  else
    match toSefRec T showSteps P s with
    | (.error e, _) => (.error e, s)
    | (.ok R, s') => (solveSefRec T fuel showSteps R s', s)

end LinProg
end Pytimize
