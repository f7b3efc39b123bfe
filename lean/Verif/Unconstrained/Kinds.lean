/-
`steepest_descent` and `newton_method` of `_unconstrained.py` on arrays of integers. NumPy keeps the element type of an
array in the in-place additions of lines 75 and 114: adding floats to an array of integers raises `UFuncTypeError`, a
`TypeError`, and leaves the array as it was. Integers do not overflow in the model.
-/
import Verif.Unconstrained.Proof

namespace Pytimize
namespace Unconstrained

variable {K : Type} [Field K] [LinearOrder K] {n : ℕ}

/-- The type of a number, or of the elements of an array. -/
inductive Kind | int | float
  deriving DecidableEq

/-- The kind of a product. -/
def Kind.join : Kind → Kind → Kind
  | .int, .int => .int
  | _, _ => .float

/-- `x += d` for an array `x` of kind `kx` and an array `d` of kind `kd`, with the sum `y`. -/
def inPlace (kx kd : Kind) (y : Vec K n) : Except PyErr (Vec K n) :=
  match kx, kd with
  | .int, .float => .error .typeError
  | _, _ => .ok y

/-- The kinds of the numbers given to `steepest_descent`: `alpha`, `p`, and the array the callback returns at a
point. -/
structure Kinds (K : Type) (n : ℕ) where
  alpha : Kind
  p : Kind
  df : Vec K n → Kind

/-- The backtracking loop, `_unconstrained.py:72-73`, with the kind of `a`. -/
def backtrackKind (f : Vec K n → K) (P : Params K) (kp : Kind) (x d g : Vec K n) : ℕ → K → Kind → Option (K × Kind)
  | 0, _, _ => none
  | m + 1, a, ka =>
    if f (x + a • d) > f x + P.c * a * dot g d then backtrackKind f P kp x d g m (a * P.p) (ka.join kp)
    else some (a, ka)

/-- The loop of `steepest_descent`, `_unconstrained.py:68-78`, on an array of kind `kx`. -/
def descendKind (f : Vec K n → K) (df : Vec K n → Vec K n) (P : Params K) (k : Kinds K n) (kx : Kind) (fuel : ℕ) :
    ℕ → Vec K n → Except PyErr (Vec K n × ℕ)
  | 0, x => .ok (x, 0)
  | m + 1, x =>
    let d := -df x
    match backtrackKind f P k.p x d (df x) fuel P.alpha k.alpha with
    | none => .error .notTerminated
    | some (a, ka) =>
      match inPlace kx (ka.join (k.df x)) (x + a • d) with
      | .error e => .error e
      | .ok x =>
        if normLe (df x) P.tolerance then .ok (x, 1)
        else
          match descendKind f df P k kx fuel m x with
          | .error e => .error e
          | .ok (y, j) => .ok (y, j + 1)

/-- The loop of `newton_method`, `_unconstrained.py:112-117`, on an array of kind `kx`: `np.linalg.solve` returns
floats, whatever it is given. -/
noncomputable def newtonKind (df : Vec K n → Vec K n) (d2f : Vec K n → Matrix (Fin n) (Fin n) K) (tolerance : K)
    (kx : Kind) : ℕ → Vec K n → Except PyErr (Vec K n × ℕ)
  | 0, x => .ok (x, 0)
  | k + 1, x =>
    if (d2f x).det = 0 then .error .linAlgError
    else
      match inPlace kx .float (x + (d2f x)⁻¹.mulVec (-df x)) with
      | .error e => .error e
      | .ok x =>
        if normLe (df x) tolerance then .ok (x, 1)
        else
          match newtonKind df d2f tolerance kx k x with
          | .error e => .error e
          | .ok (y, j) => .ok (y, j + 1)

theorem Kind.join_int {a b : Kind} : a.join b = .int ↔ a = .int ∧ b = .int := by
  cases a <;> cases b <;> simp [Kind.join]

theorem Kind.join_float_left (b : Kind) : Kind.join .float b = .float := by cases b <;> rfl

theorem backtrackKind_fst (f : Vec K n → K) (P : Params K) (kp : Kind) (x d g : Vec K n) : ∀ (m : ℕ) (a : K) (ka : Kind),
    (backtrackKind f P kp x d g m a ka).map Prod.fst = backtrack f P x d g m a
  | 0, _, _ => rfl
  | m + 1, a, ka => by
    rw [backtrackKind, backtrack]
    split
    · exact backtrackKind_fst f P kp x d g m _ _
    · rfl

/-- The kind at the end: that of the start, if `p` is an integer or no round was made. -/
theorem backtrackKind_kind {f : Vec K n → K} {P : Params K} {kp : Kind} {x d g : Vec K n} : ∀ {m : ℕ} {a b : K}
    {ka kb : Kind}, backtrackKind f P kp x d g m a ka = some (b, kb) →
    (kb = .int ↔ ka = .int ∧ (kp = .int ∨ ¬ f (x + a • d) > f x + P.c * a * dot g d))
  | 0, _, _, _, _, h => by cases h
  | m + 1, a, b, ka, kb, h => by
    rw [backtrackKind] at h
    split at h
    · rename_i hc
      rw [backtrackKind_kind h, Kind.join_int]
      constructor
      · rintro ⟨⟨h1, h2⟩, -⟩; exact ⟨h1, Or.inl h2⟩
      · rintro ⟨h1, h2 | h2⟩
        · exact ⟨⟨h1, h2⟩, Or.inl h2⟩
        · exact absurd hc h2
    · rename_i hc
      cases h
      exact ⟨fun h => ⟨h, Or.inr hc⟩, fun h => h.1⟩

omit [Field K] [LinearOrder K] in
theorem inPlace_float (kd : Kind) (y : Vec K n) : inPlace .float kd y = .ok y := by cases kd <;> rfl

omit [Field K] [LinearOrder K] in
theorem inPlace_int (y : Vec K n) (kd : Kind) : inPlace .int kd y = if kd = .int then .ok y else .error .typeError := by
  cases kd <;> rfl

end Unconstrained
end Pytimize
