/-
Properties C114 and C115: the objective under `newton_method`, and arrays of integers as starting points.
-/
import Verif.Props.Unconstrained
import Verif.Unconstrained.Kinds

namespace Pytimize
namespace Props
open Unconstrained

variable {K : Type} [Field K] [LinearOrder K] {n : ℕ}

/-! ### C114 -/

/-- C114, convex quadratics: the point returned has objective value at most that of the start. Missing: all other
functions, where it is false: `C114_concave_wrong`, `C114_convex_wrong`. -/
theorem C114_quadratic_partial [IsStrictOrderedRing K] {Q : Matrix (Fin n) (Fin n) K} (hQ : Q.det ≠ 0) (hs : Q.IsSymm)
    (hpos : ∀ v : Vec K n, 0 ≤ ∑ i, ∑ j, v i * Q i j * v j) (b : Vec K n) (k : K) (x : Vec K n) (t : K)
    (maxIter : ℕ) :
    ∃ o, newtonMethod (construct (quadratic Q b k) "min") x (quadGrad Q b) (fun _ => Q) t maxIter = .ok o ∧
      quadratic Q b k o.result ≤ quadratic Q b k x := by
  rcases Nat.eq_zero_or_pos maxIter with rfl | hm
  · exact ⟨⟨x, x, 0⟩, rfl, le_rfl⟩
  · obtain ⟨o, h, -, -⟩ := C72_newton (quadratic Q b k) hQ b x t hm
    exact ⟨o, h, C72_minimiser hQ hs hpos b k x t hm h x⟩

/-- C114 is false on every concave quadratic: `newton_method` for `min` goes to the maximum, from every other
start. -/
theorem C114_concave_wrong [IsStrictOrderedRing K] {Q : Matrix (Fin n) (Fin n) K} (hQ : Q.det ≠ 0) (hs : Q.IsSymm)
    (hneg : ∀ v : Vec K n, v ≠ 0 → ∑ i, ∑ j, v i * Q i j * v j < 0) (b : Vec K n) (k : K) (x : Vec K n) (t : K)
    {maxIter : ℕ} (hm : 0 < maxIter) :
    ∃ o, newtonMethod (construct (quadratic Q b k) "min") x (quadGrad Q b) (fun _ => Q) t maxIter = .ok o ∧
      ∀ y, y ≠ o.result → quadratic Q b k y < quadratic Q b k o.result := by
  obtain ⟨o, h, h2, -⟩ := C72_newton (quadratic Q b k) hQ b x t hm
  refine ⟨o, h, fun y hy => ?_⟩
  rw [quadratic_expand hs b k o.result y, (h2 o.result).mpr rfl]
  have := hneg (fun i => y i - o.result i) fun h0 => hy (by
    funext i
    have := congrFun h0 i
    exact sub_eq_zero.mp this)
  simp only [Pi.zero_apply, zero_mul, Finset.sum_const_zero, add_zero]
  linarith

/-- The hypotheses hold for `-x ^ 2`. -/
example : let Q : Matrix (Fin 1) (Fin 1) ℚ := !![-2]
    Q.det ≠ 0 ∧ Q.IsSymm ∧ ∀ v : Vec ℚ 1, v ≠ 0 → ∑ i, ∑ j, v i * Q i j * v j < 0 := by
  refine ⟨by simp, by ext i j; fin_cases i; fin_cases j; rfl, fun v hv => ?_⟩
  have : v 0 ≠ 0 := fun h => hv (by funext i; fin_cases i; exact h)
  simp
  have := sq_pos_of_ne_zero this
  nlinarith

/-- C114 is false for convex functions: one step on `x ^ 4 / 4 - x` from 1/10 leads to 33.4, where the objective is
larger than 300000. -/
theorem C114_convex_wrong : ∃ o,
    newtonMethod (construct (fun x : Vec ℚ 1 => x 0 ^ 4 / 4 - x 0) "min") (fun _ => 1 / 10) (fun x _ => x 0 ^ 3 - 1)
      (fun x => !![3 * x 0 ^ 2]) (1 / 10000) 1 = .ok o ∧
    (1 / 10 : ℚ) ^ 4 / 4 - 1 / 10 < 0 ∧ 300000 < o.result 0 ^ 4 / 4 - o.result 0 := by
  refine ⟨⟨fun _ => 167 / 5, fun _ => 167 / 5, 1⟩, ?_, by norm_num, by norm_num⟩
  have hd : (!![3 * (1 / 10 : ℚ) ^ 2] : Matrix (Fin 1) (Fin 1) ℚ).det ≠ 0 := by
    rw [Matrix.det_fin_one]; simp
  have he : (fun _ => 1 / 10 : Vec ℚ 1) + (!![3 * (1 / 10 : ℚ) ^ 2] : Matrix (Fin 1) (Fin 1) ℚ)⁻¹.mulVec
      (-fun _ => (1 / 10) ^ 3 - 1) = fun _ => 167 / 5 := by
    have hinv : (!![3 * (1 / 10 : ℚ) ^ 2] : Matrix (Fin 1) (Fin 1) ℚ)⁻¹ = !![100 / 3] := by
      apply Matrix.inv_eq_right_inv
      ext i j
      fin_cases i
      fin_cases j
      simp [Matrix.mul_apply]
      norm_num
    rw [hinv]
    funext i
    fin_cases i
    simp [dotProduct]
    norm_num
  simp only [newtonMethod, newtonLoop, if_neg hd]
  rw [he]
  norm_num [normLe, dot, finish, construct]

/-! ### C115 -/

/-- The points of a run of `steepest_descent`. -/
def pointAt (f : Vec K n → K) (df : Vec K n → Vec K n) (P : Params K) (fuel : ℕ) : ℕ → Vec K n → Option (Vec K n)
  | 0, x => some x
  | i + 1, x => (backtrack f P x (-df x) (df x) fuel P.alpha).bind fun a => pointAt f df P fuel i (stepFrom df x a)

/-- At `x` the step is an array of integers: the callback returns one, `alpha` is an integer, and `p` is one or the
first length tried is accepted. -/
def WholeStep (f : Vec K n → K) (df : Vec K n → Vec K n) (P : Params K) (k : Kinds K n) (x : Vec K n) : Prop :=
  k.df x = .int ∧ k.alpha = .int ∧
    (k.p = .int ∨ f (stepFrom df x P.alpha) ≤ f x - P.c * P.alpha * ∑ i, df x i ^ 2)

theorem backtrackKind_cases (f : Vec K n → K) (df : Vec K n → Vec K n) (P : Params K) (k : Kinds K n) (x : Vec K n)
    (fuel : ℕ) :
    (backtrack f P x (-df x) (df x) fuel P.alpha = none ∧
      backtrackKind f P k.p x (-df x) (df x) fuel P.alpha k.alpha = none) ∨
    ∃ a ka, backtrack f P x (-df x) (df x) fuel P.alpha = some a ∧
      backtrackKind f P k.p x (-df x) (df x) fuel P.alpha k.alpha = some (a, ka) ∧
      (ka.join (k.df x) = .int ↔ WholeStep f df P k x) := by
  have h := backtrackKind_fst f P k.p x (-df x) (df x) fuel P.alpha k.alpha
  generalize hr : backtrackKind f P k.p x (-df x) (df x) fuel P.alpha k.alpha = r at h
  rcases r with _ | ⟨a, ka⟩
  · left; exact ⟨h.symm, rfl⟩
  · right
    refine ⟨a, ka, h.symm, rfl, ?_⟩
    rw [Kind.join_int, backtrackKind_kind hr, WholeStep, step_eq, dot_neg, not_lt, mul_neg, ← sub_eq_add_neg]
    tauto

/-- C115: an array of floats behaves as described by the model of C71. -/
theorem C115_float (f : Vec K n → K) (df : Vec K n → Vec K n) (P : Params K) (k : Kinds K n) (fuel : ℕ) :
    ∀ (maxIter : ℕ) (x : Vec K n), (descendKind f df P k .float fuel maxIter x).toOption = descend f df P fuel maxIter x
  | 0, _ => rfl
  | m + 1, x => by
    rw [descendKind, descend]
    dsimp only
    rcases backtrackKind_cases f df P k x fuel with ⟨h1, h2⟩ | ⟨a, ka, h1, h2, -⟩
    · rw [h1, h2]; rfl
    · rw [h1, h2]
      simp only [inPlace_float]
      split
      · rfl
      · rw [← C115_float f df P k fuel m]
        generalize descendKind f df P k .float fuel m (x + a • -df x) = r
        rcases r with e | ⟨y, j⟩ <;> rfl

/-- C115: on an array of integers `steepest_descent` returns exactly if it returns on the array of floats with the
same entries and every step on the way is an array of integers, and then it returns the same. Missing: all other runs,
see `C115_float_step_wrong`. -/
theorem C115_integer_partial (f : Vec K n → K) (df : Vec K n → Vec K n) (P : Params K) (k : Kinds K n) (fuel : ℕ) :
    ∀ (maxIter : ℕ) (x y : Vec K n) (j : ℕ), descendKind f df P k .int fuel maxIter x = .ok (y, j) ↔
      descend f df P fuel maxIter x = some (y, j) ∧
        ∀ i < j, ∀ z, pointAt f df P fuel i x = some z → WholeStep f df P k z
  | 0, x, y, j => by
    rw [descendKind, descend]
    constructor
    · intro h; cases h; exact ⟨rfl, fun i hi => by omega⟩
    · rintro ⟨h, -⟩; cases h; rfl
  | m + 1, x, y, j => by
    have hpts : ∀ a, backtrack f P x (-df x) (df x) fuel P.alpha = some a → ∀ l,
        (∀ i < l + 1, ∀ z, pointAt f df P fuel i x = some z → WholeStep f df P k z) ↔
        WholeStep f df P k x ∧ ∀ i < l, ∀ z, pointAt f df P fuel i (stepFrom df x a) = some z → WholeStep f df P k z := by
      intro a ha l
      constructor
      · intro h
        refine ⟨h 0 (by omega) x rfl, fun i hi z hz => h (i + 1) (by omega) z ?_⟩
        rw [pointAt, ha]
        exact hz
      · rintro ⟨h0, h⟩ i hi z hz
        cases i with
        | zero => cases hz; exact h0
        | succ i =>
          rw [pointAt, ha] at hz
          exact h i (by omega) z hz
    rw [descendKind, descend]
    dsimp only
    rcases backtrackKind_cases f df P k x fuel with ⟨h1, h2⟩ | ⟨a, ka, h1, h2, h3⟩
    · rw [h1, h2]
      constructor
      · intro h; cases h
      · rintro ⟨h, -⟩; cases h
    · rw [h1, h2]
      simp only [inPlace_int]
      have hp := hpts a h1
      rw [step_eq]
      by_cases hw : WholeStep f df P k x
      · rw [if_pos (h3.mpr hw)]
        simp only
        by_cases hn : normLe (df (stepFrom df x a)) P.tolerance
        · rw [if_pos hn, if_pos hn]
          constructor
          · intro h
            cases h
            exact ⟨rfl, (hp 0).mpr ⟨hw, fun i hi => by omega⟩⟩
          · rintro ⟨h, -⟩; cases h; rfl
        · rw [if_neg hn, if_neg hn]
          have ih := C115_integer_partial f df P k fuel m (stepFrom df x a)
          generalize hr : descendKind f df P k .int fuel m (stepFrom df x a) = r at ih
          rcases r with e | ⟨y', j'⟩
          · constructor
            · intro h; cases h
            · rintro ⟨h, hall⟩
              exfalso
              generalize hr' : descend f df P fuel m (stepFrom df x a) = r' at h ih
              rcases r' with _ | ⟨y₂, j₂⟩
              · cases h
              · cases h
                have := (ih y j₂).mpr ⟨rfl, ((hp j₂).mp hall).2⟩
                cases this
          · obtain ⟨g1, g2⟩ := (ih y' j').mp rfl
            rw [g1]
            constructor
            · intro h
              cases h
              exact ⟨rfl, (hp j').mpr ⟨hw, g2⟩⟩
            · rintro ⟨h, -⟩; cases h; rfl
      · rw [if_neg fun h => hw (h3.mp h)]
        constructor
        · intro h; cases h
        · rintro ⟨h, hall⟩
          exfalso
          refine hw (hall 0 ?_ x rfl)
          split at h
          · cases h; omega
          · split at h
            · cases h
            · cases h; omega

/-- C115 is false: as soon as one step is no array of integers, `TypeError` is raised; here for the first step. -/
theorem C115_float_step_wrong {f : Vec K n → K} {df : Vec K n → Vec K n} {P : Params K} {k : Kinds K n} {fuel : ℕ}
    {x : Vec K n} (hw : ¬ WholeStep f df P k x) {a : K}
    (ha : backtrack f P x (-df x) (df x) fuel P.alpha = some a) (maxIter : ℕ) :
    descendKind f df P k .int fuel (maxIter + 1) x = .error .typeError := by
  rw [descendKind]
  rcases backtrackKind_cases f df P k x fuel with ⟨h1, -⟩ | ⟨a', ka, h1, h2, h3⟩
  · rw [ha] at h1; cases h1
  · simp only [h2, inPlace_int]
    rw [if_neg fun h => hw (h3.mp h)]

/-- C115 is false for the square function with its gradient and the default parameters (`alpha = 1` is an integer,
`p = 0.5` is not): every start except zero raises `TypeError`. -/
theorem C115_square_wrong {x : Vec ℚ 1} (hx : x ≠ 0) (maxIter fuel : ℕ) :
    descendKind (fun x : Vec ℚ 1 => x 0 ^ 2) (fun x _ => 2 * x 0) ⟨1, 7 / 10, 1 / 2, 1 / 10000⟩
      ⟨.int, .float, fun _ => .int⟩ .int (fuel + 3) (maxIter + 1) x = .error .typeError := by
  have h0 : x 0 ≠ 0 := fun h => hx (by funext i; fin_cases i; exact h)
  have hsq := sq_pos_of_ne_zero h0
  have hb : backtrack (fun x : Vec ℚ 1 => x 0 ^ 2) ⟨1, 7 / 10, 1 / 2, 1 / 10000⟩ x (-fun _ => 2 * x 0)
      (fun _ => 2 * x 0) (fuel + 3) 1 = some (1 / 4) := by
    have c1 : (x + (1 : ℚ) • -(fun _ => 2 * x 0 : Vec ℚ 1)) 0 ^ 2 > x 0 ^ 2 + 7 / 10 * 1 * dot (fun _ => 2 * x 0 : Vec ℚ 1) (-fun _ => 2 * x 0)
        := by simp [dot]; nlinarith
    have c2 : (x + (1 * (1 / 2) : ℚ) • -(fun _ => 2 * x 0 : Vec ℚ 1)) 0 ^ 2 >
        x 0 ^ 2 + 7 / 10 * (1 * (1 / 2)) * dot (fun _ => 2 * x 0 : Vec ℚ 1) (-fun _ => 2 * x 0) := by simp [dot]; nlinarith
    have c3 : ¬ (x + (1 * (1 / 2) * (1 / 2) : ℚ) • -(fun _ => 2 * x 0 : Vec ℚ 1)) 0 ^ 2 >
        x 0 ^ 2 + 7 / 10 * (1 * (1 / 2) * (1 / 2)) * dot (fun _ => 2 * x 0 : Vec ℚ 1) (-fun _ => 2 * x 0) := by
      simp [dot]; nlinarith
    rw [backtrack, if_pos c1, backtrack, if_pos c2, backtrack, if_neg c3]
    norm_num
  refine C115_float_step_wrong ?_ hb maxIter
  rintro ⟨-, -, h | h⟩
  · cases h
  · simp [stepFrom] at h
    nlinarith

/-- C115 is false for `newton_method`: on an array of integers it never makes a step; it raises `TypeError`, or
`LinAlgError` if the Hessian at the start is singular. -/
theorem C115_newton_wrong (df : Vec K n → Vec K n) (d2f : Vec K n → Matrix (Fin n) (Fin n) K) (t : K) (x : Vec K n)
    (maxIter : ℕ) :
    newtonKind df d2f t .int (maxIter + 1) x = .error (if (d2f x).det = 0 then .linAlgError else .typeError) := by
  rw [newtonKind]
  split <;> rfl

/-- C115: on an array of floats `newton_method` behaves as described by the model of C72. -/
theorem C115_newton_float (df : Vec K n → Vec K n) (d2f : Vec K n → Matrix (Fin n) (Fin n) K) (t : K) :
    ∀ (maxIter : ℕ) (x : Vec K n), newtonKind df d2f t .float maxIter x = newtonLoop df d2f t maxIter x
  | 0, _ => rfl
  | m + 1, x => by
    rw [newtonKind, newtonLoop]
    split
    · rfl
    · simp only [inPlace]
      split
      · rfl
      · rw [C115_newton_float df d2f t m]
        rfl

/-- A run of `C115_integer_partial` that returns: one whole step on `x ^ 2 / 2` from 3 reaches 0. -/
example : descendKind (fun x : Vec ℚ 1 => x 0 ^ 2 / 2) (fun x _ => x 0) ⟨1, 1 / 2, 1 / 2, 1 / 10000⟩
    ⟨.int, .float, fun _ => .int⟩ .int 1 5 (fun _ => 3) = .ok (fun _ => 0, 1) := by
  have he : ((fun _ => 3 : Vec ℚ 1) + (1 : ℚ) • (-fun _ => 3 : Vec ℚ 1)) = fun _ => 0 := by
    funext i; norm_num
  have hb : backtrackKind (fun x : Vec ℚ 1 => x 0 ^ 2 / 2) ⟨1, 1 / 2, 1 / 2, 1 / 10000⟩ .float (fun _ => 3)
      (-fun _ => 3) (fun _ => 3) 1 1 .int = some (1, .int) := by
    rw [backtrackKind, he]
    norm_num [dot]
  simp only [descendKind, hb, Kind.join, inPlace, he]
  norm_num [normLe, dot]

end Props
end Pytimize
