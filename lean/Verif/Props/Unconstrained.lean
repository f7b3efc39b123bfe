/-
Properties C71-C73, C76-C79: unconstrained programs.
-/
import Verif.Unconstrained.Real

namespace Pytimize
namespace Props
open Unconstrained

variable {K : Type} [Field K] [LinearOrder K] {n : ℕ}

/-! ### C71 -/

/-- C71: every step satisfies the sufficient-decrease condition, and if fewer than `max_iteration` iterations were made,
the callback's vector at the returned point has norm at most the tolerance. All parameters allowed. -/
theorem C71_steps {f : Vec K n → K} {df : Vec K n → Vec K n} {P : Params K} {x : Vec K n} {maxIter fuel : ℕ}
    {o : Outcome K n} (h : steepestDescent (construct f "min") x df P maxIter fuel = some o) :
    Steps f df P x o.result o.iterations ∧ o.iterations ≤ maxIter ∧
      (o.iterations < maxIter → 0 ≤ P.tolerance ∧ ∑ i, df o.result i ^ 2 ≤ P.tolerance ^ 2) := by
  unfold steepestDescent at h
  generalize hr : descend (construct f "min").f df P fuel maxIter x = r at h
  rcases r with _ | ⟨y, j⟩
  · cases h
  · cases h
    obtain ⟨h1, h2, h3⟩ := descend_spec hr
    refine ⟨h1, h2, fun h => ?_⟩
    have := h3 h
    unfold normLe at this
    rw [dot_self] at this
    exact this

/-- C71: with parameters that are not negative, the objective at the returned point is at most that at the start,
whatever the callback. Missing: negative parameters, for which it is false (`C71_negative_wrong`). -/
theorem C71_decrease_partial [IsStrictOrderedRing K] {f : Vec K n → K} {df : Vec K n → Vec K n} {P : Params K}
    (ha : 0 ≤ P.alpha) (hc : 0 ≤ P.c) (hp : 0 ≤ P.p) {x : Vec K n} {maxIter fuel : ℕ} {o : Outcome K n}
    (h : steepestDescent (construct f "min") x df P maxIter fuel = some o) : f o.result ≤ f x :=
  (C71_steps h).1.le ha hc hp

/-- A run meeting the hypotheses: one step on the square function from 1, with the default parameters. -/
example : ∃ o, steepestDescent (construct (fun x : Vec ℚ 1 => x 0 ^ 2) "min") (fun _ => 1) (fun x _ => 2 * x 0)
      ⟨1, 7 / 10, 1 / 2, 1 / 10000⟩ 1 10 = some o ∧ o.result 0 = 1 / 2 := by
  refine ⟨⟨fun _ => 1 / 2, fun _ => 1 / 2, 1⟩, ?_, rfl⟩
  have hb : backtrack (fun x : Vec ℚ 1 => x 0 ^ 2) ⟨1, 7 / 10, 1 / 2, 1 / 10000⟩ (fun _ => 1) (-fun _ => 2 * 1)
      (fun _ => 2 * 1) 10 1 = some (1 / 4) := by
    norm_num [backtrack, dot]
  have he : ((fun _ => 1 : Vec ℚ 1) + (1 / 4 : ℚ) • (-fun _ => 2 * 1 : Vec ℚ 1)) = fun _ => 1 / 2 := by
    funext i; norm_num
  simp only [steepestDescent, descend, construct, hb, he, finish]
  norm_num [normLe, dot]

/-- C71 is false for negative `c`: the objective can increase. -/
theorem C71_negative_wrong : ∃ o,
    steepestDescent (construct (fun x : Vec ℚ 1 => x 0) "min") (fun _ => 0) (fun _ _ => -1) ⟨1, -1, 1 / 2, 0⟩ 1 1
      = some o ∧ o.result 0 = 1 := by
  refine ⟨⟨fun _ => 1, fun _ => 1, 1⟩, ?_, rfl⟩
  have hb : backtrack (fun x : Vec ℚ 1 => x 0) ⟨1, -1, 1 / 2, 0⟩ (fun _ => 0) (-fun _ => -1) (fun _ => -1) 1 1
      = some 1 := by norm_num [backtrack, dot]
  have he : ((fun _ => 0 : Vec ℚ 1) + (1 : ℚ) • (-fun _ => -1 : Vec ℚ 1)) = fun _ => 1 := by
    funext i; norm_num
  simp only [steepestDescent, descend, construct, hb, he, finish]
  norm_num [normLe, dot]

/-! ### C72 -/

/-- The quadratic function with Hessian `Q`, linear part `b` and constant `k`. -/
def quadratic (Q : Matrix (Fin n) (Fin n) K) (b : Vec K n) (k : K) (x : Vec K n) : K :=
  (∑ i, ∑ j, x i * Q i j * x j) / 2 + ∑ i, b i * x i + k

/-- Its gradient, if `Q` is symmetric. -/
def quadGrad (Q : Matrix (Fin n) (Fin n) K) (b : Vec K n) (x : Vec K n) : Vec K n :=
  fun i => (∑ j, Q i j * x j) + b i

theorem quadGrad_eq (Q : Matrix (Fin n) (Fin n) K) (b x : Vec K n) : quadGrad Q b x = Q.mulVec x + b := rfl

/-- The value at another point, expanded around a stationary point. This is what makes `quadGrad` the gradient. -/
theorem quadratic_expand [IsStrictOrderedRing K] {Q : Matrix (Fin n) (Fin n) K} (hQ : Q.IsSymm) (b : Vec K n) (k : K)
    (x y : Vec K n) :
    quadratic Q b k y = quadratic Q b k x + ∑ i, quadGrad Q b x i * (y i - x i) +
      (∑ i, ∑ j, (y i - x i) * Q i j * (y j - x j)) / 2 := by
  have hsym : ∀ i j, Q i j = Q j i := fun i j => by
    have := congrFun (congrFun hQ j) i
    simpa [Matrix.transpose_apply] using this
  have hswap : ∑ i, ∑ j, x i * Q i j * y j = ∑ i, ∑ j, y i * Q i j * x j := by
    rw [Finset.sum_comm]
    refine Finset.sum_congr rfl fun i _ => Finset.sum_congr rfl fun j _ => ?_
    rw [hsym j i]
    ring
  have e1 : ∑ i, quadGrad Q b x i * (y i - x i) =
      ∑ i, ∑ j, y i * Q i j * x j - ∑ i, ∑ j, x i * Q i j * x j + (∑ i, b i * y i - ∑ i, b i * x i) := by
    unfold quadGrad
    rw [← Finset.sum_sub_distrib, ← Finset.sum_sub_distrib, ← Finset.sum_add_distrib]
    refine Finset.sum_congr rfl fun i _ => ?_
    rw [← Finset.sum_sub_distrib, add_mul, Finset.sum_mul]
    congr 1
    · exact Finset.sum_congr rfl fun j _ => by ring
    · ring
  have e2 : ∑ i, ∑ j, (y i - x i) * Q i j * (y j - x j) =
      ∑ i, ∑ j, y i * Q i j * y j - ∑ i, ∑ j, y i * Q i j * x j - ∑ i, ∑ j, x i * Q i j * y j +
        ∑ i, ∑ j, x i * Q i j * x j := by
    rw [← Finset.sum_sub_distrib, ← Finset.sum_sub_distrib, ← Finset.sum_add_distrib]
    refine Finset.sum_congr rfl fun i _ => ?_
    rw [← Finset.sum_sub_distrib, ← Finset.sum_sub_distrib, ← Finset.sum_add_distrib]
    exact Finset.sum_congr rfl fun j _ => by ring
  unfold quadratic
  rw [e1, e2, hswap]
  ring

theorem newton_step {Q : Matrix (Fin n) (Fin n) K} (hQ : Q.det ≠ 0) (b x : Vec K n) :
    quadGrad Q b (x + Q⁻¹.mulVec (-quadGrad Q b x)) = 0 := by
  have hu : IsUnit Q.det := isUnit_iff_ne_zero.mpr hQ
  rw [quadGrad_eq, quadGrad_eq, Matrix.mulVec_add, Matrix.mulVec_mulVec, Matrix.mul_nonsing_inv Q hu,
    Matrix.one_mulVec]
  funext i
  simp

theorem newton_fixed {Q : Matrix (Fin n) (Fin n) K} {b x : Vec K n} (hx : quadGrad Q b x = 0) :
    x + Q⁻¹.mulVec (-quadGrad Q b x) = x := by rw [hx]; simp

theorem stationary_unique {Q : Matrix (Fin n) (Fin n) K} (hQ : Q.det ≠ 0) {b x y : Vec K n}
    (hx : quadGrad Q b x = 0) (hy : quadGrad Q b y = 0) : x = y := by
  have hu : IsUnit Q.det := isUnit_iff_ne_zero.mpr hQ
  rw [quadGrad_eq] at hx hy
  have h : Q.mulVec x = Q.mulVec y := by
    rw [eq_neg_of_add_eq_zero_left hx, eq_neg_of_add_eq_zero_left hy]
  have h2 := congrArg (Q⁻¹.mulVec) h
  rwa [Matrix.mulVec_mulVec, Matrix.mulVec_mulVec, Matrix.nonsing_inv_mul Q hu, Matrix.one_mulVec,
    Matrix.one_mulVec] at h2

theorem newtonLoop_fixed [IsStrictOrderedRing K] {Q : Matrix (Fin n) (Fin n) K} (hQ : Q.det ≠ 0) {b x : Vec K n}
    (hx : quadGrad Q b x = 0) (t : K) (k : ℕ) :
    ∃ j, newtonLoop (quadGrad Q b) (fun _ => Q) t k x = .ok (x, j) := by
  induction k with
  | zero => exact ⟨0, rfl⟩
  | succ k ih =>
    simp only [newtonLoop, if_neg hQ, newton_fixed hx]
    split
    · exact ⟨1, rfl⟩
    · obtain ⟨j, hj⟩ := ih
      exact ⟨j + 1, by rw [hj]⟩

theorem newton_quadratic [IsStrictOrderedRing K] {Q : Matrix (Fin n) (Fin n) K} (hQ : Q.det ≠ 0) (b : Vec K n)
    (x : Vec K n) (t : K) {maxIter : ℕ} (hm : 0 < maxIter) :
    ∃ y j, newtonLoop (quadGrad Q b) (fun _ => Q) t maxIter x = .ok (y, j) ∧ quadGrad Q b y = 0 ∧
      (0 ≤ t → j = 1) := by
  obtain ⟨k, rfl⟩ : ∃ k, maxIter = k + 1 := ⟨maxIter - 1, by omega⟩
  have h1 := newton_step hQ b x
  have h0 : 0 ≤ t → normLe (quadGrad Q b (x + Q⁻¹.mulVec (-quadGrad Q b x))) t := fun ht => by
    rw [h1]; exact ⟨ht, by simp [dot]; positivity⟩
  simp only [newtonLoop, if_neg hQ]
  by_cases hn : normLe (quadGrad Q b (x + Q⁻¹.mulVec (-quadGrad Q b x))) t
  · rw [if_pos hn]; exact ⟨_, _, rfl, h1, fun _ => rfl⟩
  · rw [if_neg hn]
    obtain ⟨j, hj⟩ := newtonLoop_fixed hQ h1 t k
    exact ⟨_, _, by rw [hj], h1, fun ht => (hn (h0 ht)).elim⟩

/-- C72: on a quadratic with invertible Hessian, `newton_method` returns the unique stationary point, after one
iteration (if the tolerance is not negative), from any start. -/
theorem C72_newton [IsStrictOrderedRing K] (f : Vec K n → K) {Q : Matrix (Fin n) (Fin n) K} (hQ : Q.det ≠ 0)
    (b : Vec K n) (x : Vec K n) (t : K) {maxIter : ℕ} (hm : 0 < maxIter) :
    ∃ o, newtonMethod (construct f "min") x (quadGrad Q b) (fun _ => Q) t maxIter = .ok o ∧
      (∀ y, quadGrad Q b y = 0 ↔ y = o.result) ∧ (0 ≤ t → o.iterations = 1) := by
  obtain ⟨y, j, h1, h2, h3⟩ := newton_quadratic hQ b x t hm
  refine ⟨⟨y, y, j⟩, ?_, fun z => ⟨fun hz => stationary_unique hQ hz h2, fun hz => hz ▸ h2⟩, h3⟩
  simp only [newtonMethod, h1]
  rfl

/-- C72: if the quadratic is convex, the point returned minimises it. -/
theorem C72_minimiser [IsStrictOrderedRing K] {Q : Matrix (Fin n) (Fin n) K} (hQ : Q.det ≠ 0) (hs : Q.IsSymm)
    (hpos : ∀ v : Vec K n, 0 ≤ ∑ i, ∑ j, v i * Q i j * v j) (b : Vec K n) (k : K) (x : Vec K n) (t : K)
    {maxIter : ℕ} (hm : 0 < maxIter) {o : Outcome K n}
    (h : newtonMethod (construct (quadratic Q b k) "min") x (quadGrad Q b) (fun _ => Q) t maxIter = .ok o)
    (y : Vec K n) : quadratic Q b k o.result ≤ quadratic Q b k y := by
  obtain ⟨o', h1, h2, -⟩ := C72_newton (quadratic Q b k) hQ b x t hm
  rw [h1] at h
  obtain rfl : o' = o := by injection h
  have hz := (h2 o'.result).mpr rfl
  rw [quadratic_expand hs b k o'.result y, hz]
  have := hpos fun i => y i - o'.result i
  simp only [Pi.zero_apply, zero_mul, Finset.sum_const_zero, add_zero]
  linarith

/-- C72, the other matrices: a singular Hessian raises `LinAlgError`. -/
theorem C72_singular (f : Vec K n → K) (df : Vec K n → Vec K n) {d2f : Vec K n → Matrix (Fin n) (Fin n) K}
    {x : Vec K n} (hQ : (d2f x).det = 0) (t : K) {maxIter : ℕ} (hm : 0 < maxIter) :
    newtonMethod (construct f "min") x df d2f t maxIter = .error .linAlgError := by
  obtain ⟨k, rfl⟩ : ∃ k, maxIter = k + 1 := ⟨maxIter - 1, by omega⟩
  simp [newtonMethod, newtonLoop, hQ]

/-- A quadratic meeting the hypotheses of `C72_minimiser`: `x ^ 2 - 2 x`. -/
example : let Q : Matrix (Fin 1) (Fin 1) ℚ := !![2]
    Q.det ≠ 0 ∧ Q.IsSymm ∧ ∀ v : Vec ℚ 1, 0 ≤ ∑ i, ∑ j, v i * Q i j * v j := by
  refine ⟨by simp, by ext i j; fin_cases i; fin_cases j; rfl, fun v => ?_⟩
  simp
  nlinarith [sq_nonneg (v 0)]

/-! ### C73 -/

/-- C73 is false for `newton_method` on every quadratic whose stationary point is not the origin: with objective
`max` the point returned is not stationary. -/
theorem C73_newton_wrong [IsStrictOrderedRing K] (f : Vec K n → K) {Q : Matrix (Fin n) (Fin n) K} (hQ : Q.det ≠ 0)
    {b : Vec K n} (hb : b ≠ 0) (x : Vec K n) (t : K) {maxIter : ℕ} (hm : 0 < maxIter) :
    ∃ o, newtonMethod (construct f "max") x (quadGrad Q b) (fun _ => Q) t maxIter = .ok o ∧
      quadGrad Q b o.result ≠ 0 := by
  obtain ⟨y, j, h1, h2, h3⟩ := newton_quadratic hQ b x t hm
  refine ⟨⟨-y, y, j⟩, ?_, fun h => hb ?_⟩
  · simp only [newtonMethod, h1]
    rfl
  · simp only [quadGrad_eq, Matrix.mulVec_neg] at h h2
    funext i
    have a1 := congrFun h i
    have a2 := congrFun h2 i
    simp only [Pi.add_apply, Pi.neg_apply, Pi.zero_apply] at a1 a2 ⊢
    linarith

/-- C73, the quadratics with stationary point at the origin: `newton_method` returns it. Missing: all others, see
`C73_newton_wrong`. -/
theorem C73_newton_partial [IsStrictOrderedRing K] (f : Vec K n → K) {Q : Matrix (Fin n) (Fin n) K} (hQ : Q.det ≠ 0)
    (x : Vec K n) (t : K) {maxIter : ℕ} (hm : 0 < maxIter) :
    ∃ o, newtonMethod (construct f "max") x (quadGrad Q 0) (fun _ => Q) t maxIter = .ok o ∧
      quadGrad Q 0 o.result = 0 := by
  obtain ⟨y, j, h1, h2, h3⟩ := newton_quadratic hQ 0 x t hm
  have hy : y = 0 := stationary_unique hQ h2 (by rw [quadGrad_eq]; simp)
  subst hy
  refine ⟨⟨-0, 0, j⟩, ?_, by rw [neg_zero]; exact h2⟩
  simp only [newtonMethod, h1]
  rfl

/-- C73: with objective `max` the methods run as with `min`, on the same function, and return the opposite point. -/
theorem C73_opposite_partial (f : Vec K n → K) (df : Vec K n → Vec K n) (P : Params K) (x : Vec K n)
    (maxIter fuel : ℕ) :
    (steepestDescent (construct f "max") x df P maxIter fuel).map Outcome.result =
      (steepestDescent (construct f "min") x df P maxIter fuel).map fun o => -o.result := by
  have e : (construct f "max").f = (construct f "min").f := rfl
  unfold steepestDescent
  rw [e]
  generalize descend (construct f "min").f df P fuel maxIter x = r
  rcases r with _ | ⟨y, j⟩
  · rfl
  · rfl

/-- C73, odd functions: there the point returned has at least the opposite of the start's value. Missing: everything
else, see `C73_descent_wrong`. -/
theorem C73_odd_partial [IsStrictOrderedRing K] {f : Vec K n → K} (hodd : ∀ x, f (-x) = -f x)
    {df : Vec K n → Vec K n} {P : Params K} (ha : 0 ≤ P.alpha) (hc : 0 ≤ P.c) (hp : 0 ≤ P.p) {x : Vec K n}
    {maxIter fuel : ℕ} {o : Outcome K n}
    (h : steepestDescent (construct f "max") x df P maxIter fuel = some o) : -f x ≤ f o.result := by
  have h2 := C73_opposite_partial f df P x maxIter fuel
  rw [h] at h2
  generalize hr : steepestDescent (construct f "min") x df P maxIter fuel = r at h2
  cases r with
  | none => cases h2
  | some o' =>
    simp only [Option.map_some, Option.some.injEq] at h2
    rw [h2, hodd]
    exact neg_le_neg (C71_decrease_partial ha hc hp hr)

/-- C73 is false for `steepest_descent`: maximising `x` from 5, the method returns -4. -/
theorem C73_descent_wrong : ∃ o,
    steepestDescent (construct (fun x : Vec ℚ 1 => x 0) "max") (fun _ => 5) (fun _ _ => 1)
      ⟨1, 7 / 10, 1 / 2, 1 / 10000⟩ 1 1 = some o ∧ o.result 0 = -4 := by
  refine ⟨⟨fun _ => -4, fun _ => 4, 1⟩, ?_, rfl⟩
  have hb : backtrack (fun x : Vec ℚ 1 => x 0) ⟨1, 7 / 10, 1 / 2, 1 / 10000⟩ (fun _ => 5) (-fun _ => 1) (fun _ => 1) 1
      1 = some 1 := by norm_num [backtrack, dot]
  have he : ((fun _ => 5 : Vec ℚ 1) + (1 : ℚ) • (-fun _ => 1 : Vec ℚ 1)) = fun _ => 4 := by
    funext i; norm_num
  simp only [steepestDescent, descend, construct, hb, he, finish]
  norm_num [normLe, dot]
  funext i
  rfl

/-! ### C76 -/

/-- C76 is false for every run: after `steepest_descent` for `min`, the caller's array is the point returned. -/
theorem C76_descent_wrong {f : Vec K n → K} {df : Vec K n → Vec K n} {P : Params K} {x : Vec K n} {maxIter fuel : ℕ}
    {o : Outcome K n} (h : steepestDescent (construct f "min") x df P maxIter fuel = some o) :
    o.start = o.result := by
  unfold steepestDescent at h
  generalize descend (construct f "min").f df P fuel maxIter x = r at h
  rcases r with _ | ⟨y, j⟩
  · cases h
  · cases h; rfl

/-- C76 is false for `newton_method`: on every quadratic the caller's array becomes the stationary point. -/
theorem C76_newton_wrong [IsStrictOrderedRing K] (f : Vec K n → K) {Q : Matrix (Fin n) (Fin n) K} (hQ : Q.det ≠ 0)
    (b : Vec K n) (objective : String) {x : Vec K n} (hx : quadGrad Q b x ≠ 0) (t : K) {maxIter : ℕ}
    (hm : 0 < maxIter) :
    ∃ o, newtonMethod (construct f objective) x (quadGrad Q b) (fun _ => Q) t maxIter = .ok o ∧ o.start ≠ x := by
  obtain ⟨y, j, h1, h2, h3⟩ := newton_quadratic hQ b x t hm
  refine ⟨finish (construct f objective) y j, ?_, ?_⟩
  · simp only [newtonMethod, h1]
  · rintro rfl
    exact hx h2

/-- C76, the part that holds: a start where the callback vanishes, or no iterations. Missing: all other starts. -/
theorem C76_partial {f : Vec K n → K} {df : Vec K n → Vec K n} {P : Params K} {x : Vec K n} {maxIter fuel : ℕ}
    {objective : String} {o : Outcome K n}
    (h : steepestDescent (construct f objective) x df P maxIter fuel = some o) (hx : df x = 0 ∨ maxIter = 0) :
    o.start = x := by
  unfold steepestDescent at h
  generalize hr : descend (construct f objective).f df P fuel maxIter x = r at h
  rcases r with _ | ⟨y, j⟩
  · cases h
  · cases h
    simp only [finish]
    rcases hx with hx | rfl
    · have hfix : ∀ a, stepFrom df x a = x := fun a => by
        funext i; simp [stepFrom, hx]
      have : ∀ {k : ℕ} {r : Vec K n × ℕ}, descend (construct f objective).f df P fuel k x = some r → r.1 = x := by
        intro k
        induction k with
        | zero => intro r h; cases h; rfl
        | succ k ih =>
          intro r h
          simp only [descend] at h
          split at h
          · cases h
          · simp only [step_eq, hfix] at h
            split at h
            · cases h; rfl
            · split at h
              · cases h
              · rename_i y' j' hd
                injection h with h
                rw [← h]
                exact ih (r := (y', j')) hd
      exact this hr
    · cases hr; rfl

/-! ### C77 -/

/-- C77 is false for every list that is not empty: each iteration doubles the length of the list. -/
theorem C77_list_wrong {f : List K → K} {df : List K → List K} (hdf : ∀ x, (df x).length = x.length) {P : Params K}
    {fuel k : ℕ} {x y : List K} {j : ℕ} (h : descendList f df P fuel k x = some (y, j)) :
    y.length = 2 ^ j * x.length ∧ (0 < k → 0 < j) := by
  induction k generalizing x j with
  | zero => cases h; simp
  | succ k ih =>
    simp only [descendList] at h
    split at h
    · cases h
    · rename_i a _
      have hlen : (x ++ ((df x).map fun v => -v).map fun v => a * v).length = 2 * x.length := by
        simp [hdf]; omega
      split at h
      · cases h
        exact ⟨by rw [hlen]; ring, fun _ => by omega⟩
      · split at h
        · cases h
        · rename_i y' j' hd
          cases h
          obtain ⟨h1, _⟩ := ih hd
          rw [hlen] at h1
          exact ⟨by rw [h1, pow_succ]; ring, fun _ => by omega⟩

/-- C77, no iterations: the list is returned as it is. Missing: every call with an iteration, see `C77_list_wrong`. -/
theorem C77_partial (f : List K → K) (df : List K → List K) (P : Params K) (fuel : ℕ) (x : List K) :
    descendList f df P fuel 0 x = some (x, 0) := rfl

/-- A run on a list. -/
example : descendList (fun x : List ℚ => (x.map fun v => v ^ 2).sum) (fun x => x.map fun _ => 0) ⟨1, 1 / 2, 1 / 2, 1⟩
    5 5 [3] = some ([3, 0], 1) := by
  norm_num [descendList, backtrackList, listAdd]

/-! ### C78 -/

/-- C78: for a differentiable function and its gradient, `steepest_descent` ends: every backtracking loop does. -/
theorem C78_terminates {f : Vec ℝ n → ℝ} {df : Vec ℝ n → Vec ℝ n} (hf : IsGradient f df) {P : Params ℝ}
    (ha : 0 < P.alpha) (hp : 0 < P.p) (hp1 : P.p < 1) (hc : P.c < 1) (objective : String) (x : Vec ℝ n)
    (maxIter : ℕ) :
    ∃ F, ∀ fuel ≥ F, ∃ o, steepestDescent (construct f objective) x df P maxIter fuel = some o := by
  obtain ⟨F, hF⟩ := descend_real hf ha hp hp1 hc maxIter x
  refine ⟨F, fun fuel hfu => ?_⟩
  obtain ⟨⟨y, j⟩, hr⟩ := hF fuel hfu
  have hr' : descend (construct f objective).f df P fuel maxIter x = some (y, j) := hr
  exact ⟨finish (construct f objective) y j, by simp only [steepestDescent, hr']⟩

/-- A linear function and its gradient meet the hypothesis. -/
example (g : Vec ℝ n) : IsGradient (fun x => gradMap g x) (fun _ => g) := fun _ => (gradMap g).hasFDerivAt

/-! ### C79 -/

/-- C79: for a smooth function bounded below, and a number of iterations that depends only on how far the start is
above the bound, `steepest_descent` ends at a point where the gradient has norm at most the tolerance. -/
theorem C79_converges [IsStrictOrderedRing K] [Archimedean K] {L : K} (hL : 0 < L) {P : Params K} (ha : 0 < P.alpha)
    (hp : 0 < P.p) (hp1 : P.p < 1) (hc : 0 < P.c) (hc1 : P.c < 1) (ht : 0 < P.tolerance) :
    ∃ F : ℕ, ∀ (f : Vec K n → K) (df : Vec K n → Vec K n) (low : K), Smooth f df L → (∀ x, low ≤ f x) →
      ∀ (x : Vec K n) (N : ℕ),
        f x - low < (N : K) * (P.c * min P.alpha (P.p * (2 * (1 - P.c) / L)) * P.tolerance ^ 2) →
      ∀ maxIter > N, ∀ fuel ≥ F, ∃ o, steepestDescent (construct f "min") x df P maxIter fuel = some o ∧
        ∑ i, df o.result i ^ 2 ≤ P.tolerance ^ 2 := by
  obtain ⟨F, hF⟩ := smooth_fuel (n := n) hL ha hp hp1 hc1
  refine ⟨F, fun f df low hs hlow x N hN maxIter hm fuel hfu => ?_⟩
  obtain ⟨k, rfl⟩ : ∃ k, maxIter = k + 1 := ⟨maxIter - 1, by omega⟩
  have hmin := factor_pos hL ha hp hc1 (P := P)
  have hδ : 0 < P.c * min P.alpha (P.p * (2 * (1 - P.c) / L)) * P.tolerance ^ 2 :=
    mul_pos (mul_pos hc hmin) (pow_pos ht 2)
  have hNk : (N : K) ≤ (k : K) := by exact_mod_cast (by omega : N ≤ k)
  obtain ⟨y, j, h1, h2⟩ := descend_converges hL hs hlow ha hp hc hc1 ht (fun x => hF f df hs x fuel hfu) k x
    (lt_of_lt_of_le hN (mul_le_mul_of_nonneg_right hNk hδ.le))
  have h1' : descend (construct f "min").f df P fuel (k + 1) x = some (y, j) := h1
  refine ⟨finish (construct f "min") y j, by simp only [steepestDescent, h1'], ?_⟩
  unfold normLe at h2
  rw [dot_self] at h2
  exact h2.2

/-- The square function is smooth and bounded below, so it meets the hypotheses, with `L = 2` and the default
parameters. -/
example : Smooth (fun x : Vec ℚ 1 => x 0 ^ 2) (fun x _ => 2 * x 0) 2 ∧ ∀ x : Vec ℚ 1, 0 ≤ x 0 ^ 2 := by
  refine ⟨fun x y => ?_, fun x => sq_nonneg _⟩
  simp only [Finset.univ_unique, Fin.default_eq_zero, Finset.sum_singleton]
  nlinarith

end Props
end Pytimize
