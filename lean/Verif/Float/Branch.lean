/-
`branch_and_bound` in floating point.
-/
import Verif.Float.SimplexIdeal
import Verif.LP.Duality
import Verif.LP.Integer
import Verif.LP.IntegerProof

namespace Pytimize
namespace Floating
open LinProg Comparator

variable {m n : ℕ} {R : Rounding}

/-! ### Model -/

/-- `evaluate`, `_linear.py:1492-1512`. -/
def fevaluate (L : Lapack R) (P : LP m n) (x : List ℚ) : Except PyErr ℚ :=
  match toVec n x with
  | none => .error .valueError
  | some v => .ok (R.rd (L.dot P.c v + P.z))

/-- The first position the loop branches on, with its value, `_integer.py:86-97`. -/
def ffirstFractional (R : Rounding) (integral : Option (List ℤ)) : ℕ → List ℚ → Option (ℕ × ℚ)
  | _, [] => none
  | i, v :: vs =>
    if looksAt integral i && !Floating.integral R v then some (i, v)
    else ffirstFractional R integral (i + 1) vs

/-- `__branch`, `_integer.py:58-145`. `np.floor` and `np.ceil` of a float are floats. -/
def fbranch (L : Lapack R) (sf : ℕ) (integral : Option (List ℤ)) :
    ℕ → Prog → Except PyErr (Option (List ℚ × ℚ))
  | 0, _ => .error .notTerminated
  | fuel + 1, Q =>
    match fsolve L sf Q.lp with
    | .error e => .error e
    | .ok none => .ok none
    | .ok (some v) =>
      match fevaluate L Q.lp v with
      | .error e => .error e
      | .ok value =>
        match ffirstFractional R integral 0 v with
        | none => .ok (some (v, value))
        | some (pos, q) =>
          match childProg Q.lp pos "<=" (⌊q⌋ : ℤ) with
          | .error e => .error e
          | .ok lo =>
            match fbranch L sf integral fuel lo with
            | .error e => .error e
            | .ok rl =>
              match childProg Q.lp pos ">=" (⌈q⌉ : ℤ) with
              | .error e => .error e
              | .ok hi =>
                match fbranch L sf integral fuel hi with
                | .error e => .error e
                | .ok rh => .ok (betterOf rl rh)

/-- `branch_and_bound`, `_integer.py:41-56`. -/
def fbranchAndBound (L : Lapack R) (sf fuel : ℕ) (I : IntProgram) : Except PyErr (Option (List ℚ)) :=
  match relax I with
  | .error e => .error e
  | .ok P =>
    match fbranch L sf I.integral fuel P with
    | .error e => .error e
    | .ok r => .ok (r.map Prod.fst)

/-! ### Without rounding -/

theorem integral_exact (v : ℚ) : integral exact v = isInteger v := by
  simp only [integral, isInteger, rd_exact, closeToZero_exact]
  rfl

theorem ffirstFractional_exact (l : Option (List ℤ)) (i : ℕ) (vs : List ℚ) :
    ffirstFractional exact l i vs = firstFractional l i vs := by
  induction vs generalizing i with
  | nil => rfl
  | cons v vs ih => simp only [ffirstFractional, firstFractional, integral_exact, ih]

theorem fevaluate_exact (L : Lapack exact) (P : LP m n) (x : List ℚ) :
    fevaluate L P x = evaluate P x := by
  unfold fevaluate evaluate
  simp only [dot_ideal, rd_exact]
  rfl

theorem fbranch_ideal {L : Lapack exact} (hL : Ideal L) (sf : ℕ) (l : Option (List ℤ)) (fuel : ℕ) (Q : Prog) :
    fbranch L sf l fuel Q = branch sf l fuel Q := by
  induction fuel generalizing Q with
  | zero => rfl
  | succ fuel ih =>
    simp only [fbranch, branch, fsolve_ideal hL, fevaluate_exact L, ffirstFractional_exact, ih]
    rfl

theorem fbranchAndBound_ideal {L : Lapack exact} (hL : Ideal L) (sf fuel : ℕ) (I : IntProgram) :
    fbranchAndBound L sf fuel I = branchAndBound sf fuel I := by
  simp only [fbranchAndBound, branchAndBound, fbranch_ideal hL]
  rfl

/-! ### Integral solutions -/

theorem integral_int {v : ℚ} (h : ∃ k : ℤ, v = k) : integral binary64 v = true := by
  obtain ⟨k, rfl⟩ := h
  have h1 : |(k : ℚ)| - (⌊|(k : ℚ)|⌋ : ℤ) = 0 := by
    rw [← Int.cast_abs, Int.floor_intCast, sub_self]
  have h2 : closeToZero binary64 0 = true := by
    rw [closeToZero_int ⟨0, by simp⟩]
    decide +kernel
  simp only [integral, h1, binary64.rd_zero, h2]
  norm_num

theorem ffirstFractional_int (l : Option (List ℤ)) (i : ℕ) {vs : List ℚ} (h : ∀ v ∈ vs, ∃ k : ℤ, v = k) :
    ffirstFractional binary64 l i vs = none := by
  induction vs generalizing i with
  | nil => rfl
  | cons v vs ih =>
    rw [ffirstFractional, integral_int (h v (by simp)), ih _ fun w hw => h w (by simp [hw])]
    simp

theorem firstFractional_int (l : Option (List ℤ)) (i : ℕ) {vs : List ℚ} (h : ∀ v ∈ vs, ∃ k : ℤ, v = k) :
    firstFractional l i vs = none := by
  induction vs generalizing i with
  | nil => rfl
  | cons v vs ih =>
    rw [firstFractional, ih _ fun w hw => h w (by simp [hw])]
    have : isInteger v = true := by
      obtain ⟨k, hk⟩ := h v (by simp)
      exact (Props.C03_isInteger_iff v).mpr ⟨k, by rw [hk]; norm_num⟩
    simp [this]

theorem solution_length {a : Answer m n} {v : List ℚ} {f : (Fin n → ℚ) → List ℚ} {k : ℕ}
    (hf : ∀ x, (f x).length = k) (h : a.solution.map f = some v) : v.length = k := by
  obtain ⟨x, -, rfl⟩ := Option.map_eq_some_iff.mp h
  exact hf x

/-- What `solve` returns has the right length. -/
theorem solve_length {P : LP m n} (hP : WF P) {fuel : ℕ} {v : List ℚ} (h : solve fuel P = .ok (some v)) :
    v.length = n := by
  unfold solve at h
  split at h
  · split at h
    · cases h
    · simp only [Except.ok.injEq] at h
      exact solution_length (fun x => List.length_ofFn) h
  · rename_i hs
    have hr : ∀ s, (reverseSol (toSef P).rev s).length = n := fun s => by
      rw [reverseSol_eq P hP (by simpa using hs), List.length_ofFn]
    unfold solveSef at h
    simp only at h
    split at h
    · split at h
      · cases h
      · split at h
        · cases h
        · cases h
        · simp only [Except.ok.injEq] at h
          exact solution_length hr h
      · split at h
        · cases h
        · simp only [Except.ok.injEq] at h
          exact solution_length hr h
    · split at h
      · cases h
      · simp only [Except.ok.injEq] at h
        exact solution_length hr h

theorem toVec_length {v : List ℚ} (h : v.length = n) : ∃ x, toVec n v = some x := by
  unfold toVec
  rw [dif_pos h]
  exact ⟨_, rfl⟩

/-- If the relaxation is solved as in exact arithmetic and by integers, the search ends at its root. -/
theorem fbranchAndBound_root {L : Lapack binary64} {sf : ℕ} {I : IntProgram} (hI : WF I.prog.lp)
    (hs : fsolve L sf I.prog.lp = solve sf I.prog.lp)
    (hi : ∀ v, solve sf I.prog.lp = .ok (some v) → ∀ q ∈ v, ∃ k : ℤ, q = k) (fuel : ℕ) :
    fbranchAndBound L sf (fuel + 1) I = solve sf I.prog.lp ∧
      branchAndBound sf (fuel + 1) I = solve sf I.prog.lp := by
  unfold fbranchAndBound branchAndBound
  rw [relax_eq I hI]
  simp only [fbranch, branch, hs]
  cases h : solve sf I.prog.lp with
  | error e => exact ⟨rfl, rfl⟩
  | ok r =>
    cases r with
    | none => exact ⟨rfl, rfl⟩
    | some v =>
      obtain ⟨x, hx⟩ := toVec_length (solve_length hI h)
      simp only [fevaluate, evaluate, hx, ffirstFractional_int _ _ (hi v h), firstFractional_int _ _ (hi v h),
        Option.map_some, and_self]

/-! ### Any program -/

theorem ffirstFractional_none {l : Option (List ℤ)} : ∀ {i : ℕ} {v : List ℚ}, ffirstFractional R l i v = none →
    ∀ j (h : j < v.length), looksAt l (i + j) = true → Floating.integral R v[j] = true := by
  intro i v
  induction v generalizing i with
  | nil => intro _ j h; exact absurd h (by simp)
  | cons a v ih =>
    intro h j hj hl
    rw [ffirstFractional] at h
    split at h
    · cases h
    · rename_i hc
      cases j with
      | zero =>
        rw [Nat.add_zero] at hl
        simpa [hl] using hc
      | succ j =>
        simp only [List.getElem_cons_succ]
        exact ih h j (by simpa using hj) (by rw [← hl]; congr 1; omega)

theorem child_n {P : LP m n} {pos : ℕ} {k : ℚ} {op : Ineq} {c : Prog} (h : childProg P pos op.sym k = .ok c) : c.n = n := by
  rw [childProg_eq, Except.ok.injEq] at h
  rw [← h]

/-- What a search returns: an answer of `solve` to some node, of the length of the variables, with the entries looked at
integral up to the tolerance. -/
theorem fbranch_sound {L : Lapack R} {sf : ℕ} {l : Option (List ℤ)} : ∀ {fuel : ℕ} {Q : Prog} {v : List ℚ} {q : ℚ},
    fbranch L sf l fuel Q = .ok (some (v, q)) → v.length = Q.n ∧ (∀ a ∈ v, R.Rep a) ∧
      ∀ j (h : j < v.length), looksAt l j = true → Floating.integral R v[j] = true := by
  intro fuel
  induction fuel with
  | zero => intro Q v q h; simp [fbranch] at h
  | succ fuel ih =>
    intro Q v q h
    rw [fbranch] at h
    split at h
    · cases h
    · cases h
    · rename_i w hw
      split at h
      · cases h
      · rename_i value hv
        split at h
        · rename_i hff
          simp only [Except.ok.injEq, Option.some.injEq, Prod.mk.injEq] at h
          obtain ⟨rfl, -⟩ := h
          refine ⟨?_, fsolve_rep hw, fun j hj hl => ffirstFractional_none hff j hj (by rwa [Nat.zero_add])⟩
          unfold fevaluate toVec at hv
          by_contra hlen
          simp [hlen] at hv
        · split at h
          · cases h
          · rename_i lo hlo
            split at h
            · cases h
            · rename_i rl hl
              split at h
              · cases h
              · rename_i hi hhi
                split at h
                · cases h
                · rename_i rh hh
                  simp only [Except.ok.injEq] at h
                  rcases betterOf_cases rl rh with h1 | h1
                  · rw [h1] at h; subst h
                    obtain ⟨a, b⟩ := ih hl
                    rw [child_n (op := .le) hlo] at a
                    exact ⟨a, b⟩
                  · rw [h1] at h; subst h
                    obtain ⟨a, b⟩ := ih hh
                    rw [child_n (op := .ge) hhi] at a
                    exact ⟨a, b⟩

/-! ### Integer programs and their relaxations -/

/-- If some feasible point with integers at the positions in `S` is best among those, the relaxation has an optimal
solution. -/
theorem relaxation_optimal {P : LP m n} {S : Fin n → Prop} {x0 : Fin n → ℚ} (h0 : Feas P x0)
    (hi : ∀ j, S j → ∃ k : ℤ, x0 j = k)
    (hbest : ∀ y, Feas P y → (∀ j, S j → ∃ k : ℤ, y j = k) →
      (P.objective = .max → objVal P y ≤ objVal P x0) ∧ (P.objective = .min → objVal P x0 ≤ objVal P y)) :
    ∃ x, Feas P x ∧ ∀ y, Feas P y →
      (P.objective = .max → objVal P y ≤ objVal P x) ∧ (P.objective = .min → objVal P x ≤ objVal P y) := by
  let c : Fin n → ℚ := match P.objective with | .max => P.c | .min => -P.c
  have hc : ∀ x y : Fin n → ℚ, c ⬝ᵥ y ≤ c ⬝ᵥ x ↔
      (P.objective = .max → objVal P y ≤ objVal P x) ∧ (P.objective = .min → objVal P x ≤ objVal P y) := by
    intro x y
    cases ho : P.objective <;> simp [c, ho, objVal]
  simp only [← hc] at hbest ⊢
  by_cases hray : ∀ d : Fin n → ℚ, (∀ r, sysA P r ⬝ᵥ d ≤ 0) → c ⬝ᵥ d ≤ 0
  · obtain ⟨l, hl, e⟩ := farkas (fun r => form (sysA P r)) (form c) hray
    have e' := form_coeff e.symm
    obtain ⟨x, l', hx, hl', hc', hv⟩ := strong_system (sysA P) (sysB P) c x0 ((feas_iff_sys P x0).mp h0)
      (∑ r, l r * sysB P r) fun x hx => weak_system hx hl e'
    refine ⟨x, (feas_iff_sys P x).mpr hx, fun y hy => ?_⟩
    rw [hv]
    exact weak_system ((feas_iff_sys P y).mp hy) hl' hc'
  · push Not at hray
    obtain ⟨d, hd, hpos⟩ := hray
    exfalso
    let D : ℕ := ∏ j, (d j).den
    have hD : 0 < D := Finset.prod_pos fun j _ => (d j).den_pos
    have hDd : ∀ j, ∃ k : ℤ, (D : ℚ) * d j = k := by
      intro j
      obtain ⟨e, he⟩ := Finset.dvd_prod_of_mem (fun j => (d j).den) (Finset.mem_univ j)
      refine ⟨e * (d j).num, ?_⟩
      have h1 : (D : ℚ) = (d j).den * e := by exact_mod_cast he
      have h2 : ((d j).den : ℚ) ≠ 0 := by exact_mod_cast (d j).den_ne_zero
      have h3 : d j * (d j).den = (d j).num := Rat.mul_den_eq_num (d j)
      push_cast
      rw [← h3, h1]
      ring
    have hf : Feas P (x0 + (D : ℚ) • d) := by
      rw [feas_iff_sys] at h0 ⊢
      intro r
      have h1 := h0 r
      have h2 := mul_nonpos_of_nonneg_of_nonpos (Nat.cast_nonneg (α := ℚ) D) (hd r)
      rw [dotProduct_add, dotProduct_smul, smul_eq_mul]
      linarith
    have h3 := hbest _ hf fun j hj => by
      obtain ⟨a, ha⟩ := hi j hj
      obtain ⟨b, hb⟩ := hDd j
      exact ⟨a + b, by rw [Pi.add_apply, Pi.smul_apply, smul_eq_mul, ha, hb]; push_cast; rfl⟩
    rw [dotProduct_add, dotProduct_smul, smul_eq_mul] at h3
    have h4 : 0 < (D : ℚ) * (c ⬝ᵥ d) := mul_pos (by exact_mod_cast hD) hpos
    linarith

end Floating
end Pytimize
