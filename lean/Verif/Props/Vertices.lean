/-
Property C151: the answers of `simplex`, `two_phase_simplex` and `solve` are vertices, and when they are the only ones
(`pytimize/programs/_linear.py:905-1111`).
-/
import Verif.Props.Restart
import Verif.Props.Solve
import Verif.LP.Minors

namespace Pytimize
namespace Props
open LinProg Comparator

variable {m n : ℕ}

/-- `x` is not strictly between two different feasible points. -/
def NotBetween (P : LP m n) (x : Fin n → ℚ) : Prop :=
  ∀ u v : Fin n → ℚ, ∀ t : ℚ, Feas P u → Feas P v → 0 < t → t < 1 → (∀ j, x j = t * u j + (1 - t) * v j) → u = x ∧ v = x

/-- A vertex (extreme point) of the feasible region. -/
def IsVertex (P : LP m n) (x : Fin n → ℚ) : Prop := Feas P x ∧ NotBetween P x

theorem zero_of_between {t a b : ℚ} (h0 : 0 < t) (h1 : t < 1) (ha : 0 ≤ a) (hb : 0 ≤ b) (h : 0 = t * a + (1 - t) * b) :
    a = 0 ∧ b = 0 := by
  have h2 := mul_nonneg h0.le ha
  have h3 := mul_nonneg (sub_nonneg.mpr h1.le) hb
  have h4 : t * a = 0 := by linarith
  have h5 : (1 - t) * b = 0 := by linarith
  exact ⟨(mul_eq_zero.mp h4).resolve_left h0.ne', (mul_eq_zero.mp h5).resolve_left (sub_pos.mpr h1).ne'⟩

theorem sol_notBetween {P : LP m n} (hP : WF P) (hs : P.isSef = true) {D : Fin m → Fin n} (hn : Nonsing P D) :
    NotBetween P (sol P D) := by
  intro u v t hu hv h0 h1 h
  rw [feas_sef_iff hP hs] at hu hv
  have hz : ∀ j, (∀ i, D i ≠ j) → u j = 0 ∧ v j = 0 := fun j hj =>
    zero_of_between h0 h1 (hu.2 j) (hv.2 j) (by rw [← h j, sol_off hn hj])
  exact ⟨sol_unique hn hu.1 fun j hj => (hz j hj).1, sol_unique hn hv.1 fun j hj => (hz j hj).2⟩

/-- C151: a solution returned by `simplex` is not strictly between two different feasible points, whatever the
tolerances; it is zero outside the basis, which has one column per row. -/
theorem C151_simplex {fuel : ℕ} {P : LP m n} (hP : WF P) {basis l : List ℤ} {x : Fin n → ℚ} {y : Fin m → ℚ}
    (h : (simplex fuel P basis).1 = .ok (.optimal x l y)) :
    NotBetween P x ∧ (∀ j : Fin n, ((j : ℕ) : ℤ) + 1 ∉ l → x j = 0) ∧ l.length = m ∧
      (Finset.univ.filter fun j => x j ≠ 0).card ≤ m := by
  obtain ⟨hm, hs, D, hD, hd, rfl, rfl, rfl, -, -⟩ := simplex_optimal h
  have hn := isBasis_nonsing hd
  have hl := toArrayIndexing_eq_iff.mp (toArrayIndexing_succ (colsList D))
  refine ⟨sol_notBetween hP hs hn, fun j hj => sol_off hn fun i hi => hj ((Lists.mem hl j).mpr ⟨i, hi⟩),
    by simp [length_colsList], ?_⟩
  calc (Finset.univ.filter fun j => sol P D j ≠ 0).card ≤ (Finset.univ.image D).card := by
        refine Finset.card_le_card fun j hj => ?_
        rw [Finset.mem_filter] at hj
        by_contra hno
        refine hj.2 (sol_off hn fun i hi => hno ?_)
        rw [← hi]
        exact Finset.mem_image_of_mem _ (Finset.mem_univ _)
    _ ≤ (Finset.univ : Finset (Fin m)).card := Finset.card_image_le
    _ = m := by simp

/-- C151: the same for `two_phase_simplex`. -/
theorem C151_two_phase {fuel : ℕ} {P : LP m n} (hP : WF P) {l : List ℤ} {x : Fin n → ℚ} {y : Fin m → ℚ}
    (h : (twoPhase fuel P).1 = .ok (.optimal x l y)) :
    NotBetween P x ∧ (∀ j : Fin n, ((j : ℕ) : ℤ) + 1 ∉ l → x j = 0) ∧ l.length = m ∧
      (Finset.univ.filter fun j => x j ≠ 0).card ≤ m := by
  obtain ⟨basis, hb⟩ := twoPhase_solution h
  exact C151_simplex hP hb

/-- C151: for programs clear of the tolerances the solution is a vertex. -/
theorem C151_vertex {fuel : ℕ} {P : LP m n} (hP : WF P) (he : Exact P) {basis l : List ℤ} {x : Fin n → ℚ} {y : Fin m → ℚ}
    (h : (simplex fuel P basis).1 = .ok (.optimal x l y)) : IsVertex P x :=
  ⟨(C38_exact_partial fuel P hP he basis l x y h).1, (C151_simplex hP h).1⟩

/-- C151: if `simplex` reports an unbounded program with `x` and `d`, then `x` is not between two different feasible
points and the points `x + t d` are an edge: whatever feasible points such a point is between lie on the same line. -/
theorem C151_edge {fuel : ℕ} {P : LP m n} (hP : WF P) {basis : List ℤ} {x d : Fin n → ℚ}
    (h : (simplex fuel P basis).1 = .ok (.unbounded x d)) :
    NotBetween P x ∧ ∀ (a : ℚ) (u v : Fin n → ℚ) (t : ℚ), Feas P u → Feas P v → 0 < t → t < 1 →
      (∀ j, x j + a * d j = t * u j + (1 - t) * v j) → (∃ a, ∀ j, u j = x j + a * d j) ∧ ∃ a, ∀ j, v j = x j + a * d j := by
  obtain ⟨hm, hs, D, k, hD, hd, rfl, rfl, hk, -⟩ := simplex_unbounded h
  have hn := isBasis_nonsing hd
  refine ⟨sol_notBetween hP hs hn, fun a u v t hu hv h0 h1 h => ?_⟩
  rw [feas_sef_iff hP hs] at hu hv
  have key : ∀ w : Fin n → ℚ, P.A.mulVec w = P.b → (∀ j, (∀ i, D i ≠ j) → j ≠ k → w j = 0) →
      ∀ j, w j = sol P D j + w k * rayOf D (canon P D) k j := by
    intro w hw hz
    have hker : P.A.mulVec (w - sol P D - w k • rayOf D (canon P D) k) = 0 := by
      rw [Matrix.mulVec_sub, Matrix.mulVec_sub, Matrix.mulVec_smul, hw, sol_eq hn, rayOf_ker hn hk, smul_zero, sub_self,
        sub_zero]
    have := ker_unique hn hker fun j hj => by
      by_cases hjk : j = k
      · subst hjk
        simp [sol_off hn hj, rayOf_self]
      · simp [sol_off hn hj, rayOf_off hn hj hjk, hz j hj hjk]
    intro j
    have hj := congrFun this j
    simp only [Pi.sub_apply, Pi.smul_apply, smul_eq_mul, Pi.zero_apply] at hj
    linarith
  have hz : ∀ j, (∀ i, D i ≠ j) → j ≠ k → u j = 0 ∧ v j = 0 := fun j hj hjk =>
    zero_of_between h0 h1 (hu.2 j) (hv.2 j) (by rw [← h j, sol_off hn hj, rayOf_off hn hj hjk]; ring)
  exact ⟨⟨u k, key u hu.1 fun j hj hjk => (hz j hj hjk).1⟩, ⟨v k, key v hv.1 fun j hj hjk => (hz j hj hjk).2⟩⟩

theorem reduced_eq (P : LP m n) (D : Fin m → Fin n) (j : Fin n) :
    (canon P D).c j = P.c j - ∑ i, mult P D i * P.A i j := by
  rw [canon_c]; rfl

/-- C151: if every column outside the basis has a negative reduced cost, the solution is the only best one: every other
feasible point is worse. -/
theorem C151_unique {fuel : ℕ} {P : LP m n} (hP : WF P) {basis l : List ℤ} {x : Fin n → ℚ} {y : Fin m → ℚ}
    (h : (simplex fuel P basis).1 = .ok (.optimal x l y))
    (hc : ∀ j : Fin n, ((j : ℕ) : ℤ) + 1 ∉ l → P.c j - ∑ i, y i * P.A i j < 0) (x' : Fin n → ℚ) (hx' : Feas P x')
    (hne : x' ≠ x) : objVal P x' < objVal P x := by
  obtain ⟨hm, hs, D, hD, hd, rfl, rfl, rfl, -, -⟩ := simplex_optimal h
  have hn := isBasis_nonsing hd
  have hl := toArrayIndexing_eq_iff.mp (toArrayIndexing_succ (colsList D))
  rw [feas_sef_iff hP hs] at hx'
  have hneg : ∀ j, (∀ i, D i ≠ j) → (canon P D).c j < 0 := fun j hj => by
    rw [reduced_eq]
    exact hc j fun hmem => by
      obtain ⟨i, hi⟩ := (Lists.mem hl j).mp hmem
      exact hj i hi
  have hle : ∀ j, (canon P D).c j * x' j ≤ 0 := fun j => by
    by_cases hj : ∀ i, D i ≠ j
    · exact mul_nonpos_of_nonpos_of_nonneg (hneg j hj).le (hx'.2 j)
    · push Not at hj
      obtain ⟨i, rfl⟩ := hj
      rw [canon_c_basic hn, zero_mul]
  have hex : ∃ j, (canon P D).c j * x' j < 0 := by
    by_contra hno
    push Not at hno
    refine hne (sol_unique hn hx'.1 fun j hj => ?_)
    have : (canon P D).c j * x' j = 0 := le_antisymm (hle j) (hno j)
    exact (mul_eq_zero.mp this).resolve_left (hneg j hj).ne
  have hsum : (canon P D).c ⬝ᵥ x' < 0 := by
    obtain ⟨j, hj⟩ := hex
    exact Finset.sum_neg' (fun j _ => hle j) ⟨j, Finset.mem_univ _, hj⟩
  rw [← canon_objVal (B := D) hx'.1, objVal_sol hn]
  unfold objVal
  rw [canon_z]
  linarith

/-- C151: what every other feasible point is worth: the value of the solution and, for each column, its reduced cost times
the entry. -/
theorem C151_value {fuel : ℕ} {P : LP m n} (hP : WF P) {basis l : List ℤ} {x : Fin n → ℚ} {y : Fin m → ℚ}
    (h : (simplex fuel P basis).1 = .ok (.optimal x l y)) (x' : Fin n → ℚ) (hx' : Feas P x') :
    objVal P x' = objVal P x + ∑ j, (P.c j - ∑ i, y i * P.A i j) * x' j := by
  obtain ⟨hm, hs, D, hD, hd, rfl, rfl, rfl, -, -⟩ := simplex_optimal h
  have hn := isBasis_nonsing hd
  rw [feas_sef_iff hP hs] at hx'
  rw [← canon_objVal (B := D) hx'.1, objVal_sol hn]
  unfold objVal
  rw [canon_z]
  simp only [dotProduct, reduced_eq]
  ring

/-- C151: all best points. If no reduced cost is positive, a feasible point is as good as the solution exactly if it is zero
wherever the reduced cost is negative. -/
theorem C151_face {fuel : ℕ} {P : LP m n} (hP : WF P) {basis l : List ℤ} {x : Fin n → ℚ} {y : Fin m → ℚ}
    (h : (simplex fuel P basis).1 = .ok (.optimal x l y)) (hc : ∀ j, P.c j - ∑ i, y i * P.A i j ≤ 0)
    (x' : Fin n → ℚ) (hx' : Feas P x') :
    objVal P x' ≤ objVal P x ∧
      (objVal P x' = objVal P x ↔ ∀ j, P.c j - ∑ i, y i * P.A i j < 0 → x' j = 0) := by
  have hv := C151_value hP h x' hx'
  obtain ⟨hm, hs, -⟩ := simplex_optimal h
  have h0 := ((feas_sef_iff hP hs).mp hx').2
  have hle : ∀ j, (P.c j - ∑ i, y i * P.A i j) * x' j ≤ 0 := fun j => mul_nonpos_of_nonpos_of_nonneg (hc j) (h0 j)
  refine ⟨by linarith [Finset.sum_nonpos fun j (_ : j ∈ Finset.univ) => hle j], ?_⟩
  rw [hv, add_eq_left, Finset.sum_eq_zero_iff_of_nonpos fun j _ => hle j]
  constructor
  · intro hz j hj
    exact (mul_eq_zero.mp (hz j (Finset.mem_univ j))).resolve_left hj.ne
  · intro hz j _
    rcases (hc j).lt_or_eq with hj | hj
    · rw [hz j hj, mul_zero]
    · rw [hj, zero_mul]

/-- C151, the converse: if all entries in the basis are positive and some column outside the basis has a reduced cost
that is not negative, there is another feasible point that is at least as good. -/
theorem C151_not_unique {fuel : ℕ} {P : LP m n} (hP : WF P) {basis l : List ℤ} {x : Fin n → ℚ} {y : Fin m → ℚ}
    (h : (simplex fuel P basis).1 = .ok (.optimal x l y))
    (hpos : ∀ j : Fin n, ((j : ℕ) : ℤ) + 1 ∈ l → 0 < x j) (k : Fin n) (hk : ((k : ℕ) : ℤ) + 1 ∉ l)
    (hc : 0 ≤ P.c k - ∑ i, y i * P.A i k) : ∃ x', Feas P x' ∧ x' ≠ x ∧ objVal P x ≤ objVal P x' := by
  obtain ⟨hm, hs, D, hD, hd, rfl, rfl, rfl, -, -⟩ := simplex_optimal h
  have hn := isBasis_nonsing hd
  have hl := toArrayIndexing_eq_iff.mp (toArrayIndexing_succ (colsList D))
  have hkD : ∀ i, D i ≠ k := fun i hi => hk ((Lists.mem hl k).mpr ⟨i, hi⟩)
  have hposD : ∀ i, 0 < sol P D (D i) := fun i => hpos _ ((Lists.mem hl _).mpr ⟨i, rfl⟩)
  -- a step that keeps every entry in the basis nonnegative
  obtain ⟨t, ht, hstep⟩ : ∃ t : ℚ, 0 < t ∧ ∀ i, 0 ≤ sol P D (D i) + t * rayOf D (canon P D) k (D i) := by
    have hfin : ∀ S : Finset (Fin m), ∃ t : ℚ, 0 < t ∧ ∀ t', 0 ≤ t' → t' ≤ t → ∀ i ∈ S,
        0 ≤ sol P D (D i) + t' * rayOf D (canon P D) k (D i) := by
      intro S
      induction S using Finset.induction_on with
      | empty => exact ⟨1, one_pos, fun _ _ _ i hi => by simp at hi⟩
      | insert a S _ ih =>
        obtain ⟨t, ht, hS⟩ := ih
        have hr : (0 : ℚ) < |rayOf D (canon P D) k (D a)| + 1 := by positivity
        refine ⟨min t (sol P D (D a) / (|rayOf D (canon P D) k (D a)| + 1)), lt_min ht (div_pos (hposD a) hr),
          fun t' h0 h1 i hi => ?_⟩
        rcases Finset.mem_insert.mp hi with rfl | hi
        · have h2 := h1.trans (min_le_right _ _)
          rw [le_div_iff₀ hr] at h2
          have h3 : t' * -|rayOf D (canon P D) k (D i)| ≤ t' * rayOf D (canon P D) k (D i) :=
            mul_le_mul_of_nonneg_left (neg_abs_le _) h0
          nlinarith
        · exact hS t' h0 (h1.trans (min_le_left _ _)) i hi
    obtain ⟨t, ht, hS⟩ := hfin Finset.univ
    exact ⟨t, ht, fun i => hS t ht.le le_rfl i (Finset.mem_univ _)⟩
  refine ⟨fun j => sol P D j + t * rayOf D (canon P D) k j, (feas_sef_iff hP hs).mpr ⟨?_, fun j => ?_⟩, fun he => ?_, ?_⟩
  · show P.A.mulVec (sol P D + t • rayOf D (canon P D) k) = _
    rw [Matrix.mulVec_add, Matrix.mulVec_smul, rayOf_ker hn hkD, smul_zero, add_zero, sol_eq hn]
  · by_cases hj : ∀ i, D i ≠ j
    · by_cases hjk : j = k
      · subst hjk
        simp only [sol_off hn hj, rayOf_self]
        linarith
      · simp only [sol_off hn hj, rayOf_off hn hj hjk]
        simp
    · push Not at hj
      obtain ⟨i, rfl⟩ := hj
      exact hstep i
  · have := congrFun he k
    simp only [rayOf_self] at this
    linarith
  · have hcost := rayOf_cost hn hkD
    have hck : 0 ≤ (canon P D).c k := by rw [reduced_eq]; exact hc
    show P.c ⬝ᵥ sol P D + P.z ≤ P.c ⬝ᵥ (sol P D + t • rayOf D (canon P D) k) + P.z
    rw [dotProduct_add, dotProduct_smul, hcost, smul_eq_mul]
    have := mul_nonneg ht.le hck
    linarith

/-- C151: for solutions without zeros in the basis: the solution is the only best feasible point iff every column outside
the basis has a negative reduced cost. -/
theorem C151_unique_iff {fuel : ℕ} {P : LP m n} (hP : WF P) {basis l : List ℤ} {x : Fin n → ℚ} {y : Fin m → ℚ}
    (h : (simplex fuel P basis).1 = .ok (.optimal x l y))
    (hpos : ∀ j : Fin n, ((j : ℕ) : ℤ) + 1 ∈ l → 0 < x j) :
    (∀ x', Feas P x' → x' ≠ x → objVal P x' < objVal P x) ↔
      ∀ j : Fin n, ((j : ℕ) : ℤ) + 1 ∉ l → P.c j - ∑ i, y i * P.A i j < 0 := by
  constructor
  · intro hu j hj
    by_contra hc
    obtain ⟨x', h1, h2, h3⟩ := C151_not_unique hP h hpos j hj (not_lt.mp hc)
    exact absurd (hu x' h1 h2) (not_lt.mpr h3)
  · exact fun hc x' hx' hne => C151_unique hP h hc x' hx' hne

/-- C151: if no entry in the basis is zero, the certificate is the only best feasible point of the dual: every other one is
worse. -/
theorem C151_certificate {fuel : ℕ} {P : LP m n} (hP : WF P) {basis l : List ℤ} {x : Fin n → ℚ} {y : Fin m → ℚ}
    (h : (simplex fuel P basis).1 = .ok (.optimal x l y))
    (hpos : ∀ j : Fin n, ((j : ℕ) : ℤ) + 1 ∈ l → 0 < x j) (y' : Fin m → ℚ) (hy' : Feas (dual P) y') (hne : y' ≠ y) :
    objVal (dual P) y < objVal (dual P) y' := by
  obtain ⟨hm, hs, D, hD, hd, rfl, rfl, rfl, -, -⟩ := simplex_optimal h
  have hn := isBasis_nonsing hd
  have hl := toArrayIndexing_eq_iff.mp (toArrayIndexing_succ (colsList D))
  obtain ⟨-, hf, hneg, ho⟩ := hP.isSef_iff.mp hs
  have hpD : ∀ i, 0 < sol P D (D i) := fun i => hpos _ ((Lists.mem hl _).mpr ⟨i, rfl⟩)
  have hge : ∀ j, P.c j ≤ (P.A.vecMul y') j := fun j => by
    have e : (dual P).ineq j = .ge := by simp [dual, hf, hneg, ho]
    have := hy'.rows j
    rw [e] at this
    have e' : ((dual P).A.mulVec y') j = (P.A.vecMul y') j := by simp [dual, Matrix.mulVec_transpose]
    rw [e'] at this
    exact this
  have hle : ∀ j, 0 ≤ ((P.A.vecMul y') j - P.c j) * sol P D j := fun j => by
    by_cases hj : ∀ i, D i ≠ j
    · rw [sol_off hn hj, mul_zero]
    · push Not at hj
      obtain ⟨i, rfl⟩ := hj
      exact mul_nonneg (sub_nonneg.mpr (hge _)) (hpD i).le
  have hex : ∃ j, 0 < ((P.A.vecMul y') j - P.c j) * sol P D j := by
    by_contra hno
    push Not at hno
    apply hne
    have h1 : (colSel P.A D).vecMul y' = (colSel P.A D).vecMul (mult P D) := by
      funext i
      have h0 := le_antisymm (hno (D i)) (hle (D i))
      have h2 := (mul_eq_zero.mp h0).resolve_right (hpD i).ne'
      have h3 := vecMul_mult hn i
      show (P.A.vecMul y') (D i) = (P.A.vecMul (mult P D)) (D i)
      linarith
    have := congrArg (fun v => (npInv (colSel P.A D)).vecMul v) h1
    simpa only [Matrix.vecMul_vecMul, mul_npInv hn, Matrix.vecMul_one] using this
  have hsum : 0 < ∑ j, ((P.A.vecMul y') j - P.c j) * sol P D j := by
    obtain ⟨j, hj⟩ := hex
    exact Finset.sum_pos' (fun j _ => hle j) ⟨j, Finset.mem_univ _, hj⟩
  have e1 : ∑ j, ((P.A.vecMul y') j - P.c j) * sol P D j = y' ⬝ᵥ P.b - P.c ⬝ᵥ sol P D := by
    rw [← sol_eq hn, Matrix.dotProduct_mulVec]
    simp only [sub_mul, Finset.sum_sub_distrib]
    rfl
  have e2 := objVal_sol hn
  unfold objVal at e2
  rw [e1] at hsum
  show P.b ⬝ᵥ mult P D + 0 < P.b ⬝ᵥ y' + 0
  rw [dotProduct_comm P.b, dotProduct_comm P.b]
  linarith

/-! ### `solve` -/

theorem slackVal_inj (q : Fin m → Ineq) (l : List (Fin m)) (hl : l.Nodup) (k : ℕ) (x y : ℕ → ℚ)
    (h : ∀ r, slackVal q l k x r = slackVal q l k y r) : ∀ j, k ≤ j → j < k + slackCount q l → x j = y j := by
  induction l generalizing k with
  | nil => intro j h1 h2; simp [slackCount] at h2; omega
  | cons i l ih =>
    have hi := (List.nodup_cons.mp hl).1
    by_cases hq : q i = .eq
    · have hcount : slackCount q (i :: l) = slackCount q l := by simp [slackCount, hq]
      rw [hcount]
      refine ih (List.nodup_cons.mp hl).2 k fun r => ?_
      have := h r
      simpa only [slackVal, if_pos hq] using this
    · have hcount : slackCount q (i :: l) = slackCount q l + 1 := by simp [slackCount, hq]
      rw [hcount]
      have hk : x k = y k := by
        have := h i
        simp only [slackVal, if_neg hq, if_true, slackVal_notMem q l (k + 1) _ i (Or.inl hi), add_zero] at this
        have hs : slackSign (q i) ≠ 0 := by cases hqi : q i <;> simp [slackSign, hqi] at hq ⊢
        exact mul_left_cancel₀ hs this
      have := ih (List.nodup_cons.mp hl).2 (k + 1) fun r => by
        have := h r
        simpa only [slackVal, if_neg hq, hk, add_right_inj] using this
      intro j h1 h2
      rcases Nat.eq_or_lt_of_le h1 with rfl | h1
      · exact hk
      · exact this j h1 (by omega)

theorem backN_nonfree {P : LP m n} (hP : WF P) (hf : P.free = []) (s : ℕ → ℚ) (j : ℕ) :
    backN P s j = if j ∈ P.neg then -s j else s j := by
  have hneg : P.neg.Nodup := hP.negSorted.imp (fun h => ne_of_lt h)
  unfold backN
  rw [negAt_foldl _ hneg, hf]
  rfl

/-- Without free variables a point of the converted program is determined by the point it stands for. -/
theorem sef_inj {P : LP m n} (hP : WF P) (hf : P.free = []) (hs : P.isSef = false) (s s' : Fin (toSef P).n → ℚ)
    (h1 : (toSef P).lp.A.mulVec s = P.b) (h2 : (toSef P).lp.A.mulVec s' = P.b)
    (h : ∀ j : Fin n, backN P (ext s) j = backN P (ext s') j) : s = s' := by
  have e : toSef P = ⟨(sefCols P).n,
      { A := fun r j => (sefCols P).A r j, b := P.b, c := fun j => (sefCols P).c j, z := P.z,
        objective := .max, ineq := fun _ => .eq, free := [], neg := [], isSef := true },
      some ⟨((List.finRange m).filter fun i => decide (P.ineq i ≠ .eq)).length,
        concatOf P.free 0, P.neg⟩⟩ := by simp [toSef, hs]
  revert s s'
  rw [e]
  intro s s' h1 h2 h
  have hdot : ∀ s : Fin (sefCols P).n → ℚ, ∀ r, dotN (sefCols P).n ((sefCols P).A r) (ext s) =
      Matrix.mulVec (fun r (j : Fin (sefCols P).n) => (sefCols P).A r j) s r := by
    intro s r
    show _ = (fun j : Fin (sefCols P).n => (sefCols P).A r j) ⬝ᵥ s
    rw [← dotN_ext]
    exact dotN_congr (fun j hj => (ext_ofNat _ _ _ hj).symm) fun _ _ => rfl
  have hback : (fun j : Fin n => backN P (ext s) j) = fun j : Fin n => backN P (ext s') j := funext h
  have hslack : ∀ r, slackVal P.ineq (List.finRange m) (n + P.free.length) (ext s) r =
      slackVal P.ineq (List.finRange m) (n + P.free.length) (ext s') r := by
    intro r
    have a1 := (sef_dot P hP (ext s)).1 r
    have a2 := (sef_dot P hP (ext s')).1 r
    rw [hdot] at a1 a2
    have b1 := congrFun h1 r
    have b2 := congrFun h2 r
    simp only at b1 b2
    rw [b1] at a1
    rw [b2] at a2
    rw [hback] at a1
    linarith
  have htail := slackVal_inj P.ineq _ (List.nodup_finRange m) _ _ _ hslack
  funext j
  have hj : (j : ℕ) < n + P.free.length + slackCount P.ineq (List.finRange m) := by
    rw [← sefCols_n]; exact j.2
  have hext : ∀ s : Fin (sefCols P).n → ℚ, ext s j = s j := fun s => by simp [ext]
  by_cases hjn : (j : ℕ) < n
  · have := h ⟨j, hjn⟩
    simp only [backN_nonfree hP hf] at this
    rw [hext, hext] at this
    split at this
    · linarith
    · exact this
  · have := htail j (by rw [hf]; simpa using hjn) hj
    rwa [hext, hext] at this

/-- C151, `solve`: without free variables the vector returned is not strictly between two different feasible points.
Missing: free variables (`C151_free_wrong`). -/
theorem C151_solve_partial {fuel : ℕ} {P : LP m n} (hP : WF P) (hf : P.free = []) {v : List ℚ}
    (h : solve fuel P = .ok (some v)) : ∃ x : Fin n → ℚ, v = List.ofFn x ∧ NotBetween P x := by
  obtain ⟨s, basis, l, y, hsim, rfl⟩ := solve_some h
  have hv := (C151_simplex hP.toSef hsim).1
  obtain ⟨hm, hsef, D, -, hd, hsol, -⟩ := simplex_optimal hsim
  have hA : (toSef P).lp.A.mulVec s = (toSef P).lp.b := by rw [hsol]; exact sol_eq (isBasis_nonsing hd)
  cases hs : P.isSef with
  | true =>
    have e : toSef P = ⟨n, P, none⟩ := by simp [toSef, hs]
    clear hsim hsol hd hA h
    revert s
    rw [e]
    exact fun s hv => ⟨s, rfl, hv⟩
  | false =>
    have hb : (toSef P).lp.b = P.b := toSef_b P
    rw [hb] at hA
    refine ⟨_, reverseSol_eq P hP hs s, fun u v t hu hv' h0 h1 hx => ?_⟩
    obtain ⟨su, hsu, rfl⟩ := sef_onto P hP hs u hu
    obtain ⟨sv, hsv, rfl⟩ := sef_onto P hP hs v hv'
    have fu := (feas_sef_iff hP.toSef hsef).mp hsu
    have fv := (feas_sef_iff hP.toSef hsef).mp hsv
    rw [hb] at fu fv
    have hw : s = t • su + (1 - t) • sv := by
      refine sef_inj hP hf hs _ _ hA ?_ fun j => ?_
      · rw [Matrix.mulVec_add, Matrix.mulVec_smul, Matrix.mulVec_smul, fu.1, fv.1, ← add_smul]
        simp
      · have hxj := hx j
        have hext : ext (t • su + (1 - t) • sv) (j : ℕ) = t * ext su (j : ℕ) + (1 - t) * ext sv (j : ℕ) := by
          unfold ext
          split <;> simp
        simp only [backN_nonfree hP hf] at hxj ⊢
        rw [hext]
        split at hxj
        · rename_i hmem
          rw [if_pos hmem, if_pos hmem]
          linarith
        · rename_i hmem
          rw [if_neg hmem, if_neg hmem]
          linarith
    obtain ⟨e1, e2⟩ := hv su sv t hsu hsv h0 h1 fun j => by
      have := congrFun hw j
      simpa using this
    rw [e1, e2]
    exact ⟨rfl, rfl⟩

/-- `max 0` subject to `x <= 1`, `-x <= 1`, with `x` free. -/
def segment : LP 2 1 := ⟨!![1; -1], ![1, 1], ![0], 0, .max, fun _ => .le, [0], [], false⟩

/-- C151: with free variables `solve` can return a point in the middle of the region, although the region has vertices. -/
theorem C151_free_wrong : WF segment ∧ solve 5 segment = .ok (some [0]) ∧ IsVertex segment ![1] ∧ ¬ NotBetween segment ![0] := by
  have hrow : ∀ x : Fin 1 → ℚ, Feas segment x ↔ x 0 ≤ 1 ∧ -1 ≤ x 0 := by
    intro x
    constructor
    · intro h
      have h0 := h.rows 0
      have h1 := h.rows 1
      simp [segment, rowHolds, Matrix.mulVec, dotProduct] at h0 h1
      exact ⟨h0, by linarith⟩
    · intro h
      refine ⟨fun r => ?_, fun j hj => by simp [segment] at hj, fun j _ hj => absurd hj ?_⟩
      · fin_cases r
        · simp [segment, rowHolds, Matrix.mulVec, dotProduct]; exact h.1
        · simp [segment, rowHolds, Matrix.mulVec, dotProduct]; linarith [h.2]
      · fin_cases j; simp [segment]
  refine ⟨⟨by decide, by decide, by decide, by decide, by decide, by decide⟩, by decide +kernel, ⟨?_, ?_⟩, ?_⟩
  · rw [hrow]; norm_num
  · intro u v t hu hv h0 h1 h
    rw [hrow] at hu hv
    have h' := h 0
    have e1 : u 0 = 1 := by
      by_contra hne
      have : u 0 < 1 := lt_of_le_of_ne hu.1 hne
      simp only [Matrix.cons_val_zero] at h'
      nlinarith [hv.1]
    have e2 : v 0 = 1 := by
      simp only [Matrix.cons_val_zero] at h'
      rw [e1] at h'
      have h3 : (1 - t) * (v 0 - 1) = 0 := by linarith
      rcases mul_eq_zero.mp h3 with h3 | h3 <;> linarith
    constructor <;> funext j <;> fin_cases j <;> simpa
  · intro h
    have := (h ![1] ![-1] (1 / 2) ((hrow _).mpr (by norm_num)) ((hrow _).mpr (by norm_num)) (by norm_num) (by norm_num)
      fun j => by fin_cases j; norm_num).1
    have := congrFun this 0
    norm_num at this

/-- A case where the best point is not the only one: the fourth column has reduced cost zero. -/
example : WF sample ∧ Exact sample ∧ (simplex 3 sample [3, 4]).1 = .ok (.optimal ![2, 2, 0, 0] [1, 2] ![1, 0]) ∧
    (∀ j : Fin 4, ((j : ℕ) : ℤ) + 1 ∈ ([1, 2] : List ℤ) → 0 < (![2, 2, 0, 0] : Fin 4 → ℚ) j) ∧
    0 ≤ sample.c 3 - ∑ i, (![1, 0] : Fin 2 → ℚ) i * sample.A i 3 ∧
    ∀ j : Fin 4, sample.c j - ∑ i, (![1, 0] : Fin 2 → ℚ) i * sample.A i j ≤ 0 :=
  ⟨⟨by decide, by decide, by decide, by decide, by decide, by decide⟩, exact_of_int sample_int (by norm_num),
    optOf_some (by decide +kernel), by decide +kernel, by decide +kernel, by decide +kernel⟩

/-- The same program with other costs. -/
def sampleUnique : LP 2 4 := { sample with c := ![3, 2, 0, 0] }

/-- ... and a case where it is. -/
example : WF sampleUnique ∧
    (simplex 3 sampleUnique [3, 4]).1 = .ok (.optimal ![2, 2, 0, 0] [1, 2] ![1, 1]) ∧
    (∀ j : Fin 4, ((j : ℕ) : ℤ) + 1 ∈ ([1, 2] : List ℤ) → 0 < (![2, 2, 0, 0] : Fin 4 → ℚ) j) ∧
    ∀ j : Fin 4, ((j : ℕ) : ℤ) + 1 ∉ ([1, 2] : List ℤ) →
      sampleUnique.c j - ∑ i, (![1, 1] : Fin 2 → ℚ) i * sampleUnique.A i j < 0 :=
  ⟨⟨by decide, by decide, by decide, by decide, by decide, by decide⟩, optOf_some (by decide +kernel), by decide +kernel,
    by decide +kernel⟩

/-- An unbounded answer. -/
example : ∃ P : LP 1 2, WF P ∧ (simplex 3 P [1]).1 = .ok (.unbounded ![1, 0] ![1, 1]) :=
  ⟨⟨!![1, -1], ![1], ![0, 1], 0, .max, fun _ => .eq, [], [], true⟩,
    ⟨by decide, by decide, by decide, by decide, by decide, by decide⟩, unbOf_some (by decide +kernel)⟩

end Props
end Pytimize
