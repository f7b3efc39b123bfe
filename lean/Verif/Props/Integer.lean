/-
Properties C58-C60: integer programs.
-/
import Verif.LP.IntegerProof

namespace Pytimize
namespace Props

open Comparator LinProg Matrix

variable {m n : ℕ}

/-! ### C58 -/

/-- C58: the relaxation of a constructed integer program is the linear program with the same data. -/
theorem C58_relax (A b c : PyVal) (z : ℚ) (objective : String) (inequalities : Option (List String))
    (free neg integral : Option (List ℤ)) (I : IntProgram)
    (h : intCtor A b c z objective inequalities free neg integral = .ok I) :
    relax I = .ok I.prog ∧ I.integral = integral ∧
      ArgsFor A b c z objective inequalities free neg I.prog := by
  unfold intCtor at h
  generalize hc : ctor A b c z objective inequalities free neg = r at h
  match r, h with
  | .ok p, h =>
    cases h
    exact ⟨relax_eq _ (ctor_wf hc), rfl, ctor_iff.mp hc⟩

/-- C58 for programs changed by later calls: every well-formed program is its own relaxation. -/
theorem C58_wf (I : IntProgram) (h : WF I.prog.lp) : relax I = .ok I.prog := relax_eq I h

/-- C58: the relaxation has exactly the same feasible points and objective values. -/
theorem C58_same (I : IntProgram) (h : WF I.prog.lp) (P : Prog) (hP : relax I = .ok P) :
    P.m = I.prog.m ∧ P.n = I.prog.n ∧ P.lp.inequalities = I.prog.lp.inequalities ∧
      P.lp.freeVariables = I.prog.lp.freeVariables ∧ P.lp.negativeVariables = I.prog.lp.negativeVariables ∧
      P.lp.positiveVariables = I.prog.lp.positiveVariables ∧ P.lp.z = I.prog.lp.z ∧
      P.lp.objective = I.prog.lp.objective ∧ HEq P.lp.A I.prog.lp.A ∧ HEq P.lp.b I.prog.lp.b ∧
      HEq P.lp.c I.prog.lp.c := by
  rw [relax_eq I h] at hP
  cases hP
  exact ⟨rfl, rfl, rfl, rfl, rfl, rfl, rfl, rfl, HEq.rfl, HEq.rfl, HEq.rfl⟩

/-- A concrete integer program. -/
example : ∃ I, intCtor (.list [.list [.num 1, .num 2]]) (.list [.num 3]) (.list [.num 1, .num (-1)]) 0 "min"
    (some [">="]) (some [2]) none (some [1]) = .ok I ∧ I.prog.lp.free = [1] := ⟨_, rfl, rfl⟩

/-! ### C59 -/

/-- The positions `branch_and_bound` makes integral: all of them, or those whose zero-based position is in the
list given by the user. -/
def Required (integral : Option (List ℤ)) (j : ℕ) : Prop := ∀ l, integral = some l → (j : ℤ) ∈ l

theorem looksAt_iff (integral : Option (List ℤ)) (j : ℕ) : looksAt integral j = true ↔ Required integral j := by
  cases integral <;> simp [looksAt, Required]

/-- `x` is integral where required. -/
def Integral (integral : Option (List ℤ)) (x : Fin n → ℚ) : Prop :=
  ∀ j : Fin n, Required integral j → ∃ k : ℤ, x j = k

theorem branch_near {sf : ℕ} {integral : Option (List ℤ)} : ∀ {fuel m n : ℕ} {Q : LP m n} {v : List ℚ} {q : ℚ},
    branch sf integral fuel ⟨m, n, Q⟩ = .ok (some (v, q)) →
      v.length = n ∧ ∀ j (h : j < v.length), Required integral j → ∃ k : ℤ, |v[j] - k| < 1 / 10 ^ 10 := by
  intro fuel
  induction fuel with
  | zero => intro m n Q v q h; simp [branch] at h
  | succ f ih =>
    intro m n Q v q h
    obtain ⟨f', hf, hcase⟩ := branch_ok h
    cases hf
    rcases hcase with ⟨_, h0⟩ | ⟨w, value, hs, hev, hcase⟩
    · cases h0
    · rcases hcase with ⟨hff, h0⟩ | ⟨pos, p, rl, rh, _, hl, hh, h0⟩
      · cases h0
        refine ⟨?_, fun j hj hr => ?_⟩
        · unfold evaluate toVec at hev
          by_contra hlen
          simp [hlen] at hev
        · rw [← C03_isInteger_iff]
          exact firstFractional_none hff j hj (by rw [Nat.zero_add]; exact (looksAt_iff _ _).mpr hr)
      · rcases betterOf_cases rl rh with h1 | h1
        · rw [h1] at h0; subst h0; exact ih hl
        · rw [h1] at h0; subst h0; exact ih hh

theorem bab_some {sf fuel : ℕ} {I : IntProgram} (hI : WF I.prog.lp) {v : List ℚ}
    (h : branchAndBound sf fuel I = .ok (some v)) :
    ∃ q, branch sf I.integral fuel ⟨I.prog.m, I.prog.n, I.prog.lp⟩ = .ok (some (v, q)) := by
  unfold branchAndBound at h
  rw [relax_eq I hI] at h
  simp only at h
  generalize hb : branch sf I.integral fuel I.prog = r at h
  match r, h with
  | .ok (some (w, q)), h => cases h; exact ⟨q, rfl⟩

theorem bab_none {sf fuel : ℕ} {I : IntProgram} (hI : WF I.prog.lp)
    (h : branchAndBound sf fuel I = .ok none) :
    branch sf I.integral fuel ⟨I.prog.m, I.prog.n, I.prog.lp⟩ = .ok none := by
  unfold branchAndBound at h
  rw [relax_eq I hI] at h
  simp only at h
  generalize hb : branch sf I.integral fuel I.prog = r at h
  match r, h with
  | .ok none, h => rfl

/-- C59, integrality, for every program: a returned vector has the right length and the required entries are
within the tolerance of an integer. Missing: integrality without tolerance (`C59_partial`) and feasibility. -/
theorem C59_near_partial (sf fuel : ℕ) (I : IntProgram) (hI : WF I.prog.lp) (v : List ℚ)
    (h : branchAndBound sf fuel I = .ok (some v)) :
    v.length = I.prog.n ∧
      ∀ j (hj : j < v.length), Required I.integral j → ∃ k : ℤ, |v[j] - k| < 1 / 10 ^ 10 := by
  obtain ⟨q, hq⟩ := bab_some hI h
  exact branch_near hq

theorem pos_of_frac {integral : Option (List ℤ)} {x : Fin n → ℚ} {pos : ℕ} {q : ℚ}
    (h : firstFractional integral 0 (List.ofFn x) = some (pos, q)) :
    ∃ j : Fin n, pos = (j : ℕ) ∧ x j = q ∧ Required integral j ∧ isInteger q = false := by
  obtain ⟨j, hj, rfl, h2, h3, h4⟩ := firstFractional_some h
  rw [List.length_ofFn] at hj
  rw [List.getElem_ofFn] at h2
  rw [Nat.zero_add] at h3
  exact ⟨⟨j, hj⟩, by simp, h2, (looksAt_iff _ _).mp h3, h4⟩

theorem integral_of_none {integral : Option (List ℤ)} {x : Fin n → ℚ}
    (h : firstFractional integral 0 (List.ofFn x) = none) (j : Fin n) (hj : Required integral j) :
    isInteger (x j) = true := by
  have := firstFractional_none h j (by simp) (by rw [Nat.zero_add]; exact (looksAt_iff _ _).mpr hj)
  simpa using this

/-- Soundness of a subtree, given that the relaxations in it are solved correctly. -/
theorem branch_sound {sf : ℕ} {integral : Option (List ℤ)} {clear : Prop} :
    ∀ {fuel m n : ℕ} {Q : LP m n} {v : List ℚ} {q : ℚ}, WF Q → Q.neg = [] →
    (∀ R, Visits sf integral ⟨m, n, Q⟩ R → Exact (toSef R.lp).lp) →
    (clear → ∀ R, Visits sf integral ⟨m, n, Q⟩ R → ∀ x : Fin R.n → ℚ,
      solve sf R.lp = .ok (some (List.ofFn x)) → ∀ j, isInteger (x j) = true → ∃ k : ℤ, x j = k) →
    branch sf integral fuel ⟨m, n, Q⟩ = .ok (some (v, q)) →
    ∃ x : Fin n → ℚ, v = List.ofFn x ∧ Feas Q x ∧ (clear → Integral integral x) ∧ objVal Q x = q := by
  intro fuel
  induction fuel with
  | zero => intro m n Q v q _ _ _ _ h; simp [branch] at h
  | succ f ih =>
    intro m n Q v q hQ hneg hvis hclear h
    obtain ⟨f', hf, hcase⟩ := branch_ok h
    cases hf
    rcases hcase with ⟨_, h0⟩ | ⟨w, value, hs, hev, hcase⟩
    · cases h0
    · obtain ⟨x, rfl, hx⟩ := C44_sound_partial sf Q hQ (hvis ⟨m, n, Q⟩ Relation.ReflTransGen.refl) w hs
      rcases hcase with ⟨hff, h0⟩ | ⟨pos, p, rl, rh, hff, hl, hh, h0⟩
      · cases h0
        refine ⟨x, rfl, hx.1, fun hc j hj => ?_, ?_⟩
        · exact hclear hc ⟨m, n, Q⟩ Relation.ReflTransGen.refl x hs j (integral_of_none hff j hj)
        · simpa only [evaluate, toVec_ofFn, Except.ok.injEq, objVal] using hev
      · obtain ⟨j, rfl, rfl, _, _⟩ := pos_of_frac hff
        have hsub : ∀ {op k} {y : Fin n → ℚ}, Feas (child Q j op k) y → Feas Q y := by
          intro op k y hy
          rw [feas_child] at hy
          exact ⟨hy.1, fun i hi => by simp [hneg] at hi, fun i _ _ => hy.2.2 i⟩
        rcases betterOf_cases rl rh with h1 | h1
        · rw [h1] at h0; subst h0
          have hch := IsChild.lower (integral := integral) hs hff
          obtain ⟨y, rfl, hy, hy', hq⟩ := ih (child_wf _ _ _ _) rfl
            (fun R hR => hvis R (Relation.ReflTransGen.head hch hR))
            (fun hc R hR => hclear hc R (Relation.ReflTransGen.head hch hR)) hl
          exact ⟨y, rfl, hsub hy, hy', hq⟩
        · rw [h1] at h0; subst h0
          have hch := IsChild.upper (integral := integral) hs hff
          obtain ⟨y, rfl, hy, hy', hq⟩ := ih (child_wf _ _ _ _) rfl
            (fun R hR => hvis R (Relation.ReflTransGen.head hch hR))
            (fun hc R hR => hclear hc R (Relation.ReflTransGen.head hch hR)) hh
          exact ⟨y, rfl, hsub hy, hy', hq⟩

/-- C59, feasibility, for programs without nonpositive variables all of whose relaxations stay clear of the
tolerances of the simplex method. Missing: exactly these two restrictions (`C59_sign_wrong`). -/
theorem C59_feasible_partial (sf fuel : ℕ) (I : IntProgram) (hI : WF I.prog.lp) (hneg : I.prog.lp.neg = [])
    (hvis : ∀ R, Visits sf I.integral I.prog R → Exact (toSef R.lp).lp) (v : List ℚ)
    (h : branchAndBound sf fuel I = .ok (some v)) :
    ∃ x : Fin I.prog.n → ℚ, v = List.ofFn x ∧ Feas I.prog.lp x := by
  obtain ⟨q, hq⟩ := bab_some hI h
  obtain ⟨x, h1, h2, _⟩ := branch_sound (clear := False) hI hneg hvis (fun hc => hc.elim) hq
  exact ⟨x, h1, h2⟩

theorem visits_wf {sf : ℕ} {integral : Option (List ℤ)} {P R : Prog} (hP : WF P.lp)
    (h : Visits sf integral P R) : WF R.lp := by
  induction h with
  | refl => exact hP
  | tail _ h _ => cases h <;> exact child_wf _ _ _ _

/-- C59 for integer programs without nonpositive variables whose relaxations have integer data and moderate
subdeterminants: a returned vector is feasible and integral, without tolerance. Missing: nonpositive variables
(`C59_sign_wrong`), the indexing of the list of integral variables (`C59_index_wrong`), large numbers. -/
theorem C59_partial (sf fuel : ℕ) (I : IntProgram) (hI : WF I.prog.lp) (hneg : I.prog.lp.neg = [])
    (hvis : ∀ R, Visits sf I.integral I.prog R → ∃ K L : ℕ, IntData (toSef R.lp).lp K L ∧
      (K : ℚ) * K / 10 ^ 8 + (K : ℚ) * L / 10 ^ 5 < 1) (v : List ℚ)
    (h : branchAndBound sf fuel I = .ok (some v)) :
    ∃ x : Fin I.prog.n → ℚ, v = List.ofFn x ∧ Feas I.prog.lp x ∧ Integral I.integral x := by
  obtain ⟨q, hq⟩ := bab_some hI h
  obtain ⟨x, h1, h2, h3, _⟩ := branch_sound (clear := True) hI hneg
    (fun R hR => by obtain ⟨K, L, hi, hKL⟩ := hvis R hR; exact exact_of_int hi hKL)
    (fun _ R hR x hx j hj => by
      obtain ⟨K, L, hi, hKL⟩ := hvis R hR
      refine solve_clear (visits_wf hI hR) hi ?_ hx j hj
      by_contra hlt
      push Not at hlt
      have hlt' : (10 : ℚ) ^ 10 ≤ K := by exact_mod_cast hlt.le
      have h1 : (10 : ℚ) ^ 10 * 10 ^ 10 ≤ (K : ℚ) * K := by gcongr
      have h2 : (0 : ℚ) ≤ (K : ℚ) * L / 10 ^ 5 := by positivity
      have h3 : (10 : ℚ) ^ 10 * 10 ^ 10 / 10 ^ 8 ≤ (K : ℚ) * K / 10 ^ 8 := by gcongr
      norm_num at h2 h3 hKL
      linarith) hq
  exact ⟨x, h1, h2, h3 trivial⟩

/-! ### C60 -/

/-- Specification: `x` is a best integral point. -/
def BestIntegral (P : LP m n) (integral : Option (List ℤ)) (x : Fin n → ℚ) : Prop :=
  Feas P x ∧ Integral integral x ∧ ∀ y, Feas P y → Integral integral y →
    (P.objective = .max → objVal P y ≤ objVal P x) ∧ (P.objective = .min → objVal P x ≤ objVal P y)

/-- What is assumed about a node: the relaxation is one `solve` handles, and its solution has no entry that is
an integer only up to the tolerance. -/
structure NodeClear (sf : ℕ) (P : LP m n) : Prop where
  ok : NodeOk sf P
  clear : ∀ x : Fin n → ℚ, solve sf P = .ok (some (List.ofFn x)) → ∀ j, isInteger (x j) = true →
    ∃ k : ℤ, x j = k

/-- A nonnegative multiple of a rational direction is integral. -/
theorem exists_multiple (d : Fin n → ℚ) : ∃ N : ℕ, 0 < N ∧ ∀ j, ∃ k : ℤ, (N : ℚ) * d j = k := by
  refine ⟨∏ j, (d j).den, Finset.prod_pos fun j _ => (d j).den_pos, fun j => ?_⟩
  refine ⟨(∏ i ∈ Finset.univ.erase j, ((d i).den : ℤ)) * (d j).num, ?_⟩
  rw [← Finset.mul_prod_erase Finset.univ _ (Finset.mem_univ j)]
  push_cast
  have : ((d j).den : ℚ) * d j = (d j).num := Rat.den_mul_eq_num _
  rw [mul_comm ((d j).den : ℚ), mul_assoc, this]

/-- With an improving ray there is no best integral point. -/
theorem ray_no_best {P : LP m n} (h : Ray P) (integral : Option (List ℤ)) :
    ¬ ∃ x, BestIntegral P integral x := by
  rintro ⟨x, hx, hxi, hbest⟩
  obtain ⟨x0, d, h1, h2, h3⟩ := h
  obtain ⟨N, hN, hd⟩ := exists_multiple d
  have hN' : (0 : ℚ) < N := by exact_mod_cast hN
  have hy := Ray.shift h1 hx hN'.le
  have hyi : Integral integral (x + (N : ℚ) • d) := by
    intro j hj
    obtain ⟨k, hk⟩ := hxi j hj
    obtain ⟨l, hl⟩ := hd j
    refine ⟨k + l, ?_⟩
    simp only [Pi.add_apply, Pi.smul_apply, smul_eq_mul]
    rw [hk, hl]
    push_cast
    rfl
  have hval : objVal P (x + (N : ℚ) • d) = objVal P x + N * (P.c ⬝ᵥ d) := by
    unfold objVal
    rw [dotProduct_add, dotProduct_smul, smul_eq_mul]
    ring
  have := hbest _ hy hyi
  rw [hval] at this
  cases ho : P.objective with
  | max =>
    have h4 := this.1 ho
    have h5 := mul_pos hN' (h2 ho)
    linarith
  | min =>
    have h4 := this.2 ho
    have h5 := mul_pos hN' (neg_pos.mpr (h3 ho))
    linarith

/-- An integral point lies in one of the two children. -/
theorem split_integral {Q : LP m n} (hpos : Q.free = [] ∧ Q.neg = []) {j : Fin n} {q : ℚ} {y : Fin n → ℚ}
    (hy : Feas Q y) (hi : ∃ k : ℤ, y j = k) :
    Feas (child Q j .le (⌊q⌋ : ℤ)) y ∨ Feas (child Q j .ge (⌈q⌉ : ℤ)) y := by
  have h0 : ∀ j, 0 ≤ y j := fun j => hy.poss j (by simp [hpos.2]) (by simp [hpos.1])
  obtain ⟨k, hk⟩ := hi
  rcases le_or_gt (k : ℚ) q with h | h
  · left
    rw [feas_child]
    refine ⟨hy.rows, ?_, h0⟩
    simp only [rowHolds]
    rw [hk]
    exact_mod_cast Int.le_floor.mpr h
  · right
    rw [feas_child]
    refine ⟨hy.rows, ?_, h0⟩
    simp only [rowHolds]
    rw [hk]
    exact_mod_cast Int.ceil_le.mpr h.le

/-- Correctness of a subtree of a maximisation program with nonnegative variables. -/
theorem branch_best {sf : ℕ} {integral : Option (List ℤ)} :
    ∀ {fuel m n : ℕ} {Q : LP m n} {r : Option (List ℚ × ℚ)}, WF Q → Q.objective = .max →
    (Q.free = [] ∧ Q.neg = []) →
    (∀ R, Visits sf integral ⟨m, n, Q⟩ R → NodeClear sf R.lp) →
    branch sf integral fuel ⟨m, n, Q⟩ = .ok r →
    (∀ v q, r = some (v, q) → ∃ x : Fin n → ℚ, v = List.ofFn x ∧ BestIntegral Q integral x ∧ objVal Q x = q) ∧
      (r = none → (∀ y, Feas Q y → ¬ Integral integral y) ∨ Ray Q) := by
  intro fuel
  induction fuel with
  | zero => intro m n Q r _ _ _ _ h; simp [branch] at h
  | succ f ih =>
    intro m n Q r hQ hmax hpos hvis h
    obtain ⟨f', hf, hcase⟩ := branch_ok h
    cases hf
    have hnode : NodeClear sf Q := hvis ⟨m, n, Q⟩ Relation.ReflTransGen.refl
    rcases hcase with ⟨hs, rfl⟩ | ⟨w, value, hs, hev, hcase⟩
    · refine ⟨fun v q h0 => (by cases h0), fun _ => ?_⟩
      rcases solve_cases hQ hnode.ok with ⟨x, hx, _⟩ | h1 | h1
      · rw [hs] at hx; cases hx
      · exact Or.inl fun y hy _ => h1 ⟨y, hy⟩
      · exact Or.inr h1
    · obtain ⟨x, rfl, hx⟩ := C44_sound_partial sf Q hQ hnode.ok.exact w hs
      have hval : objVal Q x = value := by
        simpa only [evaluate, toVec_ofFn, Except.ok.injEq, objVal] using hev
      rcases hcase with ⟨hff, rfl⟩ | ⟨pos, p, rl, rh, hff, hl, hh, rfl⟩
      · refine ⟨fun v q h0 => ?_, fun h0 => by cases h0⟩
        cases h0
        exact ⟨x, rfl, ⟨hx.1, fun j hj => hnode.clear x hs j (integral_of_none hff j hj),
          fun y hy _ => hx.2 y hy⟩, hval⟩
      · obtain ⟨j, rfl, rfl, hreq, _⟩ := pos_of_frac hff
        have hsub : ∀ {op k} {y : Fin n → ℚ}, Feas (child Q j op k) y → Feas Q y := by
          intro op k y hy
          rw [feas_child] at hy
          exact ⟨hy.1, fun i hi => by simp [hpos.2] at hi, fun i _ _ => hy.2.2 i⟩
        have hnoray : ∀ {op k}, ¬ Ray (child Q j op k) := by
          rintro op k ⟨x0, d, h1, h2, _⟩
          have hd : 0 < Q.c ⬝ᵥ d := h2 hmax
          have hb := fun t ht => (hx.2 _ (hsub (h1 t ht))).1 hmax
          have hv : ∀ t : ℚ, objVal Q (x0 + t • d) = objVal Q x0 + t * (Q.c ⬝ᵥ d) := by
            intro t
            unfold objVal
            rw [dotProduct_add, dotProduct_smul, smul_eq_mul]
            ring
          have := hb ((|objVal Q x - objVal Q x0| + 1) / (Q.c ⬝ᵥ d)) (by positivity)
          rw [hv, div_mul_cancel₀ _ (ne_of_gt hd)] at this
          have := le_abs_self (objVal Q x - objVal Q x0)
          linarith
        have hl' := ih (child_wf _ _ _ _) hmax ⟨rfl, rfl⟩
          (fun R hR => hvis R (Relation.ReflTransGen.head (IsChild.lower hs hff) hR)) hl
        have hh' := ih (child_wf _ _ _ _) hmax ⟨rfl, rfl⟩
          (fun R hR => hvis R (Relation.ReflTransGen.head (IsChild.upper hs hff) hR)) hh
        have hnl : rl = none → ∀ y, Feas (child Q j .le (⌊x j⌋ : ℤ)) y → ¬ Integral integral y :=
          fun h0 => (hl'.2 h0).resolve_right hnoray
        have hnh : rh = none → ∀ y, Feas (child Q j .ge (⌈x j⌉ : ℤ)) y → ¬ Integral integral y :=
          fun h0 => (hh'.2 h0).resolve_right hnoray
        -- a best point of one child that beats the other is a best point
        have hfin : ∀ {op k} {y : Fin n → ℚ}, BestIntegral (child Q j op k) integral y →
            (∀ y', Feas Q y' → Integral integral y' → objVal Q y' ≤ objVal Q y) → BestIntegral Q integral y :=
          fun h1 h2 => ⟨hsub h1.1, h1.2.1, fun y' hy' hi' => ⟨fun _ => h2 y' hy' hi',
            fun h0 => by rw [hmax] at h0; cases h0⟩⟩
        have hb : ∀ {op k} {y y' : Fin n → ℚ}, BestIntegral (child Q j op k) integral y →
            Feas (child Q j op k) y' → Integral integral y' → objVal Q y' ≤ objVal Q y :=
          fun h1 h2 h3 => (h1.2.2 _ h2 h3).1 hmax
        rcases rl with _ | ⟨vl, ql⟩ <;> rcases rh with _ | ⟨vh, qh⟩
        · refine ⟨fun v q h0 => (by cases h0), fun _ => Or.inl fun y hy hi => ?_⟩
          rcases split_integral hpos hy (hi j hreq) (q := x j) with h1 | h1
          · exact hnl rfl y h1 hi
          · exact hnh rfl y h1 hi
        · refine ⟨fun v q h0 => ?_, fun h0 => by cases h0⟩
          cases h0
          obtain ⟨y, rfl, hy, hq⟩ := hh'.1 _ _ rfl
          refine ⟨y, rfl, hfin hy fun y' hy' hi' => ?_, hq⟩
          rcases split_integral hpos hy' (hi' j hreq) (q := x j) with h1 | h1
          · exact absurd hi' (hnl rfl y' h1)
          · exact hb hy h1 hi'
        · refine ⟨fun v q h0 => ?_, fun h0 => by cases h0⟩
          cases h0
          obtain ⟨y, rfl, hy, hq⟩ := hl'.1 _ _ rfl
          refine ⟨y, rfl, hfin hy fun y' hy' hi' => ?_, hq⟩
          rcases split_integral hpos hy' (hi' j hreq) (q := x j) with h1 | h1
          · exact hb hy h1 hi'
          · exact absurd hi' (hnh rfl y' h1)
        · obtain ⟨yl, rfl, hyl, hql⟩ := hl'.1 _ _ rfl
          obtain ⟨yh, rfl, hyh, hqh⟩ := hh'.1 _ _ rfl
          rw [objVal_child] at hql hqh
          refine ⟨fun v q h0 => ?_, fun h0 => ?_⟩
          · simp only [betterOf] at h0
            split at h0
            · rename_i hgt
              cases h0
              refine ⟨yh, rfl, hfin hyh fun y' hy' hi' => ?_, hqh⟩
              rcases split_integral hpos hy' (hi' j hreq) (q := x j) with h1 | h1
              · have := hb hyl h1 hi'; linarith
              · exact hb hyh h1 hi'
            · rename_i hgt
              cases h0
              refine ⟨yl, rfl, hfin hyl fun y' hy' hi' => ?_, hql⟩
              rcases split_integral hpos hy' (hi' j hreq) (q := x j) with h1 | h1
              · exact hb hyl h1 hi'
              · have := hb hyh h1 hi'; push Not at hgt; linarith
          · simp only [betterOf] at h0
            split at h0 <;> cases h0

/-- C60 for maximisation programs with nonnegative variables, if the relaxations of the search tree are ones
`solve` handles: a returned vector is a best integral point, and `None` means there is none. Missing: `min`
(`C60_min_wrong`), other sign classes (`C60_free_wrong`), the cases `solve` gets wrong (`C60_tried_wrong`). -/
theorem C60_partial (sf fuel : ℕ) (I : IntProgram) (hI : WF I.prog.lp) (hmax : I.prog.lp.objective = .max)
    (hpos : I.prog.lp.free = [] ∧ I.prog.lp.neg = [])
    (hvis : ∀ R, Visits sf I.integral I.prog R → NodeClear sf R.lp) :
    (∀ v, branchAndBound sf fuel I = .ok (some v) →
      ∃ x : Fin I.prog.n → ℚ, v = List.ofFn x ∧ BestIntegral I.prog.lp I.integral x) ∧
    (branchAndBound sf fuel I = .ok none → ¬ ∃ x, BestIntegral I.prog.lp I.integral x) := by
  constructor
  · intro v h
    obtain ⟨q, hq⟩ := bab_some hI h
    obtain ⟨x, h1, h2, _⟩ := (branch_best hI hmax hpos hvis hq).1 _ _ rfl
    exact ⟨x, h1, h2⟩
  · intro h
    rcases (branch_best hI hmax hpos hvis (bab_none hI h)).2 rfl with h1 | h1
    · rintro ⟨x, hx⟩
      exact h1 x hx.1 hx.2.1
    · exact ray_no_best h1 _

/-! ### C59 and C60 are false as stated -/

/-- `max x + y` subject to `2 y <= 3`, `x <= 5`, `x <= 0`, `y >= 0`. -/
def signBadLp : LP 2 2 := ⟨!![0, 2; 1, 0], ![3, 5], ![1, 1], 0, .max, ![.le, .le], [], [0], false⟩

/-- The same with all variables integral. -/
def signBad : IntProgram := ⟨⟨2, 2, signBadLp⟩, none⟩

/-- C59 as stated is false: the sign of `x` is forgotten after branching. -/
theorem C59_sign_wrong : WF signBadLp ∧ branchAndBound 200 5 signBad = .ok (some [5, 1]) ∧
    ¬ Feas signBadLp (![5, 1] : Fin 2 → ℚ) := by
  refine ⟨⟨by decide, by decide, by decide, by decide, by decide, by decide⟩, by decide +kernel, fun h => ?_⟩
  have := h.negs (0 : Fin 2) (by simp [signBadLp])
  norm_num at this

/-- `max x` subject to `2 x <= 3`, where the first variable (in the numbering of the other index lists) is
required to be integral. -/
def indexBad : IntProgram := ⟨⟨1, 1, ⟨!![2], ![3], ![1], 0, .max, ![.le], [], [], false⟩⟩, some [1]⟩

/-- C59 as stated is false: the list of integral variables is read with zero-based positions, unlike the other
index lists. -/
theorem C59_index_wrong : WF indexBad.prog.lp ∧ branchAndBound 20 5 indexBad = .ok (some [3 / 2]) ∧
    branchAndBound 20 5 { indexBad with integral := some [0] } = .ok (some [1]) :=
  ⟨⟨by decide, by decide, by decide, by decide, by decide, by decide⟩, by decide +kernel, by decide +kernel⟩

/-- `max x` subject to `x <= 1 + 1e-11`. -/
def nearBad : IntProgram :=
  ⟨⟨1, 1, ⟨!![1], ![1 + 1 / 10 ^ 11], ![1], 0, .max, ![.le], [], [], false⟩⟩, none⟩

/-- C59 as stated is false: a value within the tolerance of an integer is returned. -/
theorem C59_tolerance_wrong : WF nearBad.prog.lp ∧
    branchAndBound 20 5 nearBad = .ok (some [1 + 1 / 10 ^ 11]) ∧ ¬ ∃ k : ℤ, (1 + 1 / 10 ^ 11 : ℚ) = k := by
  refine ⟨⟨by decide, by decide, by decide, by decide, by decide, by decide⟩, by decide +kernel, ?_⟩
  rintro ⟨k, hk⟩
  have h1 : (1 : ℚ) < k := by rw [← hk]; norm_num
  have h2 : (k : ℚ) < 2 := by rw [← hk]; norm_num
  have h1' : (1 : ℤ) < k := by exact_mod_cast h1
  have h2' : k < (2 : ℤ) := by exact_mod_cast h2
  omega

/-- `min -x - 10 y` subject to `-2 x + y <= 0`, `2 x + y <= 6`. -/
def minBadLp : LP 2 2 := ⟨!![-2, 1; 2, 1], ![0, 6], ![-1, -10], 0, .min, ![.le, .le], [], [], false⟩

/-- The same with all variables integral. -/
def minBad : IntProgram := ⟨⟨2, 2, minBadLp⟩, none⟩

/-- C60 as stated is false: for `min` the larger value is taken. The vector `(1, 2)` with value `-21` is returned
although `(2, 2)` has value `-22`. -/
theorem C60_min_wrong : WF minBadLp ∧ branchAndBound 1000 6 minBad = .ok (some [1, 2]) ∧
    Feas minBadLp (![2, 2] : Fin 2 → ℚ) ∧
    objVal minBadLp (![2, 2] : Fin 2 → ℚ) < objVal minBadLp (![1, 2] : Fin 2 → ℚ) := by
  refine ⟨⟨by decide, by decide, by decide, by decide, by decide, by decide⟩, by decide +kernel,
    ⟨fun i => ?_, fun j hj => by simp [minBadLp] at hj, fun j _ _ => ?_⟩, ?_⟩
  · fin_cases i <;> simp [minBadLp, rowHolds, Matrix.mulVec, dotProduct, Fin.sum_univ_two] <;> norm_num
  · fin_cases j <;> simp
  · simp [minBadLp, objVal, dotProduct, Fin.sum_univ_two]

/-- `max x + y` subject to `2 y <= 3`, `x <= -1`, `x` free, `y >= 0`. -/
def freeBadLp : LP 2 2 := ⟨!![0, 2; 1, 0], ![3, -1], ![1, 1], 0, .max, ![.le, .le], [0], [], false⟩

/-- The same with all variables integral. -/
def freeBad : IntProgram := ⟨⟨2, 2, freeBadLp⟩, none⟩

/-- C60 as stated is false: a free variable is treated as nonnegative after branching, so `None` is returned
although `(-1, 1)` is the best integral point. -/
theorem C60_free_wrong : WF freeBadLp ∧ branchAndBound 1000 6 freeBad = .ok none ∧
    BestIntegral freeBadLp none (![-1, 1] : Fin 2 → ℚ) := by
  refine ⟨⟨by decide, by decide, by decide, by decide, by decide, by decide⟩, by decide +kernel,
    ⟨fun i => ?_, fun j hj => by simp [freeBadLp] at hj, fun j _ hj => ?_⟩, fun j _ => ?_, fun y hy hi => ?_⟩
  · fin_cases i <;> simp [freeBadLp, rowHolds, Matrix.mulVec, dotProduct, Fin.sum_univ_two] <;> norm_num
  · fin_cases j
    · simp [freeBadLp] at hj
    · simp
  · fin_cases j
    · exact ⟨-1, by simp⟩
    · exact ⟨1, by simp⟩
  · refine ⟨fun _ => ?_, fun h => by simp [freeBadLp] at h⟩
    have h0 := hy.rows (0 : Fin 2)
    have h1 := hy.rows (1 : Fin 2)
    simp [freeBadLp, rowHolds, Matrix.mulVec, dotProduct, Fin.sum_univ_two] at h0 h1
    obtain ⟨k, hk⟩ := hi (1 : Fin 2) (by simp [Required])
    have h2 : (k : ℚ) < 2 := by rw [← hk]; linarith
    have h3 : k ≤ 1 := by
      have : k < (2 : ℤ) := by exact_mod_cast h2
      omega
    have h4 : (k : ℚ) ≤ 1 := by exact_mod_cast h3
    simp [freeBadLp, objVal, dotProduct, Fin.sum_univ_two]
    rw [hk]
    linarith

/-- `max -x` subject to `x >= 1`. -/
def triedBadIntLp : LP 1 1 := ⟨!![1], ![1], ![-1], 0, .max, ![.ge], [], [], false⟩

/-- The same with all variables integral. -/
def triedBadInt : IntProgram := ⟨⟨1, 1, triedBadIntLp⟩, none⟩

/-- C60 as stated is false also because `solve` returns `None` too often. -/
theorem C60_tried_wrong : WF triedBadIntLp ∧ branchAndBound 20 5 triedBadInt = .ok none ∧
    BestIntegral triedBadIntLp none (![1] : Fin 1 → ℚ) := by
  refine ⟨⟨by decide, by decide, by decide, by decide, by decide, by decide⟩, by decide +kernel,
    ⟨fun i => ?_, fun j hj => by simp [triedBadIntLp] at hj, fun j _ hj => ?_⟩, fun j _ => ?_, fun y hy hi => ?_⟩
  · fin_cases i; simp [triedBadIntLp, rowHolds, Matrix.mulVec, dotProduct]
  · fin_cases j; simp
  · fin_cases j; exact ⟨1, by simp⟩
  · refine ⟨fun _ => ?_, fun h => by simp [triedBadIntLp] at h⟩
    have h0 := hy.rows (0 : Fin 1)
    simp [triedBadIntLp, rowHolds, Matrix.mulVec, dotProduct] at h0
    simp [triedBadIntLp, objVal, dotProduct]
    exact h0

/-- `max 13 x + 10 y + z` subject to `6 x + 5 y + 4 z <= 10`. -/
def knapsackLp : LP 1 3 := ⟨!![6, 5, 4], ![10], ![13, 10, 1], 0, .max, fun _ => .le, [], [], false⟩

/-- The same with all variables integral. -/
def knapsack : IntProgram := ⟨⟨1, 3, knapsackLp⟩, none⟩

/-- C60 fails on a knapsack problem: with three items the node `x <= 1`, `y >= 1` has three rows, `solve` gives up
on it, and branch and bound returns a vector of value 14 where 20 is possible. -/
theorem C60_knapsack_wrong : WF knapsackLp ∧ branchAndBound 200 6 knapsack = .ok (some [1, 0, 1]) ∧
    objVal knapsackLp ![1, 0, 1] = 14 ∧ BestIntegral knapsackLp none ![0, 2, 0] ∧
    objVal knapsackLp ![0, 2, 0] = 20 := by
  refine ⟨⟨by decide, by decide, by decide, by decide, by decide, by decide⟩, by decide +kernel, by decide +kernel,
    ⟨⟨fun i => ?_, by simp [knapsackLp], fun j _ _ => ?_⟩, fun j _ => ?_, fun y hy hi => ?_⟩, by decide +kernel⟩
  · fin_cases i
    simp [knapsackLp, rowHolds, Matrix.mulVec, dotProduct, Fin.sum_univ_three]
    norm_num
  · fin_cases j <;> simp
  · exact ⟨(![0, 2, 0] : Fin 3 → ℤ) j, by fin_cases j <;> simp⟩
  · refine ⟨fun _ => ?_, fun h => by simp [knapsackLp] at h⟩
    have h0 := hy.rows (0 : Fin 1)
    obtain ⟨a, ha⟩ := hi 0 (by simp [Required])
    obtain ⟨b, hb⟩ := hi 1 (by simp [Required])
    obtain ⟨c, hc⟩ := hi 2 (by simp [Required])
    have ha0 := hy.poss 0 (by simp [knapsackLp]) (by simp [knapsackLp])
    have hb0 := hy.poss 1 (by simp [knapsackLp]) (by simp [knapsackLp])
    have hc0 := hy.poss 2 (by simp [knapsackLp]) (by simp [knapsackLp])
    simp [knapsackLp, rowHolds, Matrix.mulVec, dotProduct, Fin.sum_univ_three] at h0
    simp [knapsackLp, objVal, dotProduct, Fin.sum_univ_three]
    rw [ha] at h0 ha0 ⊢
    rw [hb] at h0 hb0 ⊢
    rw [hc] at h0 hc0 ⊢
    norm_cast at *
    have h1 : a = 0 ∨ a = 1 := by omega
    have h2 : b = 0 ∨ b = 1 ∨ b = 2 := by omega
    rcases h1 with rfl | rfl <;> rcases h2 with rfl | rfl | rfl <;> omega

end Props
end Pytimize
