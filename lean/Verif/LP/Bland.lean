/-
Bland's rule does not cycle.
-/
import Mathlib.Data.Fintype.Pigeonhole
import Mathlib.Data.Fintype.BigOperators
import Mathlib.Algebra.Order.BigOperators.Group.Finset
import Mathlib.Tactic.Positivity
import Verif.LP.SimplexProof

namespace Pytimize
namespace LinProg
open Matrix Comparator

variable {m n : ℕ}

/-- A pivot by Bland's rule, in exact arithmetic. -/
structure BlandStep (P : LP m n) (B B' : Fin m → Fin n) (k : Fin n) (r : Fin m) : Prop where
  ns : Nonsing P B
  feas : ∀ i, 0 ≤ (canon P B).b i
  nonbasic : ∀ i, B i ≠ k
  cost : 0 < (canon P B).c k
  first : ∀ j < k, (∀ i, B i ≠ j) → (canon P B).c j ≤ 0
  piv : 0 < (canon P B).A r k
  ratio : ∀ i, 0 < (canon P B).A i k →
    (canon P B).b r / (canon P B).A r k ≤ (canon P B).b i / (canon P B).A i k
  tie : ∀ i, 0 < (canon P B).A i k →
    (canon P B).b r / (canon P B).A r k = (canon P B).b i / (canon P B).A i k → B r ≤ B i
  step : Pivot B r k B'

variable {P : LP m n}

theorem BlandStep.ns' {B B' : Fin m → Fin n} {k : Fin n} {r : Fin m} (h : BlandStep P B B' k r) :
    Nonsing P B' := h.step.nonsing h.ns h.nonbasic h.piv.ne'

theorem BlandStep.theta_nonneg {B B' : Fin m → Fin n} {k : Fin n} {r : Fin m} (h : BlandStep P B B' k r) :
    0 ≤ (canon P B).b r / (canon P B).A r k := div_nonneg (h.feas r) h.piv.le

theorem BlandStep.sol_nonneg {B B' : Fin m → Fin n} {k : Fin n} {r : Fin m} (h : BlandStep P B B' k r)
    (j : Fin n) : 0 ≤ sol P B' j := by
  rw [h.step.sol h.ns h.nonbasic h.piv.ne', Pi.add_apply, Pi.smul_apply, smul_eq_mul]
  have ht := h.theta_nonneg
  by_cases hj : ∃ i, B i = j
  · obtain ⟨i, rfl⟩ := hj
    rw [sol_apply h.ns, rayOf_basic h.ns h.nonbasic]
    by_cases hp : 0 < (canon P B).A i k
    · have := h.ratio i hp
      rw [le_div_iff₀ hp] at this
      linarith
    · have := h.feas i
      push Not at hp
      nlinarith
  · push Not at hj
    rw [sol_off h.ns hj]
    by_cases hjk : j = k
    · subst hjk
      rw [rayOf_self]
      linarith
    · rw [rayOf_off h.ns hj hjk]
      simp

theorem BlandStep.obj {B B' : Fin m → Fin n} {k : Fin n} {r : Fin m} (h : BlandStep P B B' k r) :
    objVal P (sol P B') = objVal P (sol P B) + (canon P B).b r / (canon P B).A r k * (canon P B).c k :=
  h.step.obj h.ns h.nonbasic h.piv.ne'

theorem BlandStep.obj_le {B B' : Fin m → Fin n} {k : Fin n} {r : Fin m} (h : BlandStep P B B' k r) :
    objVal P (sol P B) ≤ objVal P (sol P B') := by
  rw [h.obj]
  have := mul_nonneg h.theta_nonneg h.cost.le
  linarith

/-- Column `j` is basic. -/
def InB (B : Fin m → Fin n) (j : Fin n) : Prop := ∃ i, B i = j

theorem enters {B : ℕ → Fin m → Fin n} {j : Fin n} {u v : ℕ} (huv : u ≤ v) (hu : ¬ InB (B u) j)
    (hv : InB (B v) j) : ∃ t, u ≤ t ∧ t < v ∧ ¬ InB (B t) j ∧ InB (B (t + 1)) j := by
  induction v, huv using Nat.le_induction with
  | base => exact absurd hv hu
  | succ v huv ih =>
    by_cases h : InB (B v) j
    · obtain ⟨t, h1, h2, h3⟩ := ih h
      exact ⟨t, h1, by omega, h3⟩
    · exact ⟨v, huv, by omega, h, hv⟩

theorem leaves {B : ℕ → Fin m → Fin n} {j : Fin n} {u v : ℕ} (huv : u ≤ v) (hu : InB (B u) j)
    (hv : ¬ InB (B v) j) : ∃ t, u ≤ t ∧ t < v ∧ InB (B t) j ∧ ¬ InB (B (t + 1)) j := by
  induction v, huv using Nat.le_induction with
  | base => exact absurd hu hv
  | succ v huv ih =>
    by_cases h : InB (B v) j
    · exact ⟨v, huv, by omega, h, hv⟩
    · obtain ⟨t, h1, h2, h3⟩ := ih h
      exact ⟨t, h1, by omega, h3⟩

/-- A sequence of Bland pivots never returns to a basis. -/
theorem bland_no_cycle (B : ℕ → Fin m → Fin n) (N : ℕ) (hN : 0 < N)
    (h : ∀ t < N, ∃ k r, BlandStep P (B t) (B (t + 1)) k r) (hcyc : B 0 = B N) : False := by
  -- the objective is constant, hence so is the basic solution
  have hmono : ∀ u v, u ≤ v → v ≤ N → objVal P (sol P (B u)) ≤ objVal P (sol P (B v)) := by
    intro u v huv
    induction v, huv using Nat.le_induction with
    | base => intro _; exact le_refl _
    | succ v huv ih =>
      intro hv
      obtain ⟨k, r, hs⟩ := h v (by omega)
      exact le_trans (ih (by omega)) hs.obj_le
  have hconst : ∀ t ≤ N, objVal P (sol P (B t)) = objVal P (sol P (B 0)) := by
    intro t ht
    refine le_antisymm ?_ (hmono 0 t (by omega) ht)
    have := hmono t N ht (le_refl _)
    rwa [← hcyc] at this
  have htheta : ∀ t < N, ∀ k r, BlandStep P (B t) (B (t + 1)) k r → (canon P (B t)).b r = 0 := by
    intro t ht k r hs
    have h1 := hs.obj
    rw [hconst t ht.le, hconst (t + 1) ht] at h1
    have h2 : (canon P (B t)).b r / (canon P (B t)).A r k * (canon P (B t)).c k = 0 := by linarith
    rcases mul_eq_zero.mp h2 with h3 | h3
    · rcases div_eq_zero_iff.mp h3 with h4 | h4
      · exact h4
      · exact absurd h4 hs.piv.ne'
    · exact absurd h3 hs.cost.ne'
  have hsol : ∀ t ≤ N, sol P (B t) = sol P (B 0) := by
    intro t
    induction t with
    | zero => intro _; rfl
    | succ t ih =>
      intro ht
      obtain ⟨k, r, hs⟩ := h t (by omega)
      rw [hs.step.sol hs.ns hs.nonbasic hs.piv.ne', htheta t (by omega) k r hs, zero_div, zero_smul, add_zero]
      exact ih (by omega)
  -- the fickle columns
  let F : Fin n → Prop := fun j => ∃ t < N, ¬ InB (B t) j ∧ InB (B (t + 1)) j
  have hfickle : ∀ j u v, u ≤ N → v ≤ N → ¬ InB (B u) j → InB (B v) j → F j := by
    intro j u v hu hv h1 h2
    rcases le_total u v with huv | huv
    · obtain ⟨t, _, h4, h5⟩ := enters huv h1 h2
      exact ⟨t, by omega, h5⟩
    · by_cases h3 : InB (B N) j
      · obtain ⟨t, _, h4, h5⟩ := enters hu h1 h3
        exact ⟨t, by omega, h5⟩
      · rw [← hcyc] at h3
        obtain ⟨t, _, h4, h5⟩ := enters (Nat.zero_le v) h3 h2
        exact ⟨t, by omega, h5⟩
  have hentering : ∀ t < N, ∀ k r, BlandStep P (B t) (B (t + 1)) k r → F k := by
    intro t ht k r hs
    exact ⟨t, ht, fun ⟨i, hi⟩ => hs.nonbasic i hi, (hs.step k).mpr (Or.inl rfl)⟩
  -- the largest fickle column
  obtain ⟨q, hqF, hqmax⟩ : ∃ q, F q ∧ ∀ j, F j → j ≤ q := by
    classical
    obtain ⟨k, r, hs⟩ := h 0 hN
    have hne : (Finset.univ.filter F).Nonempty :=
      ⟨k, Finset.mem_filter.mpr ⟨Finset.mem_univ _, hentering 0 hN k r hs⟩⟩
    refine ⟨(Finset.univ.filter F).max' hne, ?_, fun j hj => ?_⟩
    · exact (Finset.mem_filter.mp (Finset.max'_mem _ hne)).2
    · exact Finset.le_max' _ _ (Finset.mem_filter.mpr ⟨Finset.mem_univ _, hj⟩)
  -- `q` enters at time `u` and leaves at time `v`
  obtain ⟨u, hu, hqu, hqu'⟩ := hqF
  obtain ⟨v, hv, hqv, hqv'⟩ : ∃ v < N, InB (B v) q ∧ ¬ InB (B (v + 1)) q := by
    by_cases h3 : InB (B N) q
    · rw [← hcyc] at h3
      obtain ⟨t, _, h4, h5⟩ := leaves (Nat.zero_le u) h3 hqu
      exact ⟨t, by omega, h5⟩
    · obtain ⟨t, _, h4, h5⟩ := leaves (show u + 1 ≤ N from hu) hqu' h3
      exact ⟨t, by omega, h5⟩
  obtain ⟨k, r', hsu⟩ := h u hu
  obtain ⟨s, r, hsv⟩ := h v hv
  have hkq : k = q := by
    rcases (hsu.step q).mp hqu' with h1 | ⟨h1, _⟩
    · exact h1.symm
    · exact absurd h1 hqu
  subst hkq
  have hrq : B v r = k := by
    by_contra hne
    apply hqv'
    exact (hsv.step k).mpr (Or.inr ⟨hqv, fun he => hne he.symm⟩)
  -- reduced costs at time `u` of the columns up to `q`
  have hcu : ∀ j < k, (canon P (B u)).c j ≤ 0 := by
    intro j hj
    by_cases hjB : InB (B u) j
    · obtain ⟨i, rfl⟩ := hjB
      rw [canon_c_basic hsu.ns]
    · exact hsu.first j hj fun i hi => hjB ⟨i, hi⟩
  -- the direction at time `v`, priced with the costs at time `u`
  have hdot : (canon P (B u)).c ⬝ᵥ rayOf (B v) (canon P (B v)) s = (canon P (B v)).c s := by
    rw [canon_c_ker (rayOf_ker hsv.ns hsv.nonbasic), rayOf_cost hsv.ns hsv.nonbasic]
  have hpos : 0 < ∑ j, (canon P (B u)).c j * rayOf (B v) (canon P (B v)) s j := by
    have h1 := hsv.cost
    rw [← hdot] at h1
    exact h1
  have hqterm : (canon P (B u)).c k * rayOf (B v) (canon P (B v)) s k < 0 := by
    have h1 : rayOf (B v) (canon P (B v)) s k = -(canon P (B v)).A r s := by
      rw [← hrq, rayOf_basic hsv.ns hsv.nonbasic]
    rw [h1]
    have := mul_pos hsu.cost hsv.piv
    linarith
  obtain ⟨j, hjpos⟩ : ∃ j, 0 < (canon P (B u)).c j * rayOf (B v) (canon P (B v)) s j := by
    by_contra hno
    push Not at hno
    exact absurd hpos (not_lt.mpr (Finset.sum_nonpos fun j _ => hno j))
  have hjk : j ≠ k := by
    rintro rfl
    linarith
  have hcj : (canon P (B u)).c j ≠ 0 := fun h0 => by rw [h0, zero_mul] at hjpos; exact lt_irrefl _ hjpos
  have hdj : rayOf (B v) (canon P (B v)) s j ≠ 0 := fun h0 => by
    rw [h0, mul_zero] at hjpos; exact lt_irrefl _ hjpos
  have hju : ¬ InB (B u) j := by
    rintro ⟨i, rfl⟩
    exact hcj (canon_c_basic hsu.ns i)
  have hjF : F j := by
    by_cases hjs : j = s
    · rw [hjs]; exact hentering v hv s r hsv
    · have hjv : InB (B v) j := by
        by_contra hc
        exact hdj (rayOf_off hsv.ns (fun i hi => hc ⟨i, hi⟩) hjs)
      exact hfickle j u v hu.le hv.le hju hjv
  have hjlt : j < k := lt_of_le_of_ne (hqmax j hjF) hjk
  have hcneg : (canon P (B u)).c j < 0 := lt_of_le_of_ne (hcu j hjlt) hcj
  have hdneg : rayOf (B v) (canon P (B v)) s j < 0 := by
    by_contra hc
    push Not at hc
    have := mul_nonpos_of_nonpos_of_nonneg hcneg.le hc
    linarith
  have hjs : j ≠ s := by
    rintro rfl
    rw [rayOf_self] at hdneg
    linarith
  obtain ⟨i, hi⟩ : InB (B v) j := by
    by_contra hc
    exact hdj (rayOf_off hsv.ns (fun i hi => hc ⟨i, hi⟩) hjs)
  have hA : 0 < (canon P (B v)).A i s := by
    rw [← hi, rayOf_basic hsv.ns hsv.nonbasic] at hdneg
    linarith
  have hb : (canon P (B v)).b i = 0 := by
    rw [← sol_apply hsv.ns, hi, hsol v hv.le, ← hsol u hu.le]
    exact sol_off hsu.ns fun i' hi' => hju ⟨i', hi'⟩
  have htie := hsv.tie i hA (by rw [htheta v hv s r hsv, hb, zero_div, zero_div])
  rw [hrq, hi] at htie
  exact absurd hjlt (not_lt.mpr htie)

/-- A sequence of Bland pivots has fewer than `n ^ m + 1` steps. -/
theorem bland_bound (B : ℕ → Fin m → Fin n) (N : ℕ)
    (h : ∀ t < N, ∃ k r, BlandStep P (B t) (B (t + 1)) k r) : N < n ^ m := by
  by_contra hlt
  push Not at hlt
  obtain ⟨a, b, hab, he⟩ := Fintype.exists_ne_map_eq_of_card_lt (fun t : Fin (N + 1) => B t)
    (by simp; omega)
  have key : ∀ a b : ℕ, a < b → b ≤ N → B a = B b → False := by
    intro a b hab hb he
    refine bland_no_cycle (P := P) (fun t => B (a + t)) (b - a) (by omega) (fun t ht => ?_) ?_
    · have := h (a + t) (by omega)
      rwa [Nat.add_assoc] at this
    · simp only [Nat.add_zero]
      rw [he]
      congr 1
      omega
  rcases Nat.lt_or_ge a b with h1 | h1
  · exact key a b h1 (by have := b.2; omega) he
  · exact key b a (lt_of_le_of_ne h1 fun hc => hab (Fin.ext hc.symm)) (by have := a.2; omega) he.symm

/-! ### Programs whose arithmetic stays clear of the tolerances -/

/-- No number the simplex method looks at falls between zero and the tolerance, and different ratios
differ by more than the tolerance. -/
structure Exact (P : LP m n) : Prop where
  det : ∀ B, Nonsing P B → tol ≤ |(colSel P.A B).det|
  cost : ∀ B, Nonsing P B → ∀ j, (canon P B).c j ≤ 0 ∨ tol ≤ (canon P B).c j
  piv : ∀ B, Nonsing P B → ∀ i j, (canon P B).A i j ≤ 0 ∨ tol ≤ (canon P B).A i j
  rhs : ∀ B, Nonsing P B → ∀ i, 0 ≤ (canon P B).b i ∨ (canon P B).b i ≤ -tol
  rhsPos : ∀ B, Nonsing P B → ∀ i, (canon P B).b i ≤ 0 ∨ tol ≤ (canon P B).b i
  ratio : ∀ B, Nonsing P B → (∀ i, 0 ≤ (canon P B).b i) → ∀ k, (∀ i, B i ≠ k) →
    Apart (canon P B).b fun i => (canon P B).A i k

theorem nonsing_flip (S : Fin m → Bool) {B : Fin m → Fin n} : Nonsing (flipRows S P) B ↔ Nonsing P B := by
  have := abs_det_flip S P B
  unfold Nonsing
  rw [← abs_ne_zero, this, abs_ne_zero]

theorem Exact.flip (h : Exact P) (S : Fin m → Bool) : Exact (flipRows S P) := by
  refine ⟨fun B hB => ?_, fun B hB => ?_, fun B hB => ?_, fun B hB => ?_, fun B hB => ?_, fun B hB => ?_⟩ <;>
    rw [nonsing_flip] at hB
  · rw [abs_det_flip]; exact h.det B hB
  · rw [canon_flip]; exact h.cost B hB
  · rw [canon_flip]; exact h.piv B hB
  · rw [canon_flip]; exact h.rhs B hB
  · rw [canon_flip]; exact h.rhsPos B hB
  · rw [canon_flip]; exact h.ratio B hB

theorem Exact.lt_tol_cost (h : Exact P) {B : Fin m → Fin n} (hB : Nonsing P B) {j : Fin n}
    (hj : (canon P B).c j < tol) : (canon P B).c j ≤ 0 :=
  (h.cost B hB j).resolve_right (not_le.mpr hj)

theorem Exact.lt_tol_piv (h : Exact P) {B : Fin m → Fin n} (hB : Nonsing P B) {i : Fin m} {j : Fin n}
    (hj : (canon P B).A i j < tol) : (canon P B).A i j ≤ 0 :=
  (h.piv B hB i j).resolve_right (not_le.mpr hj)

theorem Exact.pos_piv (h : Exact P) {B : Fin m → Fin n} (hB : Nonsing P B) {i : Fin m} {j : Fin n}
    (hj : 0 < (canon P B).A i j) : tol ≤ (canon P B).A i j :=
  (h.piv B hB i j).resolve_left (not_le.mpr hj)

theorem Exact.rhs_nonneg (h : Exact P) {B : Fin m → Fin n} (hB : Nonsing P B) {i : Fin m}
    (hj : -tol < (canon P B).b i) : 0 ≤ (canon P B).b i :=
  (h.rhs B hB i).resolve_right (not_le.mpr hj)

/-! ### Feasible bases -/

/-- `B` is a basis with a nonnegative basic solution. -/
structure FeasBasis (P : LP m n) (B : Fin m → Fin n) : Prop where
  ns : Nonsing P B
  nonneg : ∀ j, 0 ≤ sol P B j

theorem FeasBasis.rhs {B : Fin m → Fin n} (h : FeasBasis P B) (i : Fin m) : 0 ≤ (canon P B).b i := by
  rw [← sol_apply h.ns]; exact h.nonneg _

theorem feasBasis_of_rhs {B : Fin m → Fin n} (h : Nonsing P B) (hb : ∀ i, 0 ≤ (canon P B).b i) :
    FeasBasis P B := by
  refine ⟨h, fun j => ?_⟩
  by_cases hj : ∃ i, B i = j
  · obtain ⟨i, rfl⟩ := hj
    rw [sol_apply h]
    exact hb i
  · rw [sol_off h fun i he => hj ⟨i, he⟩]

theorem FeasBasis.same {B B' : Fin m → Fin n} (h : FeasBasis P B) (hs : SameCols B B') : FeasBasis P B' :=
  ⟨h.ns.same hs, fun j => by rw [sol_same h.ns hs]; exact h.nonneg j⟩

theorem feasBasis_flip (S : Fin m → Bool) {B : Fin m → Fin n} :
    FeasBasis (flipRows S P) B ↔ FeasBasis P B := by
  have : sol (flipRows S P) B = sol P B := by unfold sol; rw [canon_flip]
  constructor
  · rintro ⟨h1, h2⟩; exact ⟨(nonsing_flip S).mp h1, this ▸ h2⟩
  · rintro ⟨h1, h2⟩; exact ⟨(nonsing_flip S).mpr h1, this.symm ▸ h2⟩

/-- Under `Exact`, a `next` outcome of the iteration is a Bland step. -/
theorem bland_of_next (he : Exact P) {B : Fin m → Fin n} (hB : FeasBasis P B) (hmono : Monotone B)
    {l : List ℤ} {C : LP m n} (h : IterSpec P B (.ok (.next l C))) :
    C = canon P B ∧ ∃ B' k r, Monotone B' ∧ l = (colsList B').map (· + 1) ∧ BlandStep P B B' k r := by
  cases h with
  | next k hk hck hmin r hr hratio B' hB' hp =>
    have hap := he.ratio B hB.ns hB.rhs k hk
    refine ⟨rfl, B', k, r, hB', rfl, ⟨hB.ns, hB.rhs, hk, lt_of_lt_of_le tol_pos hck,
      fun j hj hjB => he.lt_tol_cost hB.ns (hmin j hj hjB), lt_of_lt_of_le tol_pos hr, fun i hi => ?_,
      fun i hi htie => ?_, hp⟩⟩
    · rcases hratio hap i (he.pos_piv hB.ns hi) with h1 | ⟨h1, _⟩
      · exact h1.le
      · exact h1.le
    · rcases hratio hap i (he.pos_piv hB.ns hi) with h1 | ⟨_, h1⟩
      · exact absurd htie h1.ne
      · exact hmono h1

/-! ### The loop -/

theorem toArrayIndexing_math (B : Fin m → Fin n) : toArrayIndexing ((colsList B).map (· + 1)) = colsList B :=
  toArrayIndexing_succ _

/-- Under `Exact` and from a feasible basis, the loop ends within `n ^ m` iterations, at a feasible
basis from which the iteration answers. -/
theorem simplexLoop_exact (hs : P.isSef = true) (hm : 0 < m) (he : Exact P) (fuel : ℕ)
    (basis : List ℤ) (B : Fin m → Fin n) (hbasis : toArrayIndexing basis = colsList B) (hB : FeasBasis P B) :
    (∃ D, FeasBasis P D ∧ Monotone D ∧
      ((IterSpec P D (.ok (.optimal (sol P D) ((colsList D).map (· + 1)) (canon P D))) ∧
        simplexLoop fuel P basis = .ok (.optimal (sol P D) ((colsList D).map (· + 1)) (canon P D))) ∨
       (IterSpec P D (.ok (.unbounded (sol P D) D (canon P D))) ∧
        simplexLoop fuel P basis = .ok (.unbounded (sol P D) D (canon P D))))) ∨
    (simplexLoop fuel P basis = .error .notTerminated ∧
      ∃ seq : ℕ → Fin m → Fin n, seq 0 = sortCols B ∧
        ∀ t < fuel, ∃ k r, BlandStep P (seq t) (seq (t + 1)) k r) := by
  induction fuel generalizing basis B with
  | zero => exact Or.inr ⟨rfl, fun _ => sortCols B, rfl, fun t ht => absurd ht (by omega)⟩
  | succ fuel ih =>
    have hBs : FeasBasis P (sortCols B) := hB.same (sortCols_same B)
    have hspec := simplexIteration_spec hs hm hbasis (he.det B hB.ns)
    generalize hres : simplexIteration P basis = res at hspec
    cases hspec with
    | optimal hc hx =>
      refine Or.inl ⟨sortCols B, hBs, sortCols_mono B, Or.inl ⟨.optimal hc hx, ?_⟩⟩
      rw [simplexLoop, hres]
    | infeasible hc j hx =>
      exfalso
      have := hBs.nonneg j
      have := tol_pos
      linarith
    | unbounded k hk hck hmin hA =>
      refine Or.inl ⟨sortCols B, hBs, sortCols_mono B, Or.inr ⟨.unbounded k hk hck hmin hA, ?_⟩⟩
      rw [simplexLoop, hres]
    | next k hk hck hmin r hr hratio B' hB' hp =>
      obtain ⟨_, B'', k', r', _, hl, hstep⟩ := bland_of_next he hBs (sortCols_mono B)
        (.next k hk hck hmin r hr hratio B' hB' hp)
      have hBB : B' = B'' := colsList_inj (by
        have := congrArg toArrayIndexing hl
        rwa [toArrayIndexing_math, toArrayIndexing_math] at this)
      subst hBB
      have hloop : simplexLoop (fuel + 1) P basis = simplexLoop fuel P ((colsList B').map (· + 1)) := by
        rw [simplexLoop, hres]
      rw [hloop]
      rcases ih _ B' (toArrayIndexing_math B') ⟨hstep.ns', hstep.sol_nonneg⟩ with h | ⟨h1, seq, h2, h3⟩
      · exact Or.inl h
      · refine Or.inr ⟨h1, fun t => if t = 0 then sortCols B else seq (t - 1), rfl, fun t ht => ?_⟩
        rcases Nat.eq_zero_or_pos t with rfl | ht0
        · refine ⟨k', r', ?_⟩
          simp only [if_true, Nat.zero_add, Nat.add_eq_zero_iff, one_ne_zero, and_false, if_false,
            Nat.sub_self]
          rw [h2, sortCols_of_mono hB']
          exact hstep
        · obtain ⟨k2, r2, h4⟩ := h3 (t - 1) (by omega)
          refine ⟨k2, r2, ?_⟩
          have e1 : t ≠ 0 := by omega
          simp only [if_neg e1, if_neg (Nat.succ_ne_zero t)]
          have e : t - 1 + 1 = t + 1 - 1 := by omega
          rw [e] at h4
          exact h4

theorem simplexLoop_terminates (hs : P.isSef = true) (hm : 0 < m) (he : Exact P) (fuel : ℕ)
    (hf : n ^ m ≤ fuel) (basis : List ℤ) (B : Fin m → Fin n) (hbasis : toArrayIndexing basis = colsList B)
    (hB : FeasBasis P B) :
    ∃ D, FeasBasis P D ∧ Monotone D ∧
      ((IterSpec P D (.ok (.optimal (sol P D) ((colsList D).map (· + 1)) (canon P D))) ∧
        simplexLoop fuel P basis = .ok (.optimal (sol P D) ((colsList D).map (· + 1)) (canon P D))) ∨
       (IterSpec P D (.ok (.unbounded (sol P D) D (canon P D))) ∧
        simplexLoop fuel P basis = .ok (.unbounded (sol P D) D (canon P D)))) := by
  rcases simplexLoop_exact hs hm he fuel basis B hbasis hB with h | ⟨_, seq, _, h⟩
  · exact h
  · have := bland_bound seq fuel h
    omega

/-- Without any assumption: an answer of the loop is an answer of an iteration from some basis. -/
theorem simplexLoop_answer (fuel : ℕ) (basis : List ℤ) {r : Iter m n}
    (h : simplexLoop fuel P basis = .ok r) :
    ∃ D, Monotone D ∧ tol ≤ |(colSel P.A D).det| ∧ IterSpec P D (.ok r) ∧ 0 < m ∧
      ∀ l C, r ≠ .next l C := by
  induction fuel generalizing basis with
  | zero => cases h
  | succ fuel ih =>
    rw [simplexLoop] at h
    cases hit : simplexIteration P basis with
    | error e => rw [hit] at h; cases h
    | ok a =>
      obtain ⟨hs, hb⟩ := simplexIteration_error hit
      obtain ⟨hm, B, hB, hd⟩ := (isBasis_iff P basis).mp hb
      have hspec := simplexIteration_spec hs hm hB hd
      rw [hit] at hspec h
      have hd' : tol ≤ |(colSel P.A (sortCols B)).det| := by rw [abs_det_sort]; exact hd
      cases a with
      | optimal x l C =>
        rw [Except.ok.injEq] at h
        subst h
        exact ⟨sortCols B, sortCols_mono B, hd', hspec, hm, fun _ _ => nofun⟩
      | unbounded x l C =>
        rw [Except.ok.injEq] at h
        subst h
        exact ⟨sortCols B, sortCols_mono B, hd', hspec, hm, fun _ _ => nofun⟩
      | next l C => exact ih l h

end LinProg
end Pytimize
