/-
Property C145: the canonical form for a basis is unique, so it does not matter through which other bases a program
was taken; running `simplex_iteration` in place is running it on the original program.
-/
import Verif.Props.Steps

namespace Pytimize
namespace Props
open LinProg Comparator

variable {m n : ℕ}

/-- C145: two programs in canonical form for the same columns, with the same solutions of their equations and the same
objective value on them, have the same arrays. -/
theorem C145_unique {P C D : LP m n} {B : Fin m → Fin n} (hC : CanonicalFor P C B) (hD : CanonicalFor P D B) :
    C.A = D.A ∧ C.b = D.b ∧ C.c = D.c ∧ C.z = D.z := by
  have one : ∀ {E : LP m n}, CanonicalFor P E B → colSel E.A B = 1 := by
    intro E hE
    funext i k
    rw [Matrix.one_apply]
    exact hE.unit i k
  have hinj : Function.Injective B := by
    intro i k he
    by_contra hne
    have h1 := hC.unit i k
    rw [← he, hC.unit i i, if_pos rfl, if_neg hne] at h1
    exact one_ne_zero h1
  have cost : ∀ {E : LP m n}, CanonicalFor P E B → ∀ v, E.c ⬝ᵥ assign B v = 0 := by
    intro E hE v
    rw [sum_off hinj _ _ fun j hj => assign_off hinj _ hj]
    simp [hE.cost]
  have hsol : ∀ x, C.A.mulVec x = C.b ↔ D.A.mulVec x = D.b := fun x => (hC.sols x).trans (hD.sols x).symm
  have hval : ∀ x, C.A.mulVec x = C.b → C.c ⬝ᵥ x + C.z = D.c ⬝ᵥ x + D.z := fun x hx => by
    have h := (hC.sols x).mp hx
    exact (hC.value x h).trans (hD.value x h).symm
  have hx : C.A.mulVec (assign B C.b) = C.b := by rw [mulVec_assign hinj, one hC, Matrix.one_mulVec]
  have hb : C.b = D.b := by
    have := (hsol _).mp hx
    rwa [mulVec_assign hinj, one hD, Matrix.one_mulVec] at this
  have hz : C.z = D.z := by
    have := hval _ hx
    rwa [cost hC, cost hD, zero_add, zero_add] at this
  have hcol : ∀ j, (∀ i, C.A i j = D.A i j) ∧ C.c j = D.c j := by
    intro j
    have hpt : C.A.mulVec (Pi.single j 1 + assign B fun i => C.b i - C.A i j) = C.b := by
      rw [Matrix.mulVec_add, mulVec_assign hinj, one hC, Matrix.one_mulVec]
      funext i
      simp
    have h1 := (hsol _).mp hpt
    rw [Matrix.mulVec_add, mulVec_assign hinj, one hD, Matrix.one_mulVec] at h1
    refine ⟨fun i => ?_, ?_⟩
    · have h2 := congrFun h1 i
      simp only [Pi.add_apply, Matrix.mulVec_single, MulOpposite.op_one, one_smul, Matrix.col_apply, hb] at h2
      linarith
    · have h2 := hval _ hpt
      rw [dotProduct_add, dotProduct_add, cost hC, cost hD, dotProduct_single, dotProduct_single, hz] at h2
      linarith
  exact ⟨Matrix.ext fun i j => (hcol j).1 i, hb, funext fun j => (hcol j).2, hz⟩

theorem canonicalFor_ns {P : LP m n} {B : Fin m → Fin n} (hn : Nonsing P B) : CanonicalFor P (canon P B) B :=
  ⟨canon_col hn, canon_c_basic hn, fun x => canon_eq_iff hn x, fun _ hx => canon_objVal hx⟩

/-- The canonical form of a canonical form is the canonical form of the program. -/
theorem canon_of_canon {P : LP m n} {B B' : Fin m → Fin n} (h : Nonsing P B) (h' : Nonsing P B')
    (h'' : Nonsing (canon P B) B') : canon (canon P B) B' = canon P B' := by
  have h1 := canonicalFor_ns h''
  have h2 : CanonicalFor P (canon (canon P B) B') B' := by
    refine ⟨h1.unit, h1.cost, fun x => (h1.sols x).trans (canon_eq_iff h x), fun x hx => ?_⟩
    rw [h1.value x ((canon_eq_iff h x).mpr hx), canon_objVal hx]
  obtain ⟨e1, e2, e3, e4⟩ := C145_unique h2 (canonicalFor_ns h')
  have ext : ∀ {E F : LP m n}, E.A = F.A → E.b = F.b → E.c = F.c → E.z = F.z → E.objective = F.objective →
      E.ineq = F.ineq → E.free = F.free → E.neg = F.neg → E.isSef = F.isSef → E = F := by
    rintro ⟨⟩ ⟨⟩ rfl rfl rfl rfl rfl rfl rfl rfl rfl
    rfl
  exact ext e1 e2 e3 e4 rfl rfl rfl rfl rfl

theorem toCanonicalForm_ok {P C : LP m n} {basis : List ℤ} (h : toCanonicalForm P basis = .ok C) :
    P.isSef = true ∧ 0 < m ∧ ∃ B, toArrayIndexing basis = colsList B ∧ tol ≤ |(colSel P.A B).det| ∧ C = canon P B := by
  unfold toCanonicalForm at h
  cases hs : P.isSef with
  | false => simp [hs] at h
  | true =>
    simp only [hs, Bool.not_true, Bool.false_eq_true, if_false] at h
    cases hb : isBasis P basis with
    | error e => simp [hb] at h
    | ok v =>
      cases v with
      | false => simp [hb] at h
      | true =>
        obtain ⟨hm, B, hB, hd⟩ := (isBasis_iff P basis).mp hb
        simp only [hb, hB, toCols_colsList, Except.ok.injEq] at h
        exact ⟨rfl, hm, B, hB, hd, h.symm⟩

theorem toCanonicalForm_of {P : LP m n} {basis : List ℤ} (hs : P.isSef = true) (hm : 0 < m) {B : Fin m → Fin n}
    (hB : toArrayIndexing basis = colsList B) (hd : tol ≤ |(colSel P.A B).det|) :
    toCanonicalForm P basis = .ok (canon P B) := by
  unfold toCanonicalForm
  rw [(isBasis_iff P basis).mpr ⟨hm, B, hB, hd⟩, hB, toCols_colsList]
  simp [hs]

/-- C145: converting a canonical form again for the same basis changes nothing. -/
theorem C145_idempotent {P C : LP m n} {basis : List ℤ} (h : toCanonicalForm P basis = .ok C) :
    toCanonicalForm C basis = .ok C := by
  obtain ⟨hs, hm, B, hB, hd, rfl⟩ := toCanonicalForm_ok h
  have hn := isBasis_nonsing hd
  have h1 : (colSel (canon P B).A B).det = 1 := by rw [colSel_canon hn, Matrix.det_one]
  have hd' : tol ≤ |(colSel (canon P B).A B).det| := by rw [h1]; unfold tol; norm_num
  rw [toCanonicalForm_of (P := canon P B) hs hm hB hd', canon_of_canon hn hn (isBasis_nonsing hd')]

/-- C145: a detour through another basis changes nothing, as long as both calls accept the basis. Missing: bases accepted
by only one of them, see `C145_lost_wrong` and `C145_gained_wrong`. -/
theorem C145_path_partial {P C D E : LP m n} {basis basis' : List ℤ} (h : toCanonicalForm P basis = .ok C)
    (h1 : toCanonicalForm C basis' = .ok D) (h2 : toCanonicalForm P basis' = .ok E) : D = E := by
  obtain ⟨_, _, B, _, hd, rfl⟩ := toCanonicalForm_ok h
  obtain ⟨_, _, B₁, hB₁, hd₁, rfl⟩ := toCanonicalForm_ok h1
  obtain ⟨_, _, B₂, hB₂, hd₂, rfl⟩ := toCanonicalForm_ok h2
  cases colsList_inj (hB₁.symm.trans hB₂)
  exact canon_of_canon (isBasis_nonsing hd) (isBasis_nonsing hd₂) (isBasis_nonsing hd₁)

/-- The determinant a canonical form has at another basis. -/
theorem det_canon {P : LP m n} {B B' : Fin m → Fin n} :
    (colSel (canon P B).A B').det = (colSel P.A B).det⁻¹ * (colSel P.A B').det := by
  have h : colSel (canon P B).A B' = npInv (colSel P.A B) * colSel P.A B' := by
    funext i j; rfl
  rw [h, Matrix.det_mul, npInv_eq, Matrix.det_nonsing_inv, Ring.inverse_eq_inv']

/-- C145: if the determinants of both bases in the program are between `10⁻⁵` and `10⁵`, every detour works. -/
theorem C145_path {P C : LP m n} {basis basis' : List ℤ} (h : toCanonicalForm P basis = .ok C) {B B' : Fin m → Fin n}
    (hl : Lists basis B) (hl' : Lists basis' B') (hd : |(P.A.submatrix id B).det| ≤ 10 ^ 5)
    (hd' : 1 / 10 ^ 5 ≤ |(P.A.submatrix id B').det|) : toCanonicalForm C basis' = toCanonicalForm P basis' := by
  obtain ⟨hs, hm, B₁, hB₁, hd₁, rfl⟩ := toCanonicalForm_ok h
  cases colsList_inj (hB₁.symm.trans (toArrayIndexing_eq_iff.mpr hl))
  have hB' := toArrayIndexing_eq_iff.mpr hl'
  have hn := isBasis_nonsing hd₁
  have hpos : 0 < |(colSel P.A B).det| := abs_pos.mpr hn
  have e2 : tol ≤ |(colSel P.A B').det| := le_trans (by unfold tol; norm_num) hd'
  have e1 : tol ≤ |(colSel (canon P B).A B').det| := by
    rw [det_canon, abs_mul, abs_inv, ← div_eq_inv_mul, le_div_iff₀ hpos]
    refine le_trans (mul_le_mul_of_nonneg_left (show |(colSel P.A B).det| ≤ 10 ^ 5 from hd) tol_pos.le) (le_trans ?_ hd')
    unfold tol; norm_num
  rw [toCanonicalForm_of hs hm hB' e2, toCanonicalForm_of (P := canon P B) hs hm hB' e1,
    canon_of_canon hn (isBasis_nonsing e2) (isBasis_nonsing e1)]

/-- C145: listing the basis in another order permutes the rows of the canonical form the same way and changes nothing
else. -/
theorem C145_order {P C D : LP m n} {basis basis' : List ℤ} (h : toCanonicalForm P basis = .ok C)
    (h' : toCanonicalForm P basis' = .ok D) {B : Fin m → Fin n} {σ : Equiv.Perm (Fin m)} (hl : Lists basis B)
    (hl' : Lists basis' (B ∘ σ)) :
    (∀ i j, D.A i j = C.A (σ i) j) ∧ (∀ i, D.b i = C.b (σ i)) ∧ D.c = C.c ∧ D.z = C.z := by
  obtain ⟨_, _, B₁, hB₁, hd₁, rfl⟩ := toCanonicalForm_ok h
  cases colsList_inj (hB₁.symm.trans (toArrayIndexing_eq_iff.mpr hl))
  obtain ⟨_, _, B₂, hB₂, hd₂, rfl⟩ := toCanonicalForm_ok h'
  cases colsList_inj (hB₂.symm.trans (toArrayIndexing_eq_iff.mpr hl'))
  have hC := canonicalFor_canon hd₁
  have hD := canonicalFor_canon hd₂
  let F : LP m n := { canon P B with A := fun i j => (canon P B).A (σ i) j, b := fun i => (canon P B).b (σ i) }
  have hF : CanonicalFor P F (B ∘ σ) := by
    refine ⟨fun i k => ?_, fun k => hC.cost (σ k), fun x => ?_, hC.value⟩
    · have := hC.unit (σ i) (σ k)
      simpa [F] using this
    · rw [← hC.sols x]
      constructor
      · intro hx
        funext i
        have := congrFun hx (σ.symm i)
        simpa [F, Matrix.mulVec] using this
      · intro hx
        funext i
        exact congrFun hx (σ i)
  obtain ⟨e1, e2, e3, e4⟩ := C145_unique hD hF
  exact ⟨fun i j => congrFun (congrFun e1 i) j, fun i => congrFun e2 i, e3, e4⟩

/-! ### Iterating in place -/

theorem det_pivot {P : LP m n} {B B' : Fin m → Fin n} (h : Nonsing P B) (hmono : Monotone B') {r : Fin m} {k : Fin n}
    (hk : ∀ i, B i ≠ k) (hr : (canon P B).A r k ≠ 0) (hp : Pivot B r k B') :
    |(colSel (canon P B).A B').det| = |(canon P B).A r k| := by
  have hU : colSel (canon P B).A (Function.update B r k) =
      (1 : Matrix (Fin m) (Fin m) ℚ).updateCol r fun i => (canon P B).A i k := by
    funext i j
    by_cases hj : j = r
    · subst hj; simp [colSel]
    · rw [Matrix.updateCol_ne hj, ← colSel_canon h]
      simp [colSel, hj]
  have hdet : (colSel (canon P B).A (Function.update B r k)).det = (canon P B).A r k := by
    rw [hU, ← Matrix.cramer_apply, Matrix.cramer_one]; rfl
  have hpU : Pivot B r k (Function.update B r k) := by
    intro j
    constructor
    · rintro ⟨i, rfl⟩
      by_cases hi : i = r
      · left; simp [hi]
      · right
        refine ⟨⟨i, by simp [hi]⟩, ?_⟩
        rw [Function.update_of_ne hi]
        exact fun he => hi (h.inj he)
    · rintro (rfl | ⟨⟨i, rfl⟩, hi⟩)
      · exact ⟨r, by simp⟩
      · exact ⟨i, by rw [Function.update_of_ne fun he => hi (by rw [he])]⟩
  have hn' := hp.nonsing h hk hr
  have hnU := hpU.nonsing h hk hr
  have hs : SameCols (Function.update B r k) B' := fun j => (hpU j).trans (hp j).symm
  have heq : sortCols (Function.update B r k) = B' := by
    have hss := sortCols_same (Function.update B r k)
    refine (StrictMono.range_inj ((sortCols_mono _).strictMono_of_injective (hnU.same hss).inj)
      (hmono.strictMono_of_injective hn'.inj)).mp (Set.ext fun j => ?_)
    exact ((hss j).symm.trans (hs j))
  rw [← hdet, ← abs_det_sort _ (Function.update B r k), heq]

/-- C145: the basis returned by `simplex_iteration` is a basis of the program it leaves behind (so the next call in place
never raises `ValueError`), and that program is the canonical form for the basis passed, sorted. -/
theorem C145_next {P C : LP m n} {basis basis' : List ℤ} (h : simplexIteration P basis = .ok (.next basis' C)) :
    isBasis C basis' = .ok true ∧ ∃ l, l.Perm basis ∧ toCanonicalForm P l = .ok C := by
  obtain ⟨hs, hb⟩ := simplexIteration_error h
  obtain ⟨hm, B, hB, hd⟩ := (isBasis_iff P basis).mp hb
  have hd' : tol ≤ |(colSel P.A (sortCols B)).det| := by rwa [abs_det_sort]
  have hn := isBasis_nonsing hd'
  have hspec := simplexIteration_spec hs hm hB hd
  rw [h] at hspec
  cases hspec with
  | next k hk hck hmin r hr hr' B' hB' hp =>
    refine ⟨(isBasis_iff _ _).mpr ⟨hm, B', by rw [toArrayIndexing_succ], ?_⟩, (colsList (sortCols B)).map (· + 1), ?_, ?_⟩
    · rw [det_pivot hn hB' hk (by have := tol_pos; intro h0; rw [h0] at hr; linarith) hp]
      exact le_trans hr (le_abs_self _)
    · rw [← succ_toArrayIndexing basis, hB, ← sortInt_colsList]
      exact (List.perm_insertionSort _ _).map _
    · exact toCanonicalForm_of hs hm (by rw [toArrayIndexing_succ]) hd'

theorem simplexIteration_canon {P : LP m n} (hs : P.isSef = true) {B₀ : Fin m → Fin n} (h₀ : Nonsing P B₀) {basis : List ℤ}
    (h : isBasis P basis = .ok true) (h' : isBasis (canon P B₀) basis = .ok true) :
    simplexIteration (canon P B₀) basis = simplexIteration P basis := by
  obtain ⟨hm, B, hB, hd⟩ := (isBasis_iff P basis).mp h
  obtain ⟨_, B₁, hB₁, hd₁⟩ := (isBasis_iff _ basis).mp h'
  cases colsList_inj (hB.symm.trans hB₁)
  have hs' : (canon P B₀).isSef = true := hs
  unfold simplexIteration
  rw [h, h']
  simp only [hs, hs', hB, sortInt_colsList, toCols_colsList, Bool.not_true, Bool.false_eq_true, if_false]
  rw [canon_flip, canon_flip, canon_of_canon h₀ ((isBasis_nonsing hd).same (sortCols_same B))
    ((isBasis_nonsing hd₁).same (sortCols_same B))]

/-- C145: an iteration on the program left behind by an iteration is the same as one on the program before it, when the
latter accepts the basis. -/
theorem C145_iteration_partial {P C : LP m n} {basis basis' : List ℤ} (h : simplexIteration P basis = .ok (.next basis' C))
    (h' : isBasis P basis' = .ok true) : simplexIteration C basis' = simplexIteration P basis' := by
  obtain ⟨hb, l, _, hl⟩ := C145_next h
  obtain ⟨hs, _, B, _, hd, rfl⟩ := toCanonicalForm_ok hl
  exact simplexIteration_canon hs (isBasis_nonsing hd) h' hb

/-- What a caller gets who calls `simplex_iteration(basis, in_place=True)` with the basis it returned until it reports
that it is done (not part of `/repo`). -/
def inPlaceLoop : ℕ → LP m n → List ℤ → Except PyErr (Iter m n)
  | 0, _, _ => .error .notTerminated
  | fuel + 1, P, basis =>
    match simplexIteration P basis with
    | .error e => .error e
    | .ok (.next basis' C) => inPlaceLoop fuel C basis'
    | .ok r => .ok r

/-- C145: whenever the loop of `simplex`, which starts every iteration from the program itself, ends, iterating in place
ends after as many iterations with the same answer and the same program. Missing: programs on which the loop of `simplex`
raises, see `C145_loop_wrong`. -/
theorem C145_loop_partial {P : LP m n} {basis : List ℤ} {fuel : ℕ} {r : Iter m n} (h : simplexLoop fuel P basis = .ok r) :
    inPlaceLoop fuel P basis = .ok r := by
  have key : ∀ (fuel : ℕ) (Q : LP m n) (basis : List ℤ),
      (Q = P ∨ ∃ B, Nonsing P B ∧ Q = canon P B ∧ isBasis Q basis = .ok true) →
      simplexLoop fuel P basis = .ok r → inPlaceLoop fuel Q basis = .ok r := by
    intro fuel
    induction fuel with
    | zero => intro Q basis _ h; exact h
    | succ fuel ih =>
      intro Q basis hQ h
      have hex : ∃ it, simplexIteration P basis = .ok it := by
        rw [simplexLoop] at h
        cases hi : simplexIteration P basis with
        | error e => rw [hi] at h; cases h
        | ok it => exact ⟨it, rfl⟩
      obtain ⟨it, hit⟩ := hex
      obtain ⟨hs, hb⟩ := simplexIteration_error hit
      have hq : simplexIteration Q basis = simplexIteration P basis := by
        rcases hQ with rfl | ⟨B, hB, rfl, hb'⟩
        · rfl
        · exact simplexIteration_canon hs hB hb hb'
      rw [simplexLoop, hit] at h
      rw [inPlaceLoop, hq, hit]
      cases it with
      | next basis' C =>
        obtain ⟨hb', l, _, hl⟩ := C145_next hit
        obtain ⟨_, _, B, _, hd, rfl⟩ := toCanonicalForm_ok hl
        exact ih _ _ (.inr ⟨B, isBasis_nonsing hd, rfl, hb'⟩) h
      | optimal x b C => exact h
      | unbounded x b C => exact h
  exact key fuel P basis (.inl rfl) h

/-! ### Tolerances -/

/-- One equation in two variables. -/
def twoCols (a₁ a₂ b : ℚ) : LP 1 2 := ⟨!![a₁, a₂], ![b], ![0, 1], 0, .max, fun _ => .eq, [], [], true⟩

/-- C145 is false as stated: after `to_canonical_form([1])` the basis `[2]` is refused though the program itself
accepts it. -/
theorem C145_lost_wrong : ∃ C : LP 1 2, toCanonicalForm (twoCols (10 ^ 6) (1 / 10 ^ 6) 1) [1] = .ok C ∧
    toCanonicalForm C [2] = .error .valueError ∧ ∃ D, toCanonicalForm (twoCols (10 ^ 6) (1 / 10 ^ 6) 1) [2] = .ok D := by
  have h1 : isBasis (twoCols (10 ^ 6) (1 / 10 ^ 6) 1) [1] = .ok true := by decide +kernel
  have h2 : isBasis (twoCols (10 ^ 6) (1 / 10 ^ 6) 1) [2] = .ok true := by decide +kernel
  refine ⟨canon _ ![0], by unfold toCanonicalForm; rw [h1]; rfl, ?_, canon _ ![1], by unfold toCanonicalForm; rw [h2]; rfl⟩
  exact (C36_raises _ _).2 rfl (by decide +kernel)

/-- C145 is false as stated: after `to_canonical_form([1])` the basis `[2]` is accepted though the program itself
refuses it. -/
theorem C145_gained_wrong : ∃ C : LP 1 2, toCanonicalForm (twoCols (1 / 10 ^ 9) (1 / (2 * 10 ^ 10)) (1 / 10 ^ 9)) [1] = .ok C ∧
    (∃ D, toCanonicalForm C [2] = .ok D) ∧
    toCanonicalForm (twoCols (1 / 10 ^ 9) (1 / (2 * 10 ^ 10)) (1 / 10 ^ 9)) [2] = .error .valueError := by
  obtain ⟨hm, B, hB, hd⟩ := (isBasis_iff _ [2]).mp (show isBasis (canon (twoCols (1 / 10 ^ 9) (1 / (2 * 10 ^ 10)) (1 / 10 ^ 9))
    ![0]) [2] = .ok true by decide +kernel)
  exact ⟨_, toCanonicalForm_of (B := ![0]) rfl (by decide) (by decide) (by decide +kernel),
    ⟨_, toCanonicalForm_of (B := B) rfl hm hB hd⟩, (C36_raises _ _).2 rfl (by decide +kernel)⟩

/-- The optimal point reached, if any. -/
def reached {m n : ℕ} : Except PyErr (Iter m n) → Option (List ℚ × List ℤ)
  | .ok (.optimal x basis _) => some (List.ofFn x, basis)
  | _ => none

/-- C145 is false as stated: iterating in place finds the optimum of this program, while the loop of `simplex` raises
`ValueError` at the second basis. -/
theorem C145_loop_wrong : reached (inPlaceLoop 2 (twoCols (1 / 10 ^ 9) (1 / (2 * 10 ^ 10)) (1 / 10 ^ 9)) [1]) = some ([0, 20], [2]) ∧
    ((simplexLoop 2 (twoCols (1 / 10 ^ 9) (1 / (2 * 10 ^ 10)) (1 / 10 ^ 9)) [1]).toOption.isNone = true) := by
  decide +kernel

/-! ### Not vacuous -/

/-- Two rows, four columns. -/
def pathProg : LP 2 4 := ⟨!![1, 1, 1, 0; 2, 1, 0, 1], ![4, 6], ![3, 2, 0, 0], 0, .max, fun _ => .eq, [], [], true⟩

example : reached (simplexLoop 3 pathProg [3, 4]) = some ([2, 2, 0, 0], [1, 2]) ∧
    reached (inPlaceLoop 3 pathProg [3, 4]) = some ([2, 2, 0, 0], [1, 2]) := by decide +kernel

example : (∃ C, toCanonicalForm pathProg [4, 1] = .ok C) ∧ Lists [4, 1] (![3, 0] : Fin 2 → Fin 4) ∧
    Lists [1, 4] (![3, 0] ∘ (Equiv.swap 0 1) : Fin 2 → Fin 4) ∧ |(pathProg.A.submatrix id ![3, 0]).det| ≤ 10 ^ 5 ∧
    1 / 10 ^ 5 ≤ |(pathProg.A.submatrix id (![0, 1] : Fin 2 → Fin 4)).det| := by
  have h1 : isBasis pathProg [4, 1] = .ok true := by decide +kernel
  refine ⟨⟨canon _ ![3, 0], by unfold toCanonicalForm; rw [h1]; rfl⟩, by unfold Lists; decide +kernel, by unfold Lists; decide +kernel, by decide +kernel,
    by decide +kernel⟩

example : ∃ b C, simplexIteration pathProg [3, 4] = .ok (.next b C) ∧ isBasis pathProg b = .ok true := by
  cases h : simplexIteration pathProg [3, 4] with
  | error e => exact absurd h (by
      have : (simplexIteration pathProg [3, 4]).toOption.isSome = true := by decide +kernel
      intro he; rw [he] at this; cases this)
  | ok it =>
    have h2 : (match simplexIteration pathProg [3, 4] with | .ok (.next b _) => decide (isBasis pathProg b = .ok true) | _ => false) = true := by
      decide +kernel
    rw [h] at h2
    cases it with
    | next b C => exact ⟨b, C, rfl, of_decide_eq_true h2⟩
    | optimal => cases h2
    | unbounded => cases h2

end Props
end Pytimize
