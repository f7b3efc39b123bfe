/-
Helper lemmas about the relaxation and the nodes of branch and bound.
-/
import Mathlib.Logic.Relation
import Verif.LP.Integer
import Verif.LP.Sef
import Verif.Props.Solve
import Verif.Props.Comparator

namespace Pytimize
namespace LinProg

open Comparator Matrix
open Props

variable {m n : ℕ}

/-- The program a child node holds. -/
def child (P : LP m n) (pos : ℕ) (q : Ineq) (k : ℚ) : LP (m + 1) n where
  A := (Fin.snoc (α := fun _ => Fin n → ℚ) P.A (fun j => if (j : ℕ) = pos then 1 else 0) : Fin (m + 1) → Fin n → ℚ)
  b := Fin.snoc (α := fun _ => ℚ) P.b k
  c := P.c
  z := P.z
  objective := P.objective
  ineq := Fin.snoc (α := fun _ => Ineq) P.ineq q
  free := []
  neg := []
  isSef := sefFlag (Fin.snoc (α := fun _ => Ineq) P.ineq q) [] [] P.objective

theorem ofFn_snoc {α : Type} {m : ℕ} (f : Fin m → α) (a : α) :
    List.ofFn (Fin.snoc (α := fun _ => α) f a : Fin (m + 1) → α) = List.ofFn f ++ [a] := by
  rw [List.ofFn_succ']
  simp

theorem childProg_eq (P : LP m n) (pos : ℕ) (q : Ineq) (k : ℚ) :
    childProg P pos q.sym k = .ok ⟨m + 1, n, child P pos q k⟩ := by
  unfold childProg
  rw [ctor_iff]
  refine ⟨Or.inl rfl, Or.inl ?_, Or.inl rfl, rfl, rfl, Or.inr ?_, ?_, ?_, ?_, ?_⟩
  · simp only [child, ofFn_snoc]
  · simp only [child, LP.inequalities]
    congr 1
    have : (fun i => (Fin.snoc (α := fun _ => Ineq) P.ineq q i : Ineq).sym) =
        (Fin.snoc (α := fun _ => String) (fun i => (P.ineq i).sym) q.sym : Fin (m + 1) → String) := by
      funext i
      refine Fin.lastCases ?_ (fun i => ?_) i <;> simp
    rw [this, ofFn_snoc]
  · exact ⟨by simp [child], by simp [child], by simp [child]⟩
  · exact ⟨by simp [child], by simp [child], by simp [child]⟩
  · simp [child]
  · simp only [child]
    rw [sefFlag_iff]
    tauto

theorem child_wf (P : LP m n) (pos : ℕ) (q : Ineq) (k : ℚ) : WF (child P pos q k) :=
  ctor_wf (p := ⟨m + 1, n, child P pos q k⟩) (by have h := childProg_eq P pos q k; unfold childProg at h; exact h)

theorem feas_child (P : LP m n) (pos : Fin n) (q : Ineq) (k : ℚ) (y : Fin n → ℚ) :
    Feas (child P pos q k) y ↔
      (∀ i, rowHolds (P.ineq i) ((P.A.mulVec y) i) (P.b i)) ∧ rowHolds q (y pos) k ∧ ∀ j, 0 ≤ y j := by
  have hl : (child P pos q k).A.mulVec y (Fin.last m) = y pos := by
    have : (child P pos q k).A (Fin.last m) = fun j : Fin n => if (j : ℕ) = pos then 1 else 0 :=
      Fin.snoc_last (α := fun _ => Fin n → ℚ) _ _
    simp only [Matrix.mulVec, this, dotProduct]
    simp [Fin.val_inj]
  have hc : ∀ i : Fin m, (child P pos q k).A.mulVec y i.castSucc = P.A.mulVec y i := by
    intro i
    have : (child P pos q k).A i.castSucc = P.A i := Fin.snoc_castSucc (α := fun _ => Fin n → ℚ) _ _ _
    simp only [Matrix.mulVec, this]
  constructor
  · intro h
    refine ⟨fun i => ?_, ?_, fun j => h.poss j (by simp [child]) (by simp [child])⟩
    · have := h.rows i.castSucc
      rw [hc] at this
      simpa only [child, Fin.snoc_castSucc] using this
    · have := h.rows (Fin.last m)
      rw [hl] at this
      simpa only [child, Fin.snoc_last] using this
  · rintro ⟨h1, h2, h3⟩
    refine ⟨fun i => ?_, fun j hj => by simp [child] at hj, fun j _ _ => h3 j⟩
    refine Fin.lastCases ?_ (fun i => ?_) i
    · rw [hl]; simpa only [child, Fin.snoc_last] using h2
    · rw [hc]; simpa only [child, Fin.snoc_castSucc] using h1 i

theorem objVal_child (P : LP m n) (pos : ℕ) (q : Ineq) (k : ℚ) (y : Fin n → ℚ) :
    objVal (child P pos q k) y = objVal P y := rfl

/-! ### `relax` -/

theorem relax_eq (I : IntProgram) (h : WF I.prog.lp) : relax I = .ok I.prog := by
  have hidx : ∀ l : List ℕ, l.Pairwise (· < ·) → (∀ j ∈ l, j < I.prog.n) →
      IndexSpec I.prog.n (toMathIndexing l) l := by
    intro l h1 h2
    exact ⟨h1, h2, by unfold toMathIndexing; exact List.Perm.refl _⟩
  unfold relax
  rw [ctor_iff]
  refine ⟨Or.inl rfl, Or.inl rfl, Or.inl rfl, rfl, rfl, Or.inr rfl, ?_, ?_, h.disj, ?_⟩
  · exact hidx _ h.freeSorted h.freeLt
  · exact hidx _ h.negSorted h.negLt
  · rw [h.sef, sefFlag_iff]; tauto

/-! ### The nodes -/

/-- `R` is one of the two programs branched to from `Q`. -/
inductive IsChild (sf : ℕ) (integral : Option (List ℤ)) : Prog → Prog → Prop
  | lower {m n : ℕ} {Q : LP m n} {v pos q} : solve sf Q = .ok (some v) →
      firstFractional integral 0 v = some (pos, q) →
      IsChild sf integral ⟨m, n, Q⟩ ⟨m + 1, n, child Q pos .le (⌊q⌋ : ℤ)⟩
  | upper {m n : ℕ} {Q : LP m n} {v pos q} : solve sf Q = .ok (some v) →
      firstFractional integral 0 v = some (pos, q) →
      IsChild sf integral ⟨m, n, Q⟩ ⟨m + 1, n, child Q pos .ge (⌈q⌉ : ℤ)⟩

/-- `Q` is a node of the search tree below `P`. -/
def Visits (sf : ℕ) (integral : Option (List ℤ)) : Prog → Prog → Prop :=
  Relation.ReflTransGen (IsChild sf integral)

theorem firstFractional_none {integral : Option (List ℤ)} {v : List ℚ} : ∀ {i : ℕ},
    firstFractional integral i v = none → ∀ j (h : j < v.length), looksAt integral (i + j) = true →
      isInteger v[j] = true := by
  induction v with
  | nil => intro i _ j h; simp at h
  | cons a v ih =>
    intro i h j hj hl
    unfold firstFractional at h
    split at h
    · cases h
    · rename_i hc
      cases j with
      | zero =>
        simp only [Nat.add_zero] at hl
        simpa [hl] using hc
      | succ j =>
        have := ih h j (by simpa using hj) (by rw [← hl]; congr 1; omega)
        simpa using this

theorem firstFractional_some {integral : Option (List ℤ)} {v : List ℚ} {pos : ℕ} {q : ℚ} : ∀ {i : ℕ},
    firstFractional integral i v = some (pos, q) → ∃ (j : ℕ) (h : j < v.length), pos = i + j ∧ v[j] = q ∧
      looksAt integral pos = true ∧ isInteger q = false := by
  induction v with
  | nil => intro i h; simp [firstFractional] at h
  | cons a v ih =>
    intro i h
    unfold firstFractional at h
    split at h
    · rename_i hc
      simp only [Bool.and_eq_true, Bool.not_eq_true'] at hc
      simp only [Option.some.injEq, Prod.mk.injEq] at h
      obtain ⟨rfl, rfl⟩ := h
      exact ⟨0, by simp, rfl, by simp, hc.1, hc.2⟩
    · obtain ⟨j, hj, rfl, h2, h3⟩ := ih h
      exact ⟨j + 1, by simpa using hj, by omega, by simpa using h2, h3⟩

/-- The cases of a successful call. -/
theorem branch_ok {sf : ℕ} {integral : Option (List ℤ)} {fuel : ℕ} {Q : LP m n} {r : Option (List ℚ × ℚ)}
    (h : branch sf integral fuel ⟨m, n, Q⟩ = .ok r) : ∃ f, fuel = f + 1 ∧
      ((solve sf Q = .ok none ∧ r = none) ∨
        ∃ v value, solve sf Q = .ok (some v) ∧ evaluate Q v = .ok value ∧
          ((firstFractional integral 0 v = none ∧ r = some (v, value)) ∨
            ∃ pos q rl rh, firstFractional integral 0 v = some (pos, q) ∧
              branch sf integral f ⟨m + 1, n, child Q pos .le (⌊q⌋ : ℤ)⟩ = .ok rl ∧
              branch sf integral f ⟨m + 1, n, child Q pos .ge (⌈q⌉ : ℤ)⟩ = .ok rh ∧ r = betterOf rl rh)) := by
  cases fuel with
  | zero => simp [branch] at h
  | succ f =>
    refine ⟨f, rfl, ?_⟩
    have h1 : ∀ pos (q : ℚ), childProg Q pos "<=" (⌊q⌋ : ℤ) = .ok ⟨m + 1, n, child Q pos .le (⌊q⌋ : ℤ)⟩ :=
      fun pos q => childProg_eq Q pos .le _
    have h2 : ∀ pos (q : ℚ), childProg Q pos ">=" (⌈q⌉ : ℤ) = .ok ⟨m + 1, n, child Q pos .ge (⌈q⌉ : ℤ)⟩ :=
      fun pos q => childProg_eq Q pos .ge _
    rw [branch] at h
    simp only [h1, h2] at h
    generalize hs : solve sf Q = s at h
    rcases s with e | _ | v
    · cases h
    · left; cases h; exact ⟨rfl, rfl⟩
    · right
      refine ⟨v, ?_⟩
      simp only at h
      generalize hev : evaluate Q v = ev at h
      rcases ev with e | value
      · cases h
      · refine ⟨value, rfl, rfl, ?_⟩
        simp only at h
        generalize hff : firstFractional integral 0 v = ff at h
        rcases ff with _ | ⟨pos, q⟩
        · left; cases h; exact ⟨rfl, rfl⟩
        · right
          refine ⟨pos, q, ?_⟩
          simp only at h
          generalize hl : branch sf integral f ⟨m + 1, n, child Q pos .le (⌊q⌋ : ℤ)⟩ = l at h
          rcases l with e | rl
          · cases h
          · simp only at h
            generalize hh : branch sf integral f ⟨m + 1, n, child Q pos .ge (⌈q⌉ : ℤ)⟩ = u at h
            rcases u with e | rh
            · cases h
            · cases h; exact ⟨rl, rh, rfl, rfl, rfl, rfl⟩

theorem betterOf_cases (l h : Option (List ℚ × ℚ)) : betterOf l h = l ∨ betterOf l h = h := by
  cases l <;> cases h <;> simp only [betterOf, true_or, or_true]
  split <;> simp

/-! ### Solutions of integer data are fractions with a small denominator -/

theorem negAt_closed {S : ℚ → Prop} (hneg : ∀ a, S a → S (-a)) {f : ℕ → ℚ} (hf : ∀ j, S (f j)) (k : ℕ) :
    ∀ j, S (negAt f k j) := by
  intro j
  unfold negAt
  split
  · rw [mul_neg_one]; exact hneg _ (hf j)
  · exact hf j

theorem mergeL_closed {S : ℚ → Prop} (hsub : ∀ a b, S a → S b → S (a - b)) : ∀ (l : List ℕ) (i : ℕ) {f : ℕ → ℚ},
    (∀ j, S (f j)) → ∀ j, S (mergeL l i f j)
  | [], _, _, hf => hf
  | a :: l, i, f, hf => by
    intro j
    have ih := mergeL_closed hsub l (i + 1) hf
    unfold mergeL mergeAt
    split
    · exact ih _
    · split
      · exact hsub _ _ (ih _) (ih _)
      · exact ih _

theorem backN_closed {S : ℚ → Prop} (hneg : ∀ a, S a → S (-a)) (hsub : ∀ a b, S a → S b → S (a - b))
    (P : LP m n) {f : ℕ → ℚ} (hf : ∀ j, S (f j)) : ∀ j, S (backN P f j) := by
  unfold backN
  have : ∀ (l : List ℕ) {g : ℕ → ℚ}, (∀ j, S (g j)) → ∀ j, S (l.foldl negAt g j) := by
    intro l
    induction l with
    | nil => intro g hg; exact hg
    | cons a l ih => intro g hg; exact ih (negAt_closed hneg hg a)
  exact this _ (mergeL_closed hsub _ _ hf)

theorem mergeL_linear : ∀ (l : List ℕ) (i : ℕ) (f g : ℕ → ℚ) (t : ℚ) (j : ℕ),
    mergeL l i (fun j => f j + t * g j) j = mergeL l i f j + t * mergeL l i g j
  | [], _, _, _, _, _ => rfl
  | a :: l, i, f, g, t, j => by
    have ih := mergeL_linear l (i + 1) f g t
    unfold mergeL mergeAt
    simp only [ih]
    split
    · rfl
    · split
      · ring
      · rfl

theorem backN_linear (P : LP m n) (f g : ℕ → ℚ) (t : ℚ) (j : ℕ) :
    backN P (fun j => f j + t * g j) j = backN P f j + t * backN P g j := by
  unfold backN
  have : ∀ (l : List ℕ) (a b c : ℕ → ℚ), (∀ j, a j = b j + t * c j) →
      ∀ j, l.foldl negAt a j = l.foldl negAt b j + t * l.foldl negAt c j := by
    intro l
    induction l with
    | nil => intro a b c h; exact h
    | cons k l ih =>
      intro a b c h
      refine ih _ _ _ fun j => ?_
      unfold negAt
      split
      · rw [h]; ring
      · exact h j
  exact this _ _ _ _ (mergeL_linear _ _ f g t) j

/-- The point of the program described by a point of the SEF. -/
theorem reverse_closed {P : LP m n} (hP : WF P) {S : ℚ → Prop} (hneg : ∀ a, S a → S (-a))
    (hsub : ∀ a b, S a → S b → S (a - b)) {s : Fin (toSef P).n → ℚ} (hs : ∀ j, S (s j)) {x : Fin n → ℚ}
    (hx : reverseSol (toSef P).rev s = List.ofFn x) (j : Fin n) : S (x j) := by
  cases hsef : P.isSef with
  | true =>
    have e : toSef P = ⟨n, P, none⟩ := by simp [toSef, hsef]
    revert s hs hx
    rw [e]
    intro s hs hx
    have : s = x := List.ofFn_injective hx
    rw [← this]; exact hs j
  | false =>
    rw [reverseSol_eq P hP hsef] at hx
    have := List.ofFn_injective hx
    rw [← this]
    have h0 : (toSef P).n ≠ 0 := by
      have : (toSef P).n = (sefCols P).n := by simp [toSef, hsef]
      rw [this, sefCols_n]
      have := j.2
      omega
    have hz : S 0 := by
      have := hsub _ _ (hs ⟨0, by omega⟩) (hs ⟨0, by omega⟩)
      rwa [sub_self] at this
    refine backN_closed hneg hsub P (fun i => ?_) _
    unfold ext
    split
    · exact hs _
    · exact hz

theorem sol_frac {P : LP m n} {K L : ℕ} (h : IntData P K L) {B : Fin m → Fin n} (hB : Nonsing P B) :
    ∃ d : ℤ, d ≠ 0 ∧ |(d : ℚ)| ≤ K ∧ ∀ j, ∃ z : ℤ, d * sol P B j = z := by
  obtain ⟨M, b, c, hA, hb, hc⟩ := h.data
  have hcol : colSel P.A B = (M.submatrix id B).map ((↑) : ℤ → ℚ) := by rw [hA]; rfl
  have hdet : (colSel P.A B).det = ((M.submatrix id B).det : ℚ) := by rw [hcol, det_cast]
  have hd : ((M.submatrix id B).det : ℚ) ≠ 0 := by rw [← hdet]; exact hB
  refine ⟨(M.submatrix id B).det, by exact_mod_cast hd, ?_, fun j => ?_⟩
  · rw [← hdet]; exact h.detK B
  · by_cases hj : ∃ i, B i = j
    · obtain ⟨i, rfl⟩ := hj
      refine ⟨((M.submatrix id B).updateCol i b).det, ?_⟩
      have hup : ((colSel P.A B).updateCol i P.b).det = (((M.submatrix id B).updateCol i b).det : ℚ) := by
        rw [← det_cast, Matrix.map_updateCol, hcol, hb]
        rfl
      rw [sol_apply hB, canon_b_cramer, hdet, hup, ← mul_assoc, mul_inv_cancel₀ hd, one_mul]
    · exact ⟨0, by rw [sol_off hB fun i hi => hj ⟨i, hi⟩]; simp⟩

/-- A fraction with denominator at most `K` that is within the tolerance of an integer is one. -/
theorem int_of_near {d : ℤ} {K : ℕ} (hd : d ≠ 0) (hK : |(d : ℚ)| ≤ K) (hK' : K ≤ 10 ^ 10) {x : ℚ} {z : ℤ}
    (hz : d * x = z) (h : isInteger x = true) : ∃ k : ℤ, x = k := by
  obtain ⟨k, hk⟩ := (C03_isInteger_iff x).mp h
  refine ⟨k, ?_⟩
  have hd' : (d : ℚ) ≠ 0 := by exact_mod_cast hd
  have h1 : |((z - d * k : ℤ) : ℚ)| < 1 := by
    have e : ((z - d * k : ℤ) : ℚ) = d * (x - k) := by push_cast; rw [← hz]; ring
    rw [e, abs_mul]
    have h2 : |(d : ℚ)| * |x - k| < K * (1 / 10 ^ 10) := by
      have : 0 < |(d : ℚ)| := abs_pos.mpr hd'
      calc |(d : ℚ)| * |x - k| < |(d : ℚ)| * (1 / 10 ^ 10) := by gcongr
        _ ≤ _ := by gcongr
    have h3 : (K : ℚ) ≤ 10 ^ 10 := by exact_mod_cast hK'
    have h4 : (K : ℚ) * (1 / 10 ^ 10) ≤ 10 ^ 10 * (1 / 10 ^ 10) := by gcongr
    norm_num at h2 h4 ⊢
    linarith
  have h2 : |z - d * k| < 1 := by exact_mod_cast h1
  have h3 : z - d * k = 0 := Int.abs_lt_one_iff.mp h2
  have h4 : (z : ℚ) = d * k := by
    have : z = d * k := by omega
    rw [this]; push_cast; ring
  rw [h4] at hz
  exact mul_left_cancel₀ hd' hz

/-- With integer data, an entry of a solution that `is_integer` accepts is an integer. -/
theorem solve_clear {sf : ℕ} {P : LP m n} (hP : WF P) {K L : ℕ} (hi : IntData (toSef P).lp K L)
    (hK : K ≤ 10 ^ 10) {x : Fin n → ℚ} (h : solve sf P = .ok (some (List.ofFn x))) (j : Fin n)
    (hj : isInteger (x j) = true) : ∃ k : ℤ, x j = k := by
  obtain ⟨s, basis, l, y, hsim, hx⟩ := solve_some h
  obtain ⟨hm, hs, D, _, hd, rfl, rfl, rfl, hc, hx'⟩ := simplex_optimal hsim
  have hn := isBasis_nonsing hd
  obtain ⟨d, hd0, hdK, hz⟩ := sol_frac hi hn
  obtain ⟨z, hz⟩ := reverse_closed (S := fun a => ∃ z : ℤ, (d : ℚ) * a = z) hP
    (fun a ⟨z, h⟩ => ⟨-z, by rw [mul_neg, h]; push_cast; rfl⟩)
    (fun a b ⟨z, h⟩ ⟨w, h'⟩ => ⟨z - w, by rw [mul_sub, h, h']; push_cast; rfl⟩) hz hx.symm j
  exact int_of_near hd0 hdK hK hz hj

/-! ### When the relaxation has no optimal solution -/

/-- A ray along which the objective improves. -/
def Ray (P : LP m n) : Prop := ∃ x d : Fin n → ℚ, (∀ t : ℚ, 0 ≤ t → Feas P (x + t • d)) ∧
  (P.objective = .max → 0 < P.c ⬝ᵥ d) ∧ (P.objective = .min → P.c ⬝ᵥ d < 0)

theorem ray_of_sef {P : LP m n} (hP : WF P) {s d : Fin (toSef P).n → ℚ}
    (h1 : ∀ t : ℚ, 0 ≤ t → Feas (toSef P).lp (s + t • d)) (h2 : 0 < (toSef P).lp.c ⬝ᵥ d) : Ray P := by
  cases hsef : P.isSef with
  | true =>
    have e : toSef P = ⟨n, P, none⟩ := by simp [toSef, hsef]
    have hobj := (hP.isSef_iff.mp hsef).2.2.2
    revert s d h1 h2
    rw [e]
    intro s d h1 h2
    exact ⟨s, d, h1, fun _ => h2, fun h => by rw [hobj] at h; cases h⟩
  | false =>
    have hlin : ∀ t : ℚ, (fun j : Fin n => backN P (ext (s + t • d)) j) =
        (fun j : Fin n => backN P (ext s) j) + t • fun j : Fin n => backN P (ext d) j := by
      intro t
      funext j
      have : ext (s + t • d) = fun j => ext s j + t * ext d j := by
        funext i
        unfold ext
        split <;> simp
      rw [this, backN_linear]
      rfl
    refine ⟨fun j => backN P (ext s) j, fun j => backN P (ext d) j, fun t ht => ?_, ?_, ?_⟩
    · rw [← hlin]; exact sef_back P hP hsef _ (h1 t ht)
    · intro ho
      have := sef_obj P hP hsef d
      rw [this] at h2
      simpa [sefC, ho] using h2
    · intro ho
      have := sef_obj P hP hsef d
      rw [this] at h2
      have e : sefC P = -P.c := by funext j; simp [sefC, ho]
      rw [e, neg_dotProduct] at h2
      linarith

theorem slope_pos {P : LP m n} {x d : Fin n → ℚ}
    (h2 : ∀ M : ℚ, ∃ T : ℚ, ∀ t, T ≤ t → M < objVal P (x + t • d)) : 0 < P.c ⬝ᵥ d := by
  obtain ⟨T, hT⟩ := h2 (objVal P x)
  have := hT (max T 1) (le_max_left _ _)
  unfold objVal at this
  rw [dotProduct_add, dotProduct_smul, smul_eq_mul] at this
  have h1 : 0 < max T 1 * (P.c ⬝ᵥ d) := by linarith
  exact (pos_iff_pos_of_mul_pos h1).mp (lt_of_lt_of_le one_pos (le_max_right T 1))

/-- The conditions of `C45_complete_partial` at a node. -/
structure NodeOk (sf : ℕ) (P : LP m n) : Prop where
  rows : 0 < m
  exact : Exact (toSef P).lp
  exactAux : Exact (auxSef (toSef P).lp)
  rank : FullRank (toSef P).lp
  tried : P.isSef = false → isBasis (toSef P).lp (tried m (toSef P).n) = .ok true →
    isBasisFeasible (toSef P).lp (Props.tried m (toSef P).n) = .ok true
  fuel : (toSef P).n ^ m ≤ sf
  fuelAux : ((toSef P).n + m) ^ m ≤ sf

theorem solve_cases {sf : ℕ} {P : LP m n} (hP : WF P) (h : NodeOk sf P) :
    (∃ x, solve sf P = .ok (some (List.ofFn x)) ∧ Optimal P x) ∨ (¬ ∃ x, Feas P x) ∨ Ray P := by
  obtain ⟨a, ha⟩ := (C43_answers_partial _ hP.toSef (toSef_isSef P) h.rows h.exact h.exactAux sf h.fuel
    h.fuelAux).mpr (Or.inl h.rank)
  have hcor := C42_correct_partial sf _ hP.toSef h.exact h.exactAux a ha
  cases a with
  | optimal s l y =>
    left
    obtain ⟨x, _, hx⟩ := optimal_of_sef hP hcor.1 hcor.2.1
    exact C45_complete_partial P hP h.rows h.exact h.exactAux h.rank h.tried sf h.fuel h.fuelAux ⟨x, hx⟩
  | infeasible y =>
    right; left
    rintro ⟨x, hx⟩
    obtain ⟨s, hs, _⟩ := (C32_to_sef_partial P hP).2.2 x hx
    exact hcor.2.2 ⟨s, hs⟩
  | unbounded s d =>
    right; right
    exact ray_of_sef hP hcor.1 (slope_pos hcor.2)

/-- The direction of a ray can be added to every feasible point. -/
theorem Ray.shift {P : LP m n} {x d : Fin n → ℚ} (h : ∀ t : ℚ, 0 ≤ t → Feas P (x + t • d)) {y : Fin n → ℚ}
    (hy : Feas P y) {t : ℚ} (ht : 0 ≤ t) : Feas P (y + t • d) := by
  have key : ∀ a b e : ℚ, (∀ t : ℚ, 0 ≤ t → a + t * e ≤ b) → e ≤ 0 := by
    intro a b e h
    by_contra hlt
    push Not at hlt
    have := h ((|b - a| + 1) / e) (by positivity)
    rw [div_mul_cancel₀ _ (ne_of_gt hlt)] at this
    have := le_abs_self (b - a)
    linarith
  have hlin : ∀ (y : Fin n → ℚ) (t : ℚ) i, (P.A.mulVec (y + t • d)) i = (P.A.mulVec y) i + t * (P.A.mulVec d) i := by
    intro y t i
    rw [Matrix.mulVec_add, Matrix.mulVec_smul]
    rfl
  refine ⟨fun i => ?_, fun j hj => ?_, fun j hj hj' => ?_⟩
  · have h1 : ∀ t : ℚ, 0 ≤ t → rowHolds (P.ineq i) ((P.A.mulVec x) i + t * (P.A.mulVec d) i) (P.b i) := by
      intro t ht
      have := (h t ht).rows i
      rwa [hlin] at this
    have h2 := hy.rows i
    rw [hlin]
    generalize P.ineq i = q at h1 h2
    cases q with
    | le =>
      simp only [rowHolds] at h1 h2 ⊢
      have := key _ _ _ h1
      nlinarith
    | ge =>
      simp only [rowHolds] at h1 h2 ⊢
      have := key (-(P.A.mulVec x) i) (-P.b i) (-(P.A.mulVec d) i) fun t ht => by have := h1 t ht; linarith
      nlinarith
    | eq =>
      simp only [rowHolds] at h1 h2 ⊢
      have h3 := h1 0 le_rfl
      have h4 := h1 1 zero_le_one
      have : (P.A.mulVec d) i = 0 := by linarith
      rw [this, h2]; ring
  · have := key (x j) 0 (d j) fun t ht => by simpa using (h t ht).negs j hj
    have := hy.negs j hj
    simp only [Pi.add_apply, Pi.smul_apply, smul_eq_mul]
    nlinarith
  · have := key (-x j) 0 (-d j) fun t ht => by
      have := (h t ht).poss j hj hj'
      simp only [Pi.add_apply, Pi.smul_apply, smul_eq_mul] at this
      linarith
    have := hy.poss j hj hj'
    simp only [Pi.add_apply, Pi.smul_apply, smul_eq_mul]
    nlinarith

end LinProg
end Pytimize
