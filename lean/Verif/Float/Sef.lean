import Mathlib.LinearAlgebra.Matrix.ToLinearEquiv
import Verif.Float.Rounding
import Verif.LP.Sef
import Verif.LP.TwoPhase

/-!
# `to_sef`, `auxiliary` and the way back from the SEF solution, in floating point

The same operations as in `LP/Sef.lean` and `LP/TwoPhase.lean`, with a rounding after every multiplication and
subtraction. Negation (`-a`) flips a sign bit and is never rounded.
-/

namespace Pytimize
namespace Floating
open LinProg

variable {m n : ℕ}

/-! ### Model -/

/-- `f[k] *= -1`. -/
def fnegAt (R : Rounding) (f : ℕ → ℚ) (k : ℕ) : ℕ → ℚ := fun j => if j = k then R.rd (f j * (-1)) else f j

/-- `f[k] -= f[k + 1]; np.delete(f, k + 1)`, `_linear.py:946-947`. -/
def fmergeAt (R : Rounding) (f : ℕ → ℚ) (k : ℕ) : ℕ → ℚ := fun j =>
  if j < k then f j else if j = k then R.rd (f k - f (k + 1)) else f (j + 1)

/-- One step of the loop `_linear.py:1597-1599`. -/
def fnegColumn (R : Rounding) (s : Cols m) (k : ℕ) : Cols m := ⟨s.n, fun r => fnegAt R (s.A r) k, fnegAt R s.c k⟩

/-- The arrays after all loops of `to_sef`, `_linear.py:1583-1621`. -/
def fsefCols (R : Rounding) (P : LP m n) : Cols m :=
  let c := if P.objective = .min then fun j => -P.c j else P.c
  let s := P.neg.foldl (fnegColumn R) (colsOf P c)
  let s := splitAll P.free 0 s
  (List.finRange m).foldl (addSlack P.ineq) s

/-- `to_sef`, `_linear.py:1559-1628`. -/
def ftoSef (R : Rounding) (P : LP m n) : SefRes m :=
  if P.isSef then ⟨n, P, none⟩
  else
    ⟨(fsefCols R P).n,
      { A := fun r j => (fsefCols R P).A r j, b := P.b, c := fun j => (fsefCols R P).c j, z := P.z,
        objective := .max, ineq := fun _ => .eq, free := [], neg := [], isSef := true },
      some ⟨((List.finRange m).filter fun i => decide (P.ineq i ≠ .eq)).length,
        concatOf P.free 0, P.neg⟩⟩

/-- The loop `for i, index in enumerate(concat)`, `_linear.py:944-947`. -/
def fmergeCode (R : Rounding) : List ℕ → ℕ → (ℕ → ℚ) → ℕ → ℚ
  | [], _, x => x
  | index :: l, i, x => fmergeCode R l (i + 1) (fmergeAt R x (index - i))

/-- The reversal of `solve`, `_linear.py:940-951`, on a vector with `k` entries. -/
def freverseSol (R : Rounding) (r : Option Rev) {k : ℕ} (s : Fin k → ℚ) : List ℚ :=
  match r with
  | none => List.ofFn s
  | some r =>
    (List.range (k - r.drop - r.concat.length)).map
      (r.negative.foldl (fnegAt R) (fmergeCode R r.concat 0 (ext s)))

/-- The program returned by `auxiliary`, `_linear.py:890-903`. -/
def fauxLp (R : Rounding) (P : LP m n) : LP m (n + m) :=
  { A := fun i => Fin.append (fun j => if negRows P i then R.rd (P.A i j * (-1)) else P.A i j)
      fun k => if i = k then 1 else 0
    b := fun i => if negRows P i then R.rd (P.b i * (-1)) else P.b i
    c := Fin.append (fun _ => 0) fun _ => 1
    z := 0, objective := .min, ineq := fun _ => .eq, free := [], neg := [], isSef := false }

/-! ### Specification -/

/-- All numbers of a program are floats. -/
structure Stored (R : Rounding) (P : LP m n) : Prop where
  A : ∀ i j, R.Rep (P.A i j)
  b : ∀ i, R.Rep (P.b i)
  c : ∀ j, R.Rep (P.c j)
  z : R.Rep P.z

/-! ### Proofs -/

variable {R : Rounding}

theorem rd_neg_one {x : ℚ} (h : R.Rep x) : R.rd (x * (-1)) = x * (-1) := by
  rw [mul_neg_one, R.odd, h]

theorem rep_zero : R.Rep 0 := R.rd_zero

theorem ext_rep {k : ℕ} {s : Fin k → ℚ} (h : ∀ j, R.Rep (s j)) (j : ℕ) : R.Rep (ext s j) := by
  unfold ext
  split
  · exact h _
  · exact rep_zero

theorem fnegAt_eq {f : ℕ → ℚ} (h : ∀ j, R.Rep (f j)) (k : ℕ) :
    fnegAt R f k = negAt f k ∧ ∀ j, R.Rep (negAt f k j) := by
  constructor
  · funext j
    unfold fnegAt negAt
    split
    · exact rd_neg_one (h j)
    · rfl
  · intro j
    unfold negAt
    split
    · rw [mul_neg_one]; exact (h j).neg
    · exact h j

/-- The arrays hold floats. -/
def ColsRep (R : Rounding) (s : Cols m) : Prop := (∀ r j, R.Rep (s.A r j)) ∧ ∀ j, R.Rep (s.c j)

theorem fnegColumn_eq {s : Cols m} (h : ColsRep R s) (k : ℕ) :
    fnegColumn R s k = negColumn s k ∧ ColsRep R (negColumn s k) := by
  refine ⟨?_, fun r => (fnegAt_eq (h.1 r) k).2, (fnegAt_eq h.2 k).2⟩
  unfold fnegColumn negColumn
  rw [(fnegAt_eq h.2 k).1, show (fun r => fnegAt R (s.A r) k) = fun r => negAt (s.A r) k from
    funext fun r => (fnegAt_eq (h.1 r) k).1]

theorem fnegColumn_foldl (l : List ℕ) {s : Cols m} (h : ColsRep R s) :
    l.foldl (fnegColumn R) s = l.foldl negColumn s ∧ ColsRep R (l.foldl negColumn s) := by
  induction l generalizing s with
  | nil => exact ⟨rfl, h⟩
  | cons k l ih =>
    obtain ⟨h1, h2⟩ := fnegColumn_eq h k
    rw [List.foldl_cons, List.foldl_cons, h1]
    exact ih h2

theorem npInsert_rep {f : ℕ → ℚ} (h : ∀ j, R.Rep (f j)) (k : ℕ) {v : ℚ} (hv : R.Rep v) (j : ℕ) :
    R.Rep (npInsert f k v j) := by
  unfold npInsert
  split
  · exact h j
  · split
    · exact hv
    · exact h _

theorem splitAll_rep (l : List ℕ) (i : ℕ) {s : Cols m} (h : ColsRep R s) : ColsRep R (splitAll l i s) := by
  induction l generalizing i s with
  | nil => exact h
  | cons f l ih =>
    exact ih (i + 1) ⟨fun r => npInsert_rep (h.1 r) _ (h.1 r _).neg, npInsert_rep h.2 _ (h.2 _).neg⟩

theorem addSlack_rep (h1 : R.Rep 1) (q : Fin m → Ineq) (l : List (Fin m)) {s : Cols m} (h : ColsRep R s) :
    ColsRep R (l.foldl (addSlack q) s) := by
  induction l generalizing s with
  | nil => exact h
  | cons i l ih =>
    rw [List.foldl_cons]
    refine ih ?_
    unfold addSlack
    split
    · exact h
    · refine ⟨fun r j => ?_, fun j => ?_⟩
      · show R.Rep (if j = s.n then (if r = i then slackSign (q i) else 0) else s.A r j)
        split
        · split
          · cases q i <;> first | exact h1 | exact h1.neg
          · exact rep_zero
        · exact h.1 r j
      · show R.Rep (if j = s.n then 0 else s.c j)
        split
        · exact rep_zero
        · exact h.2 j

theorem fsefCols_eq (h1 : R.Rep 1) {P : LP m n} (h : Stored R P) :
    fsefCols R P = sefCols P ∧ ColsRep R (sefCols P) := by
  have h0 : ColsRep R (colsOf P (if P.objective = .min then fun j => -P.c j else P.c)) := by
    refine ⟨fun r => ext_rep (h.A r), ext_rep fun j => ?_⟩
    split
    · exact (h.c j).neg
    · exact h.c j
  obtain ⟨h2, h3⟩ := fnegColumn_foldl P.neg h0
  refine ⟨?_, addSlack_rep h1 _ _ (splitAll_rep _ _ h3)⟩
  unfold fsefCols sefCols
  simp only
  rw [h2]

theorem ftoSef_eq (h1 : R.Rep 1) {P : LP m n} (h : Stored R P) :
    ftoSef R P = toSef P ∧ Stored R (toSef P).lp := by
  obtain ⟨h2, h3⟩ := fsefCols_eq h1 h
  unfold ftoSef toSef
  rw [h2]
  refine ⟨rfl, ?_⟩
  by_cases hs : P.isSef = true
  · rw [if_pos hs]; exact h
  · rw [if_neg hs]; exact ⟨fun i j => h3.1 i j, h.b, fun j => h3.2 j, h.z⟩

theorem fauxLp_eq (h1 : R.Rep 1) {P : LP m n} (h : Stored R P) :
    fauxLp R P = auxLp P ∧ Stored R (auxLp P) := by
  have ha : ∀ i j, R.rd (P.A i j * (-1)) = P.A i j * (-1) := fun i j => rd_neg_one (h.A i j)
  have hb : ∀ i, R.rd (P.b i * (-1)) = P.b i * (-1) := fun i => rd_neg_one (h.b i)
  refine ⟨by unfold fauxLp auxLp; simp only [ha, hb], fun i j => ?_, fun i => ?_, fun j => ?_, rep_zero⟩
  · show R.Rep (Fin.append (fun j => if negRows P i then P.A i j * (-1) else P.A i j) (fun k => if i = k then 1 else 0) j)
    refine Fin.addCases (fun j => ?_) (fun k => ?_) j
    · rw [Fin.append_left]
      split
      · exact ha i j
      · exact h.A i j
    · rw [Fin.append_right]
      split
      · exact h1
      · exact rep_zero
  · show R.Rep (if negRows P i then P.b i * (-1) else P.b i)
    split
    · exact hb i
    · exact h.b i
  · show R.Rep (Fin.append (fun _ => 0) (fun _ => 1) j)
    refine Fin.addCases (fun j => ?_) (fun k => ?_) j
    · rw [Fin.append_left]; exact rep_zero
    · rw [Fin.append_right]; exact h1

theorem fmergeCode_concat (l : List ℕ) (i : ℕ) (x : ℕ → ℚ) :
    fmergeCode R (concatOf l i) i x = l.foldl (fmergeAt R) x := by
  induction l generalizing i x with
  | nil => rfl
  | cons f l ih => simp only [concatOf, fmergeCode, List.foldl_cons, Nat.add_sub_cancel, ih]

/-- Every entry is subtracted from at most once, so the result is the rounded exact result. -/
theorem fmerge_foldl (l : List ℕ) (hl : l.Pairwise (· < ·)) (a : ℕ) (hla : ∀ f ∈ l, a ≤ f) {x y : ℕ → ℚ}
    (hy : ∀ j, y j = R.rd (x j)) (hx : ∀ j, a ≤ j → R.Rep (x j)) (j : ℕ) :
    l.foldl (fmergeAt R) y j = R.rd (l.foldl mergeAt x j) := by
  induction l generalizing a x y with
  | nil => exact hy j
  | cons f l ih =>
    obtain ⟨h1, h2⟩ := List.pairwise_cons.mp hl
    have hf := hla f List.mem_cons_self
    rw [List.foldl_cons, List.foldl_cons]
    refine ih h2 (f + 1) (fun g hg => h1 g hg) (fun j => ?_) fun j hj => ?_
    · unfold fmergeAt mergeAt
      split
      · exact hy j
      · split
        · rw [hy, hy, hx f hf, hx (f + 1) (by omega)]
        · exact hy _
    · unfold mergeAt
      rw [if_neg (by omega), if_neg (by omega)]
      exact hx _ (by omega)

theorem fnegAt_rd_foldl (l : List ℕ) {f g : ℕ → ℚ} (h : ∀ j, g j = R.rd (f j)) (j : ℕ) :
    l.foldl (fnegAt R) g j = R.rd (l.foldl negAt f j) := by
  induction l generalizing f g with
  | nil => exact h j
  | cons k l ih =>
    rw [List.foldl_cons, List.foldl_cons]
    refine ih fun j => ?_
    unfold fnegAt negAt
    split
    · rw [h j, mul_neg_one, mul_neg_one, R.odd, R.idem, R.odd]
    · exact h j

theorem freverse_rd {P : LP m n} (hP : WF P) {s : Fin (toSef P).n → ℚ} (hs : ∀ j, R.Rep (s j)) :
    freverseSol R (toSef P).rev s = (reverseSol (toSef P).rev s).map R.rd := by
  by_cases h : P.isSef
  · have hr : (toSef P).rev = none := by simp [toSef, h]
    rw [hr]
    simp only [freverseSol, reverseSol, List.map_ofFn]
    congr 1
    funext j
    exact (hs j).symm
  · have hr : (toSef P).rev = some ⟨((List.finRange m).filter fun i => decide (P.ineq i ≠ .eq)).length,
        concatOf P.free 0, P.neg⟩ := by simp [toSef, h]
    rw [hr]
    simp only [freverseSol, reverseSol, List.map_map]
    refine List.map_congr_left fun j _ => ?_
    rw [fmergeCode_concat, mergeCode_concat]
    refine fnegAt_rd_foldl _ (fun j => ?_) j
    exact fmerge_foldl _ hP.freeSorted 0 (fun _ _ => Nat.zero_le _) (fun j => (ext_rep hs j).symm)
      (fun j _ => ext_rep hs j) j

/-! ### Basic solutions -/

/-- A vector in which of every pair of split variables one is zero has a reversal made of its entries. -/
theorem merge_rep (l : List ℕ) {x : ℕ → ℚ} (hx : ∀ j, R.Rep (x j)) (hl : l.Pairwise (· < ·))
    (hp : ∀ k (hk : k < l.length), x (l[k] + k) = 0 ∨ x (l[k] + k + 1) = 0) (j : ℕ) :
    R.Rep (l.foldl mergeAt x j) := by
  induction l generalizing x with
  | nil => exact hx j
  | cons f l ih =>
    obtain ⟨h1, h2⟩ := List.pairwise_cons.mp hl
    rw [List.foldl_cons]
    refine ih (fun j => ?_) h2 fun k hk => ?_
    · unfold mergeAt
      split
      · exact hx j
      · split
        · have := hp 0 (by simp)
          simp only [List.getElem_cons_zero, Nat.add_zero] at this
          rcases this with h | h
          · rw [h, zero_sub]; exact (hx _).neg
          · rw [h, sub_zero]; exact hx _
        · exact hx _
    · have h3 := h1 l[k] (List.getElem_mem hk)
      have h4 := hp (k + 1) (by simpa using hk)
      simp only [List.getElem_cons_succ] at h4
      unfold mergeAt
      rw [if_neg (by omega), if_neg (by omega), if_neg (by omega), if_neg (by omega)]
      simpa [Nat.add_assoc, Nat.add_comm, Nat.add_left_comm] using h4

theorem neg_rep (l : List ℕ) {f : ℕ → ℚ} (h : ∀ j, R.Rep (f j)) (j : ℕ) : R.Rep (l.foldl negAt f j) := by
  induction l generalizing f with
  | nil => exact h j
  | cons k l ih => rw [List.foldl_cons]; exact ih (fnegAt_eq h k).2

/-- Columns before the first split stay where they are. -/
theorem splitAll_low (l : List ℕ) (i : ℕ) (s : Cols m) {j : ℕ} (hj : ∀ f ∈ l, j ≤ f + i) (r : Fin m) :
    (splitAll l i s).A r j = s.A r j := by
  induction l generalizing i s with
  | nil => rfl
  | cons f l ih =>
    have h1 := hj f List.mem_cons_self
    simp only [splitAll]
    rw [ih (i + 1) _ fun g hg => by have := hj g (List.mem_cons_of_mem _ hg); omega]
    simp only [splitFree, npInsert]
    rw [if_pos (by omega)]

theorem splitAll_pair (l : List ℕ) (i : ℕ) (s : Cols m) (hl : l.Pairwise (· < ·)) (k : ℕ) (hk : k < l.length)
    (r : Fin m) :
    (splitAll l i s).A r (l[k] + i + k + 1) = -(splitAll l i s).A r (l[k] + i + k) := by
  induction l generalizing i s k with
  | nil => simp at hk
  | cons f l ih =>
    obtain ⟨h1, h2⟩ := List.pairwise_cons.mp hl
    simp only [splitAll]
    cases k with
    | zero =>
      simp only [List.getElem_cons_zero, Nat.add_zero]
      rw [splitAll_low _ _ _ (fun g hg => by have := h1 g hg; omega),
        splitAll_low _ _ _ (fun g hg => by have := h1 g hg; omega)]
      simp [splitFree, npInsert]
    | succ k =>
      simp only [List.getElem_cons_succ]
      have hk : k < l.length := by simpa using hk
      have := ih (i + 1) (splitFree s (f + i)) h2 k hk
      rw [show l[k] + i + (k + 1) = l[k] + (i + 1) + k by omega]
      exact this

theorem addSlack_low (q : Fin m → Ineq) (l : List (Fin m)) (s : Cols m) {j : ℕ} (hj : j < s.n) (r : Fin m) :
    (l.foldl (addSlack q) s).A r j = s.A r j := by
  induction l generalizing s with
  | nil => rfl
  | cons i l ih =>
    rw [List.foldl_cons]
    by_cases h : q i = .eq
    · rw [show addSlack q s i = s by simp [addSlack, h]]; exact ih s hj
    · rw [ih _ (by simp only [addSlack, if_neg h]; omega)]
      simp only [addSlack, if_neg h]
      rw [if_neg (by omega)]

/-- The two columns of a split variable are opposite. -/
theorem sef_pair {P : LP m n} (hP : WF P) (k : ℕ) (hk : k < P.free.length) (r : Fin m) :
    (sefCols P).A r (P.free[k] + k + 1) = -(sefCols P).A r (P.free[k] + k) := by
  have hlt := hP.freeLt P.free[k] (List.getElem_mem hk)
  have hn : (splitAll P.free 0 (P.neg.foldl negColumn (colsOf P (sefC P)))).n = n + P.free.length := by
    rw [splitAll_n, negColumn_foldl]; rfl
  have := splitAll_pair P.free 0 (P.neg.foldl negColumn (colsOf P (sefC P))) hP.freeSorted k hk r
  simp only [sefCols]
  rw [addSlack_low _ _ _ (by erw [hn]; omega), addSlack_low _ _ _ (by erw [hn]; omega)]
  exact this

theorem basic_pair {k : ℕ} {M : Matrix (Fin m) (Fin k) ℚ} {B : Fin m → Fin k} (hB : (M.submatrix id B).det ≠ 0)
    {s : Fin k → ℚ} (hs : ∀ j, j ∉ Set.range B → s j = 0) {a b : Fin k} (hab : a ≠ b)
    (hc : ∀ r, M r b = -M r a) : s a = 0 ∨ s b = 0 := by
  by_contra hno
  push Not at hno
  obtain ⟨p, hp⟩ : a ∈ Set.range B := by_contra fun h => hno.1 (hs a h)
  obtain ⟨q, hq⟩ : b ∈ Set.range B := by_contra fun h => hno.2 (hs b h)
  have hpq : p ≠ q := by rintro rfl; exact hab (hp.symm.trans hq)
  refine hB ?_
  rw [← Matrix.exists_mulVec_eq_zero_iff]
  refine ⟨Pi.single p 1 + Pi.single q 1, fun h => ?_, ?_⟩
  · have := congrFun h p
    simp [hpq] at this
  · funext r
    rw [Matrix.mulVec_add]
    simp [Matrix.submatrix, hp, hq, hc r]

theorem freverse_basic {P : LP m n} (hP : WF P) {s : Fin (toSef P).n → ℚ} (hs : ∀ j, R.Rep (s j))
    {B : Fin m → Fin (toSef P).n} (hB : ((toSef P).lp.A.submatrix id B).det ≠ 0)
    (h0 : ∀ j, j ∉ Set.range B → s j = 0) :
    freverseSol R (toSef P).rev s = reverseSol (toSef P).rev s := by
  rw [freverse_rd hP hs]
  refine (List.map_congr_left fun x hx => ?_).trans (List.map_id _)
  by_cases h : P.isSef
  · have hr : (toSef P).rev = none := by simp [toSef, h]
    rw [hr] at hx
    simp only [reverseSol, List.mem_ofFn] at hx
    obtain ⟨j, rfl⟩ := hx
    exact hs j
  · have hr : (toSef P).rev = some ⟨((List.finRange m).filter fun i => decide (P.ineq i ≠ .eq)).length,
        concatOf P.free 0, P.neg⟩ := by simp [toSef, h]
    rw [hr] at hx
    simp only [reverseSol, List.mem_map] at hx
    obtain ⟨j, _, rfl⟩ := hx
    rw [mergeCode_concat]
    refine neg_rep _ (fun j => merge_rep _ (ext_rep hs) hP.freeSorted (fun k hk => ?_) j) j
    have hn : (toSef P).n = n + P.free.length + slackCount P.ineq (List.finRange m) := by
      simp only [toSef, if_neg h]; exact sefCols_n P
    have hlt := hP.freeLt P.free[k] (List.getElem_mem hk)
    have e1 : P.free[k] + k < (toSef P).n := by omega
    have e2 : P.free[k] + k + 1 < (toSef P).n := by omega
    unfold ext
    rw [dif_pos e1, dif_pos e2]
    refine basic_pair hB h0 (by simp [Fin.ext_iff]) fun r => ?_
    have hA : ∀ (r : Fin m) (j : Fin (toSef P).n), (toSef P).lp.A r j = (sefCols P).A r j := by
      unfold toSef
      rw [if_neg h]
      exact fun r j => rfl
    rw [hA, hA]
    exact sef_pair hP k hk r

end Floating
end Pytimize
