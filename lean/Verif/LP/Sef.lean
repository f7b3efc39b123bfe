/-
Model of `to_sef` (`_linear.py:1559-1628`) and of the reversal done at the end of `solve`
(`_linear.py:940-951`), with the lemmas that relate the two programs.

Column-indexed arrays are represented during the conversion as functions on `ℕ` (meaningful below the
current number of columns), which makes `np.insert` and `np.delete` plain index arithmetic.
-/
import Mathlib.Algebra.BigOperators.Fin
import Mathlib.Algebra.Order.Ring.Rat
import Mathlib.Tactic.Ring
import Mathlib.Tactic.Abel
import Verif.LP.Basic

namespace Pytimize
namespace LinProg

/-- `np.insert(f, k, v)`. -/
def npInsert (f : ℕ → ℚ) (k : ℕ) (v : ℚ) : ℕ → ℚ := fun j =>
  if j < k then f j else if j = k then v else f (j - 1)

/-- `f[k] *= -1`. -/
def negAt (f : ℕ → ℚ) (k : ℕ) : ℕ → ℚ := fun j => if j = k then f j * (-1) else f j

/-- `f[k] -= f[k + 1]; np.delete(f, k + 1)`, `_linear.py:946-947`. -/
def mergeAt (f : ℕ → ℚ) (k : ℕ) : ℕ → ℚ := fun j =>
  if j < k then f j else if j = k then f k - f (k + 1) else f (j + 1)

/-- The arrays being rewritten by `to_sef`. -/
structure Cols (m : ℕ) where
  n : ℕ
  A : Fin m → ℕ → ℚ
  c : ℕ → ℚ

variable {m n : ℕ}

/-- A vector read beyond its end gives `0` (never used). -/
def ext (f : Fin n → ℚ) : ℕ → ℚ := fun j => if h : j < n then f ⟨j, h⟩ else 0

/-- The arrays of a program. -/
def colsOf (P : LP m n) (c : Fin n → ℚ) : Cols m := ⟨n, fun r => ext (P.A r), ext c⟩

/-- One step of the loop `_linear.py:1597-1599`. -/
def negColumn (s : Cols m) (k : ℕ) : Cols m := ⟨s.n, fun r => negAt (s.A r) k, negAt s.c k⟩

/-- One step of the loop `_linear.py:1603-1606`. -/
def splitFree (s : Cols m) (index : ℕ) : Cols m :=
  ⟨s.n + 1, fun r => npInsert (s.A r) (index + 1) (-(s.A r index)),
    npInsert s.c (index + 1) (-(s.c index))⟩

/-- The loop `_linear.py:1603-1608`; `i` is the loop counter. -/
def splitAll : List ℕ → ℕ → Cols m → Cols m
  | [], _, s => s
  | f :: l, i, s => splitAll l (i + 1) (splitFree s (f + i))

/-- `_reverse_sef["concat"]` as filled by the same loop, `_linear.py:1608`. -/
def concatOf : List ℕ → ℕ → List ℕ
  | [], _ => []
  | f :: l, i => (f + i) :: concatOf l (i + 1)

/-- The slack coefficient of `_linear.py:1618-1621`. -/
def slackSign : Ineq → ℚ
  | .ge => -1
  | _ => 1

/-- One step of the loop `_linear.py:1612-1621`. -/
def addSlack (q : Fin m → Ineq) (s : Cols m) (i : Fin m) : Cols m :=
  if q i = .eq then s
  else ⟨s.n + 1, fun r j => if j = s.n then (if r = i then slackSign (q i) else 0) else s.A r j,
    fun j => if j = s.n then 0 else s.c j⟩

/-- `_reverse_sef`. -/
structure Rev where
  drop : ℕ
  concat : List ℕ
  negative : List ℕ

/-- The converted program with its recorded reversal (`none`: attribute not set because the program
already was in SEF). -/
structure SefRes (m : ℕ) where
  n : ℕ
  lp : LP m n
  rev : Option Rev

/-- The arrays after all loops of `to_sef`. -/
def sefCols (P : LP m n) : Cols m :=
  let c := if P.objective = .min then fun j => -P.c j else P.c
  let s := P.neg.foldl negColumn (colsOf P c)
  let s := splitAll P.free 0 s
  (List.finRange m).foldl (addSlack P.ineq) s

/-- `to_sef`, `_linear.py:1559-1628`. -/
def toSef (P : LP m n) : SefRes m :=
  if P.isSef then ⟨n, P, none⟩
  else
    ⟨(sefCols P).n,
      { A := fun r j => (sefCols P).A r j, b := P.b, c := fun j => (sefCols P).c j, z := P.z,
        objective := .max, ineq := fun _ => .eq, free := [], neg := [], isSef := true },
      some ⟨((List.finRange m).filter fun i => decide (P.ineq i ≠ .eq)).length,
        concatOf P.free 0, P.neg⟩⟩

/-- The loop `for i, index in enumerate(concat)`, `_linear.py:944-947`. -/
def mergeCode : List ℕ → ℕ → (ℕ → ℚ) → ℕ → ℚ
  | [], _, x => x
  | index :: l, i, x => mergeCode l (i + 1) (mergeAt x (index - i))

/-- The reversal of `solve`, `_linear.py:940-951`, on a vector with `k` entries. -/
def reverseSol (r : Option Rev) {k : ℕ} (s : Fin k → ℚ) : List ℚ :=
  match r with
  | none => List.ofFn s
  | some r =>
    (List.range (k - r.drop - r.concat.length)).map
      (r.negative.foldl negAt (mergeCode r.concat 0 (ext s)))

/-! ### Dot products -/

/-- Dot product of the first `n` entries. -/
def dotN (n : ℕ) (w x : ℕ → ℚ) : ℚ := ∑ j ∈ Finset.range n, w j * x j

theorem dotN_ext (w x : Fin n → ℚ) : dotN n (ext w) (ext x) = w ⬝ᵥ x := by
  unfold dotN dotProduct
  rw [← Fin.sum_univ_eq_sum_range (fun j => ext w j * ext x j) n]
  refine Finset.sum_congr rfl fun j _ => ?_
  simp [ext]

theorem dotN_congr {n : ℕ} {w w' x x' : ℕ → ℚ} (hw : ∀ j < n, w j = w' j) (hx : ∀ j < n, x j = x' j) :
    dotN n w x = dotN n w' x' := by
  unfold dotN
  exact Finset.sum_congr rfl fun j hj => by
    rw [hw j (Finset.mem_range.mp hj), hx j (Finset.mem_range.mp hj)]

theorem dotN_merge (w x : ℕ → ℚ) (k d : ℕ) :
    dotN (k + 1 + d + 1) (npInsert w (k + 1) (-(w k))) x = dotN (k + 1 + d) w (mergeAt x k) := by
  induction d with
  | zero =>
    unfold dotN
    rw [Nat.add_zero, Finset.sum_range_succ, Finset.sum_range_succ, Finset.sum_range_succ _ k]
    have h : ∀ j ∈ Finset.range k, npInsert w (k + 1) (-(w k)) j * x j = w j * mergeAt x k j := by
      intro j hj
      have hj := Finset.mem_range.mp hj
      simp only [npInsert, mergeAt, if_pos (show j < k + 1 by omega), if_pos hj]
    rw [Finset.sum_congr rfl h]
    simp only [npInsert, mergeAt, if_pos (Nat.lt_succ_self k), lt_irrefl, if_false, if_true]
    ring
  | succ d ih =>
    unfold dotN at *
    rw [show k + 1 + (d + 1) = k + 1 + d + 1 by omega, Finset.sum_range_succ, ih,
      Finset.sum_range_succ _ (k + 1 + d)]
    congr 1
    simp only [npInsert, mergeAt]
    rw [if_neg (by omega), if_neg (by omega), if_neg (by omega), if_neg (by omega)]
    congr 2

theorem dotN_split (w x : ℕ → ℚ) {k n : ℕ} (h : k < n) :
    dotN (n + 1) (npInsert w (k + 1) (-(w k))) x = dotN n w (mergeAt x k) := by
  obtain ⟨d, rfl⟩ : ∃ d, n = k + 1 + d := ⟨n - (k + 1), by omega⟩
  exact dotN_merge w x k d

/-! ### Negated columns -/

theorem negAt_foldl (l : List ℕ) (hl : l.Nodup) (f : ℕ → ℚ) (j : ℕ) :
    l.foldl negAt f j = if j ∈ l then -f j else f j := by
  induction l generalizing f with
  | nil => simp
  | cons k l ih =>
    rw [List.foldl_cons, ih (List.nodup_cons.mp hl).2]
    have hk := (List.nodup_cons.mp hl).1
    by_cases h1 : j = k
    · subst h1; simp [hk, negAt]
    · simp [h1, negAt]

theorem negColumn_foldl (l : List ℕ) (s : Cols m) :
    l.foldl negColumn s = ⟨s.n, fun r => l.foldl negAt (s.A r), l.foldl negAt s.c⟩ := by
  induction l generalizing s with
  | nil => rfl
  | cons k l ih => rw [List.foldl_cons, ih]; rfl

theorem dotN_neg (l : List ℕ) (hl : l.Nodup) (n : ℕ) (w x : ℕ → ℚ) :
    dotN n (l.foldl negAt w) x = dotN n w (l.foldl negAt x) := by
  unfold dotN
  refine Finset.sum_congr rfl fun j _ => ?_
  rw [negAt_foldl l hl, negAt_foldl l hl]
  split <;> ring

theorem negAt_foldl_twice (l : List ℕ) (hl : l.Nodup) (f : ℕ → ℚ) :
    l.foldl negAt (l.foldl negAt f) = f := by
  funext j
  rw [negAt_foldl l hl, negAt_foldl l hl]
  split <;> simp

/-! ### Split variables -/

/-- The merges in the order inverse to the insertions. -/
def mergeL : List ℕ → ℕ → (ℕ → ℚ) → ℕ → ℚ
  | [], _, x => x
  | f :: l, i, x => mergeAt (mergeL l (i + 1) x) (f + i)

theorem mergeAt_comm (x : ℕ → ℚ) {a b : ℕ} (h : a < b) :
    mergeAt (mergeAt x (b + 1)) a = mergeAt (mergeAt x a) b := by
  funext j
  unfold mergeAt
  by_cases h1 : j < a
  · simp [h1, show j < b by omega, show j < b + 1 by omega]
  · by_cases h2 : j = a
    · subst h2
      simp [show j < b + 1 by omega, h]
    · by_cases h3 : j < b
      · simp [h1, h2, h3]
      · by_cases h4 : j = b
        · subst h4
          simp [h1, h2, show ¬ (j + 1 < a) by omega, show ¬ (j + 1 = a) by omega]
        · simp [h1, h2, h3, h4, show ¬ (j + 1 < a) by omega, show ¬ (j + 1 = a) by omega]

theorem mergeL_comm (l : List ℕ) (a i : ℕ) (x : ℕ → ℚ) (h : ∀ b ∈ l, a < b + i) :
    mergeAt (mergeL l (i + 1) x) a = mergeL l i (mergeAt x a) := by
  induction l generalizing i with
  | nil => rfl
  | cons b l ih =>
    have hb : a < b + i := h b (List.mem_cons_self ..)
    simp only [mergeL]
    rw [show b + (i + 1) = (b + i) + 1 by omega, mergeAt_comm _ hb,
      ih (i + 1) fun b' hb' => by have := h b' (List.mem_cons_of_mem _ hb'); omega]

theorem mergeCode_concat (l : List ℕ) (i : ℕ) (x : ℕ → ℚ) :
    mergeCode (concatOf l i) i x = l.foldl mergeAt x := by
  induction l generalizing i x with
  | nil => rfl
  | cons f l ih => simp only [concatOf, mergeCode, List.foldl_cons, Nat.add_sub_cancel, ih]

theorem mergeL_zero (l : List ℕ) (hl : l.Pairwise (· < ·)) (x : ℕ → ℚ) :
    mergeL l 0 x = l.foldl mergeAt x := by
  induction l generalizing x with
  | nil => rfl
  | cons f l ih =>
    obtain ⟨h1, h2⟩ := List.pairwise_cons.mp hl
    rw [List.foldl_cons, ← ih h2]
    exact mergeL_comm l f 0 x fun b hb => h1 b hb

theorem concatOf_length (l : List ℕ) (i : ℕ) : (concatOf l i).length = l.length := by
  induction l generalizing i with
  | nil => rfl
  | cons f l ih => simp [concatOf, ih]

theorem splitAll_n (l : List ℕ) (i : ℕ) (s : Cols m) : (splitAll l i s).n = s.n + l.length := by
  induction l generalizing i s with
  | nil => rfl
  | cons f l ih => simp only [splitAll, ih, splitFree, List.length_cons]; omega

theorem splitAll_dot (l : List ℕ) (i : ℕ) (s : Cols m) (h : ∀ f ∈ l, f + i < s.n) (x : ℕ → ℚ) :
    (∀ r, dotN (splitAll l i s).n ((splitAll l i s).A r) x = dotN s.n (s.A r) (mergeL l i x)) ∧
    dotN (splitAll l i s).n (splitAll l i s).c x = dotN s.n s.c (mergeL l i x) := by
  induction l generalizing i s with
  | nil => exact ⟨fun _ => rfl, rfl⟩
  | cons f l ih =>
    have hf := h f (List.mem_cons_self ..)
    obtain ⟨h1, h2⟩ := ih (i + 1) (splitFree s (f + i)) fun g hg => by
      have := h g (List.mem_cons_of_mem _ hg)
      simp only [splitFree]; omega
    simp only [splitAll, mergeL]
    refine ⟨fun r => ?_, ?_⟩
    · rw [h1 r]; exact dotN_split _ _ hf
    · rw [h2]; exact dotN_split _ _ hf

theorem mergeL_nonneg (l : List ℕ) (hl : l.Pairwise (· < ·)) (i n : ℕ) (x : ℕ → ℚ)
    (h : ∀ j < n + l.length, 0 ≤ x j) (j : ℕ) (hj : j < n) (hne : ∀ f ∈ l, j ≠ f + i) :
    0 ≤ mergeL l i x j := by
  induction l generalizing i n j with
  | nil => exact h j (by simpa using hj)
  | cons f l ih =>
    obtain ⟨h1, h2⟩ := List.pairwise_cons.mp hl
    have hy := ih h2 (i + 1) (n + 1) fun j hj => h j (by simp only [List.length_cons]; omega)
    have hjf := hne f (List.mem_cons_self ..)
    simp only [mergeL, mergeAt]
    split
    · refine hy j (by omega) fun g hg => ?_
      have := h1 g hg; omega
    · try rw [if_neg hjf]
      refine hy (j + 1) (by omega) fun g hg => ?_
      have := hne g (List.mem_cons_of_mem _ hg); omega

/-- Splitting a variable into its positive and negative part. -/
def splitAt (x : ℕ → ℚ) (k : ℕ) : ℕ → ℚ := fun j =>
  if j < k then x j else if j = k then max (x k) 0 else if j = k + 1 then max (-x k) 0 else x (j - 1)

theorem mergeAt_splitAt (x : ℕ → ℚ) (k : ℕ) : mergeAt (splitAt x k) k = x := by
  funext j
  unfold mergeAt splitAt
  by_cases h1 : j < k
  · simp [h1]
  · by_cases h2 : j = k
    · subst h2
      simp only [lt_irrefl, if_false, if_true, show ¬ (j + 1 < j) by omega, show ¬ (j + 1 = j) by omega]
      rcases le_total 0 (x j) with h | h
      · rw [max_eq_left h, max_eq_right (by linarith)]; ring
      · rw [max_eq_right h, max_eq_left (by linarith)]; ring
    · simp [h1, h2, show ¬ (j + 1 < k) by omega, show ¬ (j + 1 = k) by omega]

theorem mergeL_surj (l : List ℕ) (hl : l.Pairwise (· < ·)) (i n : ℕ) (x : ℕ → ℚ)
    (hn : ∀ f ∈ l, f + i < n) (h : ∀ j < n, (∀ f ∈ l, j ≠ f + i) → 0 ≤ x j) :
    ∃ s : ℕ → ℚ, (∀ j < n + l.length, 0 ≤ s j) ∧ mergeL l i s = x := by
  induction l generalizing i n x with
  | nil => exact ⟨x, fun j hj => h j (by simpa using hj) (by simp), rfl⟩
  | cons f l ih =>
    obtain ⟨h1, h2⟩ := List.pairwise_cons.mp hl
    obtain ⟨s, hs, he⟩ := ih h2 (i + 1) (n + 1) (splitAt x (f + i))
      (fun g hg => by have := hn g (List.mem_cons_of_mem _ hg); omega) (by
      have hfn := hn f (List.mem_cons_self ..)
      intro j hj hne
      unfold splitAt
      split
      · refine h j (by omega) fun g hg => ?_
        rcases List.mem_cons.mp hg with rfl | hg
        · omega
        · have := h1 g hg; omega
      · split
        · exact le_max_right _ _
        · split
          · exact le_max_right _ _
          · refine h (j - 1) (by omega) fun g hg => ?_
            rcases List.mem_cons.mp hg with rfl | hg
            · omega
            · have := hne g hg; omega)
    exact ⟨s, fun j hj => hs j (by simp only [List.length_cons] at hj; omega), by
      simp only [mergeL, he, mergeAt_splitAt]⟩

/-! ### Slack variables -/

/-- Contribution of the slack columns to row `r`. -/
def slackVal (q : Fin m → Ineq) : List (Fin m) → ℕ → (ℕ → ℚ) → Fin m → ℚ
  | [], _, _, _ => 0
  | i :: l, k, x, r =>
    if q i = .eq then slackVal q l k x r
    else (if r = i then slackSign (q i) * x k else 0) + slackVal q l (k + 1) x r

/-- Number of slack columns. -/
def slackCount (q : Fin m → Ineq) (l : List (Fin m)) : ℕ :=
  (l.filter fun i => decide (q i ≠ .eq)).length

theorem addSlack_n (q : Fin m → Ineq) (l : List (Fin m)) (s : Cols m) :
    (l.foldl (addSlack q) s).n = s.n + slackCount q l := by
  induction l generalizing s with
  | nil => rfl
  | cons i l ih =>
    rw [List.foldl_cons, ih]
    unfold addSlack slackCount
    by_cases h : q i = .eq
    · simp [h]
    · simp [h]; omega

theorem addSlack_dot (q : Fin m → Ineq) (l : List (Fin m)) (s : Cols m) (x : ℕ → ℚ) :
    (∀ r, dotN (l.foldl (addSlack q) s).n ((l.foldl (addSlack q) s).A r) x
      = dotN s.n (s.A r) x + slackVal q l s.n x r) ∧
    dotN (l.foldl (addSlack q) s).n (l.foldl (addSlack q) s).c x = dotN s.n s.c x := by
  induction l generalizing s with
  | nil => exact ⟨fun r => by simp [slackVal], rfl⟩
  | cons i l ih =>
    rw [List.foldl_cons]
    obtain ⟨h1, h2⟩ := ih (addSlack q s i)
    by_cases h : q i = .eq
    · have e : addSlack q s i = s := by simp [addSlack, h]
      rw [e] at h1 h2 ⊢
      exact ⟨fun r => by rw [h1 r]; simp [slackVal, h], h2⟩
    · have e : addSlack q s i = ⟨s.n + 1,
          fun r j => if j = s.n then (if r = i then slackSign (q i) else 0) else s.A r j,
          fun j => if j = s.n then 0 else s.c j⟩ := by simp [addSlack, h]
      refine ⟨fun r => ?_, ?_⟩
      · rw [h1 r]
        simp only [slackVal, if_neg h]
        rw [e]
        unfold dotN
        rw [Finset.sum_range_succ]
        simp only [if_true]
        have : ∀ j ∈ Finset.range s.n,
            (if j = s.n then (if r = i then slackSign (q i) else 0) else s.A r j) * x j
              = s.A r j * x j := fun j hj => by
          rw [if_neg (by have := Finset.mem_range.mp hj; omega)]
        rw [Finset.sum_congr rfl this, add_assoc]
        congr 1
        split <;> ring
      · rw [h2, e]
        unfold dotN
        rw [Finset.sum_range_succ]
        simp only [if_true]
        have : ∀ j ∈ Finset.range s.n, (if j = s.n then 0 else s.c j) * x j
              = s.c j * x j := fun j hj => by
          rw [if_neg (by have := Finset.mem_range.mp hj; omega)]
        rw [Finset.sum_congr rfl this]
        ring

theorem slackVal_notMem (q : Fin m → Ineq) (l : List (Fin m)) (k : ℕ) (x : ℕ → ℚ) (r : Fin m)
    (h : r ∉ l ∨ q r = .eq) : slackVal q l k x r = 0 := by
  induction l generalizing k with
  | nil => rfl
  | cons i l ih =>
    have h' : r ∉ l ∨ q r = .eq := h.imp_left fun h hm => h (List.mem_cons_of_mem _ hm)
    simp only [slackVal]
    split
    · exact ih k h'
    · rename_i hi
      rw [ih (k + 1) h', if_neg (by
        rintro rfl
        rcases h with h | h
        · exact h (List.mem_cons_self ..)
        · exact hi h), add_zero]

/-- The slack contribution has the sign demanded by the inequality. -/
def slackOk : Ineq → ℚ → Prop
  | .eq, v => v = 0
  | .le, v => 0 ≤ v
  | .ge, v => v ≤ 0

theorem slackVal_sign (q : Fin m → Ineq) (l : List (Fin m)) (hl : l.Nodup) (k : ℕ) (x : ℕ → ℚ)
    (h : ∀ j < k + slackCount q l, 0 ≤ x j) (r : Fin m) : slackOk (q r) (slackVal q l k x r) := by
  induction l generalizing k with
  | nil => simp only [slackVal]; cases q r <;> simp [slackOk]
  | cons i l ih =>
    obtain ⟨h1, h2⟩ := List.nodup_cons.mp hl
    simp only [slackVal]
    split
    · rename_i hi
      exact ih h2 k fun j hj => h j (by simpa [slackCount, hi] using hj)
    · rename_i hi
      have hlen : slackCount q (i :: l) = slackCount q l + 1 := by simp [slackCount, hi]
      by_cases hr : r = i
      · subst hr
        rw [slackVal_notMem q l _ x r (Or.inl h1), if_pos rfl, add_zero]
        have hx := h k (by omega)
        cases hq : q r
        · exact absurd hq hi
        · simpa [slackOk, slackSign] using hx
        · simpa [slackOk, slackSign] using hx
      · rw [if_neg hr, zero_add]
        exact ih h2 (k + 1) fun j hj => h j (by omega)

theorem slackVal_congr (q : Fin m → Ineq) (l : List (Fin m)) (k : ℕ) {x y : ℕ → ℚ}
    (h : ∀ j, k ≤ j → x j = y j) (r : Fin m) : slackVal q l k x r = slackVal q l k y r := by
  induction l generalizing k with
  | nil => rfl
  | cons i l ih =>
    simp only [slackVal]
    rw [ih k h, ih (k + 1) fun j hj => h j (by omega), h k le_rfl]

theorem slackVal_surj (q : Fin m → Ineq) (l : List (Fin m)) (hl : l.Nodup) (k : ℕ) (t : Fin m → ℚ)
    (ht : ∀ r, slackOk (q r) (t r)) :
    ∃ y : ℕ → ℚ, (∀ j, 0 ≤ y j) ∧ ∀ r ∈ l, slackVal q l k y r = t r := by
  induction l generalizing k with
  | nil => exact ⟨fun _ => 0, fun _ => le_rfl, by simp⟩
  | cons i l ih =>
    obtain ⟨h1, h2⟩ := List.nodup_cons.mp hl
    by_cases hi : q i = .eq
    · obtain ⟨y, hy, he⟩ := ih h2 k
      refine ⟨y, hy, fun r hr => ?_⟩
      simp only [slackVal, if_pos hi]
      rcases List.mem_cons.mp hr with rfl | hr
      · rw [slackVal_notMem q l _ y _ (Or.inr hi)]
        have := ht r
        rw [hi] at this
        exact this.symm
      · exact he r hr
    · obtain ⟨y, hy, he⟩ := ih h2 (k + 1)
      refine ⟨fun j => if j = k then slackSign (q i) * t i else y j, fun j => ?_, fun r hr => ?_⟩
      · by_cases hj : j = k
        · simp only [if_pos hj]
          have := ht i
          cases hq : q i
          · exact absurd hq hi
          · rw [hq] at this; simpa [slackSign, slackOk] using this
          · rw [hq] at this; simpa [slackSign, slackOk] using this
        · simp only [if_neg hj]; exact hy j
      · have hc : ∀ r, slackVal q l (k + 1) (fun j => if j = k then slackSign (q i) * t i else y j) r
            = slackVal q l (k + 1) y r := fun r =>
          slackVal_congr q l (k + 1) (fun j hj => if_neg (by omega)) r
        simp only [slackVal, if_neg hi, hc, if_true]
        by_cases hri : r = i
        · subst hri
          rw [slackVal_notMem q l _ y r (Or.inl h1), if_pos rfl, add_zero, ← mul_assoc]
          have : slackSign (q r) * slackSign (q r) = 1 := by cases q r <;> simp [slackSign]
          rw [this, one_mul]
        · rw [if_neg hri, zero_add]
          rcases List.mem_cons.mp hr with h | h
          · exact absurd h hri
          · exact he r h

theorem rowHolds_of_slack {q : Ineq} {v s b : ℚ} (hs : slackOk q s) (h : v + s = b) : rowHolds q v b := by
  cases q <;> simp only [slackOk, rowHolds] at * <;> linarith

theorem slackOk_of_row {q : Ineq} {v b : ℚ} (h : rowHolds q v b) : slackOk q (b - v) := by
  cases q <;> simp only [slackOk, rowHolds] at * <;> linarith

/-! ### The conversion as a whole -/

/-- The point of the original program described by an extended point of the SEF arrays. -/
def backN (P : LP m n) (s : ℕ → ℚ) : ℕ → ℚ := P.neg.foldl negAt (mergeL P.free 0 s)

theorem sefCols_n (P : LP m n) :
    (sefCols P).n = n + P.free.length + slackCount P.ineq (List.finRange m) := by
  simp only [sefCols, addSlack_n, splitAll_n, negColumn_foldl]
  rfl

/-- The objective vector used by `to_sef`, `_linear.py:1583-1585`. -/
def sefC (P : LP m n) : Fin n → ℚ := if P.objective = .min then fun j => -P.c j else P.c

theorem ext_dot (P : LP m n) (w : Fin n → ℚ) (x : ℕ → ℚ) :
    dotN n (ext w) x = w ⬝ᵥ fun j : Fin n => x j := by
  rw [← dotN_ext]
  refine dotN_congr (fun _ _ => rfl) fun j hj => ?_
  simp [ext, hj]

theorem sef_dot (P : LP m n) (hP : WF P) (x : ℕ → ℚ) :
    (∀ r, dotN (sefCols P).n ((sefCols P).A r) x
      = P.A.mulVec (fun j : Fin n => backN P x j) r
        + slackVal P.ineq (List.finRange m) (n + P.free.length) x r) ∧
    dotN (sefCols P).n (sefCols P).c x = sefC P ⬝ᵥ fun j : Fin n => backN P x j := by
  have hneg : P.neg.Nodup := hP.negSorted.imp (fun h => ne_of_lt h)
  simp only [sefCols]
  obtain ⟨h1, h2⟩ := addSlack_dot P.ineq (List.finRange m)
    (splitAll P.free 0 (P.neg.foldl negColumn (colsOf P (sefC P)))) x
  obtain ⟨h3, h4⟩ := splitAll_dot P.free 0 (P.neg.foldl negColumn (colsOf P (sefC P)))
    (fun f hf => by rw [negColumn_foldl]; exact hP.freeLt f hf) x
  have hn : (splitAll P.free 0 (P.neg.foldl negColumn (colsOf P (sefC P)))).n = n + P.free.length := by
    rw [splitAll_n, negColumn_foldl]; rfl
  refine ⟨fun r => ?_, ?_⟩
  · refine (h1 r).trans ?_
    rw [h3 r, hn, negColumn_foldl]
    congr 1
    simp only [colsOf]
    rw [dotN_neg _ hneg, ext_dot P]
    rfl
  · refine h2.trans ?_
    rw [h4, negColumn_foldl]
    simp only [colsOf]
    rw [dotN_neg _ hneg, ext_dot P]
    rfl

theorem ext_ofNat (k : ℕ) (f : ℕ → ℚ) (j : ℕ) (h : j < k) : ext (fun i : Fin k => f i) j = f j := by
  simp [ext, h]

theorem reverseSol_eq (P : LP m n) (hP : WF P) (hs : P.isSef = false) (s : Fin (toSef P).n → ℚ) :
    reverseSol (toSef P).rev s = List.ofFn fun j : Fin n => backN P (ext s) j := by
  have hr : (toSef P).rev = some ⟨slackCount P.ineq (List.finRange m), concatOf P.free 0, P.neg⟩ := by
    simp [toSef, hs, slackCount]
  have hn : (toSef P).n = (sefCols P).n := by simp [toSef, hs]
  have hlen : (toSef P).n - slackCount P.ineq (List.finRange m) - (concatOf P.free 0).length = n := by
    rw [concatOf_length, hn, sefCols_n]; omega
  rw [hr]
  simp only [reverseSol]
  rw [hlen, mergeCode_concat, ← mergeL_zero _ hP.freeSorted, List.ofFn_eq_map, ← List.map_coe_finRange_eq_range,
    List.map_map]
  rfl

theorem sef_back (P : LP m n) (hP : WF P) (hs : P.isSef = false) (s : Fin (toSef P).n → ℚ)
    (hf : Feas (toSef P).lp s) :
    Feas P (fun j : Fin n => backN P (ext s) j) := by
  have hneg : P.neg.Nodup := hP.negSorted.imp (fun h => ne_of_lt h)
  have e : toSef P = ⟨(sefCols P).n,
      { A := fun r j => (sefCols P).A r j, b := P.b, c := fun j => (sefCols P).c j, z := P.z,
        objective := .max, ineq := fun _ => .eq, free := [], neg := [], isSef := true },
      some ⟨((List.finRange m).filter fun i => decide (P.ineq i ≠ .eq)).length,
        concatOf P.free 0, P.neg⟩⟩ := by simp [toSef, hs]
  revert s
  rw [e]
  intro s hf
  have hpos : ∀ j < (sefCols P).n, 0 ≤ ext s j := fun j hj => by
    have := hf.poss ⟨j, hj⟩ (by simp) (by simp)
    simpa [ext, hj] using this
  obtain ⟨h1, h2⟩ := sef_dot P hP (ext s)
  have hm : ∀ j < n, j ∉ P.free → 0 ≤ mergeL P.free 0 (ext s) j := fun j hj hjf => by
    refine mergeL_nonneg P.free hP.freeSorted 0 n (ext s) (fun i hi => hpos i ?_) j hj ?_
    · rw [sefCols_n]; omega
    · intro f hf' he; exact hjf (by rw [he]; exact hf')
  refine ⟨fun r => ?_, fun j hj => ?_, fun j hj hjf => ?_⟩
  · have hrow : dotN (sefCols P).n ((sefCols P).A r) (ext s) = P.b r := by
      have := hf.rows r
      simp only [rowHolds] at this
      rw [← this]
      show _ = (fun j : Fin (sefCols P).n => (sefCols P).A r j) ⬝ᵥ s
      rw [← dotN_ext]
      exact dotN_congr (fun j hj => (ext_ofNat _ _ _ hj).symm) fun _ _ => rfl
    rw [h1 r] at hrow
    exact rowHolds_of_slack (slackVal_sign P.ineq _ (List.nodup_finRange m) _ _
      (fun j hj => hpos j (by rw [sefCols_n]; exact hj)) r) hrow
  · have hjf : (j : ℕ) ∉ P.free := fun h => hP.disj _ h hj
    simp only [backN]
    rw [negAt_foldl _ hneg, if_pos hj]
    have := hm j j.2 hjf
    linarith
  · simp only [backN]
    rw [negAt_foldl _ hneg, if_neg hj]
    exact hm j j.2 hjf

theorem sef_onto (P : LP m n) (hP : WF P) (hs : P.isSef = false) (x : Fin n → ℚ) (hf : Feas P x) :
    ∃ s : Fin (toSef P).n → ℚ, Feas (toSef P).lp s ∧ (fun j : Fin n => backN P (ext s) j) = x := by
  have hneg : P.neg.Nodup := hP.negSorted.imp (fun h => ne_of_lt h)
  have e : toSef P = ⟨(sefCols P).n,
      { A := fun r j => (sefCols P).A r j, b := P.b, c := fun j => (sefCols P).c j, z := P.z,
        objective := .max, ineq := fun _ => .eq, free := [], neg := [], isSef := true },
      some ⟨((List.finRange m).filter fun i => decide (P.ineq i ≠ .eq)).length,
        concatOf P.free 0, P.neg⟩⟩ := by simp [toSef, hs]
  rw [e]
  simp only
  obtain ⟨s0, hs0, he0⟩ := mergeL_surj P.free hP.freeSorted 0 n (P.neg.foldl negAt (ext x)) (fun f hf => hP.freeLt f hf) (by
    intro j hj hjf
    rw [negAt_foldl _ hneg]
    have hjf' : j ∉ P.free := fun h => hjf j h rfl
    by_cases hjn : j ∈ P.neg
    · rw [if_pos hjn]
      have := hf.negs ⟨j, hj⟩ hjn
      simp only [ext, hj, dif_pos]; linarith
    · rw [if_neg hjn]
      have := hf.poss ⟨j, hj⟩ hjn hjf'
      simpa [ext, hj] using this)
  obtain ⟨y, hy, hye⟩ := slackVal_surj P.ineq (List.finRange m) (List.nodup_finRange m)
    (n + P.free.length) (fun r => P.b r - P.A.mulVec x r) fun r => slackOk_of_row (hf.rows r)
  let w : ℕ → ℚ := fun j => if j < n + P.free.length then s0 j else y j
  have hcongr : ∀ (l : List ℕ) (i k : ℕ) (u v : ℕ → ℚ), (∀ f ∈ l, f + i < k) →
      (∀ j < k + l.length, u j = v j) →
      ∀ j < k, mergeL l i u j = mergeL l i v j := by
    intro l
    induction l with
    | nil => intro i k u v _ h j hj; exact h j (by simpa using hj)
    | cons f l ih =>
      intro i k u v hk h j hj
      have := ih (i + 1) (k + 1) u v
        (fun g hg => by have := hk g (List.mem_cons_of_mem _ hg); omega)
        (fun j hj => h j (by simp only [List.length_cons]; omega))
      have hfk := hk f (List.mem_cons_self ..)
      simp only [mergeL, mergeAt]
      rw [this j (by omega), this (f + i) (by omega), this (f + i + 1) (by omega), this (j + 1) (by omega)]
  have hback : ∀ u : ℕ → ℚ, (∀ j < n + P.free.length, u j = s0 j) →
      (fun j : Fin n => backN P u j) = x := by
    intro u hu
    funext j
    simp only [backN]
    rw [negAt_foldl _ hneg, hcongr P.free 0 n u s0 (fun f hf => hP.freeLt f hf) hu j j.2, he0,
      negAt_foldl _ hneg]
    have : ext x j = x j := by simp [ext]
    split <;> simp [this]
  refine ⟨fun j => w j, ⟨fun r => ?_, fun j hj => by simp at hj, fun j _ _ => ?_⟩, ?_⟩
  · simp only [rowHolds]
    show (fun j : Fin (sefCols P).n => (sefCols P).A r j) ⬝ᵥ (fun j => w j) = P.b r
    rw [← dotN_ext]
    rw [dotN_congr (w' := (sefCols P).A r) (x' := w) (fun j hj => ext_ofNat _ _ _ hj)
      (fun j hj => ext_ofNat _ _ _ hj), (sef_dot P hP w).1 r, hback w fun j hj => if_pos hj,
      slackVal_congr P.ineq _ _ (y := y) (fun j hj => if_neg (by omega)), hye r (List.mem_finRange r)]
    ring
  · show 0 ≤ w j
    by_cases h : (j : ℕ) < n + P.free.length
    · simp only [w, if_pos h]; exact hs0 _ h
    · simp only [w, if_neg h]; exact hy _
  · refine hback _ fun j hj => ?_
    rw [ext_ofNat _ _ _ (by rw [sefCols_n]; omega)]
    exact if_pos hj

theorem sef_obj (P : LP m n) (hP : WF P) (hs : P.isSef = false) (s : Fin (toSef P).n → ℚ) :
    (toSef P).lp.c ⬝ᵥ s = sefC P ⬝ᵥ fun j : Fin n => backN P (ext s) j := by
  have e : toSef P = ⟨(sefCols P).n,
      { A := fun r j => (sefCols P).A r j, b := P.b, c := fun j => (sefCols P).c j, z := P.z,
        objective := .max, ineq := fun _ => .eq, free := [], neg := [], isSef := true },
      some ⟨((List.finRange m).filter fun i => decide (P.ineq i ≠ .eq)).length,
        concatOf P.free 0, P.neg⟩⟩ := by simp [toSef, hs]
  revert s
  rw [e]
  intro s
  rw [← (sef_dot P hP (ext s)).2, ← dotN_ext]
  exact dotN_congr (fun j hj => ext_ofNat _ _ _ hj) fun _ _ => rfl

end LinProg
end Pytimize
