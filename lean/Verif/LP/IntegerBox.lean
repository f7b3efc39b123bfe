/-
Branch and bound on bounded programs: the conditions of `NodeOk` hold at every node, and the recursion ends.
-/
import Verif.LP.IntegerProof
import Verif.LP.Minors
import Verif.LP.Origin
import Verif.LP.TwoVarSef
import Verif.Props.Integer

namespace Pytimize
namespace LinProg

open Comparator Matrix
open Props

variable {m n : ℕ}

/-- `solve` raises nothing at a node that satisfies `NodeOk`. -/
theorem solve_ok {sf : ℕ} {P : LP m n} (hP : WF P) (h : NodeOk sf P) : ∃ r, solve sf P = .ok r := by
  obtain ⟨a, ha⟩ := (C43_answers_partial _ hP.toSef (toSef_isSef P) h.rows h.exact h.exactAux sf h.fuel
    h.fuelAux).mpr (Or.inl h.rank)
  unfold solve
  by_cases hs : P.isSef = true
  · rw [if_pos hs]
    have e : toSef P = ⟨n, P, none⟩ := by simp [toSef, hs]
    revert a ha
    rw [e]
    intro a ha
    simp only at ha
    exact ⟨a.solution.map List.ofFn, by simp only [ha]⟩
  · rw [if_neg hs]
    have ht := h.tried (by simpa using hs)
    unfold solveSef
    simp only [ha]
    by_cases hmn : m ≤ (toSef P).n
    · rw [if_pos hmn]
      obtain ⟨b, hb⟩ := isBasis_total (toSef P).lp h.rows (tried m (toSef P).n)
      unfold tried at hb ht
      cases b with
      | false => exact ⟨_, by simp only [hb]; rfl⟩
      | true =>
        have hfb := ht hb
        obtain ⟨_, B, hB, _, hF⟩ := exact_start h.exact hfb
        obtain ⟨D, _, _, hD⟩ := simplex_exact (toSef_isSef P) h.rows h.exact h.fuel hB hF
        simp only [hb]
        rcases hD with ⟨_, h1⟩ | ⟨k, _, _, _, h1⟩
        · exact ⟨_, by simp only [h1]; rfl⟩
        · exact ⟨_, by simp only [h1]; rfl⟩
    · rw [if_neg hmn]
      exact ⟨_, rfl⟩

/-- A class of programs `solve` handles exactly, closed under the additional constraints of branch and bound. -/
structure NodeClass (β M : ℕ) (G : ∀ m n : ℕ, LP m n → Prop) : Prop where
  exactSef : ∀ {m n : ℕ} {Q : LP m n}, G m n Q → Q.isSef = false → m ≤ M → Exact (toSef Q).lp
  exactAux : ∀ {m n : ℕ} {Q : LP m n}, G m n Q → Q.isSef = false → m ≤ M → Exact (auxSef (toSef Q).lp)
  clear : ∀ {sf m n : ℕ} {Q : LP m n} {x : Fin n → ℚ}, G m n Q → WF Q → Q.isSef = false → m ≤ M →
    solve sf Q = .ok (some (List.ofFn x)) → ∀ j, isInteger (x j) = true → ∃ k : ℤ, x j = k
  child : ∀ {m n : ℕ} {Q : LP m n}, G m n Q → ∀ (j : Fin n) (op : Ineq) (k : ℤ), op ≠ .eq → 0 ≤ k → k ≤ β →
    G (m + 1) n (child Q j op k)

/-- A node of the search tree of a bounded integer program: nonnegative variables, inequalities, more rows than
columns (or equally many, and the origin is feasible), a program of the class, and bounds `lo`, `hi` for the
variables with total width `D`. -/
structure BoxNode (G : ∀ m n : ℕ, LP m n → Prop) (β M D : ℕ) (Q : LP m n) : Prop where
  wf : WF Q
  free : Q.free = []
  neg : Q.neg = []
  ineq : ∀ i, Q.ineq i ≠ .eq
  good : G m n Q
  shape : n < m ∨ n = m ∧ 0 < m ∧ Feas Q 0
  depth : m + D ≤ M
  box : ∃ lo hi : Fin n → ℤ, (∀ x, Feas Q x → ∀ j, (lo j : ℚ) ≤ x j ∧ x j ≤ hi j) ∧
    (∀ j, 0 ≤ lo j ∧ lo j ≤ hi j ∧ hi j ≤ β) ∧ ∑ j, (hi j - lo j) = D

theorem BoxNode.rows {G : ∀ m n : ℕ, LP m n → Prop} {β M D : ℕ} {Q : LP m n} (h : BoxNode G β M D Q) : 0 < m := by
  rcases h.shape with h | h <;> omega

theorem BoxNode.sef_n {G : ∀ m n : ℕ, LP m n → Prop} {β M D : ℕ} {Q : LP m n} (h : BoxNode G β M D Q) :
    Q.isSef = false ∧ (toSef Q).n = n + m := by
  have hm : 0 < m := h.rows
  have hs : Q.isSef = false := by
    cases hs : Q.isSef with
    | false => rfl
    | true => exact absurd ((h.wf.isSef_iff.mp hs).1 ⟨0, hm⟩) (h.ineq _)
  refine ⟨hs, ?_⟩
  have : (toSef Q).n = (sefCols Q).n := by simp [toSef, hs]
  rw [this, sefCols_n, h.free, slackCount_all h.ineq]
  simp

theorem BoxNode.exactSef {G : ∀ m n : ℕ, LP m n → Prop} {β M D : ℕ} (hG : NodeClass β M G) {Q : LP m n}
    (h : BoxNode G β M D Q) : Exact (toSef Q).lp :=
  hG.exactSef h.good h.sef_n.1 (le_trans (Nat.le_add_right m D) h.depth)

theorem BoxNode.clear {G : ∀ m n : ℕ, LP m n → Prop} {β M D sf : ℕ} (hG : NodeClass β M G) {Q : LP m n}
    (h : BoxNode G β M D Q) (hf : (n + 2 * M) ^ M ≤ sf) : NodeClear sf Q := by
  have hm : 0 < m := h.rows
  obtain ⟨hs, hn⟩ := h.sef_n
  have hmM : m ≤ M := le_trans (Nat.le_add_right m D) h.depth
  have hpow : ∀ a, a ≤ n + 2 * M → a ^ m ≤ sf := by
    intro a ha
    refine le_trans (Nat.pow_le_pow_left ha m) (le_trans (Nat.pow_le_pow_right ?_ hmM) hf)
    omega
  refine ⟨⟨hm, hG.exactSef h.good hs hmM, hG.exactAux h.good hs hmM,
    exists_nonsing_of_surj _ (sef_surj Q h.wf h.ineq hs),
    fun _ ht => ?_, hpow _ (by rw [hn]; omega), hpow _ (by rw [hn]; omega)⟩,
    fun x hx j hj => hG.clear h.good h.wf hs hmM hx j hj⟩
  rcases h.shape with hsh | ⟨_, _, h0⟩
  · exfalso
    obtain ⟨_, B, hB, _⟩ := (isBasis_iff _ _).mp ht
    have := congrArg List.length hB
    rw [length_colsList] at this
    simp only [toArrayIndexing, tried, List.length_map, List.length_range] at this
    rw [hn] at this
    omega
  · exact tried_of_origin h.wf h.ineq h0 ht

theorem subdet_child {P : LP m n} {K : ℕ} (h : SubdetLe K P.A) (pos : ℕ) (q : Ineq) (k : ℚ) :
    SubdetLe K (child P pos q k).A := by
  have h1 : SubdetLe K (child P pos q k).Aᵀ := by
    refine h.transpose.cols fun c => ?_
    refine Fin.lastCases ?_ (fun i => ?_) c
    · have e : (child P pos q k).A (Fin.last m) = fun j : Fin n => if (j : ℕ) = pos then 1 else 0 :=
        Fin.snoc_last (α := fun _ => Fin n → ℚ) _ _
      by_cases hp : pos < n
      · refine Or.inr (Or.inl ⟨⟨pos, hp⟩, 1, by simp, fun r => ?_⟩)
        show (LinProg.child P pos q k).A (Fin.last m) r = _
        rw [e]
        simp [Fin.ext_iff]
      · refine Or.inr (Or.inr fun r => ?_)
        show (LinProg.child P pos q k).A (Fin.last m) r = _
        rw [e]
        have := r.2
        simp only
        rw [if_neg (by omega)]
    · have e : (child P pos q k).A i.castSucc = P.A i := Fin.snoc_castSucc (α := fun _ => Fin n → ℚ) _ _ _
      refine Or.inl ⟨i, 1, by simp, fun r => ?_⟩
      show (LinProg.child P pos q k).A i.castSucc r = _ * P.A i r
      rw [e]
      simp
  have := h1.transpose
  rwa [transpose_transpose] at this

theorem isInt_child {P : LP m n} (h : IsInt P) (pos : ℕ) (q : Ineq) (k : ℤ) : IsInt (child P pos q k) := by
  refine ⟨fun i j => ?_, fun i => ?_, h.2.2⟩
  · refine Fin.lastCases ?_ (fun i => ?_) i
    · have e : (child P pos q k).A (Fin.last m) = fun j : Fin n => if (j : ℕ) = pos then 1 else 0 :=
        Fin.snoc_last (α := fun _ => Fin n → ℚ) _ _
      rw [e]
      simp only
      split
      · exact ⟨1, by simp⟩
      · exact ⟨0, by simp⟩
    · have e : (child P pos q k).A i.castSucc = P.A i := Fin.snoc_castSucc (α := fun _ => Fin n → ℚ) _ _ _
      rw [e]
      exact h.1 i j
  · refine Fin.lastCases ?_ (fun i => ?_) i
    · exact ⟨k, by simp [child]⟩
    · simpa [child] using h.2.1 i

/-- A child with a new bound for variable `j` that cuts the box. -/
theorem BoxNode.child {G : ∀ m n : ℕ, LP m n → Prop} {β M D : ℕ} (hG : NodeClass β M G) {Q : LP m n}
    (h : BoxNode G β M D Q) {j : Fin n} {q : ℚ}
    (hq : ∀ lo hi : Fin n → ℤ, (∀ x, Feas Q x → ∀ j, (lo j : ℚ) ≤ x j ∧ x j ≤ hi j) → (lo j : ℚ) ≤ q ∧ q ≤ hi j)
    (hfrac : isInteger q = false) :
    (∃ D', D' + 1 ≤ D ∧ BoxNode G β M D' (LinProg.child Q j .le (⌊q⌋ : ℤ))) ∧
      ∃ D', D' + 1 ≤ D ∧ BoxNode G β M D' (LinProg.child Q j .ge (⌈q⌉ : ℤ)) := by
  obtain ⟨lo, hi, hbox, hb, hD⟩ := h.box
  obtain ⟨hl, hu⟩ := hq lo hi hbox
  have hni : ∀ k : ℤ, q ≠ k := by
    intro k hk
    have : isInteger q = true := (C03_isInteger_iff q).mpr ⟨k, by rw [hk]; norm_num⟩
    rw [this] at hfrac; cases hfrac
  have hfl : lo j ≤ ⌊q⌋ := Int.le_floor.mpr hl
  have hcu : ⌈q⌉ ≤ hi j := Int.ceil_le.mpr hu
  have hfu : ⌊q⌋ < hi j := by
    rw [Int.floor_lt]
    exact lt_of_le_of_ne hu (hni _)
  have hcl : lo j < ⌈q⌉ := by
    rw [Int.lt_ceil]
    exact lt_of_le_of_ne hl (Ne.symm (hni _))
  have hsub : ∀ {op} {k : ℚ} {y : Fin n → ℚ}, Feas (LinProg.child Q j op k) y → Feas Q y ∧ rowHolds op (y j) k := by
    intro op k y hy
    rw [feas_child] at hy
    exact ⟨⟨hy.1, fun i hi => by simp [h.neg] at hi, fun i _ _ => hy.2.2 i⟩, hy.2.1⟩
  have hineq : ∀ (op : Ineq), op ≠ .eq → ∀ (k : ℚ) i, (LinProg.child Q j op k).ineq i ≠ .eq := by
    intro op hop k i
    refine Fin.lastCases ?_ (fun i => ?_) i
    · simpa [LinProg.child] using hop
    · simpa [LinProg.child] using h.ineq i
  have hsum : ∀ (lo' hi' : Fin n → ℤ), (∀ i, i ≠ j → hi' i - lo' i = hi i - lo i) → lo' j ≤ hi' j →
      (∀ i, lo' i ≤ hi' i) → hi' j - lo' j + 1 ≤ hi j - lo j →
      ∃ D' : ℕ, ∑ i, (hi' i - lo' i) = D' ∧ D' + 1 ≤ D := by
    intro lo' hi' h1 _ h3 h4
    have hnn : 0 ≤ ∑ i, (hi' i - lo' i) := Finset.sum_nonneg fun i _ => by have := h3 i; omega
    refine ⟨(∑ i, (hi' i - lo' i)).toNat, ?_, ?_⟩
    · rw [Int.toNat_of_nonneg hnn]
    · have e1 : ∑ i, (hi' i - lo' i) = (hi' j - lo' j) + ∑ i ∈ Finset.univ.erase j, (hi' i - lo' i) :=
        (Finset.add_sum_erase _ _ (Finset.mem_univ j)).symm
      have e2 : ∑ i, (hi i - lo i) = (hi j - lo j) + ∑ i ∈ Finset.univ.erase j, (hi i - lo i) :=
        (Finset.add_sum_erase _ _ (Finset.mem_univ j)).symm
      have e3 : ∑ i ∈ Finset.univ.erase j, (hi' i - lo' i) = ∑ i ∈ Finset.univ.erase j, (hi i - lo i) :=
        Finset.sum_congr rfl fun i hi => h1 i (Finset.ne_of_mem_erase hi)
      omega
  have hj := hb j
  constructor
  · obtain ⟨D', hD', hle⟩ := hsum lo (Function.update hi j ⌊q⌋) (fun i hi => by rw [Function.update_of_ne hi])
      (by simpa using hfl) (fun i => by
        by_cases hi : i = j
        · subst hi; simpa using hfl
        · rw [Function.update_of_ne hi]; exact (hb i).2.1) (by rw [Function.update_self]; omega)
    refine ⟨D', hle, child_wf _ _ _ _, rfl, rfl, hineq _ (by simp) _, hG.child h.good j _ _ (by simp) (by omega) (by omega),
      by have := h.shape; omega,
      by have := h.depth; omega, lo, Function.update hi j ⌊q⌋, ?_, ?_, hD'⟩
    · intro x hx i
      obtain ⟨h1, h2⟩ := hsub hx
      refine ⟨(hbox x h1 i).1, ?_⟩
      by_cases hi : i = j
      · subst hi
        rw [Function.update_self]
        exact h2
      · rw [Function.update_of_ne hi]
        exact (hbox x h1 i).2
    · intro i
      by_cases hi : i = j
      · subst hi
        rw [Function.update_self]
        omega
      · rw [Function.update_of_ne hi]
        exact hb i
  · obtain ⟨D', hD', hle⟩ := hsum (Function.update lo j ⌈q⌉) hi (fun i hi => by rw [Function.update_of_ne hi])
      (by simpa using hcu) (fun i => by
        by_cases hi : i = j
        · subst hi; simpa using hcu
        · rw [Function.update_of_ne hi]; exact (hb i).2.1) (by rw [Function.update_self]; omega)
    refine ⟨D', hle, child_wf _ _ _ _, rfl, rfl, hineq _ (by simp) _, hG.child h.good j _ _ (by simp) (by omega) (by omega),
      by have := h.shape; omega,
      by have := h.depth; omega, Function.update lo j ⌈q⌉, hi, ?_, ?_, hD'⟩
    · intro x hx i
      obtain ⟨h1, h2⟩ := hsub hx
      refine ⟨?_, (hbox x h1 i).2⟩
      by_cases hi : i = j
      · subst hi
        rw [Function.update_self]
        exact h2
      · rw [Function.update_of_ne hi]
        exact (hbox x h1 i).1
    · intro i
      by_cases hi : i = j
      · subst hi
        rw [Function.update_self]
        omega
      · rw [Function.update_of_ne hi]
        exact hb i

/-- The children of a node are nodes with a smaller box. -/
theorem BoxNode.step {G : ∀ m n : ℕ, LP m n → Prop} {β M D sf : ℕ} (hG : NodeClass β M G) {integral : Option (List ℤ)}
    {Q : LP m n} (h : BoxNode G β M D Q) {v : List ℚ} {pos : ℕ} {q : ℚ}
    (hs : solve sf Q = .ok (some v)) (hff : firstFractional integral 0 v = some (pos, q)) :
    (∃ D', D' + 1 ≤ D ∧ BoxNode G β M D' (LinProg.child Q pos .le (⌊q⌋ : ℤ))) ∧
      ∃ D', D' + 1 ≤ D ∧ BoxNode G β M D' (LinProg.child Q pos .ge (⌈q⌉ : ℤ)) := by
  obtain ⟨x, rfl, hx⟩ := C44_sound_partial sf Q h.wf (h.exactSef hG) v hs
  obtain ⟨j, rfl, rfl, _, hfrac⟩ := pos_of_frac hff
  exact h.child hG (fun lo hi hb => hb x hx.1 j) hfrac

theorem BoxNode.visits {G : ∀ m n : ℕ, LP m n → Prop} {β M D sf : ℕ} (hG : NodeClass β M G) {integral : Option (List ℤ)}
    {P R : Prog} (h : BoxNode G β M D P.lp)
    (hR : Visits sf integral P R) : R.n = P.n ∧ ∃ D', BoxNode G β M D' R.lp := by
  induction hR with
  | refl => exact ⟨rfl, D, h⟩
  | tail _ hc ih =>
    obtain ⟨hn, D', hD'⟩ := ih
    cases hc with
    | lower hs hff =>
      obtain ⟨⟨D'', _, h''⟩, _⟩ := hD'.step hG hs hff
      exact ⟨hn, D'', h''⟩
    | upper hs hff =>
      obtain ⟨_, D'', _, h''⟩ := hD'.step hG hs hff
      exact ⟨hn, D'', h''⟩

/-- The recursion ends when the fuel exceeds the width of the box. -/
theorem BoxNode.ends {G : ∀ m n : ℕ, LP m n → Prop} {β M sf : ℕ} (hG : NodeClass β M G)
    {integral : Option (List ℤ)} :
    ∀ {fuel m n D : ℕ} {Q : LP m n}, BoxNode G β M D Q → (n + 2 * M) ^ M ≤ sf → D < fuel →
    ∃ r, branch sf integral fuel ⟨m, n, Q⟩ = .ok r := by
  intro fuel
  induction fuel with
  | zero => intro m n D Q _ _ h; omega
  | succ f ih =>
    intro m n D Q h hf hfuel
    obtain ⟨r, hr⟩ := solve_ok h.wf (h.clear hG hf).ok
    have h1 : ∀ pos (q : ℚ), childProg Q pos "<=" (⌊q⌋ : ℤ) = .ok ⟨m + 1, n, LinProg.child Q pos .le (⌊q⌋ : ℤ)⟩ :=
      fun pos q => childProg_eq Q pos .le _
    have h2 : ∀ pos (q : ℚ), childProg Q pos ">=" (⌈q⌉ : ℤ) = .ok ⟨m + 1, n, LinProg.child Q pos .ge (⌈q⌉ : ℤ)⟩ :=
      fun pos q => childProg_eq Q pos .ge _
    rw [branch]
    simp only [hr, h1, h2]
    cases r with
    | none => exact ⟨_, rfl⟩
    | some v =>
      obtain ⟨x, rfl, hx⟩ := C44_sound_partial sf Q h.wf (h.exactSef hG) v hr
      simp only [evaluate, toVec_ofFn]
      cases hff : firstFractional integral 0 (List.ofFn x) with
      | none => exact ⟨_, rfl⟩
      | some p =>
        obtain ⟨pos, q⟩ := p
        obtain ⟨⟨D1, hD1, hb1⟩, D2, hD2, hb2⟩ := h.step hG hr hff
        obtain ⟨rl, hrl⟩ := ih hb1 hf (by omega)
        obtain ⟨rh, hrh⟩ := ih hb2 hf (by omega)
        simp only [hrl, hrh]
        exact ⟨_, rfl⟩

/-! ### Integer data with bounded subdeterminants -/

theorem le_of_small {K : ℕ} {L : ℚ} (hL : 0 ≤ L) (h : (K : ℚ) * K / 10 ^ 8 + L < 1) : K ≤ 10 ^ 10 := by
  by_contra hlt
  push Not at hlt
  have hlt' : (10 : ℚ) ^ 10 ≤ K := by exact_mod_cast hlt.le
  have h1 : (10 : ℚ) ^ 10 * 10 ^ 10 ≤ (K : ℚ) * K := by gcongr
  have h3 : (10 : ℚ) ^ 10 * 10 ^ 10 / 10 ^ 8 ≤ (K : ℚ) * K / 10 ^ 8 := by gcongr
  norm_num at h3 h
  linarith

/-- Denominators `r i` of the rows with product `R`, costs with denominator `N`, subdeterminants at most `K` and
right-hand sides at most `β`. -/
def DetClass (R N K β : ℕ) (m n : ℕ) (Q : LP m n) : Prop :=
  ∃ r : Fin m → ℕ, (∀ i, 0 < r i) ∧ ∏ i, r i = R ∧ IsInt (scaled r N Q) ∧ SubdetLe K Q.A ∧ ∀ i, |Q.b i| ≤ β

theorem DetClass.decimal {R N K β M : ℕ} (hN : 0 < N) (hRN : R * K * N ≤ 10 ^ 10) {Q : LP m n}
    (h : DetClass R N K β m n Q) (hm : m ≤ M)
    (hsmall : ((R * K : ℕ) : ℚ) * ((R * K : ℕ) : ℚ) / 10 ^ 8 +
      ((R * K : ℕ) : ℚ) * ((R * (M * β * K) : ℕ) : ℚ) / 10 ^ 5 < 1) : ∃ r, Decimal Q r N K β := by
  obtain ⟨r, h1, rfl, h2, h3, h4⟩ := h
  refine ⟨r, h1, hN, h2, h3, h4, hRN, lt_of_le_of_lt ?_ hsmall⟩
  have : (((∏ i, r i) * (m * β * K) : ℕ) : ℚ) ≤ (((∏ i, r i) * (M * β * K) : ℕ) : ℚ) := by
    have : (∏ i, r i) * (m * β * K) ≤ (∏ i, r i) * (M * β * K) := by gcongr
    exact_mod_cast this
  gcongr

theorem Decimal.clear {sf : ℕ} {r : Fin m → ℕ} {N K β : ℕ} {P : LP m n} (h : Decimal P r N K β) (hP : WF P)
    {x : Fin n → ℚ} (hx : solve sf P = .ok (some (List.ofFn x))) (j : Fin n) (hj : isInteger (x j) = true) :
    ∃ k : ℤ, x j = k := by
  obtain ⟨s, basis, l, y, hsim, hx⟩ := solve_some hx
  obtain ⟨hm, hs, D, _, hd, rfl, rfl, rfl, hc, hx'⟩ := simplex_optimal hsim
  have hn := isBasis_nonsing hd
  obtain ⟨d, hd0, hdK, hz⟩ := scaled_sol_frac h.rpos h.intSef hn
  obtain ⟨z, hz⟩ := reverse_closed (S := fun a => ∃ z : ℤ, (d : ℚ) * a = z) hP
    (fun a ⟨z, h⟩ => ⟨-z, by rw [mul_neg, h]; push_cast; rfl⟩)
    (fun a b ⟨z, h⟩ ⟨w, h'⟩ => ⟨z - w, by rw [mul_sub, h, h']; push_cast; rfl⟩) hz hx.symm j
  exact int_of_near hd0 hdK (le_of_small (by positivity) h.small) hz hj

theorem isInt_scaled_child {r : Fin m → ℕ} {N : ℕ} {P : LP m n} (h : IsInt (scaled r N P)) (pos : ℕ) (q : Ineq)
    (k : ℤ) : IsInt (scaled (Fin.snoc r 1 : Fin (m + 1) → ℕ) N (child P pos q k)) := by
  have e1 : (Fin.snoc r 1 : Fin (m + 1) → ℕ) (Fin.last m) = 1 := Fin.snoc_last (α := fun _ => ℕ) _ _
  have e2 : ∀ i : Fin m, (Fin.snoc r 1 : Fin (m + 1) → ℕ) i.castSucc = r i :=
    fun i => Fin.snoc_castSucc (α := fun _ => ℕ) _ _ _
  refine ⟨fun i j => ?_, fun i => ?_, h.2.2⟩
  · show ∃ z : ℤ, (((Fin.snoc r 1 : Fin (m + 1) → ℕ) i : ℕ) : ℚ) * (child P pos q k).A i j = z
    refine Fin.lastCases ?_ (fun i => ?_) i
    · have e : (child P pos q k).A (Fin.last m) = fun j : Fin n => if (j : ℕ) = pos then 1 else 0 :=
        Fin.snoc_last (α := fun _ => Fin n → ℚ) _ _
      rw [e, e1]
      simp only
      split
      · exact ⟨1, by simp⟩
      · exact ⟨0, by simp⟩
    · have e : (child P pos q k).A i.castSucc = P.A i := Fin.snoc_castSucc (α := fun _ => Fin n → ℚ) _ _ _
      rw [e, e2]
      exact h.1 i j
  · show ∃ z : ℤ, (((Fin.snoc r 1 : Fin (m + 1) → ℕ) i : ℕ) : ℚ) * (child P pos q k).b i = z
    refine Fin.lastCases ?_ (fun i => ?_) i
    · rw [e1]
      exact ⟨k, by simp [child]⟩
    · rw [e2]
      obtain ⟨z, hz⟩ := h.2.1 i
      exact ⟨z, by rw [← hz]; simp [child, scaled]⟩

theorem detClass {R N K β M : ℕ} (hN : 0 < N) (hRN : R * K * N ≤ 10 ^ 10)
    (hsmall : ((R * K : ℕ) : ℚ) * ((R * K : ℕ) : ℚ) / 10 ^ 8 +
      ((R * K : ℕ) : ℚ) * ((R * (M * β * K) : ℕ) : ℚ) / 10 ^ 5 < 1) :
    NodeClass β M (DetClass R N K β) where
  exactSef h _ hm := (h.decimal hN hRN hm hsmall).choose_spec.exactSef
  exactAux h _ hm := (h.decimal hN hRN hm hsmall).choose_spec.exactAux
  clear h hP _ hm hx j hj := (h.decimal hN hRN hm hsmall).choose_spec.clear hP hx j hj
  child := by
    rintro m n Q ⟨r, h1, h2, h3, h4, h5⟩ j op k _ h0 hk
    refine ⟨Fin.snoc r 1, fun i => ?_, ?_, isInt_scaled_child h3 _ _ _, subdet_child h4 _ _ _, fun i => ?_⟩
    · refine Fin.lastCases ?_ (fun i => ?_) i
      · simp
      · simpa using h1 i
    · rw [Fin.prod_univ_castSucc]
      simpa using h2
    · refine Fin.lastCases ?_ (fun i => ?_) i
      · simp only [LinProg.child, Fin.snoc_last]
        have : |k| ≤ (β : ℤ) := by rw [abs_of_nonneg h0]; exact hk
        exact_mod_cast this
      · simpa [LinProg.child] using h5 i

/-! ### Two variables per row -/

theorem TwoVarLP.child {Q : LP m n} {β U : ℕ} (h : TwoVarLP Q β U) (j : Fin n) (op : Ineq) (k : ℤ)
    (hop : op ≠ .eq) (h0 : 0 ≤ k) (h1 : k ≤ β) : TwoVarLP (LinProg.child Q j op k) β U := by
  have eL : (LinProg.child Q j op k).A (Fin.last m) = fun i : Fin n => if (i : ℕ) = j then 1 else 0 :=
    Fin.snoc_last (α := fun _ => Fin n → ℚ) _ _
  have eC : ∀ i : Fin m, (LinProg.child Q j op k).A i.castSucc = Q.A i :=
    fun i => Fin.snoc_castSucc (α := fun _ => Fin n → ℚ) _ _ _
  refine ⟨rfl, rfl, fun i => ?_, h.costs, fun i => ?_, fun i => ?_, fun i l => ?_, fun i => ?_, fun l => ?_⟩
  · refine Fin.lastCases ?_ (fun i => ?_) i
    · simpa [LinProg.child] using hop
    · simpa [LinProg.child] using h.ineq i
  · refine Fin.lastCases ?_ (fun i => ?_) i
    · exact ⟨k, by simp [LinProg.child]⟩
    · simpa [LinProg.child] using h.rhsInt i
  · refine Fin.lastCases ?_ (fun i => ?_) i
    · simp only [LinProg.child, Fin.snoc_last]
      have : |k| ≤ (β : ℤ) := by rw [abs_of_nonneg h0]; exact h1
      exact_mod_cast this
    · simpa [LinProg.child] using h.rhs i
  · refine Fin.lastCases ?_ (fun i => ?_) i
    · rw [eL]
      simp only
      split <;> simp
    · rw [eC]
      exact h.sign i l
  · refine Fin.lastCases ?_ (fun i => ?_) i
    · rw [eL]
      refine le_trans (Finset.card_le_card (t := {j}) fun l hl => ?_) (by simp)
      have := (Finset.mem_filter.mp hl).2
      simp only at this
      rw [Finset.mem_singleton]
      by_contra hne
      exact this (if_neg fun hc => hne (Fin.ext hc))
    · rw [eC]
      exact h.two i
  · obtain ⟨i, h1, h2, h3, h4⟩ := h.box l
    refine ⟨i.castSucc, by simpa [LinProg.child] using h1, fun k => by rw [eC]; exact h2 k, ?_, ?_⟩
    · simpa [LinProg.child] using h3
    · simpa [LinProg.child] using h4

theorem TwoVarLP.clear {sf : ℕ} {Q : LP m n} {β U : ℕ} (h : TwoVarLP Q β U) (hP : WF Q) (hs : Q.isSef = false)
    {x : Fin n → ℚ} (hx : solve sf Q = .ok (some (List.ofFn x))) (j : Fin n) (hj : isInteger (x j) = true) :
    ∃ k : ℤ, x j = k := by
  obtain ⟨s, basis, l, y, hsim, hx⟩ := solve_some hx
  obtain ⟨hm, hs', D, _, hd, rfl, rfl, rfl, hc, hx'⟩ := simplex_optimal hsim
  have hn := isBasis_nonsing hd
  obtain ⟨u, hu⟩ := h.sef hs
  obtain ⟨N, _, _, hint⟩ := hu.isInt
  obtain ⟨z, hz⟩ := reverse_closed (S := fun a => ∃ z : ℤ, ((2 : ℤ) : ℚ) * a = z) hP
    (fun a ⟨z, h⟩ => ⟨-z, by rw [mul_neg, h]; push_cast; rfl⟩)
    (fun a b ⟨z, h⟩ ⟨w, h'⟩ => ⟨z - w, by rw [mul_sub, h, h']; push_cast; rfl⟩)
    (fun j => by simpa using hu.two.denom.rhs hint hn j) hx.symm j
  exact int_of_near (d := 2) (K := 2) (by norm_num) (by norm_num) (by norm_num) hz hj

theorem twoVarClass {β U : ℕ} (hsm : β + 2 * U ≤ 12000) (M : ℕ) :
    NodeClass β M fun m n (Q : LP m n) => TwoVarLP Q β U where
  exactSef h hs _ := h.exactSef hs hsm
  exactAux h hs _ := h.exactAux hs hsm
  clear h hP hs _ hx j hj := h.clear hP hs hx j hj
  child h j op k hop h0 h1 := h.child j op k hop h0 h1

end LinProg
end Pytimize
