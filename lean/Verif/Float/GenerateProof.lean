/-
The arrays of a compiled formulation in doubles, entry by entry.
-/
import Verif.Float.Generate
import Verif.Float.PyNum
import Verif.Float.EquationBound

namespace Pytimize
namespace Floating
open Formulation
open LinProg (Ineq Obj)

/-- `_broadcast_subtract` with any rounding of the sums. -/
def subtractWith (f : ℚ → ℚ) : Option (List ℚ) → Option (List ℚ) → Except PyErr (Option (List ℚ))
  | none, b => .ok b
  | some a, none => .ok (some a)
  | some a, some b =>
    let b := b.map fun q => -q
    if a.length = b.length then .ok (some (List.zipWith (fun x y => f (x + y)) a b))
    else
      let (s, l) := if a.length > b.length then (b, a) else (a, b)
      match padRight (some s) l.length with
      | .error e => .error e
      | .ok s => .ok (some (List.zipWith (fun x y => f (x + y)) l s))

theorem subtract_rounded (R : Rounding) (a b : Option (List ℚ)) : fbroadcastSubtract R a b = subtractWith R.rd a b := by
  cases a <;> cases b <;> rfl

theorem subtract_exact (a b : Option (List ℚ)) : broadcastSubtract a b = subtractWith id a b := by
  cases a <;> cases b <;> rfl

theorem getD_zipWith {f : ℚ → ℚ} (hf : f 0 = 0) {a b : List ℚ} (h : a.length = b.length) (i : ℕ) :
    (List.zipWith (fun x y => f (x + y)) a b).getD i 0 = f (a.getD i 0 + b.getD i 0) := by
  simp only [List.getD_eq_getElem?_getD, List.getElem?_zipWith]
  by_cases hi : i < a.length
  · have hb : i < b.length := h ▸ hi
    simp [hi, hb]
  · have hb : ¬ i < b.length := h ▸ hi
    rw [List.getElem?_eq_none (by omega), List.getElem?_eq_none (by omega)]
    simp [hf]

theorem getD_neg (b : List ℚ) (i : ℕ) : (b.map fun q => -q).getD i 0 = -b.getD i 0 := by
  simp only [List.getD_eq_getElem?_getD, List.getElem?_map]
  cases b[i]? <;> simp

theorem getD_pad (l : List ℚ) (k i : ℕ) : (l ++ List.replicate k (0 : ℚ)).getD i 0 = l.getD i 0 := by
  simp only [List.getD_eq_getElem?_getD, List.getElem?_append, List.getElem?_replicate]
  split
  · rfl
  · rename_i h
    rw [List.getElem?_eq_none (by omega)]
    split <;> rfl

/-- The entries of the difference of two arrays. -/
theorem subtract_spec {f : ℚ → ℚ} (hf : f 0 = 0) (a b : List ℚ) :
    ∃ c, subtractWith f (some a) (some b) = .ok (some c) ∧ c.length = max a.length b.length ∧
      ∀ i, c.getD i 0 = f (a.getD i 0 - b.getD i 0) := by
  simp only [subtractWith, List.length_map]
  split
  · rename_i h
    refine ⟨_, rfl, by simp [h], fun i => ?_⟩
    rw [getD_zipWith hf (by simpa using h), getD_neg, sub_eq_add_neg]
  · rename_i h
    by_cases h1 : a.length > b.length
    · simp only [if_pos h1, padRight, List.length_map]
      rw [if_neg (by omega)]
      refine ⟨_, rfl, ?_, fun i => ?_⟩
      · simp only [List.length_zipWith, List.length_append, List.length_map, List.length_replicate]
        omega
      · rw [getD_zipWith hf (by simp; omega), getD_pad, getD_neg, sub_eq_add_neg]
    · simp only [if_neg h1, padRight, List.length_map]
      refine ⟨_, rfl, ?_, fun i => ?_⟩
      · simp only [List.length_zipWith, List.length_append, List.length_map, List.length_replicate]
        omega
      · rw [getD_zipWith hf (by simp; omega), getD_pad, getD_neg, sub_eq_add_neg, add_comm]

theorem fcoefficients_eq (R : Rounding) (d : Dict ℕ PyNum) :
    fcoefficients R d = coefficients (vmap (PyNum.toFloat R) d) := by
  cases d with
  | nil => rfl
  | cons t d =>
    simp only [fcoefficients, coefficients, vmap, List.map_cons]
    rw [show ((t.1, t.2.toFloat R) :: d.map fun t => (t.1, t.2.toFloat R)) =
      (t :: d).map fun t => (t.1, t.2.toFloat R) from rfl, List.foldl_map]
    simp [List.map_map, Function.comp_def]

/-- The entries of `coefficients`. -/
theorem coefficients_getD {d : Dict ℕ ℚ} (h0 : d ≠ []) (hd : d.WF) :
    ∃ l, coefficients d = some l ∧ l.length = (d.map Prod.fst).foldl max 0 + 1 ∧
      ∀ i, l.getD i 0 = (d.get? i).getD 0 := by
  cases d with
  | nil => exact (h0 rfl).elim
  | cons t d =>
    have hk : ∀ s ∈ t :: d, s.1 < ((t :: d).map Prod.fst).foldl max 0 + 1 := by
      intro s hs
      have := (le_foldl_max ((t :: d).map Prod.fst) 0).2 s.1 (List.mem_map.mpr ⟨s, hs, rfl⟩)
      omega
    refine ⟨_, rfl, ?_, fun i => ?_⟩
    · rw [length_foldl_set, List.length_replicate]
    · rw [getD_foldl_set _ hd _ (by simpa using hk)]
      have : (List.replicate (((t :: d).map Prod.fst).foldl max 0 + 1) (0 : ℚ)).getD i 0 = 0 := by
        rw [List.getD_eq_getElem?_getD, List.getElem?_replicate]
        split <;> rfl
      rw [this]

theorem vmap_WF {N M : Type} (φ : N → M) {d : Dict ℕ N} (h : d.WF) : (vmap φ d).WF := by
  unfold Dict.WF at *
  rwa [vmap_keys]

theorem vmap_fst {N M : Type} (φ : N → M) (d : Dict ℕ N) : (vmap φ d).map Prod.fst = d.map Prod.fst := by
  simp [vmap, List.map_map, Function.comp_def]

theorem rd_zero (R : Rounding) : R.rd 0 = 0 := by
  have := R.odd 0
  rw [neg_zero] at this
  linarith

/-- The coefficient of a variable in an equation, as a number. -/
def coeffOf (φ : PyNum → ℚ) (e : GEqn PyNum) (i : ℕ) : ℚ := ((e.terms.get? i).map φ).getD 0

theorem coeffs_two (R : Rounding) {d : Dict ℕ PyNum} (h0 : d ≠ []) (hd : d.WF) :
    ∃ l l', fcoefficients R d = some l ∧ coefficients (vmap PyNum.val d) = some l' ∧ l.length = l'.length ∧
      (∀ i, l.getD i 0 = ((d.get? i).map (PyNum.toFloat R)).getD 0) ∧
      ∀ i, l'.getD i 0 = ((d.get? i).map PyNum.val).getD 0 := by
  have h1 : ∀ {M : Type} (φ : PyNum → M), vmap φ d ≠ [] := by
    intro M φ h
    cases d with
    | nil => exact h0 rfl
    | cons t d => cases h
  obtain ⟨l, a1, a2, a3⟩ := coefficients_getD (h1 (PyNum.toFloat R)) (vmap_WF (PyNum.toFloat R) hd)
  obtain ⟨l', b1, b2, b3⟩ := coefficients_getD (h1 PyNum.val) (vmap_WF PyNum.val hd)
  rw [vmap_fst] at a2 b2
  refine ⟨l, l', (fcoefficients_eq R d).trans a1, b1, a2.trans b2.symm, fun i => ?_, fun i => ?_⟩
  · rw [a3, vmap_get?]
  · rw [b3, vmap_get?]

/-- Everything about one constraint: in doubles and exactly the same exceptions, lengths and operators; the
coefficients are the differences of the converted coefficients, rounded at most once. -/
theorem fgenerate_spec (R : Rounding) (op : Ineq) {e f : GEqn PyNum} (he : e.terms.WF) (hf : f.terms.WF) :
    (∃ r, fgenerate R op e f = .error r ∧ generate op (e.read PyNum.val) (f.read PyNum.val) = .error r) ∨
    ∃ c c', fgenerate R op e f = .ok c ∧ generate op (e.read PyNum.val) (f.read PyNum.val) = .ok c' ∧
      c.op = op ∧ c'.op = op ∧ c.coeffs.length = c'.coeffs.length ∧
      c.const = pySub R f.const e.const ∧ c'.const = f.const.val - e.const.val ∧
      ((e.terms ≠ [] ∧ f.terms ≠ [] ∧
          (∀ i, c.coeffs.getD i 0 = R.rd (coeffOf (PyNum.toFloat R) e i - coeffOf (PyNum.toFloat R) f i)) ∧
          ∀ i, c'.coeffs.getD i 0 = coeffOf PyNum.val e i - coeffOf PyNum.val f i) ∨
        (f.terms = [] ∧ (∀ i, c.coeffs.getD i 0 = coeffOf (PyNum.toFloat R) e i) ∧
          ∀ i, c'.coeffs.getD i 0 = coeffOf PyNum.val e i) ∨
        (e.terms = [] ∧ (∀ i, c.coeffs.getD i 0 = coeffOf (PyNum.toFloat R) f i) ∧
          ∀ i, c'.coeffs.getD i 0 = coeffOf PyNum.val f i)) := by
  have re : (e.read PyNum.val).terms = vmap PyNum.val e.terms := rfl
  have rf : (f.read PyNum.val).terms = vmap PyNum.val f.terms := rfl
  unfold fgenerate generate
  rw [subtract_rounded, subtract_exact, re, rf]
  by_cases e0 : e.terms = []
  · by_cases f0 : f.terms = []
    · left
      refine ⟨.valueError, ?_, ?_⟩
      · rw [e0, f0]; rfl
      · rw [e0, f0]; rfl
    · right
      obtain ⟨l, l', a1, a2, a3, a4, a5⟩ := coeffs_two R f0 hf
      refine ⟨⟨l, op, pySub R f.const e.const⟩, ⟨l', op, f.const.val - e.const.val⟩, ?_, ?_, rfl, rfl, a3, rfl, rfl,
        .inr (.inr ⟨e0, a4, a5⟩)⟩
      · rw [a1, e0]; rfl
      · rw [a2, e0]; rfl
  · obtain ⟨l, l', a1, a2, a3, a4, a5⟩ := coeffs_two R e0 he
    right
    by_cases f0 : f.terms = []
    · refine ⟨⟨l, op, pySub R f.const e.const⟩, ⟨l', op, f.const.val - e.const.val⟩, ?_, ?_, rfl, rfl, a3, rfl, rfl,
        .inr (.inl ⟨f0, a4, a5⟩)⟩
      · rw [a1, f0]; rfl
      · rw [a2, f0]; rfl
    · obtain ⟨m, m', b1, b2, b3, b4, b5⟩ := coeffs_two R f0 hf
      obtain ⟨c, c1, c2, c3⟩ := subtract_spec (rd_zero R) l m
      obtain ⟨c', d1, d2, d3⟩ := subtract_spec (f := id) rfl l' m'
      refine ⟨⟨c, op, pySub R f.const e.const⟩, ⟨c', op, f.const.val - e.const.val⟩, ?_, ?_, rfl, rfl, ?_, rfl, rfl,
        .inl ⟨e0, f0, fun i => ?_, fun i => ?_⟩⟩
      · rw [a1, b1, c1]
      · rw [a2, b2, d1]; rfl
      · rw [c2, d2, a3, b3]
      · rw [c3, a4, b4]; rfl
      · rw [d3, a5, b5]; rfl

/-! ### Integers -/

/-- Integers that are doubles. -/
theorem toFloat_int {k : ℤ} (hk : |k| ≤ 2 ^ 53) : (PyNum.int k).toFloat binary64 = k :=
  binary64_rep.mpr (isDouble_int hk)

/-- The numbers of an equation are at most `B` in absolute value. -/
def SmallEqn (B : ℤ) (e : GEqn ℤ) : Prop := (∀ t ∈ e.terms, |t.2| ≤ B) ∧ |e.const| ≤ B

/-- The numbers of a value. -/
def SmallVal (B : ℤ) (h : GHeap ℤ) : GVal ℤ → Prop
  | .num q => |q| ≤ B
  | .eqn a => SmallEqn B (gderef intOps h a)
  | _ => True

abbrev toPy (h : GHeap ℤ) : GHeap PyNum := h.map (GEqn.map PyNum.int)
abbrev toRat (h : GHeap ℤ) : Heap := h.map (GEqn.read fun z : ℤ => (z : ℚ))

theorem mem_of_get? {N : Type} {d : Dict ℕ N} {k : ℕ} {v : N} (h : d.get? k = some v) : (k, v) ∈ d := by
  induction d with
  | nil => cases h
  | cons t d ih =>
    obtain ⟨j, w⟩ := t
    by_cases hj : j = k
    · subst hj
      simp [Dict.get?] at h
      exact h ▸ List.mem_cons_self ..
    · simp [Dict.get?, hj] at h
      exact List.mem_cons_of_mem _ (ih h)

theorem coeff_int {e : GEqn ℤ} {B : ℤ} (hB : B ≤ 2 ^ 53) (h : SmallEqn B e) (hb : 0 ≤ B) (i : ℕ) :
    ∃ k : ℤ, |k| ≤ B ∧ coeffOf (PyNum.toFloat binary64) (e.map PyNum.int) i = k ∧
      coeffOf PyNum.val (e.map PyNum.int) i = k := by
  have : (e.map PyNum.int).terms = vmap PyNum.int e.terms := rfl
  simp only [coeffOf, this, vmap_get?]
  cases hg : e.terms.get? i with
  | none => exact ⟨0, by simpa using hb, by simp, by simp⟩
  | some k =>
    have h1 := h.1 _ (mem_of_get? hg)
    exact ⟨k, h1, toFloat_int (h1.trans hB), rfl⟩

theorem list_ext {l m : List ℚ} (h : l.length = m.length) (hg : ∀ i, l.getD i 0 = m.getD i 0) : l = m := by
  refine List.ext_getElem h fun i h1 h2 => ?_
  have := hg i
  simpa [List.getD_eq_getElem?_getD, h1, h2] using this

theorem generate_int (op : Ineq) {e f : GEqn ℤ} (he : e.terms.WF) (hf : f.terms.WF) (se : SmallEqn (2 ^ 52) e)
    (sf : SmallEqn (2 ^ 52) f) :
    (fgenerate binary64 op (e.map PyNum.int) (f.map PyNum.int)).map (fun c => FCon.toCon binary64 (.lin c)) =
      (generate op (e.read fun z : ℤ => (z : ℚ)) (f.read fun z : ℤ => (z : ℚ))).map Con.lin := by
  have r1 : (e.map PyNum.int).read PyNum.val = e.read fun z : ℤ => (z : ℚ) := read_map ..
  have r2 : (f.map PyNum.int).read PyNum.val = f.read fun z : ℤ => (z : ℚ) := read_map ..
  have := fgenerate_spec binary64 op (e := e.map PyNum.int) (f := f.map PyNum.int) (vmap_WF _ he) (vmap_WF _ hf)
  rw [r1, r2] at this
  rcases this with ⟨r, h1, h2⟩ | ⟨c, c', h1, h2, h3, h4, h5, h6, h7, h8⟩
  · rw [h1, h2]; rfl
  · rw [h1, h2]
    have e1 : c.coeffs = c'.coeffs := by
      refine list_ext h5 fun i => ?_
      obtain ⟨j, j1, j2, j3⟩ := coeff_int (by norm_num) se (by norm_num) i
      obtain ⟨k, k1, k2, k3⟩ := coeff_int (by norm_num) sf (by norm_num) i
      rcases h8 with ⟨-, -, a, b⟩ | ⟨-, a, b⟩ | ⟨-, a, b⟩
      · rw [a, b, j2, k2, j3, k3, ← Int.cast_sub]
        refine binary64_rep.mpr (isDouble_int ?_)
        have := abs_sub j k
        norm_num at *
        linarith
      · rw [a, b, j2, j3]
      · rw [a, b, k2, k3]
    have e2 : c.const.toFloat binary64 = c'.const := by
      rw [h6, h7]
      show (PyNum.int (f.const - e.const)).toFloat binary64 = (f.const : ℚ) - e.const
      rw [toFloat_int, Int.cast_sub]
      have := abs_sub f.const e.const
      have h9 := se.2
      have h10 := sf.2
      norm_num at *
      linarith
    obtain ⟨co, oo, ko⟩ := c
    obtain ⟨co', oo', ko'⟩ := c'
    simp only at e1 e2 h3 h4
    simp only [Except.map, FCon.toCon, e1, e2, h3, h4]

theorem deref_py (h : GHeap ℤ) (a : ℕ) : gderef (pyOps binary64) (toPy h) a = (gderef intOps h a).map PyNum.int :=
  (hom_int_py binary64).deref h a

theorem deref_rat (h : GHeap ℤ) (a : ℕ) : deref (toRat h) a = (gderef intOps h a).read fun z : ℤ => (z : ℚ) := by
  unfold gderef deref
  rw [List.getD_eq_getElem?_getD, List.getD_eq_getElem?_getD, List.getElem?_map]
  cases h[a]? with
  | none => simp [GEqn.read, intOps]
  | some e => rfl

theorem wf_deref {h : GHeap ℤ} (hg : Good (toRat h)) (a : ℕ) : (gderef intOps h a).terms.WF := by
  unfold gderef
  rw [List.getD_eq_getElem?_getD]
  cases he : h[a]? with
  | none => exact List.nodup_nil
  | some e =>
    have h1 := (hg _ (List.mem_map.mpr ⟨e, List.mem_of_getElem? he, rfl⟩)).2
    show e.terms.WF
    unfold Dict.WF at *
    rwa [show (e.read fun z : ℤ => (z : ℚ)).terms = vmap (fun z : ℤ => (z : ℚ)) e.terms from rfl, vmap_keys] at h1

/-! ### Comparisons of integer equations -/

theorem cmpEqn_int {h : GHeap ℤ} (hg : Good (toRat h)) (op : Ineq) {e : GEqn ℤ} (he : e.terms.WF)
    (se : SmallEqn (2 ^ 52) e) {w : GVal ℤ} (sw : SmallVal (2 ^ 52) h w) :
    (fcmpEqn binary64 (toPy h) op (e.map PyNum.int) (w.map PyNum.int)).map (FCon.toCon binary64) =
      cmpEqn (toRat h) op (e.read fun z : ℤ => (z : ℚ)) (w.read fun z : ℤ => (z : ℚ)) := by
  have key : ∀ f : GEqn ℤ, f.terms.WF → SmallEqn (2 ^ 52) f →
      (match fgenerate binary64 op (e.map PyNum.int) (f.map PyNum.int) with
        | .error r => .error r
        | .ok c => .ok (.lin c) : Except PyErr FCon).map (FCon.toCon binary64) =
      (match generate op (e.read fun z : ℤ => (z : ℚ)) (f.read fun z : ℤ => (z : ℚ)) with
        | .error r => .error r
        | .ok c => .ok (.lin c) : Except PyErr Con) := by
    intro f hf sf
    have := generate_int op he hf se sf
    revert this
    generalize fgenerate binary64 op (e.map PyNum.int) (f.map PyNum.int) = a
    generalize generate op (e.read fun z : ℤ => (z : ℚ)) (f.read fun z : ℤ => (z : ℚ)) = b
    cases a <;> cases b <;> exact id
  cases w with
  | num q => exact key ⟨[], q⟩ List.nodup_nil ⟨by simp, sw⟩
  | eqn b =>
    have h1 := key (gderef intOps h b) (wf_deref hg b) sw
    simp only [fcmpEqn, GVal.map, deref_py, cmpEqn, GVal.read, deref_rat]
    exact h1
  | var k => rfl
  | none => rfl

theorem cmpVar_int {h : GHeap ℤ} (hg : Good (toRat h)) (op : Ineq) (k : ℕ) {w : GVal ℤ}
    (sw : SmallVal (2 ^ 52) h w) :
    (fcmpVar binary64 (toPy h) op k (w.map PyNum.int)).map (FCon.toCon binary64) =
      cmpVar (toRat h) op k (w.read fun z : ℤ => (z : ℚ)) := by
  have key := cmpEqn_int hg op (e := ⟨[(k, 1)], 0⟩) (by simp [Dict.WF, Dict.keys]) ⟨by simp, by simp⟩ sw
  have r1 : (⟨[(k, 1)], 0⟩ : GEqn ℤ).read (fun z : ℤ => (z : ℚ)) = ⟨[(k, 1)], 0⟩ := by simp [GEqn.read]
  rw [r1] at key
  cases op <;> cases w <;> simp only [GVal.map, GVal.read] at key ⊢ <;>
    first
    | exact key
    | (rename_i q
       simp only [fcmpVar, cmpVar]
       by_cases h0 : (q : ℚ) = 0
       · rw [if_pos h0, if_pos (show (PyNum.int q).val = 0 from h0)]; rfl
       · rw [if_neg h0, if_neg (show ¬ (PyNum.int q).val = 0 from h0)]; exact key)

theorem compare_int {h : GHeap ℤ} (hg : Good (toRat h)) (op : Ineq) {v w : GVal ℤ} (sv : SmallVal (2 ^ 52) h v)
    (sw : SmallVal (2 ^ 52) h w) :
    (fcompare binary64 (toPy h) op (v.map PyNum.int) (w.map PyNum.int)).map (FCon.toCon binary64) =
      Formulation.compare (toRat h) op (v.read fun z : ℤ => (z : ℚ)) (w.read fun z : ℤ => (z : ℚ)) := by
  cases v with
  | num p =>
    cases w with
    | num q => rfl
    | eqn b =>
      simp only [fcompare, GVal.map, GVal.read, Formulation.compare, deref_py, deref_rat]
      exact cmpEqn_int hg _ (wf_deref hg b) sw sv
    | var k => exact cmpVar_int hg _ k sv
    | none =>
      simp only [fcompare, GVal.map, GVal.read, Formulation.compare]
      split <;> simp [Except.map, FCon.toCon]
  | eqn a =>
    have h1 := cmpEqn_int hg op (wf_deref hg a) sv sw
    rw [← deref_py, ← deref_rat] at h1
    cases w <;> exact h1
  | var k =>
    have h1 := cmpVar_int hg op k sw
    cases w <;> exact h1
  | none =>
    cases w with
    | num q =>
      simp only [fcompare, GVal.map, GVal.read, Formulation.compare]
      split <;> simp [Except.map, FCon.toCon]
    | eqn b =>
      simp only [fcompare, GVal.map, GVal.read, Formulation.compare, deref_py, deref_rat]
      exact cmpEqn_int hg _ (wf_deref hg b) sw sv
    | var k => exact cmpVar_int hg _ k sv
    | none =>
      simp only [fcompare, GVal.map, GVal.read, Formulation.compare]
      split <;> simp [Except.map, FCon.toCon]

theorem optimize_int {h : GHeap ℤ} (pk : Package) (o : Obj) {v : GVal ℤ}
    (sv : SmallVal (2 ^ 52) h v) :
    foptimize binary64 pk o (toPy h) (v.map PyNum.int) =
      optimize pk o (toRat h) (v.read fun z : ℤ => (z : ℚ)) := by
  cases v with
  | num q => rfl
  | var k => rfl
  | none => rfl
  | eqn a =>
    simp only [foptimize, GVal.map, GVal.read, optimize, deref_py, deref_rat]
    have h1 : fcoefficients binary64 ((gderef intOps h a).map PyNum.int).terms =
        coefficients ((gderef intOps h a).read fun z : ℤ => (z : ℚ)).terms := by
      rw [fcoefficients_eq]
      congr 1
      show vmap _ (vmap _ _) = vmap (fun z : ℤ => (z : ℚ)) _
      simp only [vmap, List.map_map]
      refine List.map_congr_left fun t ht => ?_
      have := sv.1 t ht
      simp only [Function.comp_apply]
      rw [toFloat_int (this.trans (by norm_num))]
    rw [h1]
    rfl

end Floating
end Pytimize
