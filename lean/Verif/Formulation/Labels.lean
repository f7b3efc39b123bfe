/-
Which variables an evaluated expression mentions, and the arrays made from it: helper lemmas for C142.
-/
import Verif.Formulation.ProgramProof

namespace Pytimize
namespace Formulation
open LinProg (Ineq Obj)

/-- The positions of the variables that occur in an expression without names. -/
def Expr.labels : Expr → List ℕ
  | .num _ => []
  | .x i => [(i - 1).toNat]
  | .var k => [k]
  | .ref _ => []
  | .pos e => e.labels
  | .neg e => e.labels
  | .add e f => e.labels ++ f.labels
  | .sub e f => e.labels ++ f.labels
  | .mul e f => e.labels ++ f.labels

/-- The labels a value has terms for. -/
def Val.labels (h : Heap) : Val → List ℕ
  | .num _ => []
  | .var k => [k]
  | .eqn a => Dict.keys (deref h a).terms
  | .none => []

theorem mem_bump {d : Dict ℕ ℚ} {l k : ℕ} {c : ℚ} : k ∈ Dict.keys (bump d l c) ↔ k ∈ Dict.keys d ∨ k = l := by
  unfold bump
  simp only [Dict.mem_keys_set, Dict.mem_keys_setDefault]
  tauto

theorem mem_bumps {l : Dict ℕ ℚ} {d : Dict ℕ ℚ} {k : ℕ} :
    k ∈ Dict.keys (l.foldl (fun d t => bump d t.1 t.2) d) ↔ k ∈ Dict.keys d ∨ k ∈ Dict.keys l := by
  induction l generalizing d with
  | nil => simp [Dict.keys]
  | cons t l ih =>
    rw [List.foldl_cons, ih, mem_bump]
    simp only [Dict.keys, List.map_cons, List.mem_cons]
    tauto

theorem keys_map (d : Dict ℕ ℚ) (g : ℕ × ℚ → ℚ) : Dict.keys (d.map fun t => (t.1, g t)) = Dict.keys d := by
  simp [Dict.keys, Function.comp_def]

theorem negEqn_labels {h : Heap} {a : ℕ} (ha : a < h.length) (v : Val) : v.labels (negEqn h a).1 = v.labels h := by
  cases v with
  | eqn b =>
    by_cases hb : a = b
    · subst hb
      simp only [Val.labels, negEqn, deref_set_self ha, keys_map]
    · simp only [Val.labels, negEqn, deref_set_ne hb]
  | _ => rfl

theorem addEqn_labels {h : Heap} {a : ℕ} (ha : a < h.length) (w : Val) (k : ℕ) :
    k ∈ (addEqn h a w).2.labels (addEqn h a w).1 ↔ k ∈ (Val.eqn a).labels h ∨ k ∈ w.labels h := by
  cases w with
  | num q => simp [addEqn, Val.labels, deref_set_self ha]
  | var j => simp [addEqn, Val.labels, deref_set_self ha, mem_bump]
  | eqn b => simp only [addEqn, Val.labels, deref_set_self ha, mem_bumps]
  | none => simp [addEqn, Val.labels]

theorem labels_append {h : Heap} {v : Val} (hv : v.Ok h) (e : Eqn) : v.labels (h ++ [e]) = v.labels h := by
  cases v with
  | eqn a => simp only [Val.labels, deref_append hv]
  | _ => rfl

/-- Adding a value to a new object. -/
theorem addNew_labels {h : Heap} (e : Eqn) {w : Val} (hw : w.Ok h) (k : ℕ) :
    k ∈ (addEqn (h ++ [e]) h.length w).2.labels (addEqn (h ++ [e]) h.length w).1 ↔
      k ∈ Dict.keys e.terms ∨ k ∈ w.labels h := by
  rw [addEqn_labels (by simp), labels_append hw]
  simp only [Val.labels, deref_new]

theorem opPos_labels {h h' : Heap} {v w : Val} (hr : opPos h v = .ok (h', w)) :
    ∀ k, k ∈ w.labels h' ↔ k ∈ v.labels h := by
  intro k
  cases v <;> simp only [opPos, Except.ok.injEq, Prod.mk.injEq, varEqn, alloc, reduceCtorEq] at hr <;>
    obtain ⟨rfl, rfl⟩ := hr <;> simp [Val.labels, deref_new, Dict.keys]

theorem opNeg_labels {h h' : Heap} {v w : Val} (hv : v.Ok h) (hr : opNeg h v = .ok (h', w)) :
    ∀ k, k ∈ w.labels h' ↔ k ∈ v.labels h := by
  intro k
  cases v with
  | num q => cases hr; rfl
  | var j => cases hr; simp [Val.labels, deref_new, Dict.keys]
  | eqn a =>
    cases hr
    show k ∈ (Val.eqn a).labels (negEqn h a).1 ↔ _
    rw [negEqn_labels hv]
  | none => cases hr

theorem opAdd_labels {h h' : Heap} {v w u : Val} (hv : v.Ok h) (hw : w.Ok h) (hr : opAdd h v w = .ok (h', u)) :
    ∀ k, k ∈ u.labels h' ↔ k ∈ v.labels h ∨ k ∈ w.labels h := by
  intro k
  have key : ∀ {x : Heap × Val}, (Except.ok x : Except PyErr _) = .ok (h', u) →
      (k ∈ u.labels h' ↔ k ∈ x.2.labels x.1) := fun hx => by cases hx; rfl
  cases v with
  | num p =>
    cases w with
    | num q => cases hr; simp [Val.labels]
    | var j =>
      rw [key hr, addVar]
      simp only [varEqn, alloc]
      rw [addNew_labels _ hv]
      simp [Val.labels, Dict.keys]
    | eqn b => rw [key hr, addEqn_labels hw]; simp [Val.labels]
    | none => cases hr
  | var j =>
    have : k ∈ u.labels h' ↔ k ∈ (addVar h j w).2.labels (addVar h j w).1 := by cases w <;> exact key hr
    rw [this, addVar]
    simp only [varEqn, alloc]
    rw [addNew_labels _ hw]
    simp [Val.labels, Dict.keys]
  | eqn a =>
    have : k ∈ u.labels h' ↔ k ∈ (addEqn h a w).2.labels (addEqn h a w).1 := by cases w <;> exact key hr
    rw [this, addEqn_labels hv]
  | none => exact hv.elim

/-- Negating a value changes the labels of no value. -/
theorem opNeg_frame {h h' : Heap} {w w' : Val} (hw : w.Ok h) (hr : opNeg h w = .ok (h', w')) {v : Val} (hv : v.Ok h) :
    v.labels h' = v.labels h := by
  cases w with
  | num q => cases hr; rfl
  | var j => cases hr; exact labels_append hv _
  | eqn a => cases hr; exact negEqn_labels hw v
  | none => cases hr

theorem opNeg_ok {h h' : Heap} {w w' : Val} (hw : w.Ok h) (hr : opNeg h w = .ok (h', w')) :
    w'.Ok h' ∧ h.length ≤ h'.length := by
  cases w with
  | num q => cases hr; exact ⟨trivial, le_rfl⟩
  | var j => cases hr; simp [Val.Ok]
  | eqn a => cases hr; simpa [negEqn, Val.Ok] using hw
  | none => cases hr

theorem opSub_labels {h h' : Heap} {v w u : Val} (hv : v.Ok h) (hw : w.Ok h) (hr : opSub h v w = .ok (h', u)) :
    ∀ k, k ∈ u.labels h' ↔ k ∈ v.labels h ∨ k ∈ w.labels h := by
  intro k
  have key : ∀ {x : Heap × Val}, (Except.ok x : Except PyErr _) = .ok (h', u) →
      (k ∈ u.labels h' ↔ k ∈ x.2.labels x.1) := fun hx => by cases hx; rfl
  cases v with
  | num p =>
    cases w with
    | num q => cases hr; simp [Val.labels]
    | var j =>
      rw [key hr]
      simp only [alloc]
      rw [addNew_labels _ hv]
      simp [Val.labels, Dict.keys]
    | eqn b =>
      rw [key hr, addEqn_labels (by simp only [negEqn, List.length_set]; exact hw), negEqn_labels hw]
      simp [Val.labels]
    | none => cases hr
  | var j =>
    have : ∃ h1 w1, opNeg h w = .ok (h1, w1) ∧
        (k ∈ u.labels h' ↔ k ∈ (addVar h1 j w1).2.labels (addVar h1 j w1).1) := by
      generalize hn : opNeg h w = r
      rcases r with e | ⟨h1, w1⟩
      · cases w <;> simp only [opSub, hn, reduceCtorEq] at hr
      · refine ⟨h1, w1, rfl, ?_⟩
        cases w <;> simp only [opSub, hn] at hr <;> exact key hr
    obtain ⟨h1, w1, hn, hk⟩ := this
    rw [hk, addVar]
    simp only [varEqn, alloc]
    rw [addNew_labels _ (opNeg_ok hw hn).1, opNeg_labels hw hn]
    simp [Val.labels, Dict.keys]
  | eqn a =>
    have : ∃ h1 w1, opNeg h w = .ok (h1, w1) ∧
        (k ∈ u.labels h' ↔ k ∈ (addEqn h1 a w1).2.labels (addEqn h1 a w1).1) := by
      generalize hn : opNeg h w = r
      rcases r with e | ⟨h1, w1⟩
      · cases w <;> simp only [opSub, hn, reduceCtorEq] at hr
      · refine ⟨h1, w1, rfl, ?_⟩
        cases w <;> simp only [opSub, hn] at hr <;> exact key hr
    obtain ⟨h1, w1, hn, hk⟩ := this
    rw [hk, addEqn_labels (lt_of_lt_of_le hv (opNeg_ok hw hn).2), opNeg_labels hw hn, opNeg_frame hw hn hv]
  | none => exact hv.elim

theorem mulEqn_labels {h : Heap} {a : ℕ} (ha : a < h.length) (q : ℚ) (k : ℕ) :
    k ∈ (mulEqn h a (.num q)).2.labels (mulEqn h a (.num q)).1 ↔ k ∈ (Val.eqn a).labels h := by
  simp only [mulEqn, Val.labels, deref_set_self ha, keys_map]

theorem mulVar_labels {h : Heap} {j : ℕ} (q : ℚ) (k : ℕ) :
    k ∈ (mulVar h j (.num q)).2.labels (mulVar h j (.num q)).1 ↔ k = j := by
  simp [mulVar, alloc, Val.labels, deref_new, Dict.keys]

theorem opMul_labels {h h' : Heap} {v w u : Val} (hv : v.Ok h) (hw : w.Ok h) (hn : v.IsNum ∨ w.IsNum)
    (hr : opMul h v w = .ok (h', u)) : ∀ k, k ∈ u.labels h' ↔ k ∈ v.labels h ∨ k ∈ w.labels h := by
  intro k
  have key : ∀ {x : Heap × Val}, (Except.ok x : Except PyErr _) = .ok (h', u) →
      (k ∈ u.labels h' ↔ k ∈ x.2.labels x.1) := fun hx => by cases hx; rfl
  rcases hn with ⟨q, rfl⟩ | ⟨q, rfl⟩
  · cases w with
    | num p => cases hr; simp [Val.labels]
    | var j => rw [key hr, mulVar_labels]; simp [Val.labels]
    | eqn b => rw [key hr, mulEqn_labels hw]; simp [Val.labels]
    | none => exact hw.elim
  · cases v with
    | num p => cases hr; simp [Val.labels]
    | var j => rw [key hr, mulVar_labels]; simp [Val.labels]
    | eqn b => rw [key hr, mulEqn_labels hv]; simp [Val.labels]
    | none => exact hv.elim

/-- An evaluated expression has terms for exactly the variables that occur in it. -/
theorem eval_labels {h : Heap} (hg : Good h) {e : Expr} (hl : e.Linear) (hr : e.refs = []) {h' : Heap} {w : Val}
    (he : eval h e = .ok (h', w)) (k : ℕ) : k ∈ w.labels h' ↔ k ∈ e.labels := by
  -- the value of the left operand is unchanged while the right one is evaluated
  have pair : ∀ {h : Heap} {e f : Expr}, Good h → e.Linear → f.Linear → e.refs = [] → f.refs = [] →
      ∃ h1 v h2 w, eval h e = .ok (h1, v) ∧ eval h1 f = .ok (h2, w) ∧ Good h1 ∧ v.Ok h2 ∧ w.Ok h2 ∧
        v.labels h2 = v.labels h1 ∧ (v.IsNum ↔ e.isNum) ∧ (w.IsNum ↔ f.isNum) := by
    intro h e f hg h1 h2 h3 h4
    obtain ⟨k1, v, s1⟩ := eval_spec hg h1 (by simp [h3]) (by simp [h3])
    obtain ⟨k2, w, s2⟩ := eval_spec s1.step.good h2 (by simp [h4]) (by simp [h4])
    refine ⟨k1, v, k2, w, s1.run, s2.run, s1.step.good, ?_, s2.step.ok, ?_, s1.num, s2.num⟩
    · have := s1.step.ok
      cases v with
      | eqn a => exact lt_of_lt_of_le this s2.step.le
      | num q => trivial
      | var k => trivial
      | none => exact this.elim
    · have := s1.step.ok
      cases v with
      | eqn a => simp only [Val.labels, s2.step.frame a this (by simp [h4])]
      | _ => rfl
  induction e generalizing h h' w k with
  | num q => cases he; simp [Val.labels, Expr.labels]
  | x i =>
    have hi : ¬ i ≤ 0 := by have : 1 ≤ i := hl; omega
    simp only [eval, indexX, if_neg hi] at he
    cases he
    simp [Val.labels, Expr.labels, deref_new, Dict.keys]
  | var k => cases he; simp [Val.labels, Expr.labels]
  | ref a => simp [Expr.refs] at hr
  | pos e ih =>
    obtain ⟨h1, v, s1⟩ := eval_spec hg (e := e) hl (by simpa [Expr.refs] using hr ▸ List.nodup_nil)
      (by intro a ha; rw [show e.refs = [] from hr] at ha; cases ha)
    simp only [eval, s1.run] at he
    rw [opPos_labels he, show k ∈ v.labels h1 ↔ k ∈ e.labels from ih hg hl hr s1.run k]
    rfl
  | neg e ih =>
    obtain ⟨h1, v, s1⟩ := eval_spec hg (e := e) hl (by simpa [Expr.refs] using hr ▸ List.nodup_nil)
      (by intro a ha; rw [show e.refs = [] from hr] at ha; cases ha)
    simp only [eval, s1.run] at he
    rw [opNeg_labels s1.step.ok he, show k ∈ v.labels h1 ↔ k ∈ e.labels from ih hg hl hr s1.run k]
    rfl
  | add e f ih1 ih2 =>
    obtain ⟨r1, r2⟩ := List.append_eq_nil_iff.mp hr
    obtain ⟨h1, v, h2, w', e1, e2, g1, o1, o2, fr, -, -⟩ := pair hg hl.1 hl.2 r1 r2
    simp only [eval, e1, e2] at he
    rw [opAdd_labels o1 o2 he, fr, show k ∈ v.labels h1 ↔ k ∈ e.labels from ih1 hg hl.1 r1 e1 k,
      show k ∈ w'.labels h2 ↔ k ∈ f.labels from ih2 g1 hl.2 r2 e2 k]
    simp [Expr.labels]
  | sub e f ih1 ih2 =>
    obtain ⟨r1, r2⟩ := List.append_eq_nil_iff.mp hr
    obtain ⟨h1, v, h2, w', e1, e2, g1, o1, o2, fr, -, -⟩ := pair hg hl.1 hl.2 r1 r2
    simp only [eval, e1, e2] at he
    rw [opSub_labels o1 o2 he, fr, show k ∈ v.labels h1 ↔ k ∈ e.labels from ih1 hg hl.1 r1 e1 k,
      show k ∈ w'.labels h2 ↔ k ∈ f.labels from ih2 g1 hl.2 r2 e2 k]
    simp [Expr.labels]
  | mul e f ih1 ih2 =>
    obtain ⟨r1, r2⟩ := List.append_eq_nil_iff.mp hr
    obtain ⟨h1, v, h2, w', e1, e2, g1, o1, o2, fr, n1, n2⟩ := pair hg hl.1 hl.2.1 r1 r2
    simp only [eval, e1, e2] at he
    rw [opMul_labels o1 o2 (hl.2.2.imp n1.mpr n2.mpr) he, fr, show k ∈ v.labels h1 ↔ k ∈ e.labels from ih1 hg hl.1 r1 e1 k,
      show k ∈ w'.labels h2 ↔ k ∈ f.labels from ih2 g1 hl.2.1 r2 e2 k]
    simp [Expr.labels]

/-! ### Lengths -/

/-- The length of the array of coefficients, `0` for `None`. -/
def lenOf (d : Dict ℕ ℚ) : ℕ := (coefficients d).elim 0 List.length

theorem lenOf_le {d : Dict ℕ ℚ} {n : ℕ} : lenOf d ≤ n ↔ ∀ k ∈ Dict.keys d, k < n := by
  cases d with
  | nil => simp [lenOf, coefficients, Dict.keys]
  | cons t d =>
    simp only [lenOf, coefficients, Option.elim_some, length_foldl_set, List.length_replicate]
    constructor
    · intro h k hk
      have := (le_foldl_max ((t :: d).map Prod.fst) 0).2 k hk
      omega
    · intro h
      rcases foldl_max_mem ((t :: d).map Prod.fst) 0 with h0 | h0
      · rw [h0]
        have := h t.1 (by simp [Dict.keys])
        omega
      · exact h _ h0

theorem broadcast_length (a : List ℚ) (b : Option (List ℚ)) {c : List ℚ}
    (h : broadcastSubtract (some a) b = .ok (some c)) : c.length = max a.length (b.elim 0 List.length) := by
  cases b with
  | none => cases h; simp
  | some b =>
    simp only [broadcastSubtract, List.length_map, Option.elim_some] at h ⊢
    split at h
    · rename_i h0
      cases h
      simp [addArr, h0]
    · by_cases h1 : a.length > b.length
      · simp only [if_pos h1, padRight, List.length_map] at h
        rw [if_neg (by omega)] at h
        cases h
        simp only [addArr, List.length_zipWith, List.length_append, List.length_map, List.length_replicate]
        omega
      · simp only [if_neg h1, padRight, List.length_map] at h
        cases h
        simp only [addArr, List.length_zipWith, List.length_append, List.length_map, List.length_replicate]
        omega

/-- All of `generate_spec`, with the numbers of the row. -/
theorem generate_full (op : Ineq) {e f : Eqn} (he : e.terms ≠ [] ∧ e.terms.WF)
    (hf : f.terms = [] ∨ f.terms ≠ [] ∧ f.terms.WF) :
    ∃ c, generate op e f = .ok c ∧ c.op = op ∧ c.const = f.const - e.const ∧
      (∀ p, dot c.coeffs p = evalTerms e.terms p - evalTerms f.terms p) ∧
      c.coeffs.length = max (lenOf e.terms) (lenOf f.terms) := by
  obtain ⟨l, hl, hl0, hp⟩ := coefficients_spec he.1 he.2
  have hc : ∃ m : Option (List ℚ), coefficients f.terms = m ∧
      ∀ p, (m.elim 0 fun b => dot b p) = evalTerms f.terms p := by
    rcases hf with hf | hf
    · exact ⟨none, by rw [hf]; rfl, fun p => by rw [hf]; rfl⟩
    · obtain ⟨m, hm, _, hm'⟩ := coefficients_spec hf.1 hf.2
      exact ⟨some m, hm, hm'⟩
  obtain ⟨m, hm, hm'⟩ := hc
  obtain ⟨c, hc, hc0, hd⟩ := broadcast_spec l m
  refine ⟨⟨c, op, f.const - e.const⟩, by simp only [generate, hl, hm, hc], rfl, rfl, fun p => ?_, ?_⟩
  · rw [hd, hp, hm']
  · show c.length = _
    rw [broadcast_length l m hc]
    simp only [lenOf, hl, hm, Option.elim_some]

/-- Two arrays of the same length with the same scalar products are equal. -/
theorem list_of_dot {l : List ℚ} {n : ℕ} (hl : l.length = n) {g : ℕ → ℚ}
    (h : ∀ i, dot l (fun j => if j = i then 1 else 0) = g i) : l = (List.range n).map g := by
  refine List.ext_getElem (by simp [hl]) fun i h1 h2 => ?_
  have := h i
  unfold dot at this
  simp only [mul_ite, mul_one, mul_zero, Finset.sum_ite_eq', Finset.mem_range, h1, if_true] at this
  rw [List.getElem_map, List.getElem_range, ← this]
  simp [List.getD_eq_getElem?_getD, h1]

end Formulation
end Pytimize
