/-
Error bounds for runs of `Verif/Float/Equation.lean`: every number is tracked together with the exact number it stands
for and a bound on the size of everything that went into it.
-/
import Verif.Float.EquationRead

namespace Pytimize
namespace Floating
open Formulation

/-- What is needed of the arithmetic: every operation is exact up to the relative error `g - 1`; with `s = 1` numbers
below one count as one, so that underflow is covered. -/
structure Lawful {N : Type} (A : Ops N) (val : N → ℚ) (g s : ℚ) : Prop where
  one_le : 1 ≤ g
  nonneg : 0 ≤ s
  le_one : s ≤ 1
  sq : s * s = s
  zero : val A.zero = 0
  one : val A.one = 1
  neg : ∀ a, val (A.neg a) = -val a
  add : ∀ a b, |val (A.add a b) - (val a + val b)| ≤ (g - 1) * max (|val a| + |val b|) s
  mul : ∀ a b, |val (A.mul a b) - val a * val b| ≤ (g - 1) * max |val a * val b| s

/-- A number, the exact number, and a bound for the numbers it was made of. -/
structure Tracked (N : Type) where
  num : N
  exact : ℚ
  size : ℚ

/-- Arithmetic on tracked numbers. -/
def trackOps {N : Type} (A : Ops N) : Ops (Tracked N) where
  zero := ⟨A.zero, 0, 0⟩
  one := ⟨A.one, 1, 1⟩
  neg a := ⟨A.neg a.num, -a.exact, a.size⟩
  add a b := ⟨A.add a.num b.num, a.exact + b.exact, a.size + b.size⟩
  mul a b := ⟨A.mul a.num b.num, a.exact * b.exact, a.size * b.size⟩

theorem hom_num {N : Type} (A : Ops N) : Hom (trackOps A) A Tracked.num :=
  ⟨rfl, rfl, fun _ => rfl, fun _ _ => rfl, fun _ _ => rfl⟩

theorem hom_exact {N : Type} (A : Ops N) : Hom (trackOps A) ratOps Tracked.exact :=
  ⟨rfl, rfl, fun _ => rfl, fun _ _ => rfl, fun _ _ => rfl⟩

theorem hom_size {N : Type} (A : Ops N) : Hom (trackOps A) absOps Tracked.size :=
  ⟨rfl, rfl, fun _ => rfl, fun _ _ => rfl, fun _ _ => rfl⟩

/-- The number of additions, subtractions and multiplications. -/
def GExpr.ops {N : Type} : GExpr N → ℕ
  | .num _ => 0
  | .x _ => 0
  | .var _ => 0
  | .ref _ => 0
  | .pos e => e.ops
  | .neg e => e.ops
  | .add e f => e.ops + f.ops + 1
  | .sub e f => e.ops + f.ops + 1
  | .mul e f => e.ops + f.ops + 1

section
variable {N : Type} {A : Ops N} {val : N → ℚ} {g s : ℚ}

/-- The number is right up to `k` roundings. -/
def Near (val : N → ℚ) (g : ℚ) (k : ℕ) (t : Tracked N) : Prop :=
  |t.exact| ≤ t.size ∧ |val t.num - t.exact| ≤ (g ^ k - 1) * t.size

theorem Near.size_nonneg {k : ℕ} {t : Tracked N} (h : Near val g k t) : 0 ≤ t.size := (abs_nonneg _).trans h.1

theorem Near.mono (hg : 1 ≤ g) {j k : ℕ} (hjk : j ≤ k) {t : Tracked N} (h : Near val g j t) : Near val g k t :=
  ⟨h.1, h.2.trans (mul_le_mul_of_nonneg_right (sub_le_sub_right (pow_le_pow_right₀ hg hjk) 1) h.size_nonneg)⟩

theorem Near.abs_le {k : ℕ} {t : Tracked N} (h : Near val g k t) : |val t.num| ≤ g ^ k * t.size := by
  have h1 := abs_sub_abs_le_abs_sub (val t.num) t.exact
  have h2 := h.1
  have h3 := h.2
  linarith

variable (L : Lawful A val g s)
include L

theorem near_zero : Near val g 0 (trackOps A).zero := by
  simp [Near, trackOps, L.zero]

theorem near_one : Near val g 0 (trackOps A).one := by
  simp [Near, trackOps, L.one]

theorem near_neg {k : ℕ} {t : Tracked N} (h : Near val g k t) : Near val g k ((trackOps A).neg t) := by
  refine ⟨?_, ?_⟩
  · simp only [trackOps, abs_neg]; exact h.1
  · simp only [trackOps, L.neg]
    rw [show -val t.num - -t.exact = -(val t.num - t.exact) by ring, abs_neg]
    exact h.2

theorem near_add {k : ℕ} {t u : Tracked N} (ht : Near val g k t) (hu : Near val g k u) (hs : s ≤ t.size + u.size) :
    Near val g (k + 1) ((trackOps A).add t u) := by
  refine ⟨(abs_add_le _ _).trans (add_le_add ht.1 hu.1), ?_⟩
  simp only [trackOps]
  have hg1 : 1 ≤ g ^ k := one_le_pow₀ L.one_le
  have hS : 0 ≤ t.size + u.size := add_nonneg ht.size_nonneg hu.size_nonneg
  have hmax : max (|val t.num| + |val u.num|) s ≤ g ^ k * (t.size + u.size) := by
    refine max_le ?_ (hs.trans (le_mul_of_one_le_left hS hg1))
    have h1 := ht.abs_le
    have h2 := hu.abs_le
    linarith
  have h1 := (L.add t.num u.num).trans (mul_le_mul_of_nonneg_left hmax (sub_nonneg.mpr L.one_le))
  have h2 := ht.2
  have h3 := hu.2
  have e : val (A.add t.num u.num) - (t.exact + u.exact) =
      (val (A.add t.num u.num) - (val t.num + val u.num)) + ((val t.num - t.exact) + (val u.num - u.exact)) := by ring
  rw [e]
  refine (abs_add_le _ _).trans ?_
  have h4 := abs_add_le (val t.num - t.exact) (val u.num - u.exact)
  rw [pow_succ]
  linarith

theorem near_mul {i j : ℕ} {t u : Tracked N} (ht : Near val g i t) (hu : Near val g j u) (hs : s ≤ t.size)
    (hs' : s ≤ u.size) : Near val g (i + j + 1) ((trackOps A).mul t u) := by
  have hT := ht.size_nonneg
  have hU := hu.size_nonneg
  refine ⟨?_, ?_⟩
  · simp only [trackOps, abs_mul]
    exact mul_le_mul ht.1 hu.1 (abs_nonneg _) hT
  simp only [trackOps]
  have hgi : 1 ≤ g ^ i := one_le_pow₀ L.one_le
  have hgj : 1 ≤ g ^ j := one_le_pow₀ L.one_le
  have hTU : 0 ≤ t.size * u.size := mul_nonneg hT hU
  have hprod : |val t.num * val u.num| ≤ g ^ (i + j) * (t.size * u.size) := by
    rw [abs_mul, pow_add]
    calc |val t.num| * |val u.num| ≤ (g ^ i * t.size) * (g ^ j * u.size) :=
          mul_le_mul ht.abs_le hu.abs_le (abs_nonneg _) (by positivity)
      _ = _ := by ring
  have hmax : max |val t.num * val u.num| s ≤ g ^ (i + j) * (t.size * u.size) := by
    refine max_le hprod ?_
    calc s = s * s := L.sq.symm
      _ ≤ t.size * u.size := mul_le_mul hs hs' L.nonneg hT
      _ ≤ _ := le_mul_of_one_le_left hTU (one_le_pow₀ L.one_le)
  have h1 := (L.mul t.num u.num).trans (mul_le_mul_of_nonneg_left hmax (sub_nonneg.mpr L.one_le))
  have e : val (A.mul t.num u.num) - t.exact * u.exact =
      (val (A.mul t.num u.num) - val t.num * val u.num) +
        ((val t.num - t.exact) * val u.num + t.exact * (val u.num - u.exact)) := by ring
  rw [e]
  refine (abs_add_le _ _).trans ?_
  have h2 : |(val t.num - t.exact) * val u.num| ≤ ((g ^ i - 1) * t.size) * (g ^ j * u.size) := by
    rw [abs_mul]
    exact mul_le_mul ht.2 hu.abs_le (abs_nonneg _) (mul_nonneg (sub_nonneg.mpr hgi) hT)
  have h3 : |t.exact * (val u.num - u.exact)| ≤ t.size * ((g ^ j - 1) * u.size) := by
    rw [abs_mul]
    exact mul_le_mul ht.1 hu.2 (abs_nonneg _) hT
  have h4 := abs_add_le ((val t.num - t.exact) * val u.num) (t.exact * (val u.num - u.exact))
  have e2 : (g ^ (i + j + 1) - 1) * (t.size * u.size) = (g - 1) * (g ^ (i + j) * (t.size * u.size)) +
      (((g ^ i - 1) * t.size) * (g ^ j * u.size) + t.size * ((g ^ j - 1) * u.size)) := by
    rw [pow_succ, pow_add]; ring
  rw [e2]
  linarith

omit L

/-! ### Equations -/

theorem gbump_get? (A : Ops N) (d : Dict ℕ N) (l k : ℕ) (c : N) :
    Dict.get? (gbump A d l c) k = if l = k then some (A.add ((Dict.get? d l).getD A.zero) c) else Dict.get? d k := by
  unfold gbump
  simp only
  rw [Dict.get?_set]
  have h1 : ((Dict.setDefault d l A.zero).get? l).getD A.zero = (Dict.get? d l).getD A.zero := by
    rw [Dict.get?_setDefault]
    cases Dict.get? d l <;> simp
  split
  · rw [h1]
  · rename_i h
    rw [Dict.get?_setDefault]
    simp [h]

theorem gbump_wf (A : Ops N) {d : Dict ℕ N} (hd : Dict.WF d) (l : ℕ) (c : N) : Dict.WF (gbump A d l c) := by
  have hs : Dict.WF (Dict.setDefault d l A.zero) := by
    unfold Dict.setDefault
    split
    · exact hd
    · exact Dict.WF_set hd _ _
  exact Dict.WF_set hs _ _

/-- The terms are right up to `k` roundings. -/
def TermsOk (val : N → ℚ) (g s : ℚ) (k : ℕ) (d : Dict ℕ (Tracked N)) : Prop :=
  Dict.WF d ∧ ∀ l t, Dict.get? d l = some t → Near val g k t ∧ s ≤ t.size

/-- The equation is. -/
def EqnOk (val : N → ℚ) (g s : ℚ) (k : ℕ) (e : GEqn (Tracked N)) : Prop :=
  TermsOk val g s k e.terms ∧ Near val g k e.const

/-- All equations are. -/
def HeapOk (val : N → ℚ) (g s : ℚ) (k : ℕ) (h : GHeap (Tracked N)) : Prop := ∀ e ∈ h, EqnOk val g s k e

/-- The number is. -/
def ValOk (val : N → ℚ) (g s : ℚ) (k : ℕ) (v : GVal (Tracked N)) : Prop :=
  ∀ q, v = .num q → Near val g k q ∧ s ≤ q.size

theorem EqnOk.mono (hg : 1 ≤ g) {j k : ℕ} (hjk : j ≤ k) {e : GEqn (Tracked N)} (h : EqnOk val g s j e) :
    EqnOk val g s k e :=
  ⟨⟨h.1.1, fun l t ht => ⟨(h.1.2 l t ht).1.mono hg hjk, (h.1.2 l t ht).2⟩⟩, h.2.mono hg hjk⟩

theorem HeapOk.mono (hg : 1 ≤ g) {j k : ℕ} (hjk : j ≤ k) {h : GHeap (Tracked N)} (H : HeapOk val g s j h) :
    HeapOk val g s k h := fun e he => (H e he).mono hg hjk

theorem ValOk.mono (hg : 1 ≤ g) {j k : ℕ} (hjk : j ≤ k) {v : GVal (Tracked N)} (H : ValOk val g s j v) :
    ValOk val g s k v := fun q hq => ⟨(H q hq).1.mono hg hjk, (H q hq).2⟩

theorem HeapOk.set {k : ℕ} {h : GHeap (Tracked N)} (H : HeapOk val g s k h) (a : ℕ) {e : GEqn (Tracked N)}
    (he : EqnOk val g s k e) : HeapOk val g s k (h.set a e) := by
  intro f hf
  rcases List.mem_or_eq_of_mem_set hf with hf | rfl
  · exact H f hf
  · exact he

theorem HeapOk.push {k : ℕ} {h : GHeap (Tracked N)} (H : HeapOk val g s k h) {e : GEqn (Tracked N)}
    (he : EqnOk val g s k e) : HeapOk val g s k (h ++ [e]) := by
  intro f hf
  rcases List.mem_append.mp hf with hf | hf
  · exact H f hf
  · simp only [List.mem_singleton] at hf; subst hf; exact he

include L

theorem HeapOk.deref {k : ℕ} {h : GHeap (Tracked N)} (H : HeapOk val g s k h) (a : ℕ) :
    EqnOk val g s k (gderef (trackOps A) h a) := by
  unfold gderef
  rw [List.getD_eq_getElem?_getD]
  cases hq : h[a]? with
  | none =>
    refine ⟨⟨by simp [Dict.WF, Dict.keys], fun l t ht => by simp [Dict.get?] at ht⟩, ?_⟩
    exact (near_zero L).mono L.one_le (Nat.zero_le k)
  | some e => exact H e (List.mem_of_getElem? hq)

theorem single_ok {k : ℕ} {t : Tracked N} (ht : Near val g k t) (hs : s ≤ t.size) (l : ℕ) :
    EqnOk val g s k ⟨[(l, t)], (trackOps A).zero⟩ := by
  refine ⟨⟨by simp [Dict.WF, Dict.keys], fun l' t' h => ?_⟩, (near_zero L).mono L.one_le (Nat.zero_le k)⟩
  simp only [Dict.get?] at h
  split at h
  · cases h; exact ⟨ht, hs⟩
  · cases h

theorem bump_ok {k : ℕ} {d : Dict ℕ (Tracked N)} (hd : TermsOk val g s k d) {c : Tracked N} (hc : Near val g k c)
    (hs : s ≤ c.size) (l : ℕ) : TermsOk val g s (k + 1) (gbump (trackOps A) d l c) := by
  refine ⟨gbump_wf _ hd.1 l c, fun l' t ht => ?_⟩
  rw [gbump_get?] at ht
  split at ht
  · cases ht
    cases hq : Dict.get? d l with
    | none =>
      simp only [Option.getD_none]
      have := (near_zero L).mono L.one_le (Nat.zero_le k)
      refine ⟨near_add L this hc (hs.trans (by simp [trackOps])), hs.trans (by simp [trackOps])⟩
    | some u =>
      have hu := hd.2 l u hq
      have h0 := hu.1.size_nonneg
      simp only [Option.getD_some]
      exact ⟨near_add L hu.1 hc (by linarith), by simp only [trackOps]; linarith⟩
  · exact ⟨(hd.2 l' t ht).1.mono L.one_le (Nat.le_succ k), (hd.2 l' t ht).2⟩

/-- Every label is met once. -/
theorem fold_ok {k : ℕ} : ∀ {l d : Dict ℕ (Tracked N)}, TermsOk val g s k l → Dict.WF d →
    (∀ i t, Dict.get? d i = some t → Near val g (k + 1) t ∧ s ≤ t.size ∧ (i ∈ Dict.keys l → Near val g k t)) →
    TermsOk val g s (k + 1) (l.foldl (fun d t => gbump (trackOps A) d t.1 t.2) d)
  | [], d, _, hw, hd => ⟨hw, fun i t ht => ⟨(hd i t ht).1, (hd i t ht).2.1⟩⟩
  | (a, c) :: l, d, hl, hw, hd => by
    have hnd : a ∉ Dict.keys l ∧ Dict.WF l := by
      have := hl.1
      simpa [Dict.WF, Dict.keys] using this
    have hc := hl.2 a c (by simp [Dict.get?])
    have hl' : TermsOk val g s k l := ⟨hnd.2, fun i t ht => hl.2 i t (by
      have : i ∈ Dict.keys l := Dict.mem_keys_of_get? ht
      have hne : a ≠ i := fun h => hnd.1 (h ▸ this)
      simpa [Dict.get?, hne] using ht)⟩
    rw [List.foldl_cons]
    refine fold_ok hl' (gbump_wf _ hw a c) fun i t ht => ?_
    rw [gbump_get?] at ht
    split at ht
    · rename_i hai
      subst hai
      cases ht
      cases hq : Dict.get? d a with
      | none =>
        simp only [Option.getD_none]
        have := (near_zero L).mono L.one_le (Nat.zero_le k)
        exact ⟨near_add L this hc.1 (hc.2.trans (by simp [trackOps])), hc.2.trans (by simp [trackOps]),
          fun hm => absurd hm hnd.1⟩
      | some u =>
        have hu := (hd a u hq).2.2 (by simp [Dict.keys])
        have h0 := hu.size_nonneg
        simp only [Option.getD_some]
        have h1 := hc.2
        exact ⟨near_add L hu hc.1 (by linarith), by simp only [trackOps]; linarith, fun hm => absurd hm hnd.1⟩
    · have := hd i t ht
      exact ⟨this.1, this.2.1, fun hm => this.2.2 (by simp only [Dict.keys, List.map_cons, List.mem_cons]; exact Or.inr hm)⟩

theorem addEqn_ok {k : ℕ} {h : GHeap (Tracked N)} (H : HeapOk val g s k h) (a : ℕ) {v : GVal (Tracked N)}
    (hv : ValOk val g s k v) : HeapOk val g s (k + 1) (gaddEqn (trackOps A) h a v).1 := by
  have he := H.deref L a
  have H' := H.mono L.one_le (Nat.le_succ k)
  cases v with
  | num q =>
    have hq := hv q rfl
    have h0 := he.2.size_nonneg
    refine H'.set a ⟨(he.mono L.one_le (Nat.le_succ k)).1, near_add L he.2 hq.1 ?_⟩
    have := hq.2
    linarith
  | var j =>
    refine H'.set a ⟨bump_ok L he.1 ((near_one L).mono L.one_le (Nat.zero_le k)) L.le_one j, ?_⟩
    exact he.2.mono L.one_le (Nat.le_succ k)
  | eqn b =>
    have hb := H.deref L b
    refine H'.set a ⟨fold_ok L hb.1 he.1.1 fun i t ht => ?_, he.2.mono L.one_le (Nat.le_succ k)⟩
    have := he.1.2 i t ht
    exact ⟨this.1.mono L.one_le (Nat.le_succ k), this.2, fun _ => this.1⟩
  | none => exact H'

omit L in
theorem addEqn_val (h : GHeap (Tracked N)) (a : ℕ) (v : GVal (Tracked N)) (k : ℕ) :
    ValOk val g s k (gaddEqn (trackOps A) h a v).2 := by
  intro q hq
  cases v <;> cases hq

theorem addVar_ok {k : ℕ} {h : GHeap (Tracked N)} (H : HeapOk val g s k h) (j : ℕ) {v : GVal (Tracked N)}
    (hv : ValOk val g s k v) : HeapOk val g s (k + 1) (gaddVar (trackOps A) h j v).1 :=
  addEqn_ok L (H.push (single_ok L ((near_one L).mono L.one_le (Nat.zero_le k)) L.le_one j)) _ hv

omit L in
theorem vmap_ok {d : Dict ℕ (Tracked N)} {k j : ℕ} (f : Tracked N → Tracked N) (hd : TermsOk val g s k d)
    (hf : ∀ t, Near val g k t → s ≤ t.size → Near val g j (f t) ∧ s ≤ (f t).size) :
    TermsOk val g s j (d.map fun t => (t.1, f t.2)) := by
  have hk : Dict.keys (vmap f d) = Dict.keys d := vmap_keys f d
  refine ⟨by unfold Dict.WF; exact hk ▸ hd.1, fun l t ht => ?_⟩
  have ht' : Dict.get? (vmap f d) l = some t := ht
  rw [vmap_get?] at ht'
  obtain ⟨u, hu, rfl⟩ := Option.map_eq_some_iff.mp ht'
  exact hf u (hd.2 l u hu).1 (hd.2 l u hu).2

theorem opNeg_ok {k j : ℕ} {h : GHeap (Tracked N)} (H : HeapOk val g s k h) {v : GVal (Tracked N)}
    (hv : ValOk val g s j v) {r : GHeap (Tracked N) × GVal (Tracked N)} (hr : gopNeg (trackOps A) h v = .ok r) :
    HeapOk val g s k r.1 ∧ ValOk val g s j r.2 ∧ ∀ q, r.2 = .num q → r.1 = h ∧ ∃ q', v = .num q' := by
  cases v with
  | num q =>
    cases hr
    refine ⟨H, fun q' hq' => ?_, fun q' _ => ⟨rfl, q, rfl⟩⟩
    cases hq'
    exact ⟨near_neg L (hv q rfl).1, (hv q rfl).2⟩
  | var i =>
    cases hr
    refine ⟨H.push (single_ok L (near_neg L ((near_one L).mono L.one_le (Nat.zero_le k))) L.le_one i), ?_, ?_⟩
    · intro q hq; cases hq
    · intro q hq; cases hq
  | eqn a =>
    cases hr
    have he := H.deref L a
    refine ⟨H.set a ⟨vmap_ok (trackOps A).neg he.1 fun t h1 h2 => ⟨near_neg L h1, h2⟩, he.2⟩, ?_, ?_⟩
    · intro q hq; cases hq
    · intro q hq; cases hq
  | none => cases hr

theorem opPos_ok {k j : ℕ} {h : GHeap (Tracked N)} (H : HeapOk val g s k h) {v : GVal (Tracked N)}
    (hv : ValOk val g s j v) {r : GHeap (Tracked N) × GVal (Tracked N)} (hr : gopPos (trackOps A) h v = .ok r) :
    HeapOk val g s k r.1 ∧ ValOk val g s j r.2 ∧ ∀ q, r.2 = .num q → r.1 = h ∧ v = .num q := by
  cases v with
  | num q => cases hr; exact ⟨H, hv, fun q' hq' => ⟨rfl, hq'⟩⟩
  | var i =>
    cases hr
    refine ⟨H.push (single_ok L ((near_one L).mono L.one_le (Nat.zero_le k)) L.le_one i), ?_, ?_⟩
    · intro q hq; cases hq
    · intro q hq; cases hq
  | eqn a =>
    cases hr
    exact ⟨H, fun q hq => (by cases hq), fun q hq => (by cases hq)⟩
  | none => cases hr

theorem opAdd_ok {k i j : ℕ} {h : GHeap (Tracked N)} (H : HeapOk val g s k h) {v w : GVal (Tracked N)}
    (hv : ValOk val g s i v) (hw : ValOk val g s j w) (hi : i ≤ k) (hj : j ≤ k)
    {r : GHeap (Tracked N) × GVal (Tracked N)} (hr : gopAdd (trackOps A) h v w = .ok r) :
    HeapOk val g s (k + 1) r.1 ∧ ValOk val g s (max i j + 1) r.2 ∧
      ∀ q, r.2 = .num q → r.1 = h ∧ (∃ q', v = .num q') ∧ ∃ q', w = .num q' := by
  have hv' := hv.mono L.one_le hi
  have hw' := hw.mono L.one_le hj
  have eqn : ∀ a u, ValOk val g s k u → (gaddEqn (trackOps A) h a u) = r → HeapOk val g s (k + 1) r.1 ∧
      ValOk val g s (max i j + 1) r.2 ∧ ∀ q, r.2 = .num q → r.1 = h ∧ (∃ q', v = .num q') ∧ ∃ q', w = .num q' := by
    rintro a u hu rfl
    refine ⟨addEqn_ok L H a hu, addEqn_val h a u _, fun q hq => ?_⟩
    cases u <;> cases hq
  have var : ∀ a u, ValOk val g s k u → (gaddVar (trackOps A) h a u) = r → HeapOk val g s (k + 1) r.1 ∧
      ValOk val g s (max i j + 1) r.2 ∧ ∀ q, r.2 = .num q → r.1 = h ∧ (∃ q', v = .num q') ∧ ∃ q', w = .num q' := by
    rintro a u hu rfl
    refine ⟨addVar_ok L H a hu, addEqn_val _ _ u _, fun q hq => ?_⟩
    cases u <;> cases hq
  cases v with
  | num p =>
    cases w with
    | num q =>
      cases hr
      refine ⟨H.mono L.one_le (Nat.le_succ k), fun q' hq' => ?_, fun q' _ => ⟨rfl, ⟨p, rfl⟩, q, rfl⟩⟩
      cases hq'
      have h1 := hv p rfl
      have h2 := hw q rfl
      have h0 := h1.1.size_nonneg
      have h3 := h2.2
      exact ⟨near_add L (h1.1.mono L.one_le (le_max_left _ _)) (h2.1.mono L.one_le (le_max_right _ _)) (by linarith),
        by simp only [trackOps]; linarith⟩
    | var a => exact var a _ hv' (Except.ok.inj hr)
    | eqn b => exact eqn b _ hv' (Except.ok.inj hr)
    | none => cases hr
  | var a => cases w <;> exact var a _ hw' (Except.ok.inj hr)
  | eqn a => cases w <;> exact eqn a _ hw' (Except.ok.inj hr)
  | none =>
    cases w with
    | num q => cases hr
    | var a => exact var a _ hv' (Except.ok.inj hr)
    | eqn b => exact eqn b _ hv' (Except.ok.inj hr)
    | none => cases hr

theorem opSub_ok {k i j : ℕ} {h : GHeap (Tracked N)} (H : HeapOk val g s k h) {v w : GVal (Tracked N)}
    (hv : ValOk val g s i v) (hw : ValOk val g s j w) (hi : i ≤ k) (hj : j ≤ k)
    {r : GHeap (Tracked N) × GVal (Tracked N)} (hr : gopSub (trackOps A) h v w = .ok r) :
    HeapOk val g s (k + 1) r.1 ∧ ValOk val g s (max i j + 1) r.2 ∧
      ∀ q, r.2 = .num q → r.1 = h ∧ (∃ q', v = .num q') ∧ ∃ q', w = .num q' := by
  have hv' := hv.mono L.one_le hi
  have hw' := hw.mono L.one_le hj
  have eqn : ∀ h' a u, HeapOk val g s k h' → ValOk val g s k u → (gaddEqn (trackOps A) h' a u) = r →
      HeapOk val g s (k + 1) r.1 ∧ ValOk val g s (max i j + 1) r.2 ∧
        ∀ q, r.2 = .num q → r.1 = h ∧ (∃ q', v = .num q') ∧ ∃ q', w = .num q' := by
    rintro h' a u H' hu rfl
    refine ⟨addEqn_ok L H' a hu, addEqn_val h' a u _, fun q hq => ?_⟩
    cases u <;> cases hq
  have left : ∀ f : GHeap (Tracked N) → GVal (Tracked N) → GHeap (Tracked N) × GVal (Tracked N),
      (∀ h u, HeapOk val g s k h → ValOk val g s k u → HeapOk val g s (k + 1) (f h u).1 ∧ ∀ q, (f h u).2 ≠ .num q) →
      (match gopNeg (trackOps A) h w with
        | .error e => (.error e : Except PyErr _)
        | .ok (h, w) => .ok (f h w)) = .ok r →
      HeapOk val g s (k + 1) r.1 ∧ ValOk val g s (max i j + 1) r.2 ∧
        ∀ q, r.2 = .num q → r.1 = h ∧ (∃ q', v = .num q') ∧ ∃ q', w = .num q' := by
    intro f hf hr
    cases hn : gopNeg (trackOps A) h w with
    | error e => rw [hn] at hr; cases hr
    | ok u =>
      rw [hn] at hr
      obtain ⟨H1, H2, _⟩ := opNeg_ok L H hw' hn
      have := hf u.1 u.2 H1 H2
      have hr' : f u.1 u.2 = r := Except.ok.inj hr
      rw [hr'] at this
      exact ⟨this.1, fun q hq => absurd hq (this.2 q), fun q hq => absurd hq (this.2 q)⟩
  cases v with
  | num p =>
    cases w with
    | num q =>
      cases hr
      refine ⟨H.mono L.one_le (Nat.le_succ k), fun q' hq' => ?_, fun q' _ => ⟨rfl, ⟨p, rfl⟩, q, rfl⟩⟩
      cases hq'
      have h1 := hv p rfl
      have h2 := hw q rfl
      have h0 := h1.1.size_nonneg
      have h3 := h2.2
      exact ⟨near_add L (h1.1.mono L.one_le (le_max_left _ _))
        (near_neg L (h2.1.mono L.one_le (le_max_right _ _))) (by simp only [trackOps]; linarith),
        by simp only [trackOps]; linarith⟩
    | var a =>
      exact eqn _ _ _ (H.push (single_ok L (near_neg L ((near_one L).mono L.one_le (Nat.zero_le k))) L.le_one a)) hv'
        (Except.ok.inj hr)
    | eqn b => exact eqn _ _ _ (opNeg_ok (v := .eqn b) L H (fun q hq => (by cases hq)) (j := 0) rfl).1 hv' (Except.ok.inj hr)
    | none => cases hr
  | var a =>
    refine left (fun h u => gaddVar (trackOps A) h a u)
      (fun h u H hu => ⟨addVar_ok L H a hu, fun q hq => (by cases u <;> cases hq)⟩) ?_
    cases w <;> exact hr
  | eqn a =>
    refine left (fun h u => gaddEqn (trackOps A) h a u)
      (fun h u H hu => ⟨addEqn_ok L H a hu, fun q hq => (by cases u <;> cases hq)⟩) ?_
    cases w <;> exact hr
  | none =>
    cases w with
    | num q => cases hr
    | var a =>
      exact eqn _ _ _ (H.push (single_ok L (near_neg L ((near_one L).mono L.one_le (Nat.zero_le k))) L.le_one a)) hv'
        (Except.ok.inj hr)
    | eqn b => exact eqn _ _ _ (opNeg_ok (v := .eqn b) L H (fun q hq => (by cases hq)) (j := 0) rfl).1 hv' (Except.ok.inj hr)
    | none => cases hr

/-- Multiplication: the levels add up. -/
theorem opMul_ok {k i j K : ℕ} {h : GHeap (Tracked N)} (H : HeapOk val g s k h) {v w : GVal (Tracked N)}
    (hv : ValOk val g s i v) (hw : ValOk val g s j w) (hk : k ≤ K)
    (hi : ∀ q, v = .num q → k + i + 1 ≤ K) (hj : ∀ q, w = .num q → k + j + 1 ≤ K)
    {r : GHeap (Tracked N) × GVal (Tracked N)} (hr : gopMul (trackOps A) h v w = .ok r) :
    HeapOk val g s K r.1 ∧ ValOk val g s (i + j + 1) r.2 ∧
      ∀ q, r.2 = .num q → r.1 = h ∧ (∃ q', v = .num q') ∧ ∃ q', w = .num q' := by
  have eqn : ∀ a u l, ValOk val g s l u → (∀ q, u = .num q → k + l + 1 ≤ K) → gmulEqn (trackOps A) h a u = r →
      HeapOk val g s K r.1 ∧ ValOk val g s (i + j + 1) r.2 ∧
        ∀ q, r.2 = .num q → r.1 = h ∧ (∃ q', v = .num q') ∧ ∃ q', w = .num q' := by
    rintro a u l hu hl rfl
    have he := H.deref L a
    cases u with
    | num q =>
      have hq := hu q rfl
      refine ⟨HeapOk.mono L.one_le (hl q rfl) ((H.mono L.one_le (by omega)).set a
        ⟨vmap_ok (j := k + l + 1) (fun t => (trackOps A).mul t q) he.1 fun t h1 h2 => ⟨near_mul L h1 hq.1 h2 hq.2, ?_⟩,
          he.2.mono L.one_le (by omega)⟩), fun q hq => (by cases hq), fun q hq => (by cases hq)⟩
      calc s = s * s := L.sq.symm
        _ ≤ t.size * q.size := mul_le_mul h2 hq.2 L.nonneg h1.size_nonneg
    | var j => exact ⟨H.mono L.one_le hk, fun q hq => (by cases hq), fun q hq => (by cases hq)⟩
    | eqn b => exact ⟨H.mono L.one_le hk, fun q hq => (by cases hq), fun q hq => (by cases hq)⟩
    | none => exact ⟨H.mono L.one_le hk, fun q hq => (by cases hq), fun q hq => (by cases hq)⟩
  have var : ∀ a u l, ValOk val g s l u → (∀ q, u = .num q → k + l + 1 ≤ K) → gmulVar (trackOps A) h a u = r →
      HeapOk val g s K r.1 ∧ ValOk val g s (i + j + 1) r.2 ∧
        ∀ q, r.2 = .num q → r.1 = h ∧ (∃ q', v = .num q') ∧ ∃ q', w = .num q' := by
    rintro a u l hu hl rfl
    cases u with
    | num q =>
      have hq := hu q rfl
      have := hl q rfl
      exact ⟨(H.mono L.one_le hk).push (single_ok L (hq.1.mono L.one_le (by omega)) hq.2 a), fun q hq => (by cases hq),
        fun q hq => (by cases hq)⟩
    | var j => exact ⟨H.mono L.one_le hk, fun q hq => (by cases hq), fun q hq => (by cases hq)⟩
    | eqn b => exact ⟨H.mono L.one_le hk, fun q hq => (by cases hq), fun q hq => (by cases hq)⟩
    | none => exact ⟨H.mono L.one_le hk, fun q hq => (by cases hq), fun q hq => (by cases hq)⟩
  cases v with
  | num p =>
    cases w with
    | num q =>
      cases hr
      refine ⟨H.mono L.one_le hk, fun q' hq' => ?_, fun q' _ => ⟨rfl, ⟨p, rfl⟩, q, rfl⟩⟩
      cases hq'
      have h1 := hv p rfl
      have h2 := hw q rfl
      refine ⟨near_mul L h1.1 h2.1 h1.2 h2.2, ?_⟩
      calc s = s * s := L.sq.symm
        _ ≤ p.size * q.size := mul_le_mul h1.2 h2.2 L.nonneg h1.1.size_nonneg
    | var a => exact var a _ i hv hi (Except.ok.inj hr)
    | eqn b => exact eqn b _ i hv hi (Except.ok.inj hr)
    | none => cases hr
  | var a => cases w <;> exact var a _ j hw hj (Except.ok.inj hr)
  | eqn a => cases w <;> exact eqn a _ j hw hj (Except.ok.inj hr)
  | none =>
    cases w with
    | num q => cases hr
    | var a => exact var a _ i hv hi (Except.ok.inj hr)
    | eqn b => exact eqn b _ i hv hi (Except.ok.inj hr)
    | none => cases hr

omit L in
/-- All numbers in the expression are as given. -/
def NumsOk (val : N → ℚ) (g s : ℚ) : GExpr (Tracked N) → Prop
  | .num q => Near val g 0 q ∧ s ≤ q.size
  | .x _ => True
  | .var _ => True
  | .ref _ => True
  | .pos e => NumsOk val g s e
  | .neg e => NumsOk val g s e
  | .add e f => NumsOk val g s e ∧ NumsOk val g s f
  | .sub e f => NumsOk val g s e ∧ NumsOk val g s f
  | .mul e f => NumsOk val g s e ∧ NumsOk val g s f

/-- A run makes at most one rounding of a number for every operator. -/
theorem run_ok {e : GExpr (Tracked N)} (hn : NumsOk val g s e) {j : ℕ} {h : GHeap (Tracked N)}
    (H : HeapOk val g s j h) {r : GHeap (Tracked N) × GVal (Tracked N)} (hr : geval (trackOps A) h e = .ok r) :
    HeapOk val g s (j + e.ops) r.1 ∧ ValOk val g s e.ops r.2 ∧ ∀ q, r.2 = .num q → r.1 = h := by
  induction e generalizing j h r with
  | num q =>
    cases hr
    exact ⟨H, fun q' hq' => by cases hq'; exact hn, fun _ _ => rfl⟩
  | x i =>
    simp only [geval, gindexX] at hr
    split at hr
    · cases hr
    · cases hr
      exact ⟨H.push (single_ok L ((near_one L).mono L.one_le (Nat.zero_le j)) L.le_one _), fun q hq => (by cases hq),
        fun q hq => (by cases hq)⟩
  | var k => cases hr; exact ⟨H, fun q hq => (by cases hq), fun q hq => (by cases hq)⟩
  | ref a => cases hr; exact ⟨H, fun q hq => (by cases hq), fun q hq => (by cases hq)⟩
  | pos e ih =>
    simp only [geval] at hr
    cases h1 : geval (trackOps A) h e with
    | error r => rw [h1] at hr; cases hr
    | ok u =>
      rw [h1] at hr
      obtain ⟨a1, a2, a3⟩ := ih hn H h1
      obtain ⟨b1, b2, b3⟩ := opPos_ok L a1 a2 hr
      exact ⟨b1, b2, fun q hq => ((b3 q hq).1).trans (a3 q (b3 q hq).2)⟩
  | neg e ih =>
    simp only [geval] at hr
    cases h1 : geval (trackOps A) h e with
    | error r => rw [h1] at hr; cases hr
    | ok u =>
      rw [h1] at hr
      obtain ⟨a1, a2, a3⟩ := ih hn H h1
      obtain ⟨b1, b2, b3⟩ := opNeg_ok L a1 a2 hr
      exact ⟨b1, b2, fun q hq => ((b3 q hq).1).trans (a3 _ (b3 q hq).2.choose_spec)⟩
  | add e f ih1 ih2 =>
    simp only [geval] at hr
    cases h1 : geval (trackOps A) h e with
    | error r => rw [h1] at hr; cases hr
    | ok u =>
      rw [h1] at hr
      simp only at hr
      obtain ⟨a1, a2, a3⟩ := ih1 hn.1 H h1
      cases h2 : geval (trackOps A) u.1 f with
      | error r => rw [h2] at hr; cases hr
      | ok t =>
        rw [h2] at hr
        obtain ⟨b1, b2, b3⟩ := ih2 hn.2 a1 h2
        obtain ⟨c1, c2, c3⟩ := opAdd_ok L b1 a2 b2 (by omega) (by omega) hr
        refine ⟨c1.mono L.one_le (by simp only [GExpr.ops]; omega), c2.mono L.one_le (by simp only [GExpr.ops]; omega), ?_⟩
        intro q hq
        obtain ⟨d1, d2, d3⟩ := c3 q hq
        exact (d1.trans (b3 _ d3.choose_spec)).trans (a3 _ d2.choose_spec)
  | sub e f ih1 ih2 =>
    simp only [geval] at hr
    cases h1 : geval (trackOps A) h e with
    | error r => rw [h1] at hr; cases hr
    | ok u =>
      rw [h1] at hr
      simp only at hr
      obtain ⟨a1, a2, a3⟩ := ih1 hn.1 H h1
      cases h2 : geval (trackOps A) u.1 f with
      | error r => rw [h2] at hr; cases hr
      | ok t =>
        rw [h2] at hr
        obtain ⟨b1, b2, b3⟩ := ih2 hn.2 a1 h2
        obtain ⟨c1, c2, c3⟩ := opSub_ok L b1 a2 b2 (by omega) (by omega) hr
        refine ⟨c1.mono L.one_le (by simp only [GExpr.ops]; omega), c2.mono L.one_le (by simp only [GExpr.ops]; omega), ?_⟩
        intro q hq
        obtain ⟨d1, d2, d3⟩ := c3 q hq
        exact (d1.trans (b3 _ d3.choose_spec)).trans (a3 _ d2.choose_spec)
  | mul e f ih1 ih2 =>
    simp only [geval] at hr
    cases h1 : geval (trackOps A) h e with
    | error r => rw [h1] at hr; cases hr
    | ok u =>
      rw [h1] at hr
      simp only at hr
      obtain ⟨a1, a2, a3⟩ := ih1 hn.1 H h1
      cases h2 : geval (trackOps A) u.1 f with
      | error r => rw [h2] at hr; cases hr
      | ok t =>
        rw [h2] at hr
        simp only at hr
        have fin : ∀ {k : ℕ}, HeapOk val g s k t.1 → k ≤ j + (e.ops + f.ops + 1) →
            (∀ q, u.2 = .num q → k + e.ops + 1 ≤ j + (e.ops + f.ops + 1)) →
            (∀ q, t.2 = .num q → k + f.ops + 1 ≤ j + (e.ops + f.ops + 1)) →
            HeapOk val g s (j + (e.ops + f.ops + 1)) r.1 ∧ ValOk val g s (e.ops + f.ops + 1) r.2 ∧
              ∀ q, r.2 = .num q → r.1 = h := by
          intro k hk k1 k2 k3
          obtain ⟨b1, b2, b3⟩ := ih2 hn.2 a1 h2
          obtain ⟨c1, c2, c3⟩ := opMul_ok L hk a2 b2 k1 k2 k3 hr
          refine ⟨c1, c2, fun q hq => ?_⟩
          obtain ⟨d1, d2, d3⟩ := c3 q hq
          exact (d1.trans (b3 _ d3.choose_spec)).trans (a3 _ d2.choose_spec)
        by_cases hu : ∃ q, u.2 = .num q
        · obtain ⟨q, hq⟩ := hu
          have hu1 := a3 q hq
          rw [hu1] at h2
          obtain ⟨b1, b2, b3⟩ := ih2 hn.2 H h2
          by_cases ht : ∃ q, t.2 = .num q
          · obtain ⟨q', hq'⟩ := ht
            exact fin (k := j) (by rw [b3 q' hq']; exact H) (by omega) (fun _ _ => by omega) (fun _ _ => by omega)
          · exact fin b1 (by omega) (fun _ _ => by omega) (fun q hq => absurd ⟨q, hq⟩ ht)
        · obtain ⟨b1, b2, b3⟩ := ih2 hn.2 a1 h2
          by_cases ht : ∃ q, t.2 = .num q
          · obtain ⟨q', hq'⟩ := ht
            exact fin (k := j + e.ops) (by rw [b3 q' hq']; exact a1) (by omega) (fun q hq => absurd ⟨q, hq⟩ hu)
              (fun _ _ => by omega)
          · exact fin b1 (by omega) (fun q hq => absurd ⟨q, hq⟩ hu) (fun q hq => absurd ⟨q, hq⟩ ht)

end

/-! ### The three runs -/

theorem read_map {N M : Type} (φ : N → M) (f : M → ℚ) (e : GEqn N) : (e.map φ).read f = e.read (f ∘ φ) := by
  simp [GEqn.map, GEqn.read, vmap]

theorem expr_read_map {N M : Type} (φ : N → M) (f : M → ℚ) (e : GExpr N) : (e.map φ).read f = e.read (f ∘ φ) := by
  induction e with
  | num q => rfl
  | x i => rfl
  | var k => rfl
  | ref a => rfl
  | pos e ih => simp only [GExpr.map, GExpr.read, ih]
  | neg e ih => simp only [GExpr.map, GExpr.read, ih]
  | add e f ih1 ih2 => simp only [GExpr.map, GExpr.read, ih1, ih2]
  | sub e f ih1 ih2 => simp only [GExpr.map, GExpr.read, ih1, ih2]
  | mul e f ih1 ih2 => simp only [GExpr.map, GExpr.read, ih1, ih2]

theorem val_read_map {N M : Type} (φ : N → M) (f : M → ℚ) (v : GVal N) : (v.map φ).read f = v.read (f ∘ φ) := by
  cases v <;> rfl

theorem heap_read_map {N M : Type} (φ : N → M) (f : M → ℚ) (h : GHeap N) :
    (h.map (GEqn.map φ)).map (GEqn.read f) = h.map (GEqn.read (f ∘ φ)) := by
  rw [List.map_map]
  exact List.map_congr_left fun e _ => read_map φ f e

theorem eval_exact {N : Type} {A : Ops N} {φ : N → ℚ} (H : Hom A ratOps φ) (h : GHeap N) (e : GExpr N) :
    eval (h.map (GEqn.read φ)) (e.read φ) = (geval A h e).map (resRead φ) := by
  have h1 := eval_raw (h.map (GEqn.map φ)) (e.map φ)
  rw [H.eval, rawHeap, heap_read_map, expr_read_map] at h1
  rw [show (id ∘ φ) = φ from rfl] at h1
  rw [h1]
  cases geval A h e with
  | error r => rfl
  | ok r => simp only [Except.map, resMap, resRead, heap_read_map, val_read_map]; rfl

theorem eval_size {N : Type} {A : Ops N} {φ : N → ℚ} (H : Hom A absOps φ) (h : GHeap N) (e : GExpr N) :
    eval (h.map (GEqn.read φ)) (unsigned (e.read φ)) = (geval A h e).map (resRead φ) := by
  have h1 := eval_unsigned (h.map (GEqn.map φ)) (e.map φ)
  rw [H.eval, rawHeap, heap_read_map, expr_read_map] at h1
  rw [show (id ∘ φ) = φ from rfl] at h1
  rw [h1]
  cases geval A h e with
  | error r => rfl
  | ok r => simp only [Except.map, resMap, resRead, heap_read_map, val_read_map]; rfl

section
variable {N : Type} {A : Ops N} {val : N → ℚ} {g s : ℚ}

/-- A number as it is given, tracked. -/
def lift (val : N → ℚ) (s : ℚ) (n : N) : Tracked N := ⟨n, val n, max |val n| s⟩

/-- An equation, tracked. -/
def liftEqn (val : N → ℚ) (s : ℚ) (e : GEqn N) : GEqn (Tracked N) :=
  ⟨vmap (lift val s) e.terms, ⟨e.const, val e.const, |val e.const|⟩⟩

/-- The sizes of the numbers of an equation. -/
def sizeEqn (val : N → ℚ) (s : ℚ) (e : GEqn N) : Eqn := ⟨vmap (fun n => max |val n| s) e.terms, |val e.const|⟩

theorem near_lift (n : N) : Near val g 0 (lift val s n) ∧ s ≤ (lift val s n).size := by
  refine ⟨⟨le_max_left _ _, ?_⟩, le_max_right _ _⟩
  simp [lift]

theorem nums_lift (e : GExpr N) : NumsOk val g s (e.map (lift val s)) := by
  induction e with
  | num q => exact near_lift q
  | x i => trivial
  | var k => trivial
  | ref a => trivial
  | pos e ih => exact ih
  | neg e ih => exact ih
  | add e f ih1 ih2 => exact ⟨ih1, ih2⟩
  | sub e f ih1 ih2 => exact ⟨ih1, ih2⟩
  | mul e f ih1 ih2 => exact ⟨ih1, ih2⟩

theorem heap_lift {h : GHeap N} (hw : ∀ e ∈ h, Dict.WF e.terms) : HeapOk val g s 0 (h.map (liftEqn val s)) := by
  intro e he
  obtain ⟨f, hf, rfl⟩ := List.mem_map.mp he
  refine ⟨⟨by unfold Dict.WF liftEqn; rw [vmap_keys]; exact hw f hf, fun l t ht => ?_⟩, ?_⟩
  · simp only [liftEqn, vmap_get?] at ht
    obtain ⟨u, _, rfl⟩ := Option.map_eq_some_iff.mp ht
    exact near_lift u
  · simp [Near, liftEqn]

theorem ops_map {M : Type} (φ : N → M) (e : GExpr N) : (e.map φ).ops = e.ops := by
  induction e with
  | num q => rfl
  | x i => rfl
  | var k => rfl
  | ref a => rfl
  | pos e ih => exact ih
  | neg e ih => exact ih
  | add e f ih1 ih2 => simp only [GExpr.map, GExpr.ops, ih1, ih2]
  | sub e f ih1 ih2 => simp only [GExpr.map, GExpr.ops, ih1, ih2]
  | mul e f ih1 ih2 => simp only [GExpr.map, GExpr.ops, ih1, ih2]

theorem terms_near {k : ℕ} {d : Dict ℕ (Tracked N)} (hd : ∀ t ∈ d, Near val g k t.2) (p : Point) :
    |evalTerms (d.map fun t => (t.1, val t.2.num)) p - evalTerms (d.map fun t => (t.1, t.2.exact)) p| ≤
      (g ^ k - 1) * evalTerms (d.map fun t => (t.1, t.2.size)) fun i => |p i| := by
  induction d with
  | nil => simp [evalTerms]
  | cons t d ih =>
    have ih := ih fun u hu => hd u (List.mem_cons_of_mem _ hu)
    have ht := (hd t List.mem_cons_self).2
    simp only [List.map_cons, evalTerms_cons]
    have h1 : |(val t.2.num - t.2.exact) * p t.1| ≤ (g ^ k - 1) * t.2.size * |p t.1| := by
      rw [abs_mul]; exact mul_le_mul_of_nonneg_right ht (abs_nonneg _)
    have e : ∀ a b : ℚ, val t.2.num * p t.1 + a - (t.2.exact * p t.1 + b) = (val t.2.num - t.2.exact) * p t.1 + (a - b) :=
      fun a b => by ring
    rw [e]
    refine (abs_add_le _ _).trans ?_
    rw [mul_add, ← mul_assoc]
    exact add_le_add h1 ih

/-- Three runs: on numbers, exact, and on sizes. They fail together; otherwise the result is near the exact one. -/
theorem three_runs (L : Lawful A val g s) {h : GHeap N} (hw : ∀ e ∈ h, Dict.WF e.terms) (e : GExpr N) :
    (∃ r, geval A h e = .error r ∧ eval (h.map (GEqn.read val)) (e.read val) = .error r) ∨
    ∃ h' w hx wx hs ws, geval A h e = .ok (h', w) ∧ eval (h.map (GEqn.read val)) (e.read val) = .ok (hx, wx) ∧
      eval (h.map (sizeEqn val s)) (unsigned (e.read fun n => max |val n| s)) = .ok (hs, ws) ∧
      ((w.read val).IsNum ↔ wx.IsNum) ∧ (w = .none ↔ wx = .none) ∧
      (∀ p, |(w.read val).at (h'.map (GEqn.read val)) p - wx.at hx p| ≤ (g ^ e.ops - 1) * ws.at hs fun i => |p i|) ∧
      ∀ p, |((w.read val).at (h'.map (GEqn.read val)) p - (w.read val).at (h'.map (GEqn.read val)) fun _ => 0) -
        (wx.at hx p - wx.at hx fun _ => 0)| ≤ (g ^ e.ops - 1) * (ws.at hs (fun i => |p i|) - ws.at hs fun _ => 0) := by
  set hT := h.map (liftEqn val s) with hhT
  set eT := e.map (lift val s) with heT
  have r1 := (hom_num A).eval hT eT
  have r2 := eval_exact (hom_exact A) hT eT
  have r3 := eval_size (hom_size A) hT eT
  have e1 : hT.map (GEqn.map Tracked.num) = h := by
    rw [hhT, List.map_map]
    refine (List.map_congr_left fun f _ => ?_).trans (List.map_id h)
    simp [liftEqn, GEqn.map, vmap, lift, Function.comp_def]
  have e2 : hT.map (GEqn.read Tracked.exact) = h.map (GEqn.read val) := by
    rw [hhT, List.map_map]
    refine List.map_congr_left fun f _ => ?_
    simp [liftEqn, GEqn.read, vmap, lift, Function.comp_def]
  have e3 : hT.map (GEqn.read Tracked.size) = h.map (sizeEqn val s) := by
    rw [hhT, List.map_map]
    refine List.map_congr_left fun f _ => ?_
    simp [liftEqn, GEqn.read, sizeEqn, vmap, lift, Function.comp_def]
  have f1 : eT.map Tracked.num = e := by
    rw [heT]
    clear_value hT
    clear r1 r2 r3 heT eT
    induction e with
    | num q => rfl
    | x i => rfl
    | var k => rfl
    | ref a => rfl
    | pos e ih => simp only [GExpr.map, ih]
    | neg e ih => simp only [GExpr.map, ih]
    | add e f ih1 ih2 => simp only [GExpr.map, ih1, ih2]
    | sub e f ih1 ih2 => simp only [GExpr.map, ih1, ih2]
    | mul e f ih1 ih2 => simp only [GExpr.map, ih1, ih2]
  have f2 : eT.read Tracked.exact = e.read val := by rw [heT, expr_read_map]; rfl
  have f3 : eT.read Tracked.size = e.read fun n => max |val n| s := by rw [heT, expr_read_map]; rfl
  rw [e1, f1] at r1
  rw [e2, f2] at r2
  rw [e3, f3] at r3
  have hops : eT.ops = e.ops := ops_map _ e
  cases hr : geval (trackOps A) hT eT with
  | error r =>
    left
    rw [hr] at r1 r2
    exact ⟨r, r1, r2⟩
  | ok r =>
    right
    obtain ⟨h', w⟩ := r
    obtain ⟨k1, k2, -⟩ := run_ok L (nums_lift e) (heap_lift hw) hr
    rw [Nat.zero_add, hops] at k1
    rw [hops] at k2
    rw [hr] at r1 r2 r3
    simp only [Except.map, resMap, resRead] at r1 r2 r3
    refine ⟨_, _, _, _, _, _, r1, r2, r3, ?_, ?_, ?_⟩
    · cases w <;> simp [GVal.map, GVal.read, Val.IsNum]
    · cases w <;> simp [GVal.map, GVal.read]
    rw [heap_read_map, val_read_map]
    have eqn : ∀ a, EqnOk val g s e.ops (gderef (trackOps A) h' a) := fun a => HeapOk.deref L k1 a
    have hd : ∀ (f : Tracked N → ℚ) (a : ℕ), f (trackOps A).zero = 0 →
        deref (h'.map (GEqn.read f)) a = (gderef (trackOps A) h' a).read f := fun f a hf => by
      unfold deref gderef
      rw [List.getD_eq_getElem?_getD, List.getD_eq_getElem?_getD, List.getElem?_map]
      cases h'[a]? with
      | none => simp [GEqn.read, hf]
      | some e => rfl
    have d1 : ∀ a, deref (h'.map (GEqn.read (val ∘ Tracked.num))) a = (gderef (trackOps A) h' a).read (val ∘ Tracked.num) :=
      fun a => hd _ a L.zero
    have d2 : ∀ a, deref (h'.map (GEqn.read Tracked.exact)) a = (gderef (trackOps A) h' a).read Tracked.exact :=
      fun a => hd _ a rfl
    have d3 : ∀ a, deref (h'.map (GEqn.read Tracked.size)) a = (gderef (trackOps A) h' a).read Tracked.size :=
      fun a => hd _ a rfl
    have hg : 0 ≤ g ^ e.ops - 1 := sub_nonneg.mpr (one_le_pow₀ L.one_le)
    cases w with
    | num q =>
      have hq := (k2 q rfl).1
      refine ⟨fun p => hq.2, fun p => ?_⟩
      simp [GVal.read, Val.at]
    | var k =>
      refine ⟨fun p => ?_, fun p => ?_⟩
      · simp only [GVal.read, Val.at, sub_self, abs_zero]
        exact mul_nonneg hg (abs_nonneg _)
      · simp only [GVal.read, Val.at, sub_self, abs_zero, sub_zero]
        exact mul_nonneg hg (abs_nonneg _)
    | eqn a =>
      have hE := eqn a
      have hT : ∀ t ∈ (gderef (trackOps A) h' a).terms, Near val g e.ops t.2 := fun t ht =>
        (hE.1.2 t.1 t.2 (Dict.get?_of_mem hE.1.1 ht)).1
      simp only [GVal.read, Val.at, d1, d2, d3, GEqn.read, Eqn.at, Function.comp_apply]
      refine ⟨fun p => ?_, fun p => ?_⟩
      · have h1 := terms_near hT p
        have h2 := hE.2.2
        have : ∀ x y z w : ℚ, x + y - (z + w) = (x - z) + (y - w) := fun x y z w => by ring
        rw [this, mul_add]
        exact (abs_add_le _ _).trans (add_le_add h1 h2)
      · have h1 := terms_near hT p
        simp only [evalTerms_zero, zero_add]
        have : ∀ x y z w : ℚ, x + y - y - (z + w - w) = x - z := fun x y z w => by ring
        rw [this, add_sub_cancel_right]
        exact h1
    | none => simp [GVal.read, Val.at]

end

end Floating
end Pytimize
