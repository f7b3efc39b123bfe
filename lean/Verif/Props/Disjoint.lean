/-
C04, C05: the union-find structure of `pytimize/utilities/_disjoint.py`.
-/
import Verif.Disjoint

namespace Pytimize.Props
open Pytimize.Disjoint
variable {α : Type} [DecidableEq α]

/-- The user-level test `ds.find(a) == ds.find(b)` (two calls in sequence). -/
def sameSet (s : DSet α) (a b : α) : Except PyErr Bool :=
  match find (fuelFor s) s a with
  | .error e => .error e
  | .ok (ra, s1) =>
    match find (fuelFor s1) s1 b with
    | .error e => .error e
    | .ok (rb, _) => .ok (decide (ra = rb))

theorem find_ok {items : List α} {s0 : DSet α} (h0 : init items = .ok s0) (ops : List (Op α))
    {a : α} (ha : a ∈ items) :
    ∃ r s', find (fuelFor (run s0 ops)) (run s0 ops) a = .ok (r, s') ∧
      (∃ d, Root (run s0 ops) a r d) ∧ Inv items s' ∧ Same (run s0 ops) s' := by
  obtain ⟨hnd, _, _⟩ := init_inv h0
  obtain ⟨hi, _⟩ := run_inv h0 ops
  obtain ⟨r, d, hr⟩ := hi.root_exists ha
  obtain ⟨s', h1, h2, h3⟩ := find_spec hi hr _
    (lt_of_le_of_lt (Root.depth_le_log hnd hi hr) (log_lt_fuel hi))
  exact ⟨r, s', h1, ⟨d, hr⟩, h2, h3⟩

/-- C04. The constructor accepts exactly the duplicate-free item lists. -/
theorem C04_init (items : List α) :
    (∃ s, init items = .ok s) ↔ items.Nodup := by
  unfold init
  split <;> simp_all

/-- C04 (main). After any history of calls, `find(a) == find(b)` exactly when `a` and `b` are
connected by the unions performed. -/
theorem C04_find_iff_connected {items : List α} {s0 : DSet α} (h0 : init items = .ok s0)
    (ops : List (Op α)) {a b : α} (ha : a ∈ items) (hb : b ∈ items) :
    ∃ v, sameSet (run s0 ops) a b = .ok v ∧ (v = true ↔ Connected items ops a b) := by
  obtain ⟨hnd, _, _⟩ := init_inv h0
  obtain ⟨hi, hc⟩ := run_inv h0 ops
  obtain ⟨ra, s1, h1, ⟨da, hra⟩, hi1, hs1⟩ := find_ok h0 ops ha
  obtain ⟨rb, db, hrb⟩ := hi1.root_exists hb
  obtain ⟨s2, h2, _, _⟩ := find_spec hi1 hrb (fuelFor s1)
    (lt_of_le_of_lt (Root.depth_le_log hnd hi1 hrb) (log_lt_fuel hi1))
  refine ⟨decide (ra = rb), by simp [sameSet, h1, h2], ?_⟩
  obtain ⟨eb, heb⟩ := (hs1.root b rb).mpr ⟨_, hrb⟩
  rw [hc a b]
  constructor
  · intro h
    right
    have := of_decide_eq_true h
    subst this
    exact ⟨ra, ⟨da, hra⟩, eb, heb⟩
  · rintro (rfl | ⟨r, ⟨d1, hd1⟩, d2, hd2⟩)
    · exact decide_eq_true (Root.unique hra heb).1
    · have e1 := (Root.unique hra hd1).1
      have e2 := (Root.unique heb hd2).1
      exact decide_eq_true (e1.trans e2.symm)

/-- C04. The representative is an item of the same class, and is its own representative. -/
theorem C04_representative {items : List α} {s0 : DSet α} (h0 : init items = .ok s0)
    (ops : List (Op α)) {a : α} (ha : a ∈ items) :
    ∃ r s', find (fuelFor (run s0 ops)) (run s0 ops) a = .ok (r, s') ∧ r ∈ items ∧
      Connected items ops a r ∧ ∃ s'', find (fuelFor s') s' r = .ok (r, s'') := by
  obtain ⟨hnd, _, _⟩ := init_inv h0
  obtain ⟨hi, hc⟩ := run_inv h0 ops
  obtain ⟨r, s', h1, ⟨d, hr⟩, hi1, hs1⟩ := find_ok h0 ops ha
  refine ⟨r, s', h1, (Root.mem hi hr).2, (hc a r).mpr (Or.inr ⟨r, ⟨d, hr⟩, 0, Root.root hr.isRoot⟩),
    ?_⟩
  obtain ⟨e, he⟩ := (hs1.root r r).mp ⟨0, Root.root hr.isRoot⟩
  obtain ⟨s2, h2, _, _⟩ := find_spec hi1 he (fuelFor s')
    (lt_of_le_of_lt (Root.depth_le_log hnd hi1 he) (log_lt_fuel hi1))
  exact ⟨s2, h2⟩

/-- C04. A `find` call never changes which elements are together. -/
theorem C04_find_keeps_classes {items : List α} {s0 : DSet α} (h0 : init items = .ok s0)
    (ops : List (Op α)) (x : α) {a b : α} (ha : a ∈ items) (hb : b ∈ items) :
    sameSet (run s0 (ops ++ [.find x])) a b = sameSet (run s0 ops) a b := by
  obtain ⟨v, hv, hv2⟩ := C04_find_iff_connected h0 ops ha hb
  obtain ⟨w, hw, hw2⟩ := C04_find_iff_connected h0 (ops ++ [.find x]) ha hb
  rw [hv, hw]
  have hj : joined items (ops ++ [.find x]) = joined items ops := by
    funext p q
    simp [joined]
  have : Connected items (ops ++ [.find x]) a b ↔ Connected items ops a b := by
    unfold Connected; rw [hj]
  have hvw : w = true ↔ v = true := by rw [hw2, hv2, this]
  congr 1
  exact Bool.eq_iff_iff.mpr hvw

/-- C04. A `union` of two items joins exactly their two classes. -/
theorem C04_union_joins {items : List α} {s0 : DSet α} (h0 : init items = .ok s0)
    (ops : List (Op α)) {x y : α} (hx : x ∈ items) (hy : y ∈ items) :
    sameSet (run s0 (ops ++ [.union x y])) x y = .ok true := by
  obtain ⟨v, hv, hv2⟩ := C04_find_iff_connected h0 (ops ++ [.union x y]) hx hy
  rw [hv, hv2.mpr (Relation.EqvGen.rel _ _ ⟨by simp, hx, hy⟩)]

theorem find_fuel_mono {s : DSet α} {x : α} {res : α × DSet α} {f : ℕ}
    (h : find f s x = .ok res) (k : ℕ) : find (f + k) s x = .ok res := by
  induction f generalizing x res with
  | zero => simp [find] at h
  | succ f ih =>
    rw [show f + 1 + k = (f + k) + 1 by omega]
    unfold find at h ⊢
    split at h
    · cases h
    · split at h
      · simp_all
      · rename_i hne
        simp only [hne, if_false]
        split at h
        · cases h
        · rename_i r s' hr
          rw [ih hr]
          exact h

/-- C05. `find` on a member terminates, using at most `log2 n + 1` nested calls (the fuel is the
number of nested `find` frames); more fuel never changes the answer. -/
theorem C05_find_terminates_log {items : List α} {s0 : DSet α} (h0 : init items = .ok s0)
    (ops : List (Op α)) {x : α} (hx : x ∈ items) :
    ∃ res, ∀ fuel, Nat.log 2 items.length < fuel → find fuel (run s0 ops) x = .ok res := by
  obtain ⟨hnd, _, _⟩ := init_inv h0
  obtain ⟨hi, _⟩ := run_inv h0 ops
  obtain ⟨r, d, hr⟩ := hi.root_exists hx
  obtain ⟨s', h1, _, _⟩ := find_spec hi hr (Nat.log 2 items.length + 1)
    (lt_of_le_of_lt (Root.depth_le_log hnd hi hr) (Nat.lt_succ_self _))
  refine ⟨(r, s'), fun fuel hf => ?_⟩
  obtain ⟨k, rfl⟩ : ∃ k, fuel = Nat.log 2 items.length + 1 + k :=
    ⟨fuel - (Nat.log 2 items.length + 1), by omega⟩
  exact find_fuel_mono h1 k

/-- C05. `find` raises `ValueError` exactly on non-members. -/
theorem C05_find_error_iff {items : List α} {s0 : DSet α} (h0 : init items = .ok s0)
    (ops : List (Op α)) (x : α) (fuel : ℕ) (hf : Nat.log 2 items.length < fuel) :
    find fuel (run s0 ops) x = .error .valueError ↔ x ∉ items := by
  obtain ⟨hi, _⟩ := run_inv h0 ops
  constructor
  · intro h hx
    obtain ⟨res, hres⟩ := C05_find_terminates_log h0 ops hx
    rw [hres fuel hf] at h
    cases h
  · intro hx
    obtain ⟨f, rfl⟩ : ∃ f, fuel = f + 1 := ⟨fuel - 1, by omega⟩
    exact find_nonmember (fun h => hx ((hi.dom x).mpr h)) f

/-- C05. `union` succeeds exactly on pairs of members, and raises `ValueError` otherwise. -/
theorem C05_union_total {items : List α} {s0 : DSet α} (h0 : init items = .ok s0)
    (ops : List (Op α)) (x y : α) (fuel : ℕ) (hf : Nat.log 2 items.length < fuel) :
    (x ∈ items ∧ y ∈ items ∧ ∃ s', union fuel (run s0 ops) x y = .ok s') ∨
    (¬ (x ∈ items ∧ y ∈ items) ∧ union fuel (run s0 ops) x y = .error .valueError) := by
  obtain ⟨hnd, _, _⟩ := init_inv h0
  obtain ⟨hi, _⟩ := run_inv h0 ops
  by_cases h : x ∈ items ∧ y ∈ items
  · obtain ⟨s', _, _, h1, _⟩ := union_spec hnd hi h.1 h.2 fuel hf
    exact Or.inl ⟨h.1, h.2, s', h1⟩
  · refine Or.inr ⟨h, union_nonmember ?_ fuel⟩
    by_contra hc
    push Not at hc
    exact h ⟨(hi.dom x).mpr hc.1, (hi.dom y).mpr hc.2⟩

/-! Concrete instances: the hypotheses hold and the conclusions are not trivial. -/

example : ∃ s, init [1, 2, 3, 4] = Except.ok s ∧
    sameSet (run s [.union 1 2, .union 3 4, .union 2 4, .find 1]) 1 3 = .ok true ∧
    sameSet (run s [.union 1 2, .union 3 4, .find 9]) 1 3 = .ok false :=
  ⟨_, rfl, by decide, by decide⟩

end Pytimize.Props
