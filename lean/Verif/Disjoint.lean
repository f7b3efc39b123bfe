/-
Model of `pytimize/utilities/_disjoint.py` (union-find with path compression and union by rank).
-/
import Verif.Py
import Mathlib.Data.Finset.Card
import Mathlib.Data.Nat.Log
import Mathlib.Algebra.Order.BigOperators.Group.List
import Mathlib.Algebra.Order.Group.Nat
import Mathlib.Logic.Relation
import Mathlib.Tactic.Linarith
import Mathlib.Tactic.Push

namespace Pytimize
namespace Disjoint
variable {α : Type} [DecidableEq α]

/-- The two dictionaries of a `DisjointSet`, `_disjoint.py:9-10`. -/
structure DSet (α : Type) where
  set : Dict α α
  rank : Dict α ℕ

/-- `DisjointSet.__init__`, `_disjoint.py:5-14`. -/
def init (items : List α) : Except PyErr (DSet α) :=
  if items.Nodup then
    .ok (items.foldl (fun s x => ⟨s.set.setDefault x x, s.rank.setDefault x 0⟩) ⟨[], []⟩)
  else .error .valueError

/-- `DisjointSet.find`, `_disjoint.py:16-30`, with the recursion depth as fuel. Returns the
representative and the object after path compression. -/
def find : ℕ → DSet α → α → Except PyErr (α × DSet α)
  | 0, _, _ => .error .notTerminated
  | fuel + 1, s, x =>
    match s.set.get? x with
    | none => .error .valueError
    | some p =>
      if p = x then .ok (x, s)
      else
        match find fuel s p with
        | .error e => .error e
        | .ok (r, s') => .ok (r, { s' with set := s'.set.set x r })

/-- `DisjointSet.union`, `_disjoint.py:32-48`; `fuel` bounds the recursion depth of the two
`find` calls. `KeyError` stands for a missing rank entry. -/
def union (fuel : ℕ) (s : DSet α) (x y : α) : Except PyErr (DSet α) :=
  if s.set.has x && s.set.has y then
    match find fuel s x with
    | .error e => .error e
    | .ok (p1, s1) =>
      match find fuel s1 y with
      | .error e => .error e
      | .ok (p2, s2) =>
        if p1 = p2 then .ok s2
        else
          match s2.rank.get? p1, s2.rank.get? p2 with
          | some r1, some r2 =>
            if r1 < r2 then .ok { s2 with set := s2.set.set p1 p2 }
            else if r1 > r2 then .ok { s2 with set := s2.set.set p2 p1 }
            else .ok ⟨s2.set.set p2 p1, s2.rank.set p1 (r1 + 1)⟩
          | _, _ => .error .keyError
  else .error .valueError

/-- The fuel used for a run: Python's recursion is unbounded here; `find_terminates` shows that
this much is always enough. -/
def fuelFor (s : DSet α) : ℕ := s.set.length + 1

/-- A call made by a user. -/
inductive Op (α : Type)
  | find (x : α)
  | union (x y : α)

/-- One API call: the state afterwards (a raised exception leaves the object as it is: both
membership checks precede every write). -/
def step (s : DSet α) : Op α → DSet α
  | .find x => match find (fuelFor s) s x with
    | .ok (_, s') => s'
    | .error _ => s
  | .union x y => match union (fuelFor s) s x y with
    | .ok s' => s'
    | .error _ => s

/-- Any finite history of calls. -/
def run (s : DSet α) (ops : List (Op α)) : DSet α := ops.foldl step s

/-! ### Specification: connectivity by the unions performed -/

/-- The pairs joined by the successful `union` calls of a history (`union` raises, and joins
nothing, unless both arguments are items). -/
def joined (items : List α) (ops : List (Op α)) : α → α → Prop :=
  fun a b => Op.union a b ∈ ops ∧ a ∈ items ∧ b ∈ items

/-- `a` and `b` are connected by the unions of the history. -/
def Connected (items : List α) (ops : List (Op α)) : α → α → Prop :=
  Relation.EqvGen (joined items ops)

/-! ### Proof machinery -/

/-- Following `d` parent pointers from `x` reaches the self-pointing element `r`. -/
inductive Root (s : DSet α) : α → α → ℕ → Prop
  | root {x} : s.set.get? x = some x → Root s x x 0
  | step {x p r d} : s.set.get? x = some p → p ≠ x → Root s p r d → Root s x r (d + 1)

theorem Root.unique {s : DSet α} {x r r' : α} {d d' : ℕ} (h : Root s x r d) (h' : Root s x r' d') :
    r = r' ∧ d = d' := by
  induction h generalizing d' with
  | root h1 =>
    cases h' with
    | root => exact ⟨rfl, rfl⟩
    | step h2 h3 _ => rw [h1] at h2; cases h2; exact absurd rfl h3
  | step h1 h2 _ ih =>
    cases h' with
    | root h3 => rw [h1] at h3; cases h3; exact absurd rfl h2
    | step h3 h4 h5 =>
      rw [h1] at h3; cases h3
      obtain ⟨a, b⟩ := ih h5
      exact ⟨a, by omega⟩

theorem Root.isRoot {s : DSet α} {x r : α} {d : ℕ} (h : Root s x r d) :
    s.set.get? r = some r := by
  induction h with
  | root h => exact h
  | step _ _ _ ih => exact ih

/-- The state invariant. `items` is the list given to the constructor. -/
structure Inv (items : List α) (s : DSet α) : Prop where
  dom : ∀ x, x ∈ items ↔ x ∈ s.set.keys
  len : s.set.length = items.length
  rankDom : ∀ x ∈ items, ∃ r, s.rank.get? x = some r
  par : ∀ x p, s.set.get? x = some p → p ∈ items
  lt : ∀ x p rx rp, s.set.get? x = some p → p ≠ x → s.rank.get? x = some rx →
    s.rank.get? p = some rp → rx < rp
  size : ∀ r k, s.set.get? r = some r → s.rank.get? r = some k →
    ∃ F : Finset α, 2 ^ k ≤ F.card ∧ ∀ y ∈ F, y ∈ items ∧ ∃ d, Root s y r d

theorem Inv.par_exists {items : List α} {s : DSet α} (h : Inv items s) {x : α} (hx : x ∈ items) :
    ∃ p, s.set.get? x = some p := Dict.exists_get?_of_mem ((h.dom x).mp hx)

theorem Inv.root_exists {items : List α} {s : DSet α} (h : Inv items s) {x : α} (hx : x ∈ items) :
    ∃ r d, Root s x r d := by
  -- all ranks of items are bounded
  have hb : ∃ M, ∀ y ∈ items, ∀ r, s.rank.get? y = some r → r ≤ M := by
    refine ⟨(items.map fun y => (s.rank.get? y).getD 0).sum, ?_⟩
    intro y hy r hr
    have : r ∈ items.map fun y => (s.rank.get? y).getD 0 :=
      List.mem_map.mpr ⟨y, hy, by simp [hr]⟩
    exact List.single_le_sum (by simp) _ this
  obtain ⟨M, hM⟩ := hb
  obtain ⟨rx, hrx⟩ := h.rankDom x hx
  have : ∀ k, ∀ y ∈ items, ∀ r, s.rank.get? y = some r → M - r ≤ k → ∃ t d, Root s y t d := by
    intro k
    induction k with
    | zero =>
      intro y hy r hr hk
      obtain ⟨p, hp⟩ := h.par_exists hy
      by_cases hpy : p = y
      · subst hpy; exact ⟨_, _, Root.root hp⟩
      · obtain ⟨rp, hrp⟩ := h.rankDom p (h.par _ _ hp)
        have h1 := h.lt _ _ _ _ hp hpy hr hrp
        have h2 := hM p (h.par _ _ hp) rp hrp
        omega
    | succ k ih =>
      intro y hy r hr hk
      obtain ⟨p, hp⟩ := h.par_exists hy
      by_cases hpy : p = y
      · subst hpy; exact ⟨_, _, Root.root hp⟩
      · obtain ⟨rp, hrp⟩ := h.rankDom p (h.par _ _ hp)
        have h1 := h.lt _ _ _ _ hp hpy hr hrp
        have h2 := hM p (h.par _ _ hp) rp hrp
        obtain ⟨t, d, ht⟩ := ih p (h.par _ _ hp) rp hrp (by omega)
        exact ⟨t, d + 1, Root.step hp hpy ht⟩
  exact this (M - rx) x hx rx hrx (le_refl _)

theorem Root.mem {items : List α} {s : DSet α} (h : Inv items s) {x r : α} {d : ℕ}
    (hr : Root s x r d) : x ∈ items ∧ r ∈ items := by
  induction hr with
  | root h1 => exact ⟨h.par _ _ h1, h.par _ _ h1⟩
  | step h1 _ _ ih => exact ⟨(h.dom _).mpr (Dict.mem_keys_of_get? h1), ih.2⟩

/-- Depth is bounded by the difference of ranks. -/
theorem Root.depth {items : List α} {s : DSet α} (h : Inv items s) {x r : α} {d : ℕ}
    (hr : Root s x r d) : ∀ rx rr, s.rank.get? x = some rx → s.rank.get? r = some rr →
      d + rx ≤ rr := by
  induction hr with
  | root h1 => intro rx rr h2 h3; rw [h2] at h3; cases h3; omega
  | @step x p r d h1 h2 h3 ih =>
    intro rx rr h4 h5
    obtain ⟨rp, hrp⟩ := h.rankDom p (Root.mem h h3).1
    have := h.lt _ _ _ _ h1 h2 h4 hrp
    have := ih rp rr hrp h5
    omega

/-- Every item is at most `log2 n` pointers away from its representative. -/
theorem Root.depth_le_log {items : List α} {s : DSet α} (hnd : items.Nodup) (h : Inv items s)
    {x r : α} {d : ℕ} (hr : Root s x r d) : d ≤ Nat.log 2 items.length := by
  obtain ⟨hx, hri⟩ := Root.mem h hr
  obtain ⟨rx, hrx⟩ := h.rankDom x hx
  obtain ⟨rr, hrr⟩ := h.rankDom r hri
  have h1 := Root.depth h hr rx rr hrx hrr
  obtain ⟨F, hF, hF2⟩ := h.size r rr hr.isRoot hrr
  have hsub : F ⊆ items.toFinset := by
    intro y hy
    exact List.mem_toFinset.mpr (hF2 y hy).1
  have h2 : F.card ≤ items.length := by
    have := Finset.card_le_card hsub
    rwa [List.toFinset_card_of_nodup hnd] at this
  have h3 : 2 ^ d ≤ items.length :=
    le_trans (Nat.pow_le_pow_right (by norm_num) (by omega)) (le_trans hF h2)
  exact Nat.le_log_of_pow_le (by norm_num) h3

/-- Two states with the same roots and ranks, and same domain. -/
structure Same (s s' : DSet α) : Prop where
  root : ∀ y r, (∃ d, Root s y r d) ↔ ∃ d, Root s' y r d
  rank : s'.rank = s.rank
  keys : s'.set.keys = s.set.keys

theorem Same.refl (s : DSet α) : Same s s := ⟨fun _ _ => Iff.rfl, rfl, rfl⟩

theorem Same.trans {s t u : DSet α} (h : Same s t) (h' : Same t u) : Same s u :=
  ⟨fun y r => (h.root y r).trans (h'.root y r), h'.rank.trans h.rank, h'.keys.trans h.keys⟩

/-- Path compression of one pointer. -/
theorem compress {items : List α} {s : DSet α} (h : Inv items s) {x r : α} {d : ℕ}
    (hr : Root s x r d) :
    Inv items { s with set := s.set.set x r } ∧ Same s { s with set := s.set.set x r } := by
  set s' : DSet α := { s with set := s.set.set x r } with hs'
  have hxk : x ∈ s.set.keys := (h.dom x).mp (Root.mem h hr).1
  have hkeys : s'.set.keys = s.set.keys := by
    show (s.set.set x r).keys = _
    rw [Dict.keys_set, if_pos hxk]
  have hget : ∀ y, s'.set.get? y = if x = y then some r else s.set.get? y := by
    intro y; exact Dict.get?_set _ _ _ _
  -- (→)
  have hto : ∀ y t, (∃ d, Root s' y t d) → ∃ d, Root s y t d := by
    rintro y t ⟨d, hd⟩
    induction hd with
    | @root y h1 =>
      rw [hget] at h1
      split at h1
      · rename_i hxy; subst hxy; cases h1; exact ⟨_, Root.root hr.isRoot⟩
      · exact ⟨_, Root.root h1⟩
    | @step y p t d h1 h2 h3 ih =>
      rw [hget] at h1
      obtain ⟨d', hd'⟩ := ih
      split at h1
      · rename_i hxy; subst hxy; cases h1
        have := (Root.unique hd' (Root.root hr.isRoot)).1
        subst this
        exact ⟨_, hr⟩
      · exact ⟨_, Root.step h1 h2 hd'⟩
  have hlt : ∀ x' p rx rp, s'.set.get? x' = some p → p ≠ x' → s'.rank.get? x' = some rx →
      s'.rank.get? p = some rp → rx < rp := by
    intro y p ry rp h1 h2 h3 h4
    rw [hget] at h1
    split at h1
    · rename_i hxy; subst hxy; cases h1
      have hd := Root.depth h hr ry rp h3 h4
      cases hr with
      | root => exact absurd rfl h2
      | step => omega
    · exact h.lt _ _ _ _ h1 h2 h3 h4
  -- an invariant without `size`, enough for existence of roots
  have hpar : ∀ y p, s'.set.get? y = some p → p ∈ items := by
    intro y p h1
    rw [hget] at h1
    split at h1
    · cases h1; exact (Root.mem h hr).2
    · exact h.par _ _ h1
  have hdom : ∀ y, y ∈ items ↔ y ∈ s'.set.keys := by intro y; rw [hkeys]; exact h.dom y
  have hlen : s'.set.length = items.length := by
    have h1 : s'.set.keys.length = s'.set.length := by simp [Dict.keys]
    have h2 : s.set.keys.length = s.set.length := by simp [Dict.keys]
    rw [← h1, hkeys, h2, h.len]
  have hfrom : ∀ y t, (∃ d, Root s y t d) → ∃ d, Root s' y t d := by
    rintro y t ⟨d, hd⟩
    induction hd with
    | @root y h1 =>
      by_cases hxy : x = y
      · subst hxy
        have := (Root.unique hr (Root.root h1)).1
        subst this
        exact ⟨_, Root.root (by rw [hget]; simp)⟩
      · exact ⟨_, Root.root (by rw [hget, if_neg hxy]; exact h1)⟩
    | @step y p t d h1 h2 h3 ih =>
      by_cases hxy : x = y
      · subst hxy
        have := (Root.unique hr (Root.step h1 h2 h3)).1
        subst this
        have hroot : r ≠ x := by
          rintro rfl
          have := (Root.unique (Root.root hr.isRoot) (Root.step h1 h2 h3)).2
          omega
        refine ⟨_, Root.step (p := r) (by rw [hget]; simp) hroot (Root.root ?_)⟩
        rw [hget, if_neg hroot.symm]; exact hr.isRoot
      · obtain ⟨d', hd'⟩ := ih
        exact ⟨_, Root.step (by rw [hget, if_neg hxy]; exact h1) h2 hd'⟩
  have hsame : Same s s' := ⟨fun y t => ⟨hfrom y t, hto y t⟩, rfl, hkeys⟩
  refine ⟨⟨hdom, hlen, h.rankDom, hpar, hlt, ?_⟩, hsame⟩
  intro t k h1 h2
  obtain ⟨d', hd'⟩ := hto t t ⟨_, Root.root h1⟩
  obtain ⟨F, hF, hF2⟩ := h.size t k hd'.isRoot h2
  exact ⟨F, hF, fun y hy => ⟨(hF2 y hy).1, hfrom y t (hF2 y hy).2⟩⟩

/-- `find` with enough fuel returns the root and preserves everything observable. -/
theorem find_spec {items : List α} {s : DSet α} (h : Inv items s) {x r : α} {d : ℕ}
    (hr : Root s x r d) (fuel : ℕ) (hf : d < fuel) :
    ∃ s', find fuel s x = .ok (r, s') ∧ Inv items s' ∧ Same s s' := by
  induction hr generalizing fuel with
  | @root x h1 =>
    obtain ⟨f, rfl⟩ : ∃ f, fuel = f + 1 := ⟨fuel - 1, by omega⟩
    exact ⟨s, by simp [find, h1], h, Same.refl s⟩
  | @step x p r d h1 h2 h3 ih =>
    obtain ⟨f, rfl⟩ : ∃ f, fuel = f + 1 := ⟨fuel - 1, by omega⟩
    obtain ⟨s', hs1, hs2, hs3⟩ := ih f (by omega)
    obtain ⟨d', hd'⟩ := (hs3.root x r).mp ⟨_, Root.step h1 h2 h3⟩
    obtain ⟨hi, hsame⟩ := compress hs2 hd'
    exact ⟨_, by simp [find, h1, h2, hs1], hi, hs3.trans hsame⟩

theorem find_nonmember {s : DSet α} {x : α} (hx : x ∉ s.set.keys) (f : ℕ) :
    find (f + 1) s x = .error .valueError := by
  simp [find, Dict.get?_eq_none_iff.mpr hx]

/-- Linking root `b` under root `a`. -/
theorem link {items : List α} {s : DSet α} (h : Inv items s) {a b : α} {ka kb : ℕ}
    (ha : s.set.get? a = some a) (hb : s.set.get? b = some b) (hab : a ≠ b)
    (hka : s.rank.get? a = some ka) (hkb : s.rank.get? b = some kb) (k' : ℕ)
    (hk : (kb < ka ∧ k' = ka) ∨ (kb = ka ∧ k' = ka + 1))
    (s' : DSet α) (hset : s'.set = s.set.set b a)
    (hrank : ∀ y, s'.rank.get? y = if a = y then some k' else s.rank.get? y) :
    Inv items s' ∧ s'.set.keys = s.set.keys ∧
    ∀ y t, (∃ d, Root s' y t d) ↔ ∃ r, (∃ d, Root s y r d) ∧ t = if r = b then a else r := by
  have hbk : b ∈ s.set.keys := Dict.mem_keys_of_get? hb
  have hkeys : s'.set.keys = s.set.keys := by rw [hset, Dict.keys_set, if_pos hbk]
  have hget : ∀ y, s'.set.get? y = if b = y then some a else s.set.get? y := by
    intro y; rw [hset]; exact Dict.get?_set _ _ _ _
  have haroot : s'.set.get? a = some a := by rw [hget, if_neg hab.symm]; exact ha
  have hfrom : ∀ y r d, Root s y r d → ∃ d', Root s' y (if r = b then a else r) d' := by
    intro y r d hd
    induction hd with
    | @root y h1 =>
      by_cases hyb : y = b
      · subst hyb
        rw [if_pos rfl]
        exact ⟨_, Root.step (p := a) (by rw [hget]; simp) hab (Root.root haroot)⟩
      · rw [if_neg hyb]
        exact ⟨_, Root.root (by rw [hget, if_neg (Ne.symm hyb)]; exact h1)⟩
    | @step y p r d h1 h2 h3 ih =>
      obtain ⟨d', hd'⟩ := ih
      have hyb : b ≠ y := by
        rintro rfl
        rw [hb] at h1; cases h1; exact h2 rfl
      exact ⟨_, Root.step (by rw [hget, if_neg hyb]; exact h1) h2 hd'⟩
  have hdom : ∀ y, y ∈ items ↔ y ∈ s'.set.keys := by intro y; rw [hkeys]; exact h.dom y
  have hlen : s'.set.length = items.length := by
    have h1 : s'.set.keys.length = s'.set.length := by simp [Dict.keys]
    have h2 : s.set.keys.length = s.set.length := by simp [Dict.keys]
    rw [← h1, hkeys, h2, h.len]
  have hto : ∀ y t, (∃ d, Root s' y t d) ↔
      ∃ r, (∃ d, Root s y r d) ∧ t = if r = b then a else r := by
    intro y t
    constructor
    · rintro ⟨d, hd⟩
      have hy : y ∈ items := by
        rw [hdom]
        cases hd with
        | root h1 => exact Dict.mem_keys_of_get? h1
        | step h1 => exact Dict.mem_keys_of_get? h1
      obtain ⟨r, e, hre⟩ := h.root_exists hy
      obtain ⟨d', hd'⟩ := hfrom y r e hre
      exact ⟨r, ⟨e, hre⟩, (Root.unique hd hd').1⟩
    · rintro ⟨r, ⟨d, hd⟩, rfl⟩
      exact hfrom y r d hd
  refine ⟨⟨hdom, hlen, ?_, ?_, ?_, ?_⟩, hkeys, hto⟩
  · intro y hy
    rw [hrank]
    split
    · exact ⟨_, rfl⟩
    · exact h.rankDom y hy
  · intro y p h1
    rw [hget] at h1
    split at h1
    · cases h1; exact h.par _ _ ha
    · exact h.par _ _ h1
  · intro y p ry rp h1 h2 h3 h4
    rw [hget] at h1
    rw [hrank] at h3 h4
    split at h1
    · rename_i hby; subst hby; cases h1
      rw [if_neg hab] at h3
      rw [if_pos rfl] at h4
      rw [hkb] at h3; cases h3; cases h4
      rcases hk with ⟨h5, rfl⟩ | ⟨h5, rfl⟩ <;> omega
    · have hay : a ≠ y := by
        rintro rfl
        rw [ha] at h1; cases h1; exact h2 rfl
      rw [if_neg hay] at h3
      split at h4
      · rename_i hap; subst hap; cases h4
        have := h.lt _ _ _ _ h1 h2 h3 hka
        rcases hk with ⟨h5, rfl⟩ | ⟨h5, rfl⟩ <;> omega
      · exact h.lt _ _ _ _ h1 h2 h3 h4
  · intro r k h1 h2
    have hrb : b ≠ r := by
      rintro rfl
      rw [hget, if_pos rfl] at h1; cases h1; exact hab rfl
    rw [hget, if_neg hrb] at h1
    rw [hrank] at h2
    split at h2
    · rename_i har; subst har; cases h2
      obtain ⟨Fa, hFa, hFa2⟩ := h.size a ka ha hka
      obtain ⟨Fb, hFb, hFb2⟩ := h.size b kb hb hkb
      have hdisj : _root_.Disjoint Fa Fb := by
        rw [Finset.disjoint_left]
        intro y hy1 hy2
        obtain ⟨_, d1, hd1⟩ := hFa2 y hy1
        obtain ⟨_, d2, hd2⟩ := hFb2 y hy2
        exact hab (Root.unique hd1 hd2).1
      refine ⟨Fa ∪ Fb, ?_, ?_⟩
      · rw [Finset.card_union_of_disjoint hdisj]
        rcases hk with ⟨h5, rfl⟩ | ⟨rfl, rfl⟩
        · omega
        · rw [pow_succ]; omega
      · intro y hy
        rcases Finset.mem_union.mp hy with hy | hy
        · obtain ⟨h6, d1, hd1⟩ := hFa2 y hy
          exact ⟨h6, (hto y a).mpr ⟨a, ⟨d1, hd1⟩, by simp [hab]⟩⟩
        · obtain ⟨h6, d1, hd1⟩ := hFb2 y hy
          exact ⟨h6, (hto y a).mpr ⟨b, ⟨d1, hd1⟩, by simp⟩⟩
    · obtain ⟨F, hF, hF2⟩ := h.size r k h1 h2
      refine ⟨F, hF, fun y hy => ⟨(hF2 y hy).1, ?_⟩⟩
      obtain ⟨_, d1, hd1⟩ := hF2 y hy
      exact (hto y r).mpr ⟨r, ⟨d1, hd1⟩, by simp [Ne.symm hrb]⟩

/-- What `union` does to the roots. -/
theorem union_spec {items : List α} (hnd : items.Nodup) {s : DSet α} (h : Inv items s) {x y : α}
    (hx : x ∈ items) (hy : y ∈ items) (fuel : ℕ) (hf : Nat.log 2 items.length < fuel) :
    ∃ s' rx ry, union fuel s x y = .ok s' ∧ Inv items s' ∧
      (∃ d, Root s x rx d) ∧ (∃ d, Root s y ry d) ∧
      ((rx = ry ∧ ∀ z t, (∃ d, Root s' z t d) ↔ ∃ d, Root s z t d) ∨
       (rx ≠ ry ∧ ∀ z t, (∃ d, Root s' z t d) ↔
          ∃ r, (∃ d, Root s z r d) ∧ t = if r = ry then rx else r) ∨
       (rx ≠ ry ∧ ∀ z t, (∃ d, Root s' z t d) ↔
          ∃ r, (∃ d, Root s z r d) ∧ t = if r = rx then ry else r)) := by
  obtain ⟨rx, dx, hrx⟩ := h.root_exists hx
  obtain ⟨s1, hs1, hi1, hsame1⟩ := find_spec h hrx fuel
    (lt_of_le_of_lt (Root.depth_le_log hnd h hrx) hf)
  obtain ⟨ry, dy, hry⟩ := hi1.root_exists hy
  obtain ⟨s2, hs2, hi2, hsame2⟩ := find_spec hi1 hry fuel
    (lt_of_le_of_lt (Root.depth_le_log hnd hi1 hry) hf)
  have hsame := hsame1.trans hsame2
  obtain ⟨ey, hey⟩ := (hsame1.root y ry).mpr ⟨_, hry⟩
  have hxk : s.set.has x = true := Dict.has_iff.mpr ((h.dom x).mp hx)
  have hyk : s.set.has y = true := Dict.has_iff.mpr ((h.dom y).mp hy)
  by_cases hne : rx = ry
  · refine ⟨s2, rx, ry, ?_, hi2, ⟨_, hrx⟩, ⟨_, hey⟩, Or.inl ⟨hne, fun z t => (hsame.root z t).symm⟩⟩
    unfold union
    simp only [hxk, hyk, Bool.and_self, if_true, hs1, hs2, hne]
  · obtain ⟨ex, hex⟩ := (hsame.root x rx).mp ⟨_, hrx⟩
    obtain ⟨fy, hfy⟩ := (hsame2.root y ry).mp ⟨_, hry⟩
    have hrx2 := hex.isRoot
    have hry2 := hfy.isRoot
    obtain ⟨k1, hk1⟩ := hi2.rankDom rx (Root.mem hi2 hex).2
    obtain ⟨k2, hk2⟩ := hi2.rankDom ry (Root.mem hi2 hfy).2
    have conv : ∀ (b a : α) (z t : α),
        (∃ r, (∃ d, Root s2 z r d) ∧ t = if r = b then a else r) ↔
        ∃ r, (∃ d, Root s z r d) ∧ t = if r = b then a else r := by
      intro b a z t
      constructor
      · rintro ⟨r, h1, h2⟩; exact ⟨r, (hsame.root z r).mpr h1, h2⟩
      · rintro ⟨r, h1, h2⟩; exact ⟨r, (hsame.root z r).mp h1, h2⟩
    rcases lt_trichotomy k1 k2 with hlt | heq | hgt
    · obtain ⟨hl1, _, hl3⟩ := link hi2 hry2 hrx2 (Ne.symm hne) hk2 hk1 k2 (Or.inl ⟨hlt, rfl⟩)
        { s2 with set := s2.set.set rx ry } rfl
        (by intro z; split <;> simp_all)
      refine ⟨{ s2 with set := s2.set.set rx ry }, rx, ry, ?_, hl1, ⟨_, hrx⟩, ⟨_, hey⟩,
        Or.inr (Or.inr ⟨hne, fun z t => (hl3 z t).trans (conv _ _ z t)⟩)⟩
      unfold union
      simp only [hxk, hyk, Bool.and_self, if_true, hs1, hs2, hne, if_false, hk1, hk2, hlt]
    · subst heq
      obtain ⟨hl1, _, hl3⟩ := link hi2 hrx2 hry2 hne hk1 hk2 (k1 + 1) (Or.inr ⟨rfl, rfl⟩)
        ⟨s2.set.set ry rx, s2.rank.set rx (k1 + 1)⟩ rfl
        (by intro z; exact Dict.get?_set _ _ _ _)
      refine ⟨⟨s2.set.set ry rx, s2.rank.set rx (k1 + 1)⟩, rx, ry, ?_, hl1, ⟨_, hrx⟩, ⟨_, hey⟩,
        Or.inr (Or.inl ⟨hne, fun z t => (hl3 z t).trans (conv _ _ z t)⟩)⟩
      unfold union
      simp only [hxk, hyk, Bool.and_self, if_true, hs1, hs2, hne, if_false, hk1, hk2, lt_irrefl,
        gt_iff_lt]
    · obtain ⟨hl1, _, hl3⟩ := link hi2 hrx2 hry2 hne hk1 hk2 k1 (Or.inl ⟨hgt, rfl⟩)
        { s2 with set := s2.set.set ry rx } rfl
        (by intro z; split <;> simp_all)
      refine ⟨{ s2 with set := s2.set.set ry rx }, rx, ry, ?_, hl1, ⟨_, hrx⟩, ⟨_, hey⟩,
        Or.inr (Or.inl ⟨hne, fun z t => (hl3 z t).trans (conv _ _ z t)⟩)⟩
      unfold union
      simp only [hxk, hyk, Bool.and_self, if_true, hs1, hs2, hne, if_false, hk1, hk2,
        gt_iff_lt, hgt, if_neg (not_lt.mpr hgt.le)]

theorem union_nonmember {s : DSet α} {x y : α} (h : x ∉ s.set.keys ∨ y ∉ s.set.keys) (fuel : ℕ) :
    union fuel s x y = .error .valueError := by
  unfold union
  have : (s.set.has x && s.set.has y) = false := by
    rcases h with h | h
    · rw [Dict.has_eq_false_iff.mpr h]; rfl
    · rw [Dict.has_eq_false_iff.mpr h, Bool.and_false]
  simp [this]

/-- Freshly constructed object. -/
theorem init_inv {items : List α} {s : DSet α} (h : init items = .ok s) :
    items.Nodup ∧ Inv items s ∧ ∀ x ∈ items, s.set.get? x = some x := by
  unfold init at h
  split at h
  · rename_i hnd
    cases h
    refine ⟨hnd, ?_⟩
    -- explicit form of the fold
    have key : ∀ (l : List α) (st rk : _), l.Nodup → (∀ x ∈ l, x ∉ Dict.keys st) →
        (∀ x ∈ l, x ∉ Dict.keys rk) →
        l.foldl (fun (s : DSet α) x => ⟨s.set.setDefault x x, s.rank.setDefault x 0⟩) ⟨st, rk⟩ =
        ⟨st ++ l.map (fun x => (x, x)), rk ++ l.map (fun x => (x, 0))⟩ := by
      intro l
      induction l with
      | nil => intro st rk _ _ _; simp
      | cons a l ih =>
        intro st rk hnd h1 h2
        have hs : ∀ {V : Type} (d : Dict α V) (v : V), a ∉ Dict.keys d →
            Dict.setDefault d a v = d ++ [(a, v)] := by
          intro V d v hd
          unfold Dict.setDefault
          rw [Dict.has_eq_false_iff.mpr hd]
          simp only [Bool.false_eq_true, if_false]
          induction d with
          | nil => rfl
          | cons q d ihd =>
            obtain ⟨q1, q2⟩ := q
            simp only [Dict.keys, List.map_cons, List.mem_cons, not_or] at hd
            simp only [Dict.set, if_neg (Ne.symm hd.1), List.cons_append]
            rw [ihd hd.2]
        rw [List.nodup_cons] at hnd
        rw [List.foldl_cons, hs st a (h1 a (by simp)), hs rk 0 (h2 a (by simp)), ih]
        · simp
        · exact hnd.2
        · intro x hx
          simp only [Dict.keys, List.map_append, List.map_cons, List.map_nil, List.mem_append,
            List.mem_singleton, not_or]
          refine ⟨h1 x (by simp [hx]), ?_⟩
          rintro rfl; exact hnd.1 hx
        · intro x hx
          simp only [Dict.keys, List.map_append, List.map_cons, List.map_nil, List.mem_append,
            List.mem_singleton, not_or]
          refine ⟨h2 x (by simp [hx]), ?_⟩
          rintro rfl; exact hnd.1 hx
    rw [key items [] [] hnd (by simp [Dict.keys]) (by simp [Dict.keys])]
    simp only [List.nil_append]
    have hg : ∀ {V : Type} (f : α → V) (l : List α) (x : α),
        Dict.get? (l.map fun y => (y, f y)) x = if x ∈ l then some (f x) else none := by
      intro V f l x
      induction l with
      | nil => simp [Dict.get?]
      | cons a l ih =>
        by_cases hax : a = x
        · subst hax; simp [Dict.get?]
        · simp [Dict.get?, hax, Ne.symm hax, ih]
    have hkeys : Dict.keys (items.map fun x => (x, x)) = items := by
      simp [Dict.keys, Function.comp_def]
    have hself : ∀ x ∈ items, Dict.get? (items.map fun y => (y, y)) x = some x := by
      intro x hx; rw [hg (fun y => y) items x, if_pos hx]
    refine ⟨⟨?_, by simp, ?_, ?_, ?_, ?_⟩, hself⟩
    · intro x; rw [hkeys]
    · intro x hx; exact ⟨0, by rw [hg (fun _ => 0) items x, if_pos hx]⟩
    · intro x p h1
      rw [hg (fun y => y) items x] at h1
      split at h1
      · cases h1; assumption
      · cases h1
    · intro x p rx rp h1 h2
      rw [hg (fun y => y) items x] at h1
      split at h1
      · cases h1; exact absurd rfl h2
      · cases h1
    · intro r k h1 h2
      have hr : r ∈ items := by
        rw [hg (fun y => y) items r] at h1
        split at h1
        · assumption
        · cases h1
      rw [hg (fun _ => 0) items r, if_pos hr] at h2
      cases h2
      exact ⟨{r}, by simp, by
        intro y hy; rw [Finset.mem_singleton] at hy; subst hy
        exact ⟨hr, 0, Root.root (hself _ hr)⟩⟩
  · cases h

theorem log_lt_fuel {items : List α} {s : DSet α} (h : Inv items s) :
    Nat.log 2 items.length < fuelFor s := by
  unfold fuelFor
  rw [h.len]
  have := Nat.log_le_self 2 items.length
  omega

/-- The invariant of every reachable state, with the connectivity refinement. -/
theorem run_inv {items : List α} {s0 : DSet α} (h0 : init items = .ok s0) (ops : List (Op α)) :
    Inv items (run s0 ops) ∧
    ∀ a b, Connected items ops a b ↔
      (a = b ∨ ∃ r, (∃ d, Root (run s0 ops) a r d) ∧ ∃ d, Root (run s0 ops) b r d) := by
  obtain ⟨hnd, hinv0, hself⟩ := init_inv h0
  induction ops using List.reverseRecOn with
  | nil =>
    refine ⟨hinv0, ?_⟩
    intro a b
    show Relation.EqvGen _ a b ↔ (a = b ∨ ∃ r, (∃ d, Root s0 a r d) ∧ ∃ d, Root s0 b r d)
    have hroot : ∀ x r d, Root s0 x r d → r = x := by
      intro x r d hd
      have hx := (Root.mem hinv0 hd).1
      exact (Root.unique hd (Root.root (hself x hx))).1
    constructor
    · intro h
      left
      induction h with
      | rel x y h => exact absurd h.1 (by simp)
      | refl => rfl
      | symm _ _ _ ih => exact ih.symm
      | trans _ _ _ _ _ ih1 ih2 => exact ih1.trans ih2
    · rintro (rfl | ⟨r, ⟨d, hd⟩, d', hd'⟩)
      · exact Relation.EqvGen.refl _
      · have h1 := hroot _ _ _ hd
        have h2 := hroot _ _ _ hd'
        rw [← h1, ← h2]
        exact Relation.EqvGen.refl _
  | append_singleton ops op ih =>
    obtain ⟨hi, hconn⟩ := ih
    have hrun : run s0 (ops ++ [op]) = step (run s0 ops) op := by simp [run]
    rw [hrun]
    generalize hs : run s0 ops = s at hi hconn
    have hmono : ∀ a b, Connected items ops a b → Connected items (ops ++ [op]) a b := by
      intro a b h
      refine Relation.EqvGen.mono (r := joined items ops) ?_ a b h
      rintro x y ⟨h1, h2⟩
      exact ⟨by simp [h1], h2⟩
    -- any step that keeps the roots and joins nothing new keeps the statement
    have keep : ∀ s', Inv items s' →
        (∀ z t, (∃ d, Root s' z t d) ↔ ∃ d, Root s z t d) →
        (∀ x y, joined items (ops ++ [op]) x y → Connected items ops x y) →
        Inv items s' ∧ ∀ a b, Connected items (ops ++ [op]) a b ↔
          (a = b ∨ ∃ r, (∃ d, Root s' a r d) ∧ ∃ d, Root s' b r d) := by
      intro s' hi' hroot hj
      refine ⟨hi', fun a b => ?_⟩
      have h1 : Connected items (ops ++ [op]) a b ↔ Connected items ops a b := by
        refine ⟨fun h => ?_, hmono a b⟩
        induction h with
        | rel x y h => exact hj x y h
        | refl => exact Relation.EqvGen.refl _
        | symm _ _ _ ih => exact Relation.EqvGen.symm _ _ ih
        | trans _ _ _ _ _ ih1 ih2 => exact Relation.EqvGen.trans _ _ _ ih1 ih2
      rw [h1, hconn]
      simp only [hroot]
    cases op with
    | find x =>
      have hj : ∀ a b, joined items (ops ++ [Op.find x]) a b → Connected items ops a b := by
        rintro a b ⟨h1, h2⟩
        refine Relation.EqvGen.rel _ _ ⟨?_, h2⟩
        simpa using h1
      by_cases hx : x ∈ items
      · obtain ⟨r, d, hr⟩ := hi.root_exists hx
        obtain ⟨s', h1, h2, h3⟩ := find_spec hi hr (fuelFor s)
          (lt_of_le_of_lt (Root.depth_le_log hnd hi hr) (log_lt_fuel hi))
        have : step s (Op.find x) = s' := by simp [step, h1]
        rw [this]
        exact keep s' h2 (fun z t => (h3.root z t).symm) hj
      · have hx' : x ∉ s.set.keys := fun h => hx ((hi.dom x).mpr h)
        have : step s (Op.find x) = s := by
          simp [step, fuelFor, find_nonmember hx']
        rw [this]
        exact keep s hi (fun _ _ => Iff.rfl) hj
    | union x y =>
      by_cases hxy : x ∈ items ∧ y ∈ items
      · obtain ⟨hx, hy⟩ := hxy
        obtain ⟨s', rx, ry, h1, h2, hrx, hry, h3⟩ :=
          union_spec hnd hi hx hy (fuelFor s) (log_lt_fuel hi)
        have hst : step s (Op.union x y) = s' := by simp [step, h1]
        rw [hst]
        rcases h3 with ⟨heq, h3⟩ | h3
        · refine keep s' h2 h3 ?_
          rintro a b ⟨h4, h5⟩
          simp only [List.mem_append, List.mem_singleton] at h4
          rcases h4 with h4 | h4
          · exact Relation.EqvGen.rel _ _ ⟨h4, h5⟩
          · cases h4
            rw [hconn]
            right
            exact ⟨rx, hrx, heq ▸ hry⟩
        · -- a genuine merge
          obtain ⟨u, v, huv, hne, h3⟩ : ∃ u v, ((u = rx ∧ v = ry) ∨ (u = ry ∧ v = rx)) ∧ u ≠ v ∧
              ∀ z t, (∃ d, Root s' z t d) ↔
                ∃ r, (∃ d, Root s z r d) ∧ t = if r = v then u else r := by
            rcases h3 with ⟨hne, h3⟩ | ⟨hne, h3⟩
            · exact ⟨rx, ry, Or.inl ⟨rfl, rfl⟩, hne, h3⟩
            · exact ⟨ry, rx, Or.inr ⟨rfl, rfl⟩, hne.symm, h3⟩
          have hxy' : Connected items (ops ++ [Op.union x y]) x y :=
            Relation.EqvGen.rel _ _ ⟨by simp, hx, hy⟩
          have hlift : ∀ a r, (∃ d, Root s a r d) → Connected items (ops ++ [Op.union x y]) a r := by
            rintro a r ⟨d, hd⟩
            refine hmono _ _ ((hconn a r).mpr (Or.inr ⟨r, ⟨d, hd⟩, ⟨0, Root.root hd.isRoot⟩⟩))
          have hxr := hlift x rx hrx
          have hyr := hlift y ry hry
          have hrxry : Connected items (ops ++ [Op.union x y]) rx ry :=
            Relation.EqvGen.trans _ _ _ (Relation.EqvGen.symm _ _ hxr)
              (Relation.EqvGen.trans _ _ _ hxy' hyr)
          have huv' : Connected items (ops ++ [Op.union x y]) u v := by
            rcases huv with ⟨rfl, rfl⟩ | ⟨rfl, rfl⟩
            · exact hrxry
            · exact Relation.EqvGen.symm _ _ hrxry
          have hnew : ∀ a t, (∃ d, Root s' a t d) → Connected items (ops ++ [Op.union x y]) a t := by
            intro a t ht
            obtain ⟨r, hr, hrt⟩ := (h3 a t).mp ht
            have h6 := hlift a r hr
            split at hrt
            · rename_i hrv; subst hrv; subst hrt
              exact Relation.EqvGen.trans _ _ _ h6 (Relation.EqvGen.symm _ _ huv')
            · subst hrt; exact h6
          refine ⟨h2, fun a b => ⟨fun h => ?_, ?_⟩⟩
          · -- the relation on the right is an equivalence containing the joined pairs
            have hmk : ∀ p q, (∃ r, (∃ d, Root s p r d) ∧ ∃ d, Root s q r d) →
                ∃ r, (∃ d, Root s' p r d) ∧ ∃ d, Root s' q r d := by
              rintro p q ⟨r, hp, hq⟩
              exact ⟨if r = v then u else r, (h3 p _).mpr ⟨r, hp, rfl⟩, (h3 q _).mpr ⟨r, hq, rfl⟩⟩
            induction h with
            | rel p q h =>
              obtain ⟨h4, h5⟩ := h
              simp only [List.mem_append, List.mem_singleton] at h4
              rcases h4 with h4 | h4
              · rcases (hconn p q).mp (Relation.EqvGen.rel _ _ ⟨h4, h5⟩) with h6 | h6
                · exact Or.inl h6
                · exact Or.inr (hmk p q h6)
              · cases h4
                right
                refine ⟨u, (h3 _ u).mpr ⟨rx, hrx, ?_⟩, (h3 _ u).mpr ⟨ry, hry, ?_⟩⟩
                · rcases huv with ⟨rfl, rfl⟩ | ⟨rfl, rfl⟩
                  · simp [hne]
                  · simp
                · rcases huv with ⟨rfl, rfl⟩ | ⟨rfl, rfl⟩
                  · simp
                  · simp [hne]
            | refl => exact Or.inl rfl
            | symm _ _ _ ih =>
              rcases ih with ih | ⟨r, h7, h8⟩
              · exact Or.inl ih.symm
              · exact Or.inr ⟨r, h8, h7⟩
            | trans _ _ _ _ _ ih1 ih2 =>
              rcases ih1 with ih1 | ⟨r, h7, d8, h8⟩
              · rw [ih1]; exact ih2
              · rcases ih2 with ih2 | ⟨r', ⟨d9, h9⟩, h10⟩
                · rw [← ih2]; exact Or.inr ⟨r, h7, d8, h8⟩
                · have := (Root.unique h8 h9).1
                  subst this
                  exact Or.inr ⟨r, h7, h10⟩
          · rintro (rfl | ⟨r, h7, h8⟩)
            · exact Relation.EqvGen.refl _
            · exact Relation.EqvGen.trans _ _ _ (hnew a r h7)
                (Relation.EqvGen.symm _ _ (hnew b r h8))
      · have hxy' : x ∉ s.set.keys ∨ y ∉ s.set.keys := by
          by_contra hc
          push Not at hc
          exact hxy ⟨(hi.dom x).mpr hc.1, (hi.dom y).mpr hc.2⟩
        have : step s (Op.union x y) = s := by simp [step, union_nonmember hxy']
        rw [this]
        refine keep s hi (fun _ _ => Iff.rfl) ?_
        rintro a b ⟨h4, h5⟩
        simp only [List.mem_append, List.mem_singleton] at h4
        rcases h4 with h4 | h4
        · exact Relation.EqvGen.rel _ _ ⟨h4, h5⟩
        · cases h4; exact absurd h5 hxy

end Disjoint
end Pytimize
